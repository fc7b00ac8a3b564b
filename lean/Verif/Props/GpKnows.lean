import Verif.Props.Stability

/-! C139: how sure a Gaussian process is near its training data and far from them. -/

namespace RM
open Outcome Scalar Spec Matrix

/-- The sum of the squared kernel values of a point with the training rows. -/
noncomputable def Spec.similarity (k : List ℝ → List ℝ → ℝ) (X : Mat ℝ) (z : List ℝ) : ℝ := (X.rows.map fun x => k z x ^ 2).sum

section vectors
variable {n : ℕ} {A : Matrix (Fin n) (Fin n) ℝ} {s : ℝ} (hs : 0 < s) (hq : ∀ w : Fin n → ℝ, s * (w ⬝ᵥ w) ≤ w ⬝ᵥ A.mulVec w) (hu : IsUnit A.det)

theorem dot_sq_le (v w : Fin n → ℝ) : (v ⬝ᵥ w) ^ 2 ≤ (v ⬝ᵥ v) * (w ⬝ᵥ w) := by
  have := Finset.sum_mul_sq_le_sq_mul_sq Finset.univ v w
  simp only [dotProduct]
  simpa only [sq] using this

theorem dot_self_nonneg (v : Fin n → ℝ) : 0 ≤ v ⬝ᵥ v := Finset.sum_nonneg fun _ _ => mul_self_nonneg _

include hs hq hu

theorem inverse_short (r : Fin n → ℝ) : s ^ 2 * (A⁻¹.mulVec r ⬝ᵥ A⁻¹.mulVec r) ≤ r ⬝ᵥ r := by
  set w := A⁻¹.mulVec r with hw
  have hA : A.mulVec w = r := by rw [hw, mulVec_mulVec, mul_nonsing_inv _ hu, one_mulVec]
  have h1 := hq w
  rw [hA] at h1
  have h2 := dot_sq_le w r
  have h3 := dot_self_nonneg w
  have h4 := dot_self_nonneg r
  rcases h3.eq_or_lt with h0 | h0
  · rw [← h0, mul_zero]; exact h4
  · have : (s * (w ⬝ᵥ w)) ^ 2 ≤ (w ⬝ᵥ w) * (r ⬝ᵥ r) := (pow_le_pow_left₀ (by positivity) h1 2).trans h2
    have h5 : (w ⬝ᵥ w) * (s ^ 2 * (w ⬝ᵥ w)) ≤ (w ⬝ᵥ w) * (r ⬝ᵥ r) := by linarith [this]
    exact le_of_mul_le_mul_left h5 h0

theorem inverse_form (v : Fin n → ℝ) : 0 ≤ v ⬝ᵥ A⁻¹.mulVec v ∧ v ⬝ᵥ A⁻¹.mulVec v ≤ (v ⬝ᵥ v) / s := by
  have h0 := inverse_short hs hq hu v
  set w := A⁻¹.mulVec v with hw
  have hA : A.mulVec w = v := by rw [hw, mulVec_mulVec, mul_nonsing_inv _ hu, one_mulVec]
  have h1 := hq w
  rw [hA, dotProduct_comm w v] at h1
  have h2 := dot_sq_le v w
  have h3 := dot_self_nonneg w
  have h4 := dot_self_nonneg v
  have hpos : 0 ≤ v ⬝ᵥ w := le_trans (by positivity) h1
  refine ⟨hpos, ?_⟩
  rw [le_div_iff₀ hs]
  apply abs_le_of_sq_le_sq' _ h4 |>.2
  have h5 : (v ⬝ᵥ v) * (s ^ 2 * (w ⬝ᵥ w)) ≤ (v ⬝ᵥ v) * (v ⬝ᵥ v) := mul_le_mul_of_nonneg_left h0 h4
  nlinarith [sq_nonneg s]

theorem inverse_pair (v r : Fin n → ℝ) : |v ⬝ᵥ A⁻¹.mulVec r| ≤ Real.sqrt (v ⬝ᵥ v) * Real.sqrt (r ⬝ᵥ r) / s := by
  have h0 := inverse_short hs hq hu r
  set w := A⁻¹.mulVec r with hw
  have h2 := dot_sq_le v w
  rw [le_div_iff₀ hs, ← Real.sqrt_mul (dot_self_nonneg v)]
  apply Real.le_sqrt_of_sq_le
  rw [mul_pow, sq_abs]
  have h4 := dot_self_nonneg v
  have h5 : (v ⬝ᵥ v) * (s ^ 2 * (w ⬝ᵥ w)) ≤ (v ⬝ᵥ v) * (r ⬝ᵥ r) := mul_le_mul_of_nonneg_left h0 h4
  nlinarith [sq_nonneg s]

theorem inverse_entry (hsym : Aᵀ = A) (v : Fin n → ℝ) (j : Fin n) : 0 < A j j ∧ v j ^ 2 / A j j ≤ v ⬝ᵥ A⁻¹.mulVec v := by
  set w := A⁻¹.mulVec v with hw
  have hA : A.mulVec w = v := by rw [hw, mulVec_mulVec, mul_nonsing_inv _ hu, one_mulVec]
  have hjj : 0 < A j j := by
    have := hq (Pi.single j 1)
    rw [mulVec_single_one, single_one_dotProduct, single_one_dotProduct] at this
    simp at this
    linarith
  refine ⟨hjj, ?_⟩
  have e1 : (Pi.single j (1 : ℝ)) ⬝ᵥ A.mulVec w = v j := by rw [hA, single_one_dotProduct]
  have e2 : w ⬝ᵥ A.mulVec (Pi.single j 1) = v j := by
    rw [dotProduct_mulVec, ← mulVec_transpose, hsym, hA, dotProduct_single_one]
  have e3 : (Pi.single j (1 : ℝ)) ⬝ᵥ A.mulVec (Pi.single j 1) = A j j := by
    rw [mulVec_single_one, single_one_dotProduct]; rfl
  have h0 := mul_nonneg hs.le (dot_self_nonneg (w - (v j / A j j) • Pi.single j (1 : ℝ)))
  have h := h0.trans (hq (w - (v j / A j j) • Pi.single j 1))
  rw [mulVec_sub, mulVec_smul, sub_dotProduct, dotProduct_sub, dotProduct_sub, smul_dotProduct, smul_dotProduct, dotProduct_smul, dotProduct_smul, e1, e2, e3, hA,
    dotProduct_comm w v] at h
  simp only [smul_eq_mul] at h
  have h5 : v j / A j j * (v j / A j j * A j j) = v j ^ 2 / A j j := by field_simp
  have h6 : v j / A j j * v j = v j ^ 2 / A j j := by ring
  rw [h5, h6] at h
  linarith

end vectors

section gp
variable {lib : TriLib ℝ} (hl : TriLibOk lib) {g : Gp ℝ} {k : List ℝ → List ℝ → ℝ} (hk : IsKernel g.ker k) (hm : MeanSized g.mean)
  {X : Mat ℝ} (hX : X.WF) (hp : PSDKernel g.ker X.cols) (hn : 0 < g.noise) {y : List ℝ} {g' : Gp ℝ}

theorem noisyGram_form (hk : IsKernel g.ker k) (hX : X.WF) (hp : PSDKernel g.ker X.cols) (w : Fin X.rows.length → ℝ) :
    g.noise * (w ⬝ᵥ w) ≤ w ⬝ᵥ (noisyGram k g.noise X).mulVec w := by
  obtain ⟨G, hG, hpsd⟩ := hp X.rows.length (fun i => X.rows.getD i []) fun i => getD_row_length hX i.2
  have hGe : ∀ i j, gram k X X i j = G i j := by
    intro i j
    have := hG i j
    rw [hk.value _ _ (by rw [getD_row_length hX i.2, getD_row_length hX j.2])] at this
    injection this
  have hq : 0 ≤ w ⬝ᵥ (gram k X X).mulVec w := by
    have := hpsd.2 w
    rw [bilin]
    exact this.trans_eq (Finset.sum_congr rfl fun i _ => Finset.sum_congr rfl fun j _ => by rw [hGe])
  unfold noisyGram
  rw [add_mulVec, smul_mulVec, one_mulVec, dotProduct_add, dotProduct_smul, smul_eq_mul]
  linarith

theorem similarity_dot (z : List ℝ) : similarity k X z =
    (fun j : Fin X.rows.length => k z (X.rows.getD j [])) ⬝ᵥ (fun j : Fin X.rows.length => k z (X.rows.getD j [])) := by
  unfold similarity
  rw [dotProduct, ← List.sum_ofFn]
  congr 1
  apply List.ext_getElem
  · simp
  · intro i h1 h2
    simp at h1
    simp [sq]

theorem posterior_entry (hk : IsKernel g.ker k) (hX : X.WF) {Z : Mat ℝ} (hZ : Z.WF) (hc : Z.cols = X.cols) {S : Mat ℝ}
    (h : toM Z.rows.length Z.rows.length S = gram k Z Z - gram k Z X * (noisyGram k g.noise X)⁻¹ * gram k X Z) {i : ℕ} (hi : i < Z.rows.length) :
    ent S i i = k (Z.rows.getD i []) (Z.rows.getD i []) -
      (fun j : Fin X.rows.length => k (Z.rows.getD i []) (X.rows.getD j [])) ⬝ᵥ
        (noisyGram k g.noise X)⁻¹.mulVec fun j : Fin X.rows.length => k (Z.rows.getD i []) (X.rows.getD j []) := by
  have e := congrFun (congrFun h ⟨i, hi⟩) ⟨i, hi⟩
  rw [Matrix.sub_apply, Matrix.mul_assoc, Matrix.mul_apply'] at e
  refine Eq.trans ?_ (e.trans ?_)
  · simp [toM]
  · have e2 : (fun j => ((noisyGram k g.noise X)⁻¹ * gram k X Z) j ⟨i, hi⟩) =
        (noisyGram k g.noise X)⁻¹.mulVec fun j : Fin X.rows.length => k (Z.rows.getD i []) (X.rows.getD j []) := by
      funext j
      rw [Matrix.mul_apply', mulVec]
      congr 1
      funext l
      change k (X.rows.getD l []) (Z.rows.getD i []) = _
      exact hk.symm _ _ (by rw [getD_row_length hX l.2, getD_row_length hZ hi, hc])
    rw [e2]
    rfl

include hl hk hm hX hp hn

/-- **C139 (far from the data).** With a positive semi-definite kernel and positive noise the prediction differs from the prior mean by at most the root of the
sum of the squared kernel values with the training rows times the distance of the targets from the prior mean, divided by the noise; the posterior variance
falls short of the prior variance by at most that sum divided by the noise, and it never exceeds the prior variance nor is it negative. -/
theorem C139_far (h : g.train lib X y = ok g') {Z : Mat ℝ} (hZ : Z.WF) (hc : Z.cols = X.cols) :
    ∃ p S, g'.posterior lib Z = ok (p, S) ∧ ∀ i < Z.rows.length,
      |p.getD i 0 - (g.mean Z).getD i 0| ≤ Real.sqrt (similarity k X (Z.rows.getD i [])) * eucl y (g.mean X) / g.noise ∧
      k (Z.rows.getD i []) (Z.rows.getD i []) - similarity k X (Z.rows.getD i []) / g.noise ≤ ent S i i ∧
      0 ≤ ent S i i ∧ ent S i i ≤ k (Z.rows.getD i []) (Z.rows.getD i []) := by
  obtain ⟨p, S, h1, h2, -, h4, -⟩ := C59_posterior hl hk hm hX h hZ hc
  obtain ⟨p', p1, p2, p3⟩ := C59_predict hl hk hm hX h hZ hc
  rw [h1] at p1
  cases p1
  obtain ⟨_, S', h2', h5⟩ := C59_posterior_psd hl hk hm hX hp hn.le h hZ hc
  rw [h2] at h2'
  cases h2'
  obtain ⟨_, _, _, _, _, _, _, hy, _⟩ := gp_alpha hl hk hm hX h
  have hu := (Matrix.isUnit_iff_isUnit_det _).mp (C59_regular hl hk hm hX h)
  have hq := noisyGram_form hk hX hp
  refine ⟨p, S, h2, fun i hi => ?_⟩
  rw [posterior_entry hk hX hZ hc h4 hi, similarity_dot]
  obtain ⟨f1, f2⟩ := inverse_form hn hq hu fun j : Fin X.rows.length => k (Z.rows.getD i []) (X.rows.getD j [])
  refine ⟨?_, by linarith, ?_, by linarith⟩
  · have e := congrFun p3 ⟨i, hi⟩
    have e1 : p.getD i 0 - (g.mean Z).getD i 0 = (fun j : Fin X.rows.length => k (Z.rows.getD i []) (X.rows.getD j [])) ⬝ᵥ
        (noisyGram k g.noise X)⁻¹.mulVec (toV _ y - toV _ (g.mean X)) := by
      rw [Pi.add_apply] at e
      exact sub_eq_of_eq_add' e
    rw [e1]
    have e2 : eucl y (g.mean X) = Real.sqrt ((toV X.rows.length y - toV _ (g.mean X)) ⬝ᵥ (toV X.rows.length y - toV _ (g.mean X))) := by
      rw [sqDist_eucl, sqDist_fin hy (hm X)]
      simp [dotProduct, sq]
    rw [e2]
    exact inverse_pair hn hq hu _ _
  · rw [← posterior_entry hk hX hZ hc h4 hi]
    have := h5.2 (Pi.single ⟨i, hi⟩ 1)
    rw [mulVec_single_one, single_one_dotProduct] at this
    simpa [toM] using this

/-- **C139 (near the data).** The posterior variance is at most what is left of the prior variance after an observation at any single training row; at a
training row it is at most the noise. -/
theorem C139_near (h : g.train lib X y = ok g') {Z : Mat ℝ} (hZ : Z.WF) (hc : Z.cols = X.cols) :
    ∃ p S, g'.posterior lib Z = ok (p, S) ∧ ∀ i < Z.rows.length, ∀ x ∈ X.rows,
      ent S i i ≤ k (Z.rows.getD i []) (Z.rows.getD i []) - k (Z.rows.getD i []) x ^ 2 / (k x x + g.noise) ∧
      (Z.rows.getD i [] = x → ent S i i ≤ g.noise) := by
  obtain ⟨p, S, h1, h2, -, h4, -⟩ := C59_posterior hl hk hm hX h hZ hc
  have hu := (Matrix.isUnit_iff_isUnit_det _).mp (C59_regular hl hk hm hX h)
  have hq := noisyGram_form hk hX hp
  refine ⟨p, S, h2, fun i hi x hx => ?_⟩
  obtain ⟨j, hj, rfl⟩ := List.getElem_of_mem hx
  have hd : X.rows.getD j [] = X.rows[j] := List.getD_eq_getElem _ _ hj
  obtain ⟨f1, f2⟩ := inverse_entry hn hq hu (noisyGram_symm hk hX _) (fun j : Fin X.rows.length => k (Z.rows.getD i []) (X.rows.getD j [])) ⟨j, hj⟩
  have e : noisyGram k g.noise X ⟨j, hj⟩ ⟨j, hj⟩ = k X.rows[j] X.rows[j] + g.noise := by
    simp [noisyGram, gram]
  rw [e] at f1 f2
  simp only [hd] at f2
  have key : ent S i i ≤ k (Z.rows.getD i []) (Z.rows.getD i []) - k (Z.rows.getD i []) X.rows[j] ^ 2 / (k X.rows[j] X.rows[j] + g.noise) := by
    rw [posterior_entry hk hX hZ hc h4 hi]
    linarith
  refine ⟨key, fun he => ?_⟩
  rw [he] at key
  refine key.trans ?_
  rw [sub_le_iff_le_add, ← sub_le_iff_le_add', le_div_iff₀ f1]
  nlinarith [sq_nonneg g.noise]

/-- **C139 (the fit).** The predictions for the training rows are not farther from the targets than the prior mean is. -/
theorem C139_fit (h : g.train lib X y = ok g') : ∃ p, g'.predict X = ok p ∧ eucl y p ≤ eucl y (g.mean X) := by
  obtain ⟨⟨p, h1, h2⟩, -⟩ := C59_interpolates hl hk hm hX h
  obtain ⟨p', p1, p2, -⟩ := C59_predict hl hk hm hX h hX rfl
  rw [h1] at p1
  cases p1
  obtain ⟨_, _, _, _, _, _, _, hy, _⟩ := gp_alpha hl hk hm hX h
  have hu := (Matrix.isUnit_iff_isUnit_det _).mp (C59_regular hl hk hm hX h)
  have hq := noisyGram_form hk hX hp
  refine ⟨p, h1, ?_⟩
  rw [sqDist_eucl, sqDist_eucl]
  apply Real.sqrt_le_sqrt
  rw [sqDist_fin hy p2, sqDist_fin hy (hm X)]
  have key := inverse_short hn hq hu (toV X.rows.length y - toV _ (g.mean X))
  have e1 : ∀ i, toV X.rows.length y i - toV _ p i = g.noise * (noisyGram k g.noise X)⁻¹.mulVec (toV _ y - toV _ (g.mean X)) i := fun i => congrFun h2 i
  simp only [e1]
  simp only [dotProduct, Pi.sub_apply, Finset.mul_sum] at key
  refine le_trans (le_of_eq ?_) (key.trans (le_of_eq ?_))
  · exact Finset.sum_congr rfl fun i _ => by ring
  · exact Finset.sum_congr rfl fun i _ => by ring

end gp

theorem sqExp_small {ls ampl c : ℝ} (hls : ls ≠ 0) (ha : 0 ≤ ampl) (hc : 0 < c) {u x : List ℝ} (hu : u.length = x.length)
    (hd : Real.sqrt (2 * ls ^ 2 * ampl / c) ≤ eucl u x) : 0 ≤ kernelValue (sqExpKernel ls ampl) u x ∧ kernelValue (sqExpKernel ls ampl) u x ≤ c := by
  have hv : kernelValue (sqExpKernel ls ampl) u x = ampl * Real.exp (-(sqDist u x / (2 * ls ^ 2))) := by
    unfold kernelValue
    rw [(C60_values u x hu 0 0 0 ls ampl).2.2.2.1]
    simp only
    congr 2
    field_simp
  rw [hv]
  refine ⟨by positivity, ?_⟩
  rw [sqDist_eucl] at hd
  have h1 : 2 * ls ^ 2 * ampl / c ≤ sqDist u x := (Real.sqrt_le_sqrt_iff (sqDist_nonneg u x)).1 hd
  have hl2 : 0 < ls ^ 2 := by positivity
  have h2 : ampl / c ≤ sqDist u x / (2 * ls ^ 2) := by
    rw [le_div_iff₀ (by positivity)]
    calc ampl / c * (2 * ls ^ 2) = 2 * ls ^ 2 * ampl / c := by ring
      _ ≤ _ := h1
  have h3 : ampl / c + 1 ≤ Real.exp (sqDist u x / (2 * ls ^ 2)) := by
    have := Real.add_one_le_exp (sqDist u x / (2 * ls ^ 2))
    linarith
  rw [Real.exp_neg, ← div_eq_mul_inv, div_le_iff₀ (Real.exp_pos _)]
  calc ampl = c * (ampl / c) := by field_simp
    _ ≤ c * Real.exp (sqDist u x / (2 * ls ^ 2)) := mul_le_mul_of_nonneg_left (by linarith) hc.le

/-- **C139 (the squared exponential kernel).** For every tolerance there is a distance from the training rows beyond which the prediction is the prior mean and
the variance the prior variance, up to the tolerance. -/
theorem C139_forgets {lib : TriLib ℝ} (hl : TriLibOk lib) {ls ampl a noise : ℝ} (hls : ls ≠ 0) (ha : 0 ≤ ampl) (hn : 0 < noise) {X : Mat ℝ} (hX : X.WF)
    {y : List ℝ} {g' : Gp ℝ} (h : Gp.train lib ⟨sqExpKernel ls ampl, constMean a, noise, none, none, none⟩ X y = ok g') {ε : ℝ} (hε : 0 < ε) :
    ∃ R : ℝ, ∀ Z : Mat ℝ, Z.WF → Z.cols = X.cols → ∃ p S, g'.posterior lib Z = ok (p, S) ∧ ∀ i < Z.rows.length, (∀ x ∈ X.rows, R ≤ eucl (Z.rows.getD i []) x) →
      |p.getD i 0 - a| ≤ ε ∧ ampl - ε ≤ ent S i i ∧ ent S i i ≤ ampl := by
  have hk : IsKernel (⟨sqExpKernel ls ampl, constMean a, noise, none, none, none⟩ : Gp ℝ).ker (kernelValue (sqExpKernel ls ampl)) := C59_kernels (Built.sqExp ls ampl)
  set n : ℝ := (X.rows.length : ℝ) with hnn
  set D := eucl y (constMean a X) with hD
  have hn0 : 0 ≤ n := Nat.cast_nonneg _
  have hD0 : 0 ≤ D := Real.sqrt_nonneg _
  have hden : 0 < Real.sqrt n * D + n + 1 := by positivity
  obtain ⟨c, hc0, hc1, hc2⟩ : ∃ c : ℝ, 0 < c ∧ c ≤ 1 ∧ (Real.sqrt n * D + n + 1) * c ≤ ε * noise := by
    refine ⟨min 1 (ε * noise / (Real.sqrt n * D + n + 1)), lt_min one_pos (by positivity), min_le_left _ _, ?_⟩
    rw [mul_comm, ← le_div_iff₀ hden]
    exact min_le_right _ _
  refine ⟨Real.sqrt (2 * ls ^ 2 * ampl / c), fun Z hZ hcZ => ?_⟩
  obtain ⟨p, S, h1, h2⟩ := C139_far hl hk (C59_mean a).1 hX (C61_gram (PSDBuilt.sqExp hls ha) _) hn h hZ hcZ
  refine ⟨p, S, h1, fun i hi hfar => ?_⟩
  obtain ⟨f1, f2, -, f4⟩ := h2 i hi
  have hzl : (Z.rows.getD i []).length = X.cols := by rw [getD_row_length hZ hi, hcZ]
  have hself : kernelValue (sqExpKernel ls ampl) (Z.rows.getD i []) (Z.rows.getD i []) = ampl := by
    unfold kernelValue
    rw [(C60_values (Z.rows.getD i []) (Z.rows.getD i []) rfl 0 0 0 ls ampl).2.2.2.1]
    simp only
    have : sqDist (Z.rows.getD i []) (Z.rows.getD i []) = 0 := by
      unfold sqDist
      rw [List.zipWith_self]
      simp
    rw [this]
    simp
  have hmean : (constMean a Z).getD i 0 = a := by
    have hlen : i < (constMean a Z).length := by rw [(C59_mean a).1 Z]; exact hi
    rw [List.getD_eq_getElem _ _ hlen]
    exact (C59_mean a).2 Z _ (List.getElem_mem hlen)
  have hsim : similarity (kernelValue (sqExpKernel ls ampl)) X (Z.rows.getD i []) ≤ n * c ^ 2 := by
    unfold similarity
    have := List.sum_le_card_nsmul (X.rows.map fun x => kernelValue (sqExpKernel ls ampl) (Z.rows.getD i []) x ^ 2) (c ^ 2) (by
      intro t ht
      obtain ⟨x, hx, rfl⟩ := List.mem_map.1 ht
      obtain ⟨s1, s2⟩ := sqExp_small hls ha hc0 (u := Z.rows.getD i []) (x := x) (by rw [hzl, hX x hx]) (hfar x hx)
      exact pow_le_pow_left₀ s1 s2 2)
    simpa using this
  have hroot : Real.sqrt (similarity (kernelValue (sqExpKernel ls ampl)) X (Z.rows.getD i [])) ≤ Real.sqrt n * c := by
    refine (Real.sqrt_le_sqrt hsim).trans (le_of_eq ?_)
    rw [Real.sqrt_mul hn0, Real.sqrt_sq hc0.le]
  change |p.getD i 0 - (constMean a Z).getD i 0| ≤ Real.sqrt (similarity (kernelValue (sqExpKernel ls ampl)) X (Z.rows.getD i [])) * D / noise at f1
  change kernelValue (sqExpKernel ls ampl) (Z.rows.getD i []) (Z.rows.getD i []) - similarity (kernelValue (sqExpKernel ls ampl)) X (Z.rows.getD i []) / noise ≤ ent S i i at f2
  rw [hmean] at f1
  rw [hself] at f2 f4
  have hsq := Real.sqrt_nonneg n
  refine ⟨f1.trans ?_, ?_, f4⟩
  · rw [div_le_iff₀ hn]
    calc Real.sqrt (similarity (kernelValue (sqExpKernel ls ampl)) X (Z.rows.getD i [])) * D ≤ Real.sqrt n * c * D := mul_le_mul_of_nonneg_right hroot hD0
      _ ≤ (Real.sqrt n * D + n + 1) * c := by nlinarith
      _ ≤ _ := hc2
  · have : similarity (kernelValue (sqExpKernel ls ampl)) X (Z.rows.getD i []) / noise ≤ ε := by
      rw [div_le_iff₀ hn]
      calc similarity (kernelValue (sqExpKernel ls ampl)) X (Z.rows.getD i []) ≤ n * c ^ 2 := hsim
        _ ≤ n * c := by nlinarith [mul_nonneg hn0 hc0.le]
        _ ≤ (Real.sqrt n * D + n + 1) * c := by nlinarith [mul_nonneg hsq hD0]
        _ ≤ _ := hc2
    linarith

/-- Non-vacuity: a process trained on observations at 0, 0 and 2 with the squared exponential kernel and noise 1/10, whatever the targets: at 0 the variance is at most the
noise, and far away it is 1 up to 1/100. -/
example (a b c : ℝ) : ∃ g', Gp.train exactLib ⟨sqExpKernel 1 1, constMean 0, 1 / 10, none, none, none⟩ ⟨1, [[0], [0], [2]]⟩ [a, b, c] = ok g' ∧
    (∃ p S, g'.posterior exactLib ⟨1, [[0]]⟩ = ok (p, S) ∧ ent S 0 0 ≤ 1 / 10) ∧
    ∃ t : ℝ, ∃ p S, g'.posterior exactLib ⟨1, [[t]]⟩ = ok (p, S) ∧ |p.getD 0 0 - 0| ≤ 1 / 100 ∧ 1 - 1 / 100 ≤ ent S 0 0 := by
  have hX : (⟨1, [[0], [0], [2]]⟩ : Mat ℝ).WF := by intro r hr; simp at hr; rcases hr with rfl | rfl <;> rfl
  have hk := C59_kernels (Built.sqExp (1 : ℝ) 1)
  have hp := C61_gram (PSDBuilt.sqExp (one_ne_zero (α := ℝ)) zero_le_one) 1
  obtain ⟨g', h⟩ := C59_train_psd (y := [a, b, c]) (g := ⟨sqExpKernel 1 1, constMean 0, 1 / 10, none, none, none⟩) exactLib_ok hk (C59_mean 0).1 hX hp (by norm_num) rfl
  refine ⟨g', h, ?_, ?_⟩
  · obtain ⟨p, S, h1, h2⟩ := C139_near exactLib_ok hk (C59_mean 0).1 hX hp (by norm_num) h (Z := ⟨1, [[0]]⟩) (by intro r hr; simp at hr; subst hr; rfl) rfl
    exact ⟨p, S, h1, (h2 0 (by simp) [0] (by simp)).2 rfl⟩
  · obtain ⟨R, hR⟩ := C139_forgets exactLib_ok one_ne_zero zero_le_one (by norm_num) hX h (ε := 1 / 100) (by norm_num)
    obtain ⟨p, S, h1, h2⟩ := hR ⟨1, [[|R| + 2]]⟩ (by intro r hr; simp at hr; subst hr; rfl) rfl
    refine ⟨|R| + 2, p, S, h1, ?_⟩
    obtain ⟨f1, f2, -⟩ := h2 0 (by simp) (by
      intro x hx
      have h0 := abs_nonneg R
      have h3 := le_abs_self R
      simp at hx
      rcases hx with rfl | rfl
      · change R ≤ eucl [|R| + 2] [0]
        rw [eucl_one, sub_zero, abs_of_nonneg (by linarith)]
        linarith
      · change R ≤ eucl [|R| + 2] [2]
        rw [eucl_one, add_sub_cancel_right, abs_abs]
        exact h3)
    exact ⟨f1, f2⟩

end RM
