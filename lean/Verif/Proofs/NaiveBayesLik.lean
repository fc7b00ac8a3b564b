import Mathlib.Analysis.SpecialFunctions.Pow.Real
import Verif.Proofs.NaiveBayes
import Verif.Proofs.RealMat

/-! Naive Bayes: joint log likelihoods. -/

namespace RM
open Outcome Scalar Spec

theorem mapM_getAt_replicate {α : Type} {l : List α} {i : ℕ} {v : α} (h : l[i]? = some v) (n : ℕ) :
    (List.replicate n i).mapM (getAt l) = ok (List.replicate n v) := by
  induction n with
  | zero => rfl
  | succ n ih => rw [List.replicate_succ, List.mapM_cons, ih]; simp [getAt, h]; rfl

theorem selectRows_replicate {F : Type} (M : Mat F) {i : ℕ} {v : List F} (h : M.rows[i]? = some v) (n : ℕ) :
    M.selectRows (List.replicate n i) = ok ⟨M.cols, List.replicate n v⟩ := by
  unfold Mat.selectRows
  rw [mapM_getAt_replicate h n]
  rfl

theorem zipWith_replicate_right' {α β γ : Type} (f : α → β → γ) (l : List α) (b : β) :
    List.zipWith f l (List.replicate l.length b) = l.map fun a => f a b := by
  induction l with
  | nil => rfl
  | cons a l ih => simp [List.replicate_succ, ih]

theorem Mat.zip_replicate {F : Type} [Scalar F] (f : F → F → F) (X : Mat F) (v : List F) :
    Mat.zip f X ⟨X.cols, List.replicate X.rows.length v⟩ = ok ⟨X.cols, X.rows.map fun r => List.zipWith f r v⟩ := by
  unfold Mat.zip
  rw [if_pos (by simp)]
  simp only
  rw [zipWith_replicate_right']

/-! ### Gaussian -/

/-- The joint log likelihood of one class at `x`. -/
noncomputable def gaussLik (th sg : List ℝ) (p : ℝ) (x : List ℝ) : ℝ :=
  -(List.zipWith (fun d s => d / s) ((List.zipWith (fun a b => a - b) x th).map fun d => d * d) sg).sum * (1 / 2) +
    (-1 / 2) * (sg.map fun s => Real.log (s * 2 * Real.pi)).sum + Real.log p

theorem gaussClassLik_real {k : ℕ} (d : GaussD ℝ) (X : Mat ℝ) (h1 : IsTable k X.cols d.theta) (h2 : IsTable k X.cols d.sigma) {i : ℕ} (hi : i < k)
    (p : ℝ) : gaussClassLik d X i p = ok (X.rows.map fun x => gaussLik (rowOf d.theta i) (rowOf d.sigma i) p x) := by
  have e1 : d.theta.rows[i]? = some (rowOf d.theta i) := rowOf_getElem? (by rw [h1.2.1]; exact hi)
  have e2 : d.sigma.rows[i]? = some (rowOf d.sigma i) := rowOf_getElem? (by rw [h2.2.1]; exact hi)
  unfold gaussClassLik
  have e3 := selectRows_replicate d.sigma e2 1
  simp only [List.replicate_one] at e3
  rw [e3]
  simp only [ok_bind]
  rw [selectRows_replicate d.theta e1, selectRows_replicate d.sigma e2]
  simp only [ok_bind]
  rw [h1.1, h2.1, Mat.zip_replicate]
  simp only [ok_bind]
  have e4 := Mat.zip_replicate Scalar.div (Mat.map (fun x : ℝ => x *. x) ⟨X.cols, X.rows.map fun r => List.zipWith Scalar.sub r (rowOf d.theta i)⟩)
    (rowOf d.sigma i)
  have e5 : (Mat.map (fun x : ℝ => x *. x) ⟨X.cols, X.rows.map fun r => List.zipWith Scalar.sub r (rowOf d.theta i)⟩).rows.length = X.rows.length := by
    simp [Mat.map]
  rw [e5] at e4
  have e6 : (Mat.map (fun x : ℝ => x *. x) ⟨X.cols, X.rows.map fun r => List.zipWith Scalar.sub r (rowOf d.theta i)⟩).cols = X.cols := rfl
  rw [e6] at e4
  rw [e4]
  simp only [ok_bind, Mat.map, Mat.sumCols, List.map_map, Mat.sum, Mat.data]
  congr 1
  apply List.map_congr_left
  intro x _
  simp [Function.comp, gaussLik, Function.comp_def, ScalarPi.pi, instPiReal]
  rfl

/-- The shape and the entries of the Gaussian joint log likelihood. -/
theorem gaussJoint_real {k : ℕ} (d : GaussD ℝ) (X : Mat ℝ) (h1 : IsTable k X.cols d.theta) (h2 : IsTable k X.cols d.sigma)
    (prior : List ℝ) (hp : prior.length = k) :
    (gaussDistr : NBDistr (GaussD ℝ) ℝ).jointLogLik d X prior =
      ok ⟨k, X.rows.map fun x => (List.range k).map fun c => gaussLik (rowOf d.theta c) (rowOf d.sigma c) (prior.getD c 0) x⟩ := by
  have hz : prior.zipIdx = (List.range k).map fun c => (prior.getD c 0, c) := by
    apply List.ext_getElem (by simp [hp])
    intro i a b
    simp at a
    simp [a]
  show (do
    let liks ← prior.zipIdx.mapM fun (p : ℝ × ℕ) => gaussClassLik d X p.2 p.1
    let m ← Mat.new prior.length X.rows.length liks.flatten
    ok m.transpose) = _
  rw [mapM_ok_map _ (fun p => X.rows.map fun x => gaussLik (rowOf d.theta p.2) (rowOf d.sigma p.2) p.1 x) prior.zipIdx]
  · rw [hz, List.map_map]
    simp only [ok_bind, Function.comp_def]
    have hlen : ∀ r ∈ (List.range k).map (fun c => X.rows.map fun x => gaussLik (rowOf d.theta c) (rowOf d.sigma c) (prior.getD c 0) x), r.length = X.rows.length := by
      intro r hr
      obtain ⟨c, _, rfl⟩ := List.mem_map.1 hr
      simp
    have hnew := Mat.new_flatten (k := k) (by simp) hlen
    rw [hp, hnew]
    simp only [ok_bind]
    rw [transposeRows_eq ⟨X.rows.length, _⟩ hlen]
    simp only [List.length_map, List.length_range, List.map_map, Function.comp_def]
    congr 2
    conv_rhs => rw [rows_eq_range X, List.map_map]
    apply List.map_congr_left
    intro j hj
    simp only [Function.comp]
    apply List.map_congr_left
    intro c _
    have hj' : j < X.rows.length := by simpa using hj
    simp [hj', rowOf]
  · intro p hpm
    have : p.2 < k := by
      rw [hz] at hpm
      obtain ⟨c, hc, rfl⟩ := List.mem_map.1 hpm
      simpa using hc
    exact gaussClassLik_real d X h1 h2 this p.1

theorem exp_gauss_factor {v : ℝ} (hv : 0 < v) (m x : ℝ) :
    Real.exp (-((x - m) * (x - m) / v) * (1 / 2) + (-1 / 2) * Real.log (v * 2 * Real.pi)) = normalPdf m v x := by
  unfold normalPdf
  have hp : 0 < 2 * Real.pi * v := by have := Real.pi_pos; positivity
  rw [Real.exp_add, mul_comm]
  congr 1
  · rw [show v * 2 * Real.pi = 2 * Real.pi * v by ring, Real.sqrt_eq_rpow, ← Real.rpow_neg hp.le, Real.rpow_def_of_pos hp]
    congr 1; ring
  · congr 1; field_simp

theorem exp_gaussLik {f : ℕ} {th sg x : List ℝ} {p : ℝ} (h1 : th.length = f) (h2 : sg.length = f) (h3 : x.length = f) (hs : ∀ s ∈ sg, 0 < s)
    (hp : 0 < p) : Real.exp (gaussLik th sg p x) = p * ∏ j ∈ Finset.range f, normalPdf (coord th j) (coord sg j) (coord x j) := by
  unfold gaussLik
  rw [Real.exp_add, Real.exp_log hp, mul_comm]
  congr 1
  rw [zipWith_eq_range _ h3 h1, List.map_map, zipWith_eq_range (n := f) _ (by simp) h2, lsum_range]
  have e : (sg.map fun s => Real.log (s * 2 * Real.pi)).sum = ∑ j ∈ Finset.range f, Real.log (sg.getD j 0 * 2 * Real.pi) := by
    conv_lhs => rw [list_eq_range h2, List.map_map]
    exact lsum_range f _
  rw [e, ← Finset.sum_neg_distrib, Finset.sum_mul, Finset.mul_sum, ← Finset.sum_add_distrib, Real.exp_sum]
  apply Finset.prod_congr rfl
  intro j hj
  have hj' : j < f := Finset.mem_range.1 hj
  rw [getD_map_range _ _ _ hj', Function.comp]
  exact exp_gauss_factor (hs _ (by rw [getD_lt _ (by omega)]; exact List.getElem_mem _)) _ _

/-! ### Bernoulli and multinomial -/

theorem addClassRow_real (k n : ℕ) (R : List (List ℝ)) (hn : R.length = n) (per : List ℝ) (hk : per.length = k) :
    addClassRow ⟨k, R⟩ n per = ok ⟨k, R.map fun r => List.zipWith (fun a b => a + b) r per⟩ := by
  unfold addClassRow
  have h1 : Mat.new 1 per.length per = ok ⟨k, [per]⟩ := by
    have := Mat.new_flatten (rows := [per]) (c := k) (k := 1) rfl (by simpa using hk)
    simp at this
    rw [hk]; exact this
  rw [h1]
  simp only [ok_bind]
  rw [selectRows_replicate (v := per) _ (by simp)]
  simp only [ok_bind]
  rw [← hn]
  exact Mat.zip_replicate Scalar.add ⟨k, R⟩ per

/-- The Bernoulli joint log likelihood of one class at `x`. -/
noncomputable def bernLik (f : ℕ) (lp : List ℝ) (p : ℝ) (x : List ℝ) : ℝ :=
  (∑ j ∈ Finset.range f, coord x j * (coord lp j - Real.log (1 - Real.exp (coord lp j)))) +
    (Real.log p + ∑ j ∈ Finset.range f, Real.log (1 - Real.exp (coord lp j)))

/-- The multinomial joint log likelihood of one class at `x`. -/
noncomputable def multLik (f : ℕ) (lp : List ℝ) (p : ℝ) (x : List ℝ) : ℝ :=
  (∑ j ∈ Finset.range f, coord x j * coord lp j) + Real.log p

theorem map_table {k f : ℕ} {M : Mat ℝ} (h : IsTable k f M) (g : ℝ → ℝ) : IsTable k f (M.map g) := by
  refine ⟨h.1, by simp [Mat.map, h.2.1], ?_⟩
  intro r hr
  obtain ⟨r', hr', rfl⟩ := List.mem_map.1 hr
  simpa [Mat.map] using h.2.2 r' hr'

theorem zip_table {k f : ℕ} {M N : Mat ℝ} (h : IsTable k f M) (h' : IsTable k f N) (g : ℝ → ℝ → ℝ) :
    ∃ Z, Mat.zip g M N = ok Z ∧ IsTable k f Z ∧ ∀ i < k, rowOf Z i = List.zipWith g (rowOf M i) (rowOf N i) := by
  refine ⟨⟨M.cols, List.zipWith (List.zipWith g) M.rows N.rows⟩, by unfold Mat.zip; rw [if_pos ⟨by rw [h.2.1, h'.2.1], by rw [h.1, h'.1]⟩], ⟨h.1, by simp [h.2.1, h'.2.1], ?_⟩, ?_⟩
  · intro r hr
    obtain ⟨i, hi, rfl⟩ := List.mem_iff_getElem.1 hr
    have hi' : i < M.rows.length := by simp at hi; omega
    have hi'' : i < N.rows.length := by simp at hi; omega
    simp [h.2.2 _ (List.getElem_mem hi'), h'.2.2 _ (List.getElem_mem hi''), h.1, h'.1]
  · intro i hi
    have hi' : i < M.rows.length := by rw [h.2.1]; exact hi
    have hi'' : i < N.rows.length := by rw [h'.2.1]; exact hi
    simp [rowOf, hi', hi'']

theorem rowOf_map {M : Mat ℝ} {g : ℝ → ℝ} {i : ℕ} (h : i < M.rows.length) : rowOf (M.map g) i = (rowOf M i).map g := by
  simp [rowOf, Mat.map, h]

theorem mul_transpose {k f : ℕ} {X M : Mat ℝ} (hX : X.WF) (h : IsTable k f M) (hf : X.cols = f) :
    Mat.mul X M.transpose = ok ⟨k, X.rows.map fun x => (List.range k).map fun c => ∑ j ∈ Finset.range f, coord x j * coord (rowOf M c) j⟩ := by
  have ht := transpose_table h
  unfold Mat.mul
  rw [if_pos (by rw [ht.2.1]; exact hf), ht.1]
  congr 2
  apply List.map_congr_left
  intro x hx
  apply List.map_congr_left
  intro c hc
  have hc' : c < k := by simpa using hc
  rw [colOf_transpose h hc', dot_eq_range (n := f) (by rw [hX x hx, hf]) (h.row_length hc')]
  rfl

theorem multJoint_real {k : ℕ} (d : LogProbsD ℝ) (X : Mat ℝ) (hX : X.WF) (h : IsTable k X.cols d.logProbs) (prior : List ℝ) (hp : prior.length = k) :
    (multDistr : NBDistr (LogProbsD ℝ) ℝ).jointLogLik d X prior =
      ok ⟨k, X.rows.map fun x => (List.range k).map fun c => multLik X.cols (rowOf d.logProbs c) (coord prior c) x⟩ := by
  show (do
    let res ← Mat.mul X d.logProbs.transpose
    addClassRow res X.rows.length (prior.map Scalar.ln)) = _
  rw [mul_transpose hX h rfl]
  simp only [ok_bind]
  rw [addClassRow_real k _ _ (by simp) _ (by simpa using hp), List.map_map]
  congr 2
  apply List.map_congr_left
  intro x _
  simp only [Function.comp]
  rw [zipWith_eq_range (n := k) _ (by simp) (by simpa using hp)]
  apply List.map_congr_left
  intro c hc
  have hc' : c < k := by simpa using hc
  rw [getD_map_range _ _ _ hc']
  have : c < prior.length := by omega
  simp [multLik, coord, this]

theorem bernJoint_real {k : ℕ} (d : LogProbsD ℝ) (X : Mat ℝ) (hX : X.WF) (h : IsTable k X.cols d.logProbs) (prior : List ℝ) (hp : prior.length = k) :
    (bernDistr : NBDistr (LogProbsD ℝ) ℝ).jointLogLik d X prior =
      ok ⟨k, X.rows.map fun x => (List.range k).map fun c => bernLik X.cols (rowOf d.logProbs c) (coord prior c) x⟩ := by
  have hz : prior.zipIdx = (List.range k).map fun c => (prior.getD c 0, c) := by
    apply List.ext_getElem (by simp [hp])
    intro i a b
    simp at a
    simp [a]
  set g : ℝ → ℝ := fun x => Scalar.ln (Scalar.one -. Scalar.exp x) with hg
  have hng := map_table h g
  obtain ⟨Z, hZ, hZt, hZr⟩ := zip_table h hng Scalar.sub
  show (do
    let diff ← Mat.zip Scalar.sub d.logProbs (d.logProbs.map g)
    let res ← Mat.mul X diff.transpose
    let per ← prior.zipIdx.mapM fun (p : ℝ × ℕ) => do
      let s ← getAt (d.logProbs.map g).sumCols p.2
      ok (Scalar.ln p.1 +. s)
    addClassRow res X.rows.length per) = _
  rw [hZ]
  simp only [ok_bind]
  rw [mul_transpose hX hZt rfl]
  simp only [ok_bind]
  rw [mapM_ok_map _ (fun p => Real.log p.1 + ((rowOf d.logProbs p.2).map g).sum) prior.zipIdx]
  · simp only [ok_bind]
    rw [addClassRow_real k _ _ (by simp) _ (by simpa using hp), List.map_map]
    congr 2
    apply List.map_congr_left
    intro x _
    simp only [Function.comp]
    rw [zipWith_eq_range (n := k) _ (by simp) (by simpa using hp)]
    apply List.map_congr_left
    intro c hc
    have hc' : c < k := by simpa using hc
    have hcp : c < prior.length := by omega
    have hcr : c < d.logProbs.rows.length := by rw [h.2.1]; exact hc'
    rw [getD_map_range _ _ _ hc', hz, List.map_map, getD_map_range _ _ _ hc']
    simp only [Function.comp]
    unfold bernLik
    congr 1
    · apply Finset.sum_congr rfl
      intro j hj
      have hj' : j < X.cols := Finset.mem_range.1 hj
      congr 1
      rw [hZr c hc', rowOf_map hcr, zipWith_eq_range (n := X.cols) _ (h.row_length hc') (by simpa using h.row_length hc')]
      unfold coord
      rw [getD_map_range _ _ _ hj']
      have := h.row_length hc'
      have hjr : j < (rowOf d.logProbs c).length := by omega
      simp [hg, hjr]
    · congr 1
      conv_lhs => rw [list_eq_range (h.row_length hc'), List.map_map]
      exact lsum_range _ _
  · intro p hpm
    have hlt : p.2 < k := by
      rw [hz] at hpm
      obtain ⟨c, hc, rfl⟩ := List.mem_map.1 hpm
      simpa using hc
    have hlt' : p.2 < d.logProbs.rows.length := by rw [h.2.1]; exact hlt
    have : (d.logProbs.map g).sumCols[p.2]? = some ((rowOf d.logProbs p.2).map g).sum := by
      unfold Mat.sumCols
      rw [List.getElem?_map, rowOf_getElem? (by simpa [Mat.map] using hlt'), rowOf_map hlt', Option.map_some, fsum_real]
    simp [getAt, this]

theorem exp_multLik {f : ℕ} {lp x : List ℝ} {q : ℕ → ℝ} {p : ℝ} (hp : 0 < p) (hq : ∀ j < f, 0 < q j) (hl : ∀ j < f, coord lp j = Real.log (q j)) :
    Real.exp (multLik f lp p x) = p * ∏ j ∈ Finset.range f, q j ^ coord x j := by
  unfold multLik
  rw [Real.exp_add, Real.exp_log hp, mul_comm, Real.exp_sum]
  congr 1
  apply Finset.prod_congr rfl
  intro j hj
  have hj' := Finset.mem_range.1 hj
  rw [hl j hj', Real.rpow_def_of_pos (hq j hj'), mul_comm]

theorem exp_bernLik {f : ℕ} {lp x : List ℝ} {q : ℕ → ℝ} {p : ℝ} (hp : 0 < p) (hq : ∀ j < f, 0 < q j) (hq1 : ∀ j < f, q j < 1)
    (hl : ∀ j < f, coord lp j = Real.log (q j)) :
    Real.exp (bernLik f lp p x) = p * ∏ j ∈ Finset.range f, q j ^ coord x j * (1 - q j) ^ (1 - coord x j) := by
  unfold bernLik
  rw [show ∀ a b c : ℝ, a + (b + c) = b + (a + c) by intros; ring, Real.exp_add, Real.exp_log hp, ← Finset.sum_add_distrib, Real.exp_sum]
  congr 1
  apply Finset.prod_congr rfl
  intro j hj
  have hj' := Finset.mem_range.1 hj
  have h1 : 0 < 1 - q j := by linarith [hq1 j hj']
  rw [hl j hj', Real.exp_log (hq j hj'), Real.rpow_def_of_pos (hq j hj'), Real.rpow_def_of_pos h1, ← Real.exp_add]
  congr 1; ring

end RM
