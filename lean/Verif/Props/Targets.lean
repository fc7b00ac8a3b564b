import Verif.Props.AffineMaps
import Verif.Props.Gp
import Verif.Props.Score

/-! C99: regression is linear in the targets. -/

set_option linter.unusedSectionVars false

namespace RM
open Outcome Scalar Spec Matrix

/-- The targets `a * s + b * t + c` for corresponding targets `s` and `t`. -/
def Spec.combine (a b c : ℝ) (s t : List ℝ) : List ℝ := List.zipWith (fun s t => a * s + b * t + c) s t

theorem combine_length (a b c : ℝ) {s t : List ℝ} {n : ℕ} (hs : s.length = n) (ht : t.length = n) : (combine a b c s t).length = n := by
  unfold combine
  rw [List.length_zipWith, hs, ht, min_self]

/-! ### Linear regression -/

theorem affine_sum {d : ℕ} {β z : List ℝ} (hb : β.length = d + 1) (hz : z.length = d) :
    affine β z = ∑ i : Fin (d + 1), (1 :: z).getD i 0 * toV (d + 1) β i := by
  rw [← dot_affine z β (by intro h; rw [h] at hb; simp at hb), dot_eq_range (n := d + 1) (by simp [hz]) hb, Finset.sum_range]
  rfl

/-- **C99 (linear regression).** Let linear regression train on the same inputs with the targets `s` and with the targets `t`. Then it
trains with the targets `a s + b t + c`, and all its predictions are `a` times the first, plus `b` times the second, plus `c`. -/
theorem C99_linear_regression {solve : Mat ℝ → List ℝ → Outcome (List ℝ)} (hs : SolvesExactly solve) (hr : SolvesRegular solve) (X : Mat ℝ)
    (hX : X.WF) (s t : List ℝ) (m₁ m₂ : LinReg ℝ) (h₁ : LinReg.train solve X s = ok m₁) (h₂ : LinReg.train solve X t = ok m₂) (a b c : ℝ) :
    ∃ m, LinReg.train solve X (combine a b c s t) = ok m ∧
      ∀ Z : Mat ℝ, Z.WF → Z.cols = X.cols → ∃ p q, m₁.predict Z = ok p ∧ m₂.predict Z = ok q ∧ m.predict Z = ok (combine a b c p q) := by
  obtain ⟨β₁, rfl, hy₁, hb₁, e₁, -⟩ := linTrain_normal hs hX h₁
  obtain ⟨β₂, rfl, hy₂, hb₂, e₂, -⟩ := linTrain_normal hs hX h₂
  have hI := (C48_succeeds_iff hs hr X hX s hy₁).1 ⟨_, h₁⟩
  obtain ⟨m, h⟩ := (C48_succeeds_iff hs hr X hX (combine a b c s t) (combine_length a b c hy₁ hy₂)).2 hI
  refine ⟨m, h, ?_⟩
  obtain ⟨β, rfl, -, hb, -, e⟩ := linTrain_normal hs hX h
  set A := toM X.rows.length (X.cols + 1) ⟨X.cols + 1, X.rows.map ((1 : ℝ) :: ·)⟩ with hA
  have h0 : A.mulVec (Pi.single 0 1) = fun _ => 1 := by
    funext i
    rw [Matrix.mulVec_single_one, hA]
    show ent _ _ _ = _
    unfold ent
    rw [getD_map_lt _ _ [] _ _ i.2]
    rfl
  have hβ : a • toV (X.cols + 1) β₁ + b • toV (X.cols + 1) β₂ + c • Pi.single 0 1 = toV (X.cols + 1) β := by
    apply e
    rw [Matrix.mulVec_add, Matrix.mulVec_add, Matrix.mulVec_smul, Matrix.mulVec_smul, Matrix.mulVec_smul, e₁, e₂, ← Matrix.mulVec_mulVec, h0,
      ← Matrix.mulVec_smul, ← Matrix.mulVec_smul, ← Matrix.mulVec_smul, ← Matrix.mulVec_add, ← Matrix.mulVec_add]
    congr 1
    unfold combine
    rw [toV_zipWith _ hy₁ hy₂]
    funext i
    simp
  intro Z hZ hc
  refine ⟨_, _, C48_predict β₁ Z (by rw [hb₁, hc]), C48_predict β₂ Z (by rw [hb₂, hc]), ?_⟩
  rw [C48_predict β Z (by rw [hb, hc])]
  unfold combine
  rw [List.zipWith_map, List.zipWith_self]
  congr 1
  apply List.map_congr_left
  intro z hz
  have hl : z.length = X.cols := by rw [hZ z hz, hc]
  rw [affine_sum hb hl, affine_sum hb₁ hl, affine_sum hb₂ hl, ← hβ, Finset.mul_sum, Finset.mul_sum, ← Finset.sum_add_distrib]
  have : c = ∑ i : Fin (X.cols + 1), (1 :: z).getD i 0 * (c • (Pi.single 0 1 : Fin (X.cols + 1) → ℝ)) i := by
    rw [Finset.sum_eq_single 0]
    · simp
    · intro i _ hi
      simp [hi]
    · simp
  conv_rhs => rw [this]
  rw [← Finset.sum_add_distrib]
  apply Finset.sum_congr rfl
  intro i _
  simp only [Pi.add_apply, Pi.smul_apply, smul_eq_mul]
  ring

theorem linReg_glm {β : List ℝ} {Z : Mat ℝ} {p : List ℝ} (h : LinReg.predict ⟨some β⟩ Z = ok p) : Glm.predict ⟨.normal, some β⟩ Z = ok p := by
  unfold LinReg.predict at h
  unfold Glm.predict
  simp only at h ⊢
  obtain ⟨u, u1, u2⟩ := bind_eq_ok.1 h
  rw [u1, ok_bind, u2, ok_bind]
  congr 1
  exact (List.map_congr_left fun _ _ => rfl).trans (List.map_id _)

/-- **C99 (generalised linear models).** The same for the normal family. -/
theorem C99_glm_normal {inverse : Mat ℝ → Outcome (Mat ℝ)} (hi : InvertsExactly inverse) (hr : InvertsRegular inverse) (X : Mat ℝ) (hX : X.WF)
    (hI : AffinelyIndependent X) (s t : List ℝ) (hs : s.length = X.rows.length) (ht : t.length = X.rows.length) (a b c : ℝ) :
    ∃ m₁ m₂ m, Glm.train inverse ⟨.normal, none⟩ X s = ok m₁ ∧ Glm.train inverse ⟨.normal, none⟩ X t = ok m₂ ∧
      Glm.train inverse ⟨.normal, none⟩ X (combine a b c s t) = ok m ∧
      ∀ Z : Mat ℝ, Z.WF → Z.cols = X.cols → ∃ p q, m₁.predict Z = ok p ∧ m₂.predict Z = ok q ∧ m.predict Z = ok (combine a b c p q) := by
  have key := fun y hy => C53_linear_regression hi hr (gaussSolve_exact 0 le_rfl) gaussSolve_regular X hX hI y hy
  obtain ⟨β₁, u₁, v₁⟩ := key s hs
  obtain ⟨β₂, u₂, v₂⟩ := key t ht
  obtain ⟨β, u, v⟩ := key (combine a b c s t) (combine_length a b c hs ht)
  refine ⟨_, _, _, u₁, u₂, u, ?_⟩
  obtain ⟨m, g1, g2⟩ := C99_linear_regression (gaussSolve_exact 0 le_rfl) gaussSolve_regular X hX s t _ _ v₁ v₂ a b c
  rw [v] at g1
  injection g1 with g1
  subst g1
  intro Z hZ hc
  obtain ⟨p, q, p1, p2, p3⟩ := g2 Z hZ hc
  exact ⟨p, q, linReg_glm p1, linReg_glm p2, linReg_glm p3⟩

/-! ### Gaussian processes -/

section
variable {lib : TriLib ℝ} (hl : TriLibOk lib) {k : List ℝ → List ℝ → ℝ}
include hl

/-- **C99 (Gaussian processes, superposition).** Let a Gaussian process train on the same inputs with the targets `s` and with the
targets `t`. Then it trains with the targets `a s + b t`; if `a + b = 1`, or if its mean function is zero, its predictions are `a` times
the first plus `b` times the second, and the posterior covariance is the same in all three cases. -/
theorem C99_gp {g g₁ g₂ : Gp ℝ} (hk : IsKernel g.ker k) (hm : MeanSized g.mean) {X : Mat ℝ} (hX : X.WF) {s t : List ℝ} (hs : s.length = X.rows.length)
    (ht : t.length = X.rows.length) (h₁ : g.train lib X s = ok g₁) (h₂ : g.train lib X t = ok g₂) (a b : ℝ)
    (hab : a + b = 1 ∨ ∀ Z, ∀ x ∈ g.mean Z, x = 0) :
    ∃ g', g.train lib X (combine a b 0 s t) = ok g' ∧ ∀ Z : Mat ℝ, Z.WF → Z.cols = X.cols → ∃ p q S,
      g₁.predict Z = ok p ∧ g₂.predict Z = ok q ∧ g'.predict Z = ok (combine a b 0 p q) ∧
      g₁.posterior lib Z = ok (p, S) ∧ g₂.posterior lib Z = ok (q, S) ∧ g'.posterior lib Z = ok (combine a b 0 p q, S) := by
  obtain ⟨g', h⟩ := (C59_train_iff hl hk hm hX (combine_length a b 0 hs ht)).1.2 ((C59_train_iff hl hk hm hX hs).1.1 ⟨_, h₁⟩)
  refine ⟨g', h, ?_⟩
  intro Z hZ hc
  obtain ⟨p, p1, p2, p3⟩ := C59_predict hl hk hm hX h₁ hZ hc
  obtain ⟨q, q1, q2, q3⟩ := C59_predict hl hk hm hX h₂ hZ hc
  obtain ⟨r, r1, r2, r3⟩ := C59_predict hl hk hm hX h hZ hc
  obtain ⟨p', S, a1, a2, a3, a4, -⟩ := C59_posterior hl hk hm hX h₁ hZ hc
  obtain ⟨q', S₂, b1, b2, b3, b4, -⟩ := C59_posterior hl hk hm hX h₂ hZ hc
  obtain ⟨r', S₃, c1, c2, c3, c4, -⟩ := C59_posterior hl hk hm hX h hZ hc
  rw [p1] at a1; injection a1 with a1; subst a1
  rw [q1] at b1; injection b1 with b1; subst b1
  rw [r1] at c1; injection c1 with c1; subst c1
  have e2 : S₂ = S := toM_inj b3 a3 (by rw [a4, b4])
  have e3 : S₃ = S := toM_inj c3 a3 (by rw [a4, c4])
  subst e2
  subst e3
  have hr : r = combine a b 0 p q := by
    apply toV_inj r2 (combine_length a b 0 p2 q2)
    have h0 : ∀ W : Mat ℝ, (∀ W, ∀ x ∈ g.mean W, x = 0) → toV W.rows.length (g.mean W) = 0 := by
      intro W h
      funext i
      show (g.mean W).getD i 0 = 0
      rw [getD_lt _ (by rw [hm W]; exact i.2)]
      exact h W _ (List.getElem_mem _)
    unfold combine at r3 ⊢
    rw [toV_zipWith _ p2 q2, r3, toV_zipWith _ hs ht]
    have f1 : (fun i => a * toV Z.rows.length p i + b * toV Z.rows.length q i + 0) = a • toV Z.rows.length p + b • toV Z.rows.length q := by
      funext i; simp
    have f2 : (fun i => a * toV X.rows.length s i + b * toV X.rows.length t i + 0) = a • toV X.rows.length s + b • toV X.rows.length t := by
      funext i; simp
    rw [f1, f2, p3, q3]
    rcases hab with hab | hab
    · have hb : b = 1 - a := by linarith
      have f3 : a • toV X.rows.length s + b • toV X.rows.length t - toV X.rows.length (g.mean X) =
          a • (toV X.rows.length s - toV X.rows.length (g.mean X)) + b • (toV X.rows.length t - toV X.rows.length (g.mean X)) := by
        funext i
        simp only [Pi.add_apply, Pi.sub_apply, Pi.smul_apply, smul_eq_mul, hb]
        ring
      rw [f3, Matrix.mulVec_add, Matrix.mulVec_add, Matrix.mulVec_smul, Matrix.mulVec_smul, Matrix.mulVec_smul, Matrix.mulVec_smul]
      funext i
      simp only [Pi.add_apply, Pi.smul_apply, smul_eq_mul, hb]
      ring
    · rw [h0 Z hab, h0 X hab, sub_zero, sub_zero, sub_zero, zero_add, zero_add, zero_add, Matrix.mulVec_add, Matrix.mulVec_add, Matrix.mulVec_smul,
        Matrix.mulVec_smul, Matrix.mulVec_smul, Matrix.mulVec_smul]
  rw [hr] at r1 c2
  exact ⟨p, q, S₃, p1, q1, r1, a2, b2, c2⟩

/-- **C99 (Gaussian processes, units).** The targets in other units: `a y + c` instead of `y`, with the mean function in the same units
and with the kernel and the noise, which are squares of targets, multiplied by `v > 0` (the change of units has `v = a²`). Training succeeds
when it did before, the predictions come in the new units, and the posterior covariance is multiplied by `v`. -/
theorem C99_gp_units {g g₁ g₀ : Gp ℝ} (hk : IsKernel g.ker k) (hm : MeanSized g.mean) {X : Mat ℝ} (hX : X.WF) {y : List ℝ}
    (hy : y.length = X.rows.length) (h : g.train lib X y = ok g₁) (a c v : ℝ) (hv : 0 < v) (hk' : IsKernel g₀.ker fun x z => v * k x z)
    (hm' : ∀ Z, g₀.mean Z = (g.mean Z).map fun x => a * x + c) (hn : g₀.noise = v * g.noise) :
    ∃ g', g₀.train lib X (y.map fun t => a * t + c) = ok g' ∧ ∀ Z : Mat ℝ, Z.WF → Z.cols = X.cols → ∃ p S S',
      g₁.posterior lib Z = ok (p, S) ∧ g'.posterior lib Z = ok (p.map fun t => a * t + c, S') ∧ g₁.predict Z = ok p ∧
      g'.predict Z = ok (p.map fun t => a * t + c) ∧ S' = S.map fun x => v * x := by
  have hms : MeanSized g₀.mean := fun Z => by rw [hm', List.length_map, hm]
  have hy' : (y.map fun t => a * t + c).length = X.rows.length := by rw [List.length_map, hy]
  have hgram : ∀ Z W : Mat ℝ, gram (fun x z => v * k x z) Z W = v • gram k Z W := fun Z W => by ext i j; rfl
  have hA : noisyGram (fun x z => v * k x z) g₀.noise X = v • noisyGram k g.noise X := by
    unfold noisyGram
    rw [hgram, hn, smul_add, smul_smul]
  have hpd := (C59_train_iff hl hk hm hX hy).1.1 ⟨_, h⟩
  obtain ⟨g', h'⟩ := (C59_train_iff hl hk' hms hX hy').1.2 (by
    rw [hA]
    refine ⟨by rw [Matrix.transpose_smul, hpd.1], ?_⟩
    intro u hu
    rw [Matrix.smul_mulVec, dotProduct_smul, smul_eq_mul]
    exact mul_pos hv (hpd.2 u hu))
  have hu := (Matrix.isUnit_iff_isUnit_det _).mp (C59_regular hl hk hm hX h)
  have hinv : (v • noisyGram k g.noise X)⁻¹ = v⁻¹ • (noisyGram k g.noise X)⁻¹ := by
    apply Matrix.inv_eq_right_inv
    rw [Matrix.smul_mul, Matrix.mul_smul, smul_smul, mul_inv_cancel₀ hv.ne', one_smul, Matrix.mul_nonsing_inv _ hu]
  refine ⟨g', h', ?_⟩
  intro Z hZ hc
  obtain ⟨p, p1, p2, p3⟩ := C59_predict hl hk hm hX h hZ hc
  obtain ⟨r, r1, r2, r3⟩ := C59_predict hl hk' hms hX h' hZ hc
  obtain ⟨p', S, a1, a2, a3, a4, -⟩ := C59_posterior hl hk hm hX h hZ hc
  obtain ⟨r', S', c1, c2, c3, c4, -⟩ := C59_posterior hl hk' hms hX h' hZ hc
  rw [p1] at a1; injection a1 with a1; subst a1
  rw [r1] at c1; injection c1 with c1; subst c1
  have hr : r = p.map fun t => a * t + c := by
    apply toV_inj r2 (by rw [List.length_map, p2])
    rw [r3, toV_map _ p2, hm', hm', toV_map _ (hm Z), toV_map _ (hm X), toV_map _ hy, hgram, hA, hinv, p3]
    have : ((fun i => a * toV X.rows.length y i + c) - fun i => a * toV X.rows.length (g.mean X) i + c) =
        a • (toV X.rows.length y - toV X.rows.length (g.mean X)) := by
      funext i
      simp only [Pi.sub_apply, Pi.smul_apply, smul_eq_mul]
      ring
    rw [this, Matrix.smul_mulVec, Matrix.smul_mulVec, Matrix.mulVec_smul, Matrix.mulVec_smul, Matrix.mulVec_smul, smul_smul, mul_inv_cancel₀ hv.ne',
      one_smul]
    funext i
    simp only [Pi.add_apply, Pi.smul_apply, smul_eq_mul]
    ring
  rw [hr] at c2 r1
  refine ⟨p, S, S', a2, c2, p1, r1, ?_⟩
  have hSm : HasShape (S.map fun x => v * x) Z.rows.length Z.rows.length := by
    refine ⟨by simp [Mat.map, a3.1], a3.2.1, ?_⟩
    intro r hr
    simp only [Mat.map, List.mem_map] at hr
    obtain ⟨r, hr, rfl⟩ := hr
    rw [List.length_map, a3.2.2 r hr]
  apply toM_inj c3 hSm
  have : toM Z.rows.length Z.rows.length (S.map fun x => v * x) = v • toM Z.rows.length Z.rows.length S := by
    ext i j
    show ent _ _ _ = v * ent _ _ _
    unfold ent Mat.map
    rw [getD_map_lt _ _ [] _ _ (by rw [a3.1]; exact i.2), getD_map_lt _ _ 0 _ _ (by rw [shape_row_length a3 i.2]; exact j.2)]
  rw [this, c4, a4, hgram, hgram, hgram, hA, hinv, smul_sub]
  simp only [Matrix.smul_mul, Matrix.mul_smul, smul_smul]
  rw [inv_mul_cancel₀ hv.ne', mul_one]

end

/-! ### The score -/

theorem zipWith_sum_scale {α β : Type} (f g : α → β → ℝ) (r : ℝ) (h : ∀ x y, f x y = r * g x y) : ∀ (u : List α) (v : List β),
    (List.zipWith f u v).sum = r * (List.zipWith g u v).sum
  | [], _ => by simp
  | _ :: _, [] => by simp
  | x :: u, y :: v => by simp only [List.zipWith_cons_cons, List.sum_cons, zipWith_sum_scale f g r h u v, h x y, mul_add]

/-- **C99 (score).** In other units the negative mean squared error is multiplied by the square of the factor. -/
theorem C99_score (o t : Mat ℝ) (x a c : ℝ) (h : negMeanSquaredError o t = ok x) :
    negMeanSquaredError (o.map fun v => a * v + c) (t.map fun v => a * v + c) = ok (a ^ 2 * x) := by
  have hs : o.nrows = t.nrows ∧ o.cols = t.cols := by
    by_contra hne
    rw [(C12_value o t).1.2 hne] at h
    cases h
  rw [(C12_value o t).2 hs.1 hs.2] at h
  injection h with h
  rw [(C12_value (o.map fun v => a * v + c) (t.map fun v => a * v + c)).2 (by simpa [Mat.map, Mat.nrows] using hs.1) hs.2, ← h]
  have hrow : ∀ u v : List ℝ, sqDist (u.map fun v => a * v + c) (v.map fun v => a * v + c) = a ^ 2 * sqDist u v := by
    intro u v
    unfold sqDist
    rw [List.zipWith_map]
    exact zipWith_sum_scale _ _ _ (fun p q => by ring) u v
  have hsum : (List.zipWith sqDist (o.map fun v => a * v + c).rows (t.map fun v => a * v + c).rows).sum = a ^ 2 * (List.zipWith sqDist o.rows t.rows).sum := by
    simp only [Mat.map]
    rw [List.zipWith_map]
    exact zipWith_sum_scale _ _ _ hrow _ _
  rw [hsum]
  have : ((o.map fun v => a * v + c).nrows : ℝ) = o.nrows := by simp [Mat.map, Mat.nrows]
  rw [this]
  congr 1
  ring

/-! ### Concrete cases -/

/-- Two targets on the three samples of C92, and a weighted sum of them with an offset. -/
example : ∃ m₁ m₂ m p q, LinReg.train (gaussSolve (0 : ℝ)) ⟨1, [[1], [3], [4]]⟩ [2, 2, 7] = ok m₁ ∧
    LinReg.train (gaussSolve (0 : ℝ)) ⟨1, [[1], [3], [4]]⟩ [0, -1, 5] = ok m₂ ∧
    LinReg.train (gaussSolve (0 : ℝ)) ⟨1, [[1], [3], [4]]⟩ (combine 3 (-2) 5 [2, 2, 7] [0, -1, 5]) = ok m ∧
    m₁.predict ⟨1, [[10], [11]]⟩ = ok p ∧ m₂.predict ⟨1, [[10], [11]]⟩ = ok q ∧ m.predict ⟨1, [[10], [11]]⟩ = ok (combine 3 (-2) 5 p q) := by
  have hX : (⟨1, [[1], [3], [4]]⟩ : Mat ℝ).WF := by intro r hr; simp at hr; rcases hr with rfl | rfl | rfl <;> rfl
  obtain ⟨m₁, h1⟩ := (C48_succeeds_iff (gaussSolve_exact 0 le_rfl) gaussSolve_regular ⟨1, [[1], [3], [4]]⟩ hX [2, 2, 7] rfl).2 units_independent
  obtain ⟨m₂, h2⟩ := (C48_succeeds_iff (gaussSolve_exact 0 le_rfl) gaussSolve_regular ⟨1, [[1], [3], [4]]⟩ hX [0, -1, 5] rfl).2 units_independent
  obtain ⟨m, h3, h4⟩ := C99_linear_regression (gaussSolve_exact 0 le_rfl) gaussSolve_regular _ hX _ _ m₁ m₂ h1 h2 3 (-2) 5
  obtain ⟨p, q, p1, p2, p3⟩ := h4 ⟨1, [[10], [11]]⟩ (by intro r hr; simp at hr; rcases hr with rfl | rfl <;> rfl) rfl
  exact ⟨m₁, m₂, m, p, q, h1, h2, h3, p1, p2, p3⟩

/-- The same data for a generalised linear model of the normal family. -/
example : ∃ m₁ m₂ m p q, Glm.train (gaussInverse (0 : ℝ)) ⟨.normal, none⟩ ⟨1, [[1], [3], [4]]⟩ [2, 2, 7] = ok m₁ ∧
    Glm.train (gaussInverse (0 : ℝ)) ⟨.normal, none⟩ ⟨1, [[1], [3], [4]]⟩ [0, -1, 5] = ok m₂ ∧
    Glm.train (gaussInverse (0 : ℝ)) ⟨.normal, none⟩ ⟨1, [[1], [3], [4]]⟩ (combine 3 (-2) 5 [2, 2, 7] [0, -1, 5]) = ok m ∧
    m₁.predict ⟨1, [[10], [11]]⟩ = ok p ∧ m₂.predict ⟨1, [[10], [11]]⟩ = ok q ∧ m.predict ⟨1, [[10], [11]]⟩ = ok (combine 3 (-2) 5 p q) := by
  have hX : (⟨1, [[1], [3], [4]]⟩ : Mat ℝ).WF := by intro r hr; simp at hr; rcases hr with rfl | rfl | rfl <;> rfl
  obtain ⟨m₁, m₂, m, h1, h2, h3, h4⟩ := C99_glm_normal (gaussInverse_exact 0 le_rfl) gaussInverse_regular _ hX units_independent [2, 2, 7] [0, -1, 5] rfl rfl 3 (-2) 5
  obtain ⟨p, q, p1, p2, p3⟩ := h4 ⟨1, [[10], [11]]⟩ (by intro r hr; simp at hr; rcases hr with rfl | rfl <;> rfl) rfl
  exact ⟨m₁, m₂, m, p, q, h1, h2, h3, p1, p2, p3⟩

/-- A Gaussian process with the mean 1 and the average of two sets of targets, and the same process with targets in units a tenth as large. -/
example : ∃ g₁ g₂ g₃ g₄ p q, (⟨sqExpKernel 1 2, constMean 1, 1 / 2, none, none, none⟩ : Gp ℝ).train exactLib ⟨1, [[0], [1]]⟩ [2, 3] = ok g₁ ∧
    (⟨sqExpKernel 1 2, constMean 1, 1 / 2, none, none, none⟩ : Gp ℝ).train exactLib ⟨1, [[0], [1]]⟩ [0, 7] = ok g₂ ∧
    (⟨sqExpKernel 1 2, constMean 1, 1 / 2, none, none, none⟩ : Gp ℝ).train exactLib ⟨1, [[0], [1]]⟩ (combine (1 / 2) (1 / 2) 0 [2, 3] [0, 7]) = ok g₃ ∧
    (⟨sqExpKernel 1 200, constMean 10, 50, none, none, none⟩ : Gp ℝ).train exactLib ⟨1, [[0], [1]]⟩ ([2, 3].map fun t => 10 * t + 0) = ok g₄ ∧
    g₁.predict ⟨1, [[5]]⟩ = ok p ∧ g₂.predict ⟨1, [[5]]⟩ = ok q ∧ g₃.predict ⟨1, [[5]]⟩ = ok (combine (1 / 2) (1 / 2) 0 p q) ∧
    g₄.predict ⟨1, [[5]]⟩ = ok (p.map fun t => 10 * t + 0) := by
  have hX : (⟨1, [[0], [1]]⟩ : Mat ℝ).WF := by intro r hr; simp at hr; rcases hr with rfl | rfl <;> rfl
  have hZ : (⟨1, [[5]]⟩ : Mat ℝ).WF := by intro r hr; simp at hr; subst hr; rfl
  have hk : IsKernel (sqExpKernel 1 2) (kernelValue (sqExpKernel 1 2)) := C59_kernels (.sqExp 1 2)
  have hm := (C59_mean 1).1
  have hp := fun y hy => C59_train_psd exactLib_ok (g := ⟨sqExpKernel 1 2, constMean 1, 1 / 2, none, none, none⟩) (y := y) hk hm hX
    (C61_gram (.sqExp (by norm_num) (by norm_num)) 1) (by norm_num) hy
  obtain ⟨g₁, h1⟩ := hp [2, 3] rfl
  obtain ⟨g₂, h2⟩ := hp [0, 7] rfl
  obtain ⟨g₃, h3, h3'⟩ := C99_gp exactLib_ok hk hm hX rfl rfl h1 h2 (1 / 2) (1 / 2) (.inl (by norm_num))
  obtain ⟨g₄, h4, h4'⟩ := C99_gp_units exactLib_ok (g₀ := ⟨sqExpKernel 1 200, constMean 10, 50, none, none, none⟩) hk hm hX rfl h1 10 0 100 (by norm_num)
    ⟨by
      intro u v huv
      have := hk.value u v huv
      unfold sqExpKernel at this ⊢
      simp only [huv, beq_self_eq_true, vecZip, if_true] at this ⊢
      simp only [assert, if_true, ok_bind] at this ⊢
      injection this with this
      rw [← this]
      congr 1
      simp
      ring, by
      intro u v huv
      rw [hk.symm u v huv]⟩ (by intro Z; simp [constMean]) (by norm_num)
  obtain ⟨p, q, S, p1, p2, p3, -⟩ := h3' _ hZ rfl
  obtain ⟨p', S, S', -, -, q1, q2, -⟩ := h4' _ hZ rfl
  rw [p1] at q1
  injection q1 with q1
  subst q1
  exact ⟨g₁, g₂, g₃, g₄, p, q, h1, h2, h3, h4, p1, p2, p3, q2⟩

end RM
