import Verif.Proofs.Regression
import Verif.Props.Cost
import Verif.Props.Activ
import Verif.Props.Optim

/-!
C48: linear regression solves least squares. C49: the gradients of linear and logistic regression are exact.
C50: logistic predictions are probabilities. Exact arithmetic.
-/

set_option linter.unusedSectionVars false

namespace RM
open Outcome Scalar Spec Matrix

/-- The sum of squares through the Mathlib matrix of the inputs with ones. -/
theorem rss_eq {X : Mat ℝ} (hX : X.WF) {y β : List ℝ} (hy : y.length = X.rows.length) (hb : β.length = X.cols + 1) :
    rss X y β = ∑ i : Fin X.rows.length, (toV _ y i - (toM X.rows.length (X.cols + 1) ⟨X.cols + 1, X.rows.map ((1 : ℝ) :: ·)⟩).mulVec (toV _ β) i) ^ 2 := by
  unfold rss
  rw [zipWith_sum_fin rfl hy]
  apply Finset.sum_congr rfl
  intro i _
  rw [mulVec_row (withOnes_shape hX) hb, ← dot_inner, getD_map_lt _ _ [] _ _ i.2, dot_affine _ _ (by intro h; rw [h] at hb; simp at hb)]
  rfl

/-- What a successful training has solved. -/
theorem linTrain_normal {solve : Mat ℝ → List ℝ → Outcome (List ℝ)} (hs : SolvesExactly solve) {X : Mat ℝ} (hX : X.WF) {y : List ℝ} {m : LinReg ℝ}
    (h : LinReg.train solve X y = ok m) :
    ∃ β, m = ⟨some β⟩ ∧ y.length = X.rows.length ∧ β.length = X.cols + 1 ∧
      (let A := toM X.rows.length (X.cols + 1) ⟨X.cols + 1, X.rows.map ((1 : ℝ) :: ·)⟩
       (Aᵀ * A).mulVec (toV _ β) = Aᵀ.mulVec (toV _ y) ∧ ∀ v, (Aᵀ * A).mulVec v = Aᵀ.mulVec (toV _ y) → v = toV _ β) := by
  have hS := withOnes_shape hX
  obtain ⟨t1, t2⟩ := transpose_toM hS
  obtain ⟨C, c1, c2, c3⟩ := mul_toM t1 hS
  unfold LinReg.train at h
  rw [withOnes_ok, ok_bind] at h
  dsimp only at h
  rw [c1, ok_bind] at h
  obtain ⟨b, hb, h⟩ := bind_eq_ok.mp h
  obtain ⟨p, hp, h⟩ := bind_eq_ok.mp h
  injection h with h
  have hy : y.length = X.rows.length := by
    unfold Mat.mulVec at hb
    split at hb
    · rename_i hc
      rw [← hc, t1.2.1]
    · cases hb
  obtain ⟨b', b1, b2, b3⟩ := mulVec_toV t1 hy
  rw [hb] at b1
  injection b1 with b1
  subst b1
  have hp' : solve C b = ok p := by
    cases hsol : solve C b <;> rw [hsol] at hp <;> simp [fromLinalg] at hp ⊢
    exact hp
  obtain ⟨s1, s2, s3⟩ := hs C b p _ c2 b2 hp'
  refine ⟨p, h.symm, hy, s1, ?_⟩
  dsimp only
  rw [← t2, ← c3, ← b3]
  refine ⟨(mulVec_eq_iff c2 s1 b2).mp s2, ?_⟩
  intro v hv
  have := s3 (List.ofFn v) (by simp) ((mulVec_eq_iff c2 (by simp) b2).mpr (by rw [toV_ofFn, hv]))
  rw [← this, toV_ofFn]

/-- **C48 (optimality).** When training succeeds, the parameters (intercept first) are the unique minimiser of the residual
sum of squares over all parameter vectors. -/
theorem C48_least_squares {solve : Mat ℝ → List ℝ → Outcome (List ℝ)} (hs : SolvesExactly solve) (X : Mat ℝ) (hX : X.WF) (y : List ℝ) (m : LinReg ℝ)
    (h : LinReg.train solve X y = ok m) :
    ∃ β, m.parameters = some β ∧ β.length = X.cols + 1 ∧ ∀ c : List ℝ, c.length = X.cols + 1 → c ≠ β → rss X y β < rss X y c := by
  obtain ⟨β, rfl, hy, hb, h1, h2⟩ := linTrain_normal hs hX h
  refine ⟨β, rfl, hb, ?_⟩
  intro c hc hne
  rw [rss_eq hX hy hb, rss_eq hX hy hc, least_squares _ _ _ (toV _ c) h1, lt_add_iff_pos_right]
  apply lt_of_le_of_ne (Finset.sum_nonneg fun i _ => sq_nonneg _)
  intro h0
  apply hne
  apply toV_inj hc hb
  apply h2
  rw [← h1, ← sub_eq_zero, ← Matrix.mulVec_sub, ← Matrix.mulVec_mulVec]
  have : (toM X.rows.length (X.cols + 1) ⟨X.cols + 1, X.rows.map ((1 : ℝ) :: ·)⟩).mulVec (toV _ c - toV _ β) = 0 := by
    funext i
    have := (Finset.sum_eq_zero_iff_of_nonneg fun i _ => sq_nonneg _).mp h0.symm i (Finset.mem_univ i)
    exact pow_eq_zero_iff (two_ne_zero) |>.mp this
  rw [this, Matrix.mulVec_zero]

/-- **C48 (predictions).** A model with parameters `β` predicts the affine function `β` of every row. -/
theorem C48_predict (β : List ℝ) (X : Mat ℝ) (hb : β.length = X.cols + 1) :
    LinReg.predict ⟨some β⟩ X = ok (X.rows.map (affine β)) := by
  unfold LinReg.predict
  dsimp only
  rw [withOnes_ok, ok_bind]
  unfold Mat.mulVec
  rw [if_pos hb.symm, List.map_map]
  congr 1
  apply List.map_congr_left
  intro x _
  exact dot_affine x β (by intro h; rw [h] at hb; simp at hb)

/-- **C48 (residuals).** The residuals of the predictions on the training inputs sum to zero and are orthogonal to every
feature column. -/
theorem C48_residuals {solve : Mat ℝ → List ℝ → Outcome (List ℝ)} (hs : SolvesExactly solve) (X : Mat ℝ) (hX : X.WF) (y : List ℝ) (m : LinReg ℝ)
    (h : LinReg.train solve X y = ok m) :
    ∃ p, m.predict X = ok p ∧ p.length = y.length ∧ (List.zipWith (· - ·) y p).sum = 0 ∧
      ∀ j < X.cols, inner (List.zipWith (· - ·) y p) (X.rows.map fun x => x.getD j 0) = 0 := by
  obtain ⟨β, rfl, hy, hb, h1, -⟩ := linTrain_normal hs hX h
  have hne : β ≠ [] := by intro h; rw [h] at hb; simp at hb
  refine ⟨_, C48_predict β X hb, by simp [hy], ?_⟩
  have h0 : ∀ k : Fin (X.cols + 1), ∑ i : Fin X.rows.length,
      (1 :: X.rows.getD i []).getD k 0 * (y.getD i 0 - affine β (X.rows.getD i [])) = 0 := by
    intro k
    have := congrFun (show (toM X.rows.length (X.cols + 1) ⟨X.cols + 1, X.rows.map ((1 : ℝ) :: ·)⟩)ᵀ.mulVec
      (toV _ y - (toM X.rows.length (X.cols + 1) ⟨X.cols + 1, X.rows.map ((1 : ℝ) :: ·)⟩).mulVec (toV _ β)) = 0 by
        rw [Matrix.mulVec_sub, ← h1, Matrix.mulVec_mulVec, sub_self]) k
    rw [Pi.zero_apply, Matrix.mulVec, dotProduct] at this
    refine Eq.trans (Finset.sum_congr rfl fun i _ => ?_) this
    rw [Matrix.transpose_apply, Pi.sub_apply, mulVec_row (withOnes_shape hX) hb, ← dot_inner, toM_apply]
    unfold ent
    simp only
    rw [getD_map_lt _ _ [] _ _ i.2, dot_affine _ _ hne]
    rfl
  have hz : ∀ (i : Fin X.rows.length), (List.zipWith (· - ·) y (X.rows.map (affine β))).getD i 0 = y.getD i 0 - affine β (X.rows.getD i []) := by
    intro i
    have hi : (i : ℕ) < y.length := by rw [hy]; exact i.2
    simp [List.getD_eq_getElem?_getD, hi]
  have hl : (List.zipWith (· - ·) y (X.rows.map (affine β))).length = X.rows.length := by simp [hy]
  constructor
  · rw [sum_eq_range hl, Finset.sum_range]
    have := h0 0
    simp only [Fin.val_zero, List.getD_cons_zero, one_mul] at this
    exact Eq.trans (Finset.sum_congr rfl fun i _ => hz i) this
  · intro j hj
    unfold inner
    rw [← dot_real, dot_eq_range hl (by simp), Finset.sum_range]
    have := h0 ⟨j + 1, by omega⟩
    simp only [List.getD_cons_succ] at this
    refine Eq.trans (Finset.sum_congr rfl fun i _ => ?_) this
    rw [hz, getD_map_lt _ _ [] _ _ i.2, mul_comm]

/-- **C48 (success).** With a solver that handles every regular system, training succeeds exactly when the targets match the
rows and the constant and the features are linearly independent on the data. -/
theorem C48_succeeds_iff {solve : Mat ℝ → List ℝ → Outcome (List ℝ)} (hs : SolvesExactly solve) (hr : SolvesRegular solve) (X : Mat ℝ) (hX : X.WF)
    (y : List ℝ) (hy : y.length = X.rows.length) : (∃ m, LinReg.train solve X y = ok m) ↔ AffinelyIndependent X := by
  have hS := withOnes_shape hX
  obtain ⟨t1, t2⟩ := transpose_toM hS
  obtain ⟨C, c1, c2, c3⟩ := mul_toM t1 hS
  have haff : ∀ β : List ℝ, β.length = X.cols + 1 → ((∀ x ∈ X.rows, affine β x = 0) ↔
      (toM X.rows.length (X.cols + 1) ⟨X.cols + 1, X.rows.map ((1 : ℝ) :: ·)⟩).mulVec (toV _ β) = 0) := by
    intro β hb
    have hne : β ≠ [] := by intro h; rw [h] at hb; simp at hb
    have e : ∀ i : Fin X.rows.length, (toM X.rows.length (X.cols + 1) ⟨X.cols + 1, X.rows.map ((1 : ℝ) :: ·)⟩).mulVec (toV _ β) i = affine β (X.rows.getD i []) := by
      intro i
      rw [mulVec_row hS hb, ← dot_inner, getD_map_lt _ _ [] _ _ i.2, dot_affine _ _ hne]
    constructor
    · intro h
      funext i
      rw [e, List.getD_eq_getElem?_getD, List.getElem?_eq_getElem i.2, Option.getD_some]
      exact h _ (List.getElem_mem i.2)
    · intro h x hx
      obtain ⟨i, hi, rfl⟩ := List.getElem_of_mem hx
      have := congrFun h ⟨i, hi⟩
      rw [e, List.getD_eq_getElem?_getD, List.getElem?_eq_getElem hi, Option.getD_some] at this
      exact this
  constructor
  · rintro ⟨m, h⟩
    obtain ⟨β, rfl, -, hb, h1, h2⟩ := linTrain_normal hs hX h
    intro c hc hz
    have hz' := (haff c hc).mp hz
    have := h2 (toV _ β + toV _ c) (by rw [Matrix.mulVec_add, h1, ← Matrix.mulVec_mulVec, hz', Matrix.mulVec_zero, add_zero])
    rw [add_eq_left] at this
    exact toV_inj hc (by simp [zeroVec]) (by rw [this, toV_zeroVec])
  · intro hi
    have hreg : FullColumnRank C := by
      rw [fullColumnRank_iff c2, c3, t2]
      intro v hv
      have hv0 : (toM X.rows.length (X.cols + 1) ⟨X.cols + 1, X.rows.map ((1 : ℝ) :: ·)⟩).mulVec v = 0 := by
        rw [← Matrix.mulVec_mulVec] at hv
        have h3 : (toM X.rows.length (X.cols + 1) ⟨X.cols + 1, X.rows.map ((1 : ℝ) :: ·)⟩).mulVec v ⬝ᵥ
            (toM X.rows.length (X.cols + 1) ⟨X.cols + 1, X.rows.map ((1 : ℝ) :: ·)⟩).mulVec v = 0 := by
          rw [Matrix.dotProduct_mulVec, ← Matrix.mulVec_transpose, hv, zero_dotProduct]
        exact dotProduct_self_eq_zero.mp h3
      have := hi (List.ofFn v) (by simp) ((haff _ (by simp)).mpr (by rw [toV_ofFn, hv0]))
      rw [← toV_ofFn v, this, toV_zeroVec]
    obtain ⟨b, b1, b2, -⟩ := mulVec_toV t1 hy
    obtain ⟨p, hp⟩ := hr C b _ c2 b2 hreg
    refine ⟨⟨some p⟩, ?_⟩
    unfold LinReg.train
    rw [withOnes_ok, ok_bind]
    dsimp only
    rw [c1, ok_bind, b1, ok_bind, hp]
    rfl

/-- **C48 (dependent columns).** When the inputs are not affinely independent, training reports the solver's failure as a
linear algebra error. -/
theorem C48_singular {solve : Mat ℝ → List ℝ → Outcome (List ℝ)} (hs : SolvesExactly solve) (hr : SolvesRegular solve)
    (he : SolverReports solve) (X : Mat ℝ) (hX : X.WF)
    (y : List ℝ) (hy : y.length = X.rows.length) (hI : ¬ AffinelyIndependent X) : LinReg.train solve X y = err .LinearAlgebra := by
  have hno := mt (C48_succeeds_iff hs hr X hX y hy).mp hI
  have hS := withOnes_shape hX
  obtain ⟨t1, t2⟩ := transpose_toM hS
  obtain ⟨C, c1, c2, c3⟩ := mul_toM t1 hS
  obtain ⟨b, b1, b2, b3⟩ := mulVec_toV t1 hy
  have e : LinReg.train solve X y = (do let p ← fromLinalg (solve C b); ok ⟨some p⟩) := by
    unfold LinReg.train
    rw [withOnes_ok, ok_bind]
    dsimp only
    rw [c1, ok_bind, b1, ok_bind]
  rcases he C b _ c2 b2 with ⟨x, hx⟩ | ⟨ek, hx⟩
  · exact absurd ⟨⟨some x⟩, by rw [e, hx]; rfl⟩ hno
  · rw [e, hx]; rfl

/-- **C48 (misuse).** A different number of targets panics; predicting before training fails with `UntrainedModel`;
predicting with another number of columns panics. -/
theorem C48_misuse (solve : Mat ℝ → List ℝ → Outcome (List ℝ)) (X : Mat ℝ) (hX : X.WF) :
    (∀ y : List ℝ, y.length ≠ X.rows.length → LinReg.train solve X y = Outcome.panic) ∧
    LinReg.predict {} X = err .UntrainedModel ∧
    ∀ β : List ℝ, β.length ≠ X.cols + 1 → LinReg.predict ⟨some β⟩ X = Outcome.panic := by
  have hS := withOnes_shape hX
  obtain ⟨t1, t2⟩ := transpose_toM hS
  obtain ⟨C, c1, c2, c3⟩ := mul_toM t1 hS
  refine ⟨?_, rfl, ?_⟩
  · intro y hy
    unfold LinReg.train
    rw [withOnes_ok, ok_bind]
    dsimp only
    rw [c1, ok_bind]
    unfold Mat.mulVec
    rw [if_neg (by rw [t1.2.1]; exact fun h => hy h.symm)]
    rfl
  · intro β hb
    unfold LinReg.predict
    dsimp only
    rw [withOnes_ok, ok_bind]
    unfold Mat.mulVec
    rw [if_neg fun h => hb h.symm]

/-- Gaussian elimination is a solver to which the theorems apply, and `(0,1)`, `(1,3)`, `(2,4)` a data set. -/
example : SolvesExactly (gaussSolve 0) ∧ SolvesRegular (gaussSolve 0) ∧ SolverReports (gaussSolve 0) ∧ AffinelyIndependent ⟨1, [[0], [1], [2]]⟩ := by
  refine ⟨gaussSolve_exact 0 le_rfl, gaussSolve_regular, gaussSolve_reports 0, ?_⟩
  intro β hb h
  obtain ⟨a, b, rfl⟩ := List.length_eq_two.mp hb
  have h0 := h [0] (by simp)
  have h1 := h [1] (by simp)
  simp [affine, inner] at h0 h1
  subst h0
  simp only [zero_add] at h1
  subst h1
  rfl

theorem mseCostVec_fin {n : ℕ} (o t : Fin n → ℝ) : mseCostVec (List.ofFn o) (List.ofFn t) = ok ((∑ i, (o i - t i) ^ 2) / (2 * n)) := by
  unfold mseCostVec
  rw [vecZip_ofFn, ok_bind, vecZip_ofFn, ok_bind, fsum_ofFn]
  simp [sq]

theorem ceCostVec_fin {n : ℕ} (o t : Fin n → ℝ) : ceCostVec (List.ofFn o) (List.ofFn t) =
    ok ((∑ i, -(t i * Real.log (o i) + (1 - t i) * Real.log (1 - o i))) / n) := by
  unfold ceCostVec
  simp only [List.map_ofFn, vecZip_ofFn, ok_bind, fsum_ofFn, List.length_ofFn]
  congr 2
  rw [Finset.sum_neg_distrib]
  simp [oneMinus, neg_add_eq_sub, Function.comp_def]

/-- **C49 (linear regression).** `compute_grad` returns half the mean squared error and exactly its gradient. -/
theorem C49_linear (X : Mat ℝ) (hX : X.WF) (y w : List ℝ) (hy : y.length = X.rows.length) (hw : w.length = X.cols) :
    ∃ g, linComputeGrad w X y = ok (halfMeanSquares X y w, g) ∧ ListGradientAt (fun w => ok (halfMeanSquares X y w)) g w := by
  have hS : HasShape X X.rows.length X.cols := ⟨rfl, rfl, hX⟩
  obtain ⟨t1, t2⟩ := transpose_toM hS
  obtain ⟨o, o1, o2, o3⟩ := mulVec_toV hS hw
  have hcost : ∀ v : List ℝ, v.length = X.cols → halfMeanSquares X y v = (∑ i, ((toM X.rows.length X.cols X).mulVec (toV _ v) i - toV _ y i) ^ 2) / (2 * X.rows.length) := by
    intro v hv
    unfold halfMeanSquares
    rw [zipWith_sum_fin rfl hy]
    simp only [mulVec_row hS hv]
    rfl
  have hd : vecZip Scalar.sub o y = ok (List.ofFn fun i : Fin X.rows.length => o.getD i 0 - y.getD i 0) := by
    conv_lhs => rw [← ofFn_getD o2 0, ← ofFn_getD hy 0, vecZip_ofFn]
    rfl
  obtain ⟨g, g1, g2, g3⟩ := mulVec_toV t1 (v := List.ofFn fun i : Fin X.rows.length => o.getD i 0 - y.getD i 0) (by simp)
  rw [t2, toV_ofFn] at g3
  refine ⟨g.map fun x => x /. Scalar.ofNat X.rows.length, ?_, ?_⟩
  · unfold linComputeGrad
    have hc := mseCostVec_fin (fun i : Fin X.rows.length => o.getD i 0) (fun i => y.getD i 0)
    rw [ofFn_getD o2, ofFn_getD hy] at hc
    rw [o1, ok_bind, hd, hc]
    simp only [ok_bind]
    rw [g1, ok_bind, hcost w hw, ← o3]
    rfl
  · refine ⟨by simp [g2, hw], fun v => halfMeanSquares X y (List.ofFn v), fun v => rfl, ?_⟩
    rw [hw]
    have := gradient_div (gradient_linear (toM X.rows.length X.cols X) (fun i s => (s - toV _ y i) ^ 2 / 2) (fun i => toV _ o i - toV _ y i) (toV _ w) (by
      intro i
      rw [o3]
      have h := (((hasDerivAt_id ((toM X.rows.length X.cols X).mulVec (toV _ w) i)).sub_const (toV _ y i)).fun_pow 2).div_const 2
      refine h.congr_deriv ?_
      simp)) (X.rows.length : ℝ)
    have e1 : (fun v : Fin X.cols → ℝ => halfMeanSquares X y (List.ofFn v)) = fun v => (∑ i, ((toM X.rows.length X.cols X).mulVec v i - toV _ y i) ^ 2 / 2) / (X.rows.length : ℝ) := by
      funext v
      rw [hcost _ (by simp), toV_ofFn, ← Finset.sum_div, div_div]
    rw [e1]
    have e2 : (fun k : Fin X.cols => (g.map fun x => x /. Scalar.ofNat X.rows.length).getD k 0) = fun k => (toM X.rows.length X.cols X)ᵀ.mulVec (fun i => toV _ o i - toV _ y i) k / (X.rows.length : ℝ) := by
      funext k
      rw [getD_map_lt _ _ 0 _ _ (by rw [g2]; exact k.2)]
      have := congrFun g3 k
      unfold toV at this
      rw [this]
      simp
      rfl
    rw [e2]
    exact this

theorem sigmoid_logistic (s : ℝ) : (sigmoid : Activ ℝ).func s = logistic s := by
  simp [sigmoid, logistic]

theorem logistic_mem (s : ℝ) : 0 < logistic s ∧ logistic s < 1 := by
  rw [← sigmoid_logistic]; exact ⟨sigmoid_pos s, sigmoid_lt_one s⟩

theorem logistic_deriv (s : ℝ) : HasDerivAt logistic (logistic s * (1 - logistic s)) s := by
  have hp := Real.exp_pos (-s)
  have h := ((Real.hasDerivAt_exp (-s)).comp s (hasDerivAt_neg s)).const_add 1
  have h2 := h.inv (by simp; positivity)
  have e : (fun x => (1 + (Real.exp ∘ Neg.neg) x)⁻¹) = logistic := by
    funext x; simp [logistic]
  have e' : (fun x => 1 + (Real.exp ∘ Neg.neg) x)⁻¹ = logistic := by rw [← e]; rfl
  rw [e'] at h2
  refine h2.congr_deriv ?_
  simp only [logistic, Function.comp]
  field_simp
  ring

theorem crossEntropy_deriv (t s : ℝ) :
    HasDerivAt (fun s => -(t * Real.log (logistic s) + (1 - t) * Real.log (1 - logistic s))) (logistic s - t) s := by
  obtain ⟨h0, h1⟩ := logistic_mem s
  have hd := logistic_deriv s
  have a := ((hd.log h0.ne').const_mul t).add (((hd.const_sub 1).log (by linarith)).const_mul (1 - t))
  refine a.neg.congr_deriv ?_
  have : 1 - logistic s ≠ 0 := by linarith
  field_simp
  ring

/-- **C49 (logistic regression).** `compute_grad` returns the mean cross entropy and exactly its gradient. -/
theorem C49_logistic (X : Mat ℝ) (hX : X.WF) (y w : List ℝ) (hy : y.length = X.rows.length) (hw : w.length = X.cols) :
    ∃ g, logComputeGrad w X y = ok (meanCrossEntropy X y w, g) ∧ ListGradientAt (fun w => ok (meanCrossEntropy X y w)) g w := by
  have hS : HasShape X X.rows.length X.cols := ⟨rfl, rfl, hX⟩
  obtain ⟨t1, t2⟩ := transpose_toM hS
  obtain ⟨o, o1, o2, o3⟩ := mulVec_toV hS hw
  have hcost : ∀ v : List ℝ, v.length = X.cols → meanCrossEntropy X y v =
      (∑ i, -(toV _ y i * Real.log (logistic ((toM X.rows.length X.cols X).mulVec (toV _ v) i)) +
        (1 - toV _ y i) * Real.log (1 - logistic ((toM X.rows.length X.cols X).mulVec (toV _ v) i)))) / X.rows.length := by
    intro v hv
    unfold meanCrossEntropy
    rw [zipWith_sum_fin rfl hy]
    simp only [mulVec_row hS hv]
    rfl
  have hs : o.map (sigmoid : Activ ℝ).func = List.ofFn fun i : Fin X.rows.length => logistic (o.getD i 0) := by
    conv_lhs => rw [← ofFn_getD o2 0, List.map_ofFn]
    congr 1
  have hd : vecZip Scalar.sub (List.ofFn fun i : Fin X.rows.length => logistic (o.getD i 0)) y =
      ok (List.ofFn fun i : Fin X.rows.length => logistic (o.getD i 0) - y.getD i 0) := by
    conv_lhs => rw [← ofFn_getD hy 0, vecZip_ofFn]
    rfl
  obtain ⟨g, g1, g2, g3⟩ := mulVec_toV t1 (v := List.ofFn fun i : Fin X.rows.length => logistic (o.getD i 0) - y.getD i 0) (by simp)
  rw [t2, toV_ofFn] at g3
  refine ⟨g.map fun x => x /. Scalar.ofNat X.rows.length, ?_, ?_⟩
  · unfold logComputeGrad
    have hc := ceCostVec_fin (fun i : Fin X.rows.length => logistic (o.getD i 0)) (fun i => y.getD i 0)
    rw [ofFn_getD hy] at hc
    rw [o1, ok_bind]
    dsimp only
    rw [hs, hd, hc]
    simp only [ok_bind]
    rw [g1, ok_bind, hcost w hw, ← o3]
    rfl
  · refine ⟨by simp [g2, hw], fun v => meanCrossEntropy X y (List.ofFn v), fun v => rfl, ?_⟩
    rw [hw]
    have := gradient_div (gradient_linear (toM X.rows.length X.cols X)
      (fun i s => -(toV _ y i * Real.log (logistic s) + (1 - toV _ y i) * Real.log (1 - logistic s)))
      (fun i => logistic (toV _ o i) - toV _ y i) (toV _ w) (by
        intro i
        rw [o3]
        exact crossEntropy_deriv _ _)) (X.rows.length : ℝ)
    have e1 : (fun v : Fin X.cols → ℝ => meanCrossEntropy X y (List.ofFn v)) = fun v =>
        (∑ i, -(toV _ y i * Real.log (logistic ((toM X.rows.length X.cols X).mulVec v i)) +
          (1 - toV _ y i) * Real.log (1 - logistic ((toM X.rows.length X.cols X).mulVec v i)))) / (X.rows.length : ℝ) := by
      funext v
      rw [hcost _ (by simp), toV_ofFn]
    rw [e1]
    have e2 : (fun k : Fin X.cols => (g.map fun x => x /. Scalar.ofNat X.rows.length).getD k 0) = fun k =>
        (toM X.rows.length X.cols X)ᵀ.mulVec (fun i => logistic (toV _ o i) - toV _ y i) k / (X.rows.length : ℝ) := by
      funext k
      rw [getD_map_lt _ _ 0 _ _ (by rw [g2]; exact k.2)]
      have := congrFun g3 k
      unfold toV at this
      rw [this]
      simp
      rfl
    rw [e2]
    exact this

theorem logistic_strictMono : StrictMono logistic := by
  intro a b h
  unfold logistic
  have := Real.exp_pos (-b)
  have := Real.exp_lt_exp.mpr (neg_lt_neg h)
  gcongr

theorem logistic_zero : logistic 0 = 1 / 2 := by norm_num [logistic]

/-- **C50.** A trained logistic model returns one value per row, strictly between 0 and 1; it orders the rows by their linear
scores; it is 1/2 exactly on the hyperplane where the score is 0. An untrained one fails with `UntrainedModel`. -/
theorem C50_predictions (β : List ℝ) (X : Mat ℝ) (hb : β.length = X.cols + 1) :
    ∃ p, LogReg.predict ⟨some β⟩ X = ok p ∧ p.length = X.rows.length ∧
      (∀ v ∈ p, 0 < v ∧ v < 1) ∧
      (∀ i < X.rows.length, (p.getD i 0 = 1 / 2 ↔ affine β (X.rows.getD i []) = 0)) ∧
      (∀ i < X.rows.length, ∀ k < X.rows.length, (p.getD i 0 < p.getD k 0 ↔ affine β (X.rows.getD i []) < affine β (X.rows.getD k []))) ∧
      LogReg.predict ({} : LogReg ℝ) X = err .UntrainedModel := by
  have hp : LogReg.predict ⟨some β⟩ X = ok (X.rows.map fun x => logistic (affine β x)) := by
    unfold LogReg.predict
    dsimp only
    rw [withOnes_ok, ok_bind]
    unfold Mat.mulVec
    rw [if_pos hb.symm, ok_bind, List.map_map, List.map_map]
    congr 1
    apply List.map_congr_left
    intro x _
    simp only [Function.comp]
    rw [dot_affine x β (by intro h; rw [h] at hb; simp at hb), sigmoid_logistic]
  have hg : ∀ i < X.rows.length, (X.rows.map fun x => logistic (affine β x)).getD i 0 = logistic (affine β (X.rows.getD i [])) :=
    fun i hi => getD_map_lt _ _ [] _ _ hi
  refine ⟨_, hp, by simp, ?_, ?_, ?_, rfl⟩
  · intro v hv
    obtain ⟨x, _, rfl⟩ := List.mem_map.mp hv
    exact logistic_mem _
  · intro i hi
    rw [hg i hi, ← logistic_zero]
    exact logistic_strictMono.injective.eq_iff
  · intro i hi k hk
    rw [hg i hi, hg k hk]
    exact logistic_strictMono.lt_iff_lt

/-- **C50 (misuse).** With another number of columns than at training, prediction panics. -/
theorem C50_columns (β : List ℝ) (X : Mat ℝ) (hb : β.length ≠ X.cols + 1) : LogReg.predict ⟨some β⟩ X = Outcome.panic := by
  unfold LogReg.predict
  dsimp only
  rw [withOnes_ok, ok_bind]
  unfold Mat.mulVec
  rw [if_neg fun h => hb h.symm]
  rfl

/-- **C50 (training).** Training with gradient descent succeeds for every data set with one target per row, with one parameter
per column and an intercept, so the model predicts. -/
theorem C50_train (o : GradientDesc ℝ) (X : Mat ℝ) (hX : X.WF) (y : List ℝ) (hy : y.length = X.rows.length) :
    ∃ β, LogReg.train (fun g s => (o.optimize g s).out) X y = ok ⟨some β⟩ ∧ β.length = X.cols + 1 := by
  have hS := withOnes_shape hX
  obtain ⟨w, h1, h2⟩ := C44_length o (fun w => logComputeGrad w ⟨X.cols + 1, X.rows.map ((1 : ℝ) :: ·)⟩ y)
    (List.replicate (X.cols + 1) (Scalar.ofRat (1 / 2))) (by
      intro w hw
      rw [List.length_replicate] at hw
      obtain ⟨g, g1, g2, -⟩ := C49_logistic ⟨X.cols + 1, X.rows.map ((1 : ℝ) :: ·)⟩ hS.2.2 y w (by simpa using hy) hw
      exact ⟨_, g, g1, by rw [g2, hw]; simp⟩)
  refine ⟨w, ?_, by rw [h2]; simp⟩
  unfold LogReg.train
  rw [withOnes_ok, ok_bind]
  dsimp only
  rw [h1, ok_bind]

/-- A concrete case: slope 2, intercept -1, the rows 0, 1/2 and 3. The middle row lies on the hyperplane. -/
example : ([-1, 2] : List ℝ).length = (⟨1, [[0], [1 / 2], [3]]⟩ : Mat ℝ).cols + 1 ∧ affine [-1, 2] [1 / 2] = 0 ∧ affine [-1, 2] [3] ≠ 0 := by
  refine ⟨rfl, ?_, ?_⟩ <;> norm_num [affine, inner]

end RM
