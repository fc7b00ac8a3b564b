import Mathlib.LinearAlgebra.Matrix.NonsingularInverse
import Mathlib.Logic.Equiv.Fin.Basic
import Verif.Spec.RowOrder
import Verif.Props.Gp

/-! C77: the order of the training samples of a Gaussian process. -/

namespace RM
open Outcome Scalar Spec Matrix

/-- The permutation of the positions above zero. -/
def liftPerm (σ : Equiv.Perm ℕ) : Equiv.Perm ℕ where
  toFun n := match n with | 0 => 0 | n + 1 => σ n + 1
  invFun n := match n with | 0 => 0 | n + 1 => σ.symm n + 1
  left_inv n := by cases n <;> simp
  right_inv n := by cases n <;> simp

theorem perm_positions {α : Type} {l l' : List α} (h : l.Perm l') : ∃ σ : Equiv.Perm ℕ, ∀ i, l[i]? = l'[σ i]? := by
  induction h with
  | nil => exact ⟨Equiv.refl _, fun i => by simp⟩
  | cons x _ ih =>
    obtain ⟨σ, hσ⟩ := ih
    refine ⟨liftPerm σ, fun i => ?_⟩
    cases i with
    | zero => rfl
    | succ i => simpa [liftPerm] using hσ i
  | swap x y l =>
    refine ⟨Equiv.swap 0 1, fun i => ?_⟩
    match i with
    | 0 => simp
    | 1 => simp
    | i + 2 => rw [Equiv.swap_apply_of_ne_of_ne (by omega) (by omega)]; simp
  | trans _ _ ih1 ih2 =>
    obtain ⟨σ, hσ⟩ := ih1
    obtain ⟨τ, hτ⟩ := ih2
    exact ⟨σ.trans τ, fun i => by rw [hσ, hτ]; rfl⟩

/-- The mean function gives each row its own value. -/
def MeanOfRows (mean : Mat ℝ → List ℝ) (m : List ℝ → ℝ) : Prop := ∀ X : Mat ℝ, mean X = X.rows.map m

theorem MeanOfRows.sized {mean : Mat ℝ → List ℝ} {m : List ℝ → ℝ} (h : MeanOfRows mean m) : MeanSized mean := fun X => by rw [h, List.length_map]

theorem constMean_rows (a : ℝ) : MeanOfRows (constMean a) fun _ => a := fun X => by
  unfold constMean
  rw [show (Scalar.zero +. a : ℝ) = a from zero_add a]
  simp

theorem getD_of_getElem? {α : Type} {l l' : List α} {i j : ℕ} (h : l[i]? = l'[j]?) (d : α) : l.getD i d = l'.getD j d := by
  rw [List.getD_eq_getElem?_getD, List.getD_eq_getElem?_getD, h]

section
variable (k : List ℝ → List ℝ → ℝ) {X X' : Mat ℝ} {e : Fin X.rows.length ≃ Fin X'.rows.length} (he : ∀ i : Fin X.rows.length, X.rows[(i : ℕ)]? = X'.rows[(e i : ℕ)]?)
include he

theorem gram_right (Z : Mat ℝ) : gram k Z X = (gram k Z X').submatrix id e := by
  ext i j
  simp only [gram, of_apply, submatrix_apply, id]
  rw [getD_of_getElem? (he j)]

theorem gram_left (Z : Mat ℝ) : gram k X Z = (gram k X' Z).submatrix e id := by
  ext i j
  simp only [gram, of_apply, submatrix_apply, id]
  rw [getD_of_getElem? (he i)]

theorem noisyGram_reorder (noise : ℝ) : noisyGram k noise X = (noisyGram k noise X').submatrix e e := by
  ext i j
  simp only [noisyGram, gram, of_apply, submatrix_apply, Matrix.add_apply, Matrix.smul_apply, one_apply]
  rw [getD_of_getElem? (he i), getD_of_getElem? (he j)]
  simp
end

theorem posDefinite_reorder {n m : ℕ} (e : Fin n ≃ Fin m) {A : Matrix (Fin m) (Fin m) ℝ} (h : PosDefinite A) : PosDefinite (A.submatrix e e) := by
  obtain ⟨h1, h2⟩ := h
  refine ⟨by rw [transpose_submatrix, h1], fun v hv => ?_⟩
  have := h2 (v ∘ e.symm) fun h0 => hv (by
    funext i
    have := congrFun h0 (e i)
    simpa using this)
  rw [submatrix_mulVec_equiv]
  have e2 : v ⬝ᵥ (A.mulVec (v ∘ e.symm)) ∘ e = (v ∘ e.symm) ⬝ᵥ A.mulVec (v ∘ e.symm) := by
    rw [comp_equiv_symm_dotProduct]
  rwa [e2]

/-- `GaussianProcess`, with a mean function that looks at one row at a time: with the samples in another order, training succeeds
exactly when it did, and then predictions and posteriors are the same for every input. -/
theorem C77_gp {lib : TriLib ℝ} (hl : TriLibOk lib) {g : Gp ℝ} {k : List ℝ → List ℝ → ℝ} (hk : IsKernel g.ker k) {m : List ℝ → ℝ}
    (hm : MeanOfRows g.mean m) {c : ℕ} {S S' : List (List ℝ × ℝ)} (h : S.Perm S') (hS : ∀ s ∈ S, s.1.length = c) :
    ((∃ g1, g.train lib (inputsOf c S) (targetsOf S) = ok g1) ↔ ∃ g2, g.train lib (inputsOf c S') (targetsOf S') = ok g2) ∧
    ∀ g1 g2, g.train lib (inputsOf c S) (targetsOf S) = ok g1 → g.train lib (inputsOf c S') (targetsOf S') = ok g2 →
      ∀ Z : Mat ℝ, Z.WF → g1.predict Z = g2.predict Z ∧ g1.posterior lib Z = g2.posterior lib Z := by
  have hX : (inputsOf c S).WF := fun r hr => by
    obtain ⟨s, hs, rfl⟩ := List.mem_map.1 hr
    exact hS s hs
  have hX' : (inputsOf c S').WF := fun r hr => by
    obtain ⟨s, hs, rfl⟩ := List.mem_map.1 hr
    exact hS s (h.mem_iff.mpr hs)
  obtain ⟨σ, hσ⟩ := perm_positions h
  have hlen : ∀ Q : List (List ℝ × ℝ), (inputsOf c Q).rows.length = Q.length := fun Q => by simp [inputsOf]
  have hlt : ∀ i, i < (inputsOf c S).rows.length ↔ σ i < (inputsOf c S').rows.length := fun i => by
    rw [hlen, hlen, ← not_iff_not, not_lt, not_lt, ← List.getElem?_eq_none_iff, ← List.getElem?_eq_none_iff, hσ]
  let e : Fin (inputsOf c S).rows.length ≃ Fin (inputsOf c S').rows.length :=
    ⟨fun i => ⟨σ i, (hlt i).mp i.2⟩, fun j => ⟨σ.symm j, (hlt _).mpr (by simp)⟩, fun i => by simp, fun j => by simp⟩
  have he : ∀ i : Fin (inputsOf c S).rows.length, (inputsOf c S).rows[(i : ℕ)]? = (inputsOf c S').rows[(e i : ℕ)]? := fun i => by
    show (S.map Prod.fst)[(i : ℕ)]? = (S'.map Prod.fst)[σ i]?
    rw [List.getElem?_map, List.getElem?_map, hσ]
  have hy : ∀ i : Fin (inputsOf c S).rows.length, (targetsOf S)[i]? = (targetsOf S')[(e i : ℕ)]? := fun i => by
    show (S.map Prod.snd)[(i : ℕ)]? = (S'.map Prod.snd)[σ i]?
    rw [List.getElem?_map, List.getElem?_map, hσ]
  have hN := noisyGram_reorder k he g.noise
  have hN' : noisyGram k g.noise (inputsOf c S') = (noisyGram k g.noise (inputsOf c S)).submatrix e.symm e.symm := by
    rw [hN, submatrix_submatrix]; simp
  have hty : ∀ Q : List (List ℝ × ℝ), (targetsOf Q).length = (inputsOf c Q).rows.length := fun Q => by simp [inputsOf, targetsOf]
  refine ⟨?_, ?_⟩
  · rw [(C59_train_iff hl hk hm.sized hX (hty S)).1, (C59_train_iff hl hk hm.sized hX' (hty S')).1]
    constructor
    · intro hp; rw [hN']; exact posDefinite_reorder _ hp
    · intro hp; rw [hN]; exact posDefinite_reorder _ hp
  · intro g1 g2 h1 h2 Z hZ
    by_cases hc : Z.cols = c
    · obtain ⟨p, p1, p2, p3⟩ := C59_predict hl hk hm.sized hX h1 hZ hc
      obtain ⟨p', q1, q2, q3⟩ := C59_predict hl hk hm.sized hX' h2 hZ hc
      obtain ⟨r, C, r1, r2, r3, r4, -⟩ := C59_posterior hl hk hm.sized hX h1 hZ hc
      obtain ⟨r', C', s1, s2, s3, s4, -⟩ := C59_posterior hl hk hm.sized hX' h2 hZ hc
      have hres : toV (inputsOf c S).rows.length (targetsOf S) - toV (inputsOf c S).rows.length (g.mean (inputsOf c S)) =
          (toV (inputsOf c S').rows.length (targetsOf S') - toV (inputsOf c S').rows.length (g.mean (inputsOf c S'))) ∘ e := by
        funext i
        simp only [Pi.sub_apply, Function.comp, toV]
        rw [hm, hm, getD_of_getElem? (hy i),
          getD_of_getElem? (show ((inputsOf c S).rows.map m)[(i : ℕ)]? = ((inputsOf c S').rows.map m)[(e i : ℕ)]? by
            rw [List.getElem?_map, List.getElem?_map]; exact congrArg _ (he i))]
      have hp : p = p' := by
        refine toV_inj p2 q2 ?_
        rw [p3, q3, gram_right k he, hN, inv_submatrix_equiv, hres, submatrix_mulVec_equiv, submatrix_mulVec_equiv]
        congr 1
        funext i
        simp [Function.comp_assoc]
      have hC : C = C' := by
        refine toM_inj r3 s3 ?_
        rw [r4, s4, gram_right k he, gram_left k he, hN, inv_submatrix_equiv, submatrix_mul_equiv, submatrix_mul_equiv, submatrix_id_id]
      rw [p1] at r1
      rw [q1] at s1
      rw [p1, q1, r2, s2]
      cases r1; cases s1
      rw [hp, hC]
      exact ⟨rfl, rfl⟩
    · obtain ⟨l, alpha, e1, -⟩ := gp_alpha hl hk hm.sized hX h1
      obtain ⟨l', alpha', e1', -⟩ := gp_alpha hl hk hm.sized hX' h2
      have hker : ∀ Q : List (List ℝ × ℝ), kerMat g.ker Z (inputsOf c Q) = err .InvalidState := fun Q => by
        unfold kerMat
        exact if_pos hc
      subst e1 e1'
      constructor
      · simp only [Gp.predict, hker]; rfl
      · simp only [Gp.posterior, hker]; rfl

/-- The hypotheses are met by a constant mean, the squared exponential kernel and the exact library. -/
example (a b s : ℝ) : (∃ k, IsKernel (sqExpKernel a b) k) ∧ (∃ m, MeanOfRows (constMean s) m) ∧ TriLibOk exactLib :=
  ⟨⟨_, C59_kernels (.sqExp a b)⟩, ⟨_, constMean_rows s⟩, exactLib_ok⟩

end RM
