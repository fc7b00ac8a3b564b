import Verif.Proofs.GmmAlg
import Verif.Proofs.KMeans
import Verif.Proofs.Gp
import Verif.Proofs.RandUtils

/-! The mixture model computes posterior probabilities and weighted averages. -/

namespace RM
open Outcome Scalar Spec Matrix

theorem eq_ofM {A : Mat ℝ} {n m : ℕ} (h : HasShape A n m) : A = ofM (toM n m A) :=
  toM_inj h (ofM_shape _) (toM_ofM _).symm

theorem ofM_mul {n m p : ℕ} (A : Matrix (Fin n) (Fin m) ℝ) (B : Matrix (Fin m) (Fin p) ℝ) : (ofM A).mul (ofM B) = ok (ofM (A * B)) := by
  obtain ⟨C, h1, h2, h3⟩ := mul_toM (ofM_shape A) (ofM_shape B)
  rw [h1, eq_ofM h2, h3, toM_ofM, toM_ofM]

theorem ofM_transpose {n m : ℕ} (A : Matrix (Fin n) (Fin m) ℝ) : (ofM A).transpose = ofM Aᵀ := by
  obtain ⟨h1, h2⟩ := transpose_toM (ofM_shape A)
  rw [eq_ofM h1, h2, toM_ofM]

theorem ofM_rows {n m : ℕ} (A : Matrix (Fin n) (Fin m) ℝ) : (ofM A).rows = List.ofFn fun i => List.ofFn (A i) := rfl

theorem ofM_cols {n m : ℕ} (A : Matrix (Fin n) (Fin m) ℝ) : (ofM A).cols = m := rfl

theorem ofM_map {n m : ℕ} (f : ℝ → ℝ) (A : Matrix (Fin n) (Fin m) ℝ) : (ofM A).map f = ofM (A.map f) := map_matOf f _

theorem ofM_zip {n m : ℕ} (f : ℝ → ℝ → ℝ) (A B : Matrix (Fin n) (Fin m) ℝ) :
    (ofM A).zip f (ofM B) = ok (ofM (Matrix.of fun i j => f (A i j) (B i j))) := zip_matOf f _ _

theorem rowMat_ofFn {d : ℕ} (v : Fin d → ℝ) : rowMat (List.ofFn v) = ofM (Matrix.of fun (_ : Fin 1) => v) := by
  unfold rowMat ofM matOf
  simp

theorem getAt_ofFn {α : Type} {n : ℕ} (v : Fin n → α) (i : Fin n) : getAt (List.ofFn v) i = ok (v i) := by
  simp [getAt, ofOption]

theorem mapM_range_ofFn {β : Type} {n : ℕ} (f : ℕ → Outcome β) (g : Fin n → β) (h : ∀ i : Fin n, f i = ok (g i)) :
    (List.range n).mapM f = ok (List.ofFn g) := by
  cases n with
  | zero => rfl
  | succ n =>
    rw [mapM_ok_map f (fun i => if h : i < n + 1 then g ⟨i, h⟩ else g 0)]
    · congr 1
      apply List.ext_getElem (by simp)
      intro i h1 h2
      have : i < n + 1 := by simpa using h1
      rw [List.getElem_map, List.getElem_range, dif_pos this, List.getElem_ofFn]
    · intro i hi
      have : i < n + 1 := by simpa using hi
      simp only [this, dif_pos]
      exact h ⟨i, this⟩

theorem mapM_ofFn {α β : Type} {n : ℕ} (f : α → Outcome β) (a : Fin n → α) (g : Fin n → β) (h : ∀ i : Fin n, f (a i) = ok (g i)) :
    (List.ofFn a).mapM f = ok (List.ofFn g) := by
  induction n with
  | zero => simp
  | succ n ih =>
    rw [List.ofFn_succ, List.ofFn_succ, List.mapM_cons, h 0, ok_bind, ih _ (fun i => g i.succ) fun i => h i.succ]
    rfl

/-- The density without the constant factor. -/
noncomputable def rawDensity {d : ℕ} (μ : Fin d → ℝ) (S : Matrix (Fin d) (Fin d) ℝ) (x : Fin d → ℝ) : ℝ :=
  Real.exp (-(1 / 2) * ((x - μ) ⬝ᵥ S⁻¹ *ᵥ (x - μ))) / Real.sqrt S.det

theorem compPdf_ofFn {d : ℕ} (x μ : Fin d → ℝ) (S : Matrix (Fin d) (Fin d) ℝ) :
    compPdf (List.ofFn x) (List.ofFn μ) (ofM S⁻¹) (Real.sqrt S.det) = ok (rawDensity μ S x) := by
  rw [compPdf, vecZip_ofFn, ok_bind, rowMat_ofFn, ofM_mul, ok_bind, ofM_transpose, ofM_mul, ok_bind, Mat.scaleBy, ofM_map]
  have : ∀ M : Matrix (Fin 1) (Fin 1) ℝ, getAt (ofM M).data 0 = ok (M 0 0) := by
    intro M
    simp [getAt, ofOption, Mat.data, ofM_rows]
  rw [this, ok_bind]
  congr 1
  unfold rawDensity
  congr 1
  simp only [real_exp, Matrix.map_apply, real_mul, real_sub]
  congr 1
  rw [mul_comm]
  congr 1
  · simp only [real_ofRat]; norm_num
  · rw [Matrix.mul_assoc, Matrix.mul_apply, dotProduct]
    refine Finset.sum_congr rfl fun a _ => ?_
    rw [Matrix.mul_apply, Matrix.mulVec, dotProduct]
    rfl

theorem rawDensity_eq {d : ℕ} (μ : Fin d → ℝ) (S : Matrix (Fin d) (Fin d) ℝ) (x : Fin d → ℝ) :
    rawDensity μ S x = Real.sqrt ((2 * Real.pi) ^ d) * gaussDensity μ S x := by
  unfold rawDensity gaussDensity
  have h2 : 0 < (2 * Real.pi) ^ d := by have := Real.pi_pos; positivity
  have h3 : Real.sqrt ((2 * Real.pi) ^ d) ≠ 0 := (Real.sqrt_pos.mpr h2).ne'
  rw [Real.sqrt_mul h2.le, mul_div_assoc', mul_comm (Real.sqrt _) (Real.exp _), mul_comm (Real.sqrt ((2 * Real.pi) ^ d)) (Real.sqrt S.det)]
  rw [mul_div_mul_right _ _ h3]

theorem compPdfs_ofFn {k d : ℕ} (x : Fin d → ℝ) (μ : Fin k → Fin d → ℝ) (S : Fin k → Matrix (Fin d) (Fin d) ℝ) :
    compPdfs k (ofM (Matrix.of μ)) (List.ofFn fun j => (Real.sqrt (S j).det, ofM (S j)⁻¹)) (List.ofFn x) =
      ok (List.ofFn fun j => rawDensity (μ j) (S j) x) := by
  unfold compPdfs
  refine mapM_range_ofFn _ _ fun j => ?_
  rw [ofM_rows, getAt_ofFn, ok_bind, getAt_ofFn, ok_bind]
  exact compPdf_ofFn x (μ j) (S j)

theorem dot_ofFn' {n : ℕ} (a b : Fin n → ℝ) : dot (List.ofFn a) (List.ofFn b) = ∑ i, a i * b i := by
  unfold dot
  rw [zipWith_ofFn, fsum_ofFn]
  rfl

theorem memberRow_ofFn {k d : ℕ} (w : Fin k → ℝ) (x : Fin d → ℝ) (μ : Fin k → Fin d → ℝ) (S : Fin k → Matrix (Fin d) (Fin d) ℝ) :
    memberRow k (List.ofFn w) (ofM (Matrix.of μ)) (List.ofFn fun j => (Real.sqrt (S j).det, ofM (S j)⁻¹)) (List.ofFn x) =
      ok (List.ofFn (posterior w μ S x), Real.sqrt ((2 * Real.pi) ^ d) * mixDensity w μ S x) := by
  have h2 : 0 < (2 * Real.pi) ^ d := by have := Real.pi_pos; positivity
  have h3 : Real.sqrt ((2 * Real.pi) ^ d) ≠ 0 := (Real.sqrt_pos.mpr h2).ne'
  have hs : dot (List.ofFn fun j => rawDensity (μ j) (S j) x) (List.ofFn w) = Real.sqrt ((2 * Real.pi) ^ d) * mixDensity w μ S x := by
    rw [dot_ofFn', mixDensity, Finset.mul_sum]
    refine Finset.sum_congr rfl fun j _ => ?_
    rw [rawDensity_eq]; ring
  rw [memberRow, compPdfs_ofFn, ok_bind]
  simp only [hs]
  rw [List.length_ofFn, mapM_range_ofFn _ (posterior w μ S x)]
  · rfl
  · intro j
    rw [getAt_ofFn, ok_bind, getAt_ofFn, ok_bind]
    congr 1
    simp only [real_mul, real_div]
    rw [rawDensity_eq, posterior, mul_left_comm, mul_div_mul_left _ _ h3]

/-- The parts of a covariance matrix. -/
theorem covParts_ok {lup : Mat ℝ → Outcome (ℝ × Outcome (Mat ℝ))} (hl : LupExact lup) {d : ℕ} {S : Matrix (Fin d) (Fin d) ℝ} {p : ℝ × Mat ℝ}
    (h : covParts lup (ofM S) = ok p) : S.det ≠ 0 ∧ p = (Real.sqrt S.det, ofM S⁻¹) := by
  unfold covParts at h
  obtain ⟨⟨det, inv⟩, h1, h⟩ := bind_eq_ok.mp h
  obtain ⟨B, h2, h⟩ := bind_eq_ok.mp h
  obtain ⟨e1, e2⟩ := hl (ofM S) d det inv (ofM_shape S) (expectOk_ok h1)
  have h2' : inv = ok B := by
    cases inv <;> simp_all [fromLinalg]
  obtain ⟨e3, e4⟩ := e2 B h2'
  rw [toM_ofM] at e1 e4
  have hne : S.det ≠ 0 := by
    intro h0
    have := congrArg Matrix.det e4
    rw [Matrix.det_mul, h0, zero_mul, Matrix.det_one] at this
    exact zero_ne_one this
  refine ⟨hne, ?_⟩
  injection h with h
  rw [← h, e1, eq_ofM e3, Matrix.inv_eq_right_inv e4]
  rfl

theorem covParts_regular {lup : Mat ℝ → Outcome (ℝ × Outcome (Mat ℝ))} (hl : LupExact lup) (hr : LupRegular lup) {d : ℕ}
    {S : Matrix (Fin d) (Fin d) ℝ} (hS : S.det ≠ 0) : covParts lup (ofM S) = ok (Real.sqrt S.det, ofM S⁻¹) := by
  obtain ⟨det, B, h⟩ := hr (ofM S) d (ofM_shape S) (by rw [toM_ofM]; exact hS)
  have : covParts lup (ofM S) = ok (Scalar.sqrt det, B) := by
    unfold covParts
    rw [h]
    rfl
  rw [this, (covParts_ok hl this).2]

theorem mapM_ofFn_ok {α β : Type} {n : ℕ} {f : α → Outcome β} {a : Fin n → α} {l : List β} (h : (List.ofFn a).mapM f = ok l) :
    ∃ g : Fin n → β, l = List.ofFn g ∧ ∀ i, f (a i) = ok (g i) := by
  induction n generalizing l with
  | zero =>
    refine ⟨fun i => i.elim0, ?_, fun i => i.elim0⟩
    rw [List.ofFn_zero, List.mapM_nil] at h
    injection h with h
    rw [List.ofFn_zero, h]
  | succ n ih =>
    rw [List.ofFn_succ, List.mapM_cons] at h
    obtain ⟨b, h1, h⟩ := bind_eq_ok.mp h
    obtain ⟨bs, h2, h⟩ := bind_eq_ok.mp h
    obtain ⟨g, rfl, h3⟩ := ih h2
    injection h with h
    refine ⟨Fin.cons b g, ?_, fun i => ?_⟩
    · rw [List.ofFn_succ, ← h]; simp
    · refine Fin.cases ?_ (fun i => ?_) i
      · simpa using h1
      · simpa using h3 i

theorem lnsum_ofFn {n : ℕ} (v : Fin n → ℝ) : (List.ofFn v).foldl Scalar.add Scalar.zero = ∑ i, v i := fsum_ofFn v

/-- The membership weights are the posterior probabilities. -/
theorem memberships_eval {n k d : ℕ} {lup : Mat ℝ → Outcome (ℝ × Outcome (Mat ℝ))} {m : Gmm ℝ} {w : Fin k → ℝ} {μ : Fin k → Fin d → ℝ}
    {S : Fin k → Matrix (Fin d) (Fin d) ℝ} (hm : HasParams m w μ S)
    (hparts : (List.ofFn fun j => ofM (S j)).mapM (covParts lup) = ok (List.ofFn fun j => (Real.sqrt (S j).det, ofM (S j)⁻¹)))
    (x : Matrix (Fin n) (Fin d) ℝ) :
    m.memberships lup (ofM x) = ok (ofM (Matrix.of fun i => posterior w μ S (x i)),
      ∑ i, Real.log (Real.sqrt ((2 * Real.pi) ^ d) * mixDensity w μ S (x i))) := by
  obtain ⟨h1, h2, h3, h4⟩ := hm
  have h3' : m.means = some (ofM (Matrix.of μ)) := h3
  have h4' : m.covars.getD [] = List.ofFn fun j => ofM (S j) := by rw [h4]; rfl
  rw [Gmm.memberships, h4', hparts, ok_bind]
  simp only [h3', h1, h2]
  rw [ofM_rows, mapM_ofFn _ _ _ fun i => memberRow_ofFn w (x i) μ S, ok_bind]
  congr 2
  · unfold ofM matOf
    simp only [List.map_ofFn]
    rfl
  · rw [List.map_ofFn]
    exact lnsum_ofFn _

theorem memberships_ok {n k d : ℕ} {lup : Mat ℝ → Outcome (ℝ × Outcome (Mat ℝ))} (hl : LupExact lup) {m : Gmm ℝ} {w : Fin k → ℝ}
    {μ : Fin k → Fin d → ℝ} {S : Fin k → Matrix (Fin d) (Fin d) ℝ} (hm : HasParams m w μ S) {x : Matrix (Fin n) (Fin d) ℝ} {P : Mat ℝ} {l : ℝ}
    (h : m.memberships lup (ofM x) = ok (P, l)) :
    (∀ j, (S j).det ≠ 0) ∧ P = ofM (Matrix.of fun i => posterior w μ S (x i)) ∧
      l = ∑ i, Real.log (Real.sqrt ((2 * Real.pi) ^ d) * mixDensity w μ S (x i)) := by
  have h4' : m.covars.getD [] = List.ofFn fun j => ofM (S j) := by rw [hm.2.2.2]; rfl
  have h' := h
  rw [Gmm.memberships, h4'] at h'
  obtain ⟨parts, hp, -⟩ := bind_eq_ok.mp h'
  obtain ⟨g, rfl, hg⟩ := mapM_ofFn_ok hp
  have hg' : g = fun j => (Real.sqrt (S j).det, ofM (S j)⁻¹) := funext fun j => (covParts_ok hl (hg j)).2
  rw [hg'] at hp
  rw [memberships_eval hm hp x] at h
  injection h with h
  injection h with h1 h2
  exact ⟨fun j => (covParts_ok hl (hg j)).1, h1.symm, h2.symm⟩

theorem memberships_regular {n k d : ℕ} {lup : Mat ℝ → Outcome (ℝ × Outcome (Mat ℝ))} (hl : LupExact lup) (hr : LupRegular lup) {m : Gmm ℝ}
    {w : Fin k → ℝ} {μ : Fin k → Fin d → ℝ} {S : Fin k → Matrix (Fin d) (Fin d) ℝ} (hm : HasParams m w μ S) (hS : ∀ j, (S j).det ≠ 0)
    (x : Matrix (Fin n) (Fin d) ℝ) :
    m.memberships lup (ofM x) = ok (ofM (Matrix.of fun i => posterior w μ S (x i)),
      ∑ i, Real.log (Real.sqrt ((2 * Real.pi) ^ d) * mixDensity w μ S (x i))) :=
  memberships_eval hm (mapM_ofFn _ _ _ fun j => covParts_regular hl hr (hS j)) x

theorem sumRows_ofM {n k : ℕ} (r : Matrix (Fin n) (Fin k) ℝ) : (ofM r).sumRows = List.ofFn fun j => ∑ i, r i j := by
  unfold Mat.sumRows
  rw [ofM_cols]
  apply List.ext_getElem (by simp)
  intro j h1 h2
  have hj : j < k := by simpa using h1
  rw [List.getElem_map, List.getElem_range, List.getElem_ofFn, colOf_getD (ofM_shape r) hj, fsum_real, lsum_range, Finset.sum_range]
  refine Finset.sum_congr rfl fun i _ => ?_
  exact ent_matOf _ i ⟨j, hj⟩

theorem fromDiag_ofFn {d : ℕ} (v : Fin d → ℝ) : fromDiag (List.ofFn v) = ofM (Matrix.diagonal v) := by
  unfold fromDiag ofM matOf
  rw [List.length_ofFn]
  congr 1
  apply List.ext_getElem (by simp)
  intro i h1 h2
  have hi : i < d := by simpa using h1
  rw [List.getElem_map, List.getElem_range, List.getElem_ofFn]
  apply List.ext_getElem (by simp)
  intro j h3 h4
  have hj : j < d := by simpa using h3
  rw [List.getElem_map, List.getElem_range, List.getElem_ofFn]
  show _ = Matrix.diagonal v ⟨i, hi⟩ ⟨j, hj⟩
  rw [Matrix.diagonal_apply]
  simp [Fin.ext_iff, hi]

theorem eyeMat_ofM (d : ℕ) : (eyeMat d : Mat ℝ) = ofM (1 : Matrix (Fin d) (Fin d) ℝ) := by
  have : List.replicate d (Scalar.one : ℝ) = List.ofFn fun _ : Fin d => (1 : ℝ) := by simp
  rw [eyeMat, this, fromDiag_ofFn]
  rfl

theorem zeros_ofM (n m : ℕ) : (Mat.zeros n m : Mat ℝ) = ofM (0 : Matrix (Fin n) (Fin m) ℝ) := by
  unfold Mat.zeros ofM matOf
  simp

/-- One sample's part of a covariance. -/
noncomputable def covTerm {d : ℕ} (opt : CovOption ℝ) (y : Fin d → ℝ) (w : ℝ) : Matrix (Fin d) (Fin d) ℝ :=
  match opt with
  | .diagonal => Matrix.diagonal fun a => w * (y a * y a)
  | _ => Matrix.of fun a b => w * (y a * y b)

theorem computeCov_ofFn {d : ℕ} (opt : CovOption ℝ) (y : Fin d → ℝ) (w : ℝ) : computeCov opt (List.ofFn y) w = ok (ofM (covTerm opt y w)) := by
  have hfull : (do
      let p ← (rowMat (List.ofFn y)).transpose.mul (rowMat (List.ofFn y))
      ok (p.scaleBy w)) = ok (ofM (Matrix.of fun a b => w * (y a * y b))) := by
    rw [rowMat_ofFn, ofM_transpose, ofM_mul, ok_bind, Mat.scaleBy, ofM_map]
    congr 2
    ext a b
    simp only [Matrix.map_apply, Matrix.mul_apply, Finset.univ_unique, Finset.sum_singleton, Matrix.transpose_apply, Matrix.of_apply, real_mul]
    ring
  cases opt with
  | full => exact hfull
  | regularized e => exact hfull
  | diagonal =>
    simp only [computeCov, covTerm]
    rw [vecZip_ofFn, ok_bind, fromDiag_ofFn, Mat.scaleBy, ofM_map]
    congr 2
    ext a b
    simp only [Matrix.map_apply, Matrix.diagonal_apply, real_mul]
    split
    · ring
    · ring

theorem foldlM_range_ofM {n d : ℕ} (f : Mat ℝ → ℕ → Outcome (Mat ℝ)) (c : Fin n → Matrix (Fin d) (Fin d) ℝ)
    (h : ∀ (A : Matrix (Fin d) (Fin d) ℝ) (i : Fin n), f (ofM A) i = ok (ofM (A + c i))) :
    (List.range n).foldlM f (ofM (0 : Matrix (Fin d) (Fin d) ℝ)) = ok (ofM (∑ i, c i)) := by
  let c' : ℕ → Matrix (Fin d) (Fin d) ℝ := fun i => if h : i < n then c ⟨i, h⟩ else 0
  have : ∀ t, t ≤ n → (List.range t).foldlM f (ofM (0 : Matrix (Fin d) (Fin d) ℝ)) = ok (ofM (∑ i ∈ Finset.range t, c' i)) := by
    intro t
    induction t with
    | zero => intro _; simp
    | succ t ih =>
      intro ht
      rw [List.range_succ, List.foldlM_append, ih (by omega), ok_bind]
      simp only [List.foldlM_cons, List.foldlM_nil]
      rw [h _ ⟨t, by omega⟩, Finset.sum_range_succ]
      simp only [c', dif_pos (show t < n by omega)]
      rfl
  rw [this n (le_refl n), Finset.sum_range]
  congr 2
  refine Finset.sum_congr rfl fun i _ => ?_
  simp [c']

theorem covSum_ofM {n k d : ℕ} (opt : CovOption ℝ) (x : Matrix (Fin n) (Fin d) ℝ) (r : Matrix (Fin n) (Fin k) ℝ) (μ : Fin d → ℝ) (j : Fin k) :
    covSum opt (ofM x) (ofM r) (List.ofFn μ) j = ok (ofM (∑ i, covTerm opt (x i - μ) (r i j))) := by
  unfold covSum
  rw [ofM_cols, zeros_ofM, ofM_rows r, List.length_ofFn]
  refine foldlM_range_ofM _ _ fun A i => ?_
  rw [ofM_rows x, getAt_ofFn, ok_bind, vecZip_ofFn, ok_bind, getAt_ofFn, ok_bind, getAt_ofFn, ok_bind]
  have : (fun a => Scalar.sub (x i a) (μ a)) = x i - μ := rfl
  rw [this, computeCov_ofFn, ok_bind, ofM_zip]
  rfl

/-- The new covariance. -/
theorem newCov_ofM {n k d : ℕ} (opt : CovOption ℝ) (x : Matrix (Fin n) (Fin d) ℝ) (r : Matrix (Fin n) (Fin k) ℝ) (j : Fin k) :
    newCov opt (ofM x) (ofM r) (ofM (Matrix.of (weightedMean r x))) (List.ofFn (compTotal r)) j = ok (ofM (optionCov opt r x j)) := by
  unfold newCov
  rw [ofM_rows, getAt_ofFn, ok_bind]
  have h := covSum_ofM opt x r (weightedMean r x j) j
  have e : List.ofFn (Matrix.of (weightedMean r x) j) = List.ofFn (weightedMean r x j) := rfl
  rw [e, h, ok_bind]
  cases opt with
  | full =>
    simp only [addReg, ok_bind]
    rw [getAt_ofFn, ok_bind, ofM_map]
    congr 2
    ext a b
    simp only [Matrix.map_apply, Matrix.sum_apply, covTerm, optionCov, weightedCov, Matrix.of_apply, real_div, Pi.sub_apply]
  | diagonal =>
    simp only [addReg, ok_bind]
    rw [getAt_ofFn, ok_bind, ofM_map]
    congr 2
    ext a b
    simp only [Matrix.map_apply, Matrix.sum_apply, covTerm, optionCov, weightedCov, Matrix.of_apply, real_div, Pi.sub_apply,
      Matrix.diagonal_apply]
    by_cases hab : a = b
    · subst hab
      simp
    · simp [hab]
  | regularized eps =>
    simp only [addReg]
    rw [ofM_cols, eyeMat_ofM, Mat.scaleBy, ofM_map, ofM_zip, ok_bind, getAt_ofFn, ok_bind, ofM_map]
    congr 2
    ext a b
    simp only [Matrix.map_apply, Matrix.sum_apply, covTerm, optionCov, weightedCov, Matrix.of_apply, real_div, real_add, real_mul, Pi.sub_apply,
      Matrix.add_apply, Matrix.smul_apply, smul_eq_mul]
    ring

/-- The maximisation step. -/
theorem update_ofM {n k d : ℕ} {m : Gmm ℝ} (hk : m.compCount = k) (x : Matrix (Fin n) (Fin d) ℝ) (r : Matrix (Fin n) (Fin k) ℝ) :
    ∃ m', m.update (ofM x) (ofM r) = ok m' ∧ HasParams m' (fun j => compTotal r j / n) (weightedMean r x) (optionCov m.covOption r x) ∧
      m'.covOption = m.covOption ∧ m'.maxIters = m.maxIters ∧ m'.logLik = m.logLik := by
  have hs : (ofM r).sumRows = List.ofFn (compTotal r) := sumRows_ofM r
  have hmeans : (⟨(ofM (rᵀ * x)).cols, List.zipWith (fun row w => row.map fun v => Scalar.div v w) (ofM (rᵀ * x)).rows (List.ofFn (compTotal r))⟩ : Mat ℝ)
      = ofM (Matrix.of (weightedMean r x)) := by
    rw [ofM_rows, zipWith_ofFn]
    unfold ofM matOf
    congr 2
    funext j
    rw [List.map_ofFn]
    congr 1
  refine ⟨{ m with
    mixWeights := List.ofFn fun j => compTotal r j / n
    means := some (ofM (Matrix.of (weightedMean r x)))
    covars := some (List.ofFn fun j => ofM (optionCov m.covOption r x j)) }, ?_, ⟨hk, rfl, rfl, rfl⟩, rfl, rfl, rfl⟩
  rw [Gmm.update, ofM_transpose, ofM_mul, ok_bind]
  simp only [hs, hmeans, hk]
  rw [mapM_range_ofFn _ _ fun j => newCov_ofM m.covOption x r j, ok_bind]
  congr 2
  rw [ofM_rows, List.length_ofFn, List.map_ofFn]
  rfl

end RM
