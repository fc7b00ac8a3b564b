import Verif.Spec.Glm
import Verif.Props.Regression

/-! Iteratively reweighted least squares. -/

set_option linter.unusedSectionVars false

namespace RM
open Outcome Scalar Spec Matrix

theorem bind_eq_err {α β : Type} {o : Outcome α} {f : α → Outcome β} {k : ErrorKind} :
    (o >>= f) = err k ↔ o = err k ∨ ∃ a, o = ok a ∧ f a = err k := by
  cases o with
  | ok a => simp
  | err k' =>
    constructor
    · intro h
      left
      injection h with h
      rw [h]
    · rintro (h | ⟨a, h, _⟩)
      · injection h with h; rw [h]; rfl
      · cases h
  | panic =>
    constructor
    · intro h; cases h
    · rintro (h | ⟨a, h, _⟩) <;> cases h
  | ub =>
    constructor
    · intro h; cases h
    · rintro (h | ⟨a, h, _⟩) <;> cases h

theorem diagMat_toM {d : List ℝ} {n : ℕ} (h : d.length = n) : HasShape (diagMat d) n n ∧ toM n n (diagMat d) = diagonal (toV n d) := by
  subst h
  refine ⟨⟨by simp [diagMat], rfl, ?_⟩, ?_⟩
  · intro row hrow
    obtain ⟨i, _, rfl⟩ := List.mem_map.mp hrow
    simp [diagMat]
  · ext i j
    rw [toM_apply]
    unfold ent diagMat
    simp only
    rw [getD_map_lt _ _ 0 _ _ (by simp)]
    have : (List.range d.length).getD i 0 = i := by simp [List.getD_eq_getElem?_getD]
    rw [this, getD_map_range _ _ _ j.2, Matrix.diagonal_apply]
    simp only [toV, real_zero, Fin.ext_iff]

theorem vecZip_ok {u v : List ℝ} {n : ℕ} (f : ℝ → ℝ → ℝ) (hu : u.length = n) (hv : v.length = n) :
    vecZip f u v = ok (List.zipWith f u v) := by
  unfold vecZip
  rw [if_pos (by rw [hu, hv])]

theorem toV_zipWith {u v : List ℝ} {n : ℕ} (f : ℝ → ℝ → ℝ) (hu : u.length = n) (hv : v.length = n) :
    toV n (List.zipWith f u v) = fun i => f (toV n u i) (toV n v i) := by
  funext i
  have h1 : (i : ℕ) < u.length := by rw [hu]; exact i.2
  have h2 : (i : ℕ) < v.length := by rw [hv]; exact i.2
  simp [toV, List.getD_eq_getElem?_getD, h1, h2]

theorem toV_map {u : List ℝ} {n : ℕ} (f : ℝ → ℝ) (hu : u.length = n) : toV n (u.map f) = fun i => f (toV n u i) := by
  funext i
  have h1 : (i : ℕ) < u.length := by rw [hu]; exact i.2
  simp [toV, List.getD_eq_getElem?_getD, h1]

/-- One pass: everything up to the inverse succeeds, and what the new parameters are. -/
theorem irlsStep_eq {inverse : Mat ℝ → Outcome (Mat ℝ)} {f : Family ℝ} {full : Mat ℝ} {n m : ℕ} (hS : HasShape full n m)
    {y mu z w : List ℝ} (hy : y.length = n) (hmu : mu.length = n) (hw : f.workingWeight mu = ok w) (hwl : w.length = n) :
    ∃ xtw a, HasShape xtw m n ∧ HasShape a m m ∧ toM m n xtw = (toM n m full)ᵀ * diagonal (toV n w) ∧
      toM m m a = (toM n m full)ᵀ * diagonal (toV n w) * toM n m full ∧
      irlsStep inverse f full full.transpose y mu z = (do
        let inv ← expectOk (inverse a)
        let t ← inv.mul xtw
        let b ← t.mulVec z
        ok (List.zipWith f.adjust y mu, b)) := by
  obtain ⟨t1, t2⟩ := transpose_toM hS
  obtain ⟨d1, d2⟩ := diagMat_toM hwl
  obtain ⟨xtw, x1, x2, x3⟩ := mul_toM t1 d1
  obtain ⟨a, a1, a2, a3⟩ := mul_toM x2 hS
  rw [t2, d2] at x3
  rw [x3] at a3
  refine ⟨xtw, a, x2, a2, x3, a3, ?_⟩
  unfold irlsStep Family.yBar
  rw [hw, ok_bind, vecZip_ok _ hy hmu, ok_bind, x1, ok_bind, a1, ok_bind]

/-- What a successful pass has computed. -/
theorem irlsStep_ok {inverse : Mat ℝ → Outcome (Mat ℝ)} (hi : InvertsExactly inverse) {f : Family ℝ} {full : Mat ℝ} {n m : ℕ} (hS : HasShape full n m)
    {y mu z w : List ℝ} (hy : y.length = n) (hmu : mu.length = n) (hz : z.length = n) (hw : f.workingWeight mu = ok w) (hwl : w.length = n)
    {s : List ℝ × List ℝ} (h : irlsStep inverse f full full.transpose y mu z = ok s) :
    s.1 = List.zipWith f.adjust y mu ∧ s.2.length = m ∧
      ((toM n m full)ᵀ * diagonal (toV n w) * toM n m full).mulVec (toV m s.2) = ((toM n m full)ᵀ * diagonal (toV n w)).mulVec (toV n z) ∧
      ((toM n m full)ᵀ * diagonal (toV n w) * toM n m full).det ≠ 0 := by
  obtain ⟨xtw, a, x2, a2, x3, a3, he⟩ := irlsStep_eq (inverse := inverse) hS hy hmu (z := z) hw hwl
  rw [he] at h
  obtain ⟨B, hB, h⟩ := bind_eq_ok.mp h
  have hB' : inverse a = ok B := by
    cases hc : inverse a <;> rw [hc] at hB <;> simp [expectOk] at hB ⊢
    exact hB
  obtain ⟨b1, b2, b3⟩ := inverse_toM hi a2 hB'
  obtain ⟨t, t1, t2, t3⟩ := mul_toM b1 x2
  obtain ⟨u, u1, u2, u3⟩ := mulVec_toV t2 hz
  rw [t1, ok_bind, u1, ok_bind] at h
  injection h with h
  subst h
  refine ⟨rfl, u2, ?_, ?_⟩
  · rw [u3, t3, Matrix.mulVec_mulVec, ← Matrix.mul_assoc, ← a3, b2, Matrix.one_mul, x3]
  · rw [← a3]
    intro hd
    have := congrArg Matrix.det b2
    rw [Matrix.det_mul, hd, zero_mul, Matrix.det_one] at this
    exact zero_ne_one this

/-- A pass never returns an error. -/
theorem irlsStep_not_err {inverse : Mat ℝ → Outcome (Mat ℝ)} (f : Family ℝ) (full xt : Mat ℝ) (y mu z : List ℝ) (k : ErrorKind) :
    irlsStep inverse f full xt y mu z ≠ err k := by
  unfold irlsStep
  intro h
  have hv : ∀ (g : ℝ → ℝ → ℝ) (u v : List ℝ), vecZip g u v ≠ err k := by
    intro g u v; unfold vecZip; split <;> exact fun h => by cases h
  have hm : ∀ (a b : Mat ℝ), a.mul b ≠ err k := by
    intro a b; unfold Mat.mul; split <;> exact fun h => by cases h
  have hmv : ∀ (a : Mat ℝ) (b : List ℝ), a.mulVec b ≠ err k := by
    intro a b; unfold Mat.mulVec; split <;> exact fun h => by cases h
  have he : ∀ o : Outcome (Mat ℝ), expectOk o ≠ err k := by
    intro o; cases o <;> exact fun h => by cases h
  have hwk : ∀ mu, f.workingWeight mu ≠ err k := by
    intro mu; unfold Family.workingWeight; split <;> (try split) <;> exact fun h => by cases h
  rcases bind_eq_err.mp h with h | ⟨_, _, h⟩
  · exact hwk _ h
  rcases bind_eq_err.mp h with h | ⟨_, _, h⟩
  · exact hv _ _ _ h
  rcases bind_eq_err.mp h with h | ⟨_, _, h⟩
  · exact hm _ _ h
  rcases bind_eq_err.mp h with h | ⟨_, _, h⟩
  · exact hm _ _ h
  rcases bind_eq_err.mp h with h | ⟨_, _, h⟩
  · exact he _ h
  rcases bind_eq_err.mp h with h | ⟨_, _, h⟩
  · exact hm _ _ h
  rcases bind_eq_err.mp h with h | ⟨_, _, h⟩
  · exact hmv _ _ h
  cases h

/-- Positive weights keep full column rank. -/
theorem weighted_det {n m : ℕ} (A : Matrix (Fin n) (Fin m) ℝ) (w : Fin n → ℝ) (hw : ∀ i, 0 < w i) (hA : ∀ v, A.mulVec v = 0 → v = 0) :
    (Aᵀ * diagonal w * A).det ≠ 0 := by
  intro hd
  obtain ⟨v, hv, hz⟩ := Matrix.exists_mulVec_eq_zero_iff.mpr hd
  apply hv
  apply hA
  have h1 : A.mulVec v ⬝ᵥ (diagonal w).mulVec (A.mulVec v) = 0 := by
    have : v ⬝ᵥ (Aᵀ * diagonal w * A).mulVec v = 0 := by rw [hz, dotProduct_zero]
    rw [← this, ← Matrix.mulVec_mulVec, ← Matrix.mulVec_mulVec, Matrix.dotProduct_mulVec v, ← Matrix.mulVec_transpose, Matrix.transpose_transpose]
  have h2 : ∑ i, w i * (A.mulVec v i) ^ 2 = 0 := by
    rw [← h1]
    apply Finset.sum_congr rfl
    intro i _
    rw [Matrix.mulVec_diagonal]; ring
  funext i
  have := (Finset.sum_eq_zero_iff_of_nonneg fun i _ => mul_nonneg (hw i).le (sq_nonneg _)).mp h2 i (Finset.mem_univ i)
  rcases mul_eq_zero.mp this with h | h
  · exact absurd h (hw i).ne'
  · exact pow_eq_zero_iff (two_ne_zero) |>.mp h

theorem floorWeight_pos {v : ℝ} (h : 0 < v) : 0 < floorWeight v := by
  unfold floorWeight
  split
  · simp only [real_ofRat]; norm_num
  · exact h

theorem variance_pos {f : Family ℝ} {m : ℝ} (h : m ∈ MeanRange f) : 0 < f.variance m := by
  cases f with
  | normal => exact one_pos
  | poisson => exact h
  | bernoulli =>
    obtain ⟨h1, h2⟩ := h
    simp only [Family.variance]
    split
    · simp only [real_ofRat]; norm_num
    · simp only [real_mul, real_sub, real_one]; exact mul_pos h1 (by linarith)
  | binomial ws =>
    obtain ⟨h1, h2⟩ := h
    simp only [Family.variance]
    split
    · simp only [real_ofRat]; norm_num
    · simp only [real_mul, real_sub, real_one]; exact mul_pos h1 (by linarith)

theorem workingWeight_pos (f : Family ℝ) (mu : List ℝ) (hmu : ∀ m ∈ mu, m ∈ MeanRange f) (hg : GoodWeights f mu.length) :
    ∃ w, f.workingWeight mu = ok w ∧ w.length = mu.length ∧ ∀ v ∈ w, 0 < v := by
  cases f with
  | bernoulli =>
    refine ⟨_, rfl, by simp, ?_⟩
    intro v hv
    obtain ⟨m, hm, rfl⟩ := List.mem_map.mp hv
    exact floorWeight_pos (variance_pos (hmu m hm))
  | binomial ws =>
    obtain ⟨g1, g2⟩ := hg
    refine ⟨_, if_pos g1, by simp [g1], ?_⟩
    intro v hv
    obtain ⟨i, hi, rfl⟩ := List.getElem_of_mem hv
    rw [List.getElem_zipWith]
    simp only [List.length_zipWith] at hi
    exact floorWeight_pos (div_pos (variance_pos (hmu _ (List.getElem_mem _))) (g2 _ (List.getElem_mem _)))
  | normal =>
    refine ⟨_, rfl, by simp, ?_⟩
    intro v hv
    obtain ⟨m, hm, rfl⟩ := List.mem_map.mp hv
    simp [Family.variance, Family.link, identityLink]
  | poisson => exact ⟨_, rfl, rfl, hmu⟩

theorem funcInv_mem (f : Family ℝ) (s : ℝ) : f.link.funcInv s ∈ MeanRange f := by
  cases f with
  | normal => trivial
  | poisson => exact Real.exp_pos s
  | bernoulli => exact logistic_mem s
  | binomial ws => exact logistic_mem s

theorem startMean_mem (f : Family ℝ) (y : ℝ) : f.startMean y ∈ MeanRange f := by
  cases f with
  | normal => trivial
  | poisson =>
    simp only [Family.startMean, MeanRange, Set.mem_Ioi]
    split
    · simp only [real_ofRat]; norm_num
    · rename_i h
      simp only [real_lt, real_ofRat, decide_eq_true_eq, not_lt] at h
      have : (0 : ℝ) < ((1 / 10 ^ 10 : ℚ) : ℝ) := by norm_num
      linarith
  | bernoulli =>
    simp only [Family.startMean, MeanRange, Set.mem_Ioo]
    have e : (0 : ℝ) < ((1 / 10 ^ 10 : ℚ) : ℝ) ∧ ((1 / 10 ^ 10 : ℚ) : ℝ) < 1 := by norm_num
    split
    · simp only [real_ofRat]; exact e
    · rename_i h
      simp only [real_lt, real_ofRat, decide_eq_true_eq, not_lt] at h
      split
      · simp only [real_ofRat, real_one, real_sub]; constructor <;> linarith [e.1, e.2]
      · rename_i h'
        simp only [real_lt, real_ofRat, real_one, real_sub, decide_eq_true_eq, not_lt] at h'
        constructor <;> linarith [e.1, e.2]
  | binomial ws =>
    simp only [Family.startMean, MeanRange, Set.mem_Ioo]
    have e : (0 : ℝ) < ((1 / 10 ^ 10 : ℚ) : ℝ) ∧ ((1 / 10 ^ 10 : ℚ) : ℝ) < 1 := by norm_num
    split
    · simp only [real_ofRat]; exact e
    · rename_i h
      simp only [real_lt, real_ofRat, decide_eq_true_eq, not_lt] at h
      split
      · simp only [real_ofRat, real_one, real_sub]; constructor <;> linarith [e.1, e.2]
      · rename_i h'
        simp only [real_lt, real_ofRat, real_one, real_sub, decide_eq_true_eq, not_lt] at h'
        constructor <;> linarith [e.1, e.2]

/-- Independence of the columns of the inputs with ones. -/
theorem affinelyIndependent_iff {X : Mat ℝ} (hX : X.WF) : AffinelyIndependent X ↔
    ∀ v, (toM X.rows.length (X.cols + 1) ⟨X.cols + 1, X.rows.map ((1 : ℝ) :: ·)⟩).mulVec v = 0 → v = 0 := by
  have hS := withOnes_shape hX
  have e : ∀ β : List ℝ, β.length = X.cols + 1 → ∀ i : Fin X.rows.length,
      (toM X.rows.length (X.cols + 1) ⟨X.cols + 1, X.rows.map ((1 : ℝ) :: ·)⟩).mulVec (toV _ β) i = affine β (X.rows.getD i []) := by
    intro β hb i
    rw [mulVec_row hS hb, ← dot_inner, getD_map_lt _ _ [] _ _ i.2, dot_affine _ _ (by intro h; rw [h] at hb; simp at hb)]
  constructor
  · intro h v hv
    have := h (List.ofFn v) (by simp) (by
      intro x hx
      obtain ⟨i, hi, rfl⟩ := List.getElem_of_mem hx
      have h2 := e (List.ofFn v) (by simp) ⟨i, hi⟩
      rw [toV_ofFn, hv, List.getD_eq_getElem?_getD, List.getElem?_eq_getElem hi, Option.getD_some] at h2
      exact h2.symm)
    rw [← toV_ofFn v, this, toV_zeroVec]
  · intro h β hb hz
    have := h (toV _ β) (by
      funext i
      rw [e β hb, List.getD_eq_getElem?_getD, List.getElem?_eq_getElem i.2, Option.getD_some]
      exact hz _ (List.getElem_mem i.2))
    exact toV_inj hb (by simp [zeroVec]) (by rw [this, toV_zeroVec])

end RM
