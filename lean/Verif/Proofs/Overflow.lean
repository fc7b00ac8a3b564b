import Verif.Spec.Overflow
import Verif.Proofs.MapDist
import Verif.Proofs.KMeans

/-! Arithmetic of bounded range: squared distances that fit, and those that do not. -/

namespace RM
open Outcome Scalar Spec

theorem fin_cmpHom : CmpHom BR.fin where
  lt := fun _ _ => br_lt
  le := fun _ _ => br_le
  nan := fun _ => rfl

@[simp] theorem bfins_length (v : List ℝ) : (bfins v).length = v.length := by simp [bfins]

theorem fin_maxVal : BR.fin (Scalar.maxVal : ℝ) = Scalar.maxVal := rfl

theorem br_foldl {l : List ℝ} : ∀ a : ℝ, 0 ≤ a → (∀ x ∈ l, 0 ≤ x) → a + l.sum ≤ BR.top →
    (bfins l).foldl Scalar.add (BR.fin a) = BR.fin (l.foldl Scalar.add a) := by
  induction l with
  | nil => intro a _ _ _; rfl
  | cons x l ih =>
    intro a ha hl hs
    have hx := hl x (by simp)
    have hl' : ∀ x ∈ l, 0 ≤ x := fun y hy => hl y (by simp [hy])
    have h0 := List.sum_nonneg hl'
    rw [List.sum_cons] at hs
    simp only [bfins, List.map_cons, List.foldl_cons]
    rw [br_add (by rw [abs_of_nonneg (by linarith)]; linarith)]
    exact ih (a + x) (by linarith) hl' (by linarith)

/-- A non-negative number, possibly infinite. -/
def BR.NonNeg (a : BR) : Prop := a = BR.pinf ∨ ∃ x : ℝ, 0 ≤ x ∧ a = BR.fin x

theorem BR.NonNeg.add {a b : BR} (ha : a.NonNeg) (hb : b.NonNeg) : (Scalar.add a b).NonNeg := by
  rcases ha with rfl | ⟨x, hx, rfl⟩
  · rcases hb with rfl | ⟨y, hy, rfl⟩
    · exact Or.inl rfl
    · exact Or.inl rfl
  · rcases hb with rfl | ⟨y, hy, rfl⟩
    · exact Or.inl rfl
    · by_cases h : BR.top < x + y
      · exact Or.inl (br_add_over h)
      · exact Or.inr ⟨x + y, by linarith, br_add (by rw [abs_of_nonneg (by linarith)]; linarith)⟩

theorem BR.NonNeg.add_pinf {a : BR} (ha : a.NonNeg) : Scalar.add a BR.pinf = BR.pinf := by
  rcases ha with rfl | ⟨x, hx, rfl⟩ <;> rfl

theorem BR.NonNeg.pinf_add {a : BR} (ha : a.NonNeg) : Scalar.add BR.pinf a = BR.pinf := by
  rcases ha with rfl | ⟨x, hx, rfl⟩ <;> rfl

theorem br_foldl_pinf {l : List BR} : ∀ a : BR, a.NonNeg → (∀ x ∈ l, x.NonNeg) → (a = BR.pinf ∨ BR.pinf ∈ l) →
    l.foldl Scalar.add a = BR.pinf := by
  induction l with
  | nil => intro a _ _ h; simpa using h
  | cons x l ih =>
    intro a ha hl h
    rw [List.foldl_cons]
    refine ih _ (ha.add (hl x (by simp))) (fun y hy => hl y (by simp [hy])) ?_
    rcases h with rfl | h
    · exact Or.inl (hl x (by simp)).pinf_add
    · rcases List.mem_cons.1 h with rfl | h
      · exact Or.inl ha.add_pinf
      · exact Or.inr h

/-- The square of a difference. -/
noncomputable def bsq (x y : ℝ) : BR := (BR.fin x -. BR.fin y) *. (BR.fin x -. BR.fin y)

theorem bsq_fits {x y : ℝ} (h : (x - y) ^ 2 ≤ BR.top) : bsq x y = BR.fin ((x - y) * (x - y)) := by
  have h1 := BR.one_le_top
  have hd : |x - y| ≤ BR.top := by
    by_cases hc : |x - y| ≤ 1
    · linarith
    · have : |x - y| ≤ |x - y| ^ 2 := by nlinarith
      rw [sq_abs] at this
      linarith
  unfold bsq
  rw [br_sub hd, br_mul]
  rw [abs_of_nonneg (mul_self_nonneg _), ← pow_two]
  exact h

theorem bsq_over {x y : ℝ} (h : BR.top < (x - y) ^ 2) : bsq x y = BR.pinf := by
  unfold bsq
  by_cases h1 : BR.top < x - y
  · rw [br_sub_over h1]; rfl
  · by_cases h2 : x - y < -BR.top
    · rw [br_sub_under h2]; rfl
    · push Not at h1 h2
      rw [br_sub (abs_le.2 ⟨h2, h1⟩)]
      exact br_mul_over (by rw [← pow_two]; exact h)

theorem bsq_nonNeg (x y : ℝ) : (bsq x y).NonNeg := by
  by_cases h : BR.top < (x - y) ^ 2
  · exact Or.inl (bsq_over h)
  · exact Or.inr ⟨_, mul_self_nonneg _, bsq_fits (not_lt.1 h)⟩

theorem bsq_list {R : ℝ} {c : ℕ} (hc : 1 ≤ c) (hR : SquaresFit R c) : ∀ {u v : List ℝ}, Within R u → Within R v →
    List.zipWith (fun x y : BR => (x -. y) *. (x -. y)) (bfins u) (bfins v) = bfins (List.zipWith (fun x y => (x - y) * (x - y)) u v) := by
  have hR1 : (2 * R) ^ 2 ≤ BR.top := by
    unfold SquaresFit at hR
    have : (1 : ℝ) ≤ c := by exact_mod_cast hc
    nlinarith [sq_nonneg (2 * R)]
  intro u
  induction u with
  | nil => intro v _ _; simp [bfins]
  | cons x u ih =>
    intro v hu hv
    cases v with
    | nil => simp [bfins]
    | cons y v =>
      have hx := abs_le.1 (hu x (by simp))
      have hy := abs_le.1 (hv y (by simp))
      have e : (x - y) ^ 2 ≤ BR.top := le_trans (sq_le_sq' (by linarith) (by linarith)) hR1
      have e1 := bsq_fits e
      have e2 := ih (v := v) (fun a ha => hu a (by simp [ha])) (fun a ha => hv a (by simp [ha]))
      unfold bsq at e1
      simp only [bfins, List.map_cons, List.zipWith_cons_cons] at e2 ⊢
      rw [e1, e2]

theorem sq_sum_le {R : ℝ} {u v : List ℝ} (hu : Within R u) (hv : Within R v) :
    ∀ x ∈ List.zipWith (fun x y => (x - y) * (x - y)) u v, x ≤ (2 * R) ^ 2 := by
  intro z hz
  obtain ⟨i, hi, rfl⟩ := List.mem_iff_getElem.1 hz
  simp only [List.length_zipWith, lt_min_iff] at hi
  simp only [List.getElem_zipWith]
  have hx := abs_le.1 (hu u[i] (List.getElem_mem _))
  have hy := abs_le.1 (hv v[i] (List.getElem_mem _))
  nlinarith

theorem br_sqsum {R : ℝ} {c : ℕ} (hR : SquaresFit R c) {u v : List ℝ} (hu : Within R u) (hv : Within R v) (hl : v.length ≤ c) :
    (List.zipWith (fun x y : BR => (x -. y) *. (x -. y)) (bfins u) (bfins v)).foldl Scalar.add Scalar.zero =
      BR.fin ((List.zipWith (fun x y => (x - y) * (x - y)) u v).foldl Scalar.add 0) := by
  by_cases hc : 1 ≤ c
  · rw [bsq_list hc hR hu hv]
    refine br_foldl 0 (le_refl _) ?_ ?_
    · intro x hx
      obtain ⟨i, hi, rfl⟩ := List.mem_iff_getElem.1 hx
      simp only [List.getElem_zipWith]
      exact mul_self_nonneg _
    · have h1 := List.sum_le_card_nsmul _ _ (sq_sum_le hu hv)
      have h2 : ((List.zipWith (fun x y : ℝ => (x - y) * (x - y)) u v).length : ℝ) ≤ c := by
        rw [List.length_zipWith]
        exact_mod_cast le_trans (min_le_right _ _) hl
      rw [nsmul_eq_mul] at h1
      unfold SquaresFit at hR
      nlinarith [sq_nonneg (2 * R)]
  · have : v = [] := List.length_eq_zero_iff.1 (by omega)
    subst this
    simp [bfins]

theorem br_knnDist {R : ℝ} {c : ℕ} (hR : SquaresFit R c) {u v : List ℝ} (hu : Within R u) (hv : Within R v) (hl : v.length ≤ c) :
    knnDist (bfins u) (bfins v) = BR.fin (knnDist u v) := by
  unfold knnDist
  rw [br_sqsum hR hu hv hl, br_sqrt]
  · rfl
  · have : ∀ (l : List ℝ) (a : ℝ), 0 ≤ a → (∀ x ∈ l, 0 ≤ x) → 0 ≤ l.foldl Scalar.add a := by
      intro l
      induction l with
      | nil => intro a h _; exact h
      | cons x l ih => intro a ha hl; exact ih (a + x) (add_nonneg ha (hl x (by simp))) fun y hy => hl y (by simp [hy])
    apply this _ _ (le_refl _)
    intro x hx
    obtain ⟨i, hi, rfl⟩ := List.mem_iff_getElem.1 hx
    simp only [List.getElem_zipWith]
    exact mul_self_nonneg _

theorem br_sqsum_far {u v : List ℝ} (h : FarApart u v) :
    (List.zipWith (fun x y : BR => (x -. y) *. (x -. y)) (bfins u) (bfins v)).foldl Scalar.add Scalar.zero = BR.pinf := by
  have e : List.zipWith (fun x y : BR => (x -. y) *. (x -. y)) (bfins u) (bfins v) = List.zipWith bsq u v := by
    simp only [bfins, List.zipWith_map]
    rfl
  rw [e]
  refine br_foldl_pinf _ (Or.inr ⟨0, le_refl _, rfl⟩) ?_ (Or.inr ?_)
  · intro x hx
    obtain ⟨i, hi, rfl⟩ := List.mem_iff_getElem.1 hx
    simp only [List.getElem_zipWith]
    exact bsq_nonNeg _ _
  · obtain ⟨j, h1, h2, h3⟩ := h
    rw [List.mem_iff_getElem]
    refine ⟨j, by simp [h1, h2], ?_⟩
    simp only [List.getElem_zipWith]
    exact bsq_over h3

theorem br_knnDist_far {u v : List ℝ} (h : FarApart u v) : knnDist (bfins u) (bfins v) = BR.pinf := by
  unfold knnDist
  rw [br_sqsum_far h, br_sqrt_pinf]

theorem kmDist_eq {F : Type} [Scalar F] (row c : List F) :
    kmDist row c = (List.zipWith (fun x y : F => (x -. y) *. (x -. y)) c row).foldl Scalar.add Scalar.zero := by
  unfold kmDist fsum
  rw [List.map_zipWith]

theorem br_kmDist {R : ℝ} {c : ℕ} (hR : SquaresFit R c) {u v : List ℝ} (hu : Within R u) (hv : Within R v) (hl : u.length ≤ c) :
    kmDist (bfins u) (bfins v) = BR.fin (kmDist u v) := by
  rw [kmDist_eq, kmDist_eq, br_sqsum hR hv hu hl]
  rfl

end RM
