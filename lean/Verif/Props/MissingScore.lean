import Verif.Props.MissingTrain
import Verif.Model.Score

/-! C149: a missing number (NaN) among predictions or targets that are scored. -/

namespace RM
open Outcome Scalar Spec

namespace Spec

/-- The matrix has a NaN entry. -/
def HasNan (M : Mat XR) : Prop := ∃ r ∈ M.rows, XR.nan ∈ r

/-- The number of positions at which the prediction and the target are equal and have no NaN. -/
noncomputable def agreeNoNan (o t : List (List XR)) : ℕ := by
  classical exact ((o.zip t).filter fun p => decide (p.1 = p.2 ∧ XR.nan ∉ p.1)).length

end Spec

/-! ### Accuracy -/

theorem xr_eqb_iff (a b : XR) : (a ==. b) = true ↔ a = b ∧ a ≠ XR.nan := by
  cases a <;> cases b <;> simp <;> rfl

theorem rowEq_iff_nan : ∀ (x y : List XR), rowEq x y = true ↔ x = y ∧ XR.nan ∉ x
  | [], [] => by simp [rowEq]
  | [], _ :: _ => by simp [rowEq]
  | _ :: _, [] => by simp [rowEq]
  | a :: x, b :: y => by
    unfold rowEq
    rw [Bool.and_eq_true, xr_eqb_iff, rowEq_iff_nan x y]
    simp only [List.cons.injEq, List.mem_cons, not_or, ne_eq, @eq_comm _ XR.nan a]
    tauto

/-- C149: the accuracy is the fraction of the rows that agree and have no NaN: a row with a NaN counts as wrong, even if the target has a NaN at the same place. -/
theorem C149_accuracy (o t : Mat XR) (hl : o.rows.length = t.rows.length) (hne : o.rows ≠ []) :
    rowAccuracy o t = ok (XR.fin (agreeNoNan o.rows t.rows / o.rows.length)) := by
  classical
  unfold rowAccuracy accuracy agreeNoNan
  have : (o.rows.length : ℝ) ≠ 0 := Nat.cast_ne_zero.2 (List.length_pos_iff.2 hne).ne'
  simp only [hl, decide_true, assert, if_true, ok_bind]
  rw [← hl]
  have e : ((o.rows.zip t.rows).filter fun p => rowEq p.1 p.2) = (o.rows.zip t.rows).filter fun p => decide (p.1 = p.2 ∧ XR.nan ∉ p.1) := by
    apply List.filter_congr
    intro p _
    rw [Bool.eq_iff_iff, rowEq_iff_nan, decide_eq_true_iff]
  rw [e]
  show ok (Scalar.div (Scalar.ofNat _) (Scalar.ofNat _)) = _
  rw [xr_ofNat, xr_ofNat, xr_div _ _ this]

/-! ### Costs -/

theorem zip_nan {f : XR → XR → XR} (h1 : ∀ a, f XR.nan a = XR.nan) (h2 : ∀ a, f a XR.nan = XR.nan) {A B : Mat XR} (hA : A.WF) (hB : B.WF)
    (hc : A.cols = B.cols) (hr : A.rows.length = B.rows.length) :
    ∃ Z, Mat.zip f A B = ok Z ∧ Z.WF ∧ Z.cols = A.cols ∧ Z.rows.length = A.rows.length ∧ (HasNan A ∨ HasNan B → HasNan Z) := by
  unfold Mat.zip
  rw [if_pos ⟨hr, hc⟩]
  refine ⟨_, rfl, ?_, rfl, by simp [hr], ?_⟩
  · intro q hq
    obtain ⟨i, hi, rfl⟩ := List.mem_iff_getElem.1 hq
    simp only [List.length_zipWith] at hi
    simp only [List.getElem_zipWith, List.length_zipWith]
    rw [hA _ (List.getElem_mem (by omega)), hB _ (List.getElem_mem (by omega)), hc, min_self]
  · rintro (⟨r, hr', hn⟩ | ⟨r, hr', hn⟩)
    · obtain ⟨i, hi, rfl⟩ := List.mem_iff_getElem.1 hr'
      have hi' : i < B.rows.length := by omega
      refine ⟨List.zipWith f A.rows[i] B.rows[i], ?_, zipWith_nan_mem h1 hn (by rw [hA _ (List.getElem_mem hi), hB _ (List.getElem_mem hi'), hc])⟩
      exact List.mem_iff_getElem.2 ⟨i, by simp; omega, by simp⟩
    · obtain ⟨i, hi, rfl⟩ := List.mem_iff_getElem.1 hr'
      have hi' : i < A.rows.length := by omega
      refine ⟨List.zipWith f A.rows[i] B.rows[i], ?_, zipWith_nan_mem_right h2 hn (by rw [hA _ (List.getElem_mem hi'), hB _ (List.getElem_mem hi), hc])⟩
      exact List.mem_iff_getElem.2 ⟨i, by simp; omega, by simp⟩

theorem map_nan {f : XR → XR} (h : f XR.nan = XR.nan) {A : Mat XR} (hA : A.WF) : (A.map f).WF ∧ (HasNan A → HasNan (A.map f)) := by
  constructor
  · intro r hr
    obtain ⟨q, hq, rfl⟩ := List.mem_map.1 hr
    simpa [Mat.map] using hA q hq
  · rintro ⟨r, hr, hn⟩
    exact ⟨r.map f, List.mem_map.2 ⟨r, hr, rfl⟩, List.mem_map.2 ⟨_, hn, h⟩⟩

theorem sum_nan {A : Mat XR} (h : HasNan A) : A.sum = XR.nan := by
  obtain ⟨r, hr, hn⟩ := h
  exact mv_fsum_nan (List.mem_flatten.2 ⟨r, hr, hn⟩)

/-- C149: the costs and the mean squared error of data with a NaN are NaN. -/
theorem C149_costs (o t : Mat XR) (ho : o.WF) (ht : t.WF) (hc : o.cols = t.cols) (hr : o.rows.length = t.rows.length) (hn : HasNan o ∨ HasNan t) :
    mseCost o t = ok XR.nan ∧ negMeanSquaredError o t = ok XR.nan ∧ ceCost o t = ok XR.nan := by
  have hm : mseCost o t = ok XR.nan := by
    unfold mseCost
    obtain ⟨D, hD, hW, hDc, hDr, hDn⟩ := zip_nan (f := Scalar.sub) xr_nan_sub mv_sub_nan ho ht hc hr
    obtain ⟨S, hS, -, -, -, hSn⟩ := zip_nan (f := Scalar.mul) mv_nan_mul mv_mul_nan hW hW rfl rfl
    rw [hD, ok_bind, hS, ok_bind, sum_nan (hSn (.inl (hDn hn))), xr_nan_div]
  refine ⟨hm, by unfold negMeanSquaredError; rw [hm, ok_bind, mv_mul_nan], ?_⟩
  unfold ceCost
  have e1 : oneMinus XR.nan = XR.nan := rfl
  have e2 : Scalar.ln XR.nan = XR.nan := rfl
  obtain ⟨w1, n1⟩ := map_nan (f := oneMinus) e1 ho
  obtain ⟨w2, n2⟩ := map_nan (f := Scalar.ln) e2 w1
  obtain ⟨w3, n3⟩ := map_nan (f := Scalar.ln) e2 ho
  obtain ⟨w4, n4⟩ := map_nan (f := oneMinus) e1 ht
  obtain ⟨A, hA, hAW, hAc, hAr, hAn⟩ := zip_nan (f := Scalar.mul) mv_nan_mul mv_mul_nan ht w3 hc.symm (by simpa [Mat.map] using hr.symm)
  obtain ⟨B, hB, hBW, hBc, hBr, -⟩ := zip_nan (f := Scalar.mul) mv_nan_mul mv_mul_nan w4 w2 hc.symm (by simpa [Mat.map] using hr.symm)
  obtain ⟨C, hC, -, -, -, hCn⟩ := zip_nan (f := Scalar.add) xr_nan_add xr_add_nan hAW hBW (by rw [hAc, hBc]; rfl) (by rw [hAr, hBr]; simp [Mat.map])
  simp only
  rw [hA, ok_bind, hB, ok_bind, hC, ok_bind, sum_nan (hCn (.inl (hAn (by
    rcases hn with h | h
    · exact .inr (n3 h)
    · exact .inl h))))]
  show ok (Scalar.div XR.nan _) = _
  rw [xr_nan_div]

/-! ### Two classes -/

theorem notTwoClass_nan (o t : XR) (h : o = XR.nan ∨ t = XR.nan) :
    notTwoClass (fun x : XR => x ==. Scalar.zero) (fun x => x ==. Scalar.one) o t = true := by
  unfold notTwoClass
  rcases h with rfl | rfl
  · simp [show (XR.nan ==. XR.fin 0) = false from rfl, show (XR.nan ==. XR.fin 1) = false from rfl]
  · simp [show (XR.nan ==. XR.fin 0) = false from rfl, show (XR.nan ==. XR.fin 1) = false from rfl]

/-- C149: precision, recall and F1 panic on vectors with a NaN. -/
theorem C149_two_class (o t : List XR) (h : XR.nan ∈ o ∨ XR.nan ∈ t) :
    precision (F := XR) (fun x : XR => x ==. Scalar.zero) (fun x => x ==. Scalar.one) o t = Outcome.panic ∧
    recall (F := XR) (fun x : XR => x ==. Scalar.zero) (fun x => x ==. Scalar.one) o t = Outcome.panic ∧
    f1 (F := XR) (fun x : XR => x ==. Scalar.zero) (fun x => x ==. Scalar.one) o t = Outcome.panic := by
  by_cases hl : o.length = t.length
  swap
  · simp [precision, recall, f1, assert, hl]
  have hp : ∃ p ∈ o.zip t, p.1 = XR.nan ∨ p.2 = XR.nan := by
    rcases h with h | h
    · obtain ⟨i, hi, e⟩ := List.mem_iff_getElem.1 h
      exact ⟨(o[i], t[i]), List.mem_iff_getElem.2 ⟨i, by simp; omega, by simp⟩, .inl e⟩
    · obtain ⟨i, hi, e⟩ := List.mem_iff_getElem.1 h
      exact ⟨(o[i], t[i]), List.mem_iff_getElem.2 ⟨i, by simp; omega, by simp⟩, .inr e⟩
  have l1 : ∀ (l : List (XR × XR)) (a b : XR), (∃ p ∈ l, p.1 = XR.nan ∨ p.2 = XR.nan) →
      precisionLoop (fun x : XR => x ==. Scalar.zero) (fun x => x ==. Scalar.one) l a b = Outcome.panic := by
    intro l
    induction l with
    | nil => intro a b h; simp at h
    | cons p l ih =>
      intro a b h
      obtain ⟨q, hq, h⟩ := h
      unfold precisionLoop
      rcases List.mem_cons.1 hq with rfl | hq
      · rw [notTwoClass_nan _ _ h]; rfl
      · simp only [ih _ _ ⟨q, hq, h⟩, ite_self]
  have l2 : ∀ (l : List (XR × XR)) (a b : XR), (∃ p ∈ l, p.1 = XR.nan ∨ p.2 = XR.nan) →
      recallLoop (fun x : XR => x ==. Scalar.zero) (fun x => x ==. Scalar.one) l a b = Outcome.panic := by
    intro l
    induction l with
    | nil => intro a b h; simp at h
    | cons p l ih =>
      intro a b h
      obtain ⟨q, hq, h⟩ := h
      unfold recallLoop
      rcases List.mem_cons.1 hq with rfl | hq
      · rw [notTwoClass_nan _ _ h]; rfl
      · simp only [ih _ _ ⟨q, hq, h⟩, ite_self]
  have l3 : ∀ (l : List (XR × XR)) (a b c : XR), (∃ p ∈ l, p.1 = XR.nan ∨ p.2 = XR.nan) →
      f1Loop (fun x : XR => x ==. Scalar.zero) (fun x => x ==. Scalar.one) l a b c = Outcome.panic := by
    intro l
    induction l with
    | nil => intro a b c h; simp at h
    | cons p l ih =>
      intro a b c h
      obtain ⟨q, hq, h⟩ := h
      unfold f1Loop
      rcases List.mem_cons.1 hq with rfl | hq
      · rw [notTwoClass_nan _ _ h]; rfl
      · simp only [ih _ _ _ ⟨q, hq, h⟩, ite_self]
  unfold precision recall f1
  simp only [hl, decide_true, assert, if_true, ok_bind]
  rw [l1 _ _ _ hp, l2 _ _ _ hp, l3 _ _ _ _ hp]
  exact ⟨rfl, rfl, rfl⟩

/-- Two predictions, the second with a missing number that the target has too. -/
example : rowAccuracy (⟨1, [[.fin 1], [.nan]]⟩ : Mat XR) ⟨1, [[.fin 1], [.nan]]⟩ = ok (XR.fin (1 / 2)) ∧
    negMeanSquaredError (⟨1, [[.fin 1], [.nan]]⟩ : Mat XR) ⟨1, [[.fin 1], [.nan]]⟩ = ok XR.nan := by
  constructor
  · rw [C149_accuracy (⟨1, [[.fin 1], [.nan]]⟩ : Mat XR) ⟨1, [[.fin 1], [.nan]]⟩ rfl (by simp)]
    simp [agreeNoNan]
  · refine (C149_costs _ _ ?_ ?_ rfl rfl (.inl ⟨[.nan], by simp, by simp⟩)).2.1 <;>
      (intro r hr; simp at hr; rcases hr with rfl | rfl <;> rfl)

/-- A missing target. -/
example : f1 (F := XR) (fun x : XR => x ==. Scalar.zero) (fun x => x ==. Scalar.one) [.fin 1, .fin 0] [.fin 1, .nan] = Outcome.panic :=
  (C149_two_class [.fin 1, .fin 0] [.fin 1, .nan] (by simp)).2.2

end RM
