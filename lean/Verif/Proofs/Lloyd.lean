import Verif.Proofs.KMeans

/-! One Lloyd iteration never increases the objective. -/

namespace RM
open Outcome Scalar Spec

theorem mem_labelled {α : Type} {j : ℕ} {X : List α} {cs : List ℕ} {x : α} (h : x ∈ labelled j X cs) : x ∈ X := by
  unfold labelled at h
  obtain ⟨p, hp, rfl⟩ := List.mem_map.1 h
  exact (List.of_mem_zip (List.mem_filter.1 hp).1).1

theorem labelled_map {α β : Type} (g : α → β) (j : ℕ) (X : List α) (cs : List ℕ) : labelled j (X.map g) cs = (labelled j X cs).map g := by
  unfold labelled
  induction X generalizing cs with
  | nil => simp
  | cons x X ih =>
    cases cs with
    | nil => simp
    | cons c cs =>
      by_cases h : c = j <;> simp [h, ih]

theorem labelled_ne_nil {α : Type} {j : ℕ} {X : List α} {cs : List ℕ} (hl : X.length = cs.length) : labelled j X cs ≠ [] ↔ j ∈ cs := by
  unfold labelled
  induction X generalizing cs with
  | nil => cases cs with
    | nil => simp
    | cons c cs => simp at hl
  | cons x X ih =>
    cases cs with
    | nil => simp at hl
    | cons c cs =>
      have := ih (cs := cs) (by simpa using hl)
      by_cases h : c = j
      · simp [h]
      · rw [List.zip_cons_cons, List.filter_cons_of_neg (by simpa using h), this]
        simp [Ne.symm h]

theorem meanRow_fin (d : ℕ) (S : List (List ℝ)) (hS : ∀ r ∈ S, r.length = d) (hne : S ≠ []) :
    (⟨d, S.map (List.map XR.fin)⟩ : Mat XR).meanRow = (centroidOf d S).map XR.fin := by
  have hw : (⟨d, S⟩ : Mat ℝ).WF := hS
  simp only [Mat.meanRow, Mat.sumRows, centroidOf, List.map_map]
  apply List.map_congr_left
  intro j hj
  have hj : j < d := by simpa using hj
  have hc := col_finMat ⟨d, S⟩ hw j hj
  simp only [finMat] at hc
  simp only [Function.comp, hc, xr_fsum_fin, xr_ofNat, List.length_map, col]
  rw [xr_div _ _ (by simpa using hne)]
  simp [mean]

theorem meanRow_nil (d : ℕ) : (⟨d, []⟩ : Mat XR).meanRow = List.replicate d XR.nan := by
  simp only [Mat.meanRow, Mat.sumRows, List.map_map]
  rw [List.eq_replicate_iff]
  refine ⟨by simp, ?_⟩
  intro b hb
  obtain ⟨j, _, rfl⟩ := List.mem_map.1 hb
  simp only [Function.comp, colOf, List.filterMap_nil, fsum, List.foldl_nil, List.length_nil]
  change Scalar.div (XR.fin 0) (XR.fin ((0 : ℕ) : ℝ)) = _
  rw [Nat.cast_zero, xr_div_zero]
  simp [XR.infOf]

/-- The updated centroids. -/
noncomputable def newCentroids (k d : ℕ) (X : List (List ℝ)) (cs : List ℕ) : List (Option (List ℝ)) :=
  (List.range k).map fun j => if labelled j X cs = [] then none else some (centroidOf d (labelled j X cs))

theorem updateCentroids_stored (k : ℕ) (X : Mat ℝ) (hw : X.WF) (cs : List ℕ) (hl : X.rows.length = cs.length) :
    updateCentroids k (finMat X) cs = ok (stored X.cols (newCentroids k X.cols X.rows cs)) := by
  rw [updateCentroids_eq k (finMat X) cs (by simpa [finMat] using hl)]
  congr 1
  simp only [stored, newCentroids, finMat, List.map_map]
  congr 1
  apply List.map_congr_left
  intro j _
  simp only [Function.comp]
  rw [labelled_map]
  by_cases h : labelled j X.rows cs = []
  · rw [if_pos h, h, List.map_nil, meanRow_nil]; rfl
  · rw [if_neg h, meanRow_fin X.cols _ (fun r hr => hw r (mem_labelled hr)) h]; rfl

theorem centroidOf_length (d : ℕ) (S : List (List ℝ)) : (centroidOf d S).length = d := by simp [centroidOf]

/-! ### The mean minimises the sum of squared distances -/

theorem sqDist_range (d : ℕ) (x c : List ℝ) (hx : x.length = d) (hc : c.length = d) :
    sqDist x c = ((List.range d).map fun j => (x.getD j 0 - c.getD j 0) ^ 2).sum := by
  unfold sqDist
  congr 1
  apply List.ext_getElem
  · simp [hx, hc]
  · intro j h1 h2
    simp only [List.length_map, List.length_range] at h2
    rw [List.getElem_zipWith, List.getElem_map, List.getElem_range, getD_lt 0 (by omega), getD_lt 0 (by omega)]

theorem sum_sum_comm {α β : Type} (f : α → β → ℝ) (l : List α) (m : List β) :
    (l.map fun a => (m.map fun b => f a b).sum).sum = (m.map fun b => (l.map fun a => f a b).sum).sum := by
  induction l with
  | nil => simp
  | cons a l ih => simp only [List.map_cons, List.sum_cons, ih, ← List.sum_map_add]

theorem sum_sq_eq (l : List ℝ) (c : ℝ) : (l.map fun x => (x - c) ^ 2).sum = (l.map fun x => x ^ 2).sum - 2 * c * l.sum + l.length * c ^ 2 := by
  induction l with
  | nil => simp
  | cons x l ih => simp only [List.map_cons, List.sum_cons, ih, List.length_cons]; push_cast; ring

theorem mean_minimises (l : List ℝ) (hne : l ≠ []) (c : ℝ) : (l.map fun x => (x - mean l) ^ 2).sum ≤ (l.map fun x => (x - c) ^ 2).sum := by
  have hn : (0 : ℝ) < l.length := by
    have := List.length_pos_iff.2 hne
    exact_mod_cast this
  rw [sum_sq_eq, sum_sq_eq]
  have hm : l.sum = l.length * mean l := by unfold mean; field_simp
  rw [hm]
  nlinarith [mul_nonneg hn.le (sq_nonneg (mean l - c))]

theorem centroid_minimises (d : ℕ) (S : List (List ℝ)) (hS : ∀ r ∈ S, r.length = d) (hne : S ≠ []) (c : List ℝ) (hc : c.length = d) :
    (S.map fun x => sqDist x (centroidOf d S)).sum ≤ (S.map fun x => sqDist x c).sum := by
  have key : ∀ c : List ℝ, c.length = d → (S.map fun x => sqDist x c).sum =
      ((List.range d).map fun j => ((S.map fun r => r.getD j 0).map fun v => (v - c.getD j 0) ^ 2).sum).sum := by
    intro c hc
    have h := sum_sum_comm (fun (r : List ℝ) j => (r.getD j 0 - c.getD j 0) ^ 2) S (List.range d)
    simp only [List.map_map]
    refine Eq.trans ?_ h
    congr 1
    apply List.map_congr_left
    intro x hx
    exact sqDist_range d x c (hS x hx) hc
  rw [key _ (centroidOf_length d S), key c hc]
  apply List.sum_le_sum
  intro j hj
  have hj : j < d := by simpa using hj
  have he : (centroidOf d S).getD j 0 = mean (S.map fun r => r.getD j 0) := by
    rw [getD_lt 0 (by rw [centroidOf_length]; exact hj)]
    simp [centroidOf]
  rw [he]
  exact mean_minimises _ (by simpa using hne) _

/-! ### Splitting a sum by label -/

theorem sum_by_label {α : Type} (g : α → ℕ → ℝ) (k : ℕ) : ∀ (X : List α) (cs : List ℕ), (∀ c ∈ cs, c < k) →
    ((X.zip cs).map fun p => g p.1 p.2).sum = ((List.range k).map fun j => ((labelled j X cs).map fun x => g x j).sum).sum
  | [], cs, _ => by simp [labelled]
  | x :: X, [], _ => by simp [labelled]
  | x :: X, c :: cs, h => by
    have ih := sum_by_label g k X cs (fun c' hc' => h c' (List.mem_cons_of_mem _ hc'))
    rw [List.zip_cons_cons, List.map_cons, List.sum_cons, ih]
    have hc : c < k := h c (by simp)
    have : ((List.range k).map fun j => ((labelled j (x :: X) (c :: cs)).map fun x => g x j).sum) =
        (List.range k).map fun j => (if c = j then g x j else 0) + ((labelled j X cs).map fun x => g x j).sum := by
      apply List.map_congr_left
      intro j _
      by_cases hj : c = j <;> simp [labelled, hj]
    rw [this, List.sum_map_add]
    congr 1
    have h2 : ∀ n, ((List.range n).map fun j => if c = j then g x j else 0).sum = if c < n then g x c else 0 := by
      intro n
      induction n with
      | zero => simp
      | succ n ihn =>
        rw [List.range_succ, List.map_append, List.sum_append, ihn]
        by_cases h1 : c < n
        · have : c ≠ n := by omega
          simp [h1, this, Nat.lt_succ_of_lt h1]
        · by_cases h2 : c = n
          · subst h2; simp
          · have : ¬ c < n + 1 := by omega
            simp [h1, h2, this]
    rw [h2, if_pos hc]

/-! ### The step -/

/-- Labels of a point list: nearest proper centroid, smallest index. -/
def NearestProper (C : List (Option (List ℝ))) (x : List ℝ) (j : ℕ) : Prop :=
  ∃ c, C[j]? = some (some c) ∧ (∀ c', some c' ∈ C → sqDist x c ≤ sqDist x c') ∧
    ∀ (t : ℕ) c', t < j → C[t]? = some (some c') → sqDist x c < sqDist x c'

theorem findClosest_stored {X : Mat ℝ} (hw : X.WF) (c0 : List ℝ) (C : List (Option (List ℝ))) (hd : 0 < X.cols ∨ none ∉ C) :
    ∃ labels : List ℕ, List.Forall₂ (NearestProper (some c0 :: C)) X.rows labels ∧
      findClosest (stored X.cols (some c0 :: C)) (finMat X) =
        ok (labels, X.rows.map fun x => XR.fin (nearestSq x (proper (some c0 :: C)))) := by
  have : ∃ r : List (ℕ × XR), List.Forall₂ (fun x p => NearestProper (some c0 :: C) x p.1 ∧ p.2 = XR.fin (nearestSq x (proper (some c0 :: C))) ∧
      closestTo (stored X.cols (some c0 :: C)) X.cols (x.map XR.fin) = ok p) X.rows r := by
    have hw' : ∀ r ∈ X.rows, r.length = X.cols := hw
    generalize X.rows = rows at hw'
    induction rows with
    | nil => exact ⟨[], .nil⟩
    | cons x rows ih =>
      obtain ⟨r, hr⟩ := ih (fun r hr => hw' r (List.mem_cons_of_mem _ hr))
      obtain ⟨j, c, h1, h2, h3, h4⟩ := closestTo_stored (hw' x (by simp)) c0 C hd
      refine ⟨(j, XR.fin (sqDist x c)) :: r, .cons ⟨⟨c, h2, h3, h4⟩, ?_, h1⟩ hr⟩
      refine congrArg XR.fin (Eq.symm ?_)
      apply nearestSq_eq (mem_proper.2 (List.mem_of_getElem? h2))
      intro c' hc'
      exact h3 c' (mem_proper.1 hc')
  obtain ⟨r, hr⟩ := this
  refine ⟨r.map Prod.fst, ?_, ?_⟩
  · rw [List.forall₂_map_right_iff]
    exact hr.imp fun _ _ h => h.1
  · unfold findClosest
    rw [mapM_of_forall₂ (r := r)]
    · simp only [ok_bind]
      congr 2
      have h2 := hr.imp (fun _ _ h => h.2.1)
      clear hr hw hd
      generalize X.rows = rows at h2
      induction h2 with
      | nil => rfl
      | cons h _ ih => simp only [List.map_cons, h, ih]
    · simp only [finMat]
      rw [List.forall₂_map_left_iff]
      exact hr.imp fun _ _ h => h.2.2

theorem forall₂_length {α β : Type} {R : α → β → Prop} {l : List α} {m : List β} (h : List.Forall₂ R l m) : l.length = m.length :=
  h.length_eq

theorem step_inertia (d k : ℕ) (C : List (Option (List ℝ))) (hk : C.length = k) (hC : CWidth d C) (X : List (List ℝ)) (hX : ∀ x ∈ X, x.length = d)
    (labels : List ℕ) (hl : List.Forall₂ (NearestProper C) X labels) :
    inertia X (proper (newCentroids k d X labels)) ≤ inertia X (proper C) := by
  have hlen := forall₂_length hl
  have hlt : ∀ j ∈ labels, j < k := by
    intro j hj
    obtain ⟨t, ht, rfl⟩ := List.mem_iff_getElem.1 hj
    obtain ⟨c, hc, _⟩ := hl.get (i := t) (by omega) ht
    have := (List.getElem?_eq_some_iff.1 hc).1
    simp at this
    omega
  -- new objective is at most the cost of keeping the labels
  let newC : ℕ → List ℝ := fun j => centroidOf d (labelled j X labels)
  let oldC : ℕ → List ℝ := fun j => match C[j]? with | some (some c) => c | _ => []
  have h1 : inertia X (proper (newCentroids k d X labels)) ≤ ((X.zip labels).map fun p => sqDist p.1 (newC p.2)).sum := by
    have : inertia X (proper (newCentroids k d X labels)) = ((X.zip labels).map fun p => nearestSq p.1 (proper (newCentroids k d X labels))).sum := by
      unfold inertia
      generalize proper (newCentroids k d X labels) = P
      congr 1
      conv_lhs => rw [← List.map_fst_zip (l₁ := X) (l₂ := labels) (by omega)]
      rw [List.map_map]; rfl
    rw [this]
    apply List.sum_le_sum
    rintro ⟨x, j⟩ hp
    apply nearestSq_le
    rw [mem_proper]
    have hj := (List.of_mem_zip hp).2
    have hne : labelled j X labels ≠ [] := (labelled_ne_nil hlen).2 hj
    simp only [newCentroids, List.mem_map, List.mem_range]
    exact ⟨j, hlt j hj, by rw [if_neg hne]⟩
  have h2 : ((X.zip labels).map fun p => sqDist p.1 (newC p.2)).sum ≤ ((X.zip labels).map fun p => sqDist p.1 (oldC p.2)).sum := by
    rw [sum_by_label (fun x j => sqDist x (newC j)) k X labels hlt, sum_by_label (fun x j => sqDist x (oldC j)) k X labels hlt]
    apply List.sum_le_sum
    intro j _
    by_cases hne : labelled j X labels = []
    · simp [hne]
    · apply centroid_minimises d _ (fun r hr => hX r (mem_labelled hr)) hne
      have hj : j ∈ labels := (labelled_ne_nil hlen).1 hne
      obtain ⟨t, ht, rfl⟩ := List.mem_iff_getElem.1 hj
      obtain ⟨c, hc, _⟩ := hl.get (i := t) (by omega) ht
      simp only [List.get_eq_getElem] at hc
      simp only [oldC, hc]
      exact hC c (List.mem_of_getElem? hc)
  have h3 : ((X.zip labels).map fun p => sqDist p.1 (oldC p.2)).sum = inertia X (proper C) := by
    unfold inertia
    congr 1
    clear h1 h2 hlt hlen hX
    induction hl with
    | nil => rfl
    | @cons x j X labels h _ ih =>
      rw [List.zip_cons_cons, List.map_cons, List.map_cons, ih]
      congr 1
      obtain ⟨c, hc, hmin, _⟩ := h
      simp only [oldC, hc]
      exact (nearestSq_eq (mem_proper.2 (List.mem_of_getElem? hc)) fun c' hc' => hmin c' (mem_proper.1 hc')).symm
  linarith

end RM
