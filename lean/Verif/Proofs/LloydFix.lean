import Verif.Proofs.Lloyd

/-! A Lloyd iteration that does not lower the objective has arrived: the next assignment is the same. -/

namespace RM
open Outcome Scalar Spec

theorem sum_pointwise_eq {α : Type} (f g : α → ℝ) : ∀ (l : List α), (∀ a ∈ l, f a ≤ g a) → (l.map g).sum ≤ (l.map f).sum → ∀ a ∈ l, f a = g a
  | [], _, _, a, ha => by simp at ha
  | x :: l, h, hs, a, ha => by
    simp only [List.map_cons, List.sum_cons] at hs
    have h1 := h x (by simp)
    have h2 : (l.map f).sum ≤ (l.map g).sum := List.sum_le_sum fun a ha => h a (List.mem_cons_of_mem _ ha)
    rcases List.mem_cons.1 ha with rfl | ha
    · linarith
    · exact sum_pointwise_eq f g l (fun a ha => h a (List.mem_cons_of_mem _ ha)) (by linarith) a ha

theorem mean_unique (l : List ℝ) (hne : l ≠ []) (c : ℝ) (h : (l.map fun x => (x - c) ^ 2).sum ≤ (l.map fun x => (x - mean l) ^ 2).sum) : c = mean l := by
  have hn : (0 : ℝ) < l.length := by
    have := List.length_pos_iff.2 hne
    exact_mod_cast this
  rw [sum_sq_eq, sum_sq_eq] at h
  have hm : l.sum = l.length * mean l := by unfold mean; field_simp
  rw [hm] at h
  have h2 : (l.length : ℝ) * (mean l - c) ^ 2 ≤ 0 := by nlinarith
  have h3 : (mean l - c) ^ 2 ≤ 0 := by
    by_contra hc
    push Not at hc
    nlinarith [mul_pos hn hc]
  have h4 : mean l - c = 0 := by
    have := le_antisymm h3 (sq_nonneg _)
    exact pow_eq_zero_iff (by norm_num) |>.1 this
  linarith

theorem centroid_unique (d : ℕ) (S : List (List ℝ)) (hS : ∀ r ∈ S, r.length = d) (hne : S ≠ []) (c : List ℝ) (hc : c.length = d)
    (h : (S.map fun x => sqDist x c).sum ≤ (S.map fun x => sqDist x (centroidOf d S)).sum) : centroidOf d S = c := by
  have key : ∀ c : List ℝ, c.length = d → (S.map fun x => sqDist x c).sum =
      ((List.range d).map fun j => ((S.map fun r => r.getD j 0).map fun v => (v - c.getD j 0) ^ 2).sum).sum := by
    intro c hc
    have h := sum_sum_comm (fun (r : List ℝ) j => (r.getD j 0 - c.getD j 0) ^ 2) S (List.range d)
    simp only [List.map_map]
    refine Eq.trans ?_ h
    congr 1
    apply List.map_congr_left
    intro x hx
    exact sqDist_range d x c (hS x hx) hc
  rw [key _ (centroidOf_length d S), key c hc] at h
  have he : ∀ j < d, (centroidOf d S).getD j 0 = mean (S.map fun r => r.getD j 0) := by
    intro j hj
    rw [getD_lt 0 (by rw [centroidOf_length]; exact hj)]
    simp [centroidOf]
  have hpt := sum_pointwise_eq (fun j => ((S.map fun r => r.getD j 0).map fun v => (v - (centroidOf d S).getD j 0) ^ 2).sum)
    (fun j => ((S.map fun r => r.getD j 0).map fun v => (v - c.getD j 0) ^ 2).sum) (List.range d) (by
      intro j hj
      have hj : j < d := by simpa using hj
      simp only [he j hj]
      exact mean_minimises _ (by simpa using hne) _) h
  apply List.ext_getElem (by rw [centroidOf_length, hc])
  intro j h1 h2
  have hj : j < d := by omega
  have h3 := hpt j (by simpa using hj)
  simp only [he j hj] at h3
  have := mean_unique _ (by simpa using hne) _ h3.ge
  rw [← he j hj, getD_lt 0 h1, getD_lt 0 h2] at this
  exact this.symm

/-- If updating the centroids did not lower the objective, the labels are nearest labels for the new centroids too. -/
theorem lloyd_step_fixed (d k : ℕ) (C : List (Option (List ℝ))) (hk : C.length = k) (hC : CWidth d C) (X : List (List ℝ)) (hX : ∀ x ∈ X, x.length = d)
    (labels : List ℕ) (hl : List.Forall₂ (NearestProper C) X labels)
    (hle : inertia X (proper C) ≤ inertia X (proper (newCentroids k d X labels))) :
    List.Forall₂ (NearestProper (newCentroids k d X labels)) X labels := by
  have hlen := forall₂_length hl
  have hlt : ∀ j ∈ labels, j < k := by
    intro j hj
    obtain ⟨t, ht, rfl⟩ := List.mem_iff_getElem.1 hj
    obtain ⟨c, hc, _⟩ := hl.get (i := t) (by omega) ht
    have := (List.getElem?_eq_some_iff.1 hc).1
    simp at this
    omega
  let newC : ℕ → List ℝ := fun j => centroidOf d (labelled j X labels)
  let oldC : ℕ → List ℝ := fun j => match C[j]? with | some (some c) => c | _ => []
  have hold : ∀ j ∈ labels, C[j]? = some (some (oldC j)) := by
    intro j hj
    obtain ⟨t, ht, rfl⟩ := List.mem_iff_getElem.1 hj
    obtain ⟨c, hc, _⟩ := hl.get (i := t) (by omega) ht
    simp only [List.get_eq_getElem] at hc
    simp only [oldC, hc]
  have h1 : inertia X (proper (newCentroids k d X labels)) ≤ ((X.zip labels).map fun p => sqDist p.1 (newC p.2)).sum := by
    have : inertia X (proper (newCentroids k d X labels)) = ((X.zip labels).map fun p => nearestSq p.1 (proper (newCentroids k d X labels))).sum := by
      unfold inertia
      generalize proper (newCentroids k d X labels) = P
      congr 1
      conv_lhs => rw [← List.map_fst_zip (l₁ := X) (l₂ := labels) (by omega)]
      rw [List.map_map]; rfl
    rw [this]
    apply List.sum_le_sum
    rintro ⟨x, j⟩ hp
    apply nearestSq_le
    rw [mem_proper]
    have hj := (List.of_mem_zip hp).2
    have hne : labelled j X labels ≠ [] := (labelled_ne_nil hlen).2 hj
    simp only [newCentroids, List.mem_map, List.mem_range]
    exact ⟨j, hlt j hj, by rw [if_neg hne]⟩
  have h3 : ((X.zip labels).map fun p => sqDist p.1 (oldC p.2)).sum = inertia X (proper C) := by
    unfold inertia
    congr 1
    clear h1 hlt hlen hX hle hold
    induction hl with
    | nil => rfl
    | @cons x j X labels h _ ih =>
      rw [List.zip_cons_cons, List.map_cons, List.map_cons, ih]
      congr 1
      obtain ⟨c, hc, hmin, _⟩ := h
      simp only [oldC, hc]
      exact (nearestSq_eq (mem_proper.2 (List.mem_of_getElem? hc)) fun c' hc' => hmin c' (mem_proper.1 hc')).symm
  have hge : ((X.zip labels).map fun p => sqDist p.1 (oldC p.2)).sum ≤ ((X.zip labels).map fun p => sqDist p.1 (newC p.2)).sum := by linarith
  rw [sum_by_label (fun x j => sqDist x (newC j)) k X labels hlt, sum_by_label (fun x j => sqDist x (oldC j)) k X labels hlt] at hge
  have hpt := sum_pointwise_eq (fun j => ((labelled j X labels).map fun x => sqDist x (newC j)).sum)
    (fun j => ((labelled j X labels).map fun x => sqDist x (oldC j)).sum) (List.range k) (by
      intro j _
      by_cases hne : labelled j X labels = []
      · simp [hne]
      · apply centroid_minimises d _ (fun r hr => hX r (mem_labelled hr)) hne
        exact hC _ (List.mem_of_getElem? (hold j ((labelled_ne_nil hlen).1 hne)))) hge
  have heq : ∀ j ∈ labels, newC j = oldC j := by
    intro j hj
    have hne : labelled j X labels ≠ [] := (labelled_ne_nil hlen).2 hj
    exact centroid_unique d _ (fun r hr => hX r (mem_labelled hr)) hne _ (hC _ (List.mem_of_getElem? (hold j hj)))
      (hpt j (by simpa using hlt j hj)).ge
  have hnew : ∀ (t : ℕ) c', (newCentroids k d X labels)[t]? = some (some c') → C[t]? = some (some c') := by
    intro t c' h
    simp only [newCentroids, List.getElem?_map] at h
    obtain ⟨j, hj, he⟩ := Option.map_eq_some_iff.1 h
    clear h
    have hjt : j = t := by
      have := (List.getElem?_eq_some_iff.1 hj)
      simp at this
      exact this.2.symm
    subst hjt
    by_cases hne : labelled j X labels = []
    · simp [hne] at he
    · rw [if_neg hne, Option.some.injEq] at he
      have hjl := (labelled_ne_nil hlen).1 hne
      rw [hold j hjl, ← heq j hjl, ← he]
  have hin : ∀ j ∈ labels, (newCentroids k d X labels)[j]? = some (some (oldC j)) := by
    intro j hj
    have hne : labelled j X labels ≠ [] := (labelled_ne_nil hlen).2 hj
    simp only [newCentroids, List.getElem?_map]
    rw [List.getElem?_range (hlt j hj), Option.map_some, if_neg hne, ← heq j hj]
  have hlabel : ∀ p ∈ X.zip labels, NearestProper (newCentroids k d X labels) p.1 p.2 := by
    intro p hp
    have hN : NearestProper C p.1 p.2 := by
      have := List.forall₂_iff_zip.1 hl
      exact this.2 hp
    have hj := (List.of_mem_zip hp).2
    obtain ⟨c, hc, hmin, hfirst⟩ := hN
    have hce : c = oldC p.2 := by
      have := hold p.2 hj
      rw [hc] at this
      simpa using this
    subst hce
    refine ⟨oldC p.2, hin p.2 hj, ?_, ?_⟩
    · intro c' hc'
      obtain ⟨t, ht⟩ := List.mem_iff_getElem?.1 hc'
      exact hmin c' (List.mem_of_getElem? (hnew t c' ht))
    · intro t c' ht hc'
      exact hfirst t c' ht (hnew t c' hc')
  exact List.forall₂_iff_zip.2 ⟨hlen, fun {a b} h => hlabel (a, b) h⟩

end RM
