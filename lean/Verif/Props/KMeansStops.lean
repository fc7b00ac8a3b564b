import Verif.Proofs.LloydFix
import Verif.Props.KMeansRuns
import Verif.Proofs.KMeansInit
import Mathlib.Data.Fintype.Pigeonhole
import Mathlib.Data.Fintype.BigOperators

/-! C94: k-means training comes to rest by itself. -/

namespace RM
open Outcome Scalar Spec

/-- The labels an iteration computes. -/
noncomputable def kmLabels (X : Mat ℝ) (C : List (Option (List ℝ))) : List ℕ :=
  match findClosest (stored X.cols C) (finMat X) with
  | ok r => r.1
  | _ => []

/-- The cost an iteration computes. -/
noncomputable def kmCost (X : Mat ℝ) (C : List (Option (List ℝ))) : XR :=
  match findClosest (stored X.cols C) (finMat X) with
  | ok r => fsum r.2
  | _ => XR.nan

/-- The centroids an iteration computes. -/
noncomputable def kmNext (k : ℕ) (X : Mat ℝ) (C : List (Option (List ℝ))) : List (Option (List ℝ)) :=
  newCentroids k X.cols X.rows (kmLabels X C)

variable {X : Mat ℝ} {k : ℕ}

theorem kmNext_length (C : List (Option (List ℝ))) : (kmNext k X C).length = k := newCentroids_length _ _ _ _

theorem kmNext_width (C : List (Option (List ℝ))) : CWidth X.cols (kmNext k X C) := newCentroids_width _ _ _ _

theorem km_some (hX : X.WF) (hd : 0 < X.cols) (c0 : List ℝ) (C : List (Option (List ℝ))) :
    List.Forall₂ (NearestProper (some c0 :: C)) X.rows (kmLabels X (some c0 :: C)) ∧
    kmCost X (some c0 :: C) = XR.fin (inertia X.rows (proper (some c0 :: C))) ∧
    ∃ ds, findClosest (stored X.cols (some c0 :: C)) (finMat X) = ok (kmLabels X (some c0 :: C), ds) ∧ fsum ds = kmCost X (some c0 :: C) := by
  obtain ⟨labels, h1, h2⟩ := findClosest_stored hX c0 C (.inl hd)
  have hl : kmLabels X (some c0 :: C) = labels := by simp only [kmLabels, h2]
  have hc : kmCost X (some c0 :: C) = XR.fin (inertia X.rows (proper (some c0 :: C))) := by
    simp only [kmCost, h2]
    have : (X.rows.map fun x => XR.fin (nearestSq x (proper (some c0 :: C)))) =
        (X.rows.map fun x => nearestSq x (proper (some c0 :: C))).map XR.fin := by simp
    rw [this, xr_fsum_fin]
    rfl
  refine ⟨by rw [hl]; exact h1, hc, _, by rw [hl]; exact h2, ?_⟩
  simp only [kmCost, h2]

theorem km_none (hX : X.WF) (hd : 0 < X.cols) (C : List (Option (List ℝ))) :
    kmLabels X (none :: C) = List.replicate X.rows.length 0 ∧
    ∃ ds, findClosest (stored X.cols (none :: C)) (finMat X) = ok (kmLabels X (none :: C), ds) ∧ fsum ds = kmCost X (none :: C) := by
  have h := findClosest_nan hX hd C
  have hl : kmLabels X (none :: C) = List.replicate X.rows.length 0 := by simp only [kmLabels, h]
  refine ⟨hl, _, by rw [hl]; exact h, ?_⟩
  simp only [kmCost, h]

theorem km_found (hX : X.WF) (hd : 0 < X.cols) (C : List (Option (List ℝ))) (hC : C ≠ []) :
    (kmLabels X C).length = X.rows.length ∧ (∀ j ∈ kmLabels X C, j < C.length) ∧
    ∃ ds, findClosest (stored X.cols C) (finMat X) = ok (kmLabels X C, ds) ∧ fsum ds = kmCost X C := by
  cases C with
  | nil => exact absurd rfl hC
  | cons o C =>
    cases o with
    | none =>
      obtain ⟨h1, h2⟩ := km_none hX hd C
      refine ⟨by rw [h1]; simp, ?_, h2⟩
      rw [h1]
      intro j hj
      have := (List.mem_replicate.1 hj).2
      subst this
      simp
    | some c0 =>
      obtain ⟨h1, _, h2⟩ := km_some hX hd c0 C
      refine ⟨h1.length_eq.symm, ?_, h2⟩
      intro j hj
      obtain ⟨t, ht, rfl⟩ := List.mem_iff_getElem.1 hj
      obtain ⟨c, hc, _⟩ := h1.get (i := t) (by rw [h1.length_eq]; exact ht) ht
      have := (List.getElem?_eq_some_iff.1 hc).1
      simpa using this

theorem kmLoop_succ (hX : X.WF) (hd : 0 < X.cols) (C : List (Option (List ℝ))) (hC : C ≠ []) (n : ℕ) (cost : XR) :
    kmLoop k (finMat X) (n + 1) cost (stored X.cols C) =
      if Scalar.abs (cost -. kmCost X C) <. Scalar.ofRat (1 / 10 ^ 14) then ok (stored X.cols (kmNext k X C))
      else kmLoop k (finMat X) n (kmCost X C) (stored X.cols (kmNext k X C)) := by
  obtain ⟨h1, _, ds, h2, h3⟩ := km_found hX hd C hC
  rw [kmLoop, h2, ok_bind]
  simp only [updateCentroids_stored k X hX _ h1.symm, ok_bind, h3]
  rfl

theorem km_still (r : ℝ) : (Scalar.abs (XR.fin r -. XR.fin r) <. (Scalar.ofRat (1 / 10 ^ 14) : XR)) = true := by
  simp only [xr_sub, xr_abs, xr_ofRat, xr_lt, decide_eq_true_eq]
  norm_num

theorem kmLoop_limit (hX : X.WF) (hd : 0 < X.cols) (hk : 0 < k) : ∀ (t n : ℕ) (cost : XR) (C : List (Option (List ℝ))) (r : ℝ), C ≠ [] → t + 2 ≤ n →
    kmCost X ((kmNext k X)^[t] C) = XR.fin r → kmCost X ((kmNext k X)^[t + 1] C) = XR.fin r →
    kmLoop k (finMat X) n cost (stored X.cols C) = kmLoop k (finMat X) (t + 2) cost (stored X.cols C)
  | t, n, cost, C, r, hC, hn, h1, h2 => by
    obtain ⟨n, rfl⟩ : ∃ n', n = n' + 1 := ⟨n - 1, by omega⟩
    have hne : kmNext k X C ≠ [] := by
      intro h
      have := kmNext_length (X := X) (k := k) C
      rw [h] at this
      simp at this
      omega
    rw [kmLoop_succ hX hd C hC, kmLoop_succ hX hd C hC]
    split
    · rfl
    · cases t with
      | zero =>
        obtain ⟨n, rfl⟩ : ∃ n', n = n' + 1 := ⟨n - 1, by omega⟩
        simp only [Function.iterate_zero, id, Function.iterate_one, zero_add] at h1 h2
        rw [kmLoop_succ hX hd _ hne, kmLoop_succ hX hd _ hne, h1, h2, if_pos (km_still r), if_pos (km_still r)]
      | succ t =>
        exact kmLoop_limit hX hd hk t n _ _ r hne (by omega) h1 h2

theorem kmNext_same (hX : X.WF) (hd : 0 < X.cols) (c0 : List ℝ) (C : List (Option (List ℝ))) (hC : CWidth X.cols (some c0 :: C)) (hk : C.length + 1 = k) :
    inertia X.rows (proper (kmNext k X (some c0 :: C))) ≤ inertia X.rows (proper (some c0 :: C)) :=
  step_inertia X.cols k _ (by simpa using hk) hC X.rows hX _ (km_some hX hd c0 C).1

/-- Once the first centroid is a NaN row, two iterations later nothing moves any more. -/
theorem km_collapse (hX : X.WF) (hd : 0 < X.cols) (hn : X.rows ≠ []) (hk : 0 < k) (C : List (Option (List ℝ))) :
    kmLabels X (kmNext k X (none :: C)) = List.replicate X.rows.length 0 ∧ ∃ c0 C', kmNext k X (none :: C) = some c0 :: C' := by
  have hl := (km_none hX hd C).1
  obtain ⟨k', rfl⟩ : ∃ k', k = k' + 1 := ⟨k - 1, by omega⟩
  have hlen : X.rows.length = (List.replicate X.rows.length 0).length := by simp
  have h0 : labelled 0 X.rows (List.replicate X.rows.length 0) ≠ [] := by
    rw [labelled_ne_nil hlen, List.mem_replicate]
    exact ⟨by simpa using hn, rfl⟩
  have hform : kmNext (k' + 1) X (none :: C) = some (centroidOf X.cols (labelled 0 X.rows (List.replicate X.rows.length 0))) ::
      (List.range k').map fun _ => (none : Option (List ℝ)) := by
    simp only [kmNext, newCentroids, hl, List.range_succ_eq_map, List.map_cons, List.map_map]
    rw [if_neg h0]
    congr 1
    apply List.map_congr_left
    intro j _
    simp only [Function.comp]
    rw [if_pos]
    by_contra h
    have := (List.mem_replicate.1 ((labelled_ne_nil hlen).1 h)).2
    omega
  refine ⟨?_, _, _, hform⟩
  rw [hform]
  have := findClosest_of_labels hX hd (centroidOf X.cols (labelled 0 X.rows (List.replicate X.rows.length 0)))
    ((List.range k').map fun _ => none) (List.replicate X.rows.length 0) (by
      rw [List.forall₂_iff_zip]
      refine ⟨by simp, ?_⟩
      intro x j hp
      have hj := (List.mem_replicate.1 (List.of_mem_zip hp).2).2
      subst hj
      refine ⟨centroidOf X.cols (labelled 0 X.rows (List.replicate X.rows.length 0)), by simp, ?_, by omega⟩
      intro c' hc'
      simp at hc'
      rw [hc'])
  simp only [kmLabels, this]

theorem km_pigeon (hX : X.WF) (hd : 0 < X.cols) (hk : 0 < k) (C : List (Option (List ℝ))) (hC : C.length = k) :
    ∃ i j, i < j ∧ j ≤ k ^ X.rows.length ∧ kmLabels X ((kmNext k X)^[i] C) = kmLabels X ((kmNext k X)^[j] C) := by
  have hlen : ∀ t, ((kmNext k X)^[t] C).length = k := by
    intro t
    cases t with
    | zero => exact hC
    | succ t => rw [Function.iterate_succ_apply']; exact kmNext_length _
  have hf : ∀ t, (kmLabels X ((kmNext k X)^[t] C)).length = X.rows.length ∧ ∀ j ∈ kmLabels X ((kmNext k X)^[t] C), j < k := by
    intro t
    obtain ⟨h1, h2, _⟩ := km_found hX hd ((kmNext k X)^[t] C) (by intro h; have := hlen t; rw [h] at this; simp at this; omega)
    rw [hlen t] at h2
    exact ⟨h1, h2⟩
  let g : Fin (k ^ X.rows.length + 1) → (Fin X.rows.length → Fin k) := fun t i =>
    ⟨(kmLabels X ((kmNext k X)^[t] C))[i]'(by rw [(hf t).1]; exact i.2), (hf t).2 _ (List.getElem_mem _)⟩
  obtain ⟨a, b, hab, he⟩ := Fintype.exists_ne_map_eq_of_card_lt g (by simp)
  have heq : kmLabels X ((kmNext k X)^[a] C) = kmLabels X ((kmNext k X)^[b] C) := by
    apply List.ext_getElem (by rw [(hf a).1, (hf b).1])
    intro i h1 h2
    have := congrFun he ⟨i, by rw [← (hf a).1]; exact h1⟩
    simpa [g] using this
  rcases lt_or_gt_of_ne (fun h => hab (Fin.ext h) : (a : ℕ) ≠ b) with h | h
  · exact ⟨a, b, h, by omega, heq⟩
  · exact ⟨b, a, h, by omega, heq.symm⟩

/-- Two consecutive iterations with the same finite cost come early. -/
theorem km_rests (hX : X.WF) (hd : 0 < X.cols) (hn : X.rows ≠ []) (hk : 0 < k) (C : List (Option (List ℝ))) (hC : C.length = k) (hw : CWidth X.cols C) :
    ∃ t r, t + 2 ≤ k ^ X.rows.length + 4 ∧ kmCost X ((kmNext k X)^[t] C) = XR.fin r ∧ kmCost X ((kmNext k X)^[t + 1] C) = XR.fin r := by
  have hlen : ∀ t, ((kmNext k X)^[t] C).length = k := by
    intro t
    cases t with
    | zero => exact hC
    | succ t => rw [Function.iterate_succ_apply']; exact kmNext_length _
  have hwid : ∀ t, CWidth X.cols ((kmNext k X)^[t] C) := by
    intro t
    cases t with
    | zero => exact hw
    | succ t => rw [Function.iterate_succ_apply']; exact kmNext_width _
  by_cases hB : ∃ b ≤ k ^ X.rows.length + 1, ∃ C', (kmNext k X)^[b] C = none :: C'
  · obtain ⟨b, hb, C', h⟩ := hB
    obtain ⟨h1, c0, C'', h2⟩ := km_collapse hX hd hn hk C'
    have e1 : (kmNext k X)^[b + 1] C = some c0 :: C'' := by rw [Function.iterate_succ_apply', h, h2]
    have e2 : (kmNext k X)^[b + 1 + 1] C = some c0 :: C'' := by
      rw [Function.iterate_succ_apply', e1, ← h2]
      simp only [kmNext] at h1 ⊢
      rw [h1, (km_none hX hd C').1]
    refine ⟨b + 1, inertia X.rows (proper (some c0 :: C'')), by omega, ?_, ?_⟩
    · rw [e1]; exact (km_some hX hd c0 C'').2.1
    · rw [e2]; exact (km_some hX hd c0 C'').2.1
  · push Not at hB
    have hsome : ∀ b ≤ k ^ X.rows.length + 1, ∃ c0 C', (kmNext k X)^[b] C = some c0 :: C' := by
      intro b hb
      cases h : (kmNext k X)^[b] C with
      | nil => have := hlen b; rw [h] at this; simp at this; omega
      | cons o C' =>
        cases o with
        | none => exact absurd h (hB b hb C')
        | some c0 => exact ⟨c0, C', rfl⟩
    have hcost : ∀ b ≤ k ^ X.rows.length + 1, kmCost X ((kmNext k X)^[b] C) = XR.fin (inertia X.rows (proper ((kmNext k X)^[b] C))) := by
      intro b hb
      obtain ⟨c0, C', h⟩ := hsome b hb
      rw [h]; exact (km_some hX hd c0 C').2.1
    have hstep : ∀ b ≤ k ^ X.rows.length + 1, inertia X.rows (proper ((kmNext k X)^[b + 1] C)) ≤ inertia X.rows (proper ((kmNext k X)^[b] C)) := by
      intro b hb
      obtain ⟨c0, C', h⟩ := hsome b hb
      have h1 := hwid b
      have h2 := hlen b
      rw [Function.iterate_succ_apply']
      rw [h] at h1 h2 ⊢
      exact kmNext_same hX hd c0 C' h1 (by simpa using h2)
    have hanti : ∀ a b, a ≤ b → b ≤ k ^ X.rows.length + 1 → inertia X.rows (proper ((kmNext k X)^[b] C)) ≤ inertia X.rows (proper ((kmNext k X)^[a] C)) := by
      intro a b hab
      induction b, hab using Nat.le_induction with
      | base => intro _; exact le_refl _
      | succ b hab ih => intro hb; exact (hstep b (by omega)).trans (ih (by omega))
    obtain ⟨i, j, hij, hj, he⟩ := km_pigeon hX hd hk C hC
    have hs : (kmNext k X)^[i + 1] C = (kmNext k X)^[j + 1] C := by
      rw [Function.iterate_succ_apply', Function.iterate_succ_apply']
      simp only [kmNext] at he ⊢
      rw [he]
    refine ⟨i + 1, _, by omega, hcost _ (by omega), ?_⟩
    rw [hcost _ (by omega)]
    congr 1
    apply le_antisymm (hstep (i + 1) (by omega))
    rw [hs]
    exact hanti _ _ (by omega) (by omega)

/-- An iteration that does not lower the objective is the last one that does anything. -/
theorem kmNext_fixed (hX : X.WF) (hd : 0 < X.cols) (c0 : List ℝ) (C : List (Option (List ℝ))) (hC : CWidth X.cols (some c0 :: C)) (hk : C.length + 1 = k)
    (c1 : List ℝ) (C' : List (Option (List ℝ))) (h1 : kmNext k X (some c0 :: C) = some c1 :: C')
    (hle : inertia X.rows (proper (some c0 :: C)) ≤ inertia X.rows (proper (kmNext k X (some c0 :: C)))) :
    kmNext k X (kmNext k X (some c0 :: C)) = kmNext k X (some c0 :: C) := by
  have h := lloyd_step_fixed X.cols k _ (by simpa using hk) hC X.rows hX _ (km_some hX hd c0 C).1 hle
  change List.Forall₂ (NearestProper (kmNext k X (some c0 :: C))) X.rows (kmLabels X (some c0 :: C)) at h
  rw [h1] at h
  have h2 := findClosest_of_labels hX hd c1 C' _ h
  have h3 : kmLabels X (kmNext k X (some c0 :: C)) = kmLabels X (some c0 :: C) := by
    rw [h1]
    simp only [kmLabels, h2]
  rw [kmNext, h3]
  rfl

theorem kmLoop_fixed (hX : X.WF) (hd : 0 < X.cols) (hk : 0 < k) : ∀ (t n : ℕ) (cost : ℝ) (C : List (Option (List ℝ))) (r : ℝ), t + 2 ≤ n →
    C.length = k → CWidth X.cols C → (∀ i, ∃ c0 C', (kmNext k X)^[i] C = some c0 :: C') →
    (∀ i, inertia X.rows (proper ((kmNext k X)^[i + 1] C)) = inertia X.rows (proper ((kmNext k X)^[i] C)) ∨
      1 / 10 ^ 14 ≤ inertia X.rows (proper ((kmNext k X)^[i] C)) - inertia X.rows (proper ((kmNext k X)^[i + 1] C))) →
    (|cost - inertia X.rows (proper C)| < 1 / 10 ^ 14 → kmNext k X (kmNext k X C) = kmNext k X C) →
    kmCost X ((kmNext k X)^[t] C) = XR.fin r → kmCost X ((kmNext k X)^[t + 1] C) = XR.fin r →
    ∃ R, kmLoop k (finMat X) n (XR.fin cost) (stored X.cols C) = ok (stored X.cols R) ∧ kmNext k X R = R ∧ ∃ i, R = (kmNext k X)^[i] C
  | t, n, cost, C, r, hn, hC, hw, hs, hgap, hP, h1, h2 => by
    obtain ⟨n, rfl⟩ : ∃ n', n = n' + 1 := ⟨n - 1, by omega⟩
    obtain ⟨c0, C', e0⟩ := hs 0
    simp only [Function.iterate_zero, id] at e0
    obtain ⟨c1, C1, e1⟩ := hs 1
    simp only [Function.iterate_one] at e1
    have hcost : kmCost X C = XR.fin (inertia X.rows (proper C)) := by rw [e0]; exact (km_some hX hd c0 C').2.1
    rw [kmLoop_succ hX hd C (by rw [e0]; simp), hcost]
    have htol : (Scalar.abs (XR.fin cost -. XR.fin (inertia X.rows (proper C))) <. (Scalar.ofRat (1 / 10 ^ 14) : XR)) = true ↔
        |cost - inertia X.rows (proper C)| < 1 / 10 ^ 14 := by
      simp only [xr_sub, xr_abs, xr_ofRat, xr_lt, decide_eq_true_eq]
      norm_num
    split
    · rename_i hlt
      exact ⟨_, rfl, hP (htol.1 hlt), 1, rfl⟩
    · have hs' : ∀ i, ∃ c0 C', (kmNext k X)^[i] (kmNext k X C) = some c0 :: C' := fun i => hs (i + 1)
      have hP' : |inertia X.rows (proper C) - inertia X.rows (proper (kmNext k X C))| < 1 / 10 ^ 14 →
          kmNext k X (kmNext k X (kmNext k X C)) = kmNext k X (kmNext k X C) := by
        intro hlt
        have hg := hgap 0
        simp only [zero_add, Function.iterate_one, Function.iterate_zero, id] at hg
        have he : inertia X.rows (proper (kmNext k X C)) = inertia X.rows (proper C) := by
          rcases hg with h | h
          · exact h
          · exact absurd (le_abs_self (inertia X.rows (proper C) - inertia X.rows (proper (kmNext k X C)))) (by push Not; linarith)
        have hfix : kmNext k X (kmNext k X C) = kmNext k X C := by
          rw [e0] at he hC hw ⊢
          rw [e0] at e1
          exact kmNext_fixed hX hd c0 C' hw (by simpa using hC) c1 C1 e1 he.ge
        rw [hfix, hfix]
      cases t with
      | zero =>
        obtain ⟨n, rfl⟩ : ∃ n', n = n' + 1 := ⟨n - 1, by omega⟩
        simp only [Function.iterate_zero, id, Function.iterate_one, zero_add] at h1 h2
        rw [hcost] at h1
        simp only [XR.fin.injEq] at h1
        have h3 : kmCost X (kmNext k X C) = XR.fin (inertia X.rows (proper (kmNext k X C))) := by rw [e1]; exact (km_some hX hd c1 C1).2.1
        have h4 := h2
        rw [h3] at h4
        simp only [XR.fin.injEq] at h4
        rw [kmLoop_succ hX hd _ (by rw [e1]; simp), h2, h1, if_pos (km_still r)]
        refine ⟨_, rfl, hP' (by rw [h1, h4]; simp), 2, rfl⟩
      | succ t =>
        obtain ⟨R, g1, g2, i, g3⟩ := kmLoop_fixed hX hd hk t n (inertia X.rows (proper C)) (kmNext k X C) r (by omega) (kmNext_length _) (kmNext_width _) hs'
          (fun i => hgap (i + 1)) hP' h1 h2
        exact ⟨R, g1, g2, i + 1, g3⟩

/-- The initial centroids as the program stores them. -/
theorem start_stored (c : Mat ℝ) : finMat c = stored c.cols (c.rows.map some) := (stored_some c).symm

theorem start_width {c : Mat ℝ} (hcw : c.WF) : CWidth c.cols (c.rows.map some) := by
  intro x hx
  obtain ⟨x', hx', he⟩ := List.mem_map.1 hx
  cases he
  exact hcw x hx'

theorem start_proper (c : Mat ℝ) : proper (c.rows.map some) = c.rows := by
  rw [proper, List.filterMap_map]
  simp

theorem kmTrain_of_loop (init : ℕ → Mat XR → Outcome (Mat XR)) (m : KMeans XR) (X c : Mat ℝ) (hk : m.k ≤ X.rows.length)
    (hi : init m.k (finMat X) = ok (finMat c)) (hck : c.rows.length = m.k) (hcc : c.cols = X.cols) (R : Mat XR)
    (h : kmLoop m.k (finMat X) m.iters Scalar.zero (finMat c) = ok R) :
    kmTrain init m (finMat X) = ({ m with centroids := some R }, ok ()) := by
  unfold kmTrain kmInit
  rw [if_neg (by simp [finMat]; omega), hi, ok_bind]
  rw [if_neg (by simpa [finMat] using hck), if_neg (by simpa [finMat] using hcc)]
  simp only [h]

/-- C94: k-means training comes to rest by itself. However the centroids are initialised (with finite numbers), from
`k ^ n + 4` on the iteration limit has no influence: every larger limit gives the same centroids. This includes runs in which
clusters become empty. -/
theorem C94_iteration_limit (init : ℕ → Mat XR → Outcome (Mat XR)) (m : KMeans XR) (X c : Mat ℝ) (hX : X.WF) (hd : 0 < X.cols)
    (hk : m.k ≤ X.rows.length) (hk0 : 0 < m.k) (hi : init m.k (finMat X) = ok (finMat c)) (hck : c.rows.length = m.k) (hcc : c.cols = X.cols) (hcw : c.WF) :
    ∃ R : Mat XR, ∀ limit, m.k ^ X.rows.length + 4 ≤ limit →
      kmTrain init { m with iters := limit } (finMat X) = ({ m with iters := limit, centroids := some R }, ok ()) := by
  have hst := start_stored c
  rw [hcc] at hst
  have hne : c.rows.map some ≠ [] := by
    intro h
    have := congrArg List.length h
    rw [List.length_map, hck] at this
    simp at this
    omega
  have hn : X.rows ≠ [] := by
    intro h
    rw [h] at hk
    simp at hk
    omega
  obtain ⟨t, r, ht, h1, h2⟩ := km_rests (k := m.k) hX hd hn hk0 (c.rows.map some) (by simpa using hck) (hcc ▸ start_width hcw)
  -- the loop always succeeds
  have hok : ∀ n (cost : XR) (C : List (Option (List ℝ))), C ≠ [] → ∃ R, kmLoop m.k (finMat X) n cost (stored X.cols C) = ok R := by
    intro n
    induction n with
    | zero => intro cost C _; exact ⟨_, rfl⟩
    | succ n ih =>
      intro cost C hC
      rw [kmLoop_succ hX hd C hC]
      split
      · exact ⟨_, rfl⟩
      · apply ih
        intro h
        have := kmNext_length (X := X) (k := m.k) C
        rw [h] at this
        simp at this
        omega
  obtain ⟨R, hR⟩ := hok (t + 2) Scalar.zero (c.rows.map some) hne
  refine ⟨R, fun limit hl => ?_⟩
  apply kmTrain_of_loop init { m with iters := limit } X c hk hi hck hcc
  rw [hst, kmLoop_limit hX hd hk0 t limit Scalar.zero (c.rows.map some) r hne (by omega) h1 h2, hR]

/-- C94: where training comes to rest. If cluster 0 never runs empty and no iteration lowers the objective by less than the
tolerance `1e-14` without leaving it unchanged, the trained centroids are at rest: with the labels the model predicts for the
training data, every centroid is the mean of the points that carry its label (and is a NaN row exactly when there are none), and
every point is labelled with a nearest proper centroid. Missing for the full claim: see `C94_tolerance_violation`. -/
theorem C94_rest_partial (init : ℕ → Mat XR → Outcome (Mat XR)) (m : KMeans XR) (X c : Mat ℝ) (hX : X.WF) (hd : 0 < X.cols)
    (hk : m.k ≤ X.rows.length) (hk0 : 0 < m.k) (hi : init m.k (finMat X) = ok (finMat c)) (hck : c.rows.length = m.k) (hcc : c.cols = X.cols) (hcw : c.WF)
    (hvis : ∀ c' idx ds, Visited m.k (finMat X) (finMat c) c' → findClosest c' (finMat X) = ok (idx, ds) → 0 ∈ idx)
    (hstart : inertia X.rows c.rows = 0 ∨ 1 / 10 ^ 14 ≤ inertia X.rows c.rows)
    (hgap : ∀ C C' : List (Option (List ℝ)), Visited m.k (finMat X) (finMat c) (stored X.cols C) → CWidth X.cols C →
      KmIteration m.k (finMat X) (stored X.cols C) (stored X.cols C') → CWidth X.cols C' →
      inertia X.rows (proper C') = inertia X.rows (proper C) ∨ 1 / 10 ^ 14 ≤ inertia X.rows (proper C) - inertia X.rows (proper C'))
    (limit : ℕ) (hl : m.k ^ X.rows.length + 4 ≤ limit) :
    ∃ (R : List (Option (List ℝ))) (labels : List ℕ),
      kmTrain init { m with iters := limit } (finMat X) = ({ m with iters := limit, centroids := some (stored X.cols R) }, ok ()) ∧
      kmPredict (kmTrain init { m with iters := limit } (finMat X)).1 (finMat X) = ok labels ∧
      R.length = m.k ∧ List.Forall₂ (NearestProper R) X.rows labels ∧
      (∀ j < m.k, j ∈ labels → R[j]? = some (some (centroidOf X.cols (labelled j X.rows labels)))) ∧
      (∀ j < m.k, j ∉ labels → R[j]? = some none) ∧
      inertia X.rows (proper R) ≤ inertia X.rows c.rows := by
  have hst := start_stored c
  rw [hcc] at hst
  have hlen0 : (c.rows.map some).length = m.k := by simpa using hck
  have hw0 : CWidth X.cols (c.rows.map some) := hcc ▸ start_width hcw
  have hne : c.rows.map some ≠ [] := by
    intro h
    rw [h] at hlen0
    simp at hlen0
    omega
  have hn : X.rows ≠ [] := by
    intro h
    rw [h] at hk
    simp at hk
    omega
  have hit : ∀ C : List (Option (List ℝ)), C ≠ [] → KmIteration m.k (finMat X) (stored X.cols C) (stored X.cols (kmNext m.k X C)) := by
    intro C hC
    obtain ⟨h1, _, ds, h2, _⟩ := km_found hX hd C hC
    exact ⟨_, ds, h2, updateCentroids_stored m.k X hX _ h1.symm⟩
  have hall : ∀ i, (∃ c0 C', (kmNext m.k X)^[i] (c.rows.map some) = some c0 :: C') ∧
      Visited m.k (finMat X) (finMat c) (stored X.cols ((kmNext m.k X)^[i] (c.rows.map some))) := by
    intro i
    induction i with
    | zero =>
      refine ⟨?_, by rw [hst]; exact .refl⟩
      cases hc : c.rows with
      | nil => rw [hc] at hne; simp at hne
      | cons c0 cs => exact ⟨c0, cs.map some, rfl⟩
    | succ i ih =>
      obtain ⟨⟨c0, C', e⟩, hv⟩ := ih
      have hne' : (kmNext m.k X)^[i] (c.rows.map some) ≠ [] := by rw [e]; simp
      rw [Function.iterate_succ_apply']
      refine ⟨?_, hv.tail (hit _ hne')⟩
      obtain ⟨h1, h2, ds, h3, _⟩ := km_found hX hd _ hne'
      have h0 := hvis _ _ _ hv h3
      obtain ⟨k', hk'⟩ : ∃ k', m.k = k' + 1 := ⟨m.k - 1, by omega⟩
      have hl0 := (labelled_ne_nil h1.symm).2 h0
      rw [kmNext, newCentroids, hk', List.range_succ_eq_map, List.map_cons, if_neg (by rw [hk'] at hl0; exact hl0)]
      exact ⟨_, _, rfl⟩
  have hlen : ∀ t, ((kmNext m.k X)^[t] (c.rows.map some)).length = m.k := by
    intro t
    cases t with
    | zero => exact hlen0
    | succ t => rw [Function.iterate_succ_apply']; exact kmNext_length _
  have hwid : ∀ t, CWidth X.cols ((kmNext m.k X)^[t] (c.rows.map some)) := by
    intro t
    cases t with
    | zero => exact hw0
    | succ t => rw [Function.iterate_succ_apply']; exact kmNext_width _
  obtain ⟨t, r, ht, h1, h2⟩ := km_rests (k := m.k) hX hd hn hk0 (c.rows.map some) hlen0 hw0
  have hdown : ∀ i, inertia X.rows (proper ((kmNext m.k X)^[i] (c.rows.map some))) ≤ inertia X.rows c.rows := by
    intro i
    induction i with
    | zero => simp only [Function.iterate_zero, id]; rw [start_proper]
    | succ i ih =>
      refine le_trans ?_ ih
      obtain ⟨⟨c0, C', e⟩, _⟩ := hall i
      have g1 := hwid i
      have g2 := hlen i
      rw [Function.iterate_succ_apply']
      rw [e] at g1 g2 ⊢
      exact kmNext_same hX hd c0 C' g1 (by simpa using g2)
  obtain ⟨R, g1, g2, i, g3⟩ := kmLoop_fixed hX hd hk0 t limit 0 (c.rows.map some) r (by omega) hlen0 hw0 (fun i => (hall i).1) (by
      intro i
      have hne' : (kmNext m.k X)^[i] (c.rows.map some) ≠ [] := by obtain ⟨c0, C', e⟩ := (hall i).1; rw [e]; simp
      have := hgap _ _ (hall i).2 (hwid i) (hit _ hne') (kmNext_width _)
      rw [Function.iterate_succ_apply']
      exact this) (by
      intro hlt
      rw [start_proper] at hlt
      have hz : inertia X.rows c.rows = 0 := by
        rcases hstart with h | h
        · exact h
        · rw [zero_sub, abs_neg] at hlt
          exact absurd (le_abs_self (inertia X.rows c.rows)) (by push Not; linarith)
      obtain ⟨c0, C', e0⟩ := (hall 0).1
      obtain ⟨c1, C1, e1⟩ := (hall 1).1
      simp only [Function.iterate_zero, id] at e0
      simp only [Function.iterate_one] at e1
      rw [← start_proper c] at hz
      rw [e0] at e1 hz hlen0 hw0 ⊢
      refine kmNext_fixed hX hd c0 C' hw0 (by simpa using hlen0) c1 C1 e1 ?_
      rw [hz]
      apply List.sum_nonneg
      intro x hx
      obtain ⟨p, _, rfl⟩ := List.mem_map.1 hx
      exact nearestSq_nonneg _ _) h1 h2
  have htrain : kmTrain init { m with iters := limit } (finMat X) = ({ m with iters := limit, centroids := some (stored X.cols R) }, ok ()) := by
    apply kmTrain_of_loop init { m with iters := limit } X c hk hi hck hcc
    rw [hst]
    exact g1
  obtain ⟨⟨c0, C', e⟩, _⟩ := hall i
  rw [← g3] at e
  obtain ⟨f1, f2, ds, f3, _⟩ := km_found hX hd R (by rw [e]; simp)
  have hRlen : R.length = m.k := by rw [g3]; exact hlen i
  have hR : ∀ j < m.k, R[j]? = some (if labelled j X.rows (kmLabels X R) = [] then none else some (centroidOf X.cols (labelled j X.rows (kmLabels X R)))) := by
    intro j hj
    conv_lhs => rw [← g2]
    simp only [kmNext, newCentroids, List.getElem?_map]
    rw [List.getElem?_range hj, Option.map_some]
  refine ⟨R, kmLabels X R, htrain, ?_, hRlen, ?_, ?_, ?_, ?_⟩
  · rw [htrain]
    simp only [kmPredict, f3, ok_bind]
  · rw [e]
    exact (km_some hX hd c0 C').1
  · intro j hj hjl
    rw [hR j hj, if_neg ((labelled_ne_nil f1.symm).2 hjl)]
  · intro j hj hjl
    rw [hR j hj, if_pos]
    by_contra hc
    exact hjl ((labelled_ne_nil f1.symm).1 hc)
  · rw [g3]
    exact hdown i

theorem stored_inj {d : ℕ} (hd : 0 < d) : ∀ {C C' : List (Option (List ℝ))}, CWidth d C → CWidth d C' → stored d C = stored d C' → C = C' := by
  have hfin : Function.Injective (List.map XR.fin) := List.map_injective_iff.2 fun a b h => by simpa using h
  intro C
  induction C with
  | nil =>
    intro C' _ _ h
    cases C' with
    | nil => rfl
    | cons o C' => simp [stored] at h
  | cons o C ih =>
    intro C' h1 h2 h
    cases C' with
    | nil => simp [stored] at h
    | cons o' C' =>
      simp only [stored, List.map_cons, Mat.mk.injEq, List.cons.injEq, true_and] at h
      have ht := ih (C' := C') (fun c hc => h1 c (List.mem_cons_of_mem _ hc)) (fun c hc => h2 c (List.mem_cons_of_mem _ hc)) (by simp only [stored, h.2])
      rw [ht]
      congr 1
      have hmix : ∀ c : List ℝ, c.length = d → c.map XR.fin ≠ List.replicate d XR.nan := by
        intro c hc he
        cases c with
        | nil => simp at hc; omega
        | cons x c =>
          have := congrArg List.head? he
          cases d with
          | zero => simp at hc
          | succ d => simp [List.replicate_succ] at this
      cases o with
      | none =>
        cases o' with
        | none => rfl
        | some c => exact absurd h.1.symm (hmix c (h2 c (by simp)))
      | some c =>
        cases o' with
        | none => exact absurd h.1 (hmix c (h1 c (by simp)))
        | some c' => exact congrArg some (hfin h.1)

/-- The hypotheses of `C94_rest_partial` hold for a genuine two-cluster run: the data `0, 1, 10, 11` started at `0, 10`. -/
example (limit : ℕ) (hl : 2 ^ 4 + 4 ≤ limit) :
    ∃ (R : List (Option (List ℝ))) (labels : List ℕ),
      kmTrain (fun _ _ => ok (finMat ⟨1, [[0], [10]]⟩)) (⟨limit, 2, none⟩ : KMeans XR) (finMat goodData) = (⟨limit, 2, some (stored 1 R)⟩, ok ()) ∧
      (∀ j < 2, j ∈ labels → R[j]? = some (some (centroidOf 1 (labelled j goodData.rows labels)))) := by
  have hst : finMat ⟨1, [[0], [10]]⟩ = stored 1 [some [0], some [10]] := (stored_some ⟨1, [[0], [10]]⟩).symm
  have i1 : inertia goodData.rows (proper [some [0], some [10]]) = 2 := by
    simp only [inertia, goodData, proper, List.filterMap, id, List.map, nearestSq, List.foldl, sqDist, List.zipWith, List.sum_cons, List.sum_nil]
    norm_num
  have i2 : inertia goodData.rows (proper [some [1 / 2], some [21 / 2]]) = 1 := by
    simp only [inertia, goodData, proper, List.filterMap, id, List.map, nearestSq, List.foldl, sqDist, List.zipWith, List.sum_cons, List.sum_nil]
    norm_num
  have w1 : ∀ a b : ℝ, CWidth 1 [some [a], some [b]] := by
    intro a b c hc
    simp at hc
    rcases hc with rfl | rfl <;> rfl
  obtain ⟨R, labels, h1, _, _, _, h2, _⟩ := C94_rest_partial (fun _ _ => ok (finMat ⟨1, [[0], [10]]⟩)) ⟨limit, 2, none⟩ goodData ⟨1, [[0], [10]]⟩ goodData_WF
    (by simp [goodData]) (by simp [goodData]) (by simp) rfl rfl rfl
    (by intro r hr; simp at hr; rcases hr with rfl | rfl <;> rfl)
    (by
      intro c' idx ds hv hf
      rw [hst] at hv
      rcases good_visited hv with rfl | rfl
      · rw [good_labels (by norm_num) (by norm_num) (by norm_num) (by norm_num)] at hf
        simp only [ok.injEq, Prod.mk.injEq] at hf
        rw [← hf.1]; simp
      · rw [good_labels (by norm_num) (by norm_num) (by norm_num) (by norm_num)] at hf
        simp only [ok.injEq, Prod.mk.injEq] at hf
        rw [← hf.1]; simp)
    (by
      right
      have : inertia goodData.rows [[0], [10]] = 2 := i1
      rw [this]
      norm_num)
    (by
      intro C C' hv hw hit hw'
      rw [hst] at hv
      rcases good_visited hv with h | h
      · have e := stored_inj one_pos hw (w1 _ _) h
        subst e
        have e' := stored_inj one_pos hw' (w1 _ _) (good_step (by norm_num) (by norm_num) (by norm_num) (by norm_num) hit)
        subst e'
        right
        rw [i1, i2]
        norm_num
      · have e := stored_inj one_pos hw (w1 _ _) h
        subst e
        have e' := stored_inj one_pos hw' (w1 _ _) (good_step (by norm_num) (by norm_num) (by norm_num) (by norm_num) hit)
        subst e'
        exact .inl rfl)
    limit hl
  exact ⟨R, labels, h1, h2⟩

/-- C94: the tolerance is absolute. If the initial centroids already have an objective below `1e-14`, training does exactly one
iteration, whatever the limit. -/
theorem C94_small_data (init : ℕ → Mat XR → Outcome (Mat XR)) (m : KMeans XR) (X c : Mat ℝ) (hX : X.WF) (hd : 0 < X.cols)
    (hk : m.k ≤ X.rows.length) (hk0 : 0 < m.k) (hi : init m.k (finMat X) = ok (finMat c)) (hck : c.rows.length = m.k) (hcc : c.cols = X.cols)
    (hsmall : inertia X.rows c.rows < 1 / 10 ^ 14) (hiter : 0 < m.iters) :
    ∃ R : Mat XR, kmTrain init m (finMat X) = ({ m with centroids := some R }, ok ()) ∧ KmIteration m.k (finMat X) (finMat c) R := by
  have hst := start_stored c
  rw [hcc] at hst
  obtain ⟨n, hn⟩ : ∃ n, m.iters = n + 1 := ⟨m.iters - 1, by omega⟩
  obtain ⟨d, rows⟩ := c
  simp only at hck hcc hst hsmall
  cases rows with
  | nil => simp at hck; omega
  | cons c0 cs =>
    have hne : (c0 :: cs).map some ≠ [] := by simp
    have hcost : kmCost X ((c0 :: cs).map some) = XR.fin (inertia X.rows (c0 :: cs)) := by
      have := (km_some hX hd c0 (cs.map some)).2.1
      have hp := start_proper ⟨d, c0 :: cs⟩
      refine this.trans ?_
      exact congrArg (fun P => XR.fin (inertia X.rows P)) hp
    have hnn : 0 ≤ inertia X.rows (c0 :: cs) := by
      apply List.sum_nonneg
      intro x hx
      obtain ⟨p, _, rfl⟩ := List.mem_map.1 hx
      exact nearestSq_nonneg _ _
    refine ⟨stored X.cols (kmNext m.k X ((c0 :: cs).map some)), ?_, ?_⟩
    · apply kmTrain_of_loop init m X ⟨d, c0 :: cs⟩ hk hi hck hcc
      rw [hst, hn, kmLoop_succ hX hd _ hne, hcost, if_pos]
      simp only [xr_zero, xr_sub, xr_abs, xr_ofRat, xr_lt, decide_eq_true_eq, zero_sub, abs_neg]
      rw [abs_of_nonneg hnn]
      refine hsmall.trans_eq ?_
      norm_num
    · rw [hst]
      obtain ⟨h1, _, ds, h2, _⟩ := km_found hX hd _ hne
      exact ⟨_, ds, h2, updateCentroids_stored m.k X hX _ h1.symm⟩

/-- The points `0, 2, 10` in units of `s`. -/
def threePoints (s : ℝ) : Mat ℝ := ⟨1, [[0], [2 * s], [10 * s]]⟩

theorem threePoints_WF (s : ℝ) : (threePoints s).WF := by
  intro r hr; simp [threePoints] at hr; rcases hr with rfl | rfl | rfl <;> rfl

/-- C94: the full claim - after enough iterations every centroid is the mean of its points - is false of the program. The points
`0, 2e-8, 10e-8` started at the first two of them: whatever the limit, training stops after one iteration at the centroids
`0, 6e-8`; the model then labels `2e-8` with cluster 0, whose centroid is not the mean of `0` and `2e-8`, and the objective of
the centroids `1e-8, 10e-8`, which one more iteration would give, is ten times smaller. -/
theorem C94_tolerance_violation (init : ℕ → Mat XR → Outcome (Mat XR))
    (hi : init 2 (finMat (threePoints (1 / 10 ^ 8))) = ok (finMat ⟨1, [[0], [2 / 10 ^ 8]]⟩)) (limit : ℕ) (hl : 0 < limit) :
    let t := kmTrain init (⟨limit, 2, none⟩ : KMeans XR) (finMat (threePoints (1 / 10 ^ 8)))
    t = (⟨limit, 2, some (finMat ⟨1, [[0], [6 / 10 ^ 8]]⟩)⟩, ok ()) ∧
    kmPredict t.1 (finMat (threePoints (1 / 10 ^ 8))) = ok [0, 0, 1] ∧
    centroidOf 1 (labelled 0 (threePoints (1 / 10 ^ 8)).rows [0, 0, 1]) = [1 / 10 ^ 8] ∧
    inertia (threePoints (1 / 10 ^ 8)).rows [[0], [6 / 10 ^ 8]] = 10 * inertia (threePoints (1 / 10 ^ 8)).rows [[1 / 10 ^ 8], [10 / 10 ^ 8]] := by
  have hin : inertia (threePoints (1 / 10 ^ 8)).rows [[0], [2 / 10 ^ 8]] < 1 / 10 ^ 14 := by
    simp only [inertia, threePoints, List.map, nearestSq, List.foldl, sqDist, List.zipWith, List.sum_cons, List.sum_nil]
    norm_num
  obtain ⟨R, h1, idx, ds, h2, h3⟩ := C94_small_data init ⟨limit, 2, none⟩ (threePoints (1 / 10 ^ 8)) ⟨1, [[0], [2 / 10 ^ 8]]⟩ (threePoints_WF _)
    (by simp [threePoints]) (by simp [threePoints]) (by simp) hi rfl rfl hin hl
  have l1 := findClosest_of_labels (threePoints_WF (1 / 10 ^ 8)) (by simp [threePoints]) [0] [some [2 / 10 ^ 8]] [0, 1, 1] (by
    refine .cons (near2_0 ?_) (.cons (near2_1 ?_) (.cons (near2_1 ?_) .nil)) <;> norm_num)
  have hst : finMat ⟨1, [[0], [2 / 10 ^ 8]]⟩ = stored (threePoints (1 / 10 ^ 8)).cols [some [0], some [2 / 10 ^ 8]] :=
    (stored_some ⟨1, [[0], [2 / 10 ^ 8]]⟩).symm
  rw [hst, l1] at h2
  simp only [ok.injEq, Prod.mk.injEq] at h2
  rw [← h2.1, updateCentroids_stored 2 _ (threePoints_WF _) [0, 1, 1] rfl] at h3
  have e : newCentroids 2 (threePoints (1 / 10 ^ 8)).cols (threePoints (1 / 10 ^ 8)).rows [0, 1, 1] = [some [0], some [6 / 10 ^ 8]] := by
    simp only [newCentroids, threePoints, labelled, List.range, List.range.loop, List.zip_cons_cons, List.zip_nil_left, List.filter, List.map, centroidOf, mean,
      decide_true, List.getD_cons_zero, List.sum_cons, List.sum_nil, List.length]
    norm_num [List.cons_ne_nil]
  rw [e] at h3
  simp only [ok.injEq] at h3
  have hR : R = finMat ⟨1, [[0], [6 / 10 ^ 8]]⟩ := by
    rw [← h3]; exact stored_some ⟨1, [[0], [6 / 10 ^ 8]]⟩
  simp only
  rw [h1, hR]
  refine ⟨rfl, ?_, ?_, ?_⟩
  · have l2 := findClosest_of_labels (threePoints_WF (1 / 10 ^ 8)) (by simp [threePoints]) [0] [some [6 / 10 ^ 8]] [0, 0, 1] (by
      refine .cons (near2_0 ?_) (.cons (near2_0 ?_) (.cons (near2_1 ?_) .nil)) <;> norm_num)
    simp only [kmPredict]
    rw [← hR, ← h3, l2]
    rfl
  · simp only [threePoints, labelled, List.zip_cons_cons, List.zip_nil_left, List.filter, List.map, centroidOf, mean, List.range, List.range.loop,
      decide_true, List.getD_cons_zero, List.sum_cons, List.sum_nil, List.length]
    norm_num
  · simp only [inertia, threePoints, List.map, nearestSq, List.foldl, sqDist, List.zipWith, List.sum_cons, List.sum_nil]
    norm_num

end RM
