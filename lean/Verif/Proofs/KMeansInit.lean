import Mathlib.Data.List.Dedup
import Mathlib.Data.List.Nodup
import Verif.Proofs.Lloyd

/-! Proofs about the k-means initialisers. -/

namespace RM
open Outcome Scalar Spec

variable {F : Type}

/-! ### sample_discretely -/

theorem sampleLoop_spec : ∀ (ps : List ℝ) (rand t : ℝ) (i : ℕ), (∀ p ∈ ps, 0 ≤ p) → t ≤ rand → rand < t + ps.sum →
    ∃ (j : ℕ) (w : ℝ), sampleLoop rand i t ps = ok (i + j) ∧ ps[j]? = some w ∧ t + (ps.take j).sum ≤ rand ∧ rand < t + (ps.take j).sum + w
  | [], rand, t, i, _, h1, h2 => by simp at h2; linarith
  | p :: ps, rand, t, i, hp, h1, h2 => by
    rw [sampleLoop]
    simp only [real_add, real_lt, decide_eq_true_eq]
    by_cases h : rand < t + p
    · rw [if_pos h]
      exact ⟨0, p, rfl, by simp, by simpa using h1, by simpa using h⟩
    · rw [if_neg h]
      rw [List.sum_cons] at h2
      obtain ⟨j, w, e, hw, ha, hb⟩ := sampleLoop_spec ps rand (t + p) (i + 1) (fun q hq => hp q (List.mem_cons_of_mem _ hq)) (not_lt.1 h) (by linarith)
      refine ⟨j + 1, w, ?_, by simpa using hw, ?_, ?_⟩
      · rw [e]; congr 1; omega
      · rw [List.take_succ_cons, List.sum_cons]; linarith
      · rw [List.take_succ_cons, List.sum_cons]; linarith

theorem take_sum_mono {ps : List ℝ} (hp : ∀ p ∈ ps, 0 ≤ p) {i j : ℕ} (h : i ≤ j) : (ps.take i).sum ≤ (ps.take j).sum := by
  induction ps generalizing i j with
  | nil => simp
  | cons p ps ih =>
    cases i with
    | zero =>
      rw [List.take_zero, List.sum_nil]
      exact List.sum_nonneg fun q hq => hp q (List.mem_of_mem_take hq)
    | succ i =>
      cases j with
      | zero => omega
      | succ j =>
        rw [List.take_succ_cons, List.take_succ_cons, List.sum_cons, List.sum_cons]
        have := ih (fun q hq => hp q (List.mem_cons_of_mem _ hq)) (i := i) (j := j) (by omega)
        linarith

theorem take_succ_sum {ps : List ℝ} {j : ℕ} {w : ℝ} (h : ps[j]? = some w) : (ps.take (j + 1)).sum = (ps.take j).sum + w := by
  obtain ⟨hj, rfl⟩ := List.getElem?_eq_some_iff.1 h
  rw [List.take_succ_eq_append_getElem hj, List.sum_append]
  simp

theorem sampleLoop_xr : ∀ (ps : List ℝ) (rand t : ℝ) (i : ℕ), sampleLoop (XR.fin rand) i (XR.fin t) (ps.map XR.fin) = sampleLoop rand i t ps
  | [], _, _, _ => rfl
  | p :: ps, rand, t, i => by
    rw [List.map_cons, sampleLoop, sampleLoop]
    simp only [xr_add, xr_lt, real_add, real_lt, sampleLoop_xr ps rand (t + p) (i + 1)]

theorem sampleDiscretely_xr (u : ℝ) (ps : List ℝ) : sampleDiscretely (XR.fin u) (ps.map XR.fin) = sampleDiscretely u ps := by
  unfold sampleDiscretely
  simp only [xr_fsum_fin, fsum_real, List.length_map, xr_mul, real_mul, xr_zero, real_zero, xr_lt, real_lt, sampleLoop_xr]

theorem sampleDiscretely_spec (ps : List ℝ) (u : ℝ) (hp : ∀ p ∈ ps, 0 ≤ p) (hs : 0 < ps.sum) (h0 : 0 ≤ u) (h1 : u < 1) :
    ∃ (j : ℕ) (w : ℝ), sampleDiscretely u ps = ok j ∧ ps[j]? = some w ∧ (ps.take j).sum ≤ u * ps.sum ∧ u * ps.sum < (ps.take j).sum + w := by
  have hne : 0 < ps.length := by
    rcases ps with _ | ⟨p, ps⟩
    · simp at hs
    · simp
  obtain ⟨j, w, e, hw, ha, hb⟩ := sampleLoop_spec ps (u * ps.sum) 0 0 hp (by positivity) (by nlinarith)
  refine ⟨j, w, ?_, hw, by simpa using ha, by simpa using hb⟩
  unfold sampleDiscretely
  simp only [hne, decide_true, assert_true, ok_bind, fsum_real, real_zero, real_lt, hs, real_mul]
  rw [e]; simp

/-! ### Forgy -/

theorem forgyLoop_inv (k n : ℕ) (hn : 0 < n ∨ k = 0) : ∀ (raws choices : List ℕ), choices.Nodup → (∀ c ∈ choices, c < n) → choices.length ≤ k →
    forgyLoop k n raws choices = none ∨
      ∃ r, forgyLoop k n raws choices = some (ok r) ∧ r.Nodup ∧ r.length = k ∧ ∀ c ∈ r, c < n
  | [], choices, h1, h2, h3 => by
    rw [forgyLoop]
    by_cases h : choices.length < k
    · left; rw [if_pos h]
    · right; rw [if_neg h]; exact ⟨choices, rfl, h1, by omega, h2⟩
  | raw :: raws, choices, h1, h2, h3 => by
    rw [forgyLoop]
    by_cases h : choices.length < k
    · rw [if_pos h]
      have hn' : 0 < n := by rcases hn with hn | hn <;> omega
      have hg : genRange raw 0 n = ok (raw % n) := by simp [genRange, hn']
      rw [hg]
      simp only
      by_cases hc : choices.contains (raw % n) = true
      · rw [if_pos hc]; exact forgyLoop_inv k n hn raws choices h1 h2 h3
      · rw [if_neg hc]
        have hc' : raw % n ∉ choices := by simpa using hc
        refine forgyLoop_inv k n hn raws _ ?_ ?_ (by simp; omega)
        · rw [List.nodup_append]
          refine ⟨h1, by simp, ?_⟩
          intro a ha b hb
          simp only [List.mem_singleton] at hb
          rintro rfl
          exact hc' (hb ▸ ha)
        · intro c hcm
          rcases List.mem_append.1 hcm with hcm | hcm
          · exact h2 c hcm
          · simp only [List.mem_singleton] at hcm
            rw [hcm]; exact Nat.mod_lt _ hn'
    · right; rw [if_neg h]; exact ⟨choices, rfl, h1, by omega, h2⟩

/-- Enough distinct draws end the loop. -/
theorem forgyLoop_ends (k n : ℕ) (hn : 0 < n) : ∀ (raws choices : List ℕ), choices.Nodup → (∀ c ∈ choices, c < n) → choices.length ≤ k →
    (∃ S : Finset ℕ, k ≤ S.card ∧ ∀ s ∈ S, s ∈ choices ∨ s ∈ raws.map (· % n)) → forgyLoop k n raws choices ≠ none
  | [], choices, h1, h2, h3, ⟨S, hS, hSm⟩ => by
    rw [forgyLoop]
    have : S ⊆ choices.toFinset := by
      intro s hs
      rcases hSm s hs with h | h
      · simpa using h
      · simp at h
    have hc := Finset.card_le_card this
    rw [List.toFinset_card_of_nodup h1] at hc
    rw [if_neg (by omega)]
    simp
  | raw :: raws, choices, h1, h2, h3, ⟨S, hS, hSm⟩ => by
    rw [forgyLoop]
    by_cases h : choices.length < k
    · rw [if_pos h]
      have hg : genRange raw 0 n = ok (raw % n) := by simp [genRange, hn]
      rw [hg]
      simp only
      by_cases hc : choices.contains (raw % n) = true
      · rw [if_pos hc]
        refine forgyLoop_ends k n hn raws choices h1 h2 h3 ⟨S, hS, ?_⟩
        intro s hs
        rcases hSm s hs with h | h
        · exact .inl h
        · rcases List.mem_cons.1 h with h | h
          · left; rw [h]; simpa using hc
          · exact .inr h
      · rw [if_neg hc]
        have hc' : raw % n ∉ choices := by simpa using hc
        refine forgyLoop_ends k n hn raws _ ?_ ?_ (by simp; omega) ⟨S, hS, ?_⟩
        · rw [List.nodup_append]
          refine ⟨h1, by simp, ?_⟩
          intro a ha b hb
          simp only [List.mem_singleton] at hb
          rintro rfl
          exact hc' (hb ▸ ha)
        · intro c hcm
          rcases List.mem_append.1 hcm with hcm | hcm
          · exact h2 c hcm
          · simp only [List.mem_singleton] at hcm
            rw [hcm]; exact Nat.mod_lt _ hn
        · intro s hs
          rcases hSm s hs with h | h
          · exact .inl (List.mem_append_left _ h)
          · rcases List.mem_cons.1 h with h | h
            · left; rw [h]; simp
            · exact .inr h
    · rw [if_neg h]; simp

theorem forgyLoop_reach (k n : ℕ) : ∀ (rest choices : List ℕ), (choices ++ rest).Nodup → (∀ c ∈ rest, c < n) → (choices ++ rest).length = k →
    forgyLoop k n rest choices = some (ok (choices ++ rest))
  | [], choices, h1, h2, h3 => by
    rw [forgyLoop, if_neg (by simp at h3; omega)]; simp
  | r :: rest, choices, h1, h2, h3 => by
    rw [forgyLoop, if_pos (by simp at h3; omega)]
    have hr := h2 r (by simp)
    have hg : genRange r 0 n = ok r := by
      simp only [genRange]
      rw [if_pos (by omega), Nat.sub_zero, Nat.mod_eq_of_lt hr, Nat.zero_add]
    rw [hg]
    simp only
    have hc : r ∉ choices := by
      rw [List.nodup_append] at h1
      intro h
      exact h1.2.2 r h r (by simp) rfl
    rw [if_neg (by simpa using hc), forgyLoop_reach k n rest _ (by simpa using h1) (fun c hc => h2 c (List.mem_cons_of_mem _ hc)) (by simpa using h3)]
    simp

theorem mapM_getAt_getD {α : Type} (l : List α) (d : α) (idx : List ℕ) (h : ∀ i ∈ idx, i < l.length) :
    idx.mapM (getAt l) = ok (idx.map fun i => l.getD i d) := by
  apply mapM_ok_map
  intro i hi
  have := h i hi
  simp [getAt, this]

/-! ### Random partition -/

theorem partitionLoop_spec (k : ℕ) (hk : 0 < k) : ∀ (raws : List ℕ) (i : ℕ) (g : List (List ℕ)), g.length = k → (∀ v ∈ g, v ≠ []) →
    g.flatten.Perm (List.range i) →
    ∃ g', partitionLoop k i raws g = ok g' ∧ g'.length = k ∧ (∀ v ∈ g', v ≠ []) ∧ g'.flatten.Perm (List.range (i + raws.length))
  | [], i, g, h1, h2, h3 => ⟨g, rfl, h1, h2, by simpa using h3⟩
  | raw :: raws, i, g, h1, h2, h3 => by
    have hg : genRange raw 0 k = ok (raw % k) := by simp [genRange, hk]
    have hlt : raw % k < g.length := by rw [h1]; exact Nat.mod_lt _ hk
    have hmod : (g.modify (raw % k) fun v => v ++ [i]).flatten.Perm (g.flatten ++ [i]) := by
      rw [List.modify_eq_take_cons_drop hlt, List.flatten_append, List.flatten_cons]
      conv_rhs => rw [← List.take_append_drop (raw % k) g, List.drop_eq_getElem_cons hlt, List.flatten_append, List.flatten_cons]
      rw [List.append_assoc, List.append_assoc, List.append_assoc]
      apply List.Perm.append_left
      apply List.Perm.append_left
      exact List.perm_append_comm
    obtain ⟨g', e, a, b, c⟩ := partitionLoop_spec k hk raws (i + 1) (g.modify (raw % k) fun v => v ++ [i]) (by simpa using h1) (by
      intro v hv
      obtain ⟨t, ht, rfl⟩ := List.mem_iff_getElem.1 hv
      rw [List.getElem_modify]
      split
      · simp
      · exact h2 _ (List.getElem_mem _)) (by
      rw [List.range_succ]
      exact hmod.trans (h3.append_right [i]))
    refine ⟨g', ?_, a, b, ?_⟩
    · rw [partitionLoop, hg, ok_bind, if_pos hlt, e]
    · rw [List.length_cons]
      have : i + (raws.length + 1) = i + 1 + raws.length := by omega
      rw [this]; exact c

/-! ### k-means++ -/

theorem rowUnchecked_ok (X : Mat F) (i : ℕ) (r : List F) (h : X.rows[i]? = some r) : rowUnchecked X i = ok r := by
  unfold rowUnchecked; rw [h]

theorem sqDist_pos {u v : List ℝ} (hl : u.length = v.length) (h : u ≠ v) : 0 < sqDist u v := by
  rcases (sqDist_nonneg u v).lt_or_eq with h' | h'
  · exact h'
  · exact absurd (eq_of_sqDist u v hl h'.symm) h

theorem nearestSq_pos_iff {d : ℕ} {x : List ℝ} {cs : List (List ℝ)} (hx : x.length = d) (hc : ∀ c ∈ cs, c.length = d) (hne : cs ≠ []) :
    0 < nearestSq x cs ↔ x ∉ cs := by
  obtain ⟨c, hcm, he⟩ := nearestSq_mem (x := x) hne
  constructor
  · intro h hx'
    have := nearestSq_le (x := x) hx'
    rw [sqDist_self] at this
    linarith
  · intro h
    rw [he]
    exact sqDist_pos (by rw [hx, hc c hcm]) (fun heq => h (heq ▸ hcm))

theorem nearestSq_nonneg (x : List ℝ) (cs : List (List ℝ)) : 0 ≤ nearestSq x cs := by
  by_cases h : cs = []
  · subst h; simp [nearestSq]
  · obtain ⟨c, _, he⟩ := nearestSq_mem (x := x) h
    rw [he]; exact sqDist_nonneg _ _

theorem inertia_pos_iff {d : ℕ} {X cs : List (List ℝ)} (hX : ∀ x ∈ X, x.length = d) (hc : ∀ c ∈ cs, c.length = d) (hne : cs ≠ []) :
    0 < inertia X cs ↔ ∃ x ∈ X, x ∉ cs := by
  constructor
  · intro h
    by_contra hcon
    push Not at hcon
    have : inertia X cs ≤ 0 := by
      unfold inertia
      apply le_of_eq
      apply List.sum_eq_zero
      intro v hv
      obtain ⟨x, hx, rfl⟩ := List.mem_map.1 hv
      have h1 := mt (nearestSq_pos_iff (hX x hx) hc hne).1 (not_not.2 (hcon x hx))
      have h2 := nearestSq_nonneg x cs
      linarith
    linarith
  · rintro ⟨x, hx, hxc⟩
    unfold inertia
    apply lt_of_lt_of_le ((nearestSq_pos_iff (hX x hx) hc hne).2 hxc)
    apply List.single_le_sum
    · intro v hv
      obtain ⟨y, _, rfl⟩ := List.mem_map.1 hv
      exact nearestSq_nonneg _ _
    · exact List.mem_map.2 ⟨x, hx, rfl⟩

theorem findClosest_real {X : Mat ℝ} (hw : X.WF) (cs : List (List ℝ)) (hne : cs ≠ []) :
    ∃ labels, findClosest ⟨X.cols, cs.map (List.map XR.fin)⟩ (finMat X) = ok (labels, (X.rows.map fun x => nearestSq x cs).map XR.fin) := by
  cases cs with
  | nil => exact absurd rfl hne
  | cons c0 cs =>
    obtain ⟨labels, _, h⟩ := findClosest_stored hw c0 (cs.map some) (.inr (by simp))
    refine ⟨labels, ?_⟩
    have e1 : stored X.cols (some c0 :: cs.map some) = ⟨X.cols, (c0 :: cs).map (List.map XR.fin)⟩ := by
      simp [stored, storedRow]
    have e2 : proper (some c0 :: cs.map some) = c0 :: cs := by
      have : (some c0 :: cs.map some) = (c0 :: cs).map some := rfl
      rw [this, proper, List.filterMap_map]; simp
    rw [e1, e2] at h
    rw [h, List.map_map]; rfl

/-- The `k-means++` loop on finite data. -/
theorem kppLoop_spec {X : Mat ℝ} (hw : X.WF) : ∀ (us : List ℝ) (cs : List (List ℝ)), (∀ u ∈ us, 0 ≤ u ∧ u < 1) → cs ≠ [] → cs.Nodup → (∀ c ∈ cs, c ∈ X.rows) →
    (cs.length + us.length ≤ X.rows.dedup.length → ∃ cs' : List (List ℝ), kppLoop (finMat X) (us.map XR.fin) (cs.map (List.map XR.fin)) = ok (cs'.map (List.map XR.fin)) ∧
      cs'.length = cs.length + us.length ∧ cs'.Nodup ∧ ∀ c ∈ cs', c ∈ X.rows) ∧
    (X.rows.dedup.length < cs.length + us.length → us ≠ [] → kppLoop (finMat X) (us.map XR.fin) (cs.map (List.map XR.fin)) = panic)
  | [], cs, _, hne, hnd, hm => by
    refine ⟨fun _ => ⟨cs, rfl, by simp, hnd, hm⟩, fun _ h => absurd rfl h⟩
  | u :: us, cs, hu, hne, hnd, hm => by
    have hcw : ∀ c ∈ cs, c.length = X.cols := fun c hc => hw c (hm c hc)
    obtain ⟨labels, hf⟩ := findClosest_real hw cs hne
    have hfin : (((X.rows.map fun x => nearestSq x cs).map XR.fin).all Scalar.isFinite) = true := by
      rw [List.all_eq_true]
      intro v hv
      obtain ⟨y, _, rfl⟩ := List.mem_map.1 hv
      rfl
    have hstep : kppLoop (finMat X) ((u :: us).map XR.fin) (cs.map (List.map XR.fin)) =
        (sampleDiscretely u (X.rows.map fun x => nearestSq x cs) >>= fun next => rowUnchecked (finMat X) next >>= fun row =>
          kppLoop (finMat X) (us.map XR.fin) (cs.map (List.map XR.fin) ++ [row])) := by
      rw [List.map_cons, kppLoop, show (finMat X).cols = X.cols from rfl, hf, ok_bind]
      simp only [hfin, if_true, sampleDiscretely_xr]
    have hsub : cs.length ≤ X.rows.dedup.length := by
      have : cs.toFinset ⊆ X.rows.toFinset := by
        intro c hc
        simp only [List.mem_toFinset] at hc ⊢
        exact hm c hc
      have := Finset.card_le_card this
      rw [List.toFinset_card_of_nodup hnd, List.card_toFinset] at this
      exact this
    have hpos := inertia_pos_iff (X := X.rows) hw hcw hne
    by_cases hex : ∃ x ∈ X.rows, x ∉ cs
    · have hs : 0 < (X.rows.map fun x => nearestSq x cs).sum := hpos.2 hex
      obtain ⟨hu0, hu1⟩ := hu u (by simp)
      obtain ⟨j, w, e, hj, ha, hb⟩ := sampleDiscretely_spec (X.rows.map fun x => nearestSq x cs) u (by
        intro p hp
        obtain ⟨y, _, rfl⟩ := List.mem_map.1 hp
        exact nearestSq_nonneg _ _) hs hu0 hu1
      have hw0 : 0 < w := by linarith
      rw [List.getElem?_map] at hj
      cases hx : X.rows[j]? with
      | none => rw [hx] at hj; cases hj
      | some x =>
        rw [hx] at hj
        simp only [Option.map_some, Option.some.injEq] at hj
        have hxm := List.mem_of_getElem? hx
        rw [← hj] at hw0
        have hxc : x ∉ cs := (nearestSq_pos_iff (hw x hxm) hcw hne).1 hw0
        have hrow : rowUnchecked (finMat X) j = ok (x.map XR.fin) := rowUnchecked_ok _ _ _ (by simp [finMat, hx])
        rw [e, ok_bind, hrow, ok_bind] at hstep
        have hap : cs.map (List.map XR.fin) ++ [x.map XR.fin] = (cs ++ [x]).map (List.map XR.fin) := by simp
        rw [hap] at hstep
        obtain ⟨ih1, ih2⟩ := kppLoop_spec hw us (cs ++ [x]) (fun u' hu' => hu u' (List.mem_cons_of_mem _ hu')) (by simp) (by
          rw [List.nodup_append]
          refine ⟨hnd, by simp, ?_⟩
          intro a ha b hb
          simp only [List.mem_singleton] at hb
          rintro rfl
          exact hxc (hb ▸ ha)) (by
          intro c hc
          rcases List.mem_append.1 hc with hc | hc
          · exact hm c hc
          · simp only [List.mem_singleton] at hc; rw [hc]; exact hxm)
        refine ⟨?_, ?_⟩
        · intro hle
          obtain ⟨cs', g1, g2, g3, g4⟩ := ih1 (by simp at hle ⊢; omega)
          exact ⟨cs', by rw [hstep, g1], by simp at g2 ⊢; omega, g3, g4⟩
        · intro hlt _
          rw [hstep]
          by_cases hus : us = []
          · exfalso
            subst hus
            have : (cs ++ [x]).toFinset ⊆ X.rows.toFinset := by
              intro c hc
              simp only [List.mem_toFinset, List.mem_append, List.mem_singleton] at hc ⊢
              rcases hc with hc | hc
              · exact hm c hc
              · rw [hc]; exact hxm
            have := Finset.card_le_card this
            rw [List.toFinset_card_of_nodup (by
              rw [List.nodup_append]
              refine ⟨hnd, by simp, ?_⟩
              intro a ha b hb
              simp only [List.mem_singleton] at hb
              rintro rfl
              exact hxc (hb ▸ ha)), List.card_toFinset] at this
            simp at this hlt
            omega
          · exact ih2 (by simp at hlt ⊢; omega) hus
    · have hs : ¬ 0 < (X.rows.map fun x => nearestSq x cs).sum := fun h => hex (hpos.1 h)
      have hpanic : sampleDiscretely u (X.rows.map fun x => nearestSq x cs) = panic := by
        unfold sampleDiscretely
        by_cases h : 0 < (X.rows.map fun x => nearestSq x cs).length
        · simp only [h, decide_true, assert_true, ok_bind, fsum_real, real_zero, real_lt, hs, decide_false, assert_false, panic_bind]
        · simp only [h, decide_false, assert_false, panic_bind]
      rw [hpanic, panic_bind] at hstep
      refine ⟨?_, fun _ _ => hstep⟩
      intro hle
      exfalso
      push Not at hex
      have : X.rows.toFinset ⊆ cs.toFinset := by
        intro c hc
        simp only [List.mem_toFinset] at hc ⊢
        exact hex c hc
      have := Finset.card_le_card this
      rw [List.toFinset_card_of_nodup hnd, List.card_toFinset] at this
      simp at hle
      omega

end RM
