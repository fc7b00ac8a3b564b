import Verif.Model.NaiveBayes
import Verif.Spec.NaiveBayes
import Verif.Proofs.KMeansInit

/-! Proofs about naive Bayes. -/

namespace RM
open Outcome Scalar Spec


/-! ### Classes of the target rows -/

theorem findClass_real : ∀ (t : List ℝ) (i : ℕ), findClass i t = match classOf t with | some c => ok (i + c) | none => err .InvalidState
  | [], i => by simp [findClass, classOf]
  | x :: t, i => by
    rw [findClass]
    by_cases h : x = 1
    · subst h
      have : classOf ((1:ℝ) :: t) = some 0 := by simp [classOf, List.findIdx?_cons]
      rw [this]; simp
    · have : (x ==. Scalar.one) = false := by simp [h]
      rw [this]
      simp only [Bool.false_eq_true, if_false]
      rw [findClass_real t (i + 1)]
      simp only [classOf, List.findIdx?_cons, h, decide_false]
      cases List.findIdx? (fun x => decide (x = 1)) t with
      | none => simp
      | some c => simp; omega

theorem classOf_lt {t : List ℝ} {c : ℕ} (h : classOf t = some c) : c < t.length := by
  unfold classOf at h
  rw [List.findIdx?_eq_some_iff_getElem] at h
  exact h.1

/-- The classes of target rows that all have one. -/
noncomputable def classesOf (T : List (List ℝ)) : List ℕ := T.filterMap classOf

theorem classesOf_cons {t : List ℝ} {T : List (List ℝ)} {c : ℕ} (h : classOf t = some c) : classesOf (t :: T) = c :: classesOf T := by
  simp [classesOf, h]

theorem nbScan_ok : ∀ (T : List (List ℝ)) (i k : ℕ) (counts : List ℕ) (data : List (List ℕ)), data.length = k → (∀ t ∈ T, t.length = k) →
    (∀ t ∈ T, classOf t ≠ none) →
    nbScan i T counts data = ((classesOf T).foldl (fun cs c => cs.modify c (· + 1)) counts, ok (groupRows i (classesOf T) data))
  | [], i, k, counts, data, _, _, _ => rfl
  | t :: T, i, k, counts, data, hd, hl, hc => by
    obtain ⟨c, hcl⟩ := Option.ne_none_iff_exists'.1 (hc t (by simp))
    rw [nbScan, findClass_real, hcl]
    simp only [Nat.zero_add]
    have := classOf_lt hcl
    rw [hl t (by simp)] at this
    rw [if_pos (by omega), nbScan_ok T (i + 1) k _ _ (by simpa using hd) (fun t' ht' => hl t' (List.mem_cons_of_mem _ ht'))
      (fun t' ht' => hc t' (List.mem_cons_of_mem _ ht')), classesOf_cons hcl]
    rfl

theorem nbScan_err : ∀ (T : List (List ℝ)) (i k : ℕ) (counts : List ℕ) (data : List (List ℕ)), data.length = k → (∀ t ∈ T, t.length = k) →
    (∃ t ∈ T, classOf t = none) → ∃ counts', nbScan i T counts data = (counts', err .InvalidState)
  | [], _, _, _, _, _, _, ⟨t, ht, _⟩ => by simp at ht
  | t :: T, i, k, counts, data, hd, hl, hex => by
    rw [nbScan, findClass_real]
    cases hcl : classOf t with
    | none => exact ⟨counts, rfl⟩
    | some c =>
      simp only [Nat.zero_add]
      have := classOf_lt hcl
      rw [hl t (by simp)] at this
      rw [if_pos (by omega)]
      apply nbScan_err T (i + 1) k _ _ (by simpa using hd) (fun t' ht' => hl t' (List.mem_cons_of_mem _ ht'))
      obtain ⟨t', ht', hn⟩ := hex
      rcases List.mem_cons.1 ht' with rfl | ht'
      · rw [hcl] at hn; cases hn
      · exact ⟨t', ht', hn⟩

theorem foldl_modify_get : ∀ (cs : List ℕ) (counts : List ℕ) (j : ℕ),
    (cs.foldl (fun a c => a.modify c (· + 1)) counts)[j]? = counts[j]?.map (· + cs.count j)
  | [], counts, j => by
    simp only [List.foldl_nil, List.count_nil, Nat.add_zero]
    cases h : counts[j]? <;> simp
  | c :: cs, counts, j => by
    rw [List.foldl_cons, foldl_modify_get cs, List.getElem?_modify]
    by_cases h : c = j
    · subst h
      cases counts[c]? <;> simp; omega
    · cases counts[j]? <;> simp [h]

theorem foldl_modify_replicate (k : ℕ) (cs : List ℕ) :
    cs.foldl (fun a c => a.modify c (· + 1)) (List.replicate k 0) = (List.range k).map fun j => cs.count j := by
  apply List.ext_getElem?
  intro j
  rw [foldl_modify_get]
  by_cases hj : j < k
  · simp [hj]
  · simp [hj]

theorem count_classesOf (T : List (List ℝ)) (c : ℕ) : (classesOf T).count c = classSize T c := by
  induction T with
  | nil => rfl
  | cons t T ih =>
    unfold classSize at ih ⊢
    cases h : classOf t with
    | none => simp [classesOf, h] at ih ⊢; exact ih
    | some d =>
      rw [classesOf_cons h, List.count_cons, ih, List.countP_cons]
      by_cases hd : d = c <;> simp [h, hd]

theorem classesOf_length {T : List (List ℝ)} (h : ∀ t ∈ T, classOf t ≠ none) : (classesOf T).length = T.length := by
  induction T with
  | nil => rfl
  | cons t T ih =>
    obtain ⟨c, hcl⟩ := Option.ne_none_iff_exists'.1 (h t (by simp))
    rw [classesOf_cons hcl, List.length_cons, List.length_cons, ih fun t' ht' => h t' (List.mem_cons_of_mem _ ht')]

theorem classesOf_lt {T : List (List ℝ)} {k : ℕ} (hl : ∀ t ∈ T, t.length = k) : ∀ c ∈ classesOf T, c < k := by
  intro c hc
  obtain ⟨t, ht, h⟩ := List.mem_filterMap.1 hc
  have := classOf_lt h
  rw [hl t ht] at this
  exact this

theorem labelled_classSamples {X T : List (List ℝ)} (h : ∀ t ∈ T, classOf t ≠ none) (c : ℕ) : labelled c X (classesOf T) = classSamples X T c := by
  unfold labelled classSamples
  induction T generalizing X with
  | nil => simp [classesOf]
  | cons t T ih =>
    obtain ⟨d, hcl⟩ := Option.ne_none_iff_exists'.1 (h t (by simp))
    rw [classesOf_cons hcl]
    cases X with
    | nil => simp
    | cons x X =>
      have ih' := ih (X := X) fun t' ht' => h t' (List.mem_cons_of_mem _ ht')
      by_cases hd : d = c <;> simp [hcl, hd, ih']

theorem sum_count (k : ℕ) : ∀ (cs : List ℕ), (∀ c ∈ cs, c < k) → ((List.range k).map fun j => cs.count j).sum = cs.length
  | [], _ => by simp
  | c :: cs, h => by
    have ih := sum_count k cs fun c' hc' => h c' (List.mem_cons_of_mem _ hc')
    have hc := h c (by simp)
    have : ((List.range k).map fun j => (c :: cs).count j) = (List.range k).map fun j => cs.count j + if c = j then 1 else 0 := by
      apply List.map_congr_left
      intro j _
      rw [List.count_cons]; simp
    rw [this, List.sum_map_add, ih, List.length_cons]
    congr 1
    have h2 : ∀ n, ((List.range n).map fun j => if c = j then 1 else 0).sum = if c < n then 1 else 0 := by
      intro n
      induction n with
      | zero => simp
      | succ n ihn =>
        rw [List.range_succ, List.map_append, List.sum_append, ihn]
        by_cases h1 : c < n
        · have : c ≠ n := by omega
          simp [h1, this, Nat.lt_succ_of_lt h1]
        · by_cases h2 : c = n
          · subst h2; simp
          · have : ¬ c < n + 1 := by omega
            simp [h1, h2, this]
    rw [h2, if_pos hc]

/-! ### Fitting -/

variable {D : Type}

theorem nbFit_inv {F : Type} [Scalar F] {B : NBDistr D F} {X : Mat F} {Inv : D → Prop} :
    ∀ (data : List (List ℕ)) (i : ℕ) (d d' : D), (∀ d v M c d', i ≤ c → X.selectRows v = ok M → Inv d → B.update d M c = ok d' → Inv d') →
      Inv d → nbFit B X i data d = (d', ok ()) → Inv d'
  | [], i, d, d', _, h, e => by simp only [nbFit, Prod.mk.injEq, and_true] at e; rw [← e]; exact h
  | v :: data, i, d, d', hI, h, e => by
    have hI' : ∀ d v M c d', i + 1 ≤ c → X.selectRows v = ok M → Inv d → B.update d M c = ok d' → Inv d' :=
      fun d v M c d' hc => hI d v M c d' (by omega)
    rw [nbFit] at e
    by_cases hv : v.isEmpty = true
    · rw [if_pos hv] at e
      exact nbFit_inv data (i + 1) d d' hI' h e
    · rw [if_neg hv] at e
      cases hs : X.selectRows v with
      | ok M =>
        rw [hs] at e
        simp only at e
        cases hu : B.update d M i with
        | ok d1 => rw [hu] at e; exact nbFit_inv data (i + 1) d1 d' hI' (hI d v M i d1 (le_refl _) hs h hu) e
        | err k => rw [hu] at e; simp at e
        | panic => rw [hu] at e; simp at e
        | ub => rw [hu] at e; simp at e
      | err k => rw [hs] at e; simp at e
      | panic => rw [hs] at e; simp at e
      | ub => rw [hs] at e; simp at e

/-- Each class row of a table stored in the distribution is computed from that class's rows. -/
theorem nbFit_get {F : Type} [Scalar F] {R : Type} {B : NBDistr D F} {X : Mat F} (get : D → List R) (f : Mat F → Outcome R)
    (hU : ∀ d M c d', B.update d M c = ok d' → ∃ r, f M = ok r ∧ c < (get d).length ∧ get d' = (get d).set c r) :
    ∀ (data : List (List ℕ)) (i : ℕ) (d d' : D), nbFit B X i data d = (d', ok ()) →
      (get d').length = (get d).length ∧ (∀ c < i, (get d')[c]? = (get d)[c]?) ∧
      ∀ (j : ℕ) v, data[j]? = some v → if v = [] then (get d')[i + j]? = (get d)[i + j]? else
        ∃ M r, X.selectRows v = ok M ∧ f M = ok r ∧ (get d')[i + j]? = some r
  | [], i, d, d', e => by
    simp only [nbFit, Prod.mk.injEq, and_true] at e
    subst e
    exact ⟨rfl, fun _ _ => rfl, fun j v h => by simp at h⟩
  | v :: data, i, d, d', e => by
    rw [nbFit] at e
    by_cases hv : v.isEmpty = true
    · rw [if_pos hv] at e
      obtain ⟨h1, h2, h3⟩ := nbFit_get get f hU data (i + 1) d d' e
      refine ⟨h1, fun c hc => h2 c (by omega), ?_⟩
      intro j w hj
      cases j with
      | zero =>
        simp only [List.getElem?_cons_zero, Option.some.injEq] at hj
        subst hj
        rw [if_pos (by simpa using hv)]
        exact h2 (i + 0) (by omega)
      | succ j =>
        have := h3 j w (by simpa using hj)
        rw [show i + (j + 1) = i + 1 + j by omega]
        exact this
    · rw [if_neg hv] at e
      cases hs : X.selectRows v with
      | ok M =>
        rw [hs] at e
        simp only at e
        cases hu : B.update d M i with
        | ok d1 =>
          rw [hu] at e
          obtain ⟨r, hr, hlt, hset⟩ := hU d M i d1 hu
          obtain ⟨h1, h2, h3⟩ := nbFit_get get f hU data (i + 1) d1 d' e
          refine ⟨by rw [h1, hset, List.length_set], ?_, ?_⟩
          · intro c hc
            rw [h2 c (by omega), hset, List.getElem?_set_ne (by omega)]
          · intro j w hj
            cases j with
            | zero =>
              simp only [List.getElem?_cons_zero, Option.some.injEq] at hj
              subst hj
              rw [if_neg (by simpa using hv)]
              refine ⟨M, r, hs, hr, ?_⟩
              rw [Nat.add_zero, h2 i (by omega), hset, List.getElem?_set_self hlt]
            | succ j =>
              have := h3 j w (by simpa using hj)
              rw [show i + (j + 1) = i + 1 + j by omega]
              split
              · rename_i hw
                rw [if_pos hw] at this
                rw [this, hset, List.getElem?_set_ne (by omega)]
              · rename_i hw
                rw [if_neg hw] at this
                exact this
        | err k => rw [hu] at e; simp at e
        | panic => rw [hu] at e; simp at e
        | ub => rw [hu] at e; simp at e
      | err k => rw [hs] at e; simp at e
      | panic => rw [hs] at e; simp at e
      | ub => rw [hs] at e; simp at e

/-- Fitting succeeds if every update does. -/
theorem nbFit_ok {F : Type} [Scalar F] {B : NBDistr D F} {X : Mat F} {Inv : D → Prop} :
    ∀ (data : List (List ℕ)) (i : ℕ) (d : D), Inv d →
      (∀ (j : ℕ) v, data[j]? = some v → v ≠ [] → ∃ M, X.selectRows v = ok M ∧ ∀ d, Inv d → ∃ d', B.update d M (i + j) = ok d' ∧ Inv d') →
      ∃ d', nbFit B X i data d = (d', ok ()) ∧ Inv d'
  | [], i, d, h, _ => ⟨d, rfl, h⟩
  | v :: data, i, d, h, hall => by
    have hrest : ∀ (j : ℕ) w, data[j]? = some w → w ≠ [] → ∃ M, X.selectRows w = ok M ∧ ∀ d, Inv d → ∃ d', B.update d M (i + 1 + j) = ok d' ∧ Inv d' := by
      intro j w hj hw
      have := hall (j + 1) w (by simpa using hj) hw
      rw [show i + (j + 1) = i + 1 + j by omega] at this
      exact this
    rw [nbFit]
    by_cases hv : v.isEmpty = true
    · rw [if_pos hv]
      exact nbFit_ok data (i + 1) d h hrest
    · rw [if_neg hv]
      obtain ⟨M, hM, hd⟩ := hall 0 v (by simp) (by simpa using hv)
      obtain ⟨d', hu, hi⟩ := hd d h
      rw [hM]
      simp only
      rw [Nat.add_zero] at hu
      rw [hu]
      exact nbFit_ok data (i + 1) d' hi hrest

theorem classData_eq (k : ℕ) (T : List (List ℝ)) : groupRows 0 (classesOf T) (List.replicate k []) =
    (List.range k).map fun j => members j 0 (classesOf T) := groupRows_replicate 0 k _

theorem selectRows_class {X : Mat ℝ} {T : List (List ℝ)} (hc : ∀ t ∈ T, classOf t ≠ none) (hn : X.rows.length = T.length) (j : ℕ) :
    X.selectRows (members j 0 (classesOf T)) = ok ⟨X.cols, classSamples X.rows T j⟩ := by
  unfold Mat.selectRows
  rw [select_labelled j X.rows (classesOf T) (by rw [classesOf_length hc]; exact hn), labelled_classSamples hc]
  rfl

theorem members_eq_nil (j : ℕ) : ∀ (cs : List ℕ) (i : ℕ), members j i cs = [] ↔ j ∉ cs
  | [], i => by simp [members]
  | c :: cs, i => by
    rw [members]
    by_cases h : c = j
    · simp [h]
    · rw [if_neg h, members_eq_nil j cs (i + 1)]; simp [Ne.symm h]

theorem classSamples_ne_nil {X T : List (List ℝ)} (hc : ∀ t ∈ T, classOf t ≠ none) (hn : X.length = T.length) (j : ℕ) :
    classSamples X T j ≠ [] ↔ members j 0 (classesOf T) ≠ [] := by
  rw [← labelled_classSamples hc, labelled_ne_nil (by rw [classesOf_length hc]; exact hn), ne_eq, members_eq_nil, not_not]

theorem classSamples_length {X T : List (List ℝ)} (hn : X.length = T.length) (j : ℕ) : (classSamples X T j).length = classSize T j := by
  unfold classSamples classSize
  induction T generalizing X with
  | nil => simp
  | cons t T ih =>
    cases X with
    | nil => simp at hn
    | cons x X =>
      have := ih (X := X) (by simpa using hn)
      by_cases h : classOf t = some j
      · simp [h] at this ⊢; exact this
      · simp [h] at this ⊢; exact this

theorem classSamples_mem {X T : List (List ℝ)} {c : ℕ} {x : List ℝ} (h : x ∈ classSamples X T c) : x ∈ X := by
  unfold classSamples at h
  obtain ⟨p, hp, rfl⟩ := List.mem_map.1 h
  exact (List.of_mem_zip (List.mem_filter.1 hp).1).1

/-- What a successful training run leaves behind. -/
theorem nbTrain_ok_iff (B : NBDistr D ℝ) (m m' : NaiveBayes D ℝ) (X T : Mat ℝ) (hT : T.WF) :
    nbTrain B m X T = (m', ok ()) ↔ (∀ t ∈ T.rows, classOf t ≠ none) ∧ ∃ d,
      nbFit B X 0 ((List.range T.cols).map fun j => members j 0 (classesOf T.rows)) (B.fromParams T.cols X.cols) = (d, ok ()) ∧
      m' = ⟨some d, some T.cols, some ((List.range T.cols).map fun c => (classSize T.rows c : ℝ) / X.rows.length),
        (List.range T.cols).map fun c => classSize T.rows c⟩ := by
  by_cases hc : ∀ t ∈ T.rows, classOf t ≠ none
  · unfold nbTrain
    simp only
    rw [nbScan_ok T.rows 0 T.cols _ _ (by simp) hT hc, classData_eq, foldl_modify_replicate]
    have hcnt : (fun j => (classesOf T.rows).count j) = fun c => classSize T.rows c := by
      funext c; exact count_classesOf _ _
    rw [hcnt]
    simp only
    have hpri : ((List.range T.cols).map fun c => classSize T.rows c).map (fun c => (Scalar.ofNat c : ℝ) /. Scalar.ofNat X.rows.length) =
        (List.range T.cols).map fun c => (classSize T.rows c : ℝ) / X.rows.length := by
      rw [List.map_map]; rfl
    rw [hpri]
    generalize hf : nbFit B X 0 _ _ = r
    obtain ⟨d, o⟩ := r
    cases o with
    | ok u =>
      simp only [Prod.mk.injEq, and_true]
      constructor
      · intro h; exact ⟨hc, d, rfl, h.symm⟩
      · rintro ⟨_, d', hd, h⟩; rw [h, hd]
    | err k => simp
    | panic => simp
    | ub => simp
  · constructor
    · intro h
      exfalso
      push Not at hc
      obtain ⟨counts', hs⟩ := nbScan_err T.rows 0 T.cols (List.replicate T.cols 0) (List.replicate T.cols []) (by simp) hT hc
      unfold nbTrain at h
      simp only at h
      rw [hs] at h
      simp at h
    · rintro ⟨h, _⟩; exact absurd h hc

end RM
