import Verif.Proofs.TreeKinds

/-! When does building a tree terminate? -/

set_option linter.unusedSectionVars false

namespace RM
open Outcome Scalar Spec

variable {F : Type} [Scalar F] {B : Type}

/-! ### More fuel never changes a result -/

theorem selectSplit_mono {data : Mat F} : ∀ (fuel fuel' : ℕ) (remains : List ℕ) (dmin dmax : List F) (o : Outcome (Sel F)),
    selectSplit data fuel remains dmin dmax = some o → fuel ≤ fuel' → selectSplit data fuel' remains dmin dmax = some o
  | 0, _, _, _, _, _, h, _ => by simp [selectSplit] at h
  | fuel + 1, 0, _, _, _, _, _, hle => by omega
  | fuel + 1, fuel' + 1, remains, dmin, dmax, o, h, hle => by
    rw [selectSplit] at h ⊢
    split at h <;> try exact h
    rename_i dim d ha
    split at h <;> try exact h
    rename_i lo hlo
    simp only [] at h ⊢
    split at h <;> try exact h
    rename_i l g hp
    split at h
    · rename_i hl; rw [if_pos hl]
      exact selectSplit_mono fuel fuel' _ _ _ _ h (by omega)
    · rename_i hl; rw [if_neg hl]
      split at h
      · rename_i hg; rw [if_pos hg]
        exact selectSplit_mono fuel fuel' _ _ _ _ h (by omega)
      · rename_i hg; rw [if_neg hg]; exact h

theorem splitNode_mono (K : SplitKind F B) {data : Mat F} {leafsize : ℕ} :
    ∀ (fuel fuel' : ℕ) (remains : List ℕ) (dmin dmax : List F) (o : Outcome (Node F B)),
    splitNode K data leafsize fuel remains dmin dmax = some o → fuel ≤ fuel' →
    splitNode K data leafsize fuel' remains dmin dmax = some o
  | 0, _, _, _, _, _, h, _ => by simp [splitNode] at h
  | fuel + 1, 0, _, _, _, _, _, hle => by omega
  | fuel + 1, fuel' + 1, remains, dmin, dmax, o, h, hle => by
    rw [splitNode] at h ⊢
    by_cases hlt : remains.length < leafsize
    · rw [if_pos hlt] at h ⊢; exact h
    · rw [if_neg hlt] at h ⊢
      cases hs : selectSplit data fuel remains dmin dmax with
      | none => rw [hs] at h; simp at h
      | some os =>
        rw [selectSplit_mono fuel fuel' _ _ _ _ hs (by omega)]
        rw [hs] at h
        cases os with
        | ok s =>
          simp only at h ⊢
          cases h1 : splitNode K data leafsize fuel s.left dmin s.lMax with
          | none => rw [h1] at h; simp at h
          | some o1 =>
            rw [splitNode_mono K fuel fuel' _ _ _ _ h1 (by omega)]
            rw [h1] at h
            cases o1 with
            | ok l =>
              simp only at h ⊢
              cases h2 : splitNode K data leafsize fuel s.right s.rMin dmax with
              | none => rw [h2] at h; simp at h
              | some o2 =>
                rw [splitNode_mono K fuel fuel' _ _ _ _ h2 (by omega)]
                rw [h2] at h
                exact h
            | err e => exact h
            | panic => exact h
            | ub => exact h
        | err e => exact h
        | panic => exact h
        | ub => exact h

theorem treeBuild_mono (K : SplitKind F B) (t0 : BinaryTree F B) (data : Mat F) (fuel fuel' : ℕ) (o : Outcome (BinaryTree F B))
    (h : treeBuild K fuel t0 data = some o) (hle : fuel ≤ fuel') : treeBuild K fuel' t0 data = some o := by
  unfold treeBuild at h ⊢
  split at h
  · rename_i dmin dmax h1 h2
    cases hs : splitNode K data t0.leafsize fuel (List.range data.rows.length) dmin dmax with
    | none => rw [hs] at h; simp at h
    | some os =>
      rw [splitNode_mono K _ _ _ _ _ _ hs hle]
      rw [hs] at h
      exact h
  · exact h

section ord
variable [LinearOrder F] [OrdScalar F]

theorem val_eq_of_row {data : Mat F} {i i' : ℕ} (h : data.rows.getD i [] = data.rows.getD i' []) (j : ℕ) :
    val data i j = val data i' j := by unfold val; rw [h]

/-! ### Divergence -/

theorem splitNode_diverges (K : SplitKind F B) {data : Mat F} (hw : data.WF) (hc : 0 < data.cols) (leafsize : ℕ)
    (hK : ∀ (remains : List ℕ) (dmin dmax : List F), (∀ i ∈ remains, i < data.rows.length) →
      ∃ b, K.mkBound data remains dmin dmax = ok b) (v : List F) :
    ∀ (fuel : ℕ) (remains : List ℕ) (dmin dmax : List F),
      remains ≠ [] → (∀ i ∈ remains, i < data.rows.length) → dmin.length = data.cols → dmax.length = data.cols →
      (∀ i ∈ remains, BoxD data dmin dmax i) →
      (∃ i ∈ remains, data.rows.getD i [] = v) →
      leafsize ≤ remains.countP (fun i => decide (data.rows.getD i [] = v)) →
      splitNode K data leafsize fuel remains dmin dmax = none
  | 0, _, _, _, _, _, _, _, _, _, _ => rfl
  | fuel + 1, remains, dmin, dmax, hne, hr, hmin, hmax, hbox, hex, hcnt => by
    rw [splitNode]
    have hlen := List.countP_le_length (p := fun i => decide (data.rows.getD i [] = v)) (l := remains)
    rw [if_neg (by omega)]
    cases hs : selectSplit data fuel remains dmin dmax with
    | none => rfl
    | some os =>
      obtain ⟨s, rfl, hl, hg, hperm, hdim, hlm, hrm, hlb, hrb, hlo, hro⟩ :=
        selectSplit_spec hw hc fuel remains dmin dmax os hs hne hr hmin hmax hbox
      simp only
      have hls : ∀ i ∈ s.left, i ∈ remains := fun i hi => hperm.mem_iff.1 (by simp [hi])
      have hrs : ∀ i ∈ s.right, i ∈ remains := fun i hi => hperm.mem_iff.1 (by simp [hi])
      have hcount := hperm.countP_eq (fun i => decide (data.rows.getD i [] = v))
      rw [List.countP_append] at hcount
      obtain ⟨i0, hi0, hv0⟩ := hex
      have hi0' : i0 ∈ s.left ++ s.right := hperm.mem_iff.2 hi0
      rcases List.mem_append.1 hi0' with hin | hin
      · have hz : s.right.countP (fun i => decide (data.rows.getD i [] = v)) = 0 := by
          rw [List.countP_eq_zero]
          intro i hi hd
          rw [decide_eq_true_eq] at hd
          have h1 := hlo i0 hin
          have h2 := hro i hi
          rw [val_eq_of_row (hd.trans hv0.symm)] at h2
          exact absurd h1 (not_lt.2 h2)
        rw [splitNode_diverges K hw hc leafsize hK v fuel s.left dmin s.lMax hl (fun i hi => hr i (hls i hi)) hmin hlm
          (fun i hi j hj => ⟨(hbox i (hls i hi) j hj).1, hlb i hi j hj⟩) ⟨i0, hin, hv0⟩ (by omega)]
      · have hz : s.left.countP (fun i => decide (data.rows.getD i [] = v)) = 0 := by
          rw [List.countP_eq_zero]
          intro i hi hd
          rw [decide_eq_true_eq] at hd
          have h1 := hro i0 hin
          have h2 := hlo i hi
          rw [val_eq_of_row (hd.trans hv0.symm)] at h2
          exact absurd h2 (not_lt.2 h1)
        have hright := splitNode_diverges K hw hc leafsize hK v fuel s.right s.rMin dmax hg (fun i hi => hr i (hrs i hi)) hrm hmax
          (fun i hi j hj => ⟨hrb i hi j hj, (hbox i (hrs i hi) j hj).2⟩) ⟨i0, hin, hv0⟩ (by omega)
        cases h1 : splitNode K data leafsize fuel s.left dmin s.lMax with
        | none => rfl
        | some o1 =>
          obtain ⟨l, rfl, _⟩ := splitNode_spec K (fun _ _ => True) hw hc leafsize
            (fun rem a b _ h2 _ _ _ => by
              obtain ⟨b', hb'⟩ := hK rem a b h2
              exact ⟨b', hb', fun _ _ => trivial⟩) fuel s.left dmin s.lMax o1 h1 hl
            (fun i hi => hr i (hls i hi)) hmin hlm (fun i hi j hj => ⟨(hbox i (hls i hi) j hj).1, hlb i hi j hj⟩)
          simp only [hright]

theorem countP_range_getD {α : Type} [BEq α] [LawfulBEq α] (l : List α) (d v : α) (p : ℕ → Bool)
    (hp : ∀ i, p i = true ↔ l.getD i d = v) :
    (List.range l.length).countP p = l.count v := by
  have h : (List.range l.length).map (fun i => l.getD i d) = l := by
    apply List.ext_getElem
    · simp
    · intro i h1 h2; simp [h2]
  conv_rhs => rw [← h]
  rw [List.count, List.countP_map]
  apply List.countP_congr
  intro i _
  rw [hp]
  simp

theorem treeBuild_diverges (K : SplitKind F B) {data : Mat F} (hw : data.WF) (hc : 0 < data.cols)
    (t0 : BinaryTree F B)
    (hK : ∀ (remains : List ℕ) (dmin dmax : List F), (∀ i ∈ remains, i < data.rows.length) →
      ∃ b, K.mkBound data remains dmin dmax = ok b) (v : List F) (hv : v ∈ data.rows)
    (hcnt : t0.leafsize ≤ data.rows.count v) (fuel : ℕ) : treeBuild K fuel t0 data = none := by
  have hn : data.rows ≠ [] := List.ne_nil_of_mem hv
  obtain ⟨dmin, dmax, h1, h2, h3, h4, h5⟩ := minMax_ok hw hn
  unfold treeBuild
  rw [h1, h2]
  simp only
  obtain ⟨i, hi, rfl⟩ := List.mem_iff_getElem.1 hv
  rw [splitNode_diverges K hw hc t0.leafsize hK data.rows[i] fuel _ dmin dmax (by simpa using hn) (by simp) h3 h4
    (fun i hi => h5 i (by simpa using hi)) ⟨i, by simpa using hi, getD_of_lt' _ hi⟩ (by
      refine le_of_le_of_eq hcnt (Eq.symm ?_)
      apply countP_range_getD data.rows []
      intro i; rw [decide_eq_true_eq])]

end ord

/-! ### argmax is maximal -/

theorem argAux_max {α : Type} [LinearOrder α] (better : α → α → Bool) (hb : ∀ a b, better a b = true ↔ a < b) :
    ∀ (best : α) (bi i : ℕ) (rest : List α),
      best ≤ (argAux better best bi i rest).2 ∧ ∀ x ∈ rest, x ≤ (argAux better best bi i rest).2
  | best, bi, i, [] => ⟨le_refl _, by simp⟩
  | best, bi, i, v :: vs => by
    rw [argAux]
    split
    · rename_i h
      have ih := argAux_max better hb v i (i + 1) vs
      refine ⟨le_trans ((hb _ _).1 h).le ih.1, ?_⟩
      intro x hx
      rcases List.mem_cons.1 hx with rfl | hx
      · exact ih.1
      · exact ih.2 x hx
    · rename_i h
      rw [hb, not_lt] at h
      have ih := argAux_max better hb best bi (i + 1) vs
      refine ⟨ih.1, ?_⟩
      intro x hx
      rcases List.mem_cons.1 hx with rfl | hx
      · exact le_trans h ih.1
      · exact ih.2 x hx

theorem argmaxBy_max {α : Type} [LinearOrder α] (lt : α → α → Bool) (hb : ∀ a b, lt a b = true ↔ a < b) {l : List α} {i : ℕ} {v : α}
    (h : argmaxBy lt l = ok (i, v)) : ∀ x ∈ l, x ≤ v := by
  cases l with
  | nil => simp
  | cons a l =>
    simp only [argmaxBy, ok.injEq] at h
    have := argAux_max (fun best x => lt best x) hb a 0 1 l
    rw [h] at this
    intro x hx
    rcases List.mem_cons.1 hx with rfl | hx
    · exact this.1
    · exact this.2 x hx

/-! ### Termination over the reals -/

theorem sum_set_real : ∀ (l : List ℝ) (i : ℕ) (x : ℝ) (h : i < l.length), (l.set i x).sum = l.sum - l[i] + x
  | a :: l, 0, x, _ => by simp; ring
  | a :: l, i + 1, x, h => by
    simp only [List.set_cons_succ, List.sum_cons, List.getElem_cons_succ]
    rw [sum_set_real l i x (by simpa using h)]; ring

theorem zipWith_set_left (f : ℝ → ℝ → ℝ) : ∀ (a b : List ℝ) (i : ℕ) (x : ℝ) (h : i < b.length),
    List.zipWith f (a.set i x) b = (List.zipWith f a b).set i (f x b[i])
  | [], b, i, x, h => by simp
  | a :: as, [], i, x, h => by simp at h
  | a :: as, b :: bs, 0, x, h => by simp
  | a :: as, b :: bs, i + 1, x, h => by simp [zipWith_set_left f as bs i x (by simpa using h)]

theorem zipWith_set_right (f : ℝ → ℝ → ℝ) : ∀ (a b : List ℝ) (i : ℕ) (x : ℝ) (h : i < a.length),
    List.zipWith f a (b.set i x) = (List.zipWith f a b).set i (f a[i] x)
  | [], b, i, x, h => by simp at h
  | a :: as, [], i, x, h => by simp
  | a :: as, b :: bs, 0, x, h => by simp
  | a :: as, b :: bs, i + 1, x, h => by simp [zipWith_set_right f as bs i x (by simpa using h)]

theorem selectSplit_terminates {data : Mat ℝ} (hw : data.WF) (hc : 0 < data.cols) {i1 i2 j : ℕ} {δ : ℝ}
    (hj : j < data.cols) (hd : δ ≤ val data i1 j - val data i2 j) :
    ∀ (N : ℕ) (remains : List ℕ) (dmin dmax : List ℝ), i1 ∈ remains → i2 ∈ remains →
      (∀ i ∈ remains, i < data.rows.length) → dmin.length = data.cols → dmax.length = data.cols →
      (∀ i ∈ remains, BoxD data dmin dmax i) → (List.zipWith (· - ·) dmax dmin).sum < N * (δ / 2) →
      ∃ s, selectSplit data N remains dmin dmax = some (ok s) := by
  intro N
  induction N with
  | zero =>
    intro remains dmin dmax h1 h2 hr hmin hmax hbox hS
    exfalso
    have : 0 ≤ (List.zipWith (· - ·) dmax dmin).sum := by
      apply List.sum_nonneg
      intro x hx
      obtain ⟨i, hi, rfl⟩ := List.mem_iff_getElem.1 hx
      have hi' : i < data.cols := by
        rw [List.length_zipWith] at hi; omega
      have hb := hbox i1 h1 i hi'
      rw [getD_of_lt' _ (by omega), getD_of_lt' _ (by omega)] at hb
      simp only [List.getElem_zipWith]
      linarith
    simp at hS
    linarith
  | succ N ih =>
    intro remains dmin dmax h1 h2 hr hmin hmax hbox hS
    have hzne : List.zipWith Scalar.sub dmax dmin ≠ [] := by
      intro hc'
      have := congrArg List.length hc'
      rw [List.length_zipWith, List.length_nil] at this
      omega
    obtain ⟨dim, d, ha, hget⟩ := argmaxBy_get Scalar.lt _ hzne
    have hdim : dim < data.cols := by
      by_contra hcon
      rw [List.getElem?_eq_none (by simp; omega)] at hget
      simp at hget
    have hdm : dim < dmin.length := by omega
    have hdx : dim < dmax.length := by omega
    have hmaxd := argmaxBy_max Scalar.lt (fun a b => by simp) ha
    have hdeq : d = dmax[dim] - dmin[dim] := by
      rw [List.getElem?_eq_getElem (by simp; omega)] at hget
      simp at hget
      exact hget.symm
    have hδd : δ ≤ d := by
      have hmem : (List.zipWith Scalar.sub dmax dmin)[j]'(by simp; omega) ∈ List.zipWith Scalar.sub dmax dmin :=
        List.getElem_mem _
      have := hmaxd _ hmem
      have hb1 := hbox i1 h1 j hj
      have hb2 := hbox i2 h2 j hj
      rw [getD_of_lt' _ (by omega), getD_of_lt' _ (by omega)] at hb1 hb2
      simp at this
      linarith
    rw [selectSplit, ha]
    simp only [List.getElem?_eq_getElem hdm]
    set split := dmin[dim] +. d /. Scalar.ofNat 2 with hsplit
    have hspl : split = dmin[dim] + d / 2 := by simp [hsplit]
    rw [partitionRows_ok hw hdim split remains hr]
    simp only
    by_cases hl : (remains.filter (fun r => val data r dim <. split)) = []
    · rw [if_pos (by simpa using hl)]
      have hge : ∀ i ∈ remains, split ≤ val data i dim := by
        intro i hi
        by_contra hcon
        have : i ∈ remains.filter (fun r => val data r dim <. split) := by
          rw [List.mem_filter, slt_true]; exact ⟨hi, not_le.1 hcon⟩
        rw [hl] at this; simp at this
      have hgeq : remains.filter (fun r => !(val data r dim <. split)) = remains := by
        rw [List.filter_eq_self]
        intro i hi
        rw [Bool.not_eq_true', slt_false]; exact hge i hi
      rw [hgeq]
      refine ih remains _ _ h1 h2 hr (by simpa using hmin) hmax ?_ ?_
      · intro i hi j hj
        refine ⟨?_, (hbox i hi j hj).2⟩
        rw [getD_set _ _ hdm]
        split
        · rename_i e; subst e; exact hge i hi
        · exact (hbox i hi j hj).1
      · rw [zipWith_set_right _ _ _ _ _ hdx, sum_set_real _ _ _ (by simp; omega)]
        simp only [List.getElem_zipWith]
        push_cast at hS
        linarith
    · rw [if_neg (by simpa using hl)]
      by_cases hg : (remains.filter (fun r => !(val data r dim <. split))) = []
      · rw [if_pos (by simpa using hg)]
        have hlt : ∀ i ∈ remains, val data i dim < split := by
          intro i hi
          by_contra hcon
          have : i ∈ remains.filter (fun r => !(val data r dim <. split)) := by
            rw [List.mem_filter, Bool.not_eq_true', slt_false]; exact ⟨hi, not_lt.1 hcon⟩
          rw [hg] at this; simp at this
        have hleq : remains.filter (fun r => val data r dim <. split) = remains := by
          rw [List.filter_eq_self]
          intro i hi
          rw [slt_true]; exact hlt i hi
        rw [hleq]
        refine ih remains _ _ h1 h2 hr hmin (by simpa using hmax) ?_ ?_
        · intro i hi j hj
          refine ⟨(hbox i hi j hj).1, ?_⟩
          rw [getD_set _ _ hdx]
          split
          · rename_i e; subst e; exact (hlt i hi).le
          · exact (hbox i hi j hj).2
        · rw [zipWith_set_left _ _ _ _ _ hdm, sum_set_real _ _ _ (by simp; omega)]
          simp only [List.getElem_zipWith]
          push_cast at hS
          linarith
      · rw [if_neg (by simpa using hg)]
        exact ⟨_, rfl⟩

/-- Two different rows differ in some column. -/
theorem exists_val_ne {data : Mat ℝ} (hw : data.WF) {i1 i2 : ℕ} (h1 : i1 < data.rows.length) (h2 : i2 < data.rows.length)
    (hne : data.rows.getD i1 [] ≠ data.rows.getD i2 []) : ∃ j, j < data.cols ∧ val data i1 j ≠ val data i2 j := by
  by_contra hcon
  push Not at hcon
  apply hne
  have l1 : (data.rows.getD i1 []).length = data.cols := by rw [getD_of_lt' _ h1]; exact hw _ (List.getElem_mem h1)
  have l2 : (data.rows.getD i2 []).length = data.cols := by rw [getD_of_lt' _ h2]; exact hw _ (List.getElem_mem h2)
  apply List.ext_getElem (by rw [l1, l2])
  intro j hj1 hj2
  have := hcon j (by omega)
  unfold val at this
  rw [getD_of_lt' (l := data.rows.getD i1 []) _ hj1, getD_of_lt' (l := data.rows.getD i2 []) _ hj2] at this
  exact this

theorem splitNode_terminates (K : SplitKind ℝ B) {data : Mat ℝ} (hw : data.WF) (hc : 0 < data.cols) (leafsize : ℕ)
    (hK : ∀ (remains : List ℕ) (dmin dmax : List ℝ), (∀ i ∈ remains, i < data.rows.length) →
      ∃ b, K.mkBound data remains dmin dmax = ok b) :
    ∀ (n : ℕ) (remains : List ℕ) (dmin dmax : List ℝ), remains.length ≤ n →
      remains ≠ [] → (∀ i ∈ remains, i < data.rows.length) → dmin.length = data.cols → dmax.length = data.cols →
      (∀ i ∈ remains, BoxD data dmin dmax i) →
      (∀ v, remains.countP (fun i => decide (data.rows.getD i [] = v)) < leafsize) →
      ∃ fuel t, splitNode K data leafsize fuel remains dmin dmax = some (ok t) := by
  intro n
  induction n with
  | zero =>
    intro remains dmin dmax hn hne
    exact absurd (List.length_eq_zero_iff.1 (by omega)) hne
  | succ n ih =>
    intro remains dmin dmax hn hne hr hmin hmax hbox hcnt
    by_cases hlt : remains.length < leafsize
    · exact ⟨1, .leaf remains, by simp [splitNode, hlt]⟩
    · -- two different rows
      obtain ⟨i1, hi1, i2, hi2, hdiff⟩ : ∃ i1 ∈ remains, ∃ i2 ∈ remains, data.rows.getD i1 [] ≠ data.rows.getD i2 [] := by
        obtain ⟨i0, hi0⟩ := List.exists_mem_of_ne_nil _ hne
        by_contra hcon
        push Not at hcon
        have hall : remains.countP (fun i => decide (data.rows.getD i [] = data.rows.getD i0 [])) = remains.length := by
          rw [List.countP_eq_length]
          intro i hi
          rw [decide_eq_true_eq]
          exact hcon i hi i0 hi0
        have := hcnt (data.rows.getD i0 [])
        omega
      obtain ⟨j, hj, hjne⟩ := exists_val_ne hw (hr i1 hi1) (hr i2 hi2) hdiff
      obtain ⟨N, s, hs⟩ : ∃ N s, selectSplit data N remains dmin dmax = some (ok s) := by
        rcases lt_or_gt_of_ne hjne with h | h
        · obtain ⟨N, hN⟩ := exists_nat_gt ((List.zipWith (· - ·) dmax dmin).sum / ((val data i2 j - val data i1 j) / 2))
          exact ⟨N, selectSplit_terminates hw hc (i1 := i2) (i2 := i1) hj (le_refl _) N remains dmin dmax hi2 hi1 hr hmin hmax hbox
            ((div_lt_iff₀ (by linarith)).1 hN)⟩
        · obtain ⟨N, hN⟩ := exists_nat_gt ((List.zipWith (· - ·) dmax dmin).sum / ((val data i1 j - val data i2 j) / 2))
          exact ⟨N, selectSplit_terminates hw hc (i1 := i1) (i2 := i2) hj (le_refl _) N remains dmin dmax hi1 hi2 hr hmin hmax hbox
            ((div_lt_iff₀ (by linarith)).1 hN)⟩
      obtain ⟨s', hs', hl, hg, hperm, hdim, hlm, hrm, hlb, hrb, hlo, hro⟩ :=
        selectSplit_spec hw hc N remains dmin dmax _ hs hne hr hmin hmax hbox
      cases hs'
      have hls : ∀ i ∈ s.left, i ∈ remains := fun i hi => hperm.mem_iff.1 (by simp [hi])
      have hrs : ∀ i ∈ s.right, i ∈ remains := fun i hi => hperm.mem_iff.1 (by simp [hi])
      have hlen := hperm.length_eq
      rw [List.length_append] at hlen
      have hlp := List.length_pos_iff.2 hl
      have hgp := List.length_pos_iff.2 hg
      have hcount := fun v => hperm.countP_eq (fun i => decide (data.rows.getD i [] = v))
      obtain ⟨f1, t1, ht1⟩ := ih s.left dmin s.lMax (by omega) hl (fun i hi => hr i (hls i hi)) hmin hlm
        (fun i hi j hj => ⟨(hbox i (hls i hi) j hj).1, hlb i hi j hj⟩) (fun v => by
          have := hcount v; rw [List.countP_append] at this; have := hcnt v; omega)
      obtain ⟨f2, t2, ht2⟩ := ih s.right s.rMin dmax (by omega) hg (fun i hi => hr i (hrs i hi)) hrm hmax
        (fun i hi j hj => ⟨hrb i hi j hj, (hbox i (hrs i hi) j hj).2⟩) (fun v => by
          have := hcount v; rw [List.countP_append] at this; have := hcnt v; omega)
      obtain ⟨b, hb⟩ := hK remains dmin dmax hr
      refine ⟨max N (max f1 f2) + 1, .branch s.dim s.split b t1 t2, ?_⟩
      rw [splitNode, if_neg hlt, selectSplit_mono N (max N (max f1 f2)) _ _ _ _ hs (by omega)]
      simp only
      rw [splitNode_mono K f1 (max N (max f1 f2)) _ _ _ _ ht1 (by omega)]
      simp only
      rw [splitNode_mono K f2 (max N (max f1 f2)) _ _ _ _ ht2 (by omega)]
      simp only [hb, ok_bind]


theorem treeBuild_terminates (K : SplitKind ℝ B) {data : Mat ℝ} (hw : data.WF) (hc : 0 < data.cols) (hn : data.rows ≠ [])
    (t0 : BinaryTree ℝ B)
    (hK : ∀ (remains : List ℕ) (dmin dmax : List ℝ), (∀ i ∈ remains, i < data.rows.length) →
      ∃ b, K.mkBound data remains dmin dmax = ok b)
    (hcnt : ∀ v ∈ data.rows, data.rows.count v < t0.leafsize) :
    ∃ fuel t, treeBuild K fuel t0 data = some (ok t) := by
  obtain ⟨dmin, dmax, h1, h2, h3, h4, h5⟩ := minMax_ok hw hn
  obtain ⟨r0, hr0⟩ := List.exists_mem_of_ne_nil _ hn
  have hpos : 0 < t0.leafsize := by have := hcnt r0 hr0; omega
  obtain ⟨fuel, root, hroot⟩ := splitNode_terminates K hw hc t0.leafsize hK _ (List.range data.rows.length) dmin dmax (le_refl _)
    (by simpa using hn) (by simp) h3 h4 (fun i hi => h5 i (by simpa using hi)) (by
      intro v
      by_cases hv : v ∈ data.rows
      · rw [countP_range_getD data.rows [] v _ (fun i => decide_eq_true_iff)]
        exact hcnt v hv
      · have hz : (List.range data.rows.length).countP (fun i => decide (data.rows.getD i [] = v)) = 0 := by
          rw [List.countP_eq_zero]
          intro i hi hd
          rw [decide_eq_true_eq] at hd
          have hi' : i < data.rows.length := by simpa using hi
          rw [getD_of_lt' _ hi'] at hd
          exact hv (hd ▸ List.getElem_mem hi')
        rw [hz]; exact hpos)
  refine ⟨fuel, ⟨t0.leafsize, some data, some root⟩, ?_⟩
  unfold treeBuild
  rw [h1, h2]
  simp only [hroot]

end RM
