import Verif.Proofs.KNearest
import Verif.Spec.BinaryTree

set_option linter.unusedSectionVars false

namespace RM
open Outcome Scalar Spec

variable {F : Type} [Scalar F] {B : Type}

/-! ### argmax -/

theorem argAux_get {α : Type} (better : α → α → Bool) (full : List α) : ∀ (best : α) (bi i : ℕ) (rest : List α),
    full[bi]? = some best → full.drop i = rest → full[(argAux better best bi i rest).1]? = some (argAux better best bi i rest).2
  | best, bi, i, [], h, _ => by simpa [argAux] using h
  | best, bi, i, v :: vs, h, hd => by
    have hi : i < full.length := by
      by_contra hc
      rw [List.drop_eq_nil_of_le (by omega)] at hd; simp at hd
    rw [List.drop_eq_getElem_cons hi] at hd
    injection hd with h1 h2
    rw [argAux]
    split
    · exact argAux_get better full v i (i + 1) vs (by rw [List.getElem?_eq_getElem hi, h1]) h2
    · exact argAux_get better full best bi (i + 1) vs h h2

theorem argmaxBy_get {α : Type} (lt : α → α → Bool) (l : List α) (hne : l ≠ []) :
    ∃ i v, argmaxBy lt l = ok (i, v) ∧ l[i]? = some v := by
  cases l with
  | nil => exact absurd rfl hne
  | cons a l =>
    refine ⟨_, _, rfl, ?_⟩
    exact argAux_get _ (a :: l) a 0 1 l (by simp) (by simp)

/-! ### Partition of the rows at a split -/

/-- Entry `(i, j)` of the data, for valid indices. -/
def val (data : Mat F) (i j : ℕ) : F := (data.rows.getD i []).getD j Scalar.zero

theorem data_get {data : Mat F} (hw : data.WF) {i j : ℕ} (hi : i < data.rows.length) (hj : j < data.cols) :
    (data.rows[i]?.bind fun row => row[j]?) = some (val data i j) := by
  have hr : (data.rows[i]).length = data.cols := hw _ (List.getElem_mem hi)
  have hj' : j < (data.rows[i]).length := by omega
  simp [val, hi, hj']

theorem partitionRows_ok {data : Mat F} (hw : data.WF) {dim : ℕ} (hd : dim < data.cols) (split : F) :
    ∀ (remains : List ℕ), (∀ i ∈ remains, i < data.rows.length) →
      partitionRows data dim split remains =
        ok (remains.filter (fun r => val data r dim <. split), remains.filter (fun r => !(val data r dim <. split)))
  | [], _ => rfl
  | r :: rs, h => by
    rw [partitionRows, data_get hw (h r (by simp)) hd]
    simp only
    rw [partitionRows_ok hw hd split rs (fun i hi => h i (by simp [hi]))]
    simp only [ok_bind]
    by_cases hlt : (val data r dim <. split) = true
    · simp [hlt]
    · rw [Bool.not_eq_true] at hlt
      simp [hlt]

section ord
variable [LinearOrder F] [OrdScalar F]

/-- Bounds vectors of the right length that enclose row `i`. -/
def BoxD (data : Mat F) (dmin dmax : List F) (i : ℕ) : Prop :=
  ∀ j, j < data.cols → dmin.getD j Scalar.zero ≤ val data i j ∧ val data i j ≤ dmax.getD j Scalar.zero

theorem getD_set {l : List F} {i j : ℕ} (x d : F) (hi : i < l.length) :
    (l.set i x).getD j d = if i = j then x else l.getD j d := by
  by_cases h : i = j
  · subst h; simp [hi]
  · simp [List.getElem?_set, h]

theorem getD_of_lt' {α : Type} {l : List α} {i : ℕ} (d : α) (h : i < l.length) : l.getD i d = l[i] := by simp [h]

theorem selectSplit_spec {data : Mat F} (hw : data.WF) (hc : 0 < data.cols) :
    ∀ (fuel : ℕ) (remains : List ℕ) (dmin dmax : List F) (o : Outcome (Sel F)),
      selectSplit data fuel remains dmin dmax = some o →
      remains ≠ [] → (∀ i ∈ remains, i < data.rows.length) → dmin.length = data.cols → dmax.length = data.cols →
      (∀ i ∈ remains, BoxD data dmin dmax i) →
      ∃ s, o = ok s ∧ s.left ≠ [] ∧ s.right ≠ [] ∧ (s.left ++ s.right).Perm remains ∧ s.dim < data.cols ∧
        s.lMax.length = data.cols ∧ s.rMin.length = data.cols ∧
        (∀ i ∈ s.left, ∀ j, j < data.cols → val data i j ≤ s.lMax.getD j Scalar.zero) ∧
        (∀ i ∈ s.right, ∀ j, j < data.cols → s.rMin.getD j Scalar.zero ≤ val data i j) ∧
        (∀ i ∈ s.left, val data i s.dim < s.split) ∧ (∀ i ∈ s.right, s.split ≤ val data i s.dim)
  | 0, _, _, _, _, h, _, _, _, _, _ => by simp [selectSplit] at h
  | fuel + 1, remains, dmin, dmax, o, h, hne, hr, hmin, hmax, hbox => by
    have hzne : List.zipWith Scalar.sub dmax dmin ≠ [] := by
      intro hc'
      have := congrArg List.length hc'
      rw [List.length_zipWith, List.length_nil] at this
      omega
    obtain ⟨dim, d, ha, hget⟩ := argmaxBy_get Scalar.lt _ hzne
    have hdim : dim < data.cols := by
      by_contra hcon
      rw [List.getElem?_eq_none (by simp; omega)] at hget
      simp at hget
    have hdm : dim < dmin.length := by omega
    have hdx : dim < dmax.length := by omega
    rw [selectSplit, ha] at h
    simp only [List.getElem?_eq_getElem hdm] at h
    set split := dmin[dim] +. d /. Scalar.ofNat 2 with hsplit
    rw [partitionRows_ok hw hdim split remains hr] at h
    simp only at h
    have hlmem : ∀ i, i ∈ remains.filter (fun r => val data r dim <. split) ↔ i ∈ remains ∧ val data i dim < split := by
      intro i; rw [List.mem_filter, slt_true]
    have hgmem : ∀ i, i ∈ remains.filter (fun r => !(val data r dim <. split)) ↔ i ∈ remains ∧ split ≤ val data i dim := by
      intro i; rw [List.mem_filter, Bool.not_eq_true', slt_false]
    split at h
    · rename_i hl
      rw [List.isEmpty_iff] at hl
      have hge : ∀ i ∈ remains, split ≤ val data i dim := by
        intro i hi
        by_contra hcon
        have : i ∈ remains.filter (fun r => val data r dim <. split) := (hlmem i).2 ⟨hi, not_le.1 hcon⟩
        rw [hl] at this; simp at this
      have hgeq : remains.filter (fun r => !(val data r dim <. split)) = remains := by
        rw [List.filter_eq_self]
        intro i hi
        rw [Bool.not_eq_true', slt_false]; exact hge i hi
      rw [hgeq] at h
      obtain ⟨s, h1, h2, h3, h4, h5, h6, h7, h8, h9, h10⟩ := selectSplit_spec hw hc fuel remains (dmin.set dim split) dmax o h hne hr
        (by simpa using hmin) hmax (by
          intro i hi j hj
          refine ⟨?_, (hbox i hi j hj).2⟩
          rw [getD_set _ _ hdm]
          split
          · rename_i e; subst e; exact hge i hi
          · exact (hbox i hi j hj).1)
      exact ⟨s, h1, h2, h3, h4, h5, h6, h7, h8, h9, h10⟩
    · rename_i hl
      rw [List.isEmpty_iff] at hl
      split at h
      · rename_i hg
        rw [List.isEmpty_iff] at hg
        have hlt : ∀ i ∈ remains, val data i dim < split := by
          intro i hi
          by_contra hcon
          have : i ∈ remains.filter (fun r => !(val data r dim <. split)) := (hgmem i).2 ⟨hi, not_lt.1 hcon⟩
          rw [hg] at this; simp at this
        have hleq : remains.filter (fun r => val data r dim <. split) = remains := by
          rw [List.filter_eq_self]
          intro i hi
          rw [slt_true]; exact hlt i hi
        rw [hleq] at h
        exact selectSplit_spec hw hc fuel remains dmin (dmax.set dim split) o h hne hr hmin (by simpa using hmax) (by
          intro i hi j hj
          refine ⟨(hbox i hi j hj).1, ?_⟩
          rw [getD_set _ _ hdx]
          split
          · rename_i e; subst e; exact (hlt i hi).le
          · exact (hbox i hi j hj).2)
      · rename_i hg
        rw [List.isEmpty_iff] at hg
        simp only [Option.some.injEq] at h
        subst h
        refine ⟨_, rfl, hl, hg, ?_, hdim, by simpa using hmax, by simpa using hmin, ?_, ?_, ?_, ?_⟩
        · exact List.filter_append_perm _ _
        · intro i hi j hj
          have hi' := (hlmem i).1 hi
          rw [getD_set _ _ hdx]
          split
          · rename_i e; subst e; exact hi'.2.le
          · exact (hbox i hi'.1 j hj).2
        · intro i hi j hj
          have hi' := (hgmem i).1 hi
          rw [getD_set _ _ hdm]
          split
          · rename_i e; subst e; exact hi'.2
          · exact (hbox i hi'.1 j hj).1
        · intro i hi; exact ((hlmem i).1 hi).2
        · intro i hi; exact ((hgmem i).1 hi).2

/-- Rows strictly left of the split value on the left, the others on the right. -/
def Node.Ordered (data : Mat F) : Node F B → Prop
  | .leaf _ => True
  | .branch dim split _ l r => (∀ i ∈ l.rows, val data i dim < split) ∧ (∀ i ∈ r.rows, split ≤ val data i dim) ∧
      l.Ordered data ∧ r.Ordered data

/-- All structural facts about a tree over the row set `remains`. -/
structure TreeFacts (R : B → ℕ → Prop) (data : Mat F) (leafsize : ℕ) (remains : List ℕ) (t : Node F B) : Prop where
  perm : t.rows.Perm remains
  leafNe : ∀ c ∈ t.leaves, c ≠ []
  leafLt : ∀ c ∈ t.leaves, c.length < leafsize
  bounded : t.Bounded R
  dims : t.DimsBelow data.cols
  ordered : t.Ordered data

theorem splitNode_spec (K : SplitKind F B) (R : B → ℕ → Prop) {data : Mat F} (hw : data.WF) (hc : 0 < data.cols)
    (leafsize : ℕ)
    (hK : ∀ (remains : List ℕ) (dmin dmax : List F), remains ≠ [] → (∀ i ∈ remains, i < data.rows.length) →
      dmin.length = data.cols → dmax.length = data.cols → (∀ i ∈ remains, BoxD data dmin dmax i) →
      ∃ b, K.mkBound data remains dmin dmax = ok b ∧ ∀ i ∈ remains, R b i) :
    ∀ (fuel : ℕ) (remains : List ℕ) (dmin dmax : List F) (o : Outcome (Node F B)),
      splitNode K data leafsize fuel remains dmin dmax = some o →
      remains ≠ [] → (∀ i ∈ remains, i < data.rows.length) → dmin.length = data.cols → dmax.length = data.cols →
      (∀ i ∈ remains, BoxD data dmin dmax i) →
      ∃ t, o = ok t ∧ TreeFacts R data leafsize remains t
  | 0, _, _, _, _, h, _, _, _, _, _ => by simp [splitNode] at h
  | fuel + 1, remains, dmin, dmax, o, h, hne, hr, hmin, hmax, hbox => by
    rw [splitNode] at h
    split at h
    · rename_i hlt
      simp only [Option.some.injEq] at h
      subst h
      exact ⟨_, rfl, ⟨List.Perm.refl _, by simpa [Node.leaves] using hne, by simpa [Node.leaves] using hlt, trivial, trivial, trivial⟩⟩
    · cases hs : selectSplit data fuel remains dmin dmax with
      | none => rw [hs] at h; simp at h
      | some os =>
        obtain ⟨s, rfl, hl, hg, hperm, hdim, hlm, hrm, hlb, hrb, hlo, hro⟩ :=
          selectSplit_spec hw hc fuel remains dmin dmax os hs hne hr hmin hmax hbox
        rw [hs] at h
        simp only at h
        have hls : ∀ i ∈ s.left, i ∈ remains := fun i hi => hperm.mem_iff.1 (by simp [hi])
        have hrs : ∀ i ∈ s.right, i ∈ remains := fun i hi => hperm.mem_iff.1 (by simp [hi])
        cases h1 : splitNode K data leafsize fuel s.left dmin s.lMax with
        | none => rw [h1] at h; simp at h
        | some o1 =>
          obtain ⟨l, rfl, hL⟩ := splitNode_spec K R hw hc leafsize hK fuel s.left dmin s.lMax o1 h1 hl
            (fun i hi => hr i (hls i hi)) hmin hlm (fun i hi j hj => ⟨(hbox i (hls i hi) j hj).1, hlb i hi j hj⟩)
          rw [h1] at h
          simp only at h
          cases h2 : splitNode K data leafsize fuel s.right s.rMin dmax with
          | none => rw [h2] at h; simp at h
          | some o2 =>
            obtain ⟨g, rfl, hG⟩ := splitNode_spec K R hw hc leafsize hK fuel s.right s.rMin dmax o2 h2 hg
              (fun i hi => hr i (hrs i hi)) hrm hmax (fun i hi j hj => ⟨hrb i hi j hj, (hbox i (hrs i hi) j hj).2⟩)
            rw [h2] at h
            simp only at h
            obtain ⟨b, hb, hbR⟩ := hK remains dmin dmax hne hr hmin hmax hbox
            rw [hb] at h
            simp only [ok_bind, Option.some.injEq] at h
            subst h
            have hp : (l.rows ++ g.rows).Perm remains := (hL.perm.append hG.perm).trans hperm
            refine ⟨_, rfl, ⟨hp, ?_, ?_, ⟨?_, hL.bounded, hG.bounded⟩, ⟨hdim, hL.dims, hG.dims⟩,
              ⟨?_, ?_, hL.ordered, hG.ordered⟩⟩⟩
            · intro c hc
              rcases List.mem_append.1 hc with h | h
              · exact hL.leafNe c h
              · exact hG.leafNe c h
            · intro c hc
              rcases List.mem_append.1 hc with h | h
              · exact hL.leafLt c h
              · exact hG.leafLt c h
            · intro i hi; exact hbR i (hp.mem_iff.1 hi)
            · intro i hi; exact hlo i (hL.perm.mem_iff.1 hi)
            · intro i hi; exact hro i (hG.perm.mem_iff.1 hi)

/-! ### Column bounds -/

theorem extremeRows_length (rep : F → F → Bool) : ∀ (rows : List (List F)) (acc : List F) (c : ℕ),
    (∀ r ∈ rows, r.length = c) → acc.length = c → (extremeRows rep rows acc).length = c
  | [], acc, c, _, h => h
  | r :: rows, acc, c, hr, h => by
    unfold extremeRows
    rw [List.foldl_cons]
    exact extremeRows_length rep rows _ c (fun x hx => hr x (by simp [hx])) (by simp [h, hr r (by simp)])

theorem getD_zipWith' (f : F → F → F) (a b : List F) (j : ℕ) (d : F) (h1 : j < a.length) (h2 : j < b.length) :
    (List.zipWith f a b).getD j d = f (a.getD j d) (b.getD j d) := by
  simp [h1, h2]

theorem extremeRows_le : ∀ (rows : List (List F)) (acc : List F) (c : ℕ),
    (∀ r ∈ rows, r.length = c) → acc.length = c → ∀ j, j < c →
      (extremeRows (fun r v => v <. r) rows acc).getD j Scalar.zero ≤ acc.getD j Scalar.zero ∧
      ∀ r ∈ rows, (extremeRows (fun r v => v <. r) rows acc).getD j Scalar.zero ≤ r.getD j Scalar.zero
  | [], acc, c, _, h, j, hj => ⟨le_refl _, by simp⟩
  | r :: rows, acc, c, hr, h, j, hj => by
    have hrc : r.length = c := hr r (by simp)
    have ih := extremeRows_le rows (List.zipWith (fun r v => if (v <. r) = true then v else r) acc r) c
      (fun x hx => hr x (by simp [hx])) (by simp [h, hrc]) j hj
    have e : extremeRows (fun r v => v <. r) (r :: rows) acc =
      extremeRows (fun r v => v <. r) rows (List.zipWith (fun r v => if (v <. r) = true then v else r) acc r) := rfl
    rw [e]
    rw [getD_zipWith' _ _ _ _ _ (by omega) (by omega)] at ih
    have h1 : (if (r.getD j Scalar.zero <. acc.getD j Scalar.zero) = true then r.getD j Scalar.zero else acc.getD j Scalar.zero) ≤
        acc.getD j Scalar.zero := by
      split
      · rename_i hlt; exact (slt_true.1 hlt).le
      · exact le_refl _
    have h2 : (if (r.getD j Scalar.zero <. acc.getD j Scalar.zero) = true then r.getD j Scalar.zero else acc.getD j Scalar.zero) ≤
        r.getD j Scalar.zero := by
      split
      · exact le_refl _
      · rename_i hlt; rw [slt_true] at hlt; exact not_lt.1 hlt
    refine ⟨le_trans ih.1 h1, ?_⟩
    intro x hx
    rcases List.mem_cons.1 hx with rfl | hx
    · exact le_trans ih.1 h2
    · exact ih.2 x hx

theorem extremeRows_ge : ∀ (rows : List (List F)) (acc : List F) (c : ℕ),
    (∀ r ∈ rows, r.length = c) → acc.length = c → ∀ j, j < c →
      acc.getD j Scalar.zero ≤ (extremeRows (fun r v => r <. v) rows acc).getD j Scalar.zero ∧
      ∀ r ∈ rows, r.getD j Scalar.zero ≤ (extremeRows (fun r v => r <. v) rows acc).getD j Scalar.zero
  | [], acc, c, _, h, j, hj => ⟨le_refl _, by simp⟩
  | r :: rows, acc, c, hr, h, j, hj => by
    have hrc : r.length = c := hr r (by simp)
    have ih := extremeRows_ge rows (List.zipWith (fun r v => if (r <. v) = true then v else r) acc r) c
      (fun x hx => hr x (by simp [hx])) (by simp [h, hrc]) j hj
    have e : extremeRows (fun r v => r <. v) (r :: rows) acc =
      extremeRows (fun r v => r <. v) rows (List.zipWith (fun r v => if (r <. v) = true then v else r) acc r) := rfl
    rw [e]
    rw [getD_zipWith' _ _ _ _ _ (by omega) (by omega)] at ih
    have h1 : acc.getD j Scalar.zero ≤
        (if (acc.getD j Scalar.zero <. r.getD j Scalar.zero) = true then r.getD j Scalar.zero else acc.getD j Scalar.zero) := by
      split
      · rename_i hlt; exact (slt_true.1 hlt).le
      · exact le_refl _
    have h2 : r.getD j Scalar.zero ≤
        (if (acc.getD j Scalar.zero <. r.getD j Scalar.zero) = true then r.getD j Scalar.zero else acc.getD j Scalar.zero) := by
      split
      · exact le_refl _
      · rename_i hlt; rw [slt_true] at hlt; exact not_lt.1 hlt
    refine ⟨le_trans h1 ih.1, ?_⟩
    intro x hx
    rcases List.mem_cons.1 hx with rfl | hx
    · exact le_trans h2 ih.1
    · exact ih.2 x hx

theorem minMax_ok {data : Mat F} (hw : data.WF) (hn : data.rows ≠ []) :
    ∃ dmin dmax, minRows data = ok dmin ∧ maxRows data = ok dmax ∧ dmin.length = data.cols ∧ dmax.length = data.cols ∧
      ∀ i, i < data.rows.length → BoxD data dmin dmax i := by
  unfold minRows maxRows
  cases hd : data.rows with
  | nil => exact absurd hd hn
  | cons r rs =>
    have hall : ∀ x ∈ r :: rs, x.length = data.cols := by rw [← hd]; exact hw
    have hr : r.length = data.cols := hall r (by simp)
    refine ⟨_, _, rfl, rfl, extremeRows_length _ _ _ _ hall hr, extremeRows_length _ _ _ _ hall hr, ?_⟩
    intro i hi j hj
    have hmem : (data.rows.getD i []) ∈ r :: rs := by
      rw [hd, getD_of_lt' _ hi]; exact List.getElem_mem hi
    exact ⟨(extremeRows_le _ _ _ hall hr j hj).2 _ hmem, (extremeRows_ge _ _ _ hall hr j hj).2 _ hmem⟩

/-- A finished build gives a tree over all rows. -/
theorem treeBuild_spec (K : SplitKind F B) (R : B → ℕ → Prop) {data : Mat F} (hw : data.WF) (hc : 0 < data.cols)
    (hn : data.rows ≠ []) (t0 : BinaryTree F B)
    (hK : ∀ (remains : List ℕ) (dmin dmax : List F), remains ≠ [] → (∀ i ∈ remains, i < data.rows.length) →
      dmin.length = data.cols → dmax.length = data.cols → (∀ i ∈ remains, BoxD data dmin dmax i) →
      ∃ b, K.mkBound data remains dmin dmax = ok b ∧ ∀ i ∈ remains, R b i)
    (fuel : ℕ) (o : Outcome (BinaryTree F B)) (h : treeBuild K fuel t0 data = some o) :
    ∃ root, o = ok ⟨t0.leafsize, some data, some root⟩ ∧
      TreeFacts R data t0.leafsize (List.range data.rows.length) root := by
  obtain ⟨dmin, dmax, h1, h2, h3, h4, h5⟩ := minMax_ok hw hn
  unfold treeBuild at h
  rw [h1, h2] at h
  simp only at h
  cases hs : splitNode K data t0.leafsize fuel (List.range data.rows.length) dmin dmax with
  | none => rw [hs] at h; simp at h
  | some os =>
    obtain ⟨root, rfl, hroot⟩ := splitNode_spec K R hw hc t0.leafsize hK fuel _ dmin dmax os hs
      (by simpa using hn) (by simp) h3 h4 (fun i hi => h5 i (by simpa using hi))
    rw [hs] at h
    simp only [Option.some.injEq] at h
    exact ⟨root, h.symm, hroot⟩

/-! ### Search -/

/-- What the search needs to know about a node. -/
structure Searchable (K : SplitKind F B) (point : List F) (dst : ℕ → F) (n : ℕ) (t : Node F B) : Prop where
  bounded : t.Bounded fun b i => K.dist b point ≤ dst i
  leafNe : ∀ c ∈ t.leaves, c ≠ []
  dims : t.DimsBelow point.length
  rows : ∀ i ∈ t.rows, i < n

theorem Searchable.left {K : SplitKind F B} {point : List F} {dst : ℕ → F} {n dim : ℕ} {s : F} {b : B} {l r : Node F B}
    (h : Searchable K point dst n (.branch dim s b l r)) : Searchable K point dst n l :=
  ⟨h.bounded.2.1, fun c hc => h.leafNe c (by simp [Node.leaves, hc]), h.dims.2.1, fun i hi => h.rows i (by simp [Node.rows, hi])⟩

theorem Searchable.right {K : SplitKind F B} {point : List F} {dst : ℕ → F} {n dim : ℕ} {s : F} {b : B} {l r : Node F B}
    (h : Searchable K point dst n (.branch dim s b l r)) : Searchable K point dst n r :=
  ⟨h.bounded.2.2, fun c hc => h.leafNe c (by simp [Node.leaves, hc]), h.dims.2.2, fun i hi => h.rows i (by simp [Node.rows, hi])⟩

/-- Rows of a queue. -/
def queueRows (q : List (Node F B)) : List ℕ := (q.map Node.rows).flatten

theorem searchLeaf_good {k j : ℕ} (hjk : j ≤ k) (K : SplitKind F B) (data : Mat F) (point : List F) :
    ∀ (t : Node F B) (queue : List (Node F B)),
      Searchable K point (fun i => knnDist point (data.rows.getD i [])) data.rows.length t →
      (t.rows ++ queueRows queue).Nodup →
      (∀ q ∈ queue, Searchable K point (fun i => knnDist point (data.rows.getD i [])) data.rows.length q) →
      ∃ ps queue', searchLeaf data point k t queue = ok (ps, queue') ∧
        Good (fun i => knnDist point (data.rows.getD i [])) k j {i | i ∈ t.homeLeaf point} ps ∧
        ps.length = min k (t.homeLeaf point).length ∧ t.homeLeaf point ≠ [] ∧ (t.homeLeaf point).Nodup ∧
        (∀ q ∈ queue', Searchable K point (fun i => knnDist point (data.rows.getD i [])) data.rows.length q) ∧
        (t.homeLeaf point ++ queueRows queue').Perm (t.rows ++ queueRows queue)
  | .leaf c, queue, ht, hnd, hq => by
    have hne : c ≠ [] := ht.leafNe c (by simp [Node.leaves])
    have hcn : c.Nodup := (List.nodup_append.1 hnd).1
    obtain ⟨ps, h1, h2, h3⟩ := knearestNew_good (dst := fun i => knnDist point (data.rows.getD i [])) hjk c hcn
    refine ⟨ps, queue, ?_, h2, h3, hne, hcn, hq, List.Perm.refl _⟩
    rw [searchLeaf, getDistances_ok data point c hne ht.rows]
    simp only [ok_bind, h1]
  | .branch dim s b l r, queue, ht, hnd, hq => by
    have hd : dim < point.length := ht.dims.1
    rw [searchLeaf, List.getElem?_eq_getElem hd]
    simp only [Node.homeLeaf, List.getElem?_eq_getElem hd, Node.rows]
    by_cases hlt : (point[dim] <. s) = true
    · simp only [hlt, if_true]
      have hp : (l.rows ++ queueRows (queue ++ [r])).Perm (l.rows ++ r.rows ++ queueRows queue) := by
        simp only [queueRows, List.map_append, List.flatten_append, List.map_cons, List.map_nil, List.flatten_cons,
          List.flatten_nil, List.append_nil, List.append_assoc]
        exact (List.perm_append_comm).append_left _
      obtain ⟨ps, q', h1, h2, h3, h4, h5, h6, h7⟩ := searchLeaf_good hjk K data point l (queue ++ [r]) ht.left
        (hp.nodup_iff.2 hnd) (by
          intro q hqm
          rcases List.mem_append.1 hqm with h | h
          · exact hq q h
          · simp at h; rw [h]; exact ht.right)
      exact ⟨ps, q', h1, h2, h3, h4, h5, h6, h7.trans hp⟩
    · simp only [hlt, if_false]
      have hp : (r.rows ++ queueRows (queue ++ [l])).Perm (l.rows ++ r.rows ++ queueRows queue) := by
        simp only [queueRows, List.map_append, List.flatten_append, List.map_cons, List.map_nil, List.flatten_cons,
          List.flatten_nil, List.append_nil, List.append_assoc]
        have h1 := (List.perm_append_comm (l₁ := (queue.map Node.rows).flatten) (l₂ := l.rows)).append_left r.rows
        refine h1.trans ?_
        rw [← List.append_assoc, ← List.append_assoc]
        exact (List.perm_append_comm).append_right _
      obtain ⟨ps, q', h1, h2, h3, h4, h5, h6, h7⟩ := searchLeaf_good hjk K data point r (queue ++ [l]) ht.right
        (hp.nodup_iff.2 hnd) (by
          intro q hqm
          rcases List.mem_append.1 hqm with h | h
          · exact hq q h
          · simp at h; rw [h]; exact ht.left)
      exact ⟨ps, q', h1, h2, h3, h4, h5, h6, h7.trans hp⟩

theorem last_ge {k j : ℕ} {dst : ℕ → F} {seen : Set ℕ} {ps : List (ℕ × F)} (hg : Good dst k j seen ps) {last : ℕ × F}
    (hl : ps.getLast? = some last) : ∀ p ∈ ps, p.2 ≤ last.2 := by
  obtain ⟨init, rfl⟩ : ∃ init, ps = init ++ [last] := List.getLast?_eq_some_iff.1 hl
  intro p hp
  rcases List.mem_append.1 hp with h | h
  · exact (pairLe_iff _ _).1 ((List.pairwise_append.1 hg.sorted).2.2 p h last (by simp))
  · simp at h; rw [h]

theorem searchQueue_good {k j : ℕ} (hjk : j ≤ k) (K : SplitKind F B) (data : Mat F) (point : List F)
    (hmax : ∀ i, i < data.rows.length → knnDist point (data.rows.getD i []) < Scalar.maxVal) :
    ∀ (m : ℕ) (queue : List (Node F B)) (seen : Set ℕ) (ps : List (ℕ × F)),
      (queue.map Node.size).sum ≤ m →
      Good (fun i => knnDist point (data.rows.getD i [])) k j seen ps → ps ≠ [] → j ≤ ps.length + 1 →
      (∀ q ∈ queue, Searchable K point (fun i => knnDist point (data.rows.getD i [])) data.rows.length q) →
      (queueRows queue).Nodup → (∀ i ∈ queueRows queue, i ∉ seen) →
      ∃ ps', searchQueue K data point k queue ps = ok ps' ∧
        Good (fun i => knnDist point (data.rows.getD i [])) k j (seen ∪ {i | i ∈ queueRows queue}) ps' := by
  intro m
  induction m with
  | zero =>
    intro queue seen ps hm hg hne hj hq hnd hdis
    cases queue with
    | nil =>
      refine ⟨ps, by rw [searchQueue], ?_⟩
      simpa [queueRows] using hg
    | cons q queue =>
      cases q <;> simp [Node.size] at hm
  | succ m ih =>
    intro queue seen ps hm hg hne hj hq hnd hdis
    have hpos : 0 < ps.length := List.length_pos_iff.2 hne
    obtain ⟨last, hlast⟩ : ∃ last, ps.getLast? = some last := ⟨ps.getLast hne, List.getLast?_eq_getLast_of_ne_nil hne⟩
    cases queue with
    | nil =>
      refine ⟨ps, by rw [searchQueue], ?_⟩
      simpa [queueRows] using hg
    | cons q queue =>
      cases q with
      | leaf c =>
        have hs := hq (.leaf c) (by simp)
        have hcne : c ≠ [] := hs.leafNe c (by simp [Node.leaves])
        have hqr : queueRows ((.leaf c : Node F B) :: queue) = c ++ queueRows queue := by simp [queueRows, Node.rows]
        rw [hqr] at hnd hdis ⊢
        rw [List.nodup_append] at hnd
        rw [searchQueue, getDistances_ok data point c hcne hs.rows]
        simp only [ok_bind, zip_map_self]
        have hfst : (c.map fun i => (i, knnDist point (data.rows.getD i []))).map Prod.fst = c := by
          rw [List.map_map]; exact List.map_id _
        have hcur : ∃ cur, knearestDist k ps = ok cur ∧
            ((∀ x ∈ c.map (fun i => (i, knnDist point (data.rows.getD i []))), x.2 < cur) ∨
              (∃ last, ps.getLast? = some last ∧ last.2 = cur ∧ j ≤ ps.length)) := by
          unfold knearestDist
          by_cases hk : ps.length < k
          · refine ⟨Scalar.maxVal, by rw [if_pos hk], Or.inl ?_⟩
            intro x hx
            obtain ⟨i, hi, rfl⟩ := List.mem_map.1 hx
            exact hmax i (hs.rows i hi)
          · refine ⟨last.2, by rw [if_neg hk, hlast], Or.inr ⟨last, hlast, rfl, by omega⟩⟩
        obtain ⟨cur, hc1, hc2⟩ := hcur
        obtain ⟨ps1, h1, h2, h3⟩ := offerAll_good (dst := fun i => knnDist point (data.rows.getD i [])) hjk _ seen ps cur hg hne hj
          (by
            intro x hx
            obtain ⟨i, hi, rfl⟩ := List.mem_map.1 hx
            exact ⟨rfl, hdis i (by simp [hi])⟩)
          (by rw [hfst]; exact hnd.1) hc2
        rw [hc1]
        simp only [ok_bind, h1]
        rw [hfst] at h2
        obtain ⟨ps2, h4, h5⟩ := ih queue (seen ∪ {i | i ∈ c}) ps1
          (by simp [Node.size] at hm; omega) h2
          (by intro hc'; rw [hc'] at h3; simp at h3; exact hne h3) (by omega)
          (fun q hqm => hq q (by simp [hqm])) hnd.2.1
          (by
            rintro i hi (h | h)
            · exact hdis i (by simp [hi]) h
            · exact hnd.2.2 i h i hi rfl)
        refine ⟨ps2, h4, ?_⟩
        have hset : seen ∪ {i | i ∈ c ++ queueRows queue} = seen ∪ {i | i ∈ c} ∪ {i | i ∈ queueRows queue} := by
          ext x; simp only [List.mem_append, Set.mem_union, Set.mem_setOf_eq, or_assoc]
        rw [hset]; exact h5
      | branch dim s b l r =>
        have hs := hq (.branch dim s b l r) (by simp)
        have hqr : queueRows ((.branch dim s b l r : Node F B) :: queue) = (l.rows ++ r.rows) ++ queueRows queue := by
          simp [queueRows, Node.rows]
        have hqr2 : queueRows (queue ++ [l, r]) = queueRows queue ++ (l.rows ++ r.rows) := by
          simp [queueRows]
        rw [hqr] at hnd hdis ⊢
        rw [searchQueue]
        by_cases hk : ps.length < k
        · have hd : knearestDist k ps = ok Scalar.maxVal := by unfold knearestDist; rw [if_pos hk]
          rw [hd]
          simp only [ok_bind]
          by_cases hlt : (K.dist b point <. Scalar.maxVal) = true
          · rw [if_pos hlt]
            obtain ⟨ps2, h4, h5⟩ := ih (queue ++ [l, r]) seen ps (by simp [Node.size] at hm ⊢; omega) hg hne hj
              (by
                intro q hqm
                rcases List.mem_append.1 hqm with h | h
                · exact hq q (by simp [h])
                · simp at h
                  rcases h with rfl | rfl
                  · exact hs.left
                  · exact hs.right)
              (by rw [hqr2]; exact (List.perm_append_comm.nodup_iff).1 hnd)
              (by rw [hqr2]; intro i hi; exact hdis i (by simp at hi ⊢; tauto))
            refine ⟨ps2, h4, ?_⟩
            have hset : {i | i ∈ l.rows ++ r.rows ++ queueRows queue} = {i | i ∈ queueRows (queue ++ [l, r])} := by
              ext x; rw [hqr2]; simp; tauto
            rw [hset]; exact h5
          · rw [if_neg hlt]
            rw [Bool.not_eq_true, slt_false] at hlt
            have hempty : ∀ i ∈ l.rows ++ r.rows, False := by
              intro i hi
              have h1 := hs.bounded.1 i hi
              have h2 := hmax i (hs.rows i hi)
              exact absurd (lt_of_le_of_lt h1 h2) (not_lt.2 hlt)
            obtain ⟨ps2, h4, h5⟩ := ih queue seen ps (by simp [Node.size] at hm; omega) hg hne hj
              (fun q hqm => hq q (by simp [hqm])) (List.nodup_append.1 hnd).2.1
              (fun i hi => hdis i (by simp at hi ⊢; tauto))
            refine ⟨ps2, h4, ?_⟩
            have hset : {i | i ∈ l.rows ++ r.rows ++ queueRows queue} = {i | i ∈ queueRows queue} := by
              ext x
              simp only [Set.mem_setOf_eq]
              rw [List.mem_append]
              exact ⟨fun h => h.elim (fun h => (hempty x h).elim) id, Or.inr⟩
            rw [hset]; exact h5
        · have hd : knearestDist k ps = ok last.2 := by unfold knearestDist; rw [if_neg hk, hlast]
          rw [hd]
          simp only [ok_bind]
          by_cases hlt : (K.dist b point <. last.2) = true
          · rw [if_pos hlt]
            obtain ⟨ps2, h4, h5⟩ := ih (queue ++ [l, r]) seen ps (by simp [Node.size] at hm ⊢; omega) hg hne hj
              (by
                intro q hqm
                rcases List.mem_append.1 hqm with h | h
                · exact hq q (by simp [h])
                · simp at h
                  rcases h with rfl | rfl
                  · exact hs.left
                  · exact hs.right)
              (by rw [hqr2]; exact (List.perm_append_comm.nodup_iff).1 hnd)
              (by rw [hqr2]; intro i hi; exact hdis i (by simp at hi ⊢; tauto))
            refine ⟨ps2, h4, ?_⟩
            have hset : {i | i ∈ l.rows ++ r.rows ++ queueRows queue} = {i | i ∈ queueRows (queue ++ [l, r])} := by
              ext x; rw [hqr2]; simp; tauto
            rw [hset]; exact h5
          · rw [if_neg hlt]
            rw [Bool.not_eq_true, slt_false] at hlt
            have hskip := hg.skip (s := {i | i ∈ l.rows ++ r.rows}) (by
                intro e he p hp
                exact le_trans (last_ge hg hlast p hp) (le_trans hlt (hs.bounded.1 e he))) (fun _ => by omega)
            obtain ⟨ps2, h4, h5⟩ := ih queue _ ps (by simp [Node.size] at hm; omega) hskip hne hj
              (fun q hqm => hq q (by simp [hqm])) (List.nodup_append.1 hnd).2.1
              (by
                rintro i hi (h | h)
                · exact hdis i (by simp at hi ⊢; tauto) h
                · exact (List.nodup_append.1 hnd).2.2 i h i hi rfl)
            refine ⟨ps2, h4, ?_⟩
            have hset : seen ∪ {i | i ∈ l.rows ++ r.rows ++ queueRows queue} =
                seen ∪ {i | i ∈ l.rows ++ r.rows} ∪ {i | i ∈ queueRows queue} := by
              ext x; simp only [List.mem_append, Set.mem_union, Set.mem_setOf_eq, or_assoc]
            rw [hset]; exact h5

/-- Search of a well-formed tree over all rows. -/
theorem treeSearch_good (K : SplitKind F B) (data : Mat F) (point : List F) (k : ℕ) (hk : 1 ≤ k)
    (hkn : k ≤ data.rows.length)
    (hmax : ∀ i, i < data.rows.length → knnDist point (data.rows.getD i []) < Scalar.maxVal)
    (root : Node F B) (leafsize : ℕ)
    (hs : Searchable K point (fun i => knnDist point (data.rows.getD i [])) data.rows.length root)
    (hp : root.rows.Perm (List.range data.rows.length)) :
    (root.homeLeaf point) ≠ [] ∧
    ∃ r, treeSearch K ⟨leafsize, some data, some root⟩ point k = ok r ∧
      PrefixNearestOf data.rows.length (fun i => knnDist point (data.rows.getD i []))
        (min k ((root.homeLeaf point).length + 1)) k r := by
  have hnd : root.rows.Nodup := hp.nodup_iff.2 List.nodup_range
  obtain ⟨ps, queue, h1, h2, h3, h4, h5, h6, h7⟩ := searchLeaf_good (k := k)
    (j := min k ((root.homeLeaf point).length + 1)) (by omega) K data point root [] hs (by simpa [queueRows] using hnd) (by simp)
  have h7' : (root.homeLeaf point ++ queueRows queue).Perm root.rows := by simpa [queueRows] using h7
  have hpos : 0 < (root.homeLeaf point).length := List.length_pos_iff.2 h4
  have hnd2 := List.nodup_append.1 (h7'.nodup_iff.2 hnd)
  obtain ⟨ps', h8, h9⟩ := searchQueue_good (k := k) (j := min k ((root.homeLeaf point).length + 1)) (by omega) K data point hmax _
    queue _ ps (le_refl _) h2 (by intro hc; rw [hc] at h3; simp at h3; omega) (by omega) h6 hnd2.2.1
    (fun i hi h => hnd2.2.2 i h i hi rfl)
  refine ⟨h4, knearestResults ps', ?_, ?_⟩
  · unfold treeSearch
    simp [h1, h8]
  · have hset : {i | i ∈ root.homeLeaf point} ∪ {i | i ∈ queueRows queue} = {i | i < data.rows.length} := by
      ext x
      have := (h7'.trans hp).mem_iff (a := x)
      simpa using this
    rw [hset] at h9
    exact h9.final (by omega)

end ord

end RM
