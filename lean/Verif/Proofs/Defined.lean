import Verif.Spec.Memory
import Verif.Spec.BinaryTree
import Verif.Spec.NNet
import Verif.Model.BinaryTree
import Verif.Model.Dbscan
import Verif.Model.KMeans
import Verif.Base.Solve
import Verif.Proofs.Argmax
import Verif.Proofs.BinaryTree
import Verif.Proofs.NNet

/-! Rules for calls that stay clear of undefined behaviour. -/

set_option linter.unusedSectionVars false

namespace RM
open Outcome Scalar Spec

variable {α β F : Type} [Scalar F]

namespace Spec.Defined
variable {P : α → Prop} {Q : β → Prop}

theorem ok' {a : α} (h : P a) : Defined P (Outcome.ok a) := h

theorem ne_ub {o : Outcome α} (h : Defined P o) : o ≠ Outcome.ub := by
  rintro rfl; exact h

theorem of_ne {o : Outcome α} (h : o ≠ Outcome.ub) : Defined (fun _ => True) o := by
  cases o <;> first | trivial | exact absurd rfl h

theorem of_ok {o : Outcome α} {a : α} (h : Defined P o) (ho : o = Outcome.ok a) : P a := by rw [ho] at h; exact h

theorem mono {P' : α → Prop} {o : Outcome α} (h : Defined P o) (hp : ∀ a, P a → P' a) : Defined P' o := by
  cases o
  · exact hp _ h
  · trivial
  · trivial
  · exact h

theorem bind {o : Outcome α} {f : α → Outcome β} (h : Defined P o) (hf : ∀ a, P a → Defined Q (f a)) : Defined Q (o >>= f) := by
  cases o
  · exact hf _ h
  · trivial
  · trivial
  · exact h.elim

/-- A bind whose second part may use that the first returned. -/
theorem bind' {o : Outcome α} {f : α → Outcome β} (h : o ≠ Outcome.ub) (hf : ∀ a, o = Outcome.ok a → Defined Q (f a)) : Defined Q (o >>= f) := by
  cases o
  · exact hf _ rfl
  · trivial
  · trivial
  · exact absurd rfl h

theorem ite {p : Prop} [Decidable p] {a b : Outcome α} (ha : p → Defined P a) (hb : ¬p → Defined P b) : Defined P (if p then a else b) := by
  split
  · exact ha ‹_›
  · exact hb ‹_›

theorem mapM {f : α → Outcome β} : ∀ {l : List α}, (∀ a ∈ l, Defined Q (f a)) →
    Defined (fun r => r.length = l.length ∧ ∀ b ∈ r, Q b) (l.mapM f)
  | [], _ => by
    rw [List.mapM_nil]
    exact ⟨rfl, by simp⟩
  | a :: l, h => by
    rw [List.mapM_cons]
    refine bind (h a List.mem_cons_self) fun b hb => bind (mapM fun a ha => h a (List.mem_cons_of_mem _ ha)) fun r hr => ?_
    exact ⟨by simp [hr.1], by intro x hx; rcases List.mem_cons.mp hx with rfl | hx; exacts [hb, hr.2 _ hx]⟩

theorem ofOption (o : Option α) : Defined (fun a => o = some a) (Outcome.ofOption o) := by
  cases o
  · trivial
  · exact rfl

theorem getAt (l : List α) (i : ℕ) : Defined (fun a => l[i]? = some a) (getAt l i) := ofOption _

theorem setAt (l : List α) (i : ℕ) (x : α) : Defined (fun r => r = l.set i x) (setAt l i x) := ite (fun _ => rfl) fun _ => trivial

theorem assert (b : Bool) : Defined (fun _ => b = true) (Outcome.assert b) := ite (fun h => h) fun _ => trivial

theorem genRange (raw hi : ℕ) : Defined (fun i => i < hi) (genRange raw 0 hi) := by
  unfold RM.genRange
  refine ite (fun h => ?_) fun _ => trivial
  show _ < _
  rw [Nat.zero_add, Nat.sub_zero]
  exact Nat.mod_lt raw h

theorem unwrap {o : Outcome α} (h : Defined P o) : Defined P o.unwrap := by
  cases o
  · exact h
  · trivial
  · trivial
  · exact h

theorem expectOk {o : Outcome α} (h : Defined P o) : Defined P (RM.expectOk o) := by
  cases o
  · exact h
  · trivial
  · trivial
  · exact h

theorem argmaxBy (lt : α → α → Bool) (l : List α) : Defined (fun r => l[r.1]? = some r.2) (argmaxBy lt l) := by
  cases l with
  | nil => trivial
  | cons a l =>
    obtain ⟨i, v, h1, h2⟩ := argmaxBy_get lt (a :: l) (by simp)
    rw [h1]
    exact h2

theorem argminBy (lt : α → α → Bool) (l : List α) : Defined (fun _ => True) (argminBy lt l) := by
  cases l <;> trivial

theorem vecZip (f : F → F → F) (u v : List F) : Defined (fun r => r.length = u.length) (vecZip f u v) := by
  unfold RM.vecZip
  refine ite (fun h => ?_) fun _ => trivial
  show (List.zipWith f u v).length = _
  simp [h]

theorem new (r c : ℕ) (d : List F) : Defined (fun _ => True) (Mat.new r c d) := ite (fun _ => trivial) fun _ => trivial
theorem zip (f : F → F → F) (a b : Mat F) : Defined (fun _ => True) (Mat.zip f a b) := ite (fun _ => trivial) fun _ => trivial
theorem mul (a b : Mat F) : Defined (fun _ => True) (a.mul b) := ite (fun _ => trivial) fun _ => trivial
theorem selectRows (m : Mat F) (idx : List ℕ) : Defined (fun _ => True) (m.selectRows idx) :=
  bind (mapM (Q := fun _ => True) fun _ _ => (getAt _ _).mono fun _ _ => trivial) fun _ _ => trivial

end Spec.Defined

namespace DefLog
variable {C : Type} {P : α → Prop} {Q : β → Prop}

theorem bind {x : Logged C α} {f : α → Logged C β} (h : Defined P x.out) (hf : ∀ a, P a → Defined Q (f a).out) : Defined Q (x >>= f).out := by
  rw [Logged.bind_def, Logged.bind]
  cases e : x.out with
  | ok a => rw [e] at h; exact hf a h
  | err k => trivial
  | panic => trivial
  | ub => rw [e] at h; exact h.elim

end DefLog

/-! ### Searches -/

theorem defined_getDistances (data : Mat F) (point : List F) (ids : List ℕ) :
    Defined (fun r => r.length = ids.length ∧ ids ≠ []) (getDistances data point ids) := by
  refine Defined.bind (Defined.assert _) fun _ h => (Defined.mapM (Q := fun _ => True) fun i _ => Defined.bind (Defined.getAt _ _) fun _ _ => Defined.ok' trivial).mono
    fun r hr => ⟨hr.1, ?_⟩
  rintro rfl
  simp at h

theorem defined_knearestNew (k : ℕ) (ids : List ℕ) (ds : List F) (h : ds.length = ids.length) :
    Defined (fun r => r.length = min k ids.length) (knearestNew k ids ds) := by
  unfold knearestNew
  refine Defined.ite (fun _ => trivial) fun _ => ?_
  show (List.take _ _).length = _
  simp [h]

theorem defined_addLoop (pairs : List (ℕ × F)) (x : ℕ × F) : ∀ j, j ≤ pairs.length →
    Defined (fun r => r.length = pairs.length + 1) (addLoop pairs x j)
  | 0, _ => by show (x :: pairs).length = _; simp
  | j + 1, h => by
    unfold addLoop
    rw [List.getElem?_eq_getElem (by omega)]
    dsimp only
    split
    · exact List.length_insertIdx_of_le_length (by omega) _
    · exact defined_addLoop pairs x j (by omega)

theorem defined_knearestAdd {k : ℕ} {pairs : List (ℕ × F)} (h1 : 1 ≤ pairs.length) (hk : pairs.length ≤ k) (i : ℕ) (d : F) :
    Defined (fun r => 1 ≤ r.1.length ∧ r.1.length ≤ k) (knearestAdd k pairs i d) := by
  have hne : pairs ≠ [] := by intro h; rw [h] at h1; simp at h1
  unfold knearestAdd
  dsimp only
  rw [List.getLast?_eq_some_getLast hne]
  dsimp only
  by_cases hlt : pairs.length < k
  · have hge : ¬ k ≤ pairs.length := by omega
    simp only [if_pos hlt, if_neg hge]
    refine Defined.ite (fun _ => ?_) fun _ => ?_
    · rw [List.getElem?_eq_getElem (by simp)]
      refine ⟨?_, ?_⟩ <;> simp <;> omega
    · refine Defined.bind (defined_addLoop pairs (i, d) _ (by omega)) fun r hr => ?_
      rw [List.getElem?_eq_getElem (by omega)]
      refine ⟨?_, ?_⟩ <;> simp only <;> omega
  · have hge : k ≤ pairs.length := by omega
    simp only [if_neg hlt, if_pos hge]
    refine Defined.ite (fun _ => ?_) fun _ => ?_
    · rw [List.getElem?_eq_getElem (by omega)]
      exact ⟨h1, hk⟩
    · refine Defined.bind (defined_addLoop pairs.dropLast (i, d) _ (by simp)) fun r hr => ?_
      rw [List.length_dropLast] at hr
      rw [List.getElem?_eq_getElem (by omega)]
      refine ⟨?_, ?_⟩ <;> simp only <;> omega

theorem defined_knearestDist {k : ℕ} {pairs : List (ℕ × F)} (h1 : 1 ≤ pairs.length) : Defined (fun _ => True) (knearestDist k pairs) := by
  have hne : pairs ≠ [] := by intro h; rw [h] at h1; simp at h1
  unfold knearestDist
  refine Defined.ite (fun _ => trivial) fun _ => ?_
  rw [List.getLast?_eq_some_getLast hne]
  trivial

theorem defined_offerAll {k : ℕ} : ∀ (rest pairs : List (ℕ × F)) (cur : F), 1 ≤ pairs.length → pairs.length ≤ k →
    Defined (fun r => 1 ≤ r.length ∧ r.length ≤ k) (offerAll k rest pairs cur)
  | [], _, _, h1, hk => ⟨h1, hk⟩
  | (i, d) :: rest, pairs, cur, h1, hk => by
    unfold offerAll
    split
    · exact Defined.bind (defined_knearestAdd h1 hk i d) fun r hr => defined_offerAll rest r.1 r.2 hr.1 hr.2
    · exact defined_offerAll rest pairs cur h1 hk

theorem defined_bruteSearch (data : Option (Mat F)) (point : List F) (k : ℕ) : Defined (fun _ => True) (bruteSearch data point k) := by
  unfold bruteSearch
  cases data with
  | none => trivial
  | some data =>
    refine Defined.bind (defined_getDistances _ _ _) fun ds hds => Defined.bind (defined_knearestNew _ _ _ hds.1) fun ps hps => ?_
    have hk : 1 ≤ k := by
      by_contra h
      exact hds.2 (by simp; omega)
    rw [List.length_range, min_self] at hps
    exact Defined.bind (defined_knearestDist (by omega)) fun cur _ => Defined.bind (defined_offerAll _ _ _ (by omega) (by omega)) fun _ _ => trivial

variable {B : Type}

theorem defined_searchLeaf (data : Mat F) (point : List F) {k : ℕ} (hk : 1 ≤ k) : ∀ (n : Node F B) (q : List (Node F B)), n.DimsBelow point.length →
    Defined (fun r => 1 ≤ r.1.length ∧ r.1.length ≤ k) (searchLeaf data point k n q)
  | .leaf c, q, _ => by
    unfold searchLeaf
    refine Defined.bind (defined_getDistances _ _ _) fun ds hds => Defined.bind (defined_knearestNew _ _ _ hds.1) fun ps hps => ?_
    have : 1 ≤ c.length := List.length_pos_iff.mpr hds.2
    refine ⟨?_, ?_⟩ <;> simp only <;> omega
  | .branch dim split b l r, q, h => by
    unfold searchLeaf
    rw [List.getElem?_eq_getElem h.1]
    dsimp only
    split
    · exact defined_searchLeaf data point hk l _ h.2.1
    · exact defined_searchLeaf data point hk r _ h.2.2

theorem defined_searchQueue (K : SplitKind F B) (data : Mat F) (point : List F) (k : ℕ) : ∀ (q : List (Node F B)) (ps : List (ℕ × F)),
    1 ≤ ps.length → ps.length ≤ k → Defined (fun _ => True) (searchQueue K data point k q ps)
  | [], _, _, _ => by unfold searchQueue; trivial
  | .leaf c :: q, ps, h1, hk => by
    unfold searchQueue
    exact Defined.bind (defined_getDistances _ _ _) fun ds _ => Defined.bind (defined_knearestDist h1) fun cur _ =>
      Defined.bind (defined_offerAll _ _ _ h1 hk) fun ps' h' => defined_searchQueue K data point k q ps' h'.1 h'.2
  | .branch _ _ b l r :: q, ps, h1, hk => by
    unfold searchQueue
    refine Defined.bind (defined_knearestDist h1) fun cur _ => Defined.ite (fun _ => ?_) fun _ => ?_
    · exact defined_searchQueue K data point k (q ++ [l, r]) ps h1 hk
    · exact defined_searchQueue K data point k q ps h1 hk
termination_by q _ => (q.map Node.size).sum
decreasing_by
  · simp [Node.size]
  · simp [Node.size]; omega
  · simp [Node.size]

theorem defined_treeSearch (K : SplitKind F B) (leafsize : ℕ) (data : Mat F) (root : Node F B) (point : List F) {k : ℕ} (hk : 1 ≤ k)
    (hd : root.DimsBelow point.length) : Defined (fun _ => True) (treeSearch K ⟨leafsize, some data, some root⟩ point k) := by
  unfold treeSearch
  exact Defined.bind (defined_searchLeaf data point hk root [] hd) fun r hr => Defined.bind (defined_searchQueue K data point k _ _ hr.1 hr.2)
    fun _ _ => trivial

theorem DimsBelow_mono {c d : ℕ} (h : c ≤ d) : ∀ n : Node F B, n.DimsBelow c → n.DimsBelow d
  | .leaf _, _ => trivial
  | .branch _ _ _ l r, hn => ⟨by have := hn.1; omega, DimsBelow_mono h l hn.2.1, DimsBelow_mono h r hn.2.2⟩

/-! ### Building trees -/

theorem defined_selectSplit {data : Mat F} (hw : data.WF) : ∀ (fuel : ℕ) (remains : List ℕ) (dmin dmax : List F) (o : Outcome (Sel F)),
    selectSplit data fuel remains dmin dmax = some o → (∀ i ∈ remains, i < data.rows.length) → dmin.length = data.cols → dmax.length = data.cols →
    Defined (fun s => s.dim < data.cols ∧ s.lMax.length = data.cols ∧ s.rMin.length = data.cols ∧ (∀ i ∈ s.left, i < data.rows.length) ∧
      ∀ i ∈ s.right, i < data.rows.length) o
  | 0, _, _, _, _, h, _, _, _ => by simp [selectSplit] at h
  | fuel + 1, remains, dmin, dmax, o, h, hr, hmin, hmax => by
    rw [selectSplit] at h
    have hA := Defined.argmaxBy Scalar.lt (List.zipWith Scalar.sub dmax dmin)
    cases ha : argmaxBy Scalar.lt (List.zipWith Scalar.sub dmax dmin) with
    | err e => rw [ha] at h; cases h; trivial
    | panic => rw [ha] at h; cases h; trivial
    | ub => rw [ha] at hA; exact hA.elim
    | ok r =>
      obtain ⟨dim, d⟩ := r
      have hget := hA.of_ok ha
      simp only at hget
      have hdim : dim < data.cols := by
        by_contra hcon
        rw [List.getElem?_eq_none (by simp; omega)] at hget
        simp at hget
      rw [ha] at h
      simp only [List.getElem?_eq_getElem (show dim < dmin.length by omega)] at h
      rw [partitionRows_ok hw hdim _ remains hr] at h
      simp only at h
      have hL : ∀ p : ℕ → Bool, ∀ i ∈ remains.filter p, i < data.rows.length := fun p i hi => hr i (List.mem_of_mem_filter hi)
      split at h
      · exact defined_selectSplit hw fuel _ _ _ o h (hL _) (by simpa using hmin) hmax
      · split at h
        · exact defined_selectSplit hw fuel _ _ _ o h (hL _) hmin (by simpa using hmax)
        · cases h
          exact ⟨hdim, by simpa using hmax, by simpa using hmin, hL _, hL _⟩

theorem defined_splitNode (K : SplitKind F B) (hK : ∀ data remains dmin dmax, K.mkBound data remains dmin dmax ≠ Outcome.ub) {data : Mat F}
    (hw : data.WF) (leafsize : ℕ) : ∀ (fuel : ℕ) (remains : List ℕ) (dmin dmax : List F) (o : Outcome (Node F B)),
    splitNode K data leafsize fuel remains dmin dmax = some o → (∀ i ∈ remains, i < data.rows.length) → dmin.length = data.cols →
    dmax.length = data.cols → Defined (fun n => n.DimsBelow data.cols) o
  | 0, _, _, _, _, h, _, _, _ => by simp [splitNode] at h
  | fuel + 1, remains, dmin, dmax, o, h, hr, hmin, hmax => by
    rw [splitNode] at h
    split at h
    · cases h; trivial
    · cases hs : selectSplit data fuel remains dmin dmax with
      | none => rw [hs] at h; cases h
      | some os =>
        have hS := defined_selectSplit hw fuel remains dmin dmax os hs hr hmin hmax
        rw [hs] at h
        cases os with
        | err e => cases h; trivial
        | panic => cases h; trivial
        | ub => exact hS.elim
        | ok s =>
          obtain ⟨h1, h2, h3, h4, h5⟩ := hS
          simp only at h
          cases hl : splitNode K data leafsize fuel s.left dmin s.lMax with
          | none => rw [hl] at h; cases h
          | some ol =>
            have hLn := defined_splitNode K hK hw leafsize fuel s.left dmin s.lMax ol hl h4 hmin h2
            rw [hl] at h
            cases ol with
            | err e => cases h; trivial
            | panic => cases h; trivial
            | ub => exact hLn.elim
            | ok l =>
              simp only at h
              cases hg : splitNode K data leafsize fuel s.right s.rMin dmax with
              | none => rw [hg] at h; cases h
              | some og =>
                have hGn := defined_splitNode K hK hw leafsize fuel s.right s.rMin dmax og hg h5 h3 hmax
                rw [hg] at h
                cases og with
                | err e => cases h; trivial
                | panic => cases h; trivial
                | ub => exact hGn.elim
                | ok g =>
                  simp only [Option.some.injEq] at h
                  subst h
                  exact Defined.bind' (hK _ _ _ _) fun b _ => ⟨h1, hLn, hGn⟩

theorem extremeRows_len (rep : F → F → Bool) : ∀ (rows : List (List F)) (acc : List F) (c : ℕ),
    (∀ r ∈ rows, r.length = c) → acc.length = c → (extremeRows rep rows acc).length = c
  | [], acc, c, _, h => h
  | r :: rows, acc, c, hr, h => by
    unfold extremeRows
    rw [List.foldl_cons]
    exact extremeRows_len rep rows _ c (fun x hx => hr x (by simp [hx])) (by simp [h, hr r (by simp)])

theorem defined_treeBuild (K : SplitKind F B) (hK : ∀ data remains dmin dmax, K.mkBound data remains dmin dmax ≠ Outcome.ub) {data : Mat F}
    (hw : data.WF) (fuel : ℕ) (t : BinaryTree F B) (o : Outcome (BinaryTree F B)) (h : treeBuild K fuel t data = some o) :
    Defined (fun t' => ∃ root : Node F B, t' = ⟨t.leafsize, some data, some root⟩ ∧ root.DimsBelow data.cols) o := by
  unfold treeBuild at h
  split at h
  · rename_i dmin dmax h1 h2
    have hlen : ∀ (rep : F → F → Bool) (r : List F) (rs : List (List F)), data.rows = r :: rs → (extremeRows rep (r :: rs) r).length = data.cols := by
      intro rep r rs hrs
      exact extremeRows_len rep (r :: rs) r data.cols (fun x hx => hw x (by rw [hrs]; exact hx)) (hw r (by rw [hrs]; simp))
    have hmin : dmin.length = data.cols := by
      unfold minRows at h1
      split at h1
      · split at h1
        · cases h1; simp [*]
        · cases h1
      · rename_i r rs hrs
        cases h1
        exact hlen _ r rs hrs
    have hmax : dmax.length = data.cols := by
      unfold maxRows at h2
      split at h2
      · split at h2
        · cases h2; simp [*]
        · cases h2
      · rename_i r rs hrs
        cases h2
        exact hlen _ r rs hrs
    cases hs : splitNode K data t.leafsize fuel (List.range data.rows.length) dmin dmax with
    | none => rw [hs] at h; cases h
    | some os =>
      have hS := defined_splitNode K hK hw t.leafsize fuel _ dmin dmax os hs (by simp) hmin hmax
      rw [hs] at h
      cases os with
      | err e => cases h; trivial
      | panic => cases h; trivial
      | ub => exact hS.elim
      | ok n => cases h; exact ⟨n, rfl, hS⟩
  · cases h; trivial

theorem kdKind_ne_ub : ∀ (data : Mat F) (remains : List ℕ) (dmin dmax : List F), kdKind.mkBound data remains dmin dmax ≠ Outcome.ub := by
  intro _ _ _ _ h
  cases h

theorem defined_sumRowsSel (data : Mat F) : ∀ (is : List ℕ) (acc : List F), Defined (fun _ => True) (sumRowsSel data is acc)
  | [], _ => trivial
  | i :: is, acc => by
    unfold sumRowsSel
    exact Defined.bind (Defined.getAt _ _) fun _ _ => defined_sumRowsSel data is _

theorem defined_maxDistSel (data : Mat F) (c : List F) : ∀ (is : List ℕ) (r : F), Defined (fun _ => True) (maxDistSel data c is r)
  | [], _ => trivial
  | i :: is, r => by
    unfold maxDistSel
    exact Defined.bind (Defined.getAt _ _) fun _ _ => defined_maxDistSel data c is _

theorem ballKind_ne_ub : ∀ (data : Mat F) (remains : List ℕ) (dmin dmax : List F), ballKind.mkBound data remains dmin dmax ≠ Outcome.ub := by
  intro data remains _ _
  exact (Defined.bind (defined_sumRowsSel data remains _) fun s _ => Defined.bind (defined_maxDistSel data _ remains _) fun _ _ => trivial :
    Defined (fun _ => True) (ballKind.mkBound data remains _ _)).ne_ub

/-! ### Density clustering -/

theorem defined_dbDist (u v : List F) : Defined (fun _ => True) (dbDist u v) := Defined.bind (Defined.vecZip _ _ _) fun _ _ => trivial

theorem defined_regionLoop (eps : F) (point : List F) : ∀ (i : ℕ) (rows : List (List F)), Defined (fun _ => True) (regionLoop eps point i rows)
  | _, [] => trivial
  | i, r :: rs => by
    unfold regionLoop
    exact Defined.bind (defined_dbDist _ _) fun _ _ => Defined.bind (defined_regionLoop eps point (i + 1) rs) fun _ _ => trivial

theorem defined_visitPoint (eps : F) (X : Mat F) (idx : ℕ) (st : DbState) (h : st.visited.length = X.rows.length) :
    Defined (fun r => ∀ p, r = some p → p.1.visited.length = X.rows.length) (visitPoint eps X idx st) := by
  unfold visitPoint
  refine Defined.bind (Defined.getAt _ _) fun v hv => Defined.ite (fun _ => ?_) fun _ => ?_
  · intro p hp; cases hp
  · refine Defined.bind (Defined.setAt _ _ _) fun vis hvis => ?_
    have hi : idx < X.rows.length := by
      rw [← h]
      exact (List.getElem?_eq_some_iff.mp hv).1
    rw [List.getElem?_eq_getElem hi]
    refine Defined.bind (defined_regionLoop _ _ _ _) fun sub _ => ?_
    intro p hp
    cases hp
    simp [hvis, h]

theorem defined_labelPoint (idx c : ℕ) (st : DbState) : Defined (fun s => s.visited = st.visited) (labelPoint idx c st) :=
  Defined.bind (Defined.setAt _ _ _) fun _ _ => rfl

theorem defined_expandLoop (eps : F) (mp : ℕ) (X : Mat F) (cl : ℕ) : ∀ (fuel : ℕ) (q : List ℕ) (st : DbState) (o : Outcome DbState),
    st.visited.length = X.rows.length → expandLoop eps mp X cl fuel q st = some o → Defined (fun s => s.visited.length = X.rows.length) o
  | fuel, [], st, o, h, ho => by
    cases fuel <;> · simp only [expandLoop, Option.some.injEq] at ho; subst ho; exact h
  | 0, _ :: _, _, _, _, ho => by simp [expandLoop] at ho
  | fuel + 1, d :: rest, st, o, h, ho => by
    rw [expandLoop] at ho
    have hv := defined_visitPoint eps X d st h
    cases ev : visitPoint eps X d st with
    | err e => rw [ev] at ho; cases ho; trivial
    | panic => rw [ev] at ho; cases ho; trivial
    | ub => rw [ev] at hv; exact hv.elim
    | ok r =>
      have hv' := hv.of_ok ev
      rw [ev] at ho
      cases r with
      | none => exact defined_expandLoop eps mp X cl fuel rest st o h ho
      | some p =>
        obtain ⟨st', sub⟩ := p
        have h' : st'.visited.length = X.rows.length := hv' _ rfl
        simp only at ho
        split at ho
        · have hlp := defined_labelPoint d cl st'
          cases el : labelPoint d cl st' with
          | err e => rw [el] at ho; cases ho; trivial
          | panic => rw [el] at ho; cases ho; trivial
          | ub => rw [el] at hlp; exact hlp.elim
          | ok st2 =>
            have h2 : st2.visited.length = X.rows.length := by rw [hlp.of_ok el]; exact h'
            rw [el] at ho
            simp only at ho
            cases ee : expandLoop eps mp X cl fuel sub st2 with
            | none => rw [ee] at ho; cases ho
            | some o2 =>
              have h3 := defined_expandLoop eps mp X cl fuel sub st2 o2 h2 ee
              rw [ee] at ho
              cases o2 with
              | err e => cases ho; trivial
              | panic => cases ho; trivial
              | ub => exact h3.elim
              | ok st3 => exact defined_expandLoop eps mp X cl fuel rest st3 o h3 ho
        · exact defined_expandLoop eps mp X cl fuel rest st' o h' ho

theorem defined_dbTrainLoop (eps : F) (mp : ℕ) (X : Mat F) (fuel : ℕ) : ∀ (is : List ℕ) (cl : ℕ) (st : DbState) (o : Outcome DbState),
    st.visited.length = X.rows.length → dbTrainLoop eps mp X fuel is cl st = some o → Defined (fun s => s.visited.length = X.rows.length) o
  | [], _, st, o, h, ho => by simp only [dbTrainLoop, Option.some.injEq] at ho; subst ho; exact h
  | idx :: rest, cl, st, o, h, ho => by
    rw [dbTrainLoop] at ho
    have hv := defined_visitPoint eps X idx st h
    cases ev : visitPoint eps X idx st with
    | err e => rw [ev] at ho; cases ho; trivial
    | panic => rw [ev] at ho; cases ho; trivial
    | ub => rw [ev] at hv; exact hv.elim
    | ok r =>
      have hv' := hv.of_ok ev
      rw [ev] at ho
      cases r with
      | none => exact defined_dbTrainLoop eps mp X fuel rest cl st o h ho
      | some p =>
        obtain ⟨st', nbrs⟩ := p
        have h' : st'.visited.length = X.rows.length := hv' _ rfl
        simp only at ho
        split at ho
        · have hE : ∀ o2, expandCluster eps mp X fuel idx nbrs cl st' = some o2 → Defined (fun s => s.visited.length = X.rows.length) o2 := by
            intro o2 h2
            unfold expandCluster at h2
            have hlp := defined_labelPoint idx cl st'
            cases el : labelPoint idx cl st' with
            | err e => rw [el] at h2; cases h2; trivial
            | panic => rw [el] at h2; cases h2; trivial
            | ub => rw [el] at hlp; exact hlp.elim
            | ok st2 =>
              rw [el] at h2
              exact defined_expandLoop eps mp X cl fuel nbrs st2 o2 (by rw [hlp.of_ok el]; exact h') h2
          cases ee : expandCluster eps mp X fuel idx nbrs cl st' with
          | none => rw [ee] at ho; cases ho
          | some o2 =>
            have h3 := hE o2 ee
            rw [ee] at ho
            cases o2 with
            | err e => cases ho; trivial
            | panic => cases ho; trivial
            | ub => exact h3.elim
            | ok st3 => exact defined_dbTrainLoop eps mp X fuel rest (cl + 1) st3 o h3 ho
        · exact defined_dbTrainLoop eps mp X fuel rest cl st' o h' ho

/-! ### k-means -/

theorem defined_findClosest (c X : Mat F) : Defined (fun r => r.1.length = X.rows.length ∧ r.2.length = X.rows.length) (findClosest c X) := by
  refine Defined.bind (Defined.mapM (Q := fun _ => True) fun r _ => Defined.bind (Defined.zip _ _ _) fun _ _ => Defined.bind (Defined.zip _ _ _) fun _ _ =>
    Defined.argminBy _ _) fun rs hrs => ?_
  exact ⟨by simp [hrs.1], by simp [hrs.1]⟩

theorem defined_updateCentroids (k : ℕ) (X : Mat F) (cl : List ℕ) : Defined (fun _ => True) (updateCentroids k X cl) :=
  Defined.bind (Defined.mapM (Q := fun _ => True) fun r _ => Defined.bind (Defined.selectRows _ _) fun _ _ => trivial) fun _ _ => Defined.new _ _ _

theorem defined_kmLoop (k : ℕ) (X : Mat F) : ∀ (n : ℕ) (cost : F) (c : Mat F), Defined (fun _ => True) (kmLoop k X n cost c)
  | 0, _, _ => trivial
  | n + 1, cost, c => by
    unfold kmLoop
    exact Defined.bind (defined_findClosest c X) fun _ _ => Defined.bind (defined_updateCentroids _ _ _) fun _ _ =>
      Defined.ite (fun _ => trivial) fun _ => defined_kmLoop k X n _ _

theorem defined_forgyLoop (k n : ℕ) : ∀ (raws choices : List ℕ) (o : Outcome (List ℕ)), forgyLoop k n raws choices = some o → Defined (fun _ => True) o
  | [], choices, o, h => by
    rw [forgyLoop] at h
    split at h
    · cases h
    · cases h; trivial
  | raw :: raws, choices, o, h => by
    rw [forgyLoop] at h
    split at h
    · have hg := Defined.genRange raw n
      cases e : genRange raw 0 n with
      | ok r => simp only [e] at h; exact defined_forgyLoop k n raws _ o h
      | err e' => simp only [e] at h; cases h; trivial
      | panic => simp only [e] at h; cases h; trivial
      | ub => rw [e] at hg; exact hg.elim
    · cases h; trivial

theorem defined_partitionLoop (k : ℕ) : ∀ (i : ℕ) (raws : List ℕ) (groups : List (List ℕ)), groups.length = k →
    Defined (fun _ => True) (partitionLoop k i raws groups)
  | _, [], _, _ => trivial
  | i, raw :: raws, groups, h => by
    unfold partitionLoop
    refine Defined.bind (Defined.genRange raw k) fun idx hidx => ?_
    rw [if_pos (by omega)]
    exact defined_partitionLoop k _ _ _ (by simpa using h)

theorem defined_sampleLoop (rand : F) : ∀ (i : ℕ) (t : F) (ds : List F), Defined (fun j => j < i + ds.length) (sampleLoop rand i t ds)
  | _, _, [] => trivial
  | i, t, p :: ps => by
    unfold sampleLoop
    dsimp only
    refine Defined.ite (fun _ => ?_) fun _ => (defined_sampleLoop rand (i + 1) _ ps).mono fun j hj => ?_
    · show i < i + (p :: ps).length
      simp
    · simp only [List.length_cons]; omega

theorem defined_rowUnchecked (m : Mat F) {i : ℕ} (h : i < m.rows.length) : Defined (fun _ => True) (rowUnchecked m i) := by
  unfold rowUnchecked
  rw [List.getElem?_eq_getElem h]
  trivial

theorem defined_kppLoop (X : Mat F) : ∀ (us : List F) (cs : List (List F)), Defined (fun _ => True) (kppLoop X us cs)
  | [], _ => trivial
  | u :: us, cs => by
    unfold kppLoop
    refine Defined.bind (defined_findClosest _ _) fun r hr => Defined.ite (fun _ => ?_) fun _ => trivial
    refine Defined.bind (P := fun j => j < X.rows.length) ?_ fun j hj => Defined.bind (defined_rowUnchecked X hj) fun _ _ => defined_kppLoop X us _
    refine Defined.bind (Defined.assert _) fun _ _ => Defined.bind (Defined.assert _) fun _ _ => (defined_sampleLoop _ _ _ _).mono fun j hj => ?_
    rw [hr.2] at hj; omega

theorem defined_partitionInit (raws : List ℕ) (k : ℕ) (X : Mat F) : Defined (fun _ => True) (partitionInit raws k X) :=
  Defined.bind (defined_partitionLoop k _ _ _ (by simp)) fun _ _ => Defined.bind (Defined.mapM (Q := fun _ => True) fun r _ =>
    Defined.bind (Defined.selectRows _ _) fun _ _ => trivial) fun _ _ => Defined.new _ _ _

theorem defined_kppInit (raw : ℕ) (us : List F) (k : ℕ) (X : Mat F) : Defined (fun _ => True) (kppInit raw us k X) :=
  Defined.bind (Defined.genRange _ _) fun _ h => Defined.bind (defined_rowUnchecked X h) fun _ _ => Defined.bind (defined_kppLoop X _ _) fun _ _ =>
    Defined.new _ _ _

end RM
