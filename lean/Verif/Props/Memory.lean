import Verif.Proofs.DefinedNet
import Verif.Proofs.TreeKinds
import Verif.Model.Unwind
import Verif.Model.Calls
import Verif.Model.Defaults
import Verif.Props.KNNTree
import Verif.Props.RandUtils

/-! C125: which calls can reach undefined behaviour. The library has `unsafe` code behind safe functions. For each of these functions:
either no call, with any data of any shape and any numbers (NaN and infinities included), reaches undefined behaviour, or exactly the calls
that do. -/

set_option linter.unusedSectionVars false

namespace RM
open Outcome Scalar Spec

variable {F : Type} [Scalar F]

theorem Spec.Defined.then_ok {α β : Type} {P : α → Prop} {o : Outcome α} (h : Defined P o) (f : α → β) : (o >>= fun a => ok (f a)) ≠ Outcome.ub :=
  (Defined.bind (Q := fun _ => True) h fun _ _ => Defined.ok' trivial).ne_ub

/-! ### Shuffling -/

/-- **C125 (shuffling).** The two shuffles and the reservoir sample never reach undefined behaviour, whatever the random numbers. -/
theorem C125_shuffle {α : Type} (r : ℕ → ℕ) (arr : List α) (k : ℕ) :
    fisherYates r arr ≠ Outcome.ub ∧ inPlaceFisherYates r arr ≠ Outcome.ub ∧ reservoirSample r arr k ≠ Outcome.ub := by
  refine ⟨?_, (defined_inPlace r arr).ne_ub, ?_⟩
  · obtain ⟨a, h, _⟩ := C05_copy_shuffle_is_permutation r arr
    rw [h]
    simp
  · unfold reservoirSample
    refine (Defined.bind (Q := fun _ => True) (Defined.assert _) fun _ _ => ?_).ne_ub
    generalize arr.drop k = pool
    generalize arr.take k = res
    have : ∀ (pool : List α) (seen t : ℕ) (res : List α), Defined (fun _ => True) (reservoirLoop r k pool seen t res) := by
      intro pool
      induction pool with
      | nil => intro _ _ _; trivial
      | cons p pool ih =>
        intro seen t res
        unfold reservoirLoop
        refine Defined.bind (Defined.genRange _ _) fun x _ => ?_
        split
        · exact Defined.bind (Defined.setAt _ _ _) fun _ _ => ih _ _ _
        · exact ih _ _ _
    exact this _ _ _ _

/-! ### Nearest neighbours -/

/-- **C125 (brute force).** No search by brute force reaches undefined behaviour: any data, any query, any number of neighbours. -/
theorem C125_brute_force (data : Option (Mat F)) (point : List F) (k : ℕ) : bruteSearch data point k ≠ Outcome.ub :=
  (defined_bruteSearch data point k).ne_ub

/-- **C125 (building a tree).** Building a kd-tree or a ball tree, once it ends, has not reached undefined behaviour. -/
theorem C125_tree_build (X : Mat F) (hX : X.WF) (fuel : ℕ) :
    (∀ t0 : BinaryTree F (List F × List F), treeBuild kdKind fuel t0 X ≠ some Outcome.ub) ∧
      ∀ t0 : BinaryTree F (List F × F), treeBuild ballKind fuel t0 X ≠ some Outcome.ub :=
  ⟨fun t0 h => (defined_treeBuild kdKind kdKind_ne_ub hX fuel t0 _ h).ne_ub rfl,
    fun t0 h => (defined_treeBuild ballKind ballKind_ne_ub hX fuel t0 _ h).ne_ub rfl⟩

/-- **C125 (searching a tree).** A search of a built tree for at least one neighbour does not reach undefined behaviour if the query is as
wide as the data. -/
theorem C125_tree_search (X : Mat F) (hX : X.WF) (fuel : ℕ) (point : List F) (hp : X.cols ≤ point.length) (k : ℕ) (hk : 1 ≤ k) :
    (∀ t0 t : BinaryTree F (List F × List F), treeBuild kdKind fuel t0 X = some (ok t) → treeSearch kdKind t point k ≠ Outcome.ub) ∧
      ∀ t0 t : BinaryTree F (List F × F), treeBuild ballKind fuel t0 X = some (ok t) → treeSearch ballKind t point k ≠ Outcome.ub := by
  constructor
  · intro t0 t h
    obtain ⟨root, rfl, hd⟩ := defined_treeBuild kdKind kdKind_ne_ub hX fuel t0 _ h
    exact (defined_treeSearch kdKind _ X root point hk (DimsBelow_mono hp _ hd)).ne_ub
  · intro t0 t h
    obtain ⟨root, rfl, hd⟩ := defined_treeBuild ballKind ballKind_ne_ub hX fuel t0 _ h
    exact (defined_treeSearch ballKind _ X root point hk (DimsBelow_mono hp _ hd)).ne_ub

theorem searchLeaf_short {B : Type} (data : Mat F) (point : List F) (k : ℕ) : ∀ (n : Node F B) (q : List (Node F B)), RunsShort point n →
    searchLeaf data point k n q = Outcome.ub
  | .leaf _, _, h => h.elim
  | .branch dim split b l r, q, h => by
    unfold searchLeaf
    unfold RunsShort at h
    cases hp : point[dim]? with
    | none => rfl
    | some p =>
      rw [hp] at h
      simp only at h ⊢
      split at h
      · rename_i hlt; rw [if_pos hlt]; exact searchLeaf_short data point k l _ h
      · rename_i hlt; rw [if_neg hlt]; exact searchLeaf_short data point k r _ h

theorem getDistances_valid (data : Mat F) (point : List F) (ids : List ℕ) (hne : ids ≠ []) (h : ∀ i ∈ ids, i < data.rows.length) :
    ∃ ds, getDistances data point ids = ok ds ∧ ds.length = ids.length := by
  have hm : ∀ l : List ℕ, (∀ i ∈ l, i < data.rows.length) →
      ∃ ds, (l.mapM fun id => do let row ← getAt data.rows id; ok (knnDist point row)) = ok ds ∧ ds.length = l.length := by
    intro l
    induction l with
    | nil => intro _; exact ⟨[], rfl, rfl⟩
    | cons a l ih =>
      intro h
      have ha := h a List.mem_cons_self
      obtain ⟨ds, e, hl⟩ := ih fun i hi => h i (List.mem_cons_of_mem _ hi)
      refine ⟨knnDist point data.rows[a] :: ds, ?_, by simp [hl]⟩
      rw [List.mapM_cons, e]
      unfold getAt
      rw [List.getElem?_eq_getElem ha]
      rfl
  obtain ⟨ds, e, hl⟩ := hm ids h
  refine ⟨ds, ?_, hl⟩
  unfold getDistances
  have : (!ids.isEmpty) = true := by cases ids <;> simp_all
  rw [this, assert_true, ok_bind, e]

/-- The leaves of a tree are non-empty and hold rows of the data. -/
def LeavesIn {B : Type} (n : ℕ) (t : Node F B) : Prop := (∀ c ∈ t.leaves, c ≠ []) ∧ ∀ i ∈ t.rows, i < n

theorem LeavesIn.left {B : Type} {n dim : ℕ} {split : F} {b : B} {l r : Node F B} (h : LeavesIn n (.branch dim split b l r)) : LeavesIn n l :=
  ⟨fun c hc => h.1 c (by simp [Node.leaves, hc]), fun i hi => h.2 i (by simp [Node.rows, hi])⟩

theorem LeavesIn.right {B : Type} {n dim : ℕ} {split : F} {b : B} {l r : Node F B} (h : LeavesIn n (.branch dim split b l r)) : LeavesIn n r :=
  ⟨fun c hc => h.1 c (by simp [Node.leaves, hc]), fun i hi => h.2 i (by simp [Node.rows, hi])⟩

theorem searchLeaf_long {B : Type} (hnan : ∀ a : F, Scalar.isNaN a = false) (data : Mat F) (point : List F) (k : ℕ) :
    ∀ (n : Node F B) (q : List (Node F B)), LeavesIn data.rows.length n → (∀ m ∈ q, LeavesIn data.rows.length m) → ¬ RunsShort point n →
      ∃ ps q', searchLeaf data point k n q = ok (ps, q') ∧ (k = 0 → ps = []) ∧ (1 ≤ k → 1 ≤ ps.length ∧ ps.length ≤ k) ∧
        (∀ m ∈ q', LeavesIn data.rows.length m) ∧ (q' = [] ↔ q = [] ∧ ¬ IsSplit n)
  | .leaf c, q, hn, hq, _ => by
    obtain ⟨ds, e, hl⟩ := getDistances_valid data point c (hn.1 c (by simp [Node.leaves])) fun i hi => hn.2 i (by simpa [Node.rows] using hi)
    have hc : 1 ≤ c.length := List.length_pos_iff.mpr (hn.1 c (by simp [Node.leaves]))
    refine ⟨((c.zip ds).insertionSort pairLe).take k, q, ?_, ?_, ?_, hq, by simp [IsSplit]⟩
    · unfold searchLeaf
      rw [e, ok_bind]
      unfold knearestNew
      rw [if_neg (by simp [hnan])]
      rfl
    · rintro rfl; simp
    · intro hk
      simp [hl]
      omega
  | .branch dim split b l r, q, hn, hq, hs => by
    unfold searchLeaf
    unfold RunsShort at hs
    cases hp : point[dim]? with
    | none => rw [hp] at hs; exact absurd trivial hs
    | some p =>
      rw [hp] at hs
      simp only at hs ⊢
      have hq' : ∀ x, LeavesIn data.rows.length x → ∀ m ∈ q ++ [x], LeavesIn data.rows.length m := by
        intro x hx m hm
        rcases List.mem_append.mp hm with hm | hm
        · exact hq m hm
        · rw [List.mem_singleton] at hm; rw [hm]; exact hx
      split at hs
      · rename_i hlt
        rw [if_pos hlt]
        obtain ⟨ps, q', h1, h2, h3, h4, h5⟩ := searchLeaf_long hnan data point k l (q ++ [r]) hn.left (hq' r hn.right) hs
        exact ⟨ps, q', h1, h2, h3, h4, by rw [h5]; simp [IsSplit]⟩
      · rename_i hlt
        rw [if_neg hlt]
        obtain ⟨ps, q', h1, h2, h3, h4, h5⟩ := searchLeaf_long hnan data point k r (q ++ [l]) hn.right (hq' l hn.left) hs
        exact ⟨ps, q', h1, h2, h3, h4, by rw [h5]; simp [IsSplit]⟩

theorem searchQueue_zero {B : Type} (K : SplitKind F B) (data : Mat F) (point : List F) (n : Node F B) (q : List (Node F B))
    (h : LeavesIn data.rows.length n) : searchQueue K data point 0 (n :: q) [] = Outcome.ub := by
  cases n with
  | leaf c =>
    obtain ⟨ds, e, _⟩ := getDistances_valid data point c (h.1 c (by simp [Node.leaves])) fun i hi => h.2 i (by simpa [Node.rows] using hi)
    unfold searchQueue
    rw [e]
    rfl
  | branch dim split b l r =>
    unfold searchQueue
    rfl

/-- Exactly which searches reach undefined behaviour, for numbers without NaN. -/
theorem treeSearch_ub_iff {B : Type} (hnan : ∀ a : F, Scalar.isNaN a = false) (K : SplitKind F B) (leafsize : ℕ) (data : Mat F) (root : Node F B)
    (h : LeavesIn data.rows.length root) (point : List F) (k : ℕ) :
    treeSearch K ⟨leafsize, some data, some root⟩ point k = Outcome.ub ↔ RunsShort point root ∨ k = 0 ∧ IsSplit root := by
  unfold treeSearch
  dsimp only
  by_cases hs : RunsShort point root
  · rw [searchLeaf_short data point k root [] hs]
    simp [hs]
  · obtain ⟨ps, q', h1, h2, h3, h4, h5⟩ := searchLeaf_long hnan data point k root [] h (by simp) hs
    rw [h1]
    simp only [ok_bind, hs, false_or]
    rcases Nat.eq_zero_or_pos k with hk | hk
    · subst hk
      rw [h2 rfl]
      cases q' with
      | nil =>
        have hns := (h5.mp rfl).2
        unfold searchQueue
        simp [hns]
      | cons n q' =>
        rw [searchQueue_zero K data point n q' (h4 n List.mem_cons_self)]
        have : IsSplit root := by
          by_contra hc
          have := h5.mpr ⟨rfl, hc⟩
          simp at this
        simp [this]
    · have hd := h3 hk
      have := (defined_searchQueue K data point k q' ps hd.1 hd.2).then_ok knearestResults
      constructor
      · intro hu; exact absurd hu this
      · intro hu; omega

/-- **C125 (searching a tree, exactly).** A search of a tree built on at least one row and one column reaches undefined behaviour exactly
when, on the way down, the query turns out too short for a split, or when no neighbour at all is asked for and the tree has a split. The
claim that safe calls do not reach it is false: neither the width of the query nor the number of neighbours is checked. -/
theorem C125_tree_search_violation (X : Mat ℝ) (hX : X.WF) (hc : 0 < X.cols) (hn : X.rows ≠ []) (fuel : ℕ) (point : List ℝ) (k : ℕ) :
    (∀ (t0 t : BinaryTree ℝ (List ℝ × List ℝ)), treeBuild kdKind fuel t0 X = some (ok t) → ∃ root, t.root = some root ∧
      (treeSearch kdKind t point k = Outcome.ub ↔ RunsShort point root ∨ k = 0 ∧ IsSplit root)) ∧
    ∀ (t0 t : BinaryTree ℝ (List ℝ × ℝ)), treeBuild ballKind fuel t0 X = some (ok t) → ∃ root, t.root = some root ∧
      (treeSearch ballKind t point k = Outcome.ub ↔ RunsShort point root ∨ k = 0 ∧ IsSplit root) := by
  constructor
  · intro t0 t h
    obtain ⟨root, h1, h2⟩ := treeBuild_spec kdKind (KdIn X) hX hc hn t0 (fun rem a b _ _ h3 h4 h5 => kd_mkBound rem a b h3 h4 h5) fuel _ h
    cases h1
    exact ⟨root, rfl, treeSearch_ub_iff real_isNaN kdKind _ X root ⟨h2.leafNe, fun i hi => by
      have := h2.perm.mem_iff.1 hi; simpa using this⟩ point k⟩
  · intro t0 t h
    obtain ⟨root, h1, h2⟩ := treeBuild_spec ballKind (fun _ _ => True) hX hc hn t0 (fun rem a b _ h2 _ _ _ => by
      obtain ⟨b, hb, _⟩ := ball_mkBound hX rem a b h2
      exact ⟨b, hb, fun _ _ => trivial⟩) fuel _ h
    cases h1
    exact ⟨root, rfl, treeSearch_ub_iff real_isNaN ballKind _ X root ⟨h2.leafNe, fun i hi => by
      have := h2.perm.mem_iff.1 hi; simpa using this⟩ point k⟩

theorem defined_knnVote (target idx : List ℕ) : Defined (fun _ => True) (knnVote target idx) := by
  unfold knnVote
  refine Defined.bind (Defined.mapM (Q := fun _ => True) fun i _ => (Defined.getAt _ _).mono fun _ _ => trivial) fun _ _ => ?_
  exact Defined.bind (Defined.argmaxBy _ _) fun _ _ => (Defined.getAt _ _).mono fun _ _ => trivial

theorem defined_knnPredict {S : Type} (R : Searcher F S) (c : KNNClassifier S) (Z : Mat F) (h : ∀ row ∈ Z.rows, R.search c.searcher row c.k ≠ Outcome.ub) :
    Defined (fun _ => True) (knnPredict R c Z) := by
  unfold knnPredict
  split
  · trivial
  · exact (Defined.mapM (Q := fun _ => True) fun row hr => Defined.bind (Defined.of_ne (h row hr)) fun _ _ => defined_knnVote _ _).mono
      fun _ _ => trivial

/-- **C125 (classifier by brute force).** Neither training nor prediction reaches undefined behaviour. -/
theorem C125_knn_brute (c : KNNClassifier (Option (Mat F))) (X Z : Mat F) (y : List ℕ) :
    (knnTrain bruteSearcher c X y).2 ≠ Outcome.ub ∧ knnPredict bruteSearcher c Z ≠ Outcome.ub := by
  refine ⟨?_, (defined_knnPredict _ _ _ fun row _ => C125_brute_force _ _ _).ne_ub⟩
  unfold knnTrain
  split
  · simp
  · split
    · simp
    · simp [bruteSearcher, bruteBuild]

/-- **C125 (classifier with a kd-tree).** After successful training, prediction of at least one neighbour for data at least as wide as the
training data does not reach undefined behaviour. -/
theorem C125_knn_kd (c c' : KNNClassifier (BinaryTree F (List F × List F))) (fuel : ℕ) (X Z : Mat F) (hX : X.WF) (hZ : Z.WF) (y : List ℕ)
    (hk : 1 ≤ c.k) (hw : X.cols ≤ Z.cols) (ht : knnTrain (kdSearcher fuel) c X y = (c', ok ())) :
    knnPredict (kdSearcher fuel) c' Z ≠ Outcome.ub := by
  unfold knnTrain at ht
  split at ht
  · cases ht
  · split at ht
    · cases ht
    · simp only [kdSearcher] at ht
      cases e : treeBuild kdKind fuel c.searcher X with
      | none => rw [e] at ht; cases ht
      | some o =>
        rw [e] at ht
        cases o with
        | ok t =>
          cases ht
          refine (defined_knnPredict _ _ _ fun row hr => ?_).ne_ub
          exact (C125_tree_search X hX fuel row (by rw [hZ row hr]; exact hw) c.k hk).1 _ _ e
        | err _ => cases ht
        | panic => cases ht
        | ub => cases ht

/-- **C125 (exception).** A classifier for no neighbours trains, and with a kd-tree that has a split its first prediction reaches undefined
behaviour: three points on a line are enough. -/
theorem C125_knn_violation : ∃ c' : KNNClassifier (BinaryTree ℝ (List ℝ × List ℝ)),
    knnTrain (kdSearcher 2) ⟨0, ⟨3, none, none⟩, none⟩ lineData [7, 8, 9] = (c', ok ()) ∧
      ∀ (Z : Mat ℝ), Z.rows ≠ [] → knnPredict (kdSearcher 2) c' Z = Outcome.ub := by
  have e := lineTree kdKind _ rfl
  have hT : ∀ t, treeBuild (kdKind (F := ℝ)) 2 ⟨3, none, none⟩ lineData = some (ok t) →
      knnTrain (kdSearcher 2) ⟨0, ⟨3, none, none⟩, none⟩ lineData [7, 8, 9] = (⟨0, t, some [7, 8, 9]⟩, ok ()) := by
    intro t ht
    unfold knnTrain
    rw [if_neg (by simp [lineData]), if_neg (by simp)]
    simp only [kdSearcher, ht, Option.getD_some]
  refine ⟨_, hT _ e, ?_⟩
  intro Z hZ
  obtain ⟨root, h1, h2⟩ := (C125_tree_search_violation lineData (by unfold Mat.WF lineData; simp) (by simp [lineData]) (by simp [lineData]) 2
    (Z.rows.head hZ) 0).1 _ _ e
  cases h1
  have h3 := h2.mpr (Or.inr ⟨rfl, trivial⟩)
  unfold knnPredict
  obtain ⟨r, rs, hr⟩ := List.exists_cons_of_ne_nil hZ
  simp only [hr, List.head_cons] at h3
  simp only [hr, List.mapM_cons]
  have : (kdSearcher (F := ℝ) 2).search = treeSearch kdKind := rfl
  rw [this, h3]
  rfl

/-- The same tree and a query without coordinates: the search reads beyond the query's end. -/
example : ∃ t, treeBuild (kdKind (F := ℝ)) 2 ⟨3, none, none⟩ lineData = some (ok t) ∧ (∀ k, treeSearch kdKind t [] k = Outcome.ub) ∧
    (∀ k, 1 ≤ k → ∀ x, treeSearch kdKind t [x] k ≠ Outcome.ub) := by
  have e := lineTree kdKind _ rfl
  have hw : lineData.WF := by unfold Mat.WF lineData; simp
  refine ⟨_, e, fun k => ?_, fun k hk x => ?_⟩
  · obtain ⟨root, h1, h2⟩ := (C125_tree_search_violation lineData hw (by simp [lineData]) (by simp [lineData]) 2 [] k).1 _ _ e
    cases h1
    exact h2.mpr (Or.inl trivial)
  · exact (C125_tree_search lineData hw 2 [x] (by simp [lineData]) k hk).1 _ _ e

/-! ### DBSCAN -/

/-- **C125 (DBSCAN).** Training that ends has not reached undefined behaviour, and no prediction does, whatever the model and the data. -/
theorem C125_dbscan (m : Dbscan F) (X : Mat F) (fuel : ℕ) : dbTrain fuel m X ≠ some Outcome.ub ∧ dbPredict m X ≠ Outcome.ub := by
  constructor
  · intro h
    unfold dbTrain at h
    dsimp only at h
    cases e : dbTrainLoop m.eps m.minPoints X fuel (List.range X.rows.length) 0
        ⟨List.replicate X.rows.length false, List.replicate X.rows.length none⟩ with
    | none => rw [e] at h; cases h
    | some o =>
      have hd := defined_dbTrainLoop m.eps m.minPoints X fuel _ 0 _ o (by simp) e
      rw [e] at h
      cases o with
      | ok _ => cases h
      | err _ => cases h
      | panic => cases h
      | ub => exact hd
  · unfold dbPredict
    split
    · split
      · refine (Defined.mapM (Q := fun _ => True) fun p _ => ?_).ne_ub
        unfold dbClassify
        refine Defined.bind (Defined.mapM (Q := fun _ => True) fun c _ => defined_dbDist _ _) fun ds _ => ?_
        have ha := Defined.argminBy Scalar.lt ds
        cases e : argminBy Scalar.lt ds with
        | ok r => exact Defined.ite (fun _ => (Defined.getAt _ _).mono fun _ _ => trivial) fun _ => trivial
        | err _ => trivial
        | panic => trivial
        | ub => rw [e] at ha; exact ha.elim
      · simp
    · simp

/-! ### k-means -/

/-- **C125 (k-means).** Training from any of the three initialisers and prediction never reach undefined behaviour, whatever the data, the
number of clusters and the random numbers. -/
theorem C125_kmeans (m : KMeans F) (X : Mat F) (raws : List ℕ) (raw : ℕ) (us : List F) :
    (∀ o, forgyInit raws m.k X = some o → (kmTrain (fun _ _ => o) m X).2 ≠ Outcome.ub) ∧
      (kmTrain (partitionInit raws) m X).2 ≠ Outcome.ub ∧ (kmTrain (kppInit raw us) m X).2 ≠ Outcome.ub ∧ kmPredict m X ≠ Outcome.ub := by
  have ht : ∀ init : ℕ → Mat F → Outcome (Mat F), init m.k X ≠ Outcome.ub → (kmTrain init m X).2 ≠ Outcome.ub := by
    intro init hi
    have h1 : Defined (fun _ => True) (kmInit init m.k X) := by
      unfold kmInit
      exact Defined.ite (fun _ => trivial) fun _ => Defined.bind (Defined.of_ne hi) fun c _ =>
        Defined.ite (fun _ => trivial) fun _ => Defined.ite (fun _ => trivial) fun _ => trivial
    unfold kmTrain
    cases e : kmInit init m.k X with
    | ok c0 =>
      dsimp only
      have h2 := defined_kmLoop m.k X m.iters Scalar.zero c0
      cases e2 : kmLoop m.k X m.iters Scalar.zero c0 with
      | ok c => simp
      | err _ => simp
      | panic => simp
      | ub => rw [e2] at h2; exact h2.elim
    | err _ => simp
    | panic => simp
    | ub => rw [e] at h1; exact h1.elim
  refine ⟨fun o ho => ht _ ?_, ht _ (defined_partitionInit _ _ _).ne_ub, ht _ (defined_kppInit _ _ _ _).ne_ub, ?_⟩
  · unfold forgyInit at ho
    cases e : forgyLoop m.k X.rows.length raws [] with
    | none => rw [e] at ho; cases ho
    | some o' =>
      have hd := defined_forgyLoop _ _ _ _ _ e
      rw [e] at ho
      cases o' with
      | ok c => cases ho; exact (Defined.selectRows _ _).ne_ub
      | err _ => cases ho; simp
      | panic => cases ho; simp
      | ub => exact hd.elim
  · unfold kmPredict
    cases m.centroids with
    | none => simp
    | some c => exact (defined_findClosest c X).then_ok _

/-! ### Networks -/

/-- **C125 (networks).** A network made with the constructors, layers and optimisers of the library does not reach undefined behaviour:
not in prediction, not when its weights are looked at, and not in training with any of the optimisers, whatever the data. The layers need
not fit together, nor the data the layers. -/
theorem C125_net {net : BaseNet F} (h : NetMade net) : (∀ X, net.forwardProp X ≠ Outcome.ub) ∧ (∀ i, net.netWeights i ≠ Outcome.ub) ∧
    ∀ (o : LibOpt F) (X Y : Mat F), net.train o.run X Y ≠ Outcome.ub := by
  have hw := weights_made h
  refine ⟨fun X => (defined_forwardProp net hw X).ne_ub, fun i => (defined_netWeights net hw i).ne_ub, fun o X Y => ?_⟩
  exact (defined_libOpt o (g := net.computeGrad) (d := totalParams net.layers)
    (fun X Y w hw => (defined_computeGrad net w hw X Y).ne_ub) _ hw X Y).then_ok _

/-- **C125 (exception).** An optimiser is a trait that users implement. One that returns too few parameters makes training succeed and every
later prediction read beyond the end of the weights; one that asks for the gradient at too few parameters does so at once. -/
theorem C125_net_violation (net : BaseNet F) (l : NetLayer F) (ls : List (NetLayer F)) (hl : net.layers = l :: ls) (w : List F)
    (hw : w.length < l.numParams) :
    (∀ X Y : Mat F, ∃ net', net.train (fun _ _ _ _ => ok w) X Y = ok net' ∧ ∀ Z, net'.forwardProp Z = Outcome.ub) ∧
      ∀ X Y : Mat F, net.train (fun g _ X Y => do let r ← g w X Y; ok r.2) X Y = Outcome.ub := by
  have hs : sliceAt w 0 l.paramShape = Outcome.ub := by
    unfold sliceAt
    rw [if_neg]
    show ¬ (0 + l.numParams ≤ w.length)
    omega
  refine ⟨fun X Y => ⟨⟨net.layers, w, net.criterion⟩, rfl, fun Z => ?_⟩, fun X Y => ?_⟩
  · unfold BaseNet.forwardProp
    simp only [hl, hs, ub_bind]
  · have hg : net.computeGrad w X Y = Outcome.ub := by
      unfold BaseNet.computeGrad
      rw [hl, netForward.eq_def]
      simp only [hs, ub_bind]
    unfold BaseNet.train
    simp only [hg, ub_bind]

/-- Made networks exist, and the exception applies to them. -/
example (r : ℕ → ℝ) : NetMade ((BaseNet.new Criterion.bceDefault).add (NetLayer.new 2 1) r) ∧ ∀ X Y : Mat ℝ,
    ∃ net', ((BaseNet.new Criterion.bceDefault).add (NetLayer.new 2 1) r).train (fun _ _ _ _ => ok []) X Y = ok net' ∧
      ∀ Z, net'.forwardProp Z = Outcome.ub :=
  ⟨.add _ _ _ (.new _), (C125_net_violation _ (NetLayer.new 2 1) [] rfl [] (by simp [NetLayer.new, NetLayer.numParams, NetLayer.paramShape])).1⟩

/-! ### Principal components -/

/-- The fields that the unchecked reads rely on agree. -/
def PcaFits (m : Pca F) : Prop := ∀ f c, m.nFeatures = some f → m.centers = some c → c.length = f

theorem defined_firstCols (c : ℕ) (v : Mat F) : Defined (fun _ => True) (firstCols c v) := Defined.ite (fun _ => trivial) fun _ => trivial

theorem selectComponents_noErr (n : Option ℕ) (v : Mat F) (k : ErrorKind) : selectComponents n v ≠ Outcome.err k := by
  unfold selectComponents firstCols
  cases n with
  | none => simp
  | some c => dsimp only; split <;> simp

theorem pca_predict_defined {m : Pca F} (h : PcaFits m) (X : Mat F) : Defined (fun _ => True) (m.predict X) := by
  unfold Pca.predict
  cases hf : m.nFeatures with
  | none => trivial
  | some f =>
    refine Defined.ite (fun _ => trivial) fun hne => ?_
    cases m.components with
    | none => trivial
    | some comp =>
      have hp : ∀ d, Defined (fun _ => True) (m.project comp d) := fun d => Defined.ite (fun _ => Defined.mul _ _) fun _ => Defined.mul _ _
      refine Defined.ite (fun _ => ?_) fun _ => hp X
      cases hc : m.centers with
      | none => trivial
      | some c =>
        refine Defined.bind (P := fun _ => True) ?_ fun d _ => hp d
        unfold centering
        rw [if_neg]
        · trivial
        · have := h f c hf hc
          omega

theorem prepare_total (m : Pca F) (X : Mat F) : ∃ d, m.prepare X = ok (d, if m.center then some X.meanRow else m.centers) := by
  unfold Pca.prepare
  split
  · have : centering X X.meanRow = ok ⟨X.cols, X.rows.map fun r => List.zipWith Scalar.sub r X.meanRow⟩ := by
      unfold centering
      rw [if_neg (by rw [meanRow_length]; omega)]
    dsimp only
    rw [this]
    exact ⟨_, rfl⟩
  · exact ⟨_, rfl⟩

/-- One `train` call that does not panic keeps the model's fields in agreement; no `train` call reaches undefined behaviour. -/
theorem pca_train_fits (svd : Mat F → Outcome (Mat F × Mat F × Mat F)) (hs : ∀ M, svd M ≠ Outcome.ub) {m : Pca F}
    (h : PcaFits m) (hc : m.center = false → m.centers = none) (X : Mat F) :
    (m.trainUnwind svd X).2 ≠ Outcome.ub ∧ ((m.trainUnwind svd X).2 ≠ Outcome.panic →
      PcaFits (m.trainUnwind svd X).1 ∧ ((m.trainUnwind svd X).1.center = false → (m.trainUnwind svd X).1.centers = none)) := by
  unfold Pca.trainUnwind
  split
  · exact ⟨by simp, fun _ => ⟨h, hc⟩⟩
  · obtain ⟨d, hd⟩ := prepare_total m X
    rw [hd]
    dsimp only
    have he := Defined.expectOk (Defined.of_ne (hs d))
    cases e : expectOk (svd d) with
    | ok t =>
      dsimp only
      have hsel : Defined (fun _ => True) (selectComponents m.n (if decide (X.rows.length < X.cols) then t.2.2.transpose else t.2.2)) := by
        unfold selectComponents
        cases m.n with
        | none => trivial
        | some c => exact defined_firstCols _ _
      cases e2 : selectComponents m.n (if decide (X.rows.length < X.cols) then t.2.2.transpose else t.2.2) with
      | ok comps =>
        refine ⟨by simp, fun _ => ⟨?_, ?_⟩⟩
        · intro f c hf hcc
          cases hf
          simp only at hcc
          split at hcc
          · cases hcc; exact meanRow_length X
          · rename_i hcen
            rw [hc (by simpa using hcen)] at hcc
            cases hcc
        · intro hcen
          simp only at hcen ⊢
          rw [hcen, hc hcen]
          rfl
      | err k => exact absurd e2 (selectComponents_noErr _ _ _)
      | panic => exact ⟨by simp, fun hn => absurd rfl hn⟩
      | ub => rw [e2] at hsel; exact hsel.elim
    | err k =>
      exfalso
      cases e3 : svd d <;> simp [e3, expectOk] at e
    | panic => exact ⟨by simp, fun hn => absurd rfl hn⟩
    | ub => rw [e] at he; exact he.elim

/-- The models reachable from a new one by `train` calls none of which panicked. -/
inductive PcaCalm (svd : Mat F → Outcome (Mat F × Mat F × Mat F)) : Pca F → Prop
  | new (n : ℕ) (center : Bool) : PcaCalm svd (Pca.new n center)
  | default : PcaCalm svd Pca.default
  | train (m : Pca F) (X : Mat F) : PcaCalm svd m → (m.trainUnwind svd X).2 ≠ Outcome.panic → PcaCalm svd (m.trainUnwind svd X).1

theorem pcaCalm_fits {svd : Mat F → Outcome (Mat F × Mat F × Mat F)} (hs : ∀ M, svd M ≠ Outcome.ub) {m : Pca F} (h : PcaCalm svd m) :
    PcaFits m ∧ (m.center = false → m.centers = none) := by
  induction h with
  | new n c => exact ⟨fun f c hf => (by cases hf), fun _ => rfl⟩
  | default => exact ⟨fun f c hf => (by cases hf), fun _ => rfl⟩
  | train m X _ hp ih => exact (pca_train_fits svd hs ih.1 ih.2 X).2 hp

/-- **C125 (principal components).** As long as no `train` call has panicked, neither training nor prediction reaches undefined behaviour,
whatever the data of the calls, failed ones included, if the decomposition does not. -/
theorem C125_pca {svd : Mat F → Outcome (Mat F × Mat F × Mat F)} (hs : ∀ M, svd M ≠ Outcome.ub) {m : Pca F} (h : PcaCalm svd m) (X : Mat F) :
    (m.trainUnwind svd X).2 ≠ Outcome.ub ∧ m.predict X ≠ Outcome.ub := by
  obtain ⟨h1, h2⟩ := pcaCalm_fits hs h
  exact ⟨(pca_train_fits svd hs h1 h2 X).1, (pca_predict_defined h1 X).ne_ub⟩

/-- The model of a call that did not panic is the one that the other properties speak of. -/
theorem C125_pca_same (svd : Mat F → Outcome (Mat F × Mat F × Mat F)) (m : Pca F) (X : Mat F) (hp : (m.trainUnwind svd X).2 ≠ Outcome.panic)
    (hu : (m.trainUnwind svd X).2 ≠ Outcome.ub) : m.trainCall svd X = m.trainUnwind svd X := by
  unfold Pca.trainCall Pca.train
  unfold Pca.trainUnwind at hp hu ⊢
  split
  · rfl
  · rename_i ht
    rw [if_neg ht] at hp hu
    obtain ⟨d, hd⟩ := prepare_total m X
    rw [hd] at hp hu ⊢
    dsimp only [ok_bind] at hp hu ⊢
    cases e : expectOk (svd d) with
    | ok t =>
      rw [e] at hp hu
      obtain ⟨a, b, v⟩ := t
      dsimp only [ok_bind] at hp hu ⊢
      cases e2 : selectComponents m.n (if decide (X.rows.length < X.cols) then v.transpose else v) with
      | ok comps => rfl
      | err k => exact absurd e2 (selectComponents_noErr _ _ _)
      | panic => rw [e2] at hp; exact absurd rfl hp
      | ub => rw [e2] at hu; exact absurd rfl hu
    | err k =>
      exfalso
      cases e3 : svd d <;> simp [e3, expectOk] at e
    | panic => rw [e] at hp; exact absurd rfl hp
    | ub => rw [e] at hu; exact absurd rfl hu

/-- **C125 (exception).** A caught panic is enough. Let a centring model without a number of components be trained, and then trained again on
narrower data whose decomposition fails: the second call panics, and afterwards every prediction for data of the first width reads beyond
the end of the new centers. -/
theorem C125_pca_violation (svd : Mat F → Outcome (Mat F × Mat F × Mat F)) (X Z : Mat F) (hlt : Z.cols < X.cols)
    (hX : (Pca.default.trainUnwind svd X).2 = ok ()) (hZ : ∀ d, Pca.default.prepare Z = ok d → expectOk (svd d.1) = Outcome.panic) (Q : Mat F)
    (hQ : Q.cols = X.cols) (hne : Q.rows ≠ []) :
    ((Pca.default.trainUnwind svd X).1.trainUnwind svd Z).2 = Outcome.panic ∧
      ((Pca.default.trainUnwind svd X).1.trainUnwind svd Z).1.predict Q = Outcome.ub := by
  obtain ⟨d, hd⟩ := prepare_total Pca.default X
  obtain ⟨d', hd'⟩ := prepare_total (Pca.default : Pca F) Z
  have h1 : ∃ comps inv, Pca.default.trainUnwind svd X = (⟨none, true, some X.cols, some X.meanRow, some comps, inv⟩, ok ()) := by
    unfold Pca.trainUnwind at hX ⊢
    rw [if_neg (by simp [tooManyComponents, Pca.default])] at hX ⊢
    rw [hd] at hX ⊢
    dsimp only at hX ⊢
    cases e : expectOk (svd d) with
    | ok t =>
      rw [e] at hX
      dsimp only at hX ⊢
      exact ⟨_, _, rfl⟩
    | err k => rw [e] at hX; cases hX
    | panic => rw [e] at hX; cases hX
    | ub => rw [e] at hX; cases hX
  obtain ⟨comps, inv, h1⟩ := h1
  rw [h1]
  have h2 : (⟨none, true, some X.cols, some X.meanRow, some comps, inv⟩ : Pca F).trainUnwind svd Z =
      (⟨none, true, some X.cols, some Z.meanRow, some comps, inv⟩, Outcome.panic) := by
    have hp : (⟨none, true, some X.cols, some X.meanRow, some comps, inv⟩ : Pca F).prepare Z = Pca.default.prepare Z := rfl
    have he := hZ _ hd'
    dsimp only at he
    unfold Pca.trainUnwind
    rw [if_neg (by simp [tooManyComponents]), hp, hd']
    dsimp only
    rw [he]
    rfl
  rw [h2]
  refine ⟨rfl, ?_⟩
  unfold Pca.predict
  simp only [hQ, ne_eq, not_true_eq_false, if_false, if_true]
  unfold centering
  rw [if_pos ⟨by rw [meanRow_length]; omega, hne⟩]
  rfl

/-- The hypotheses of the exception can be met: a decomposition that finds its answer on data with three columns and fails otherwise. -/
example : ∃ svd : Mat ℝ → Outcome (Mat ℝ × Mat ℝ × Mat ℝ), (∀ M, svd M ≠ Outcome.ub) ∧
    ∃ m : Pca ℝ, (∀ Q : Mat ℝ, Q.cols = 3 → Q.rows ≠ [] → m.predict Q = Outcome.ub) := by
  let svd : Mat ℝ → Outcome (Mat ℝ × Mat ℝ × Mat ℝ) := fun M => if M.cols = 3 then ok (M, M, M) else err .LinearAlgebra
  refine ⟨svd, fun M => by simp only [svd]; split <;> simp, _, fun Q h1 h2 =>
    (C125_pca_violation svd ⟨3, [[1, 2, 3], [4, 5, 6], [7, 8, 10]]⟩ ⟨2, [[1, 2], [3, 4]]⟩ (by decide) ?_ ?_ Q h1 h2).2⟩
  · simp [Pca.trainUnwind, tooManyComponents, Pca.default, Pca.prepare, centering, svd, expectOk, selectComponents, Mat.meanRow, Mat.sumRows]
  · intro d hd
    obtain ⟨d', h⟩ := prepare_total (Pca.default : Pca ℝ) ⟨2, [[1, 2], [3, 4]]⟩
    have : d.1.cols = 2 := by
      simp [Pca.default, Pca.prepare, centering, Mat.meanRow, Mat.sumRows] at hd
      rw [← hd]
    simp [svd, this, expectOk]

end RM
