import Verif.Proofs.Work
import Verif.Props.KNNTree
import Verif.Props.Dbscan

/-! C130: how much work searches, clustering and kernel methods do. -/

namespace RM
open Outcome Scalar Spec
variable {F : Type} [Scalar F]

/-! ### The models with lists give the results of the models without -/

/-- C130: the search models that list the distances measured return what the searches return. -/
theorem C130_search_results {B S : Type} (K : SplitKind F B) (t : BinaryTree F B) (data : Option (Mat F)) (point : List F) (k : ℕ)
    (R : Searcher F S) (c : KNNClassifier S) (X : Mat F) :
    (treeSearchLog K t point k).out = treeSearch K t point k ∧ (bruteSearchLog data point k).out = bruteSearch data point k ∧
    (knnPredictLog R c X).out = knnPredict R c X := by
  refine ⟨?_, ?_, ?_⟩
  · unfold treeSearchLog treeSearch
    cases t.data with
    | none => rfl
    | some data => cases t.root with
      | none => rfl
      | some root => simp [searchLeafLog_out, searchQueueLog_out]
  · unfold bruteSearchLog bruteSearch
    cases data with
    | none => rfl
    | some data => simp [getDistancesLog_out]
  · unfold knnPredictLog knnPredict
    cases c.target with
    | none => rfl
    | some target => simp [Logged.out_mapM]

/-- C130: the training of DBSCAN that lists the neighbourhoods queried ends as training does. -/
theorem C130_dbscan_results (fuel : ℕ) (m : Dbscan F) (X : Mat F) :
    dbTrain fuel m X = (dbTrainLog fuel m X).map fun o => o >>= fun r => ok r.1 := by
  unfold dbTrain dbTrainLog
  simp only
  have h := (dbTrainLoopLog_spec m.eps m.minPoints X fuel (List.range X.rows.length) 0
    (⟨List.replicate X.rows.length false, List.replicate X.rows.length none⟩, [])).1
  simp only at h
  rw [h]
  cases dbTrainLoopLog m.eps m.minPoints X fuel (List.range X.rows.length) 0
    (⟨List.replicate X.rows.length false, List.replicate X.rows.length none⟩, []) with
  | none => rfl
  | some o => cases o <;> rfl

/-- C130: the kernel methods that list the calls of the kernel return what they return without. -/
theorem C130_kernel_results (lib : TriLib F) (g : Gp F) (m : Svm F) (draws : ℕ → ℕ) (X : Mat F) (y : List F) :
    (g.trainLog lib X y).out = g.train lib X y ∧ (g.predictLog X).out = g.predict X ∧
    (g.posteriorLog lib X).out = g.posterior lib X ∧ (m.trainLog draws X y).out = m.train draws X y ∧
    (m.predictLog X).out = m.predict X := by
  refine ⟨?_, ?_, ?_, ?_, ?_⟩
  · simp [Gp.trainLog, Gp.train, Logged.mapOut, kerMatLog_out]
  · unfold Gp.predictLog Gp.predict
    cases g.alpha with
    | none => rfl
    | some a => cases g.trainData with
      | none => rfl
      | some d => simp [kerMatLog_out]
  · unfold Gp.posteriorLog Gp.posterior
    cases g.trainMat with
    | none => rfl
    | some tm => cases g.alpha with
      | none => rfl
      | some a => cases g.trainData with
        | none => rfl
        | some d => simp [kerMatLog_out]
  · have hs : ∀ (full : Mat F) (row : List F), (kernelRowSumLog m.ker row full).out = kernelRowSum m.ker row full := by
      intro full row
      simp [kernelRowSumLog, kernelRowSum, Logged.out_foldlM]
    have ht : ∀ (full : Mat F) (a : List F) (t r : ℕ),
        (svmStepLog m.ker m.lambda full y a t r).out = svmStep m.ker m.lambda full y a t r := by
      intro full a t r
      unfold svmStepLog svmStep
      simp only [Logged.out_bind_eq, Logged.lift_out, hs]
      congr 1; funext i; congr 1; funext row; congr 1; funext s; congr 1; funext yi
      split <;> rfl
    simp [Svm.trainLog, Svm.train, Logged.out_foldlM, ht]
  · unfold Svm.predictLog Svm.predict
    simp only [Logged.out_bind_eq, Logged.lift_out]
    congr 1
    funext full
    cases m.alpha with
    | none => rfl
    | some a => cases m.trainInputs with
      | none => rfl
      | some ti => cases m.trainTargets with
        | none => rfl
        | some tt => simp [kerMatLog_out]

/-! ### Trees -/

theorem addLoop_subset {ps r : List (ℕ × F)} {x : ℕ × F} : ∀ {j : ℕ}, addLoop ps x j = ok r → ∀ p ∈ r, p = x ∨ p ∈ ps
  | 0, h, p, hp => by
    rw [addLoop] at h
    cases h
    simpa using hp
  | j + 1, h, p, hp => by
    rw [addLoop] at h
    split at h
    · cases h
    · split at h
      · cases h
        rcases List.eq_or_mem_of_mem_insertIdx hp with h | h
        · exact Or.inl h
        · exact Or.inr h
      · exact addLoop_subset h p hp

theorem knearestAdd_subset {k : ℕ} {ps r : List (ℕ × F)} {i : ℕ} {d e : F} (h : knearestAdd k ps i d = ok (r, e)) :
    ∀ p ∈ r, p = (i, d) ∨ p ∈ ps := by
  intro p hp
  unfold knearestAdd at h
  simp only at h
  split at h
  · cases h
  · split at h
    · split at h
      · cases h
      · cases h
        split at hp
        · rw [List.mem_append, List.mem_singleton] at hp
          exact hp.symm
        · exact Or.inr hp
    · obtain ⟨r', h1, h2⟩ := bind_eq_ok.1 h
      split at h2
      · cases h2
      · cases h2
        rcases addLoop_subset h1 p hp with h3 | h3
        · exact Or.inl h3
        · right
          split at h3
          · exact List.mem_of_mem_dropLast h3
          · exact h3

theorem offerAll_subset {k : ℕ} : ∀ {cands ps r : List (ℕ × F)} {cur : F}, offerAll k cands ps cur = ok r →
    ∀ p ∈ r, p ∈ cands ∨ p ∈ ps
  | [], ps, r, cur, h, p, hp => by
    rw [offerAll] at h
    cases h
    exact Or.inr hp
  | (i, d) :: rest, ps, r, cur, h, p, hp => by
    rw [offerAll] at h
    split at h
    · obtain ⟨⟨ps', cur'⟩, h1, h2⟩ := bind_eq_ok.1 h
      rcases offerAll_subset h2 p hp with h3 | h3
      · exact Or.inl (by simp [h3])
      · rcases knearestAdd_subset h1 p h3 with h4 | h4
        · exact Or.inl (by simp [h4])
        · exact Or.inr h4
    · rcases offerAll_subset h p hp with h3 | h3
      · exact Or.inl (by simp [h3])
      · exact Or.inr h3

theorem knearestNew_subset {k : ℕ} {ids : List ℕ} {ds : List F} {r : List (ℕ × F)} (h : knearestNew k ids ds = ok r) :
    ∀ p ∈ r, p.1 ∈ ids := by
  intro p hp
  unfold knearestNew at h
  simp only at h
  split at h
  · cases h
  · cases h
    have h1 := (List.mem_insertionSort _).1 (List.mem_of_mem_take hp)
    exact (List.of_mem_zip (a := p.1) (b := p.2) h1).1

theorem searchLeafLog_found {B : Type} (data : Mat F) (point : List F) (k : ℕ) : ∀ (t : Node F B) (queue : List (Node F B)) pairs queue',
    (searchLeafLog data point k t queue).out = ok (pairs, queue') → ∀ p ∈ pairs, p.1 ∈ (searchLeafLog data point k t queue).log
  | .leaf c, queue, pairs, queue', h, p, hp => by
    rw [searchLeafLog] at h ⊢
    obtain ⟨d, h1, h2, h3⟩ := Logged.log_bind_ok h
    obtain ⟨kn, h4, h5, h6⟩ := Logged.log_bind_ok h2
    simp only [Logged.pure_def, ok.injEq, Prod.mk.injEq] at h5
    rw [h3, h6, getDistancesLog_ok h1]
    rw [← h5.1] at hp
    simpa using knearestNew_subset h4 p hp
  | .branch dim split b l r, queue, pairs, queue', h, p, hp => by
    rw [searchLeafLog] at h ⊢
    cases hd : point[dim]? with
    | none => rw [hd] at h; cases h
    | some q =>
      rw [hd] at h
      simp only at h ⊢
      split
      · rename_i hq; rw [if_pos hq] at h; exact searchLeafLog_found data point k l _ _ _ h p hp
      · rename_i hq; rw [if_neg hq] at h; exact searchLeafLog_found data point k r _ _ _ h p hp

theorem searchQueueLog_found {B : Type} (K : SplitKind F B) (data : Mat F) (point : List F) (k : ℕ) :
    ∀ (q : List (Node F B)) (pairs r : List (ℕ × F)), (searchQueueLog K data point k q pairs).out = ok r →
      ∀ p ∈ r, p ∈ pairs ∨ p.1 ∈ (searchQueueLog K data point k q pairs).log
  | [], pairs, r, h, p, hp => by
    rw [searchQueueLog] at h
    cases h
    exact Or.inl hp
  | .leaf c :: queue, pairs, r, h, p, hp => by
    rw [searchQueueLog] at h ⊢
    obtain ⟨d, h1, h2, h3⟩ := Logged.log_bind_ok h
    obtain ⟨cur, h4, h5, h6⟩ := Logged.log_bind_ok h2
    obtain ⟨pairs', h7, h8, h9⟩ := Logged.log_bind_ok h5
    rw [h3, h6, h9, getDistancesLog_ok h1]
    rcases searchQueueLog_found K data point k queue pairs' r h8 p hp with h | h
    · rcases offerAll_subset h7 p h with h' | h'
      · exact Or.inr (by simp [(List.of_mem_zip (a := p.1) (b := p.2) h').1])
      · exact Or.inl h'
    · exact Or.inr (by simp [h])
  | .branch dim split b l r :: queue, pairs, res, h, p, hp => by
    rw [searchQueueLog] at h ⊢
    obtain ⟨cur, h1, h2, h3⟩ := Logged.log_bind_ok h
    rw [h3]
    split
    · rename_i hq; rw [if_pos hq] at h2; simpa using searchQueueLog_found K data point k _ _ _ h2 p hp
    · rename_i hq; rw [if_neg hq] at h2; simpa using searchQueueLog_found K data point k _ _ _ h2 p hp
termination_by q _ _ _ _ _ => (q.map Node.size).sum
decreasing_by
  all_goals (simp [Node.size] <;> omega)

theorem treeSearchLog_found {B : Type} (K : SplitKind F B) (t : BinaryTree F B) (point : List F) (k : ℕ) (r : List ℕ × List F)
    (h : (treeSearchLog K t point k).out = ok r) : ∀ i ∈ r.1, i ∈ (treeSearchLog K t point k).log := by
  intro i hi
  unfold treeSearchLog at h ⊢
  cases hd : t.data with
  | none => rw [hd] at h; cases h
  | some data =>
    cases hr : t.root with
    | none => rw [hd, hr] at h; cases h
    | some root =>
      rw [hd, hr] at h
      simp only at h ⊢
      obtain ⟨q, h1, h2, h3⟩ := Logged.log_bind_ok h
      obtain ⟨ps, h4, h5, h6⟩ := Logged.log_bind_ok h2
      rw [h3, h6]
      simp only [Logged.pure_def, ok.injEq] at h5
      rw [← h5] at hi
      simp only [knearestResults, List.mem_map] at hi
      obtain ⟨p, hp, rfl⟩ := hi
      rcases searchQueueLog_found K data point k _ _ _ h4 p hp with h | h
      · simp [searchLeafLog_found data point k root [] q.1 q.2 h1 p h]
      · simp [h]

/-- The distances a search of a built tree measures: every sample at most once, hence at most as many as there are samples; the
samples returned are among the measured ones. -/
structure SearchWork {B : Type} (K : SplitKind F B) (t : BinaryTree F B) (n : ℕ) (point : List F) (k : ℕ) : Prop where
  once : (treeSearchLog K t point k).log.Nodup
  samples : ∀ i ∈ (treeSearchLog K t point k).log, i < n
  atMost : (treeSearchLog K t point k).log.length ≤ n
  found : ∀ r, treeSearch K t point k = ok r → ∀ i ∈ r.1, i ∈ (treeSearchLog K t point k).log

theorem searchWork_of {B : Type} (K : SplitKind F B) (ls : ℕ) (data : Mat F) (root : Node F B)
    (hp : root.leaves.flatten.Perm (List.range data.rows.length)) (point : List F) (k : ℕ) :
    SearchWork K ⟨ls, some data, some root⟩ data.rows.length point k := by
  rw [leaves_flatten] at hp
  have h := (treeSearchLog_rows K ls data root point k).trans hp.subperm
  refine ⟨by obtain ⟨l, h1, h2⟩ := h; exact h1.nodup_iff.1 (h2.nodup List.nodup_range), fun i hi => by simpa using h.subset hi, by simpa using h.length_le, fun r hr i hi => ?_⟩
  refine treeSearchLog_found K _ point k r ?_ i hi
  rw [← hr]
  exact (C130_search_results K _ (some data) point k bruteSearcher ⟨k, none, none⟩ data).1

section ord
variable [LinearOrder F] [OrdScalar F]

/-- C130, kd-trees: a search of a built tree measures the distance to each sample at most once. -/
theorem C130_kd_search (t0 t : BinaryTree F (List F × List F)) (data : Mat F) (hw : data.WF) (hc : 0 < data.cols)
    (hn : data.rows ≠ []) (fuel : ℕ) (h : treeBuild kdKind fuel t0 data = some (ok t)) (point : List F) (k : ℕ) :
    SearchWork kdKind t data.rows.length point k := by
  obtain ⟨root, h1, h2, -⟩ := C20_kd_structure t0 data hw hc hn fuel _ h
  cases h1
  exact searchWork_of kdKind _ data root h2 point k

/-- C130, ball trees: a search of a built tree measures the distance to each sample at most once. -/
theorem C130_ball_search (t0 t : BinaryTree F (List F × F)) (data : Mat F) (hw : data.WF) (hc : 0 < data.cols)
    (hn : data.rows ≠ []) (fuel : ℕ) (h : treeBuild ballKind fuel t0 data = some (ok t)) (point : List F) (k : ℕ) :
    SearchWork ballKind t data.rows.length point k := by
  obtain ⟨root, h1, h2, -⟩ := C20_ball_structure t0 data hw hc hn fuel _ h
  cases h1
  exact searchWork_of ballKind _ data root h2 point k

end ord

/-- C130: the bound is reached: a tree that is a single leaf measures every sample, in order. -/
theorem C130_search_all {B : Type} (K : SplitKind F B) (ls : ℕ) (data : Mat F) (hn : data.rows ≠ []) (point : List F) (k : ℕ) :
    (treeSearchLog K ⟨ls, some data, some (.leaf (List.range data.rows.length))⟩ point k).log = List.range data.rows.length := by
  have hne : (List.range data.rows.length).isEmpty = false := by
    cases h : data.rows with
    | nil => exact absurd h hn
    | cons a l => simp [List.range_succ_eq_map]
  obtain ⟨ds, hd⟩ : ∃ ds, getDistances data point (List.range data.rows.length) = ok ds := by
    refine ⟨(List.range data.rows.length).map fun i => knnDist point (data.rows.getD i []), ?_⟩
    unfold getDistances
    rw [hne]
    simp only [Bool.not_false, assert_true, ok_bind]
    refine mapM_ok_map _ _ _ fun i hi => ?_
    rw [List.mem_range] at hi
    simp [getAt, ofOption, List.getElem?_eq_getElem hi, List.getD_eq_getElem?_getD]
  have hd' : (getDistancesLog data point (List.range data.rows.length)).out = ok ds := by rw [getDistancesLog_out, hd]
  unfold treeSearchLog
  simp only
  rw [searchLeafLog, Logged.bind_ok hd', getDistancesLog_ok hd']
  cases hk : knearestNew k (List.range data.rows.length) ds with
  | ok kn => simp [searchQueueLog]
  | err e => simp [Logged.bind_def, Logged.bind, Logged.lift]
  | panic => simp [Logged.bind_def, Logged.bind, Logged.lift]
  | ub => simp [Logged.bind_def, Logged.bind, Logged.lift]

/-- C130, brute force: a search that returns has measured the distance to every sample once, in order. -/
theorem C130_brute_force (data : Mat F) (point : List F) (k : ℕ) (r : List ℕ × List F)
    (h : bruteSearch (some data) point k = ok r) : (bruteSearchLog (some data) point k).log = List.range data.rows.length := by
  have hk : k ≤ data.rows.length := by
    by_contra hk
    rw [C19_brute_force_panics data point k (Or.inr (by omega))] at h
    cases h
  have e := (C130_search_results kdKind (⟨0, none, none⟩ : BinaryTree F _) (some data) point k bruteSearcher ⟨k, none, none⟩ data).2.1
  rw [← e] at h
  have hidx : ∀ (l : List (List F)) (i : ℕ), (indexedDists point i l).map Prod.fst = List.range' i l.length := by
    intro l
    induction l with
    | nil => intro i; rfl
    | cons a l ih => intro i; simp [indexedDists, ih, List.range'_succ]
  unfold bruteSearchLog at h ⊢
  simp only at h ⊢
  obtain ⟨d, h1, h2, h3⟩ := Logged.log_bind_ok h
  obtain ⟨ps, h4, h5, h6⟩ := Logged.log_bind_ok h2
  obtain ⟨cur, h7, h8, h9⟩ := Logged.log_bind_ok h5
  obtain ⟨rest, h10, h11, h12⟩ := Logged.log_bind_ok h8
  obtain ⟨ps', h13, h14, h15⟩ := Logged.log_bind_ok h11
  rw [h3, h6, h9, h12, h15, getDistancesLog_ok h1, hidx]
  simp only [Logged.lift_log, Logged.pure_def, List.nil_append, List.append_nil, List.length_drop]
  have e2 := List.range'_append_1 (s := 0) (m := k) (n := data.rows.length - k)
  rw [Nat.zero_add] at e2
  rw [List.range_eq_range', List.range_eq_range', e2]
  congr 1
  omega

/-- C130, the classifier: a prediction that returns has asked the searcher for the `k` neighbours of each row, once and in order. -/
theorem C130_knn_predict {S : Type} (R : Searcher F S) (c : KNNClassifier S) (X : Mat F) (r : List ℕ) (h : knnPredict R c X = ok r) :
    (knnPredictLog R c X).log = X.rows.map fun row => (row, c.k) := by
  have e := (C130_search_results kdKind (⟨0, none, none⟩ : BinaryTree F _) (some X) [] 0 R c X).2.2
  rw [← e] at h
  unfold knnPredictLog at h ⊢
  cases ht : c.target with
  | none => rw [ht] at h; cases h
  | some target =>
    rw [ht] at h
    simp only at h ⊢
    rw [Logged.log_mapM_ok (g := fun row => [(row, c.k)]) _ h]
    · induction X.rows with
      | nil => rfl
      | cons a l ih => simp [ih]
    · intro row _ b hb
      obtain ⟨q, _, h2, h3⟩ := Logged.log_bind_ok hb
      rw [h3]
      simp

/-! ### DBSCAN -/

theorem expandLoopLog_grow (eps : F) (mp : ℕ) (X : Mat F) (c : ℕ) : ∀ (fuel : ℕ) (nbrs : List ℕ) (s s' : DbState × List ℕ),
    expandLoopLog eps mp X c fuel nbrs s = some (ok s') → s.2 ⊆ s'.2 ∧ s'.1.visited.length = s.1.visited.length := by
  intro fuel
  induction fuel with
  | zero =>
    intro nbrs s s' h
    cases nbrs with
    | nil => rw [expandLoopLog] at h; cases h; exact ⟨fun _ h => h, rfl⟩
    | cons d rest => rw [expandLoopLog] at h; cases h
  | succ fuel ih =>
    intro nbrs s s' h
    cases nbrs with
    | nil => rw [expandLoopLog] at h; cases h; exact ⟨fun _ h => h, rfl⟩
    | cons d rest =>
      rw [expandLoopLog] at h
      cases hv : visitPoint eps X d s.1 with
      | ok r =>
        rw [hv] at h
        cases r with
        | none => exact ih rest s s' h
        | some q =>
          obtain ⟨st', sub⟩ := q
          have hlen : st'.visited.length = s.1.visited.length := by rw [(visitPoint_some hv).2.2]; simp
          simp only at h
          split at h
          · cases hl : labelPoint d c st' with
            | ok st2 =>
              rw [hl] at h
              simp only at h
              cases he : expandLoopLog eps mp X c fuel sub (st2, s.2 ++ [d]) with
              | none => rw [he] at h; cases h
              | some o =>
                rw [he] at h
                cases o with
                | ok s3 =>
                  obtain ⟨h1, h2⟩ := ih sub _ _ he
                  obtain ⟨h3, h4⟩ := ih rest _ _ h
                  refine ⟨fun x hx => h3 (h1 (by simp [hx])), ?_⟩
                  rw [h4, h2]
                  simp only
                  rw [labelPoint_visited hl, hlen]
                | err e => cases h
                | panic => cases h
                | ub => cases h
            | err e => rw [hl] at h; cases h
            | panic => rw [hl] at h; cases h
            | ub => rw [hl] at h; cases h
          · obtain ⟨h3, h4⟩ := ih rest _ _ h
            exact ⟨fun x hx => h3 (by simp [hx]), by rw [h4]; exact hlen⟩
      | err e => rw [hv] at h; cases h
      | panic => rw [hv] at h; cases h
      | ub => rw [hv] at h; cases h

theorem dbTrainLoopLog_grow (eps : F) (mp : ℕ) (X : Mat F) (fuel : ℕ) : ∀ (idx : List ℕ) (c : ℕ) (s s' : DbState × List ℕ),
    Queried s → dbTrainLoopLog eps mp X fuel idx c s = some (ok s') →
      s.2 ⊆ s'.2 ∧ idx ⊆ s'.2 ∧ s'.1.visited.length = s.1.visited.length := by
  intro idx
  induction idx with
  | nil => intro c s s' _ h; rw [dbTrainLoopLog] at h; cases h; exact ⟨fun _ h => h, by simp, rfl⟩
  | cons d rest ih =>
    intro c s s' hq h
    rw [dbTrainLoopLog] at h
    cases hv : visitPoint eps X d s.1 with
    | ok r =>
      rw [hv] at h
      cases r with
      | none =>
        have hd : d ∈ s.2 := by
          rw [hq.2]
          by_contra hn
          unfold visitPoint getAt at hv
          cases hx : s.1.visited[d]? with
          | none => rw [hx] at hv; cases hv
          | some b =>
            cases b with
            | true => exact hn hx
            | false =>
              rw [hx] at hv
              obtain ⟨hl, -⟩ := List.getElem?_eq_some_iff.1 hx
              have hset : setAt s.1.visited d true = ok (s.1.visited.set d true) := by simp [setAt, hl]
              simp only [ofOption, ok_bind, hset, Bool.false_eq_true, if_false] at hv
              split at hv
              · cases hv
              · obtain ⟨_, _, hv⟩ := bind_eq_ok.1 hv
                cases hv
        obtain ⟨h1, h2, h3⟩ := ih c s s' hq h
        exact ⟨h1, List.cons_subset.2 ⟨h1 hd, h2⟩, h3⟩
      | some q =>
        obtain ⟨st', sub⟩ := q
        have hlen : st'.visited.length = s.1.visited.length := by rw [(visitPoint_some hv).2.2]; simp
        simp only at h
        split at h
        · cases hl : labelPoint d c st' with
          | ok st2 =>
            rw [hl] at h
            simp only at h
            cases he : expandLoopLog eps mp X c fuel sub (st2, s.2 ++ [d]) with
            | none => rw [he] at h; cases h
            | some o =>
              rw [he] at h
              cases o with
              | ok s3 =>
                obtain ⟨h1, h2⟩ := expandLoopLog_grow eps mp X c fuel sub _ _ he
                have hq3 := (expandLoopLog_spec eps mp X c fuel sub _).2 (hq.visit hv (labelPoint_visited hl)) s3 he
                obtain ⟨h3, h4, h5⟩ := ih (c + 1) s3 s' hq3 h
                refine ⟨fun x hx => h3 (h1 (by simp [hx])), List.cons_subset.2 ⟨h3 (h1 (by simp)), h4⟩, ?_⟩
                rw [h5, h2]
                simp only
                rw [labelPoint_visited hl, hlen]
              | err e => cases h
              | panic => cases h
              | ub => cases h
          | err e => rw [hl] at h; cases h
          | panic => rw [hl] at h; cases h
          | ub => rw [hl] at h; cases h
        · obtain ⟨h3, h4, h5⟩ := ih c _ s' (hq.visit hv rfl) h
          exact ⟨fun x hx => h3 (by simp [hx]), List.cons_subset.2 ⟨h3 (by simp), h4⟩, by rw [h5]; exact hlen⟩
    | err e => rw [hv] at h; cases h
    | panic => rw [hv] at h; cases h
    | ub => rw [hv] at h; cases h

/-- C130, DBSCAN: training that ends has queried the neighbourhood of every sample exactly once (and a query looks at every
sample once: `n · n` distances). -/
theorem C130_dbscan (fuel : ℕ) (m m' : Dbscan F) (X : Mat F) (queries : List ℕ) (h : dbTrainLog fuel m X = some (ok (m', queries))) :
    queries.Perm (List.range X.rows.length) := by
  unfold dbTrainLog at h
  simp only at h
  set s0 : DbState × List ℕ := (⟨List.replicate X.rows.length false, List.replicate X.rows.length none⟩, []) with hs0
  have hq0 : Queried s0 := by
    refine ⟨by simp [hs0], fun i => ?_⟩
    simp only [hs0, List.not_mem_nil, false_iff]
    unfold DV
    rw [List.getElem?_replicate]
    split <;> simp
  cases he : dbTrainLoopLog m.eps m.minPoints X fuel (List.range X.rows.length) 0 s0 with
  | none => rw [he] at h; cases h
  | some o =>
    rw [he] at h
    cases o with
    | ok s =>
      simp only [Option.some.injEq, ok.injEq, Prod.mk.injEq] at h
      rw [← h.2]
      have hq := (dbTrainLoopLog_spec m.eps m.minPoints X fuel _ 0 s0).2 hq0 s he
      obtain ⟨-, h2, h3⟩ := dbTrainLoopLog_grow m.eps m.minPoints X fuel _ 0 s0 s hq0 he
      rw [List.perm_ext_iff_of_nodup hq.1 List.nodup_range]
      intro i
      constructor
      · intro hi
        have := (hq.2 i).1 hi
        unfold DV at this
        obtain ⟨hl, -⟩ := List.getElem?_eq_some_iff.1 this
        rw [h3] at hl
        simpa [hs0] using hl
      · exact fun hi => h2 hi
    | err e => cases h
    | panic => cases h
    | ub => cases h

/-- C130, DBSCAN: given enough fuel, training does end, with the model `train` gives, and has queried every
sample once. -/
theorem C130_dbscan_ends (hsym : ∀ u v : List F, dbD u v = dbD v u) (m : Dbscan F) (X : Mat F) (hw : X.WF) (fuel : ℕ)
    (hf : (X.rows.length + 1) * (X.rows.length + 1) ≤ fuel) :
    ∃ m' queries, dbTrain fuel m X = some (ok m') ∧ dbTrainLog fuel m X = some (ok (m', queries)) ∧
      queries.Perm (List.range X.rows.length) := by
  obtain ⟨labels, visited, h1, -⟩ := dbTrain_spec hsym m X hw fuel hf
  have h2 := C130_dbscan_results fuel m X
  rw [h1] at h2
  cases h : dbTrainLog fuel m X with
  | none => rw [h] at h2; cases h2
  | some o =>
    rw [h] at h2
    cases o with
    | ok r =>
      obtain ⟨m', queries⟩ := r
      simp only [Option.map_some, ok_bind, Option.some.injEq, ok.injEq] at h2
      exact ⟨m', queries, by rw [h1, h2], rfl, C130_dbscan fuel m m' X queries h⟩
    | err e => cases h2
    | panic => cases h2
    | ub => cases h2

/-! ### Kernels -/

theorem expectOk_eq_ok {α : Type} {o : Outcome α} {a : α} (h : expectOk o = ok a) : o = ok a := by
  cases o with
  | ok b => exact h
  | err e => cases h
  | panic => cases h
  | ub => cases h

/-- C130, Gaussian processes: training that returns has evaluated the kernel once for every ordered pair of samples, in order. -/
theorem C130_gp_train (lib : TriLib F) (g g' : Gp F) (X : Mat F) (y : List F) (h : g.train lib X y = ok g') :
    (g.trainLog lib X y).log = X.rows ×ˢ X.rows ∧ (g.trainLog lib X y).log.length = X.rows.length * X.rows.length := by
  rw [← (C130_kernel_results lib g Svm.default (fun _ => 0) X y).1] at h
  have : (g.trainLog lib X y).log = X.rows ×ˢ X.rows := by
    unfold Gp.trainLog at h ⊢
    simp only at h ⊢
    obtain ⟨k, h1, h2, h3⟩ := Logged.log_bind_ok h
    obtain ⟨a, _, h4, h5⟩ := Logged.log_bind_ok h2
    obtain ⟨l, _, h6, h7⟩ := Logged.log_bind_ok h4
    obtain ⟨r, _, h8, h9⟩ := Logged.log_bind_ok h6
    obtain ⟨x, _, h10, h11⟩ := Logged.log_bind_ok h8
    obtain ⟨al, _, h12, h13⟩ := Logged.log_bind_ok h10
    rw [h3, h5, h7, h9, h11, h13]
    have := kerMatLog_ok (expectOk_eq_ok h1)
    simp [Logged.mapOut, this]
  exact ⟨this, by rw [this, List.length_product]⟩

/-- C130, Gaussian processes: a prediction that returns has evaluated the kernel once for every pair of a new row and a sample. -/
theorem C130_gp_predict (g : Gp F) (X Z : Mat F) (hX : g.trainData = some X) (r : List F) (h : g.predict Z = ok r) :
    (g.predictLog Z).log = Z.rows ×ˢ X.rows ∧ (g.predictLog Z).log.length = Z.rows.length * X.rows.length := by
  rw [← (C130_kernel_results ⟨fun _ => panic, fun _ _ => panic, fun _ _ => panic⟩ g Svm.default (fun _ => 0) Z []).2.1] at h
  have : (g.predictLog Z).log = Z.rows ×ˢ X.rows := by
    unfold Gp.predictLog at h ⊢
    rw [hX] at h ⊢
    cases ha : g.alpha with
    | none => rw [ha] at h; cases h
    | some a =>
      rw [ha] at h
      simp only at h ⊢
      obtain ⟨k, h1, h2, h3⟩ := Logged.log_bind_ok h
      obtain ⟨p, _, h4, h5⟩ := Logged.log_bind_ok h2
      rw [h3, h5, kerMatLog_ok h1]
      simp
  exact ⟨this, by rw [this, List.length_product]⟩

/-- C130, Gaussian processes: the posterior evaluates the kernel twice for every pair of a new row and a sample and once for every
pair of new rows. -/
theorem C130_gp_posterior (lib : TriLib F) (g : Gp F) (X Z : Mat F) (hX : g.trainData = some X) (r : List F × Mat F)
    (h : g.posterior lib Z = ok r) :
    (g.posteriorLog lib Z).log = Z.rows ×ˢ X.rows ++ Z.rows ×ˢ X.rows ++ Z.rows ×ˢ Z.rows ∧
    (g.posteriorLog lib Z).log.length = Z.rows.length * (2 * X.rows.length + Z.rows.length) := by
  rw [← (C130_kernel_results lib g Svm.default (fun _ => 0) Z []).2.2.1] at h
  have : (g.posteriorLog lib Z).log = Z.rows ×ˢ X.rows ++ Z.rows ×ˢ X.rows ++ Z.rows ×ˢ Z.rows := by
    unfold Gp.posteriorLog at h ⊢
    rw [hX] at h ⊢
    cases hm : g.trainMat with
    | none => rw [hm] at h; cases h
    | some tm =>
      rw [hm] at h
      cases ha : g.alpha with
      | none => rw [ha] at h; cases h
      | some a =>
        rw [ha] at h
        simp only at h ⊢
        obtain ⟨k, h1, h2, h3⟩ := Logged.log_bind_ok h
        obtain ⟨p, _, h4, h5⟩ := Logged.log_bind_ok h2
        obtain ⟨pm, _, h6, h7⟩ := Logged.log_bind_ok h4
        obtain ⟨tm2, _, h9, h10⟩ := Logged.log_bind_ok h6
        obtain ⟨rows, _, h11, h12⟩ := Logged.log_bind_ok h9
        obtain ⟨v, _, h13, h14⟩ := Logged.log_bind_ok h11
        obtain ⟨kk, h15, h16, h17⟩ := Logged.log_bind_ok h13
        obtain ⟨vv, _, h18, h19⟩ := Logged.log_bind_ok h16
        obtain ⟨pv, _, h20, h21⟩ := Logged.log_bind_ok h18
        rw [h3, h5, h7, h10, h12, h14, h17, h19, h21, kerMatLog_ok h1, kerMatLog_ok h15]
        simp
  refine ⟨this, ?_⟩
  rw [this]
  simp only [List.length_append, List.length_product]
  ring

/-- C130, SVM: training that returns has, in each of its iterations, evaluated the kernel of the drawn sample with every sample;
nothing is kept from one iteration to the next. -/
theorem C130_svm_train (draws : ℕ → ℕ) (m m' : Svm F) (X : Mat F) (y : List F) (h : m.train draws X y = ok m') :
    ∃ full, withOnes X = ok full ∧
      (m.trainLog draws X y).log = (List.range m.optimIters).flatMap (fun t =>
        full.rows.map fun r => (full.rows.getD (draws t % full.rows.length) [], r)) ∧
      (m.trainLog draws X y).log.length = m.optimIters * full.rows.length := by
  rw [← (C130_kernel_results ⟨fun _ => panic, fun _ _ => panic, fun _ _ => panic⟩ ⟨m.ker, fun _ => [], m.lambda, none, none, none⟩ m draws X y).2.2.2.1] at h
  unfold Svm.trainLog at h ⊢
  obtain ⟨full, h1, h2, h3⟩ := Logged.log_bind_ok h
  obtain ⟨a, h4, h5, h6⟩ := Logged.log_bind_ok h2
  have key : ∀ b, ∀ t ∈ List.range m.optimIters, ∀ c, (svmStepLog m.ker m.lambda full y b t (draws t)).out = ok c →
      (svmStepLog m.ker m.lambda full y b t (draws t)).log =
        full.rows.map fun r => (full.rows.getD (draws t % full.rows.length) [], r) := by
    intro b t _ c hc
    unfold svmStepLog at hc ⊢
    obtain ⟨i, k1, k2, k3⟩ := Logged.log_bind_ok hc
    obtain ⟨row, k4, k5, k6⟩ := Logged.log_bind_ok k2
    obtain ⟨s, k7, k8, k9⟩ := Logged.log_bind_ok k5
    obtain ⟨yi, k10, k11, k12⟩ := Logged.log_bind_ok k8
    rw [k3, k6, k9, k12]
    have hi : i = draws t % full.rows.length := by
      simp only [Logged.lift_out, genRange] at k1
      split at k1
      · simpa using k1.symm
      · cases k1
    have hrow : row = full.rows.getD (draws t % full.rows.length) [] := by
      simp only [Logged.lift_out, getAt] at k4
      rw [← hi]
      cases hr : full.rows[i]? with
      | none => rw [hr] at k4; cases k4
      | some q => rw [hr] at k4; simp only [ofOption, ok.injEq] at k4; simp [hr, k4]
    have hlog : (kernelRowSumLog m.ker row full).log = full.rows.flatMap fun r => [(row, r)] := by
      unfold kernelRowSumLog at k7 ⊢
      refine Logged.log_foldlM_ok (fun b r _ c hc => ?_) k7
      obtain ⟨_, _, _, h⟩ := Logged.log_bind_ok hc
      rw [h]
      simp
    have hif : (if ((s *. yi) /. (m.lambda *. Scalar.ofNat t)) <. Scalar.one then
        (pure (b.modify i fun a => a +. Scalar.one) : Logged (List F × List F) (List F)) else pure b).log = [] := by
      split <;> rfl
    rw [hlog, hif, ← hrow]
    simp only [Logged.lift_log, List.nil_append, List.append_nil]
    induction full.rows with
    | nil => rfl
    | cons a l ih => simp [ih]
  refine ⟨full, h1, ?_, ?_⟩
  · rw [h3, h6, Logged.log_foldlM_ok key h4]
    simp
  · rw [h3, h6, Logged.log_foldlM_ok key h4]
    simp

/-- C130, SVM: a prediction that returns has evaluated the kernel once for every pair of a new row and a sample (each with its
leading one). -/
theorem C130_svm_predict (m : Svm F) (X Z : Mat F) (hX : m.trainInputs = some X) (r : List F) (h : m.predict Z = ok r) :
    ∃ full, withOnes Z = ok full ∧ (m.predictLog Z).log = full.rows ×ˢ X.rows ∧
      (m.predictLog Z).log.length = full.rows.length * X.rows.length := by
  rw [← (C130_kernel_results ⟨fun _ => panic, fun _ _ => panic, fun _ _ => panic⟩ ⟨m.ker, fun _ => [], m.lambda, none, none, none⟩ m (fun _ => 0) Z []).2.2.2.2] at h
  unfold Svm.predictLog at h ⊢
  obtain ⟨full, h1, h2, h3⟩ := Logged.log_bind_ok h
  have : (m.predictLog Z).log = full.rows ×ˢ X.rows := by
    unfold Svm.predictLog
    rw [h3]
    rw [hX] at h2 ⊢
    cases ha : m.alpha with
    | none => rw [ha] at h2; cases h2
    | some a =>
      rw [ha] at h2
      cases ht : m.trainTargets with
      | none => rw [ht] at h2; cases h2
      | some tt =>
        rw [ht] at h2
        simp only at h2 ⊢
        obtain ⟨k, h4, h5, h6⟩ := Logged.log_bind_ok h2
        obtain ⟨w, _, h7, h8⟩ := Logged.log_bind_ok h5
        obtain ⟨d, _, h9, h10⟩ := Logged.log_bind_ok h7
        rw [h6, h8, h10, kerMatLog_ok h4]
        simp
  refine ⟨full, h1, this, ?_⟩
  change (m.predictLog Z).log.length = _
  rw [this, List.length_product]

/-! ### Cases that meet the hypotheses -/

example (point : List ℝ) (k : ℕ) : ∃ t, treeBuild (kdKind (F := ℝ)) 2 ⟨3, none, none⟩ lineData = some (ok t) ∧
    SearchWork kdKind t 3 point k :=
  ⟨_, lineTree kdKind _ rfl, C130_kd_search ⟨3, none, none⟩ _ lineData (by unfold Mat.WF lineData; simp) (by simp [lineData])
    (by simp [lineData]) 2 (lineTree kdKind _ rfl) point k⟩

example (m : Dbscan ℝ) : ∃ m' queries, dbTrain 16 m ⟨1, [[0], [1], [5]]⟩ = some (ok m') ∧
    dbTrainLog 16 m ⟨1, [[0], [1], [5]]⟩ = some (ok (m', queries)) ∧ queries.Perm [0, 1, 2] :=
  C130_dbscan_ends (fun u v => by rw [dbD_real, dbD_real, eucl_comm]) m ⟨1, [[0], [1], [5]]⟩ (by unfold Mat.WF; simp) 16 (by simp)

/-- A library that returns what it is given. -/
def echoLib : TriLib F := ⟨fun a => ok a, fun _ v => ok v, fun _ v => ok v⟩

example (ker : Kernel ℝ) (hk : ∀ u v, ∃ r, ker u v = ok r) : ∃ g', (Gp.mk ker (constMean (0 : ℝ)) 1 none none none).train echoLib
      ⟨1, [[1], [2]]⟩ [5, 6] = ok g' := by
  obtain ⟨a, ha⟩ := hk [1] [1]
  obtain ⟨b, hb⟩ := hk [1] [2]
  obtain ⟨c, hc⟩ := hk [2] [1]
  obtain ⟨d, hd⟩ := hk [2] [2]
  simp [Gp.train, kerMat, ha, hb, hc, hd, expectOk, scaledIdentity, Mat.zip, echoLib, orInvalidState, vecZip, constMean, List.range_succ]

end RM
