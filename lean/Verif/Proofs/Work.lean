import Verif.Model.Work
import Verif.Spec.BinaryTree
import Verif.Proofs.RowWise
import Verif.Proofs.Dbscan
import Verif.Proofs.BinaryTree

/-! Forgetting the lists of `Verif/Model/Work.lean`, and what is in them. -/

namespace RM
open Outcome Scalar Spec
variable {F : Type} [Scalar F]

namespace Logged
variable {C α β : Type}

theorem ext' {x y : Logged C α} (h1 : x.log = y.log) (h2 : x.out = y.out) : x = y := by
  cases x; cases y; simp_all

instance : LawfulMonad (Logged C) := LawfulMonad.mk'
  (id_map := by
    rintro α ⟨l, o⟩
    cases o <;> simp [Functor.map, bind])
  (pure_bind := by intros; simp)
  (bind_assoc := by
    rintro α β γ ⟨l, o⟩ f g
    cases o with
    | ok a =>
      simp only [mk_ok_bind]
      rw [bind_def, bind_def, bind, bind]
      cases (f a).out <;> simp
    | err _ => rfl
    | panic => rfl
    | ub => rfl)

@[simp] theorem out_bind_eq (x : Logged C α) (f : α → Logged C β) : (x >>= f).out = x.out >>= fun a => (f a).out := by
  rw [bind_def, bind]
  cases x.out <;> rfl

theorem out_mapM (f : α → Logged C β) (l : List α) : (l.mapM f).out = l.mapM fun a => (f a).out := by
  induction l with
  | nil => rfl
  | cons a l ih => simp [List.mapM_cons, ih]

theorem out_foldlM (f : β → α → Logged C β) : ∀ (l : List α) (b : β),
    (l.foldlM f b).out = l.foldlM (fun b a => (f b a).out) b := by
  intro l
  induction l with
  | nil => intro b; rfl
  | cons a l ih => intro b; simp [List.foldlM_cons, ih]

/-- What a run made of two parts that ends well lists. -/
theorem log_bind_ok {x : Logged C α} {f : α → Logged C β} {b : β} (h : (x >>= f).out = ok b) :
    ∃ a, x.out = ok a ∧ (f a).out = ok b ∧ (x >>= f).log = x.log ++ (f a).log := by
  rw [out_bind_eq] at h
  obtain ⟨a, h1, h2⟩ := bind_eq_ok.1 h
  exact ⟨a, h1, h2, by rw [bind_ok h1]⟩

/-- If every step that ends well lists `g a`, so does the whole. -/
theorem log_mapM_ok {f : α → Logged C β} {g : α → List C} : ∀ {l : List α} {r : List β},
    (∀ a ∈ l, ∀ b, (f a).out = ok b → (f a).log = g a) → (l.mapM f).out = ok r → (l.mapM f).log = l.flatMap g := by
  intro l
  induction l with
  | nil => intro r _ _; rfl
  | cons a l ih =>
    intro r hg h
    rw [List.mapM_cons] at h ⊢
    obtain ⟨b, h1, h2, h3⟩ := log_bind_ok h
    obtain ⟨bs, h4, h5, h6⟩ := log_bind_ok h2
    rw [h3, h6, hg a (by simp) b h1, ih (fun a ha => hg a (by simp [ha])) h4]
    simp

/-- If every step lists a prefix of `g a`, and all of it when it ends well, the whole lists a prefix. -/
theorem log_bind_subperm {x : Logged C α} {f : α → Logged C β} {u v : List C} (hx : x.log.Subperm u)
    (hf : ∀ a, x.out = ok a → (f a).log.Subperm v) : (x >>= f).log.Subperm (u ++ v) := by
  rw [bind_def, bind]
  split
  · rename_i a h
    exact List.Subperm.append hx (hf a h)
  all_goals exact hx.trans (List.sublist_append_left u v).subperm

theorem log_mapM_subperm {f : α → Logged C β} {g : α → List C} : ∀ {l : List α},
    (∀ a ∈ l, (f a).log.Subperm (g a)) → (l.mapM f).log.Subperm (l.flatMap g) := by
  intro l
  induction l with
  | nil => intro _; exact List.Subperm.refl _
  | cons a l ih =>
    intro hg
    rw [List.mapM_cons, List.flatMap_cons]
    refine log_bind_subperm (hg a (by simp)) fun b _ => ?_
    have h := log_bind_subperm (x := l.mapM f) (f := fun bs => (pure (b :: bs) : Logged C (List β))) (v := [])
      (ih fun a ha => hg a (by simp [ha])) (fun _ _ => by simp)
    simpa using h

theorem log_foldlM_ok {f : β → α → Logged C β} {g : α → List C} : ∀ {l : List α} {b r : β},
    (∀ b, ∀ a ∈ l, ∀ c, (f b a).out = ok c → (f b a).log = g a) → (l.foldlM f b).out = ok r →
    (l.foldlM f b).log = l.flatMap g := by
  intro l
  induction l with
  | nil => intro b r _ _; rfl
  | cons a l ih =>
    intro b r hg h
    rw [List.foldlM_cons] at h ⊢
    obtain ⟨c, h1, h2, h3⟩ := log_bind_ok h
    rw [h3, hg b a (by simp) c h1, ih (fun b a ha => hg b a (by simp [ha])) h2]
    simp

end Logged

/-! ### Searchers -/

theorem getDistancesLog_out (data : Mat F) (point : List F) (ids : List ℕ) :
    (getDistancesLog data point ids).out = getDistances data point ids := by
  simp [getDistancesLog, getDistances, Logged.out_mapM]

theorem getDistancesLog_ok {data : Mat F} {point : List F} {ids : List ℕ} {r : List F} (h : (getDistancesLog data point ids).out = ok r) :
    (getDistancesLog data point ids).log = ids := by
  unfold getDistancesLog at h ⊢
  obtain ⟨_, _, h2, h3⟩ := Logged.log_bind_ok h
  rw [h3, Logged.log_mapM_ok (g := fun i => [i]) _ h2]
  · simp
  · intro i _ b hb
    obtain ⟨_, _, _, h6⟩ := Logged.log_bind_ok hb
    rw [h6]
    simp

theorem getDistancesLog_subperm (data : Mat F) (point : List F) (ids : List ℕ) : (getDistancesLog data point ids).log.Subperm ids := by
  unfold getDistancesLog
  have h := Logged.log_mapM_subperm (C := ℕ) (g := fun i => [i]) (l := ids) (f := fun id => do
    let row ← Logged.lift (getAt data.rows id)
    Logged.call id (ok (knnDist point row))) (fun i _ => by
      simpa using Logged.log_bind_subperm (C := ℕ) (x := Logged.lift (getAt data.rows i)) (u := []) (v := [i])
        (f := fun row => Logged.call i (ok (knnDist point row))) (by simp) (fun _ _ => by simp))
  have h2 := Logged.log_bind_subperm (C := ℕ) (x := Logged.lift (assert (!ids.isEmpty))) (u := []) (by simp) (fun _ _ => h)
  simpa using h2

theorem searchLeafLog_out {B : Type} (data : Mat F) (point : List F) (k : ℕ) : ∀ (t : Node F B) (queue : List (Node F B)),
    (searchLeafLog data point k t queue).out = searchLeaf data point k t queue
  | .leaf c, queue => by
    simp [searchLeafLog, searchLeaf, getDistancesLog_out]
  | .branch dim split b l r, queue => by
    rw [searchLeafLog, searchLeaf]
    cases point[dim]? with
    | none => rfl
    | some p =>
      simp only
      split
      · exact searchLeafLog_out data point k l _
      · exact searchLeafLog_out data point k r _

theorem searchQueueLog_out {B : Type} (K : SplitKind F B) (data : Mat F) (point : List F) (k : ℕ) :
    ∀ (q : List (Node F B)) (pairs : List (ℕ × F)),
      (searchQueueLog K data point k q pairs).out = searchQueue K data point k q pairs
  | [], pairs => by simp [searchQueueLog, searchQueue]
  | .leaf c :: queue, pairs => by
    have ih := fun p => searchQueueLog_out K data point k queue p
    rw [searchQueueLog, searchQueue]
    simp [getDistancesLog_out, ih]
  | .branch dim split b l r :: queue, pairs => by
    have ih1 := searchQueueLog_out K data point k (queue ++ [l, r]) pairs
    have ih2 := searchQueueLog_out K data point k queue pairs
    rw [searchQueueLog, searchQueue]
    simp only [Logged.out_bind_eq, Logged.lift_out]
    congr 1
    funext cur
    split
    · exact ih1
    · exact ih2
termination_by q _ => (q.map Node.size).sum
decreasing_by
  · simp [Node.size]
  · simp [Node.size]; omega
  · simp [Node.size]

/-- The rows below the nodes of a queue. -/
def belowRows {B : Type} (q : List (Node F B)) : List ℕ := q.flatMap Node.rows

theorem searchLeafLog_rows {B : Type} (data : Mat F) (point : List F) (k : ℕ) : ∀ (t : Node F B) (queue : List (Node F B)),
    (searchLeafLog data point k t queue).log.Subperm (t.rows ++ belowRows queue) ∧
    ∀ pairs queue', (searchLeafLog data point k t queue).out = ok (pairs, queue') →
      ((searchLeafLog data point k t queue).log ++ belowRows queue').Perm (t.rows ++ belowRows queue)
  | .leaf c, queue => by
    rw [searchLeafLog]
    constructor
    · have h := Logged.log_bind_subperm (x := getDistancesLog data point c) (u := c) (v := [])
        (f := fun d => (do let kn ← Logged.lift (knearestNew k c d); pure (kn, queue) : Logged ℕ (List (ℕ × F) × List (Node F B))))
        (getDistancesLog_subperm data point c) (fun d _ => by
          simpa using Logged.log_bind_subperm (C := ℕ) (x := Logged.lift (knearestNew k c d)) (u := []) (v := [])
            (f := fun kn => (pure (kn, queue) : Logged ℕ (List (ℕ × F) × List (Node F B)))) (by simp) (by simp))
      rw [List.append_nil] at h
      exact h.trans (List.sublist_append_left c _).subperm
    · intro pairs queue' h
      obtain ⟨d, h1, h2, h3⟩ := Logged.log_bind_ok h
      obtain ⟨kn, h4, h5, h6⟩ := Logged.log_bind_ok h2
      rw [h3, h6, getDistancesLog_ok h1]
      simp only [Logged.pure_def, ok.injEq, Prod.mk.injEq] at h5
      rw [← h5.2]
      simp [Node.rows]
  | .branch dim split b l r, queue => by
    rw [searchLeafLog]
    cases point[dim]? with
    | none => exact ⟨by simp, fun _ _ h => by simp at h⟩
    | some p =>
      simp only
      have e1 : (l.rows ++ belowRows (queue ++ [r])).Perm ((Node.branch dim split b l r).rows ++ belowRows queue) := by
        simp only [belowRows, List.flatMap_append, List.flatMap_cons, List.flatMap_nil, List.append_nil, Node.rows, List.append_assoc]
        exact List.Perm.append_left _ List.perm_append_comm
      have e2 : (r.rows ++ belowRows (queue ++ [l])).Perm ((Node.branch dim split b l r).rows ++ belowRows queue) := by
        simp only [belowRows, List.flatMap_append, List.flatMap_cons, List.flatMap_nil, List.append_nil, Node.rows]
        rw [← List.append_assoc]
        refine List.perm_append_comm.trans ?_
        rw [List.append_assoc]
      split
      · obtain ⟨h1, h2⟩ := searchLeafLog_rows data point k l (queue ++ [r])
        exact ⟨h1.trans e1.subperm, fun a b h => (h2 a b h).trans e1⟩
      · obtain ⟨h1, h2⟩ := searchLeafLog_rows data point k r (queue ++ [l])
        exact ⟨h1.trans e2.subperm, fun a b h => (h2 a b h).trans e2⟩

theorem searchQueueLog_rows {B : Type} (K : SplitKind F B) (data : Mat F) (point : List F) (k : ℕ) :
    ∀ (q : List (Node F B)) (pairs : List (ℕ × F)), (searchQueueLog K data point k q pairs).log.Subperm (belowRows q)
  | [], pairs => by simp [searchQueueLog]
  | .leaf c :: queue, pairs => by
    have ih := fun p => searchQueueLog_rows K data point k queue p
    rw [searchQueueLog]
    have : belowRows (Node.leaf c :: queue : List (Node F B)) = c ++ belowRows queue := rfl
    rw [this]
    refine Logged.log_bind_subperm (getDistancesLog_subperm data point c) fun d _ => ?_
    have h := Logged.log_bind_subperm (C := ℕ) (x := Logged.lift (knearestDist k pairs)) (u := []) (v := belowRows queue)
      (f := fun cur => (do let pairs' ← Logged.lift (offerAll k (c.zip d) pairs cur)
                           searchQueueLog K data point k queue pairs' : Logged ℕ (List (ℕ × F)))) (by simp) (fun cur _ => by
        simpa using Logged.log_bind_subperm (C := ℕ) (x := Logged.lift (offerAll k (c.zip d) pairs cur)) (u := []) (v := belowRows queue)
          (f := fun pairs' => searchQueueLog K data point k queue pairs') (by simp) (fun pairs' _ => ih pairs'))
    simpa using h
  | .branch dim split b l r :: queue, pairs => by
    have ih1 := searchQueueLog_rows K data point k (queue ++ [l, r]) pairs
    have ih2 := searchQueueLog_rows K data point k queue pairs
    rw [searchQueueLog]
    have e : belowRows (Node.branch dim split b l r :: queue) = l.rows ++ r.rows ++ belowRows queue := rfl
    have h := Logged.log_bind_subperm (C := ℕ) (x := Logged.lift (knearestDist k pairs)) (u := [])
      (v := belowRows (Node.branch dim split b l r :: queue))
      (f := fun cur => if K.dist b point <. cur then searchQueueLog K data point k (queue ++ [l, r]) pairs
        else searchQueueLog K data point k queue pairs) (by simp) (fun cur _ => by
        rw [e]
        split
        · refine ih1.trans ?_
          have : (belowRows (queue ++ [l, r])).Perm (l.rows ++ r.rows ++ belowRows queue) := by
            simp only [belowRows, List.flatMap_append, List.flatMap_cons, List.flatMap_nil, List.append_nil]
            exact List.perm_append_comm
          exact this.subperm
        · exact ih2.trans (List.sublist_append_right _ _).subperm)
    simpa using h
termination_by q _ => (q.map Node.size).sum
decreasing_by
  · simp [Node.size]
  · simp [Node.size]; omega
  · simp [Node.size]

theorem treeSearchLog_rows {B : Type} (K : SplitKind F B) (ls : ℕ) (data : Mat F) (root : Node F B) (point : List F) (k : ℕ) :
    (treeSearchLog K ⟨ls, some data, some root⟩ point k).log.Subperm root.rows := by
  obtain ⟨h1, h2⟩ := searchLeafLog_rows data point k root ([] : List (Node F B))
  have e : root.rows ++ belowRows ([] : List (Node F B)) = root.rows := by simp [belowRows]
  rw [e] at h1 h2
  unfold treeSearchLog
  simp only
  cases ho : (searchLeafLog data point k root []).out with
  | ok q =>
    obtain ⟨pairs, queue⟩ := q
    rw [Logged.bind_ok ho]
    simp only
    refine List.Subperm.trans ?_ (h2 pairs queue ho).subperm
    refine List.Subperm.append (List.Subperm.refl _) ?_
    have h := Logged.log_bind_subperm (C := ℕ) (x := searchQueueLog K data point k queue pairs) (u := belowRows queue) (v := [])
      (f := fun p => (pure (knearestResults p) : Logged ℕ (List ℕ × List F))) (searchQueueLog_rows K data point k queue pairs) (by simp)
    rwa [List.append_nil] at h
  | err e => rw [Logged.bind_def, Logged.bind, ho]; exact h1
  | panic => rw [Logged.bind_def, Logged.bind, ho]; exact h1
  | ub => rw [Logged.bind_def, Logged.bind, ho]; exact h1

/-! ### DBSCAN -/

/-- The list has every visited point once and no other. -/
def Queried (s : DbState × List ℕ) : Prop := s.2.Nodup ∧ ∀ i, i ∈ s.2 ↔ DV s.1 i

theorem visitPoint_some {eps : F} {X : Mat F} {d : ℕ} {st st' : DbState} {sub : List ℕ} (h : visitPoint eps X d st = ok (some (st', sub))) :
    ¬ DV st d ∧ d < st.visited.length ∧ st'.visited = st.visited.set d true := by
  unfold visitPoint getAt at h
  cases hv : st.visited[d]? with
  | none => rw [hv] at h; cases h
  | some b =>
    rw [hv] at h
    cases b with
    | true => cases h
    | false =>
      obtain ⟨hd, hb⟩ := List.getElem?_eq_some_iff.1 hv
      have hset : setAt st.visited d true = ok (st.visited.set d true) := by simp [setAt, hd]
      simp only [ofOption, ok_bind, hset, Bool.false_eq_true, if_false] at h
      refine ⟨by unfold DV; rw [hv]; simp, hd, ?_⟩
      cases hr : X.rows[d]? with
      | none => rw [hr] at h; cases h
      | some row =>
        rw [hr] at h
        simp only at h
        cases hq : regionQuery eps row X with
        | ok s =>
          rw [hq] at h
          simp only [ok_bind, ok.injEq, Option.some.injEq, Prod.mk.injEq] at h
          obtain ⟨rfl, -⟩ := h
          rfl
        | err e => rw [hq] at h; cases h
        | panic => rw [hq] at h; cases h
        | ub => rw [hq] at h; cases h

theorem labelPoint_visited {d c : ℕ} {st st' : DbState} (h : labelPoint d c st = ok st') : st'.visited = st.visited := by
  unfold labelPoint setAt at h
  split at h
  · simp only [ok_bind, ok.injEq] at h
    rw [← h]
  · cases h

theorem Queried.visit {eps : F} {X : Mat F} {d : ℕ} {s : DbState × List ℕ} {st' : DbState} {sub : List ℕ}
    (hq : Queried s) (h : visitPoint eps X d s.1 = ok (some (st', sub))) {st2 : DbState} (h2 : st2.visited = st'.visited) :
    Queried (st2, s.2 ++ [d]) := by
  obtain ⟨h3, h4, h5⟩ := visitPoint_some h
  have hdv := dv_set (st := s.1) st2.clusters h4
  have e : st2 = ⟨s.1.visited.set d true, st2.clusters⟩ := by cases st2; simp_all
  constructor
  · simp only
    rw [List.nodup_append]
    refine ⟨hq.1, by simp, ?_⟩
    intro a ha b hb
    rw [List.mem_singleton] at hb
    rintro rfl
    rw [hb] at ha
    exact h3 ((hq.2 d).1 ha)
  · intro i
    simp only
    rw [e, hdv i, List.mem_append, List.mem_singleton, hq.2 i]
    exact or_comm

theorem expandLoopLog_spec (eps : F) (mp : ℕ) (X : Mat F) (c : ℕ) : ∀ (fuel : ℕ) (nbrs : List ℕ) (s : DbState × List ℕ),
    expandLoop eps mp X c fuel nbrs s.1 = (expandLoopLog eps mp X c fuel nbrs s).map (fun o => o >>= fun r => ok r.1) ∧
    (Queried s → ∀ s', expandLoopLog eps mp X c fuel nbrs s = some (ok s') → Queried s') := by
  intro fuel
  induction fuel with
  | zero =>
    intro nbrs s
    cases nbrs with
    | nil => exact ⟨rfl, fun hq s' h => by rw [expandLoopLog] at h; cases h; exact hq⟩
    | cons d rest => exact ⟨rfl, fun hq s' h => by rw [expandLoopLog] at h; cases h⟩
  | succ fuel ih =>
    intro nbrs s
    cases nbrs with
    | nil => exact ⟨rfl, fun hq s' h => by rw [expandLoopLog] at h; cases h; exact hq⟩
    | cons d rest =>
      rw [expandLoop, expandLoopLog]
      cases hv : visitPoint eps X d s.1 with
      | ok r =>
        cases r with
        | none => exact ih rest s
        | some q =>
          obtain ⟨st', sub⟩ := q
          simp only
          split
          · cases hl : labelPoint d c st' with
            | ok st2 =>
              simp only
              obtain ⟨h1, h2⟩ := ih sub (st2, s.2 ++ [d])
              rw [show st2 = ((st2, s.2 ++ [d]) : DbState × List ℕ).1 from rfl, h1]
              cases he : expandLoopLog eps mp X c fuel sub (st2, s.2 ++ [d]) with
              | none => exact ⟨rfl, fun _ s' h => by cases h⟩
              | some o =>
                cases o with
                | ok s3 =>
                  obtain ⟨h3, h4⟩ := ih rest s3
                  refine ⟨by simpa using h3, fun hq s' h => ?_⟩
                  exact h4 (h2 (hq.visit hv (labelPoint_visited hl)) s3 he) s' h
                | err e => exact ⟨rfl, fun _ s' h => by cases h⟩
                | panic => exact ⟨rfl, fun _ s' h => by cases h⟩
                | ub => exact ⟨rfl, fun _ s' h => by cases h⟩
            | err e => exact ⟨rfl, fun _ s' h => by cases h⟩
            | panic => exact ⟨rfl, fun _ s' h => by cases h⟩
            | ub => exact ⟨rfl, fun _ s' h => by cases h⟩
          · obtain ⟨h1, h2⟩ := ih rest (st', s.2 ++ [d])
            exact ⟨h1, fun hq s' h => h2 (hq.visit hv rfl) s' h⟩
      | err e => exact ⟨rfl, fun _ s' h => by cases h⟩
      | panic => exact ⟨rfl, fun _ s' h => by cases h⟩
      | ub => exact ⟨rfl, fun _ s' h => by cases h⟩

theorem dbTrainLoopLog_spec (eps : F) (mp : ℕ) (X : Mat F) (fuel : ℕ) : ∀ (idx : List ℕ) (c : ℕ) (s : DbState × List ℕ),
    dbTrainLoop eps mp X fuel idx c s.1 = (dbTrainLoopLog eps mp X fuel idx c s).map (fun o => o >>= fun r => ok r.1) ∧
    (Queried s → ∀ s', dbTrainLoopLog eps mp X fuel idx c s = some (ok s') → Queried s') := by
  intro idx
  induction idx with
  | nil => intro c s; exact ⟨rfl, fun hq s' h => by rw [dbTrainLoopLog] at h; cases h; exact hq⟩
  | cons d rest ih =>
    intro c s
    rw [dbTrainLoop, dbTrainLoopLog]
    cases hv : visitPoint eps X d s.1 with
    | ok r =>
      cases r with
      | none => exact ih c s
      | some q =>
        obtain ⟨st', sub⟩ := q
        simp only
        split
        · rw [expandCluster]
          cases hl : labelPoint d c st' with
          | ok st2 =>
            simp only
            obtain ⟨h1, h2⟩ := expandLoopLog_spec eps mp X c fuel sub (st2, s.2 ++ [d])
            rw [show st2 = ((st2, s.2 ++ [d]) : DbState × List ℕ).1 from rfl, h1]
            cases he : expandLoopLog eps mp X c fuel sub (st2, s.2 ++ [d]) with
            | none => exact ⟨rfl, fun _ s' h => by cases h⟩
            | some o =>
              cases o with
              | ok s3 =>
                obtain ⟨h3, h4⟩ := ih (c + 1) s3
                refine ⟨by simpa using h3, fun hq s' h => ?_⟩
                exact h4 (h2 (hq.visit hv (labelPoint_visited hl)) s3 he) s' h
              | err e => exact ⟨rfl, fun _ s' h => by cases h⟩
              | panic => exact ⟨rfl, fun _ s' h => by cases h⟩
              | ub => exact ⟨rfl, fun _ s' h => by cases h⟩
          | err e => exact ⟨rfl, fun _ s' h => by cases h⟩
          | panic => exact ⟨rfl, fun _ s' h => by cases h⟩
          | ub => exact ⟨rfl, fun _ s' h => by cases h⟩
        · obtain ⟨h1, h2⟩ := ih c (st', s.2 ++ [d])
          exact ⟨h1, fun hq s' h => h2 (hq.visit hv rfl) s' h⟩
    | err e => exact ⟨rfl, fun _ s' h => by cases h⟩
    | panic => exact ⟨rfl, fun _ s' h => by cases h⟩
    | ub => exact ⟨rfl, fun _ s' h => by cases h⟩

/-! ### Kernels -/

omit [Scalar F] in
theorem kerMatLog_out (ker : Kernel F) (m1 m2 : Mat F) : (kerMatLog ker m1 m2).out = kerMat ker m1 m2 := by
  unfold kerMatLog kerMat
  split
  · rfl
  · simp [Logged.out_mapM]

omit [Scalar F] in
theorem kerMatLog_ok {ker : Kernel F} {m1 m2 k : Mat F} (h : (kerMatLog ker m1 m2).out = ok k) :
    (kerMatLog ker m1 m2).log = m1.rows ×ˢ m2.rows := by
  unfold kerMatLog at h ⊢
  split
  · rename_i hc; rw [if_pos hc] at h; cases h
  · rename_i hc
    rw [if_neg hc] at h
    obtain ⟨rows, h1, h2, h3⟩ := Logged.log_bind_ok h
    rw [h3, Logged.log_mapM_ok (g := fun r1 => m2.rows.map fun r2 => (r1, r2)) _ h1]
    · simp [SProd.sprod, List.product]
    · intro r1 _ b hb
      rw [Logged.log_mapM_ok (g := fun r2 => [(r1, r2)]) _ hb]
      · induction m2.rows with
        | nil => rfl
        | cons a l ih => simp [ih]
      · intros; rfl

omit [Scalar F] in
theorem kerMatLog_subperm (ker : Kernel F) (m1 m2 : Mat F) : (kerMatLog ker m1 m2).log.Subperm (m1.rows ×ˢ m2.rows) := by
  unfold kerMatLog
  split
  · simp
  · have h := Logged.log_mapM_subperm (l := m1.rows) (f := fun r1 => m2.rows.mapM fun r2 => Logged.call (r1, r2) (ker r1 r2))
      (g := fun r1 => m2.rows.flatMap fun r2 => [(r1, r2)])
      (fun r1 _ => Logged.log_mapM_subperm (fun r2 _ => by simp))
    have h2 := Logged.log_bind_subperm (v := []) h
      (f := fun rows => (pure ⟨m2.rows.length, rows⟩ : Logged (List F × List F) (Mat F))) (fun _ _ => by simp)
    rw [List.append_nil] at h2
    refine h2.trans ?_
    have : (m1.rows.flatMap fun r1 => m2.rows.flatMap fun r2 => [(r1, r2)]) = m1.rows ×ˢ m2.rows := by
      simp [SProd.sprod, List.product]
      congr 1
      funext r1
      induction m2.rows with
      | nil => rfl
      | cons a l ih => simp [ih]
    rw [this]

end RM
