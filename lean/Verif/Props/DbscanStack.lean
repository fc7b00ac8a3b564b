import Verif.Model.DbscanStack
import Verif.Props.Dbscan

/-! C120: how much stack the training of DBSCAN needs. -/

namespace RM
open Outcome Scalar Spec
variable {F : Type} [Scalar F]

/-- The number of points not visited. -/
def unvisited (st : DbState) : ℕ := st.visited.count false

theorem visit_count {eps : F} {X : Mat F} {d : ℕ} {st st' : DbState} {sub : List ℕ} (h : visitPoint eps X d st = ok (some (st', sub))) :
    unvisited st' + 1 = unvisited st := by
  unfold visitPoint getAt at h
  cases hv : st.visited[d]? with
  | none => rw [hv] at h; cases h
  | some b =>
    rw [hv] at h
    cases b with
    | true => cases h
    | false =>
      obtain ⟨hd, hb⟩ := List.getElem?_eq_some_iff.1 hv
      have hset : setAt st.visited d true = ok (st.visited.set d true) := by simp [setAt, hd]
      simp only [ofOption, ok_bind, hset, Bool.false_eq_true, if_false] at h
      cases hr : X.rows[d]? with
      | none => rw [hr] at h; cases h
      | some row =>
        rw [hr] at h
        simp only at h
        cases hq : regionQuery eps row X with
        | ok s =>
          rw [hq] at h
          simp only [ok_bind, ok.injEq, Option.some.injEq, Prod.mk.injEq] at h
          obtain ⟨rfl, -⟩ := h
          unfold unvisited
          simp only
          rw [List.count_set hd, hb]
          have : 0 < st.visited.count false := List.count_pos_iff.2 (hb ▸ List.getElem_mem hd)
          simp
          omega
        | err e => rw [hq] at h; cases h
        | panic => rw [hq] at h; cases h
        | ub => rw [hq] at h; cases h

theorem label_count {d c : ℕ} {st st' : DbState} (h : labelPoint d c st = ok st') : unvisited st' = unvisited st := by
  unfold labelPoint setAt at h
  split at h
  · simp only [ok_bind, ok.injEq] at h
    rw [← h]
    rfl
  · cases h

theorem expandFrames_enough (eps : F) (mp : ℕ) (X : Mat F) (c : ℕ) : ∀ (frames : ℕ) (nbrs : List ℕ) (st : DbState), unvisited st ≤ frames →
    expandFrames eps mp X c frames nbrs st ≠ none ∧ ∀ st', expandFrames eps mp X c frames nbrs st = some (ok st') → unvisited st' ≤ unvisited st := by
  intro frames
  induction frames with
  | zero =>
    intro nbrs
    induction nbrs with
    | nil => intro st h; rw [expandFrames]; exact ⟨by simp, fun st' h => by cases h; exact le_rfl⟩
    | cons d rest ih =>
      intro st h
      rw [expandFrames]
      cases hv : visitPoint eps X d st with
      | ok r =>
        cases r with
        | none => exact ih st h
        | some q =>
          obtain ⟨st', sub⟩ := q
          have := visit_count hv
          omega
      | err e => exact ⟨by simp, fun st' h => by cases h⟩
      | panic => exact ⟨by simp, fun st' h => by cases h⟩
      | ub => exact ⟨by simp, fun st' h => by cases h⟩
  | succ frames ihf =>
    intro nbrs
    induction nbrs with
    | nil => intro st h; rw [expandFrames]; exact ⟨by simp, fun st' h => by cases h; exact le_rfl⟩
    | cons d rest ih =>
      intro st h
      rw [expandFrames]
      cases hv : visitPoint eps X d st with
      | ok r =>
        cases r with
        | none => exact ih st h
        | some q =>
          obtain ⟨st', sub⟩ := q
          have hc := visit_count hv
          simp only
          split
          · cases hl : labelPoint d c st' with
            | ok st'' =>
              have hlc := label_count hl
              obtain ⟨h1, h2⟩ := ihf sub st'' (by omega)
              simp only
              cases he : expandFrames eps mp X c frames sub st'' with
              | none => exact absurd he h1
              | some o =>
                cases o with
                | ok st3 =>
                  have := h2 st3 he
                  obtain ⟨h3, h4⟩ := ih st3 (by omega)
                  exact ⟨h3, fun st4 h => (h4 st4 h).trans (by omega)⟩
                | err e => exact ⟨by simp, fun st' h => by cases h⟩
                | panic => exact ⟨by simp, fun st' h => by cases h⟩
                | ub => exact ⟨by simp, fun st' h => by cases h⟩
            | err e => exact ⟨by simp, fun st' h => by cases h⟩
            | panic => exact ⟨by simp, fun st' h => by cases h⟩
            | ub => exact ⟨by simp, fun st' h => by cases h⟩
          · obtain ⟨h3, h4⟩ := ih st' (by omega)
            exact ⟨h3, fun st4 h => (h4 st4 h).trans (by omega)⟩
      | err e => exact ⟨by simp, fun st' h => by cases h⟩
      | panic => exact ⟨by simp, fun st' h => by cases h⟩
      | ub => exact ⟨by simp, fun st' h => by cases h⟩

/-- A run that ends without overflow is the run of the model. -/
theorem expandFrames_run (eps : F) (mp : ℕ) (X : Mat F) (c : ℕ) : ∀ (fuel frames : ℕ) (nbrs : List ℕ) (st : DbState) (r : Outcome DbState),
    expandLoop eps mp X c fuel nbrs st = some r → expandFrames eps mp X c frames nbrs st ≠ none → expandFrames eps mp X c frames nbrs st = some r := by
  intro fuel
  induction fuel with
  | zero =>
    intro frames nbrs st r h hn
    cases nbrs with
    | nil => rw [expandFrames]; exact h
    | cons d rest => cases h
  | succ fuel ih =>
    intro frames nbrs st r h hn
    cases nbrs with
    | nil => rw [expandFrames]; exact h
    | cons d rest =>
      rw [expandFrames] at hn ⊢
      rw [expandLoop] at h
      cases hv : visitPoint eps X d st with
      | ok q =>
        rw [hv] at h hn
        cases q with
        | none => exact ih _ _ _ _ h hn
        | some q =>
          obtain ⟨st', sub⟩ := q
          simp only at h hn ⊢
          by_cases hs : sub.length ≥ mp
          · rw [if_pos hs] at h hn ⊢
            cases frames with
            | zero => exact absurd rfl hn
            | succ frames =>
              simp only at hn ⊢
              cases hl : labelPoint d c st' with
              | ok st'' =>
                rw [hl] at h hn
                simp only at h hn ⊢
                have hne : expandFrames eps mp X c frames sub st'' ≠ none := by
                  intro he
                  rw [he] at hn
                  exact hn rfl
                cases he : expandLoop eps mp X c fuel sub st'' with
                | none => rw [he] at h; cases h
                | some o =>
                  rw [he] at h
                  rw [ih _ _ _ _ he hne] at hn ⊢
                  cases o with
                  | ok st3 => exact ih _ _ _ _ h hn
                  | err e => exact h
                  | panic => exact h
                  | ub => exact h
              | err e => rw [hl] at h; exact h
              | panic => rw [hl] at h; exact h
              | ub => rw [hl] at h; exact h
          · rw [if_neg hs] at h hn ⊢
            exact ih _ _ _ _ h hn
      | err e => rw [hv] at h; exact h
      | panic => rw [hv] at h; exact h
      | ub => rw [hv] at h; exact h

theorem trainFrames_run (eps : F) (mp : ℕ) (X : Mat F) (fuel frames : ℕ) : ∀ (l : List ℕ) (c : ℕ) (st : DbState) (r : Outcome DbState),
    unvisited st ≤ frames → dbTrainLoop eps mp X fuel l c st = some r → trainFrames eps mp X frames l c st = some r := by
  intro l
  induction l with
  | nil => intro c st r _ h; exact h
  | cons d rest ih =>
    intro c st r hu h
    rw [trainFrames]
    rw [dbTrainLoop] at h
    cases hv : visitPoint eps X d st with
    | ok q =>
      rw [hv] at h
      cases q with
      | none => exact ih _ _ _ hu h
      | some q =>
        obtain ⟨st', sub⟩ := q
        have hc := visit_count hv
        simp only at h ⊢
        by_cases hs : sub.length ≥ mp
        · rw [if_pos hs] at h ⊢
          rw [if_neg (by omega)]
          unfold expandCluster at h
          cases hl : labelPoint d c st' with
          | ok st'' =>
            rw [hl] at h
            simp only at h ⊢
            have hlc := label_count hl
            obtain ⟨h1, h2⟩ := expandFrames_enough eps mp X c (frames - 1) sub st'' (by omega)
            cases he : expandLoop eps mp X c fuel sub st'' with
            | none => rw [he] at h; cases h
            | some o =>
              rw [he] at h
              have hr := expandFrames_run eps mp X c _ _ _ _ _ he h1
              rw [hr]
              cases o with
              | ok st3 =>
                have := h2 st3 hr
                exact ih _ _ _ (by omega) h
              | err e => exact h
              | panic => exact h
              | ub => exact h
          | err e => rw [hl] at h; exact h
          | panic => rw [hl] at h; exact h
          | ub => rw [hl] at h; exact h
        · rw [if_neg hs] at h ⊢
          exact ih _ _ _ (by omega) h
    | err e => rw [hv] at h; exact h
    | panic => rw [hv] at h; exact h
    | ub => rw [hv] at h; exact h

/-- **C120 (enough stack).** In any arithmetic and on any data: with room for one call of `expand_cluster` for each sample, training does not overflow
the stack, and its result is the one of C26. -/
theorem C120_enough (fuel : ℕ) (m : Dbscan F) (X : Mat F) (r : Outcome (Dbscan F)) (h : dbTrain fuel m X = some r) (frames : ℕ)
    (hf : X.rows.length ≤ frames) : dbTrainFrames frames m X = some r := by
  unfold dbTrain at h
  unfold dbTrainFrames
  simp only at h ⊢
  cases hr : dbTrainLoop m.eps m.minPoints X fuel (List.range X.rows.length) 0 ⟨List.replicate X.rows.length false, List.replicate X.rows.length none⟩ with
  | none => rw [hr] at h; cases h
  | some o =>
    rw [trainFrames_run _ _ _ fuel frames _ _ _ _ (by simp [unvisited]; exact hf) hr]
    rw [hr] at h
    cases o <;> exact h

/-- The points `0, 1, ..., n - 1` on a line. -/
def Spec.linePoints (n : ℕ) : Mat ℝ := ⟨1, (List.range n).map fun i : ℕ => [(i : ℝ)]⟩

theorem line_length (n : ℕ) : (linePoints n).rows.length = n := by simp [linePoints]

theorem line_wf (n : ℕ) : (linePoints n).WF := by
  intro r hr
  simp only [linePoints, List.mem_map] at hr
  obtain ⟨i, -, rfl⟩ := hr
  rfl

theorem line_nb (n j : ℕ) (hj : j < n) (i : ℕ) : i ∈ nbF (3 / 2 : ℝ) (linePoints n) j ↔ i < n ∧ i ≤ j + 1 ∧ j ≤ i + 1 := by
  rw [mem_nbF]
  have hl : (linePoints n).rows.length = n := by simp [linePoints]
  rw [hl]
  refine and_congr_right fun hi => ?_
  have e (k : ℕ) (hk : k < n) : (linePoints n).rows.getD k [] = [(k : ℝ)] := by
    simp [linePoints, hk]
  have hd : (nearF (3 / 2 : ℝ) (linePoints n) j i) ↔ |(i : ℝ) - j| < 3 / 2 := by
    rw [nearF, e i hi, e j hj]
    simp [dbD, dot, fsum, Real.sqrt_mul_self_eq_abs]
  rw [hd, abs_lt]
  constructor
  · rintro ⟨h1, h2⟩
    constructor
    · by_contra hc
      have : (j : ℝ) + 2 ≤ i := by exact_mod_cast (by omega : j + 2 ≤ i)
      linarith
    · by_contra hc
      have : (i : ℝ) + 2 ≤ j := by exact_mod_cast (by omega : i + 2 ≤ j)
      linarith
  · rintro ⟨h1, h2⟩
    have h1' : (i : ℝ) ≤ j + 1 := by exact_mod_cast h1
    have h2' : (j : ℝ) ≤ i + 1 := by exact_mod_cast h2
    constructor <;> linarith

theorem line_core (n j : ℕ) (hn : 2 ≤ n) (hj : j < n) : 2 ≤ (nbF (3 / 2 : ℝ) (linePoints n) j).length := by
  have hnd : (nbF (3 / 2 : ℝ) (linePoints n) j).Nodup := List.nodup_range.filter _
  rw [← List.toFinset_card_of_nodup hnd]
  obtain ⟨k, hk, hkj⟩ : ∃ k, k ∈ nbF (3 / 2 : ℝ) (linePoints n) j ∧ k ≠ j := by
    by_cases h : j + 1 < n
    · exact ⟨j + 1, (line_nb n j hj _).2 ⟨h, by omega, by omega⟩, by omega⟩
    · exact ⟨j - 1, (line_nb n j hj _).2 ⟨by omega, by omega, by omega⟩, by omega⟩
  have hsub : ({j, k} : Finset ℕ) ⊆ (nbF (3 / 2 : ℝ) (linePoints n) j).toFinset := by
    intro x hx
    rw [Finset.mem_insert, Finset.mem_singleton] at hx
    rcases hx with rfl | rfl
    · exact List.mem_toFinset.2 ((line_nb n x hj _).2 ⟨hj, by omega, by omega⟩)
    · exact List.mem_toFinset.2 hk
  have := Finset.card_le_card hsub
  rwa [Finset.card_pair hkj.symm] at this

theorem expandFrames_skip {eps : F} {mp : ℕ} {X : Mat F} {c frames : ℕ} {st : DbState} (l1 l2 : List ℕ) (h : ∀ x ∈ l1, DV st x) :
    expandFrames eps mp X c frames (l1 ++ l2) st = expandFrames eps mp X c frames l2 st := by
  induction l1 with
  | nil => rfl
  | cons d l1 ih =>
    rw [List.cons_append, expandFrames, visitPoint_visited (h d (by simp))]
    exact ih fun x hx => h x (by simp [hx])

theorem line_overflow (n mp c : ℕ) (hn : 2 ≤ n) (hmp : mp ≤ 2) : ∀ (f j : ℕ) (st : DbState), DOk n st → (∀ x, DV st x ↔ x ≤ j) → j + 1 + f < n →
    expandFrames (3 / 2 : ℝ) mp (linePoints n) c f (nbF (3 / 2 : ℝ) (linePoints n) j) st = none := by
  have hl : (linePoints n).rows.length = n := by simp [linePoints]
  have hN := nbrOf (3 / 2 : ℝ) (linePoints n) (line_wf n)
  rw [hl] at hN
  intro f
  induction f with
  | zero =>
    intro j st hok hv hj
    have hmem := (line_nb n j (by omega) (j + 1)).2 ⟨by omega, by omega, by omega⟩
    obtain ⟨s, t, hst⟩ := List.append_of_mem hmem
    have hp : (nbF (3 / 2 : ℝ) (linePoints n) j).Pairwise (· < ·) := List.pairwise_lt_range.filter _
    rw [hst] at hp ⊢
    have hs : ∀ x ∈ s, x < j + 1 := fun x hx => (List.pairwise_append.1 hp).2.2 x hx (j + 1) (by simp)
    rw [expandFrames_skip s _ fun x hx => (hv x).2 (by have := hs x hx; omega), expandFrames,
      visitPoint_new hN hok (by omega) (by rw [hv]; omega)]
    simp only
    rw [if_pos (hmp.trans (line_core n (j + 1) hn (by omega)))]
  | succ f ih =>
    intro j st hok hv hj
    have hmem := (line_nb n j (by omega) (j + 1)).2 ⟨by omega, by omega, by omega⟩
    obtain ⟨s, t, hst⟩ := List.append_of_mem hmem
    have hp : (nbF (3 / 2 : ℝ) (linePoints n) j).Pairwise (· < ·) := List.pairwise_lt_range.filter _
    rw [hst] at hp ⊢
    have hs : ∀ x ∈ s, x < j + 1 := fun x hx => (List.pairwise_append.1 hp).2.2 x hx (j + 1) (by simp)
    have hlen : j + 1 < st.visited.length := by rw [hok.1]; omega
    rw [expandFrames_skip s _ fun x hx => (hv x).2 (by have := hs x hx; omega), expandFrames,
      visitPoint_new hN hok (by omega) (by rw [hv]; omega)]
    simp only
    rw [if_pos (hmp.trans (line_core n (j + 1) hn (by omega))), labelPoint_ok (by simp only; rw [hok.2]; omega)]
    simp only
    rw [ih (j + 1) _ ⟨by simp [hok.1], by simp [hok.2]⟩ (fun x => by rw [dv_set _ hlen, hv]; omega) (by omega)]

/-- **C120 (no less).** For every number of samples there are data - points in a row, each within reach of the next - whose training overflows the
stack unless it has room for one call for each sample. -/
theorem C120_tight (n : ℕ) (hn : 2 ≤ n) (m : Dbscan ℝ) (heps : m.eps = 3 / 2) (hmp : m.minPoints ≤ 2) (frames : ℕ) :
    dbTrainFrames frames m (linePoints n) = none ↔ frames < n := by
  have hl : (linePoints n).rows.length = n := by simp [linePoints]
  have hN := nbrOf (3 / 2 : ℝ) (linePoints n) (line_wf n)
  rw [hl] at hN
  constructor
  · intro h
    by_contra hc
    obtain ⟨labels, -, ⟨fuel, hfuel⟩, -⟩ := C26_train m (linePoints n) (line_wf n)
    obtain ⟨m', hm'⟩ := hfuel fuel le_rfl
    rw [C120_enough fuel m _ _ hm' frames (by rw [hl]; omega)] at h
    cases h
  · intro h
    have hok : DOk n ⟨List.replicate n false, List.replicate n none⟩ := ⟨by simp, by simp⟩
    have hv0 : ∀ x, ¬ DV ⟨List.replicate n false, List.replicate n none⟩ x := by
      intro x h
      unfold DV at h
      simp only [List.getElem?_replicate] at h
      split at h <;> simp at h
    unfold dbTrainFrames
    simp only
    rw [hl, heps, show List.range n = 0 :: (List.range (n - 1)).map (· + 1) by
      obtain ⟨k, rfl⟩ : ∃ k, n = k + 1 := ⟨n - 1, by omega⟩
      rw [List.range_succ_eq_map]
      rfl, trainFrames, visitPoint_new hN hok (by omega) (hv0 0)]
    simp only
    rw [if_pos (hmp.trans (line_core n 0 hn (by omega)))]
    by_cases h0 : frames = 0
    · rw [if_pos h0]
    · rw [if_neg h0, labelPoint_ok (by simp; omega)]
      simp only
      rw [line_overflow n m.minPoints 0 hn hmp (frames - 1) 0 _ ⟨by simp, by simp⟩ (fun x => by
        rw [dv_set (st := ⟨List.replicate n false, List.replicate n none⟩) _ (by simp; omega)]
        constructor
        · rintro (h | h)
          · omega
          · exact absurd h (hv0 x)
        · intro h
          left
          omega) (by omega)]

/-- **C120 (real data).** In real arithmetic, training on any data ends normally with room for as many calls as there are samples. -/
theorem C120_ends (m : Dbscan ℝ) (X : Mat ℝ) (hw : X.WF) (frames : ℕ) (hf : X.rows.length ≤ frames) :
    ∃ m' labels, dbTrainFrames frames m X = some (ok m') ∧ m'.clusters = some labels ∧
      IsDensityClustering X.rows.length m.minPoints (NearR m.eps X) labels := by
  obtain ⟨labels, hl, ⟨fuel, hfuel⟩, hu⟩ := C26_train m X hw
  obtain ⟨m', hm'⟩ := hfuel fuel le_rfl
  obtain ⟨m'', h1, h2⟩ := hu fuel _ hm'
  cases h1
  exact ⟨m', labels, C120_enough fuel m X _ hm' frames hf, h2, hl⟩

/-- Non-vacuity of C120: a thousand points on a line need a thousand nested calls. -/
example : dbTrainFrames 999 (⟨3 / 2, 2, none, false, [], none⟩ : Dbscan ℝ) (linePoints 1000) = none ∧
    ∃ m', dbTrainFrames 1000 (⟨3 / 2, 2, none, false, [], none⟩ : Dbscan ℝ) (linePoints 1000) = some (ok m') := by
  refine ⟨(C120_tight 1000 (by norm_num) _ rfl le_rfl 999).2 (by norm_num), ?_⟩
  obtain ⟨labels, -, ⟨fuel, hfuel⟩, -⟩ := C26_train (⟨3 / 2, 2, none, false, [], none⟩ : Dbscan ℝ) (linePoints 1000) (line_wf 1000)
  obtain ⟨m', hm'⟩ := hfuel fuel le_rfl
  exact ⟨m', C120_enough fuel _ _ _ hm' 1000 (line_length 1000).le⟩

end RM
