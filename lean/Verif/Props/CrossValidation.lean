import Verif.Proofs.CrossValidation

/-! # C01-C03: k-fold cross validation -/

namespace RM
open Outcome Spec

/-- The folds `k_fold_validate` iterates over: shuffle, construct, collect (the loop header of lines 57-63). -/
def allFolds (r : ℕ → ℕ) (n k : ℕ) : Outcome (List Partition) := do
  let idx ← createShuffledIndices r n
  let f ← Folds.new idx k
  f.collect

theorem createShuffledIndices_perm (r : ℕ → ℕ) (n : ℕ) :
    ∃ idx, createShuffledIndices r n = ok idx ∧ idx.Perm (List.range n) :=
  ⟨_, inPlaceFisherYates_eq r _, fyRec_perm r _ _ _ rfl⟩

/-- C01 + C02: for every shuffle and every admissible `k` the iteration yields (without any out-of-range slice) a legal
k-fold division: `k` folds, every sample tested exactly once, train = complement of test, balanced sizes. -/
theorem C01_C02_folds_are_a_k_fold_division (r : ℕ → ℕ) (n k : ℕ) (h1 : 1 < k) (hn : k ≤ n) :
    ∃ folds, allFolds r n k = ok folds ∧ IsKFold n k folds := by
  obtain ⟨idx, h, hp⟩ := createShuffledIndices_perm r n
  have hlen : idx.length = n := by simpa using hp.length_eq
  refine ⟨_, ?_, isKFold_of_perm (by omega) hp⟩
  simp [allFolds, h, Folds.new, hlen, h1, hn, collect_eq idx k k 0 (by omega)]

/-- C01: the test folds are pairwise disjoint and every index below `n` is in exactly one of them. -/
theorem C01_each_sample_tested_once (r : ℕ → ℕ) (n k : ℕ) (h1 : 1 < k) (hn : k ≤ n) :
    ∃ folds, allFolds r n k = ok folds ∧
      folds.Pairwise (fun p q => List.Disjoint p.test q.test) ∧
      (∀ p ∈ folds, p.test.Nodup) ∧
      ∀ i, i < n ↔ ∃ p ∈ folds, i ∈ p.test := by
  obtain ⟨folds, h, hk⟩ := C01_C02_folds_are_a_k_fold_division r n k h1 hn
  have hnd : (folds.flatMap Partition.test).Nodup := hk.tests.nodup_iff.2 List.nodup_range
  rw [List.nodup_flatMap] at hnd
  refine ⟨folds, h, hnd.2, hnd.1, ?_⟩
  intro i
  have := hk.tests.mem_iff (a := i)
  simp only [List.mem_range, List.mem_flatMap] at this
  exact this.symm

/-- C02: in each fold the training indices are exactly the indices that are not tested, each once. -/
theorem C02_train_is_complement (r : ℕ → ℕ) (n k : ℕ) (h1 : 1 < k) (hn : k ≤ n) :
    ∃ folds, allFolds r n k = ok folds ∧ ∀ p ∈ folds,
      p.train.Nodup ∧ p.train.length + p.test.length = n ∧ ∀ i, i ∈ p.train ↔ (i < n ∧ i ∉ p.test) := by
  obtain ⟨folds, h, hk⟩ := C01_C02_folds_are_a_k_fold_division r n k h1 hn
  refine ⟨folds, h, ?_⟩
  intro p hp
  have hc := hk.complementary p hp
  have hnd := List.nodup_append.1 (hc.nodup_iff.2 List.nodup_range)
  refine ⟨hnd.1, by simpa using hc.length_eq, ?_⟩
  intro i
  have hm := hc.mem_iff (a := i)
  simp only [List.mem_append, List.mem_range] at hm
  constructor
  · intro hi
    exact ⟨hm.1 (Or.inl hi), fun h2 => hnd.2.2 i hi i h2 rfl⟩
  · rintro ⟨hi, hni⟩
    exact (hm.2 hi).resolve_right hni

/-- C02: `k ≤ 1` and `k > n` are refused by a panic, and nothing else is. -/
theorem C02_rejects_exactly_bad_k (r : ℕ → ℕ) (n k : ℕ) : allFolds r n k = panic ↔ (k ≤ 1 ∨ n < k) := by
  constructor
  · intro h
    by_contra hc
    obtain ⟨folds, hf, _⟩ := C01_C02_folds_are_a_k_fold_division r n k (by omega) (by omega)
    rw [hf] at h
    cases h
  · intro h
    obtain ⟨idx, hi, hp⟩ := createShuffledIndices_perm r n
    have hlen : idx.length = n := by simpa using hp.length_eq
    have : (decide (k > 1) && decide (idx.length ≥ k)) = false := by
      rw [hlen]; simp; omega
    rw [allFolds, hi, ok_bind]
    simp only [Folds.new, this, assert_false, panic_bind]

/-- C03: whatever the model, the score function and the shuffle, `k_fold_validate` behaves as "per fold of some legal
k-fold division: train on the rows outside the fold, predict and score the rows inside, stop at the first failure". -/
theorem C03_validate_runs_the_folds {σ X Y S : Type} (r : ℕ → ℕ) (M : SupModel σ X Y) (s : σ) (inputs : List X)
    (targets : List Y) (k : ℕ) (score : List Y → List Y → Outcome S) (hrows : inputs.length = targets.length)
    (h1 : 1 < k) (hn : k ≤ inputs.length) :
    ∃ folds s' res, IsKFold inputs.length k folds ∧
      Runs M inputs targets score folds s s' res ∧
      kFoldValidate r M s inputs targets k score = (s', res) := by
  obtain ⟨idx, hi, hp⟩ := createShuffledIndices_perm r inputs.length
  have hlen : idx.length = inputs.length := by simpa using hp.length_eq
  have hlt : ∀ i ∈ idx, i < inputs.length := fun i h => List.mem_range.1 (hp.mem_iff.1 h)
  obtain ⟨s', res, hr1, hr2⟩ := kFoldLoop_runs M inputs targets score idx hlt (hrows ▸ hlt) k k 0 s [] (by omega)
  refine ⟨_, s', res, isKFold_of_perm (by omega) hp, hr2, ?_⟩
  have : (do
    assert (decide (inputs.length = targets.length))
    let shuffled ← createShuffledIndices r inputs.length
    Folds.new shuffled k) = ok ⟨k, idx, 0⟩ := by
    simp only [hrows, decide_true, assert_true, ok_bind]
    rw [← hrows, hi, ok_bind]
    simp [Folds.new, hlen, h1, hn]
  rw [kFoldValidate, this]
  simp only [hr1, List.nil_append]
  cases res <;> rfl

/-- C03: a successful validation reports exactly one score per fold. -/
theorem C03_one_score_per_fold {σ X Y S : Type} {M : SupModel σ X Y} {inputs : List X} {targets : List Y}
    {score : List Y → List Y → Outcome S} {folds : List Partition} {s s' : σ} {costs : List S} {res : Outcome (List S)}
    (h : Runs M inputs targets score folds s s' res) (hres : res = ok costs) : costs.length = folds.length := by
  induction h generalizing costs with
  | done s => cases hres; rfl
  | fold _ _ _ _ _ _ _ _ ih =>
    obtain ⟨cs, h1, h2⟩ := bind_eq_ok.1 hres
    cases h2
    simp [ih h1]
  | @trainStops p ps s s' xs ys bad res hx hy htrain hbad hr =>
    rw [hr] at hres
    obtain ⟨u, h1, _⟩ := bind_eq_ok.1 hres
    exact absurd h1 hbad
  | @testStops p ps s s' xs ys tx ty bad res hx hy htx hty htrain hb hne hr =>
    rw [hr] at hres
    obtain ⟨u, h1, _⟩ := bind_eq_ok.1 hres
    exact absurd h1 (hne u)

/-- C03: mismatched row counts, `k ≤ 1` and `k > n` panic before the model is touched. -/
theorem C03_rejects_bad_arguments {σ X Y S : Type} (r : ℕ → ℕ) (M : SupModel σ X Y) (s : σ) (inputs : List X)
    (targets : List Y) (k : ℕ) (score : List Y → List Y → Outcome S)
    (h : inputs.length ≠ targets.length ∨ k ≤ 1 ∨ inputs.length < k) :
    kFoldValidate r M s inputs targets k score = (s, panic) := by
  have : (do
    assert (decide (inputs.length = targets.length))
    let shuffled ← createShuffledIndices r inputs.length
    Folds.new shuffled k) = panic := by
    by_cases he : inputs.length = targets.length
    · obtain ⟨idx, hi, hp⟩ := createShuffledIndices_perm r inputs.length
      have hlen : idx.length = inputs.length := by simpa using hp.length_eq
      have hk : (decide (k > 1) && decide (idx.length ≥ k)) = false := by
        rw [hlen]; simp; omega
      simp only [he, decide_true, assert_true, ok_bind]
      rw [← he, hi, ok_bind]
      simp only [Folds.new, hk, assert_false, panic_bind]
    · simp [he]
  rw [kFoldValidate, this]

/-- Concrete division of 5 samples into 2 folds (sizes 3 and 2). -/
example : allFolds (fun _ => 1) 5 2 = ok [⟨[4, 0], [1, 2, 3]⟩, ⟨[1, 2, 3], [4, 0]⟩] := by decide +kernel

/-- A concrete model (predicts the mean of its training targets) and its scores. -/
example : (kFoldValidate (fun _ => 1) (⟨fun _ _ ys => (ys.sum, ok ()), fun s xs => ok (xs.map fun _ => s)⟩ : SupModel ℕ ℕ ℕ)
    0 [10, 11, 12] [1, 2, 3] 3 (fun o t => ok (o.sum + 100 * t.sum))).2 = ok [204, 303, 105] := by decide +kernel

/-! ### The iterators over the indices of a fold -/

/-- From the state `s` the iterator with the step `next` yields the items `l` and then ends. -/
inductive Spec.Yields {σ α : Type} (next : σ → Option (α × σ)) : σ → List α → Prop
  | done {s : σ} (h : next s = none) : Yields next s []
  | item {s s' : σ} {a : α} {l : List α} (h : next s = some (a, s')) (t : Yields next s' l) : Yields next s (a :: l)

/-- C02: the iterators of a fold that nobody has advanced yet yield exactly the indices of the training and the test set that the model's
`Partition` lists, in that order, and say beforehand how many these are, which is how many rows `select_rows` makes. The length of a test
iterator stays right after any number of steps. That of a training iterator is never adjusted, so it is too large by the number of steps. -/
theorem C02_index_iterators (left right test : List ℕ) :
    Yields TrainingIndices.next (TrainingIndices.new left right) (left ++ right) ∧ (TrainingIndices.new left right).len = (left ++ right).length ∧
    Yields TestIndices.next (TestIndices.new test) test ∧ (∀ t l, Yields TestIndices.next t l → t.len = l.length) ∧
    (∀ t i t', TrainingIndices.next t = some (i, t') → t'.len = t.len) := by
  refine ⟨?_, by simp [TrainingIndices.new, TrainingIndices.len], ?_, ?_, ?_⟩
  · have key : ∀ (n : ℕ) (left right : List ℕ), Yields TrainingIndices.next ⟨left, right, n⟩ (left ++ right) := by
      intro n left
      induction left with
      | cons a l ih => exact fun right => .item rfl (ih right)
      | nil =>
        intro right
        induction right with
        | nil => exact .done rfl
        | cons a l ih => exact .item rfl ih
    exact key _ left right
  · unfold TestIndices.new
    induction test with
    | nil => exact .done rfl
    | cons a l ih => exact .item rfl ih
  · intro t l h
    induction h with
    | @done s h =>
      obtain ⟨r⟩ := s
      cases r with
      | nil => rfl
      | cons a r => cases h
    | @item s s' a l h t ih =>
      obtain ⟨r⟩ := s
      cases r with
      | nil => cases h
      | cons b r =>
        cases h
        show r.length + 1 = l.length + 1
        rw [← ih]
        rfl
  · intro t i t' h
    obtain ⟨l, r, n⟩ := t
    cases l with
    | cons a l => cases h; rfl
    | nil =>
      cases r with
      | cons a r => cases h; rfl
      | nil => cases h

/-- The third fold of ten samples in five folds. -/
example : Yields TrainingIndices.next (TrainingIndices.new [7, 3, 0, 9] [1, 2, 8, 6]) [7, 3, 0, 9, 1, 2, 8, 6] := (C02_index_iterators _ _ []).1

end RM
