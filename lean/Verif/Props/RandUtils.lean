import Verif.Proofs.Reservoir

/-!
# C04-C07: shuffling and sampling

`r : ℕ → ℕ` is the random stream: `r t` is the raw number behind the `t`-th `gen_range` call; all theorems hold for
every stream. For uniformity, `allDraws bound m` lists all sequences of `m` in-range draws.
-/

namespace RM
open Outcome Spec

variable {α : Type}

/-- C04: the in-place shuffle never panics and leaves a permutation of the input. -/
theorem C04_in_place_shuffle_is_permutation (r : ℕ → ℕ) (arr : List α) :
    ∃ out, inPlaceFisherYates r arr = ok out ∧ out.Perm arr :=
  ⟨_, inPlaceFisherYates_eq r arr, fyRec_perm r _ _ _ rfl⟩

/-- C04: every arrangement of distinct elements is produced by exactly one sequence of in-range draws
(iteration `t` draws from `[0, n - t)`), so independent uniform draws make all arrangements equally likely. -/
theorem C04_in_place_shuffle_uniform (arr out : List α) (hnd : arr.Nodup) (hp : out.Perm arr) :
    ∃! ds, ds ∈ allDraws (fun t => arr.length - t) arr.length ∧ inPlaceFisherYates (streamOf ds) arr = ok out := by
  obtain ⟨ds, h1, h2, h3⟩ := fyRec_bij arr.length arr out rfl hnd hp
  refine ⟨ds, ⟨mem_allDraws.2 h1, by rw [inPlaceFisherYates_eq, h2]⟩, ?_⟩
  rintro es ⟨he1, he2⟩
  rw [inPlaceFisherYates_eq] at he2
  exact h3 es (mem_allDraws.1 he1) (by simpa using he2)

/-- C04: the shuffle acts on positions only - it commutes with any relabelling of the elements - so uniformity for
distinct elements is uniformity over positions for any slice. -/
theorem C04_in_place_shuffle_natural {β : Type} (f : α → β) (r : ℕ → ℕ) (arr : List α) :
    inPlaceFisherYates r (arr.map f) = (List.map f) <$> inPlaceFisherYates r arr := by
  have key : ∀ m (i : ℕ) (l : List α), l.length = m → fyRec r i (l.map f) = (fyRec r i l).map f := by
    intro m
    induction m with
    | zero => intro i l hl; have := List.length_eq_zero_iff.1 hl; subst this; simp [fyRec]
    | succ m ih =>
      intro i l hl
      match l, hl with
      | x :: xs, hl =>
        simp at hl
        rw [List.map_cons, fyRec, fyRec]
        split
        · rename_i h1
          rw [List.length_map] at h1
          split
          · rw [ih _ _ hl, List.map_cons]
          · omega
        · rename_i k h1
          rw [List.length_map] at h1
          split
          · omega
          · rename_i k' h2
            have : k = k' := by omega
            subst this
            rw [List.map_cons, ← ih _ (xs.set k x) (by simpa using hl), List.map_set]
            simp
  simp only [inPlaceFisherYates_eq, ok_map]
  rw [key _ _ _ rfl]

/-- C05: the copying shuffle never reads an uninitialised slot (`ub`), never panics, and returns a permutation. -/
theorem C05_copy_shuffle_is_permutation (r : ℕ → ℕ) (arr : List α) :
    ∃ out, fisherYates r arr = ok out ∧ out.Perm arr :=
  ⟨_, fisherYates_eq r arr, by simpa using fyIn_perm r arr []⟩

/-- C05: exactly one sequence of in-range draws (iteration `t` draws from `[0, t]`) produces each arrangement. -/
theorem C05_copy_shuffle_uniform (arr out : List α) (hnd : arr.Nodup) (hp : out.Perm arr) :
    ∃! ds, ds ∈ allDraws (fun t => t + 1) arr.length ∧ fisherYates (streamOf ds) arr = ok out := by
  obtain ⟨ds, h1, h2, h3⟩ := fyIn_bij arr out hnd hp
  refine ⟨ds, ⟨mem_allDraws.2 h1, by rw [fisherYates_eq, h2]⟩, ?_⟩
  rintro es ⟨he1, he2⟩
  rw [fisherYates_eq] at he2
  exact h3 es (mem_allDraws.1 he1) (by simpa using he2)

/-- C06: for `k ≤ |pool|` the sample has `k` elements taken from distinct positions of the pool (`Subperm`: it can be
extended to a permutation of the pool), for every random stream. -/
theorem C06_sample_without_replacement (r : ℕ → ℕ) (pool : List α) (k : ℕ) (hk : k ≤ pool.length) :
    ∃ res, reservoirSample r pool k = ok res ∧ res.length = k ∧ res.Subperm pool :=
  reservoirSample_subperm r pool k hk

/-- C06: asking for more than the pool holds panics (and nothing else does, by `C06_sample_without_replacement`). -/
theorem C06_panics_when_too_large (r : ℕ → ℕ) (pool : List α) (k : ℕ) :
    reservoirSample r pool k = panic ↔ pool.length < k := by
  constructor
  · intro h
    by_contra hk
    obtain ⟨res, hres, _⟩ := reservoirSample_subperm r pool k (by omega)
    rw [hres] at h
    cases h
  · intro h
    simp [reservoirSample, show ¬ k ≤ pool.length by omega]

/-- C06: a full-size sample is the pool itself. -/
theorem C06_full_sample (r : ℕ → ℕ) (pool : List α) : reservoirSample r pool pool.length = ok pool := by
  rw [reservoirSample_eq r pool _ (le_refl _)]
  simp

/-- C06: every `k`-element subset of the pool is the sample for exactly `(n-k)!` of the equally likely draw sequences
(iteration `t` draws from `[0, k+t+1)`): the sample is uniform over subsets. -/
theorem C06_sample_uniform [DecidableEq α] (pool : List α) (hnd : pool.Nodup) (k : ℕ) (hk : k ≤ pool.length)
    (S : Finset α) (hS : S ⊆ pool.toFinset) (hc : S.card = k) :
    (allDraws (fun t => k + t + 1) (pool.length - k)).countP
      (fun ds => match reservoirSample (streamOf ds) pool k with
        | ok res => decide (res.toFinset = S)
        | _ => false) = Nat.factorial (pool.length - k) := by
  have h := reservoir_count k (pool.take k) (by simpa using hk) (pool.drop k) (by simpa using hnd) S (by simpa using hS) hc
  rw [List.length_drop] at h
  rw [← h]
  apply List.countP_congr
  intro ds hds
  obtain ⟨h1, h2⟩ := mem_allDraws.1 hds
  rw [reservoirSample_eq _ _ _ hk, ← h1, resDraws_streamOf k ds h2]

/-- The number of draw sequences considered in `C06_sample_uniform` times `k!` is `n!`; together they give each
`k`-subset probability `(n-k)!·k!/n!`. -/
theorem C06_number_of_draws (k m : ℕ) :
    (allDraws (fun t => k + t + 1) m).length * Nat.factorial k = Nat.factorial (k + m) := by
  induction m with
  | zero => simp [allDraws]
  | succ m ih =>
    rw [allDraws, List.length_flatMap]
    simp only [List.length_map, List.length_range]
    rw [List.map_const', List.sum_replicate, smul_eq_mul, ← Nat.add_assoc, Nat.factorial_succ, ← ih]
    ring

/-- C07: the Shuffler never fails or panics and returns the same rows, each intact, in some order. -/
theorem C07_shuffler_permutes_rows (r : ℕ → ℕ) (rows : List (List α)) :
    ∃ out, shufflerTransform r rows = ok out ∧ out.Perm rows :=
  C04_in_place_shuffle_is_permutation r rows

/-- C07: if the input is a matrix with `c` columns so is the output, with the same number of rows. -/
theorem C07_shuffler_keeps_shape (r : ℕ → ℕ) (rows out : List (List α)) (c : ℕ) (hc : ∀ row ∈ rows, row.length = c)
    (h : shufflerTransform r rows = ok out) : out.length = rows.length ∧ ∀ row ∈ out, row.length = c := by
  obtain ⟨o, ho, hp⟩ := C07_shuffler_permutes_rows r rows
  rw [ho] at h
  cases h
  exact ⟨hp.length_eq, fun row hrow => hc row (hp.mem_iff.1 hrow)⟩

/-- C07: every order of the rows is reachable. -/
theorem C07_shuffler_reaches_every_order (rows out : List (List α)) (hp : out.Perm rows) :
    ∃ r : ℕ → ℕ, shufflerTransform r rows = ok out := by
  have hp' : out.Perm ((List.finRange rows.length).map rows.get) := by
    rw [List.map_get_finRange]; exact hp
  obtain ⟨idx, hidx, hout⟩ := perm_map_lift hp' _ rfl
  obtain ⟨ds, ⟨-, hds⟩, -⟩ := C04_in_place_shuffle_uniform _ idx (List.nodup_finRange _) hidx
  refine ⟨streamOf ds, ?_⟩
  have := C04_in_place_shuffle_natural rows.get (streamOf ds) (List.finRange rows.length)
  rw [List.map_get_finRange, hds, ok_map, hout] at this
  exact this

example : shufflerTransform (fun t => 2 - t) [[1, 2], [3, 4], [5, 6]] = ok [[5, 6], [1, 2], [3, 4]] := by decide
example : inPlaceFisherYates (streamOf [2, 0, 0]) [10, 20, 30] = ok [30, 20, 10] := by decide
example : [2, 0, 0] ∈ allDraws (fun t => 3 - t) 3 := by decide
example : fisherYates (streamOf [0, 0, 1]) [10, 20, 30] = ok [20, 30, 10] := by decide
example : reservoirSample (streamOf [1, 3]) [1, 2, 3, 4] 2 = ok [1, 3] := by decide
example : reservoirSample (streamOf []) [1, 2] 3 = panic := by decide

end RM
