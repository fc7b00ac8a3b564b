import Verif.Props.CrossValidation
import Verif.Props.RandUtils
import Mathlib.Data.List.Permutation
import Mathlib.Logic.Equiv.Fintype
import Mathlib.Data.Nat.Choose.Basic
import Mathlib.Data.Finset.Powerset
import Mathlib.Algebra.BigOperators.Field
import Mathlib.Data.Real.Basic
import Mathlib.Combinatorics.Enumerative.DoubleCounting
import Mathlib.Algebra.Group.End
import Mathlib.Tactic.FieldSimp

/-! C109: the random division into folds is fair. Probabilities are counts over all equally likely sequences of draws of the shuffle (`allDraws`). -/

namespace RM
open Outcome Spec

/-! ### Specification -/

/-- The samples tested in fold `i`, as a set. -/
def Spec.testSet (o : Outcome (List Partition)) (i : ℕ) : Finset ℕ :=
  match o with
  | .ok folds => match folds[i]? with
    | some p => p.test.toFinset
    | none => ∅
  | _ => ∅

/-- The number of samples tested in fold `i` of `k` folds of `n` samples. -/
def Spec.testSize (n k i : ℕ) : ℕ := n / k + if i < n % k then 1 else 0

/-- All sequences of draws that the shuffle of `n` samples can see; they are equally likely. -/
def Spec.shuffleDraws (n : ℕ) : List (List ℕ) := allDraws (fun t => n - t) n

/-! ### From draws to arrangements -/

theorem draws_perm (n : ℕ) : ((shuffleDraws n).map fun ds => fyRec (streamOf ds) 0 (List.range n)).Perm (List.range n).permutations := by
  have hbij := fyRec_bij n (List.range n)
  refine (List.perm_ext_iff_of_nodup ?_ (List.nodup_permutations _ List.nodup_range)).2 ?_
  · refine List.Nodup.map_on ?_ (nodup_allDraws _ _)
    intro a ha b hb hab
    obtain ⟨ds, -, -, h3⟩ := hbij (fyRec (streamOf a) 0 (List.range n)) (by simp) List.nodup_range (fyRec_perm _ n _ _ (by simp))
    rw [h3 a (mem_allDraws.1 ha) rfl, h3 b (mem_allDraws.1 hb) hab.symm]
  · intro l
    rw [List.mem_permutations, List.mem_map]
    constructor
    · rintro ⟨ds, -, rfl⟩
      exact fyRec_perm _ n _ _ (by simp)
    · intro hl
      obtain ⟨ds, h1, h2, -⟩ := hbij l (by simp) List.nodup_range hl
      exact ⟨ds, mem_allDraws.2 h1, h2⟩

/-- All arrangements of the samples. -/
def arrangements (n : ℕ) : Finset (List ℕ) := (List.range n).permutations.toFinset

theorem mem_arrangements {n : ℕ} {l : List ℕ} : l ∈ arrangements n ↔ l.Perm (List.range n) := by simp [arrangements]

theorem card_arrangements (n : ℕ) : (arrangements n).card = n.factorial := by
  rw [arrangements, List.toFinset_card_of_nodup (List.nodup_permutations _ List.nodup_range), List.length_permutations, List.length_range]

theorem draws_count (n : ℕ) (Q : List ℕ → Prop) [DecidablePred Q] :
    (shuffleDraws n).countP (fun ds => decide (Q (fyRec (streamOf ds) 0 (List.range n)))) = ((arrangements n).filter Q).card := by
  have h := (draws_perm n).countP_eq (fun l => decide (Q l))
  rw [List.countP_map] at h
  have e : (shuffleDraws n).countP (fun ds => decide (Q (fyRec (streamOf ds) 0 (List.range n)))) = (List.range n).permutations.countP (fun l => decide (Q l)) := h
  rw [e, List.countP_eq_length_filter, ← List.toFinset_card_of_nodup ((List.nodup_permutations _ List.nodup_range).filter _), List.toFinset_filter, arrangements]
  congr 1
  ext l
  simp

theorem draws_sum (n : ℕ) (φ : List ℕ → ℝ) : ((shuffleDraws n).map fun ds => φ (fyRec (streamOf ds) 0 (List.range n))).sum = ∑ l ∈ arrangements n, φ l := by
  have h := ((draws_perm n).map φ).sum_eq
  rw [List.map_map] at h
  rw [arrangements, List.sum_toFinset _ (List.nodup_permutations _ List.nodup_range), ← h]
  rfl

/-- Renaming the samples. -/
def rename {n : ℕ} (σ : Equiv.Perm (Fin n)) (x : ℕ) : ℕ := if h : x < n then (σ ⟨x, h⟩).1 else x

theorem rename_lt {n : ℕ} (σ : Equiv.Perm (Fin n)) {x : ℕ} (h : x < n) : rename σ x = (σ ⟨x, h⟩).1 := by simp [rename, h]

theorem rename_lt_iff {n : ℕ} (σ : Equiv.Perm (Fin n)) {x : ℕ} : rename σ x < n ↔ x < n := by
  by_cases h : x < n
  · simp [rename_lt σ h, h]
  · simp [rename, h]

theorem rename_injective {n : ℕ} (σ : Equiv.Perm (Fin n)) : Function.Injective (rename σ) := by
  intro a b h
  by_cases ha : a < n <;> by_cases hb : b < n
  · rw [rename_lt σ ha, rename_lt σ hb] at h
    have := σ.injective (Fin.ext h)
    exact congrArg Fin.val this
  · exact absurd ((rename_lt_iff σ).1 (h ▸ (rename_lt_iff σ).2 ha)) hb
  · exact absurd ((rename_lt_iff σ).1 (h ▸ (rename_lt_iff σ).2 hb)) ha
  · simpa [rename, ha, hb] using h

theorem rename_arrangements {n : ℕ} (σ : Equiv.Perm (Fin n)) {l : List ℕ} (hl : l ∈ arrangements n) : l.map (rename σ) ∈ arrangements n := by
  rw [mem_arrangements] at hl ⊢
  refine (hl.map _).trans ?_
  refine List.Subperm.perm_of_length_le (List.subperm_of_subset (List.nodup_range.map (rename_injective σ)) ?_) (by simp)
  intro x hx
  obtain ⟨y, hy, rfl⟩ := List.mem_map.1 hx
  exact List.mem_range.2 ((rename_lt_iff σ).2 (List.mem_range.1 hy))

theorem rename_count {n : ℕ} (σ : Equiv.Perm (Fin n)) (Q : List ℕ → Prop) [DecidablePred Q] :
    ((arrangements n).filter fun l => Q (l.map (rename σ))).card = ((arrangements n).filter Q).card := by
  have himg : (arrangements n).image (List.map (rename σ)) = arrangements n := by
    refine Finset.eq_of_subset_of_card_le ?_ ?_
    · intro l hl
      obtain ⟨l', h, rfl⟩ := Finset.mem_image.1 hl
      exact rename_arrangements σ h
    · rw [Finset.card_image_of_injective _ (List.map_injective_iff.2 (rename_injective σ))]
  conv_rhs => rw [← himg, Finset.filter_image, Finset.card_image_of_injective _ (List.map_injective_iff.2 (rename_injective σ))]

/-! ### The tested samples of an arrangement -/

theorem testSet_eq {n k i : ℕ} (hk : 1 < k) (hn : k ≤ n) (hi : i < k) (r : ℕ → ℕ) :
    testSet (allFolds r n k) i = (partAt (fyRec r 0 (List.range n)) k i).test.toFinset := by
  have hl : (fyRec r 0 (List.range n)).length = n := fyRec_length r n _ _ (by simp)
  have h : allFolds r n k = ok ((List.range' 0 k).map (partAt (fyRec r 0 (List.range n)) k)) := by
    unfold allFolds createShuffledIndices
    rw [inPlaceFisherYates_eq, ok_bind]
    simp only [Folds.new, hl]
    rw [show (decide (k > 1) && decide (n ≥ k)) = true by simp [hk, hn]]
    simp only [assert_true, ok_bind]
    exact collect_eq _ k k 0 (by omega)
  rw [h, testSet]
  simp [hi]

theorem part_test {n : ℕ} (k i : ℕ) {l : List ℕ} (hl : l ∈ arrangements n) : (partAt l k i).test = (l.drop (foldStart n k i)).take (testSize n k i) := by
  have hlen : l.length = n := by simpa using (mem_arrangements.1 hl).length_eq
  unfold partAt
  simp only [hlen]
  congr 1
  rw [foldStart_succ, testSize]
  generalize n / k = q
  split <;> split <;> omega

/-- The samples tested in fold `i` of an arrangement. -/
def tested (n k i : ℕ) (l : List ℕ) : Finset ℕ := ((l.drop (foldStart n k i)).take (testSize n k i)).toFinset

theorem tested_map {n : ℕ} (k i : ℕ) (σ : Equiv.Perm (Fin n)) (l : List ℕ) : tested n k i (l.map (rename σ)) = (tested n k i l).image (rename σ) := by
  unfold tested
  rw [← List.map_drop, ← List.map_take]
  ext x
  rw [List.mem_toFinset, Finset.mem_image, List.mem_map]
  simp only [List.mem_toFinset]

theorem tested_card {n k i : ℕ} (hi : i < k) {l : List ℕ} (hl : l ∈ arrangements n) : (tested n k i l).card = testSize n k i ∧ tested n k i l ⊆ Finset.range n := by
  have hp := mem_arrangements.1 hl
  have hlen : l.length = n := by simpa using hp.length_eq
  have hnd : l.Nodup := hp.nodup_iff.2 List.nodup_range
  have hs : foldStart n k i + testSize n k i ≤ n := by
    have h1 : foldStart n k (i + 1) ≤ n := by
      calc _ ≤ foldStart n k k := foldStart_mono _ _ hi
        _ = _ := foldStart_last _ _ (by omega)
    rw [foldStart_succ] at h1
    unfold testSize
    generalize n / k = q at h1 ⊢
    split at h1 <;> split <;> omega
  constructor
  · rw [tested, List.toFinset_card_of_nodup ((hnd.sublist (List.drop_sublist _ _)).sublist (List.take_sublist _ _))]
    simp [hlen]
    omega
  · intro x hx
    rw [tested, List.mem_toFinset] at hx
    have := List.mem_of_mem_drop (List.mem_of_mem_take hx)
    rw [hp.mem_iff] at this
    simpa using this

/-- Some renaming takes any set of samples to any other of the same size. -/
theorem exists_renaming {n : ℕ} {S S' : Finset ℕ} (hS : S ⊆ Finset.range n) (hS' : S' ⊆ Finset.range n) (hc : S.card = S'.card) :
    ∃ σ : Equiv.Perm (Fin n), S.image (rename σ) = S' := by
  classical
  let p : Fin n → Prop := fun x => x.1 ∈ S
  let q : Fin n → Prop := fun x => x.1 ∈ S'
  have hcard : ∀ T : Finset ℕ, T ⊆ Finset.range n → Fintype.card {x : Fin n // x.1 ∈ T} = T.card := by
    intro T hT
    rw [Fintype.card_subtype]
    refine Finset.card_bij (fun x _ => x.1) ?_ ?_ ?_
    · intro x hx; simpa using hx
    · intro x _ y _ h; exact Fin.ext h
    · intro x hx; exact ⟨⟨x, Finset.mem_range.1 (hT hx)⟩, by simpa using hx, rfl⟩
  have e : {x : Fin n // p x} ≃ {x : Fin n // q x} := Fintype.equivOfCardEq (by rw [hcard S hS, hcard S' hS', hc])
  refine ⟨e.extendSubtype, Finset.eq_of_subset_of_card_le ?_ (by rw [Finset.card_image_of_injective _ (rename_injective _), hc])⟩
  intro y hy
  obtain ⟨x, hx, rfl⟩ := Finset.mem_image.1 hy
  have hxn := Finset.mem_range.1 (hS hx)
  rw [rename_lt _ hxn]
  exact e.extendSubtype_mem ⟨x, hxn⟩ hx

theorem tested_count {n k i : ℕ} (hi : i < k) {S : Finset ℕ} (hS : S ⊆ Finset.range n) (hc : S.card = testSize n k i) :
    ((arrangements n).filter fun l => tested n k i l = S).card = (testSize n k i).factorial * (n - testSize n k i).factorial := by
  have hm : testSize n k i ≤ n := by
    have := Finset.card_le_card hS
    simpa [hc] using this
  have hconst : ∀ S' ∈ (Finset.range n).powersetCard (testSize n k i), ((arrangements n).filter fun l => tested n k i l = S').card = ((arrangements n).filter fun l => tested n k i l = S).card := by
    intro S' hS'
    obtain ⟨h1, h2⟩ := Finset.mem_powersetCard.1 hS'
    obtain ⟨σ, hσ⟩ := exists_renaming hS h1 (hc.trans h2.symm)
    rw [← rename_count σ (fun l => tested n k i l = S')]
    congr 1
    ext l
    simp only [Finset.mem_filter, and_congr_right_iff]
    intro _
    rw [tested_map, ← hσ]
    exact (Finset.image_injective (rename_injective σ)).eq_iff
  have hsum := Finset.card_eq_sum_card_fiberwise (f := tested n k i) (s := arrangements n) (t := (Finset.range n).powersetCard (testSize n k i)) (by
    intro l hl
    obtain ⟨h1, h2⟩ := tested_card hi hl
    exact Finset.mem_coe.2 (Finset.mem_powersetCard.2 ⟨h2, h1⟩))
  rw [Finset.sum_congr rfl hconst, Finset.sum_const, Finset.card_powersetCard, Finset.card_range, card_arrangements, smul_eq_mul,
    ← Nat.choose_mul_factorial_mul_factorial hm, mul_assoc] at hsum
  exact (Nat.eq_of_mul_eq_mul_left (Nat.choose_pos hm) hsum).symm

theorem tested_mem {n k i : ℕ} (hi : i < k) {j : ℕ} (hj : j < n) :
    n * ((arrangements n).filter fun l => j ∈ tested n k i l).card = testSize n k i * n.factorial := by
  have hconst : ∀ j' ∈ Finset.range n, ((arrangements n).filter fun l => j' ∈ tested n k i l).card = ((arrangements n).filter fun l => j ∈ tested n k i l).card := by
    intro j' hj'
    have hj' := Finset.mem_range.1 hj'
    rw [← rename_count (Equiv.swap (⟨j, hj⟩ : Fin n) ⟨j', hj'⟩) (fun l => j' ∈ tested n k i l)]
    congr 1
    ext l
    simp only [Finset.mem_filter, and_congr_right_iff]
    intro _
    rw [tested_map]
    have e : j' = rename (Equiv.swap (⟨j, hj⟩ : Fin n) ⟨j', hj'⟩) j := by rw [rename_lt _ hj, Equiv.swap_apply_left]
    have key := (rename_injective (Equiv.swap (⟨j, hj⟩ : Fin n) ⟨j', hj'⟩)).mem_finset_image (s := tested n k i l) (a := j)
    rw [← e] at key
    exact key
  have hsum := Finset.sum_card_bipartiteAbove_eq_sum_card_bipartiteBelow (s := Finset.range n) (t := arrangements n) (fun j l => j ∈ tested n k i l)
  have h1 : ∑ a ∈ Finset.range n, (Finset.bipartiteAbove (fun j l => j ∈ tested n k i l) (arrangements n) a).card = n * ((arrangements n).filter fun l => j ∈ tested n k i l).card := by
    refine (Finset.sum_congr rfl hconst).trans ?_
    rw [Finset.sum_const, Finset.card_range, smul_eq_mul]
  have h2 : ∑ l ∈ arrangements n, (Finset.bipartiteBelow (fun j l => j ∈ tested n k i l) (Finset.range n) l).card = testSize n k i * n.factorial := by
    rw [Finset.sum_congr rfl (g := fun _ => testSize n k i), Finset.sum_const, card_arrangements, smul_eq_mul, mul_comm]
    intro l hl
    obtain ⟨a1, a2⟩ := tested_card hi hl
    rw [← a1]
    congr 1
    ext x
    simp only [Finset.mem_bipartiteBelow]
    exact ⟨fun h => h.2, fun h => ⟨a2 h, h⟩⟩
  rw [← h1, hsum, h2]

theorem tested_pair {n k i : ℕ} (hi : i < k) {a b : ℕ} (ha : a < n) (hb : b < n) (hab : a ≠ b) :
    n * (n - 1) * ((arrangements n).filter fun l => a ∈ tested n k i l ∧ b ∈ tested n k i l).card = testSize n k i * (testSize n k i - 1) * n.factorial := by
  have hconst : ∀ q ∈ (Finset.range n).offDiag, ((arrangements n).filter fun l => q.1 ∈ tested n k i l ∧ q.2 ∈ tested n k i l).card =
      ((arrangements n).filter fun l => a ∈ tested n k i l ∧ b ∈ tested n k i l).card := by
    rintro ⟨c, d⟩ hq
    simp only [Finset.mem_offDiag, Finset.mem_range] at hq
    obtain ⟨hc, hd, hcd⟩ := hq
    set A : Fin n := ⟨a, ha⟩
    set B : Fin n := ⟨b, hb⟩
    set C : Fin n := ⟨c, hc⟩
    set D : Fin n := ⟨d, hd⟩
    have hAB : A ≠ B := fun h => hab (congrArg Fin.val h)
    have hCD : C ≠ D := fun h => hcd (congrArg Fin.val h)
    set σ : Equiv.Perm (Fin n) := Equiv.swap (Equiv.swap A C B) D * Equiv.swap A C with hσ
    have s1 : σ A = C := by
      rw [hσ, Equiv.Perm.mul_apply, Equiv.swap_apply_left]
      refine Equiv.swap_apply_of_ne_of_ne ?_ hCD
      intro h
      have := (Equiv.swap A C).injective ((Equiv.swap_apply_left A C).trans h)
      exact hAB this
    have s2 : σ B = D := by
      rw [hσ, Equiv.Perm.mul_apply, Equiv.swap_apply_left]
    rw [← rename_count σ (fun l => c ∈ tested n k i l ∧ d ∈ tested n k i l)]
    congr 1
    ext l
    simp only [Finset.mem_filter, and_congr_right_iff]
    intro _
    have e1 : c = rename σ a := by rw [rename_lt _ ha]; exact (congrArg Fin.val s1).symm
    have e2 : d = rename σ b := by rw [rename_lt _ hb]; exact (congrArg Fin.val s2).symm
    have k1 := (rename_injective σ).mem_finset_image (s := tested n k i l) (a := a)
    have k2 := (rename_injective σ).mem_finset_image (s := tested n k i l) (a := b)
    rw [← e1] at k1
    rw [← e2] at k2
    rw [tested_map, k1, k2]
  have hsum := Finset.sum_card_bipartiteAbove_eq_sum_card_bipartiteBelow (s := (Finset.range n).offDiag) (t := arrangements n) (fun q l => q.1 ∈ tested n k i l ∧ q.2 ∈ tested n k i l)
  have h1 : ∑ q ∈ (Finset.range n).offDiag, (Finset.bipartiteAbove (fun q l => q.1 ∈ tested n k i l ∧ q.2 ∈ tested n k i l) (arrangements n) q).card =
      n * (n - 1) * ((arrangements n).filter fun l => a ∈ tested n k i l ∧ b ∈ tested n k i l).card := by
    refine (Finset.sum_congr rfl hconst).trans ?_
    rw [Finset.sum_const, Finset.offDiag_card, Finset.card_range, smul_eq_mul, Nat.mul_sub, mul_one]
  have h2 : ∑ l ∈ arrangements n, (Finset.bipartiteBelow (fun (q : ℕ × ℕ) l => q.1 ∈ tested n k i l ∧ q.2 ∈ tested n k i l) (Finset.range n).offDiag l).card =
      testSize n k i * (testSize n k i - 1) * n.factorial := by
    rw [Finset.sum_congr rfl (g := fun _ => testSize n k i * (testSize n k i - 1)), Finset.sum_const, card_arrangements, smul_eq_mul, mul_comm]
    intro l hl
    obtain ⟨a1, a2⟩ := tested_card hi hl
    have e : Finset.bipartiteBelow (fun (q : ℕ × ℕ) l => q.1 ∈ tested n k i l ∧ q.2 ∈ tested n k i l) (Finset.range n).offDiag l = (tested n k i l).offDiag := by
      ext q
      simp only [Finset.mem_bipartiteBelow, Finset.mem_offDiag]
      exact ⟨fun h => ⟨h.2.1, h.2.2, h.1.2.2⟩, fun h => ⟨⟨a2 h.1, a2 h.2.1, h.2.2⟩, h.1, h.2.1⟩⟩
    rw [e, Finset.offDiag_card, a1, Nat.mul_sub, mul_one]
  rw [← h1, hsum, h2]

/-! ### The theorems -/

section
variable {n k i : ℕ}

theorem testSet_tested (hk : 1 < k) (hn : k ≤ n) (hi : i < k) (ds : List ℕ) :
    testSet (allFolds (streamOf ds) n k) i = tested n k i (fyRec (streamOf ds) 0 (List.range n)) := by
  rw [testSet_eq hk hn hi, part_test (n := n) k i (mem_arrangements.2 (fyRec_perm _ n _ _ (by simp)))]
  rfl

/-- **C109.** The shuffle of `n` samples can see `n!` equally likely sequences of draws. -/
theorem C109_number (n : ℕ) : (shuffleDraws n).length = n.factorial := by
  have := (draws_perm n).length_eq
  rwa [List.length_map, List.length_permutations, List.length_range] at this

/-- **C109.** The test set of every fold is a uniformly random subset: every set of the right size is the test set for the same number of draws. -/
theorem C109_test_set (hk : 1 < k) (hn : k ≤ n) (hi : i < k) (S : Finset ℕ) (hS : S ⊆ Finset.range n) (hc : S.card = testSize n k i) :
    (shuffleDraws n).countP (fun ds => decide (testSet (allFolds (streamOf ds) n k) i = S)) = (testSize n k i).factorial * (n - testSize n k i).factorial := by
  rw [← tested_count hi hS hc, ← draws_count n (fun l => tested n k i l = S)]
  congr 1
  funext ds
  rw [testSet_tested hk hn hi]

/-- **C109.** Every sample is tested in fold `i` with the same probability, the fraction of the samples that the fold tests. -/
theorem C109_sample (hk : 1 < k) (hn : k ≤ n) (hi : i < k) {j : ℕ} (hj : j < n) :
    n * (shuffleDraws n).countP (fun ds => decide (j ∈ testSet (allFolds (streamOf ds) n k) i)) = testSize n k i * n.factorial := by
  rw [← tested_mem hi hj, ← draws_count n (fun l => j ∈ tested n k i l)]
  congr 2
  funext ds
  rw [testSet_tested hk hn hi]

/-- **C109.** Any two samples are tested together in fold `i` with the probability `m (m - 1) / (n (n - 1))`. -/
theorem C109_pair (hk : 1 < k) (hn : k ≤ n) (hi : i < k) {a b : ℕ} (ha : a < n) (hb : b < n) (hab : a ≠ b) :
    n * (n - 1) * (shuffleDraws n).countP (fun ds => decide (a ∈ testSet (allFolds (streamOf ds) n k) i ∧ b ∈ testSet (allFolds (streamOf ds) n k) i)) =
      testSize n k i * (testSize n k i - 1) * n.factorial := by
  rw [← tested_pair hi ha hb hab, ← draws_count n (fun l => a ∈ tested n k i l ∧ b ∈ tested n k i l)]
  congr 2
  funext ds
  rw [testSet_tested hk hn hi]

/-- **C109.** The mean over all shuffles of anything that depends on the test set of a fold is its mean over all sets of that size. -/
theorem C109_mean (hk : 1 < k) (hn : k ≤ n) (hi : i < k) (φ : Finset ℕ → ℝ) :
    ((shuffleDraws n).map fun ds => φ (testSet (allFolds (streamOf ds) n k) i)).sum / (shuffleDraws n).length =
      (∑ S ∈ (Finset.range n).powersetCard (testSize n k i), φ S) / n.choose (testSize n k i) := by
  have e1 : ((shuffleDraws n).map fun ds => φ (testSet (allFolds (streamOf ds) n k) i)).sum = ∑ l ∈ arrangements n, φ (tested n k i l) := by
    rw [← draws_sum n (fun l => φ (tested n k i l))]
    congr 2
    funext ds
    rw [testSet_tested hk hn hi]
  have hm : testSize n k i ≤ n := by
    have h0 := tested_card hi (mem_arrangements.2 (List.Perm.refl (List.range n)))
    have := Finset.card_le_card h0.2
    simpa [h0.1] using this
  have e2 : ∑ l ∈ arrangements n, φ (tested n k i l) = ((testSize n k i).factorial * (n - testSize n k i).factorial : ℕ) * ∑ S ∈ (Finset.range n).powersetCard (testSize n k i), φ S := by
    rw [← Finset.sum_fiberwise_of_maps_to (g := tested n k i) (t := (Finset.range n).powersetCard (testSize n k i)), Finset.mul_sum]
    · refine Finset.sum_congr rfl fun S hS => ?_
      obtain ⟨h1, h2⟩ := Finset.mem_powersetCard.1 hS
      rw [Finset.sum_congr rfl (g := fun _ => φ S) (fun l hl => by rw [(Finset.mem_filter.1 hl).2]), Finset.sum_const, tested_count hi h1 h2, nsmul_eq_mul]
    · intro l hl
      obtain ⟨h1, h2⟩ := tested_card hi hl
      exact Finset.mem_powersetCard.2 ⟨h2, h1⟩
  rw [e1, e2, C109_number, ← Nat.choose_mul_factorial_mul_factorial hm, mul_assoc]
  have p1 : ((testSize n k i).factorial * (n - testSize n k i).factorial : ℕ) ≠ 0 := by positivity
  have p2 : (((testSize n k i).factorial * (n - testSize n k i).factorial : ℕ) : ℝ) ≠ 0 := by exact_mod_cast p1
  have p3 : ((n.choose (testSize n k i) : ℕ) : ℝ) ≠ 0 := by exact_mod_cast (Nat.choose_pos hm).ne'
  rw [Nat.cast_mul (n.choose (testSize n k i))]
  field_simp

end

/-! ### Cross validation -/

/-- The `i`-th score of a cross validation. -/
def Spec.scoreOf (o : Outcome (List ℝ)) (i : ℕ) : ℝ :=
  match o with
  | .ok cs => cs.getD i 0
  | _ => 0

/-- Training on all samples but those in `S` and testing on `S` gives the score `loss S`, whatever was trained before and in whatever order the samples come. -/
def Spec.HoldOut {σ X Y : Type} (M : SupModel σ X Y) (inputs : List X) (targets : List Y) (score : List Y → List Y → Outcome ℝ) (loss : Finset ℕ → ℝ) : Prop :=
  ∀ (s : σ) (p : Partition) (xs : List X) (ys : List Y) (tx : List X) (ty : List Y), (p.train ++ p.test).Perm (List.range inputs.length) →
    RowsAt inputs p.train xs → RowsAt targets p.train ys → RowsAt inputs p.test tx → RowsAt targets p.test ty →
    ∃ s' out, M.train s xs ys = (s', ok ()) ∧ M.predict s' tx = ok out ∧ score out ty = ok (loss p.test.toFinset)

theorem runs_holdOut {σ X Y : Type} {M : SupModel σ X Y} {inputs : List X} {targets : List Y} {score : List Y → List Y → Outcome ℝ} {loss : Finset ℕ → ℝ}
    (h : HoldOut M inputs targets score loss) (hrows : inputs.length = targets.length) {folds : List Partition} {s s' : σ} {res : Outcome (List ℝ)}
    (hr : Runs M inputs targets score folds s s' res) : (∀ p ∈ folds, (p.train ++ p.test).Perm (List.range inputs.length)) → res = ok (folds.map fun p => loss p.test.toFinset) := by
  induction hr with
  | done s => intro _; rfl
  | @fold p ps s s' s'' xs ys tx ty out c res hx hy htx hty htrain hpred hscore rest ih =>
    intro hp
    obtain ⟨s1, out1, k1, k2, k3⟩ := h s p xs ys tx ty (hp p (by simp)) hx hy htx hty
    rw [htrain] at k1
    obtain ⟨rfl, -⟩ := Prod.mk.inj k1
    rw [hpred] at k2
    cases k2
    rw [hscore] at k3
    cases k3
    rw [ih fun q hq => hp q (by simp [hq])]
    rfl
  | @trainStops p ps s s' xs ys bad res hx hy htrain hbad hres =>
    intro hp
    exfalso
    have hlt : ∀ j ∈ p.test, j < inputs.length := fun j hj => List.mem_range.1 ((hp p (by simp)).mem_iff.1 (by simp [hj]))
    obtain ⟨tx, -, htx⟩ := selectRows_of_lt inputs p.test hlt
    obtain ⟨ty, -, hty⟩ := selectRows_of_lt targets p.test (hrows ▸ hlt)
    obtain ⟨s1, out1, k1, -, -⟩ := h s p xs ys tx ty (hp p (by simp)) hx hy htx hty
    rw [htrain] at k1
    exact hbad (Prod.mk.inj k1).2
  | @testStops p ps s s' xs ys tx ty bad res hx hy htx hty htrain hbad hne hres =>
    intro hp
    exfalso
    obtain ⟨s1, out1, k1, k2, k3⟩ := h s p xs ys tx ty (hp p (by simp)) hx hy htx hty
    rw [htrain] at k1
    obtain ⟨rfl, -⟩ := Prod.mk.inj k1
    rw [k2] at hbad
    simp only [ok_bind] at hbad
    rw [k3] at hbad
    exact hne _ hbad.symm

/-- **C109 (cross validation).** For a model whose score on a test set depends only on which samples are held out, the scores of a cross validation are unbiased: the
mean over all shuffles of the `i`-th score is the mean of the hold-out score over all test sets of the size of fold `i`. -/
theorem C109_cross_validation {σ X Y : Type} (M : SupModel σ X Y) (s : σ) (inputs : List X) (targets : List Y) (k : ℕ) (score : List Y → List Y → Outcome ℝ)
    (loss : Finset ℕ → ℝ) (hM : HoldOut M inputs targets score loss) (hrows : inputs.length = targets.length) (hk : 1 < k) (hn : k ≤ inputs.length) {i : ℕ} (hi : i < k) :
    (∀ r, ∃ cs, (kFoldValidate r M s inputs targets k score).2 = ok cs ∧ cs.length = k) ∧
    ((shuffleDraws inputs.length).map fun ds => scoreOf (kFoldValidate (streamOf ds) M s inputs targets k score).2 i).sum / (shuffleDraws inputs.length).length =
      (∑ S ∈ (Finset.range inputs.length).powersetCard (testSize inputs.length k i), loss S) / inputs.length.choose (testSize inputs.length k i) := by
  have hrun : ∀ r, (kFoldValidate r M s inputs targets k score).2 = ok (((List.range' 0 k).map (partAt (fyRec r 0 (List.range inputs.length)) k)).map fun p => loss p.test.toFinset) := by
    intro r
    have hp : (fyRec r 0 (List.range inputs.length)).Perm (List.range inputs.length) := fyRec_perm _ inputs.length _ _ (by simp)
    have hi : createShuffledIndices r inputs.length = ok (fyRec r 0 (List.range inputs.length)) := inPlaceFisherYates_eq r _
    set idx := fyRec r 0 (List.range inputs.length) with hidx
    have hlen : idx.length = inputs.length := by simpa using hp.length_eq
    have hlt : ∀ i ∈ idx, i < inputs.length := fun i h => List.mem_range.1 (hp.mem_iff.1 h)
    obtain ⟨s', res, hr1, hr2⟩ := kFoldLoop_runs M inputs targets score idx hlt (hrows ▸ hlt) k k 0 s [] (by omega)
    have hres := runs_holdOut hM hrows hr2 (isKFold_of_perm (by omega) hp).complementary
    have : (do
      assert (decide (inputs.length = targets.length))
      let shuffled ← createShuffledIndices r inputs.length
      Folds.new shuffled k) = ok ⟨k, idx, 0⟩ := by
      simp only [hrows, decide_true, assert_true, ok_bind]
      rw [← hrows, hi, ok_bind]
      simp [Folds.new, hlen, hk, hn]
    rw [kFoldValidate, this]
    simp only [hr1, List.nil_append]
    rw [hres]
    rfl
  refine ⟨fun r => ⟨_, hrun r, by simp⟩, ?_⟩
  rw [← C109_mean hk hn hi loss]
  congr 3
  funext ds
  rw [hrun, testSet_eq hk hn hi]
  simp [scoreOf, hi]

/-- **C109 (cross validation).** If `k` divides the number of samples, the mean over all shuffles of the mean of the `k` scores is the mean hold-out score over all
test sets with `n / k` samples. -/
theorem C109_cross_validation_mean {σ X Y : Type} (M : SupModel σ X Y) (s : σ) (inputs : List X) (targets : List Y) (k : ℕ) (score : List Y → List Y → Outcome ℝ)
    (loss : Finset ℕ → ℝ) (hM : HoldOut M inputs targets score loss) (hrows : inputs.length = targets.length) (hk : 1 < k) (hn : k ≤ inputs.length) (hd : k ∣ inputs.length) :
    ((shuffleDraws inputs.length).map fun ds => (∑ i ∈ Finset.range k, scoreOf (kFoldValidate (streamOf ds) M s inputs targets k score).2 i) / k).sum / (shuffleDraws inputs.length).length =
      (∑ S ∈ (Finset.range inputs.length).powersetCard (inputs.length / k), loss S) / inputs.length.choose (inputs.length / k) := by
  have hsz : ∀ i, testSize inputs.length k i = inputs.length / k := by
    intro i
    unfold testSize
    rw [Nat.dvd_iff_mod_eq_zero.1 hd]
    simp
  have hk0 : (k : ℝ) ≠ 0 := by exact_mod_cast (by omega : k ≠ 0)
  have hswap : ∀ (L : List (List ℕ)) (g : List ℕ → ℕ → ℝ), (L.map fun ds => (∑ i ∈ Finset.range k, g ds i) / k).sum = (∑ i ∈ Finset.range k, (L.map fun ds => g ds i).sum) / k := by
    intro L g
    induction L with
    | nil => simp
    | cons a L ih =>
      simp only [List.map_cons, List.sum_cons, ih, Finset.sum_add_distrib]
      ring
  rw [hswap, div_div, mul_comm (k : ℝ), ← div_div, Finset.sum_div]
  rw [Finset.sum_congr rfl (g := fun _ => (∑ S ∈ (Finset.range inputs.length).powersetCard (inputs.length / k), loss S) / inputs.length.choose (inputs.length / k))]
  · rw [Finset.sum_const, Finset.card_range, nsmul_eq_mul]
    field_simp
  · intro i hi
    have := (C109_cross_validation M s inputs targets k score loss hM hrows hk hn (Finset.mem_range.1 hi)).2
    rw [hsz] at this
    exact this

/-! ### The hypotheses are met -/

/-- Ten samples in three folds: the first fold tests four samples. -/
example : testSize 10 3 0 = 4 ∧ testSize 10 3 1 = 3 ∧ testSize 10 3 2 = 3 := by decide

/-- Each set of four samples is the first test set for `4! 6!` of the `10!` sequences of draws. -/
example : (shuffleDraws 10).length = Nat.factorial 10 ∧
    (shuffleDraws 10).countP (fun ds => decide (testSet (allFolds (streamOf ds) 10 3) 0 = {1, 3, 5, 9})) = (testSize 10 3 0).factorial * (10 - testSize 10 3 0).factorial :=
  ⟨C109_number 10, C109_test_set (n := 10) (k := 3) (i := 0) (by norm_num) (by norm_num) (by norm_num) {1, 3, 5, 9} (by decide) (by decide)⟩

/-- Sample 7 is in the first test set for two fifths of them. -/
example : 10 * (shuffleDraws 10).countP (fun ds => decide (7 ∈ testSet (allFolds (streamOf ds) 10 3) 0)) = testSize 10 3 0 * Nat.factorial 10 :=
  C109_sample (n := 10) (k := 3) (i := 0) (by norm_num) (by norm_num) (by norm_num) (by norm_num)

/-- Samples 7 and 2 are both in it for two fifteenths of them. -/
example : 10 * (10 - 1) * (shuffleDraws 10).countP (fun ds => decide (7 ∈ testSet (allFolds (streamOf ds) 10 3) 0 ∧ 2 ∈ testSet (allFolds (streamOf ds) 10 3) 0)) =
    testSize 10 3 0 * (testSize 10 3 0 - 1) * Nat.factorial 10 :=
  C109_pair (n := 10) (k := 3) (i := 0) (by norm_num) (by norm_num) (by norm_num) (by norm_num) (by norm_num) (by norm_num)

/-- The model that remembers the sum of the training targets and predicts it, with the sum of the errors as score: what it scores depends on the held out samples only. -/
def sumModel : SupModel ℝ ℝ ℝ := ⟨fun _ _ ys => (ys.sum, ok ()), fun s tx => ok (tx.map fun _ => s)⟩

theorem rowsAt_sum {targets : List ℝ} {idx : List ℕ} {ys : List ℝ} (h : RowsAt targets idx ys) : ys.sum = (idx.map fun j => targets.getD j 0).sum ∧ ys.length = idx.length := by
  induction h with
  | nil => simp
  | cons h1 h2 ih => simp [ih.1, ih.2, List.getD_eq_getElem?_getD, h1]

theorem sumModel_holdOut (inputs targets : List ℝ) : HoldOut sumModel inputs targets (fun out ty => ok (out.sum - ty.sum))
    (fun S => S.card * (∑ j ∈ Finset.range inputs.length \ S, targets.getD j 0) - ∑ j ∈ S, targets.getD j 0) := by
  intro s p xs ys tx ty hp hx hy htx hty
  refine ⟨_, _, rfl, rfl, ?_⟩
  have hnd := hp.nodup_iff.2 List.nodup_range
  obtain ⟨n1, n2, n3⟩ := List.nodup_append.1 hnd
  obtain ⟨y1, -⟩ := rowsAt_sum hy
  obtain ⟨t1, t2⟩ := rowsAt_sum hty
  obtain ⟨-, x2⟩ := rowsAt_sum htx
  have e : Finset.range inputs.length \ p.test.toFinset = p.train.toFinset := by
    ext j
    simp only [Finset.mem_sdiff, Finset.mem_range, List.mem_toFinset]
    rw [← List.mem_range, ← hp.mem_iff, List.mem_append]
    constructor
    · rintro ⟨h1 | h1, h2⟩
      · exact h1
      · exact absurd h1 h2
    · intro h1
      exact ⟨Or.inl h1, fun h2 => n3 j h1 j h2 rfl⟩
  simp only []
  rw [e, List.sum_toFinset _ n1, List.sum_toFinset _ n2, List.toFinset_card_of_nodup n2, ← y1, ← t1, List.map_const', List.sum_replicate, x2]
  simp

/-- The mean score of this model in a three-fold cross validation of any number of samples that three divides. -/
example (inputs targets : List ℝ) (h : inputs.length = targets.length) (h3 : 3 ≤ inputs.length) (hd : 3 ∣ inputs.length) :=
  C109_cross_validation_mean sumModel 0 inputs targets 3 _ _ (sumModel_holdOut inputs targets) h (by norm_num) h3 hd

/-- The scores of seven samples in three folds. -/
example (inputs targets : List ℝ) (h : inputs.length = targets.length) (h7 : inputs.length = 7) :=
  C109_cross_validation sumModel 0 inputs targets 3 _ _ (sumModel_holdOut inputs targets) h (by norm_num) (by omega) (i := 2) (by norm_num)

end RM
