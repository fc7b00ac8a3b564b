import Verif.Spec.CrossValidation
import Verif.Proofs.RandUtils

namespace RM
open Outcome Spec

/-- Start of fold `c`. -/
def foldStart (n k c : ℕ) : ℕ := c * (n / k) + min c (n % k)

theorem foldStart_succ (n k c : ℕ) : foldStart n k (c+1) = foldStart n k c + if c ≥ n % k then n / k else n / k + 1 := by
  unfold foldStart
  rw [Nat.succ_mul]
  split <;> omega

theorem foldStart_mono (n k : ℕ) {a b : ℕ} (h : a ≤ b) : foldStart n k a ≤ foldStart n k b := by
  induction h with
  | refl => exact le_refl _
  | step _ ih => rw [foldStart_succ]; omega

theorem foldStart_last (n k : ℕ) (hk : 0 < k) : foldStart n k k = n := by
  unfold foldStart
  have h1 := Nat.mod_lt n hk
  rw [min_eq_right (le_of_lt h1)]
  exact Nat.div_add_mod n k

theorem foldStart_zero (n k : ℕ) : foldStart n k 0 = 0 := by simp [foldStart]

/-- The partition produced for fold `c`. -/
def partAt (idx : List ℕ) (k c : ℕ) : Partition :=
  let a := foldStart idx.length k c
  let b := foldStart idx.length k (c+1)
  { train := idx.take a ++ idx.drop b, test := (idx.drop a).take (b - a) }

theorem next_eq (idx : List ℕ) (k c : ℕ) (hc : c < k) :
    Folds.next ⟨k, idx, c⟩ = some (ok (partAt idx k c), ⟨k, idx, c+1⟩) := by
  have hb : foldStart idx.length k (c+1) ≤ idx.length := by
    calc _ ≤ foldStart idx.length k k := foldStart_mono _ _ hc
      _ = _ := foldStart_last _ _ (by omega)
  have hs := foldStart_succ idx.length k c
  have ha : foldStart idx.length k c ≤ foldStart idx.length k (c+1) := by omega
  unfold Folds.next
  simp only [ge_iff_le, Nat.not_le.2 hc, ↓reduceIte]
  rw [show c * (idx.length / k) + min c (idx.length % k) = foldStart idx.length k c from rfl]
  simp only [ge_iff_le] at hs
  rw [← hs]
  simp [sliceTo, sliceFrom, sliceRange, ha, hb, le_trans ha hb, partAt]

theorem next_none (idx : List ℕ) (k c : ℕ) (hc : k ≤ c) : Folds.next ⟨k, idx, c⟩ = none := by
  simp [Folds.next, hc]

theorem collect_eq (idx : List ℕ) (k m : ℕ) : ∀ c, c + m = k →
    Folds.collect ⟨k, idx, c⟩ = ok ((List.range' c m).map (partAt idx k)) := by
  induction m with
  | zero =>
    intro c hc
    rw [Folds.collect]
    have := next_none idx k c (by omega)
    split
    · rfl
    · rename_i h; rw [this] at h; cases h
  | succ m ih =>
    intro c hc
    rw [Folds.collect]
    have := next_eq idx k c (by omega)
    split
    · rename_i h; rw [this] at h; cases h
    · rename_i p f h
      rw [this] at h
      cases h
      simp [ih (c+1) (by omega), List.range'_succ]

theorem tests_concat (idx : List ℕ) (k m : ℕ) : ∀ c, c + m = k → 0 < k →
    ((List.range' c m).map (partAt idx k)).flatMap Partition.test = idx.drop (foldStart idx.length k c) := by
  induction m with
  | zero =>
    intro c hc hk
    have : c = k := by omega
    subst this
    simp [foldStart_last _ _ hk]
  | succ m ih =>
    intro c hc hk
    rw [List.range'_succ, List.map_cons, List.flatMap_cons, ih (c+1) (by omega) hk]
    have ha : foldStart idx.length k c ≤ foldStart idx.length k (c+1) := foldStart_mono _ _ (by omega)
    simp only [partAt]
    conv_rhs => rw [← List.take_append_drop (foldStart idx.length k (c+1) - foldStart idx.length k c) (idx.drop (foldStart idx.length k c))]
    rw [List.drop_drop]
    congr 2
    omega

theorem isKFold_of_perm {n k : ℕ} (hk : 0 < k) {idx : List ℕ} (hp : idx.Perm (List.range n)) :
    IsKFold n k ((List.range' 0 k).map (partAt idx k)) := by
  have hlen : idx.length = n := by simpa using hp.length_eq
  refine ⟨by simp, ?_, ?_, ?_⟩
  · rw [tests_concat idx k k 0 (by omega) hk, foldStart_zero, List.drop_zero]
    exact hp
  · intro p hpm
    obtain ⟨c, hc, rfl⟩ := List.mem_map.1 hpm
    have hck : c < k := by simpa [List.mem_range'] using hc
    refine List.Perm.trans ?_ hp
    have ha : foldStart idx.length k c ≤ foldStart idx.length k (c+1) := foldStart_mono _ _ (by omega)
    simp only [partAt]
    generalize foldStart idx.length k c = a at *
    generalize foldStart idx.length k (c+1) = b at *
    have e : idx = idx.take a ++ ((idx.drop a).take (b-a) ++ idx.drop b) := by
      conv_lhs => rw [← List.take_append_drop a idx, ← List.take_append_drop (b-a) (idx.drop a), List.drop_drop]
      congr 3
      omega
    conv_rhs => rw [e]
    rw [List.append_assoc]
    exact List.Perm.append_left _ List.perm_append_comm
  · intro i hi
    simp only [List.length_map, List.length_range'] at hi
    simp only [List.getElem_map, List.getElem_range', zero_add, one_mul, partAt, List.length_take, List.length_drop]
    have hs := foldStart_succ idx.length k i
    have hb : foldStart idx.length k (i+1) ≤ idx.length := by
      calc _ ≤ foldStart idx.length k k := foldStart_mono _ _ hi
        _ = _ := foldStart_last _ _ (by omega)
    rw [hlen] at *
    generalize n / k = q at *
    rcases lt_or_ge i (n % k) with h | h
    · simp only [ge_iff_le, Nat.not_le.2 h, ↓reduceIte, h] at hs ⊢; omega
    · simp only [ge_iff_le, h, ↓reduceIte, Nat.not_lt.2 h] at hs ⊢; omega

theorem selectRows_of_lt {X : Type} (data : List X) (idx : List ℕ) (h : ∀ i ∈ idx, i < data.length) :
    ∃ rows, selectRows data idx = ok rows ∧ RowsAt data idx rows := by
  induction idx with
  | nil => exact ⟨[], rfl, List.Forall₂.nil⟩
  | cons i idx ih =>
    obtain ⟨rows, h1, h2⟩ := ih (fun j hj => h j (by simp [hj]))
    have hi := h i (by simp)
    refine ⟨data[i] :: rows, ?_, List.Forall₂.cons (by simp [hi]) h2⟩
    unfold selectRows at h1 ⊢
    rw [List.mapM_cons, h1]
    simp [getAt, hi]

theorem kFoldLoop_runs {σ X Y S : Type} (M : SupModel σ X Y) (inputs : List X) (targets : List Y)
    (score : List Y → List Y → Outcome S) (idx : List ℕ) (hi : ∀ i ∈ idx, i < inputs.length)
    (ht : ∀ i ∈ idx, i < targets.length) (k m : ℕ) : ∀ (c : ℕ) (s : σ) (costs : List S), c + m = k →
    ∃ s' res, kFoldLoop M inputs targets score ⟨k, idx, c⟩ s costs = (s', do let cs ← res; pure (costs ++ cs)) ∧
      Runs M inputs targets score ((List.range' c m).map (partAt idx k)) s s' res := by
  induction m with
  | zero =>
    intro c s costs hc
    refine ⟨s, ok [], ?_, Runs.done s⟩
    rw [kFoldLoop]
    have := next_none idx k c (by omega)
    split
    · simp
    · rename_i h; rw [this] at h; cases h
  | succ m ih =>
    intro c s costs hc
    have hnext := next_eq idx k c (by omega)
    have hsub : ∀ i, (i ∈ (partAt idx k c).train → i ∈ idx) ∧ (i ∈ (partAt idx k c).test → i ∈ idx) := by
      intro i
      simp only [partAt, List.mem_append]
      exact ⟨fun h => h.elim List.mem_of_mem_take List.mem_of_mem_drop,
        fun h => List.mem_of_mem_drop (List.mem_of_mem_take h)⟩
    obtain ⟨xs, hx1, hx2⟩ := selectRows_of_lt inputs (partAt idx k c).train (fun i h => hi i ((hsub i).1 h))
    obtain ⟨ys, hy1, hy2⟩ := selectRows_of_lt targets (partAt idx k c).train (fun i h => ht i ((hsub i).1 h))
    obtain ⟨tx, htx1, htx2⟩ := selectRows_of_lt inputs (partAt idx k c).test (fun i h => hi i ((hsub i).2 h))
    obtain ⟨ty, hty1, hty2⟩ := selectRows_of_lt targets (partAt idx k c).test (fun i h => ht i ((hsub i).2 h))
    rw [kFoldLoop, List.range'_succ, List.map_cons]
    split
    · rename_i h; rw [hnext] at h; cases h
    · rename_i p f h
      rw [hnext] at h
      cases h
      simp only [ok_bind, hx1, hy1, htx1, hty1, pure_eq]
      rcases htr : M.train s xs ys with ⟨s', bad⟩
      rcases bad with u | e | _ | _
      · simp only [htr]
        rcases hb : (M.predict s' tx >>= fun out => score out ty) with c' | e | _ | _
        · simp only [hb]
          obtain ⟨s'', res, h1, h2⟩ := ih (c+1) s' (costs ++ [c']) (by omega)
          obtain ⟨out, ho1, ho2⟩ := bind_eq_ok.1 hb
          refine ⟨s'', _, ?_, Runs.fold hx2 hy2 htx2 hty2 htr ho1 ho2 h2⟩
          rw [h1]
          cases res <;> simp
        · exact ⟨s', err e, by simp [htr, hb], Runs.testStops hx2 hy2 htx2 hty2 htr hb (by simp) (by simp)⟩
        · exact ⟨s', panic, by simp [htr, hb], Runs.testStops hx2 hy2 htx2 hty2 htr hb (by simp) (by simp)⟩
        · exact ⟨s', ub, by simp [htr, hb], Runs.testStops hx2 hy2 htx2 hty2 htr hb (by simp) (by simp)⟩
      · exact ⟨s', err e, by simp [htr], Runs.trainStops hx2 hy2 htr (by simp) (by simp)⟩
      · exact ⟨s', panic, by simp [htr], Runs.trainStops hx2 hy2 htr (by simp) (by simp)⟩
      · exact ⟨s', ub, by simp [htr], Runs.trainStops hx2 hy2 htr (by simp) (by simp)⟩

end RM
