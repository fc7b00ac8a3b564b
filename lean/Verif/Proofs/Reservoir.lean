import Verif.Proofs.RandUtils
import Mathlib.Data.Finset.Basic
import Mathlib.Data.Finset.Card
import Mathlib.Algebra.BigOperators.Group.Finset.Basic
import Mathlib.Algebra.Order.BigOperators.Group.Finset
import Mathlib.Algebra.BigOperators.Ring.List
import Mathlib.Algebra.Module.Basic

namespace RM
open Outcome Spec

variable {α : Type}

/-- Processing one pool element with draw `x`. -/
def resStep (k : ℕ) (res : List α) (px : α × ℕ) : List α := if px.2 < k then res.set px.2 px.1 else res

theorem resStep_length (k : ℕ) (res : List α) (px : α × ℕ) : (resStep k res px).length = res.length := by
  unfold resStep; split <;> simp

theorem resFold_length (k : ℕ) (l : List (α × ℕ)) : ∀ res : List α, (l.foldl (resStep k) res).length = res.length := by
  induction l with
  | nil => intro; rfl
  | cons a l ih => intro res; rw [List.foldl_cons, ih, resStep_length]

/-- The draws seen by the loop. -/
def resDraws (r : ℕ → ℕ) (seen : ℕ) : ℕ → ℕ → List ℕ
  | _, 0 => []
  | t, m + 1 => r t % (seen + 1) :: resDraws r (seen + 1) (t + 1) m

theorem reservoirLoop_eq (r : ℕ → ℕ) (k : ℕ) (pool : List α) : ∀ (seen t : ℕ) (res : List α), res.length = k →
    reservoirLoop r k pool seen t res
      = ok ((pool.zip (resDraws r seen t pool.length)).foldl (resStep k) res) := by
  induction pool with
  | nil => intro seen t res _; rfl
  | cons p pool ih =>
    intro seen t res hres
    simp only [reservoirLoop, genRange_zero (Nat.succ_pos _), Nat.succ_eq_add_one, ok_bind, List.length_cons, resDraws,
      List.zip_cons_cons, List.foldl_cons]
    by_cases hx : r t % (seen + 1) < k
    · simp only [hx, ↓reduceIte, setAt, hres, ok_bind]
      rw [ih _ _ _ (by simpa using hres)]
      simp [resStep, hx]
    · simp only [hx, ↓reduceIte, pure_eq, ok_bind]
      rw [ih _ _ _ hres]
      simp [resStep, hx]

theorem resDraws_length (r : ℕ → ℕ) (m : ℕ) : ∀ seen t, (resDraws r seen t m).length = m := by
  induction m with
  | zero => intros; rfl
  | succ m ih => intro seen t; simp [resDraws, ih]

theorem resDraws_getElem (r : ℕ → ℕ) (m : ℕ) : ∀ seen t i (h : i < (resDraws r seen t m).length),
    (resDraws r seen t m)[i] = r (t + i) % (seen + i + 1) := by
  induction m with
  | zero => intro seen t i h; simp [resDraws] at h
  | succ m ih =>
    intro seen t i h
    cases i with
    | zero => simp [resDraws]
    | succ i =>
      simp only [resDraws, List.getElem_cons_succ]
      rw [ih]
      rw [show t + 1 + i = t + (i+1) by omega, show seen + 1 + i + 1 = seen + (i+1) + 1 by omega]

theorem resDraws_streamOf (k : ℕ) (ds : List ℕ) (hds : ∀ t (h : t < ds.length), ds[t] < k + t + 1) :
    resDraws (streamOf ds) k 0 ds.length = ds := by
  apply List.ext_getElem (resDraws_length _ _ _ _)
  intro i h1 h2
  rw [resDraws_getElem]
  have : streamOf ds (0 + i) = ds[i] := by simp [streamOf, h2]
  rw [this, Nat.mod_eq_of_lt (hds i h2)]

theorem set_subperm (res : List α) (x : ℕ) (p : α) (hx : x < res.length) : (res.set x p).Subperm (p :: res) := by
  have h : (p :: res).Perm (res[x] :: res.set x p) := (cons_set_perm p res x hx).symm
  exact (List.Sublist.subperm (List.sublist_cons_self _ _)).trans h.symm.subperm

theorem resFold_subperm (k : ℕ) (l : List (α × ℕ)) : ∀ (res done : List α), res.length = k → res.Subperm done →
    (l.foldl (resStep k) res).Subperm (done ++ l.map Prod.fst) := by
  induction l with
  | nil => intro res done _ h; simpa using h
  | cons px l ih =>
    intro res done hk h
    have := ih (resStep k res px) (done ++ [px.1]) (by rw [resStep_length, hk]) ?_
    · simpa using this
    · have h2 : (px.1 :: res).Subperm (done ++ [px.1]) := by
        refine ((List.subperm_cons px.1).2 h).trans ?_
        exact (List.perm_append_comm (l₁ := [px.1]) (l₂ := done)).subperm
      unfold resStep
      split
      · exact (set_subperm res _ _ (by omega)).trans h2
      · exact (List.Sublist.subperm (List.sublist_cons_self _ _)).trans h2

theorem reservoirSample_eq (r : ℕ → ℕ) (pool : List α) (k : ℕ) (hk : k ≤ pool.length) :
    reservoirSample r pool k
      = ok (((pool.drop k).zip (resDraws r k 0 (pool.length - k))).foldl (resStep k) (pool.take k)) := by
  simp only [reservoirSample, hk, decide_true, assert_true, ok_bind]
  rw [reservoirLoop_eq _ _ _ _ _ _ (by simpa using hk), List.length_drop]

theorem reservoirSample_subperm (r : ℕ → ℕ) (pool : List α) (k : ℕ) (hk : k ≤ pool.length) :
    ∃ res, reservoirSample r pool k = ok res ∧ res.length = k ∧ res.Subperm pool := by
  refine ⟨_, reservoirSample_eq r pool k hk, ?_, ?_⟩
  · rw [resFold_length]; simpa using hk
  · have := resFold_subperm k ((pool.drop k).zip (resDraws r k 0 (pool.length - k))) (pool.take k) (pool.take k)
      (by simpa using hk) (List.Subperm.refl _)
    rw [List.map_fst_zip (by rw [resDraws_length]; simp)] at this
    simpa using this

/-! ### Uniformity -/

section count
variable [DecidableEq α]

theorem sum_map_finset_sum {β γ : Type} (l : List β) (s : Finset γ) (f : β → γ → ℕ) :
    (l.map fun b => ∑ y ∈ s, f b y).sum = ∑ y ∈ s, (l.map fun b => f b y).sum := by
  induction l with
  | nil => simp
  | cons b l ih => simp [ih, Finset.sum_add_distrib]

theorem countP_eq_sum_ite {β : Type} (l : List β) (p : β → Bool) :
    l.countP p = (l.map fun b => if p b then 1 else 0).sum := by
  induction l with
  | nil => simp
  | cons b l ih =>
    rw [List.countP_cons, ih, List.map_cons, List.sum_cons, add_comm]

/-- Among the in-range draws, those that keep `R`. -/
theorem countP_notMem {k m : ℕ} {R : List α} {p : α} {S : Finset α} (hR : R.length = k) (hp : p ∉ S) :
    (List.range (k + m + 1)).countP (fun d => decide ((resStep k R (p, d)).toFinset = S))
      = if R.toFinset = S then m + 1 else 0 := by
  rw [show k + m + 1 = k + (m + 1) by omega, List.range_add, List.countP_append]
  have h1 : (List.range k).countP (fun d => decide ((resStep k R (p, d)).toFinset = S)) = 0 := by
    rw [List.countP_eq_zero]
    intro d hd
    simp only [List.mem_range] at hd
    simp only [resStep, hd, ↓reduceIte, decide_eq_true_eq]
    intro e
    apply hp
    rw [← e, List.mem_toFinset]
    exact List.mem_set (by omega) p
  rw [h1, zero_add, List.countP_map]
  have : ((fun d => decide ((resStep k R (p, d)).toFinset = S)) ∘ fun x => k + x) = fun _ => decide (R.toFinset = S) := by
    funext d
    simp [resStep]
  rw [this]
  split
  · rename_i h; simp [h]
  · rename_i h; simp [h]

theorem toFinset_set {R : List α} (hnd : R.Nodup) {d : ℕ} (hd : d < R.length) (p : α) :
    (R.set d p).toFinset = insert p (R.toFinset.erase R[d]) := by
  ext y
  simp only [List.mem_toFinset, Finset.mem_insert, Finset.mem_erase]
  constructor
  · intro hy
    obtain ⟨i, hi, rfl⟩ := List.mem_iff_getElem.1 hy
    rw [List.getElem_set]
    split
    · left; rfl
    · rename_i h
      right
      refine ⟨?_, List.getElem_mem _⟩
      intro e
      exact h ((hnd.getElem_inj_iff).1 e).symm
  · rintro (rfl | ⟨h1, h2⟩)
    · exact List.mem_set hd y
    · obtain ⟨i, hi, rfl⟩ := List.mem_iff_getElem.1 h2
      have : d ≠ i := by rintro rfl; exact h1 rfl
      rw [List.mem_iff_getElem]
      exact ⟨i, by simpa using hi, by rw [List.getElem_set_ne this]⟩

theorem countP_mem {k m : ℕ} {R : List α} {p : α} {S : Finset α} (hR : R.length = k) (hnd : R.Nodup) (hpR : p ∉ R)
    (hp : p ∈ S) (hS : S.card = k) :
    (List.range (k + m + 1)).countP (fun d => decide ((resStep k R (p, d)).toFinset = S))
      = if S.erase p ⊆ R.toFinset then 1 else 0 := by
  rw [show k + m + 1 = k + (m + 1) by omega, List.range_add, List.countP_append, List.countP_map]
  have h2 : (List.range (m+1)).countP ((fun d => decide ((resStep k R (p, d)).toFinset = S)) ∘ fun x => k + x) = 0 := by
    rw [List.countP_eq_zero]
    intro d _
    simp only [resStep, Function.comp, Nat.not_lt_of_le (Nat.le_add_right k d), ↓reduceIte, decide_eq_true_eq]
    intro e
    rw [← e, List.mem_toFinset] at hp
    exact hpR hp
  rw [h2, add_zero]
  have hcardR : R.toFinset.card = k := by rw [List.toFinset_card_of_nodup hnd, hR]
  have hpos : 0 < k := by rw [← hS]; exact Finset.card_pos.2 ⟨p, hp⟩
  split
  · rename_i hsub
    -- the unique element of R outside S.erase p
    have hc : (R.toFinset \ S.erase p).card = 1 := by
      rw [Finset.card_sdiff_of_subset hsub, hcardR, Finset.card_erase_of_mem hp, hS]; omega
    obtain ⟨y, hy⟩ := Finset.card_eq_one.1 hc
    have hyR : y ∈ R := by
      have : y ∈ R.toFinset \ S.erase p := by rw [hy]; simp
      simpa using (Finset.mem_sdiff.1 this).1
    have hyS : y ∉ S.erase p := by
      have : y ∈ R.toFinset \ S.erase p := by rw [hy]; simp
      exact (Finset.mem_sdiff.1 this).2
    have hRe : R.toFinset.erase y = S.erase p := by
      ext z
      constructor
      · intro hz
        by_contra hzS
        have : z ∈ R.toFinset \ S.erase p := Finset.mem_sdiff.2 ⟨(Finset.mem_erase.1 hz).2, hzS⟩
        rw [hy, Finset.mem_singleton] at this
        exact (Finset.mem_erase.1 hz).1 this
      · intro hz
        refine Finset.mem_erase.2 ⟨?_, hsub hz⟩
        rintro rfl
        exact hyS hz
    obtain ⟨i, hi, hiy⟩ := List.mem_iff_getElem.1 hyR
    have heq : ∀ d ∈ List.range k, (decide ((resStep k R (p, d)).toFinset = S)) = (d == i) := by
      intro d hd
      simp only [List.mem_range] at hd
      have hd' : d < R.length := by omega
      simp only [resStep, hd, ↓reduceIte]
      rw [toFinset_set hnd hd' p, Bool.eq_iff_iff]
      simp only [decide_eq_true_eq, beq_iff_eq]
      constructor
      · intro e
        have : R[d] ∉ S.erase p := by
          intro hmem
          have hm2 := (Finset.mem_erase.1 hmem)
          rw [← e] at hm2
          have := hm2.2
          simp only [Finset.mem_insert, Finset.mem_erase] at this
          rcases this with h | h
          · exact hm2.1 h
          · exact h.1 rfl
        have hmem : R[d] ∈ R.toFinset \ S.erase p := Finset.mem_sdiff.2 ⟨by simp, this⟩
        rw [hy, Finset.mem_singleton] at hmem
        exact (hnd.getElem_inj_iff).1 (hmem.trans hiy.symm)
      · rintro rfl
        rw [hiy, hRe, Finset.insert_erase hp]
    rw [List.countP_congr (q := fun d => d == i) (by intro d hd; rw [heq d hd])]
    have : (List.range k).countP (fun d => d == i) = (List.range k).count i := rfl
    rw [this, List.count_eq_one_of_mem List.nodup_range (by simp; omega)]
  · rename_i hsub
    rw [List.countP_eq_zero]
    intro d hd
    simp only [List.mem_range] at hd
    have hd' : d < R.length := by omega
    simp only [resStep, hd, ↓reduceIte, decide_eq_true_eq]
    rw [toFinset_set hnd hd' p]
    intro e
    apply hsub
    intro z hz
    obtain ⟨hz1, hz2⟩ := Finset.mem_erase.1 hz
    rw [← e] at hz2
    rcases Finset.mem_insert.1 hz2 with h | h
    · exact absurd h hz1
    · exact (Finset.mem_erase.1 h).2

theorem insert_iff_unique {k : ℕ} {R T P S : Finset α} (hRc : R.card = k) (hT : T.card + 1 = k) (hTS : T ⊆ S) (hRP : R ⊆ P)
    (hRS : ∀ y ∈ R, y ∈ S → y ∈ T) :
    (if T ⊆ R then 1 else 0) = ∑ y ∈ P \ S, if R = insert y T then 1 else 0 := by
  split
  · rename_i hsub
    have hc : (R \ T).card = 1 := by rw [Finset.card_sdiff_of_subset hsub]; omega
    obtain ⟨y, hy⟩ := Finset.card_eq_one.1 hc
    have hyRT : y ∈ R \ T := by rw [hy]; simp
    obtain ⟨hyR, hyT⟩ := Finset.mem_sdiff.1 hyRT
    have hRy : R = insert y T := by
      rw [← Finset.sdiff_union_of_subset hsub, hy]; rfl
    have hyPS : y ∈ P \ S := Finset.mem_sdiff.2 ⟨hRP hyR, fun h => hyT (hRS y hyR h)⟩
    rw [Finset.sum_eq_single_of_mem y hyPS]
    · rw [if_pos hRy]
    · intro z hz hzy
      rw [if_neg]
      intro e
      have : z ∈ R := by rw [e]; simp
      rw [hRy] at this
      rcases Finset.mem_insert.1 this with h | h
      · exact hzy h
      · exact (Finset.mem_sdiff.1 hz).2 (hTS h)
  · rename_i hsub
    symm
    apply Finset.sum_eq_zero
    intro y _
    rw [if_neg]
    intro e
    apply hsub
    rw [e]
    exact Finset.subset_insert _ _

theorem reservoir_count (k : ℕ) (first : List α) (hk : first.length = k) (rest : List α) :
    (first ++ rest).Nodup → ∀ S : Finset α, S ⊆ (first ++ rest).toFinset → S.card = k →
    (allDraws (fun t => k + t + 1) rest.length).countP
      (fun ds => decide (((rest.zip ds).foldl (resStep k) first).toFinset = S)) = Nat.factorial rest.length := by
  induction rest using List.reverseRecOn with
  | nil =>
    intro hnd S hS hc
    simp only [List.append_nil] at hnd hS
    have : S = first.toFinset := by
      apply Finset.eq_of_subset_of_card_le hS
      rw [List.toFinset_card_of_nodup hnd, hk, hc]
    simp [allDraws, this]
  | append_singleton qs p ih =>
    intro hnd S hS hc
    have hnd' : (first ++ qs).Nodup := by
      rw [← List.append_assoc] at hnd
      exact (List.nodup_append.1 hnd).1
    have hpn : p ∉ first ++ qs := by
      rw [← List.append_assoc] at hnd
      intro h
      exact (List.nodup_append.1 hnd).2.2 p h p (by simp) rfl
    simp only [List.length_append, List.length_singleton, allDraws]
    rw [List.countP_flatMap]
    have inner : ∀ ds ∈ allDraws (fun t => k + t + 1) qs.length,
        ((List.countP fun ds => decide ((((qs ++ [p]).zip ds).foldl (resStep k) first).toFinset = S)) ∘
          fun ds => (List.range (k + qs.length + 1)).map fun d => ds ++ [d]) ds
        = (List.range (k + qs.length + 1)).countP
            (fun d => decide ((resStep k ((qs.zip ds).foldl (resStep k) first) (p, d)).toFinset = S)) := by
      intro ds hds
      obtain ⟨hdl, _⟩ := mem_allDraws.1 hds
      simp only [Function.comp, List.countP_map]
      apply List.countP_congr
      intro d _
      simp only [Function.comp]
      rw [List.zip_append hdl.symm]
      simp
    have props : ∀ ds ∈ allDraws (fun t => k + t + 1) qs.length,
        ((qs.zip ds).foldl (resStep k) first).length = k ∧ ((qs.zip ds).foldl (resStep k) first).Nodup ∧
        ((qs.zip ds).foldl (resStep k) first) ⊆ (first ++ qs) := by
      intro ds hds
      obtain ⟨hdl, _⟩ := mem_allDraws.1 hds
      have hs := resFold_subperm k (qs.zip ds) first first hk (List.Subperm.refl _)
      rw [List.map_fst_zip (by omega)] at hs
      exact ⟨by rw [resFold_length, hk], (by obtain ⟨l, hl1, hl2⟩ := hs; exact hl1.nodup_iff.1 (hl2.nodup hnd')), hs.subset⟩
    rw [List.map_congr_left inner]
    by_cases hp : p ∈ S
    · rw [List.map_congr_left (g := fun ds => ∑ y ∈ (first ++ qs).toFinset \ S,
        if ((qs.zip ds).foldl (resStep k) first).toFinset = insert y (S.erase p) then 1 else 0)]
      · rw [sum_map_finset_sum]
        have hterm : ∀ y ∈ (first ++ qs).toFinset \ S,
            ((allDraws (fun t => k + t + 1) qs.length).map fun ds =>
              if ((qs.zip ds).foldl (resStep k) first).toFinset = insert y (S.erase p) then 1 else 0).sum
              = Nat.factorial qs.length := by
          intro y hy
          obtain ⟨hyP, hyS⟩ := Finset.mem_sdiff.1 hy
          rw [← ih hnd' (insert y (S.erase p))]
          · rw [countP_eq_sum_ite]; simp
          · intro z hz
            rcases Finset.mem_insert.1 hz with h | h
            · rw [h]; exact hyP
            · obtain ⟨h1, h2⟩ := Finset.mem_erase.1 h
              have := hS h2
              simp only [List.toFinset_append, List.toFinset_cons, List.toFinset_nil, Finset.mem_union,
                List.mem_toFinset, Finset.mem_insert, Finset.notMem_empty, or_false] at this ⊢
              tauto
          · rw [Finset.card_insert_of_notMem (fun h => hyS (Finset.mem_erase.1 h).2), Finset.card_erase_of_mem hp, hc]
            have : 0 < S.card := Finset.card_pos.2 ⟨p, hp⟩
            omega
        rw [Finset.sum_congr rfl hterm, Finset.sum_const, smul_eq_mul]
        have hcard : ((first ++ qs).toFinset \ S).card = qs.length + 1 := by
          have e : (first ++ qs).toFinset \ S = (first ++ qs).toFinset \ S.erase p := by
            ext z
            simp only [Finset.mem_sdiff, Finset.mem_erase]
            constructor
            · rintro ⟨h1, h2⟩; exact ⟨h1, fun h => h2 h.2⟩
            · rintro ⟨h1, h2⟩
              refine ⟨h1, fun h => h2 ⟨?_, h⟩⟩
              rintro rfl
              exact hpn (List.mem_toFinset.1 h1)
          rw [e, Finset.card_sdiff_of_subset, List.toFinset_card_of_nodup hnd', Finset.card_erase_of_mem hp, hc]
          · have : 0 < S.card := Finset.card_pos.2 ⟨p, hp⟩
            simp; omega
          · intro z hz
            obtain ⟨h1, h2⟩ := Finset.mem_erase.1 hz
            have := hS h2
            simp only [List.toFinset_append, List.toFinset_cons, List.toFinset_nil, Finset.mem_union,
              List.mem_toFinset, Finset.mem_insert, Finset.notMem_empty, or_false] at this ⊢
            tauto
        rw [hcard, Nat.factorial_succ]
      · intro ds hds
        obtain ⟨h1, h2, h3⟩ := props ds hds
        rw [countP_mem h1 h2 (fun h => hpn (h3 h)) hp hc]
        apply insert_iff_unique (k := k)
        · rw [List.toFinset_card_of_nodup h2, h1]
        · rw [Finset.card_erase_of_mem hp, hc]
          have : 0 < S.card := Finset.card_pos.2 ⟨p, hp⟩
          omega
        · exact Finset.erase_subset _ _
        · intro z hz; simp only [List.mem_toFinset] at hz ⊢; exact h3 hz
        · intro y hy hyS
          refine Finset.mem_erase.2 ⟨?_, hyS⟩
          rintro rfl
          exact hpn (h3 (List.mem_toFinset.1 hy))
    · rw [List.map_congr_left (g := fun ds =>
        (qs.length + 1) * (if ((qs.zip ds).foldl (resStep k) first).toFinset = S then 1 else 0))]
      · rw [List.sum_map_mul_left]
        have := ih hnd' S ?_ hc
        · rw [countP_eq_sum_ite] at this
          simp only [decide_eq_true_eq] at this
          rw [this, Nat.factorial_succ]
        · intro z hz
          have := hS hz
          simp only [List.toFinset_append, List.toFinset_cons, List.toFinset_nil, Finset.mem_union,
            List.mem_toFinset, Finset.mem_insert, Finset.notMem_empty, or_false] at this ⊢
          have hzp : z ≠ p := by rintro rfl; exact hp hz
          tauto
      · intro ds hds
        obtain ⟨h1, _, _⟩ := props ds hds
        rw [countP_notMem h1 hp]
        split <;> simp

end count

end RM
