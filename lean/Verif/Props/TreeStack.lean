import Verif.Model.TreeStack
import Verif.Props.KNNTree

/-! C123: how much stack the building of a kd-tree or ball tree needs. -/

namespace RM
open Outcome Scalar Spec

section general
variable {F : Type} [Scalar F] {B : Type}

theorem partitionRows_length {data : Mat F} {dim : ℕ} {sp : F} : ∀ {remains l g : List ℕ},
    partitionRows data dim sp remains = ok (l, g) → l.length + g.length = remains.length
  | [], l, g, h => by
    simp only [partitionRows, ok.injEq, Prod.mk.injEq] at h
    obtain ⟨rfl, rfl⟩ := h
    rfl
  | r :: rs, l, g, h => by
    rw [partitionRows] at h
    cases hv : (data.rows[r]?.bind fun row => row[dim]?) with
    | none => rw [hv] at h; cases h
    | some v =>
      rw [hv] at h
      simp only at h
      cases hp : partitionRows data dim sp rs with
      | ok p =>
        obtain ⟨l', g'⟩ := p
        have ih := partitionRows_length hp
        rw [hp] at h
        simp only [ok_bind, ok.injEq] at h
        split at h
        · simp only [Prod.mk.injEq] at h
          obtain ⟨rfl, rfl⟩ := h
          simp only [List.length_cons]; omega
        · simp only [Prod.mk.injEq] at h
          obtain ⟨rfl, rfl⟩ := h
          simp only [List.length_cons]; omega
      | err e => rw [hp] at h; cases h
      | panic => rw [hp] at h; cases h
      | ub => rw [hp] at h; cases h

theorem selectSplit_smaller {data : Mat F} : ∀ (fuel : ℕ) {remains : List ℕ} {dmin dmax : List F} {s : Sel F},
    selectSplit data fuel remains dmin dmax = some (ok s) → s.left.length < remains.length ∧ s.right.length < remains.length
  | 0, _, _, _, _, h => by simp [selectSplit] at h
  | fuel + 1, remains, dmin, dmax, s, h => by
    rw [selectSplit] at h
    cases ha : argmaxBy Scalar.lt (List.zipWith Scalar.sub dmax dmin) with
    | ok p =>
      obtain ⟨dim, d⟩ := p
      rw [ha] at h
      simp only at h
      cases hm : dmin[dim]? with
      | none => rw [hm] at h; cases h
      | some lo =>
        rw [hm] at h
        simp only at h
        cases hp : partitionRows data dim (lo +. d /. Scalar.ofNat 2) remains with
        | ok p =>
          obtain ⟨l, g⟩ := p
          have hlen := partitionRows_length hp
          rw [hp] at h
          simp only at h
          split at h
          · rename_i hl
            rw [List.isEmpty_iff] at hl
            subst hl
            obtain ⟨h1, h2⟩ := selectSplit_smaller fuel h
            simp only [List.length_nil] at hlen
            omega
          · rename_i hl
            split at h
            · rename_i hg
              rw [List.isEmpty_iff] at hg
              subst hg
              obtain ⟨h1, h2⟩ := selectSplit_smaller fuel h
              simp only [List.length_nil] at hlen
              omega
            · rename_i hg
              simp only [Option.some.injEq, ok.injEq] at h
              subst h
              rw [List.isEmpty_iff] at hl hg
              have := List.length_pos_iff.2 hl
              have := List.length_pos_iff.2 hg
              simp only
              omega
        | err e => rw [hp] at h; cases h
        | panic => rw [hp] at h; cases h
        | ub => rw [hp] at h; cases h
    | err e => rw [ha] at h; cases h
    | panic => rw [ha] at h; cases h
    | ub => rw [ha] at h; cases h

theorem splitFrames_enough (K : SplitKind F B) {data : Mat F} {leafsize fuel0 : ℕ} :
    ∀ (fuel : ℕ) (remains : List ℕ) (dmin dmax : List F) (o : Outcome (Node F B)) (frames : ℕ), fuel ≤ fuel0 →
      splitNode K data leafsize fuel remains dmin dmax = some o → 1 ≤ frames → remains.length + 2 ≤ frames + leafsize →
      splitFrames K data leafsize fuel0 frames remains dmin dmax = .done o
  | 0, _, _, _, _, _, _, h, _, _ => by simp [splitNode] at h
  | fuel + 1, remains, dmin, dmax, o, frames, hf, h, h1, h2 => by
    obtain ⟨fr, rfl⟩ : ∃ fr, frames = fr + 1 := ⟨frames - 1, by omega⟩
    rw [splitNode] at h
    rw [splitFrames]
    split at h
    · rename_i hlt
      rw [if_pos hlt]
      simp only [Option.some.injEq] at h
      subst h
      rfl
    · rename_i hlt
      rw [if_neg hlt]
      cases hs : selectSplit data fuel remains dmin dmax with
      | none => rw [hs] at h; cases h
      | some os =>
        rw [selectSplit_mono fuel fuel0 _ _ _ _ hs (by omega)]
        rw [hs] at h
        cases os with
        | ok s =>
          obtain ⟨hl, hg⟩ := selectSplit_smaller fuel hs
          simp only at h ⊢
          cases h3 : splitNode K data leafsize fuel s.left dmin s.lMax with
          | none => rw [h3] at h; cases h
          | some ol =>
            rw [splitFrames_enough K fuel s.left dmin s.lMax ol fr (by omega) h3 (by omega) (by omega)]
            rw [h3] at h
            cases ol with
            | ok l =>
              simp only at h ⊢
              cases h4 : splitNode K data leafsize fuel s.right s.rMin dmax with
              | none => rw [h4] at h; cases h
              | some og =>
                rw [splitFrames_enough K fuel s.right s.rMin dmax og fr (by omega) h4 (by omega) (by omega)]
                rw [h4] at h
                cases og with
                | ok g =>
                  simp only [Option.some.injEq] at h ⊢
                  rw [h]
                | err e => simp only [Option.some.injEq] at h ⊢; rw [h]
                | panic => simp only [Option.some.injEq] at h ⊢; rw [h]
                | ub => simp only [Option.some.injEq] at h ⊢; rw [h]
            | err e => simp only [Option.some.injEq] at h ⊢; rw [h]
            | panic => simp only [Option.some.injEq] at h ⊢; rw [h]
            | ub => simp only [Option.some.injEq] at h ⊢; rw [h]
        | err e => simp only [Option.some.injEq] at h ⊢; rw [h]
        | panic => simp only [Option.some.injEq] at h ⊢; rw [h]
        | ub => simp only [Option.some.injEq] at h ⊢; rw [h]

/-- C123: a build that ends needs room for at most one call of `split` for each sample beyond `leafsize`, and two more. For any number
type, so also with rounding and with NaN, and for both kinds of tree. -/
theorem C123_enough (K : SplitKind F B) (t : BinaryTree F B) (data : Mat F) (fuel frames : ℕ) (o : Outcome (BinaryTree F B))
    (h : treeBuild K fuel t data = some o) (h1 : 1 ≤ frames) (h2 : data.rows.length + 2 ≤ frames + t.leafsize) :
    treeBuildFrames K fuel frames t data = .done o := by
  unfold treeBuild at h
  unfold treeBuildFrames
  cases ha : minRows data with
  | ok dmin =>
    cases hb : maxRows data with
    | ok dmax =>
      rw [ha, hb] at h
      simp only at h ⊢
      cases hs : splitNode K data t.leafsize fuel (List.range data.rows.length) dmin dmax with
      | none => rw [hs] at h; cases h
      | some os =>
        rw [splitFrames_enough K fuel _ _ _ os frames (le_refl _) hs h1 (by simpa using h2)]
        rw [hs] at h
        cases os <;> · simp only [Option.some.injEq] at h ⊢; rw [h]
    | err e => rw [ha, hb] at h; simp only [Option.some.injEq] at h ⊢; rw [h]
    | panic => rw [ha, hb] at h; simp only [Option.some.injEq] at h ⊢; rw [h]
    | ub => rw [ha, hb] at h; simp only [Option.some.injEq] at h ⊢; rw [h]
  | err e => rw [ha] at h; simp only [Option.some.injEq] at h ⊢; rw [h]
  | panic => rw [ha] at h; simp only [Option.some.injEq] at h ⊢; rw [h]
  | ub => rw [ha] at h; simp only [Option.some.injEq] at h ⊢; rw [h]

end general

/-! ### Data that need this much -/

/-- One feature, and samples each about twice as large as the one before: 0, 1, 3, 7, … -/
noncomputable def doubling (n : ℕ) : Mat ℝ := ⟨1, (List.range n).map fun i => [(2 : ℝ) ^ i - 1]⟩

theorem doubling_wf (n : ℕ) : (doubling n).WF := by
  intro r hr
  obtain ⟨i, -, rfl⟩ := List.mem_map.1 hr
  rfl

theorem doubling_length (n : ℕ) : (doubling n).rows.length = n := by simp [doubling]

theorem doubling_val {n i : ℕ} (h : i < n) : val (doubling n) i 0 = (2 : ℝ) ^ i - 1 := by
  simp [val, doubling, h]

theorem doubling_select {n m fuel : ℕ} {M : ℝ} (h2 : 2 ≤ m) (hm : m ≤ n) (hlo : (2 : ℝ) ^ (m - 1) - 2 < M) (hhi : M ≤ (2 : ℝ) ^ (m - 1)) :
    selectSplit (doubling n) (fuel + 1) (List.range m) [0] [M] =
      some (ok ⟨0, M / 2, List.range (m - 1), [m - 1], [M / 2], [M / 2]⟩) := by
  obtain ⟨k, rfl⟩ : ∃ k, m = k + 2 := ⟨m - 2, by omega⟩
  simp only [show k + 2 - 1 = k + 1 by omega] at *
  have hp : (2 : ℝ) ^ (k + 1) = 2 * 2 ^ k := by rw [pow_succ]; ring
  have hone : (1 : ℝ) ≤ 2 ^ k := one_le_pow₀ (by norm_num)
  rw [selectSplit]
  simp only [List.zipWith_cons_cons, List.zipWith_nil_right, argmaxBy, argAux, List.getElem?_cons_zero]
  have hsp : (0 : ℝ) +. (M -. 0) /. Scalar.ofNat 2 = M / 2 := by simp
  rw [hsp, partitionRows_ok (doubling_wf n) (by simp [doubling]) _ _ (by
    intro i hi
    rw [doubling_length]
    have := List.mem_range.1 hi
    omega)]
  have hleft : (List.range (k + 2)).filter (fun r => val (doubling n) r 0 <. M / 2) = List.range (k + 1) := by
    rw [List.range_succ, List.filter_append]
    have e1 : (List.range (k + 1)).filter (fun r => val (doubling n) r 0 <. M / 2) = List.range (k + 1) := by
      rw [List.filter_eq_self]
      intro i hi
      have hi' := List.mem_range.1 hi
      rw [doubling_val (by omega), slt_true]
      have : (2 : ℝ) ^ i ≤ 2 ^ k := pow_le_pow_right₀ (by norm_num) (by omega)
      linarith
    have e2 : [k + 1].filter (fun r => val (doubling n) r 0 <. M / 2) = [] := by
      rw [List.filter_eq_nil_iff]
      intro i hi
      rw [List.mem_singleton.1 hi, doubling_val (by omega), Bool.not_eq_true, slt_false]
      linarith
    rw [e1, e2, List.append_nil]
  have hright : (List.range (k + 2)).filter (fun r => !(val (doubling n) r 0 <. M / 2)) = [k + 1] := by
    rw [List.range_succ, List.filter_append]
    have e1 : (List.range (k + 1)).filter (fun r => !(val (doubling n) r 0 <. M / 2)) = [] := by
      rw [List.filter_eq_nil_iff]
      intro i hi
      have hi' := List.mem_range.1 hi
      have : (2 : ℝ) ^ i ≤ 2 ^ k := pow_le_pow_right₀ (by norm_num) (by omega)
      have h : (val (doubling n) i 0 <. M / 2) = true := by
        rw [doubling_val (by omega), slt_true]
        linarith
      simp [h]
    have e2 : [k + 1].filter (fun r => !(val (doubling n) r 0 <. M / 2)) = [k + 1] := by
      rw [List.filter_eq_self]
      intro i hi
      rw [List.mem_singleton.1 hi, doubling_val (by omega), Bool.not_eq_true', slt_false]
      linarith
    rw [e1, e2, List.nil_append]
  simp only [hleft, hright]
  rw [if_neg (by simp), if_neg (by simp)]
  simp

theorem doubling_next {m : ℕ} {M : ℝ} (h2 : 2 ≤ m) (hlo : (2 : ℝ) ^ (m - 1) - 2 < M) (hhi : M ≤ (2 : ℝ) ^ (m - 1)) :
    (2 : ℝ) ^ (m - 1 - 1) - 2 < M / 2 ∧ M / 2 ≤ (2 : ℝ) ^ (m - 1 - 1) := by
  obtain ⟨k, rfl⟩ : ∃ k, m = k + 2 := ⟨m - 2, by omega⟩
  simp only [show k + 2 - 1 = k + 1 by omega, show k + 1 - 1 = k by omega] at *
  have hp : (2 : ℝ) ^ (k + 1) = 2 * 2 ^ k := by rw [pow_succ]; ring
  constructor <;> linarith

theorem doubling_overflow {B : Type} (K : SplitKind ℝ B) {n leafsize fuel : ℕ} (hL : 2 ≤ leafsize) :
    ∀ (frames m : ℕ) (M : ℝ), m ≤ n → frames + leafsize < m + 2 → (2 : ℝ) ^ (m - 1) - 2 < M → M ≤ (2 : ℝ) ^ (m - 1) →
      splitFrames K (doubling n) leafsize (fuel + 1) frames (List.range m) [0] [M] = .overflow
  | 0, _, _, _, _, _, _ => rfl
  | frames + 1, m, M, hm, hf, hlo, hhi => by
    obtain ⟨n1, n2⟩ := doubling_next (by omega) hlo hhi
    rw [splitFrames, if_neg (by simp; omega), doubling_select (by omega) hm hlo hhi]
    simp only
    rw [doubling_overflow K hL frames (m - 1) (M / 2) (by omega) (by omega) n1 n2]

theorem doubling_ends {B : Type} (K : SplitKind ℝ B) {n leafsize : ℕ} (hL : 2 ≤ leafsize)
    (hK : ∀ (remains : List ℕ) (dmin dmax : List ℝ), (∀ i ∈ remains, i < n) → ∃ b, K.mkBound (doubling n) remains dmin dmax = ok b) :
    ∀ (m : ℕ) (M : ℝ), m ≤ n → (2 : ℝ) ^ (m - 1) - 2 < M → M ≤ (2 : ℝ) ^ (m - 1) →
      ∃ t, splitNode K (doubling n) leafsize (m + 2) (List.range m) [0] [M] = some (ok t)
  | 0, M, _, _, _ => ⟨.leaf [], by rw [splitNode, if_pos (by simp; omega)]; rfl⟩
  | m + 1, M, hm, hlo, hhi => by
    by_cases hlt : m + 1 < leafsize
    · exact ⟨.leaf (List.range (m + 1)), by rw [splitNode, if_pos (by simpa using hlt)]⟩
    · obtain ⟨n1, n2⟩ := doubling_next (by omega) hlo hhi
      obtain ⟨l, hl⟩ := doubling_ends K hL hK m (M / 2) (by omega) n1 n2
      obtain ⟨b, hb⟩ := hK (List.range (m + 1)) [0] [M] (by intro i hi; have := List.mem_range.1 hi; omega)
      rw [splitNode, if_neg (by simpa using hlt), doubling_select (by omega) hm hlo hhi]
      simp only [Nat.add_sub_cancel]
      rw [hl]
      simp only
      rw [splitNode, if_pos (by simp; omega)]
      simp only [hb, ok_bind]
      exact ⟨_, rfl⟩

theorem doubling_min (n : ℕ) (hn : 1 ≤ n) : minRows (doubling n) = ok [0] := by
  obtain ⟨k, rfl⟩ : ∃ k, n = k + 1 := ⟨n - 1, by omega⟩
  have hrows : (doubling (k + 1)).rows = [0] :: (List.range k).map fun i => [(2 : ℝ) ^ (i + 1) - 1] := by
    simp [doubling, List.range_succ_eq_map]
  unfold minRows
  rw [hrows]
  simp only [extremeRows, List.foldl_cons, ok.injEq]
  have h0 : ∀ l : List ℕ, List.foldl (fun acc row => List.zipWith (fun r v => if v <. r then v else r) acc row) [(0 : ℝ)]
      (l.map fun i => [(2 : ℝ) ^ (i + 1) - 1]) = [0] := by
    intro l
    induction l with
    | nil => rfl
    | cons a l ih =>
      have : ((2 : ℝ) ^ (a + 1) - 1 <. 0) = false := by
        rw [slt_false]
        have : (1 : ℝ) ≤ 2 ^ (a + 1) := one_le_pow₀ (by norm_num)
        linarith
      simp only [List.map_cons, List.foldl_cons, List.zipWith_cons_cons, List.zipWith_nil_right, this, Bool.false_eq_true, if_false]
      exact ih
  have : ((0 : ℝ) <. 0) = false := by rw [slt_false]
  simp only [List.zipWith_cons_cons, List.zipWith_nil_right, this, Bool.false_eq_true, if_false]
  exact h0 _

theorem doubling_max (n : ℕ) (hn : 1 ≤ n) : maxRows (doubling n) = ok [(2 : ℝ) ^ (n - 1) - 1] := by
  obtain ⟨k, rfl⟩ : ∃ k, n = k + 1 := ⟨n - 1, by omega⟩
  have h0 : ∀ k : ℕ, List.foldl (fun acc row => List.zipWith (fun r v => if r <. v then v else r) acc row) [(0 : ℝ)]
      ((List.range (k + 1)).map fun i => [(2 : ℝ) ^ i - 1]) = [(2 : ℝ) ^ k - 1] := by
    intro k
    induction k with
    | zero =>
      have : ((0 : ℝ) <. 0) = false := by rw [slt_false]
      simp [this]
    | succ k ih =>
      rw [List.range_succ, List.map_append, List.foldl_append, ih]
      have : ((2 : ℝ) ^ k - 1 <. (2 : ℝ) ^ (k + 1) - 1) = true := by
        rw [slt_true, pow_succ]
        have : (1 : ℝ) ≤ 2 ^ k := one_le_pow₀ (by norm_num)
        linarith
      simp only [List.map_cons, List.map_nil, List.foldl_cons, List.foldl_nil, List.zipWith_cons_cons, List.zipWith_nil_right, this,
        if_true]
  have hrows : (doubling (k + 1)).rows = [0] :: (List.range k).map fun i => [(2 : ℝ) ^ (i + 1) - 1] := by
    simp [doubling, List.range_succ_eq_map]
  have h1 := h0 k
  have hr : ((List.range (k + 1)).map fun i => [(2 : ℝ) ^ i - 1]) = [0] :: (List.range k).map fun i => [(2 : ℝ) ^ (i + 1) - 1] := hrows
  rw [hr] at h1
  unfold maxRows
  rw [hrows]
  simp only [extremeRows, ok.injEq, Nat.add_sub_cancel]
  exact h1

theorem doubling_tight {B : Type} (K : SplitKind ℝ B) {n leafsize : ℕ} (hL : 2 ≤ leafsize) (hn : 1 ≤ n)
    (hK : ∀ (remains : List ℕ) (dmin dmax : List ℝ), (∀ i ∈ remains, i < n) → ∃ b, K.mkBound (doubling n) remains dmin dmax = ok b) :
    (∃ fuel t, treeBuild K fuel ⟨leafsize, none, none⟩ (doubling n) = some (ok t)) ∧
    ∀ frames fuel, frames + leafsize < n + 2 → treeBuildFrames K (fuel + 1) frames ⟨leafsize, none, none⟩ (doubling n) = .overflow := by
  constructor
  · obtain ⟨t, ht⟩ := doubling_ends K hL hK n ((2 : ℝ) ^ (n - 1) - 1) (le_refl _) (by linarith) (by linarith)
    refine ⟨n + 2, ⟨leafsize, some (doubling n), some t⟩, ?_⟩
    unfold treeBuild
    rw [doubling_min n hn, doubling_max n hn]
    simp only [doubling_length]
    rw [ht]
  · intro frames fuel hf
    unfold treeBuildFrames
    rw [doubling_min n hn, doubling_max n hn]
    simp only [doubling_length]
    rw [doubling_overflow K hL frames n _ (le_refl _) hf (by linarith) (by linarith)]

/-- C123: this much stack is needed: for every number of samples and every leaf size of at least 2 there are data of one feature whose
kd-tree can be built, and with less room the build overflows the stack. -/
theorem C123_kd_tight (n leafsize : ℕ) (hn : 1 ≤ n) (hL : 2 ≤ leafsize) :
    ∃ data : Mat ℝ, data.WF ∧ data.rows.length = n ∧ data.cols = 1 ∧
      (∃ fuel t, treeBuild (kdKind (F := ℝ)) fuel ⟨leafsize, none, none⟩ data = some (ok t)) ∧
      ∀ frames fuel, frames + leafsize < n + 2 →
        treeBuildFrames (kdKind (F := ℝ)) (fuel + 1) frames ⟨leafsize, none, none⟩ data = .overflow :=
  ⟨doubling n, doubling_wf n, doubling_length n, rfl, doubling_tight kdKind hL hn fun _ _ _ _ => ⟨_, rfl⟩⟩

/-- C123 for ball trees. -/
theorem C123_ball_tight (n leafsize : ℕ) (hn : 1 ≤ n) (hL : 2 ≤ leafsize) :
    ∃ data : Mat ℝ, data.WF ∧ data.rows.length = n ∧ data.cols = 1 ∧
      (∃ fuel t, treeBuild (ballKind (F := ℝ)) fuel ⟨leafsize, none, none⟩ data = some (ok t)) ∧
      ∀ frames fuel, frames + leafsize < n + 2 →
        treeBuildFrames (ballKind (F := ℝ)) (fuel + 1) frames ⟨leafsize, none, none⟩ data = .overflow :=
  ⟨doubling n, doubling_wf n, doubling_length n, rfl, doubling_tight ballKind hL hn fun rem a b h => by
    obtain ⟨bd, h1, _⟩ := ball_mkBound (doubling_wf n) rem a b (by rwa [doubling_length])
    exact ⟨bd, h1⟩⟩

/-- A case: 1000 samples and the default leaf size of 30 can need 972 nested calls. -/
example : ∃ data : Mat ℝ, data.rows.length = 1000 ∧
    (∃ fuel t, treeBuild (kdKind (F := ℝ)) fuel ⟨30, none, none⟩ data = some (ok t)) ∧
    ∀ fuel, treeBuildFrames (kdKind (F := ℝ)) (fuel + 1) 971 ⟨30, none, none⟩ data = .overflow := by
  obtain ⟨d, -, h1, -, h2, h3⟩ := C123_kd_tight 1000 30 (by norm_num) (by norm_num)
  exact ⟨d, h1, h2, fun fuel => h3 971 fuel (by norm_num)⟩

end RM
