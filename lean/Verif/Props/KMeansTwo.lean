import Verif.Props.KMeansStops
import Verif.Props.KMeansInit

/-! C118: k-means with two clusters never loses a cluster. -/

namespace RM
open Outcome Scalar Spec

theorem two_sum_sub {α : Type} (l : List α) (f g : α → ℝ) : (l.map fun x => f x - g x).sum = (l.map f).sum - (l.map g).sum := by
  induction l with
  | nil => simp
  | cons x l ih => simp only [List.map_cons, List.sum_cons, ih]; ring

/-- The difference of the squared distances to two points is affine: its sum over a list of points is its value at their mean, times their number. -/
theorem sum_sqDist_sub (d : ℕ) (S : List (List ℝ)) (hS : ∀ r ∈ S, r.length = d) (hne : S ≠ []) (a b : List ℝ) (ha : a.length = d) (hb : b.length = d) :
    (S.map fun x => sqDist x a - sqDist x b).sum = S.length * (sqDist (centroidOf d S) a - sqDist (centroidOf d S) b) := by
  have hn : (S.length : ℝ) ≠ 0 := by
    have := List.length_pos_iff.2 hne
    exact_mod_cast this.ne'
  have key : (S.map fun x => sqDist x a - sqDist x b).sum =
      ((List.range d).map fun j => (S.map fun x => (x.getD j 0 - a.getD j 0) ^ 2 - (x.getD j 0 - b.getD j 0) ^ 2).sum).sum := by
    rw [← sum_sum_comm (fun (r : List ℝ) j => (r.getD j 0 - a.getD j 0) ^ 2 - (r.getD j 0 - b.getD j 0) ^ 2) S (List.range d)]
    congr 1
    apply List.map_congr_left
    intro x hx
    rw [sqDist_range d x a (hS x hx) ha, sqDist_range d x b (hS x hx) hb, two_sum_sub]
  have hcl := centroidOf_length d S
  rw [key, sqDist_range d _ a hcl ha, sqDist_range d _ b hcl hb, ← two_sum_sub, ← List.sum_map_mul_left]
  congr 1
  apply List.map_congr_left
  intro j hj
  have hj : j < d := by simpa using hj
  have he : (centroidOf d S).getD j 0 = Spec.mean (S.map fun r => r.getD j 0) := by
    rw [getD_lt 0 (by rw [centroidOf_length]; exact hj)]
    simp [centroidOf]
  have hs : (S.map fun r : List ℝ => r.getD j 0).sum = S.length * (centroidOf d S).getD j 0 := by
    rw [he, Spec.mean, List.length_map]
    field_simp
  have h1 : ∀ T : List (List ℝ), (T.map fun x => (x.getD j 0 - a.getD j 0) ^ 2 - (x.getD j 0 - b.getD j 0) ^ 2).sum =
      2 * (b.getD j 0 - a.getD j 0) * (T.map fun r => r.getD j 0).sum + T.length * (a.getD j 0 ^ 2 - b.getD j 0 ^ 2) := by
    intro T
    induction T with
    | nil => simp
    | cons x T ih =>
      simp only [List.map_cons, List.sum_cons, ih, List.length_cons]
      push_cast
      ring
  rw [h1, hs]
  ring

/-- Some point of a group is strictly nearer to the mean of the group than to any given other point. -/
theorem exists_nearer_mean (d : ℕ) (S : List (List ℝ)) (hS : ∀ r ∈ S, r.length = d) (hne : S ≠ []) (b : List ℝ) (hb : b.length = d) (h : centroidOf d S ≠ b) :
    ∃ x ∈ S, sqDist x (centroidOf d S) < sqDist x b := by
  by_contra hc
  push Not at hc
  have h1 : 0 ≤ (S.map fun x => sqDist x (centroidOf d S) - sqDist x b).sum := by
    apply List.sum_nonneg
    intro v hv
    obtain ⟨x, hx, rfl⟩ := List.mem_map.1 hv
    have := hc x hx
    linarith
  rw [sum_sqDist_sub d S hS hne _ b (centroidOf_length d S) hb] at h1
  have h2 := sqDist_pos (by rw [centroidOf_length, hb]) h
  have h3 : sqDist (centroidOf d S) (centroidOf d S) = 0 := by
    rw [sqDist_range d _ _ (centroidOf_length d S) (centroidOf_length d S)]
    simp
  have hn : (0 : ℝ) < S.length := by exact_mod_cast List.length_pos_iff.2 hne
  rw [h3] at h1
  nlinarith

/-- Both of two centroids have a point: one at least as near to the first, one strictly nearer to the second. -/
def BothUsed (X : Mat ℝ) (a b : List ℝ) : Prop :=
  (∃ x ∈ X.rows, sqDist x a ≤ sqDist x b) ∧ ∃ x ∈ X.rows, sqDist x b < sqDist x a

theorem nearest_two {a b x : List ℝ} {j : ℕ} (h : NearestProper [some a, some b] x j) :
    (j = 0 ∧ sqDist x a ≤ sqDist x b) ∨ (j = 1 ∧ sqDist x b < sqDist x a) := by
  obtain ⟨c, h1, h2, h3⟩ := h
  match j, h1 with
  | 0, h1 =>
    simp only [List.getElem?_cons_zero, Option.some.injEq] at h1
    subst h1
    exact .inl ⟨rfl, h2 b (by simp)⟩
  | 1, h1 =>
    simp at h1
    subst h1
    exact .inr ⟨rfl, h3 0 a (by omega) (by simp)⟩
  | j + 2, h1 => simp at h1

theorem mem_labelled_iff {α : Type} {j : ℕ} {X : List α} {cs : List ℕ} {x : α} : x ∈ labelled j X cs ↔ (x, j) ∈ X.zip cs := by
  simp only [labelled, List.mem_map, List.mem_filter, decide_eq_true_eq]
  constructor
  · rintro ⟨⟨y, i⟩, ⟨h1, h2⟩, h3⟩
    simp only at h2 h3
    subst h2; subst h3
    exact h1
  · intro h
    exact ⟨(x, j), ⟨h, rfl⟩, rfl⟩

theorem forall₂_zip {α β : Type} {R : α → β → Prop} {l : List α} {m : List β} (h : List.Forall₂ R l m) : ∀ p ∈ l.zip m, R p.1 p.2 := by
  induction h with
  | nil => simp
  | cons h _ ih =>
    intro p hp
    simp only [List.zip_cons_cons, List.mem_cons] at hp
    rcases hp with rfl | hp
    · exact h
    · exact ih p hp

theorem forall₂_zip_left {α β : Type} {R : α → β → Prop} {l : List α} {m : List β} (h : List.Forall₂ R l m) : ∀ a ∈ l, ∃ b, (a, b) ∈ l.zip m ∧ R a b := by
  induction h with
  | nil => simp
  | cons h _ ih =>
    intro a ha
    rcases List.mem_cons.1 ha with rfl | ha
    · exact ⟨_, by simp, h⟩
    · obtain ⟨b, hb, hr⟩ := ih a ha
      exact ⟨b, by simp [hb], hr⟩

variable {X : Mat ℝ}

/-- One iteration keeps two used centroids two different used centroids. -/
theorem two_step (hX : X.WF) (hd : 0 < X.cols) (a b : List ℝ) (ha : a.length = X.cols) (hb : b.length = X.cols) (h : BothUsed X a b) :
    ∃ a' b', kmNext 2 X [some a, some b] = [some a', some b'] ∧ a'.length = X.cols ∧ b'.length = X.cols ∧ a' ≠ b' ∧ BothUsed X a' b' := by
  obtain ⟨hl, -, -⟩ := km_some hX hd a [some b]
  set L := kmLabels X [some a, some b] with hL
  have hlab : ∀ p ∈ X.rows.zip L, (p.2 = 0 ∧ sqDist p.1 a ≤ sqDist p.1 b) ∨ (p.2 = 1 ∧ sqDist p.1 b < sqDist p.1 a) :=
    fun p hp => nearest_two (forall₂_zip hl p hp)
  obtain ⟨⟨x, hx, hxa⟩, ⟨y, hy, hyb⟩⟩ := h
  have m0 : x ∈ labelled 0 X.rows L := by
    obtain ⟨j, hj, hn⟩ := forall₂_zip_left hl x hx
    rcases nearest_two hn with ⟨rfl, -⟩ | ⟨-, h⟩
    · exact mem_labelled_iff.2 hj
    · exact absurd h (not_lt.2 hxa)
  have m1 : y ∈ labelled 1 X.rows L := by
    obtain ⟨j, hj, hn⟩ := forall₂_zip_left hl y hy
    rcases nearest_two hn with ⟨-, h⟩ | ⟨rfl, -⟩
    · exact absurd hyb (not_lt.2 h)
    · exact mem_labelled_iff.2 hj
  have w0 : ∀ r ∈ labelled 0 X.rows L, r.length = X.cols := fun r hr => hX r (mem_labelled hr)
  have w1 : ∀ r ∈ labelled 1 X.rows L, r.length = X.cols := fun r hr => hX r (mem_labelled hr)
  have n0 := List.ne_nil_of_mem m0
  have n1 := List.ne_nil_of_mem m1
  have s0 := sum_sqDist_sub X.cols _ w0 n0 a b ha hb
  have s1 := sum_sqDist_sub X.cols _ w1 n1 a b ha hb
  have p0 : (0 : ℝ) < (labelled 0 X.rows L).length := by exact_mod_cast List.length_pos_iff.2 n0
  have p1 : (0 : ℝ) < (labelled 1 X.rows L).length := by exact_mod_cast List.length_pos_iff.2 n1
  have t0 : ((labelled 0 X.rows L).map fun x => sqDist x a - sqDist x b).sum ≤ 0 := by
    have : 0 ≤ ((labelled 0 X.rows L).map fun x => sqDist x b - sqDist x a).sum := ?_
    · rw [two_sum_sub] at this ⊢
      linarith
    apply List.sum_nonneg
    intro v hv
    obtain ⟨z, hz, rfl⟩ := List.mem_map.1 hv
    rcases hlab _ (mem_labelled_iff.1 hz) with ⟨-, h⟩ | ⟨h, -⟩
    · linarith
    · simp at h
  have t1 : 0 < ((labelled 1 X.rows L).map fun x => sqDist x a - sqDist x b).sum := by
    apply List.sum_pos
    · intro v hv
      obtain ⟨z, hz, rfl⟩ := List.mem_map.1 hv
      rcases hlab _ (mem_labelled_iff.1 hz) with ⟨h, -⟩ | ⟨-, h⟩
      · simp at h
      · linarith
    · simpa using n1
  rw [s0] at t0
  rw [s1] at t1
  have hne : centroidOf X.cols (labelled 0 X.rows L) ≠ centroidOf X.cols (labelled 1 X.rows L) := by
    intro he
    rw [he] at t0
    have := (mul_pos_iff_of_pos_left p1).1 t1
    nlinarith
  refine ⟨_, _, ?_, centroidOf_length _ _, centroidOf_length _ _, hne, ?_, ?_⟩
  · simp only [kmNext, newCentroids, ← hL, List.range_succ, List.range_zero, List.nil_append, List.map_append, List.map_cons, List.map_nil, if_neg n0, if_neg n1]
    rfl
  · obtain ⟨z, hz, h⟩ := exists_nearer_mean X.cols _ w0 n0 _ (centroidOf_length _ _) hne
    exact ⟨z, mem_labelled hz, h.le⟩
  · obtain ⟨z, hz, h⟩ := exists_nearer_mean X.cols _ w1 n1 _ (centroidOf_length _ _) hne.symm
    exact ⟨z, mem_labelled hz, h⟩

theorem two_loop (hX : X.WF) (hd : 0 < X.cols) : ∀ (n : ℕ) (cost : XR) (a b : List ℝ), a.length = X.cols → b.length = X.cols → a ≠ b → BothUsed X a b →
    ∃ a' b', kmLoop 2 (finMat X) n cost (stored X.cols [some a, some b]) = ok (stored X.cols [some a', some b']) ∧ a'.length = X.cols ∧ b'.length = X.cols ∧
      a' ≠ b' ∧ BothUsed X a' b'
  | 0, _, a, b, ha, hb, hab, h => ⟨a, b, rfl, ha, hb, hab, h⟩
  | n + 1, cost, a, b, ha, hb, hab, h => by
    obtain ⟨a', b', e, ha', hb', hne, hu⟩ := two_step hX hd a b ha hb h
    rw [kmLoop_succ hX hd _ (by simp), e]
    split
    · exact ⟨a', b', rfl, ha', hb', hne, hu⟩
    · exact two_loop hX hd n _ a' b' ha' hb' hne hu

/-- **C118.** If both initial centroids have a point, training with two clusters succeeds with two different centroids of finite numbers, whatever the iteration
limit, and both clusters have samples: predicting the training data answers 0 for some row and 1 for some row. -/
theorem C118_two_clusters (init : ℕ → Mat XR → Outcome (Mat XR)) (m : KMeans XR) (hk : m.k = 2) (hX : X.WF) (hd : 0 < X.cols) (hn : 2 ≤ X.rows.length)
    (a b : List ℝ) (ha : a.length = X.cols) (hb : b.length = X.cols) (hi : init 2 (finMat X) = ok (finMat ⟨X.cols, [a, b]⟩)) (h : BothUsed X a b) :
    ∃ a' b' m', a' ≠ b' ∧ kmTrain init m (finMat X) = (m', ok ()) ∧ m'.centroids = some (finMat ⟨X.cols, [a', b']⟩) ∧
      ∃ labels, kmPredict m' (finMat X) = ok labels ∧ labels.length = X.rows.length ∧ 0 ∈ labels ∧ 1 ∈ labels ∧ ∀ l ∈ labels, l = 0 ∨ l = 1 := by
  have hst : ∀ u v : List ℝ, stored X.cols [some u, some v] = finMat ⟨X.cols, [u, v]⟩ := fun u v => stored_some ⟨X.cols, [u, v]⟩
  have hab : a ≠ b := by
    rintro rfl
    obtain ⟨-, x, -, hx⟩ := h
    exact lt_irrefl _ hx
  obtain ⟨a', b', hloop, ha', hb', hne, hu⟩ := two_loop hX hd m.iters Scalar.zero a b ha hb hab h
  rw [hst, hst] at hloop
  have htr := kmTrain_of_loop init m X ⟨X.cols, [a, b]⟩ (by omega) (by rw [hk]; exact hi) (by simp [hk]) rfl _ (by rw [hk]; exact hloop)
  refine ⟨a', b', _, hne, htr, rfl, ?_⟩
  obtain ⟨labels, hp, hl⟩ := C30_predict_nearest { m with centroids := some (finMat ⟨X.cols, [a', b']⟩) } ⟨X.cols, [a', b']⟩ X rfl (by simp) hX rfl
  have two : ∀ x j, IsNearestIndex [a', b'] x j → (j = 0 ∧ sqDist x a' ≤ sqDist x b') ∨ (j = 1 ∧ sqDist x b' < sqDist x a') := by
    rintro x j ⟨c, h1, h2, h3⟩
    match j, h1 with
    | 0, h1 =>
      simp only [List.getElem?_cons_zero, Option.some.injEq] at h1
      subst h1
      exact .inl ⟨rfl, h2 b' (by simp)⟩
    | 1, h1 =>
      simp at h1
      subst h1
      exact .inr ⟨rfl, h3 0 a' (by omega) (by simp)⟩
    | j + 2, h1 => simp at h1
  have hl' : List.Forall₂ (fun x j => (j = 0 ∧ sqDist x a' ≤ sqDist x b') ∨ (j = 1 ∧ sqDist x b' < sqDist x a')) X.rows labels := hl.imp two
  refine ⟨labels, hp, hl.length_eq.symm, ?_, ?_, ?_⟩
  · obtain ⟨⟨x, hx, hxa⟩, -⟩ := hu
    obtain ⟨j, hj, hr⟩ := forall₂_zip_left hl' x hx
    rcases hr with ⟨rfl, -⟩ | ⟨-, h⟩
    · exact (List.of_mem_zip hj).2
    · exact absurd h (not_lt.2 hxa)
  · obtain ⟨-, x, hx, hxb⟩ := hu
    obtain ⟨j, hj, hr⟩ := forall₂_zip_left hl' x hx
    rcases hr with ⟨-, h⟩ | ⟨rfl, -⟩
    · exact absurd hxb (not_lt.2 h)
    · exact (List.of_mem_zip hj).2
  · intro l hlm
    obtain ⟨i, hi', rfl⟩ := List.mem_iff_getElem.1 hlm
    have := hl'.get (i := i) (by rw [hl'.length_eq]; exact hi') hi'
    rcases this with ⟨h, -⟩ | ⟨h, -⟩
    · exact .inl h
    · exact .inr h

/-- Two different rows of the data are used centroids. -/
theorem bothUsed_rows (hX : X.WF) {a b : List ℝ} (ha : a ∈ X.rows) (hb : b ∈ X.rows) (hab : a ≠ b) : BothUsed X a b := by
  have hl : a.length = b.length := by rw [hX a ha, hX b hb]
  have h0 : ∀ u : List ℝ, sqDist u u = 0 := fun u => by rw [sqDist_range _ u u rfl rfl]; simp
  refine ⟨⟨a, ha, ?_⟩, b, hb, ?_⟩
  · rw [h0]
    exact (sqDist_pos hl hab).le
  · rw [h0]
    exact sqDist_pos hl.symm hab.symm

/-- **C118 (k-means++).** With the default initialiser and two clusters, training data with at least two different rows always gives two different centroids and
two clusters that both have samples, for all draws and iteration limits; on data whose rows are all equal training panics. -/
theorem C118_kplusplus (m : KMeans XR) (hk : m.k = 2) (hX : X.WF) (hd : 0 < X.cols) (hn : 2 ≤ X.rows.length) (raw : ℕ) (u : ℝ) (h0 : 0 ≤ u) (h1 : u < 1) :
    ((∃ x ∈ X.rows, ∃ y ∈ X.rows, x ≠ y) →
      ∃ a b m', a ≠ b ∧ kmTrain (kppInit raw [XR.fin u]) m (finMat X) = (m', ok ()) ∧ m'.centroids = some (finMat ⟨X.cols, [a, b]⟩) ∧
        ∃ labels, kmPredict m' (finMat X) = ok labels ∧ labels.length = X.rows.length ∧ 0 ∈ labels ∧ 1 ∈ labels ∧ ∀ l ∈ labels, l = 0 ∨ l = 1) ∧
    ((∀ x ∈ X.rows, ∀ y ∈ X.rows, x = y) → (kmTrain (kppInit raw [XR.fin u]) m (finMat X)).2 = Outcome.panic) := by
  constructor
  · rintro ⟨x, hx, y, hy, hxy⟩
    have hdd : 2 ≤ X.rows.dedup.length := by
      have hs : [x, y] ⊆ X.rows.dedup := by
        intro z hz
        simp only [List.mem_cons, List.not_mem_nil, or_false] at hz
        rcases hz with rfl | rfl
        · exact List.mem_dedup.2 hx
        · exact List.mem_dedup.2 hy
      exact (List.subperm_of_subset (by simp [hxy]) hs).length_le
    obtain ⟨cs, hi, hl, hnd, hmem⟩ := C32_C33_kplusplus raw [u] 2 X hX (by norm_num) hdd (by simp [h0, h1]) (by simp)
    match cs, hl with
    | [a, b], _ =>
      have hab : a ≠ b := by simpa using hnd
      have ham := hmem a (by simp)
      have hbm := hmem b (by simp)
      exact C118_two_clusters _ m hk hX hd hn a b (hX a ham) (hX b hbm) hi (bothUsed_rows hX ham hbm hab)
  · intro hall
    have hdd : X.rows.dedup.length < 2 := by
      by_contra hc
      push Not at hc
      have hnd := List.nodup_dedup X.rows
      have e0 : X.rows.dedup[0] ∈ X.rows := List.mem_dedup.1 (List.getElem_mem _)
      have e1 : X.rows.dedup[1] ∈ X.rows := List.mem_dedup.1 (List.getElem_mem _)
      have := (List.Nodup.getElem_inj_iff hnd (i := 0) (j := 1)).1 (hall _ e0 _ e1)
      omega
    have hp := C33_kplusplus_too_few_points raw [u] 2 X hX le_rfl hdd (by simp [h0, h1]) (by simp)
    simp only [List.map_cons, List.map_nil] at hp
    unfold kmTrain kmInit
    rw [hk, if_neg (by simp [finMat]; omega), hp]
    rfl

/-- **C118 (Forgy).** If the two chosen rows differ, both clusters end up with samples. -/
theorem C118_forgy (m : KMeans XR) (hk : m.k = 2) (hX : X.WF) (hd : 0 < X.cols) (hn : 2 ≤ X.rows.length) (raws : List ℕ)
    (init : ℕ → Mat XR → Outcome (Mat XR)) (c : Mat XR) (hf : forgyInit raws 2 (finMat X) = some (ok c)) (hi : init 2 (finMat X) = ok c)
    (hdiff : c.rows.Nodup) :
    ∃ a b m', a ≠ b ∧ kmTrain init m (finMat X) = (m', ok ()) ∧ m'.centroids = some (finMat ⟨X.cols, [a, b]⟩) ∧
      ∃ labels, kmPredict m' (finMat X) = ok labels ∧ labels.length = X.rows.length ∧ 0 ∈ labels ∧ 1 ∈ labels ∧ ∀ l ∈ labels, l = 0 ∨ l = 1 := by
  rcases C32_forgy raws 2 (finMat X) (by simpa [finMat] using hn) with h | ⟨choices, -, hl, hlt, h⟩
  · rw [hf] at h
    cases h
  · rw [hf] at h
    simp only [Option.some.injEq, ok.injEq] at h
    match choices, hl with
    | [i, j], _ =>
      have hi' : i < X.rows.length := by simpa [finMat] using hlt i (by simp)
      have hj' : j < X.rows.length := by simpa [finMat] using hlt j (by simp)
      have hc : c = finMat ⟨X.cols, [X.rows[i], X.rows[j]]⟩ := by
        rw [h]
        simp [finMat, List.getD_eq_getElem?_getD, List.getElem?_map, List.getElem?_eq_getElem hi', List.getElem?_eq_getElem hj']
      have hab : X.rows[i] ≠ X.rows[j] := by
        intro he
        rw [hc, he] at hdiff
        simp [finMat] at hdiff
      have ham : X.rows[i] ∈ X.rows := List.getElem_mem _
      have hbm : X.rows[j] ∈ X.rows := List.getElem_mem _
      exact C118_two_clusters init m hk hX hd hn _ _ (hX _ ham) (hX _ hbm) (hi.trans (by rw [hc])) (bothUsed_rows hX ham hbm hab)

/-- **C118 (random partition).** If the means of the two random groups differ, both clusters end up with samples. -/
theorem C118_random_partition (m : KMeans XR) (hk : m.k = 2) (hX : X.WF) (hd : 0 < X.cols) (hn : 2 ≤ X.rows.length) (raws : List ℕ)
    (hr : X.rows.length - 2 ≤ raws.length) (hdiff : ∀ c, partitionInit raws 2 (finMat X) = ok c → c.rows.Nodup) :
    ∃ a b m', a ≠ b ∧ kmTrain (partitionInit raws) m (finMat X) = (m', ok ()) ∧ m'.centroids = some (finMat ⟨X.cols, [a, b]⟩) ∧
      ∃ labels, kmPredict m' (finMat X) = ok labels ∧ labels.length = X.rows.length ∧ 0 ∈ labels ∧ 1 ∈ labels ∧ ∀ l ∈ labels, l = 0 ∨ l = 1 := by
  obtain ⟨groups, hl, hne, hperm, hi⟩ := C32_random_partition raws 2 X hX hn (by norm_num) hr
  match groups, hl with
  | [g, g'], _ =>
    simp only [List.map_cons, List.map_nil] at hi
    have hmem : ∀ i, i ∈ g ∨ i ∈ g' → i < X.rows.length := by
      intro i h
      have : i ∈ [g, g'].flatten := by simpa using h
      simpa using hperm.mem_iff.1 this
    have rows : ∀ h : List ℕ, (∀ i ∈ h, i < X.rows.length) → ∀ r ∈ h.map (fun i => X.rows.getD i []), r ∈ X.rows := by
      intro h hh r hr
      obtain ⟨i, hi, rfl⟩ := List.mem_map.1 hr
      rw [getD_lt [] (hh i hi)]
      exact List.getElem_mem _
    have r0 := rows g (fun i h => hmem i (.inl h))
    have r1 := rows g' (fun i h => hmem i (.inr h))
    have hab : centroidOf X.cols (g.map fun i => X.rows.getD i []) ≠ centroidOf X.cols (g'.map fun i => X.rows.getD i []) := by
      intro he
      have := hdiff _ hi
      rw [he] at this
      simp [finMat] at this
    obtain ⟨x, hx, hxl⟩ := exists_nearer_mean X.cols _ (fun r h => hX r (r0 r h)) (by simpa using hne g (by simp)) _ (centroidOf_length _ _) hab
    obtain ⟨y, hy, hyl⟩ := exists_nearer_mean X.cols _ (fun r h => hX r (r1 r h)) (by simpa using hne g' (by simp)) _ (centroidOf_length _ _) hab.symm
    exact C118_two_clusters _ m hk hX hd hn _ _ (centroidOf_length _ _) (centroidOf_length _ _) hi ⟨⟨x, r0 x hx, hxl.le⟩, y, r1 y hy, hyl⟩

/-- A concrete instance of `C118_kplusplus`, and so of `C118_two_clusters`: the rows 0, 1 and 10. -/
example (raw iters : ℕ) (u : ℝ) (h0 : 0 ≤ u) (h1 : u < 1) :=
  (C118_kplusplus (X := ⟨1, [[0], [1], [10]]⟩) ⟨iters, 2, none⟩ rfl (by intro r hr; simp at hr; rcases hr with rfl | rfl | rfl <;> rfl) (by norm_num) (by simp)
    raw u h0 h1).1 ⟨[0], by simp, [10], by simp, by simp⟩

/-- The hypotheses of `C118_forgy` hold: the draws 0 and 2 choose the rows 0 and 10. -/
example : forgyInit [0, 2] 2 (finMat ⟨1, [[0], [1], [10]]⟩) = some (ok (finMat ⟨1, [[0], [10]]⟩)) ∧ (finMat ⟨1, [[0], [10]]⟩).rows.Nodup := by
  constructor
  · simp [forgyInit, forgyLoop, finMat, genRange, Mat.selectRows, getAt]
  · simp [finMat]

/-- The hypotheses of `C118_random_partition` hold: with the draw 0 for the third row the groups are {0, 10} and {1}, with means 5 and 1. -/
example : ∀ c, partitionInit [0] 2 (finMat ⟨1, [[0], [1], [10]]⟩) = ok c → c.rows.Nodup := by
  have key : partitionInit [0] 2 (finMat ⟨1, [[0], [1], [10]]⟩) = ok (stored 1 [some [5], some [1]]) := by
    have hg : partitionLoop 2 2 [0] ((List.range 2).map fun i => [i]) = ok [[0, 2], [1]] := by decide
    unfold partitionInit
    have ht : ([0] : List ℕ).take ((finMat ⟨1, [[0], [1], [10]]⟩).rows.length - 2) = [0] := by simp [finMat]
    rw [ht, hg, ok_bind]
    have hm : List.mapM (fun v => do let m ← (finMat ⟨1, [[0], [1], [10]]⟩).selectRows v; ok m.meanRow) [[0, 2], [1]] = ok [[XR.fin 5], [XR.fin 1]] := by
      have e0 : (finMat ⟨1, [[0], [1], [10]]⟩).selectRows [0, 2] = ok ⟨1, ([[0], [10]] : List (List ℝ)).map (List.map XR.fin)⟩ := by
        simp [Mat.selectRows, finMat, getAt]
      have e1 : (finMat ⟨1, [[0], [1], [10]]⟩).selectRows [1] = ok ⟨1, ([[1]] : List (List ℝ)).map (List.map XR.fin)⟩ := by
        simp [Mat.selectRows, finMat, getAt]
      have m0 : centroidOf 1 [[0], [10]] = [5] := by
        simp only [centroidOf, Spec.mean, List.range, List.range.loop, List.map, List.getD_cons_zero, List.sum_cons, List.sum_nil, List.length]
        norm_num
      have m1 : centroidOf 1 [[1]] = [1] := by
        simp only [centroidOf, Spec.mean, List.range, List.range.loop, List.map, List.getD_cons_zero, List.sum_cons, List.sum_nil, List.length]
        norm_num
      have f0 := meanRow_fin 1 [[0], [10]] (by intro r hr; simp at hr; rcases hr with rfl | rfl <;> rfl) (by simp)
      have f1 := meanRow_fin 1 [[1]] (by intro r hr; simp at hr; rw [hr]; rfl) (by simp)
      simp only [List.mapM_cons, e0, e1, ok_bind, f0, m0, f1, m1]
      rfl
    rw [hm, ok_bind, Mat.new_flatten (k := 2) (c := (finMat ⟨1, [[0], [1], [10]]⟩).cols) rfl (by intro r hr; simp at hr; rcases hr with rfl | rfl <;> rfl)]
    rfl
  intro c hc
  rw [key] at hc
  injection hc with hc
  rw [← hc]
  simp [stored, storedRow]

end RM
