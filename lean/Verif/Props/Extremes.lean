import Verif.Props.KNNTree
import Verif.Props.KMeans
import Verif.Props.Dbscan
import Verif.Props.Gp
import Verif.Spec.NaiveBayes

/-! C144: what the parameters mean at their extremes. -/

namespace RM
open Outcome Scalar Spec

/-! ### Neighbours -/

/-- C144: with `k` equal to the number of samples every query gets the most frequent label of the training data. -/
theorem C144_all_neighbours (X : Mat ℝ) (y : List ℕ) (hy : X.rows.length = y.length) (hn : X.rows ≠ []) (Z : Mat ℝ) :
    ∃ l, MajorityLabel y l ∧ knnPredict bruteSearcher ⟨X.rows.length, some X, some y⟩ Z = ok (Z.rows.map fun _ => l) := by
  have hpos := List.length_pos_iff.2 hn
  have perm : ∀ row r, bruteSearch (some X) row X.rows.length = ok r → (r.1.filterMap fun i => y[i]?).Perm y := by
    intro row r h
    obtain ⟨r', h1, h2⟩ := C19_brute_force_exact X row X.rows.length hpos le_rfl
    rw [h] at h1
    injection h1 with h1
    subst h1
    have hp : r.1.Perm (List.range X.rows.length) :=
      (List.subperm_of_subset h2.distinct fun i hi => List.mem_range.2 (h2.rows i hi)).perm_of_length_le (by simp [h2.count])
    refine (hp.filterMap _).trans ?_
    rw [hy]
    have : ((List.range y.length).filterMap fun i => y[i]?) = y := by
      refine List.ext_getElem? fun i => ?_
      have e : ((List.range y.length).filterMap fun i => y[i]?) = (List.range y.length).map fun i => y.getD i 0 := by
        rw [← List.filterMap_eq_map]
        refine List.filterMap_congr fun i hi => ?_
        have := List.mem_range.1 hi
        simp [this]
      rw [e]
      by_cases hi : i < y.length
      · simp [hi]
      · rw [List.getElem?_eq_none (by simpa using hi), List.getElem?_eq_none (by simpa using hi)]
    rw [this]
  obtain ⟨l, hl⟩ : ∃ l, MajorityLabel y l := by
    obtain ⟨l, _, h⟩ := C24_vote_is_majority y (List.range y.length) y (by
      intro h
      have := congrArg List.length h
      rw [List.length_range, List.length_nil] at this
      omega) (by
      refine List.ext_getElem (by simp) fun i a b => ?_
      simp at a
      simp [a])
    exact ⟨l, h⟩
  refine ⟨l, hl, ?_⟩
  obtain ⟨out, h1, h2⟩ := C24_predict_is_majority bruteSearcher ⟨X.rows.length, some X, some y⟩ y rfl Z fun row _ => by
    obtain ⟨r, h1, h2⟩ := C19_brute_force_exact X row X.rows.length hpos le_rfl
    exact ⟨r.1, r.2, h1, fun h => by have := h2.count; rw [h] at this; simp at this; omega, fun i hi => by have := h2.rows i hi; omega⟩
  rw [h1]
  congr 1
  refine List.ext_getElem (by rw [List.length_map, h2.length_eq]) fun i a b => ?_
  have hi : i < Z.rows.length := by rw [h2.length_eq]; exact a
  rw [List.getElem_map]
  obtain ⟨idx, ds, e, hmaj⟩ := (List.forall₂_iff_get.1 h2).2 i hi a
  have p := perm _ _ e
  simp only [List.get_eq_getElem] at hmaj p
  have uniq : ∀ {a b : ℕ}, MajorityLabel y a → MajorityLabel y b → a ≤ b := fun {a b} ha hb =>
    ha.smallest b (le_antisymm (ha.most b) (hb.most a))
  have hmaj' : MajorityLabel y out[i] :=
    ⟨p.mem_iff.1 hmaj.occurs, fun l' => by rw [← p.count_eq, ← p.count_eq]; exact hmaj.most l',
      fun l' h => hmaj.smallest l' (by rw [p.count_eq, p.count_eq]; exact h)⟩
  exact le_antisymm (uniq hmaj' hl) (uniq hl hmaj')

/-- A tree that is built with more places in a leaf than samples is one leaf. -/
theorem one_leaf {F B : Type} [Scalar F] {K : SplitKind F B} {fuel : ℕ} {t0 t : BinaryTree F B} {data : Mat F} (hbig : data.rows.length < t0.leafsize)
    (h : treeBuild K fuel t0 data = some (ok t)) : t.root = some (.leaf (List.range data.rows.length)) := by
  unfold treeBuild at h
  split at h
  · cases fuel with
    | zero => simp [splitNode] at h
    | succ f =>
      rw [splitNode, if_pos (by simpa using hbig)] at h
      simp only [Option.some.injEq, ok.injEq] at h
      rw [← h]
  · simp at h

/-- C144: if the leaves of a k-d tree have more places than there are samples, searching it is an exhaustive search (although in general it
is not, C21). -/
theorem C144_kd_one_leaf (t0 : BinaryTree ℝ (List ℝ × List ℝ)) (data : Mat ℝ) (hw : data.WF) (hc : 0 < data.cols) (hbig : data.rows.length < t0.leafsize)
    (fuel : ℕ) (t : BinaryTree ℝ (List ℝ × List ℝ)) (h : treeBuild kdKind fuel t0 data = some (ok t))
    (point : List ℝ) (hp : data.cols ≤ point.length) (k : ℕ) (hk : 1 ≤ k) (hkn : k ≤ data.rows.length)
    (hmax : ∀ i, i < data.rows.length → knnDist point (data.rows.getD i []) < Scalar.maxVal) :
    ∃ r, treeSearch kdKind t point k = ok r ∧ KNearestOf data.rows.length (fun i => eucl point (data.rows.getD i [])) k r := by
  have := C21_kd_search_exact_partial t0 data hw hc fuel t h point hp k hk hkn hmax _ (one_leaf hbig h) (by simp [Node.homeLeaf]; omega)
  simpa only [C19_C21_C22_distance_is_euclidean] using this

/-- C144: the same for ball trees. -/
theorem C144_ball_one_leaf (t0 : BinaryTree ℝ (List ℝ × ℝ)) (data : Mat ℝ) (hw : data.WF) (hc : 0 < data.cols) (hbig : data.rows.length < t0.leafsize)
    (fuel : ℕ) (t : BinaryTree ℝ (List ℝ × ℝ)) (h : treeBuild ballKind fuel t0 data = some (ok t))
    (point : List ℝ) (hp : data.cols ≤ point.length) (k : ℕ) (hk : 1 ≤ k) (hkn : k ≤ data.rows.length)
    (hmax : ∀ i, i < data.rows.length → eucl point (data.rows.getD i []) < 2 ^ 1024 - 2 ^ 971) :
    ∃ r, treeSearch ballKind t point k = ok r ∧ KNearestOf data.rows.length (fun i => eucl point (data.rows.getD i [])) k r :=
  C22_ball_search_exact_partial t0 data hw hc fuel t h point hp k hk hkn hmax _ (one_leaf hbig h) (by simp [Node.homeLeaf]; omega)

/-! ### Density clustering -/

theorem near_self {eps : ℝ} (h : 0 < eps) (X : Mat ℝ) (i : ℕ) : NearR eps X i i := by
  unfold NearR
  have : eucl (X.rows.getD i []) (X.rows.getD i []) = 0 := by
    unfold eucl
    rw [Real.sqrt_eq_zero']
    refine le_of_eq (List.sum_eq_zero fun q hq => ?_)
    obtain ⟨k, hk, rfl⟩ := List.mem_iff_getElem.1 hq
    simp
  rw [this]
  exact h

/-- C144: with `min_points` 0 or 1 no sample is noise, and two samples share a cluster exactly if one is reached from the other by steps
shorter than the radius. -/
theorem C144_every_sample_core (m : Dbscan ℝ) (heps : 0 < m.eps) (hmp : m.minPoints ≤ 1) (X : Mat ℝ) (hw : X.WF) (fuel : ℕ) (m' : Dbscan ℝ)
    (ht : dbTrain fuel m X = some (ok m')) :
    ∃ labels : List ℕ, m'.clusters = some (labels.map some) ∧ labels.length = X.rows.length ∧
      ∀ i < X.rows.length, ∀ j < X.rows.length, (labels[i]? = labels[j]? ↔
        Relation.ReflTransGen (fun a b => a < X.rows.length ∧ b < X.rows.length ∧ eucl (X.rows.getD a []) (X.rows.getD b []) < m.eps) i j) := by
  obtain ⟨labels, h1, _, h3⟩ := C26_train m X hw
  obtain ⟨m'', e, hc⟩ := h3 fuel _ ht
  cases e
  have core : ∀ i < X.rows.length, IsCore X.rows.length m.minPoints (NearR m.eps X) i := fun i hi =>
    ⟨{i}, by simpa using hmp, by simp [hi, near_self heps]⟩
  have lab : ∀ i < X.rows.length, ∃ l, labels[i]? = some (some l) := fun i hi => (h1.labelled i hi).2 (core i hi)
  have e : labels = (labels.map fun o => o.getD 0).map some := by
    rw [List.map_map]
    refine List.ext_getElem (by simp) fun i a b => ?_
    obtain ⟨l, hl⟩ := lab i (by rw [← h1.length]; exact a)
    rw [List.getElem?_eq_getElem a, Option.some.injEq] at hl
    simp [hl]
  refine ⟨labels.map fun o => o.getD 0, by rw [← e]; exact hc, by simp [h1.length], ?_⟩
  intro i hi j hj
  obtain ⟨l, hl⟩ := lab i hi
  obtain ⟨l', hl'⟩ := lab j hj
  have := h1.same i j l l' hl hl'
  rw [List.getElem?_map, List.getElem?_map, hl, hl']
  simp only [Option.map_some, Option.getD_some, Option.some.injEq]
  rw [this]
  unfold Linked
  have : (fun a b => a < X.rows.length ∧ b < X.rows.length ∧ IsCore X.rows.length m.minPoints (NearR m.eps X) a ∧
      IsCore X.rows.length m.minPoints (NearR m.eps X) b ∧ NearR m.eps X a b) =
      fun a b => a < X.rows.length ∧ b < X.rows.length ∧ eucl (X.rows.getD a []) (X.rows.getD b []) < m.eps := by
    funext a b
    refine propext ⟨fun h => ⟨h.1, h.2.1, h.2.2.2.2⟩, fun h => ⟨h.1, h.2.1, core a h.1, core b h.2.1, h.2.2⟩⟩
  rw [this]

/-- C144: if `min_points` exceeds the number of samples all samples are noise; if it does not and the radius exceeds all distances, all samples form
one cluster. -/
theorem C144_all_or_nothing (m : Dbscan ℝ) (X : Mat ℝ) (hw : X.WF) (fuel : ℕ) (m' : Dbscan ℝ) (ht : dbTrain fuel m X = some (ok m')) :
    (X.rows.length < m.minPoints → m'.clusters = some (List.replicate X.rows.length none)) ∧
    (m.minPoints ≤ X.rows.length → (∀ x ∈ X.rows, ∀ z ∈ X.rows, eucl x z < m.eps) → m'.clusters = some (List.replicate X.rows.length (some 0))) := by
  obtain ⟨labels, h1, _, h3⟩ := C26_train m X hw
  obtain ⟨m'', e, hc⟩ := h3 fuel _ ht
  cases e
  rw [hc]
  constructor
  · intro hbig
    congr 1
    refine List.ext_getElem (by simp [h1.length]) fun i a b => ?_
    have hi : i < X.rows.length := by rw [← h1.length]; exact a
    rw [List.getElem_replicate]
    cases hli : labels[i] with
    | none => rfl
    | some l =>
      obtain ⟨s, hs, hall⟩ := (h1.labelled i hi).1 ⟨l, by rw [List.getElem?_eq_getElem a, hli]⟩
      have : s ⊆ Finset.range X.rows.length := fun j hj => Finset.mem_range.2 (hall j hj).1
      have := Finset.card_le_card this
      rw [Finset.card_range] at this
      omega
  · intro hmp hwide
    have near : ∀ i < X.rows.length, ∀ j < X.rows.length, NearR m.eps X i j := fun i hi j hj => by
      unfold NearR
      rw [getD_lt _ hi, getD_lt _ hj]
      exact hwide _ (List.getElem_mem hi) _ (List.getElem_mem hj)
    have core : ∀ i < X.rows.length, IsCore X.rows.length m.minPoints (NearR m.eps X) i := fun i hi =>
      ⟨Finset.range X.rows.length, by simpa using hmp, fun j hj => ⟨Finset.mem_range.1 hj, near i hi j (Finset.mem_range.1 hj)⟩⟩
    congr 1
    refine List.ext_getElem (by simp [h1.length]) fun i a b => ?_
    have hi : i < X.rows.length := by rw [← h1.length]; exact a
    rw [List.getElem_replicate]
    obtain ⟨l, hl⟩ := (h1.labelled i hi).2 (core i hi)
    have : l = 0 := by
      by_contra hne
      obtain ⟨j, hj, hl0⟩ := h1.order i l 0 hl (by omega)
      exact hne ((h1.same i j l 0 hl hl0).2 (Relation.ReflTransGen.single
        ⟨hi, by omega, core i hi, core j (by omega), near i hi j (by omega)⟩))
    rw [List.getElem?_eq_getElem a, this, Option.some.injEq] at hl
    exact hl

/-! ### One cluster -/

theorem kmLoop_last {F : Type} [Scalar F] (k : ℕ) (X : Mat F) : ∀ (n : ℕ) (cost : F) (c r : Mat F), kmLoop k X (n + 1) cost c = ok r →
    ∃ c', Visited k X c c' ∧ KmIteration k X c' r
  | n, cost, c, r, h => by
    rw [kmLoop, bind_eq_ok] at h
    obtain ⟨⟨idx, ds⟩, h1, h⟩ := h
    simp only at h
    rw [bind_eq_ok] at h
    obtain ⟨c1, h2, h⟩ := h
    have it : KmIteration k X c c1 := ⟨idx, ds, h1, h2⟩
    split at h
    · injection h with h
      subst h
      exact ⟨c, .refl, it⟩
    · cases n with
      | zero =>
        rw [kmLoop] at h
        injection h with h
        subst h
        exact ⟨c, .refl, it⟩
      | succ n =>
        obtain ⟨c', v, i⟩ := kmLoop_last k X n _ c1 r h
        exact ⟨c', Relation.ReflTransGen.head it v, i⟩

/-- C144: with one cluster, training ends with the mean of the data, wherever it started and whatever the (positive) limit of iterations. -/
theorem C144_one_cluster (init : ℕ → Mat XR → Outcome (Mat XR)) (m : KMeans XR) (X c : Mat ℝ) (hX : X.WF) (hd : 0 < X.cols)
    (hne : X.rows ≠ []) (hk : m.k = 1) (hit : 0 < m.iters) (hi : init m.k (finMat X) = ok (finMat c)) (hck : c.rows.length = m.k) (hcc : c.cols = X.cols) (hcw : c.WF) :
    kmTrain init m (finMat X) = ({ m with centroids := some (finMat ⟨X.cols, [centroidOf X.cols X.rows]⟩) }, ok ()) := by
  obtain ⟨C', h, _⟩ := C31_single_cluster init m X c hX hd hne hk hi hck hcc hcw
  rw [h]
  congr 3
  obtain ⟨n, hn⟩ : ∃ n, m.iters = n + 1 := ⟨m.iters - 1, by omega⟩
  have hloop : kmLoop m.k (finMat X) m.iters Scalar.zero (finMat c) = ok (stored X.cols C') := by
    unfold kmTrain at h
    have hinit : kmInit init m.k (finMat X) = ok (finMat c) := by
      have : ¬ m.k > (finMat X).rows.length := by
        have := List.length_pos_iff.2 hne
        simp only [finMat, List.length_map]
        omega
      unfold kmInit
      rw [if_neg this, hi, ok_bind, if_neg (by simp [finMat, hck]), if_neg (by simp [finMat, hcc])]
    rw [hinit] at h
    simp only at h
    split at h
    · rename_i r hr
      simp only [Prod.mk.injEq, and_true, KMeans.mk.injEq, true_and, Option.some.injEq] at h
      rw [hr, h]
    all_goals simp at h
  rw [hn] at hloop
  obtain ⟨c', hv, idx, ds, hf, hu⟩ := kmLoop_last _ _ _ _ _ _ hloop
  have hlen := findClosest_length hf
  have hlab := C30_labels_valid (⟨0, 1, some c'⟩ : KMeans XR) c' (finMat X) idx rfl (by unfold kmPredict; simp [hf])
  have hrows : ∀ c'', Visited m.k (finMat X) (finMat c) c'' → c''.rows.length = 1 := by
    intro c'' h
    induction h with
    | refl => simp [finMat, hck, hk]
    | tail _ h _ =>
      obtain ⟨idx, ds, h1, h2⟩ := h
      rw [updateCentroids_eq _ _ _ (findClosest_length h1)] at h2
      simp only [ok.injEq] at h2
      rw [← h2]; simp [hk]
  have hidx : idx = List.replicate X.rows.length 0 := by
    refine List.eq_replicate_iff.2 ⟨by rw [← hlen]; simp [finMat], fun a ha => ?_⟩
    have := hlab.2 a ha
    rw [hrows c' hv] at this
    omega
  have hall : labelled 0 X.rows idx = X.rows := by
    rw [hidx]
    unfold labelled
    rw [List.filter_eq_self.2, List.map_fst_zip (by simp)]
    intro p hp
    have := (List.of_mem_zip hp).2
    simpa using List.eq_of_mem_replicate this
  rw [updateCentroids_stored m.k X hX idx (by rw [hidx]; simp)] at hu
  injection hu with hu
  rw [← hu, hk, newCentroids]
  simp [hall, hne, stored, storedRow, finMat]

/-! ### Noise -/

section
open Matrix

/-- C144: the more noise a Gaussian process is told to expect, the less it learns from the data: for any kernel there are `N` and `C` such that with
noise `s > N` training succeeds and all predictions at the rows of `Z` are within `C / (s - N)` of the prior mean. -/
theorem C144_all_noise {lib : TriLib ℝ} (hl : TriLibOk lib) (g : Gp ℝ) {k : List ℝ → List ℝ → ℝ} (hk : IsKernel g.ker k) (hm : MeanSized g.mean)
    {X Z : Mat ℝ} (hX : X.WF) (hZ : Z.WF) (hc : Z.cols = X.cols) {y : List ℝ} (hy : y.length = X.rows.length) :
    ∃ N C : ℝ, ∀ s > N, ∃ g' p, ({ g with noise := s } : Gp ℝ).train lib X y = ok g' ∧ g'.predict Z = ok p ∧ p.length = Z.rows.length ∧
      ∀ i < Z.rows.length, |coord p i - coord (g.mean Z) i| ≤ C / (s - N) := by
  set N : ℝ := ∑ i, ∑ j, |gram k X X i j| with hN
  set R : ℝ := ∑ i, |(toV X.rows.length y - toV X.rows.length (g.mean X)) i| with hR
  set W : ℝ := ∑ i, ∑ j, |gram k Z X i j| with hW
  have N0 : 0 ≤ N := Finset.sum_nonneg fun i _ => Finset.sum_nonneg fun j _ => abs_nonneg _
  refine ⟨N, W * R, fun s hs => ?_⟩
  have pd : PosDefinite (noisyGram k s X) := by
    refine ⟨?_, fun v hv => ?_⟩
    · ext i j
      simp only [Matrix.transpose_apply, noisyGram, Matrix.add_apply, Matrix.smul_apply, Matrix.one_apply, gram, Matrix.of_apply]
      rw [hk.symm _ _ (by rw [getD_lt _ i.2, getD_lt _ j.2, hX _ (List.getElem_mem i.2), hX _ (List.getElem_mem j.2)])]
      simp only [eq_comm]
    · have vv : 0 < v ⬝ᵥ v := lt_of_le_of_ne (Finset.sum_nonneg fun i _ => mul_self_nonneg _) fun h => hv (dotProduct_self_eq_zero.1 h.symm)
      have one : ∀ i, v i ^ 2 ≤ v ⬝ᵥ v := fun i => by
        have := Finset.single_le_sum (f := fun i => v i * v i) (fun i _ => mul_self_nonneg _) (Finset.mem_univ i)
        rw [sq]
        exact this
      rw [noisyGram, Matrix.add_mulVec, Matrix.smul_mulVec, Matrix.one_mulVec, dotProduct_add, dotProduct_smul, smul_eq_mul, bilin]
      have : -(N * (v ⬝ᵥ v)) ≤ ∑ i, ∑ j, v i * v j * gram k X X i j := by
        rw [hN, Finset.sum_mul, ← Finset.sum_neg_distrib]
        refine Finset.sum_le_sum fun i _ => ?_
        rw [Finset.sum_mul, ← Finset.sum_neg_distrib]
        refine Finset.sum_le_sum fun j _ => ?_
        refine neg_le_of_abs_le ?_
        rw [abs_mul, mul_comm]
        refine mul_le_mul_of_nonneg_left ?_ (abs_nonneg _)
        rw [abs_le]
        constructor <;> nlinarith [one i, one j, sq_nonneg (v i + v j), sq_nonneg (v i - v j)]
      nlinarith
  obtain ⟨g', ht⟩ := (C59_train_iff (g := { g with noise := s }) hl hk hm hX hy).1.2 pd
  obtain ⟨p, h1, h2, h3⟩ := C59_predict (g := { g with noise := s }) hl hk hm hX ht hZ hc
  have hu := C59_regular (g := { g with noise := s }) hl hk hm hX ht
  refine ⟨g', p, ht, h1, h2, ?_⟩
  set r : Fin X.rows.length → ℝ := toV X.rows.length y - toV _ (g.mean X) with hr
  set α : Fin X.rows.length → ℝ := (noisyGram k s X)⁻¹.mulVec r with hα
  have eqn : (noisyGram k s X).mulVec α = r := by
    rw [hα, Matrix.mulVec_mulVec, Matrix.mul_nonsing_inv _ ((Matrix.isUnit_iff_isUnit_det _).1 hu), Matrix.one_mulVec]
  have hi : ∀ i, s * α i = r i - ∑ j, gram k X X i j * α j := fun i => by
    have := congrFun eqn i
    rw [noisyGram, Matrix.add_mulVec, Matrix.smul_mulVec, Matrix.one_mulVec] at this
    simp only [Pi.add_apply, Pi.smul_apply, smul_eq_mul] at this
    have e : (gram k X X *ᵥ α) i = ∑ j, gram k X X i j * α j := rfl
    rw [e] at this
    linarith
  set A : ℝ := ∑ i, |α i| with hA
  have le1 : ∀ j, |α j| ≤ A := fun j => Finset.single_le_sum (f := fun i => |α i|) (fun i _ => abs_nonneg _) (Finset.mem_univ j)
  have hs0 : 0 < s := lt_of_le_of_lt N0 hs
  have bound : s * A ≤ R + N * A := by
    rw [hA, Finset.mul_sum, hR, hN, Finset.sum_mul, ← Finset.sum_add_distrib]
    refine Finset.sum_le_sum fun i _ => ?_
    rw [show s * |α i| = |s * α i| by rw [abs_mul, abs_of_pos hs0], hi i]
    refine (show |r i - ∑ j, gram k X X i j * α j| ≤ |r i| + |∑ j, gram k X X i j * α j| by simpa only [Real.norm_eq_abs] using norm_sub_le (r i) (∑ j, gram k X X i j * α j)).trans (add_le_add le_rfl ?_)
    refine (Finset.abs_sum_le_sum_abs _ _).trans ?_
    rw [Finset.sum_mul]
    refine Finset.sum_le_sum fun j _ => ?_
    rw [abs_mul]
    exact mul_le_mul_of_nonneg_left (le1 j) (abs_nonneg _)
  have hAle : A ≤ R / (s - N) := by
    rw [le_div_iff₀ (by linarith)]
    linarith
  intro i hiZ
  have e := congrFun h3 ⟨i, hiZ⟩
  have e1 : toV Z.rows.length p ⟨i, hiZ⟩ = coord p i := rfl
  have e2 : toV Z.rows.length (g.mean Z) ⟨i, hiZ⟩ = coord (g.mean Z) i := rfl
  have e3 : (gram k Z X *ᵥ α) ⟨i, hiZ⟩ = ∑ j, gram k Z X ⟨i, hiZ⟩ j * α j := rfl
  have e' : coord p i - coord (g.mean Z) i = ∑ j, gram k Z X ⟨i, hiZ⟩ j * α j := by
    rw [← e1, ← e2, ← e3, e]
    simp only [Pi.add_apply]
    rw [add_sub_cancel_left]
  rw [e']
  refine (Finset.abs_sum_le_sum_abs _ _).trans ?_
  calc ∑ j, |gram k Z X ⟨i, hiZ⟩ j * α j| ≤ ∑ j, |gram k Z X ⟨i, hiZ⟩ j| * A := Finset.sum_le_sum fun j _ => by
        rw [abs_mul]
        exact mul_le_mul_of_nonneg_left (le1 j) (abs_nonneg _)
    _ = (∑ j, |gram k Z X ⟨i, hiZ⟩ j|) * A := by rw [Finset.sum_mul]
    _ ≤ W * A := by
        refine mul_le_mul_of_nonneg_right ?_ (Finset.sum_nonneg fun i _ => abs_nonneg _)
        exact Finset.single_le_sum (f := fun i => ∑ j, |gram k Z X i j|) (fun i _ => Finset.sum_nonneg fun j _ => abs_nonneg _) (Finset.mem_univ _)
    _ ≤ W * (R / (s - N)) := mul_le_mul_of_nonneg_left hAle (Finset.sum_nonneg fun i _ => Finset.sum_nonneg fun j _ => abs_nonneg _)
    _ = W * R / (s - N) := by ring

end

/-! ### Non-vacuity -/

/-- Three labelled samples, three neighbours: the label 4 for every query. -/
example (Z : Mat ℝ) : ∃ l, MajorityLabel [4, 2, 4] l ∧ knnPredict bruteSearcher ⟨3, some ⟨1, [[0], [5], [9]]⟩, some [4, 2, 4]⟩ Z = ok (Z.rows.map fun _ => l) :=
  C144_all_neighbours ⟨1, [[0], [5], [9]]⟩ [4, 2, 4] rfl (by simp) Z

/-- A tree of one leaf can be built. -/
example : ∃ t, treeBuild (kdKind (F := ℝ)) 1 ⟨4, none, none⟩ lineData = some (ok t) ∧ lineData.rows.length < 4 := by
  refine ⟨⟨4, some lineData, some (.leaf [0, 1, 2])⟩, ?_, by simp [lineData]⟩
  have h1 : ∃ a, minRows lineData = ok a := ⟨_, rfl⟩
  have h2 : ∃ a, maxRows lineData = ok a := ⟨_, rfl⟩
  obtain ⟨a, h1⟩ := h1
  obtain ⟨b, h2⟩ := h2
  unfold treeBuild
  rw [h1, h2]
  simp [splitNode, lineData, List.range_succ]

/-- Samples 0, 1 and 5 with a radius of 2 and `min_points` 1 (two clusters), and a radius of 9 and `min_points` 2 (one cluster): training succeeds. -/
example : (∃ fuel m', dbTrain fuel (⟨2, 1, none, false, [], none⟩ : Dbscan ℝ) ⟨1, [[0], [1], [5]]⟩ = some (ok m')) ∧
    (∃ fuel m', dbTrain fuel (⟨9, 2, none, false, [], none⟩ : Dbscan ℝ) ⟨1, [[0], [1], [5]]⟩ = some (ok m')) ∧
    ∀ x ∈ ([[0], [1], [5]] : List (List ℝ)), ∀ z ∈ ([[0], [1], [5]] : List (List ℝ)), eucl x z < 9 := by
  refine ⟨?_, ?_, ?_⟩
  · obtain ⟨_, _, ⟨f, hf⟩, _⟩ := C26_train (⟨2, 1, none, false, [], none⟩ : Dbscan ℝ) ⟨1, [[0], [1], [5]]⟩ (by simp [Mat.WF])
    exact ⟨f, hf f le_rfl⟩
  · obtain ⟨_, _, ⟨f, hf⟩, _⟩ := C26_train (⟨9, 2, none, false, [], none⟩ : Dbscan ℝ) ⟨1, [[0], [1], [5]]⟩ (by simp [Mat.WF])
    exact ⟨f, hf f le_rfl⟩
  · intro x hx z hz
    simp only [List.mem_cons, List.not_mem_nil, or_false] at hx hz
    rcases hx with rfl | rfl | rfl <;> rcases hz with rfl | rfl | rfl <;> rw [eucl_one, abs_lt] <;> constructor <;> norm_num

/-- K-means with one cluster on 0, 1 and 5, started at 100, ends at 2. -/
example : kmTrain (fun _ _ => ok (finMat ⟨1, [[100]]⟩)) (⟨7, 1, none⟩ : KMeans XR) (finMat ⟨1, [[0], [1], [5]]⟩) =
    (⟨7, 1, some (finMat ⟨1, [[2]]⟩)⟩, ok ()) := by
  have := C144_one_cluster (fun _ _ => ok (finMat ⟨1, [[100]]⟩)) (⟨7, 1, none⟩ : KMeans XR) ⟨1, [[0], [1], [5]]⟩ ⟨1, [[100]]⟩ (by simp [Mat.WF]) (by simp)
    (by simp) rfl (by simp) rfl rfl rfl (by simp [Mat.WF])
  rw [this]
  norm_num [centroidOf, Spec.mean, List.range_succ]

/-- A process with the linear kernel and mean 3. -/
example : ∃ (g : Gp ℝ) (k : List ℝ → List ℝ → ℝ), IsKernel g.ker k ∧ MeanSized g.mean ∧ TriLibOk exactLib :=
  ⟨⟨linearKernel 1, constMean 3, 0, none, none, none⟩, _, C59_kernels (.linear 1), (C59_mean 3).1, exactLib_ok⟩

end RM
