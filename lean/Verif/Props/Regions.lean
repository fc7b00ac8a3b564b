import Verif.Props.BayesApart
import Verif.Props.NaiveBayesSmoothing
import Verif.Props.Stability
import Verif.Props.Svm

/-! C145: what the regions look like in which a model makes one and the same prediction. -/

namespace RM
open Outcome Scalar Spec

/-! ### Specification -/

namespace Spec

/-- The point that divides the way from `x` to `z` in the ratio `t : 1 - t`. -/
def between (t : ℝ) (x z : List ℝ) : List ℝ := List.zipWith (fun a b => (1 - t) * a + t * b) x z

end Spec

theorem between_length (t : ℝ) {x z : List ℝ} {d : ℕ} (hx : x.length = d) (hz : z.length = d) : (between t x z).length = d := by
  simp [between, hx, hz]

theorem coord_between (t : ℝ) {x z : List ℝ} {d : ℕ} (hx : x.length = d) (hz : z.length = d) {j : ℕ} (hj : j < d) :
    coord (between t x z) j = (1 - t) * coord x j + t * coord z j := by
  unfold coord
  rw [getD_lt _ (by rw [between_length t hx hz]; exact hj), getD_lt _ (by omega), getD_lt _ (by omega)]
  simp [between]

/-- The difference of the squared distances from two points is an affine function. -/
theorem sq_between (t : ℝ) : ∀ {x z a b : List ℝ}, z.length = x.length → a.length = x.length → b.length = x.length →
    sqDist (between t x z) b - sqDist (between t x z) a = (1 - t) * (sqDist x b - sqDist x a) + t * (sqDist z b - sqDist z a)
  | [], _, _, _, _, _, _ => by
    simp_all [sqDist, between]
  | x :: xs, [], _, _, h, _, _ => by simp at h
  | x :: xs, _ :: _, [], _, _, h, _ => by simp at h
  | x :: xs, _ :: _, _ :: _, [], _, _, h => by simp at h
  | x :: xs, z :: zs, a :: as, b :: bs, h1, h2, h3 => by
    have ih := sq_between t (x := xs) (z := zs) (a := as) (b := bs) (by simpa using h1) (by simpa using h2) (by simpa using h3)
    simp only [sqDist, between, List.zipWith_cons_cons, List.sum_cons] at ih ⊢
    linear_combination ih

theorem sq_toward (t : ℝ) : ∀ {x a : List ℝ}, a.length = x.length → sqDist (between t x a) a = (1 - t) ^ 2 * sqDist x a
  | [], _, _ => by simp_all [sqDist, between]
  | x :: xs, [], h => by simp at h
  | x :: xs, a :: as, h => by
    have ih := sq_toward t (x := xs) (a := as) (by simpa using h)
    simp only [sqDist, between, List.zipWith_cons_cons, List.sum_cons] at ih ⊢
    linear_combination ih

theorem between_le {t u v : ℝ} (h0 : 0 ≤ t) (h1 : t ≤ 1) (hu : 0 ≤ u) (hv : 0 ≤ v) : 0 ≤ (1 - t) * u + t * v :=
  add_nonneg (mul_nonneg (by linarith) hu) (mul_nonneg h0 hv)

theorem between_lt {t u v : ℝ} (h0 : 0 ≤ t) (h1 : t ≤ 1) (hu : 0 < u) (hv : 0 < v) : 0 < (1 - t) * u + t * v := by
  rcases eq_or_lt_of_le h0 with rfl | h
  · simpa using hu
  · exact add_pos_of_nonneg_of_pos (mul_nonneg (by linarith) hu.le) (mul_pos h hv)

/-! ### Clusters -/

/-- C145: the regions of the clusters of k-means are convex: what lies between two points of a cluster is in that cluster. -/
theorem C145_kmeans (m : KMeans XR) (c : Mat ℝ) (hm : m.centroids = some (finMat c)) (hne : c.rows ≠ []) (hw : c.WF) (x z : List ℝ) (hx : x.length = c.cols)
    (hz : z.length = c.cols) (t : ℝ) (h0 : 0 ≤ t) (h1 : t ≤ 1) :
    ∃ i j l, kmPredict m (finMat ⟨c.cols, [x, z, between t x z]⟩) = ok [i, j, l] ∧ (i = j → l = i) := by
  obtain ⟨labels, h, hf⟩ := C30_predict_nearest m c ⟨c.cols, [x, z, between t x z]⟩ hm hne (by simp [Mat.WF, hx, hz, between_length t hx hz]) rfl
  obtain _ | ⟨f1, hf⟩ := hf
  obtain _ | ⟨f2, hf⟩ := hf
  obtain _ | ⟨f3, hf⟩ := hf
  cases hf
  refine ⟨_, _, _, h, ?_⟩
  rintro rfl
  refine C30_nearest_unique f3 ?_
  obtain ⟨a, a1, a2, a3⟩ := f1
  obtain ⟨b, b1, b2, b3⟩ := f2
  rw [a1] at b1
  obtain rfl := Option.some.inj b1
  have la := hw a (List.mem_of_getElem? a1)
  refine ⟨a, a1, fun b hb => ?_, fun s b hs hb => ?_⟩
  · have := sq_between t (x := x) (z := z) (a := a) (b := b) (by omega) (by omega) (by rw [hw b hb]; omega)
    have := between_le h0 h1 (sub_nonneg.2 (a2 b hb)) (sub_nonneg.2 (b2 b hb))
    linarith
  · have := sq_between t (x := x) (z := z) (a := a) (b := b) (by omega) (by omega) (by rw [hw b (List.mem_of_getElem? hb)]; omega)
    have := between_lt h0 h1 (sub_pos.2 (a3 s b hs hb)) (sub_pos.2 (b3 s b hs hb))
    linarith

/-! ### Neighbours -/

/-- On the way to its nearest sample a point comes nearer to that sample than to any other. -/
theorem toward_nearest {q a b : List ℝ} (ha : a.length = q.length) (hb : b.length = q.length) (hne : a ≠ b) (hn : eucl q a ≤ eucl q b) {t : ℝ} (h0 : 0 < t) (h1 : t ≤ 1) :
    eucl (between t q a) a < eucl (between t q a) b := by
  rw [eucl_eq_sqrt, eucl_eq_sqrt] at hn ⊢
  have hn := (Real.sqrt_le_sqrt_iff (sqDist_nonneg _ _)).1 hn
  refine Real.sqrt_lt_sqrt (sqDist_nonneg _ _) ?_
  have e := sq_between t (x := q) (z := a) (a := a) (b := b) ha ha hb
  have z : sqDist a a = 0 := by
    have : ∀ l : List ℝ, sqDist l l = 0 := fun l => by induction l <;> simp_all [sqDist]
    exact this a
  have p := sqDist_pos (u := a) (v := b) (by omega) hne
  rw [z, sub_zero] at e
  have : 0 ≤ (1 - t) * (sqDist q b - sqDist q a) := mul_nonneg (by linarith) (by linarith)
  have := mul_pos h0 p
  linarith

/-- C145: with one neighbour the regions are star-shaped around the samples: on the way from a point to a sample nearest to it all points get the label of that
sample. This holds for every exact search. -/
theorem C145_nearest_neighbour {S : Type} (R : Searcher ℝ S) (c : KNNClassifier S) (y : List ℕ) (ht : c.target = some y) {X : Mat ℝ} (hw : X.WF) (hd : X.rows.Nodup)
    (hy : y.length = X.rows.length) (hk : c.k = 1)
    (hs : ∀ z : List ℝ, z.length = X.cols → ∃ r, R.search c.searcher z c.k = ok r ∧ KNearestOf X.rows.length (fun i => eucl z (X.rows.getD i [])) c.k r)
    (q : List ℝ) (hq : q.length = X.cols) (i : ℕ) (hi : i < X.rows.length) (hn : ∀ j < X.rows.length, eucl q (X.rows.getD i []) ≤ eucl q (X.rows.getD j []))
    (t : ℝ) (h0 : 0 < t) (h1 : t ≤ 1) : knnPredict R c ⟨X.cols, [between t q (X.rows.getD i [])]⟩ = ok [y.getD i 0] := by
  have len : ∀ j < X.rows.length, (X.rows.getD j []).length = X.cols := fun j hj => by rw [getD_lt _ hj]; exact hw _ (List.getElem_mem hj)
  obtain ⟨⟨idx, ds⟩, r1, r2⟩ := hs (between t q (X.rows.getD i [])) (between_length t hq (len i hi))
  obtain ⟨i', hi'⟩ := List.length_eq_one_iff.1 (r2.count.trans hk)
  have hidx : idx = [i'] := hi'
  subst hidx
  have hds : ds = [eucl (between t q (X.rows.getD i [])) (X.rows.getD i' [])] := r2.distances
  have e : i' = i := by
    by_contra hne
    have lt' := r2.rows i' (by simp)
    have h := r2.nearest i hi (by simpa using fun h => hne h.symm) _ (show _ ∈ ds by rw [hds]; exact List.mem_singleton_self _)
    have hne' : X.rows.getD i [] ≠ X.rows.getD i' [] := by
      rw [getD_lt _ hi, getD_lt _ lt']
      intro h
      exact hne ((hd.getElem_inj_iff).1 h).symm
    exact absurd (toward_nearest (by rw [len i hi, hq]) (by rw [len i' lt', hq]) hne' (hn i' lt') h0 h1) (not_lt.2 h)
  subst e
  obtain ⟨out, o1, o2⟩ := C24_predict_is_majority R c y ht ⟨X.cols, [between t q (X.rows.getD i' [])]⟩ (by
    intro row hrow
    rw [List.mem_singleton.1 hrow]
    exact ⟨_, _, r1, by simp, by simp; omega⟩)
  obtain _ | ⟨f1, o2⟩ := o2
  cases o2
  rw [o1]
  obtain ⟨idx, ds', s1, s2⟩ := f1
  rw [r1] at s1
  injection s1 with s1
  injection s1 with s1 _
  subst s1
  have := s2.occurs
  have hlt : i' < y.length := by omega
  simp only [List.filterMap_cons, List.getElem?_eq_getElem hlt, List.filterMap_nil, List.mem_singleton] at this
  rw [this, getD_lt _ hlt]

/-- C145: the same for the predictions of DBSCAN inside the radius of the nearest sample. -/
theorem C145_dbscan (m : Dbscan ℝ) (hp : m.predictive = true) (X : Mat ℝ) (hw : X.WF) (hd : X.rows.Nodup) (fuel : ℕ) (m' : Dbscan ℝ)
    (ht : dbTrain fuel m X = some (ok m')) (q : List ℝ) (hq : q.length = X.cols) (i : ℕ) (hi : i < X.rows.length)
    (hn : ∀ j < X.rows.length, eucl q (X.rows.getD i []) ≤ eucl q (X.rows.getD j [])) (hin : eucl q (X.rows.getD i []) < m.eps)
    (t : ℝ) (h0 : 0 < t) (h1 : t ≤ 1) :
    ∃ labels cl, m'.clusters = some labels ∧ labels[i]? = some cl ∧ dbPredict m' ⟨X.cols, [between t q (X.rows.getD i [])]⟩ = ok [cl] := by
  have len : ∀ j < X.rows.length, (X.rows.getD j []).length = X.cols := fun j hj => by rw [getD_lt _ hj]; exact hw _ (List.getElem_mem hj)
  obtain ⟨labels, classes, l1, l2, l3⟩ := C28_predict m hp X hw (by rintro h; rw [h] at hi; simp at hi) fuel m' ht ⟨X.cols, [between t q (X.rows.getD i [])]⟩
    (by
      intro r hr
      rw [List.mem_singleton.1 hr]
      exact between_length t hq (len i hi)) rfl
  obtain _ | ⟨f1, l3⟩ := l3
  cases l3
  obtain ⟨i', row, r1, r2, r3, r4⟩ := f1
  obtain ⟨lt', hrow⟩ := List.getElem?_eq_some_iff.1 r1
  have e : i' = i := by
    by_contra hne
    have h := (r2 i (X.rows.getD i []) (by rw [getD_lt _ hi]; exact List.getElem?_eq_getElem hi)).1
    have hne' : X.rows.getD i [] ≠ row := by
      rw [getD_lt _ hi, ← hrow]
      intro h
      exact hne ((hd.getElem_inj_iff).1 h).symm
    have hr : X.rows.getD i' [] = row := by rw [getD_lt _ lt', hrow]
    have := hn i' lt'
    rw [hr] at this
    exact absurd (toward_nearest (by rw [len i hi, hq]) (by rw [← hr, len i' lt', hq]) hne' this h0 h1) (not_lt.2 h)
  subst e
  refine ⟨labels, _, l1, r3 ?_, l2⟩
  have hr : X.rows.getD i' [] = row := by rw [getD_lt _ lt', hrow]
  rw [hr] at hin ⊢
  refine lt_of_le_of_lt ?_ hin
  rw [eucl_eq_sqrt, eucl_eq_sqrt]
  refine Real.sqrt_le_sqrt ?_
  rw [sq_toward t (by rw [← hr, len i' lt', hq])]
  exact mul_le_of_le_one_left (sqDist_nonneg q row) (by nlinarith)

/-! ### Linear models -/

theorem affine_between (b : ℝ) (w : List ℝ) (t : ℝ) : ∀ {x z : List ℝ}, x.length = w.length → z.length = w.length →
    affine (b :: w) (between t x z) = (1 - t) * affine (b :: w) x + t * affine (b :: w) z := by
  intro x z hx hz
  have key : ∀ (w x z : List ℝ), x.length = w.length → z.length = w.length → Spec.inner (between t x z) w = (1 - t) * Spec.inner x w + t * Spec.inner z w := by
    intro w
    induction w with
    | nil => simp [Spec.inner]
    | cons c w ih =>
      intro x z hx hz
      cases x with
      | nil => simp at hx
      | cons x xs =>
        cases z with
        | nil => simp at hz
        | cons z zs =>
          have := ih xs zs (by simpa using hx) (by simpa using hz)
          simp only [Spec.inner, between, List.zipWith_cons_cons, List.sum_cons] at this ⊢
          linear_combination this
  simp only [affine, List.headD_cons, List.tail_cons, key w x z hx hz]
  ring

/-- C145: on the way from one point to another the predictions of linear regression change evenly. -/
theorem C145_linear (b : ℝ) (w x z : List ℝ) (hx : x.length = w.length) (hz : z.length = w.length) (t : ℝ) :
    ∃ p q, LinReg.predict ⟨some (b :: w)⟩ ⟨w.length, [x, z, between t x z]⟩ = ok [p, q, (1 - t) * p + t * q] := by
  refine ⟨affine (b :: w) x, affine (b :: w) z, ?_⟩
  rw [C48_predict (b :: w) _ (by simp), ← affine_between b w t hx hz]
  rfl

/-- C145: on the way from one point to another the predictions of logistic regression stay between those at the ends, so that all of them are on the same side of
any threshold if the ends are. -/
theorem C145_logistic (b : ℝ) (w x z : List ℝ) (hx : x.length = w.length) (hz : z.length = w.length) (t : ℝ) (h0 : 0 ≤ t) (h1 : t ≤ 1) :
    ∃ p q r, LogReg.predict ⟨some (b :: w)⟩ ⟨w.length, [x, z, between t x z]⟩ = ok [p, q, r] ∧ min p q ≤ r ∧ r ≤ max p q := by
  obtain ⟨ps, h, hl, _, _, hc, _⟩ := C50_predictions (b :: w) ⟨w.length, [x, z, between t x z]⟩ (by simp)
  obtain ⟨p, q, r, rfl⟩ := List.length_eq_three.1 hl
  have e := affine_between b w t hx hz
  refine ⟨p, q, r, h, ?_, ?_⟩
  · by_contra hlt
    rw [not_le, lt_min_iff] at hlt
    have a1 := (hc 2 (by simp) 0 (by simp)).1 hlt.1
    have a2 := (hc 2 (by simp) 1 (by simp)).1 hlt.2
    simp only [List.getD_cons_zero, List.getD_cons_succ] at a1 a2
    have := between_lt h0 h1 (sub_pos.2 a1) (sub_pos.2 a2)
    rw [e] at this
    nlinarith
  · by_contra hlt
    rw [not_le, max_lt_iff] at hlt
    have a1 := (hc 0 (by simp) 2 (by simp)).1 hlt.1
    have a2 := (hc 1 (by simp) 2 (by simp)).1 hlt.2
    simp only [List.getD_cons_zero, List.getD_cons_succ] at a1 a2
    have := between_lt h0 h1 (sub_pos.2 a1) (sub_pos.2 a2)
    rw [e] at this
    nlinarith

/-- C145: a support vector machine with the linear kernel gives a point between two points of the same sign that sign, whatever it was trained on. -/
theorem C145_svm {m : Svm XR} {c lambda : ℝ} (hker : m.ker = linearKernel (XR.fin c)) (hm : m.lambda = XR.fin lambda) (hl : 0 < lambda) {X : Mat ℝ} (hX : X.WF) {y : List ℝ}
    (hy : y.length = X.rows.length) (hn : X.rows ≠ []) (hT : 0 < m.optimIters) (draws : ℕ → ℕ) (x z : List ℝ) (hx : x.length = X.cols) (hz : z.length = X.cols)
    (t : ℝ) (h0 : 0 ≤ t) (h1 : t ≤ 1) :
    ∃ m' u v s, m.train draws (finMat X) (fins y) = ok m' ∧ m'.predict (finMat ⟨X.cols, [x, z, between t x z]⟩) = ok [u, v, s] ∧ (u = v → s = u) := by
  obtain ⟨m', a, t1, _, t3⟩ := C58_outputs (m := m) (by rw [hker]; exact C58_kernels.1 c) hm hl hX hy hn hT draws (Z := ⟨X.cols, [x, z, between t x z]⟩)
    (by simp [Mat.WF, hx, hz, between_length t hx hz]) rfl
  refine ⟨m', _, _, _, t1, t3, ?_⟩
  set f := decision (fun u v => rdot u v + c) lambda X y a with hf
  have e : f (between t x z) = (1 - t) * f x + t * f z := by
    rw [hf]
    unfold decision
    rw [mul_div_assoc', mul_div_assoc', ← add_div, Finset.mul_sum, Finset.mul_sum, ← Finset.sum_add_distrib]
    congr 1
    refine Finset.sum_congr rfl fun j hj => ?_
    have hj : j < X.rows.length := Finset.mem_range.1 hj
    have hlen : (X.rows.getD j []).length = X.cols := by rw [getD_lt _ hj]; exact hX _ (List.getElem_mem hj)
    have := affine_between 0 (X.rows.getD j []) t (x := x) (z := z) (by omega) (by omega)
    simp only [affine, List.headD_cons, List.tail_cons, Spec.inner, zero_add] at this
    simp only [rdot, lifted, List.zipWith_cons_cons, List.sum_cons]
    linear_combination a j * y.getD j 0 * this
  have ne : (1 : ℝ) ≠ -1 := by norm_num
  by_cases hu : 0 ≤ f x <;> by_cases hv : 0 ≤ f z
  · have := between_le h0 h1 hu hv
    rw [← e] at this
    simp [hu, this]
  · simp [hu, hv, ne]
  · simp [hu, hv, ne.symm]
  · have := between_lt h0 h1 (neg_pos.2 (not_le.1 hu)) (neg_pos.2 (not_le.1 hv))
    have : ¬ 0 ≤ f (between t x z) := by rw [e]; intro; nlinarith
    simp [hu, this]

/-! ### Naive Bayes -/

/-- Where the differences of the entries are affine, the first maximum stays where it is at both ends. -/
theorem firstMax_between {k : ℕ} {f g h : ℕ → ℝ} {t : ℝ} (h0 : 0 ≤ t) (h1 : t ≤ 1) (e : ∀ i < k, ∀ j < k, h i - h j = (1 - t) * (f i - f j) + t * (g i - g j))
    {i j l : ℕ} (hf : IsFirstMax ((List.range k).map f) i) (hg : IsFirstMax ((List.range k).map g) j) (hh : IsFirstMax ((List.range k).map h) l) (hij : i = j) : l = i := by
  subst hij
  have un : ∀ {f : ℕ → ℝ} {i : ℕ}, IsFirstMax ((List.range k).map f) i → i < k ∧ (∀ j < k, 0 ≤ f i - f j) ∧ ∀ j < i, 0 < f i - f j := by
    rintro f i ⟨v, h1, h2, h3⟩
    obtain ⟨hi, e⟩ := List.getElem?_eq_some_iff.1 h1
    have hi : i < k := by simpa using hi
    have e : f i = v := by simpa using e
    subst e
    refine ⟨hi, fun j hj => sub_nonneg.2 (h2 _ (List.mem_map.2 ⟨j, by simpa using hj, rfl⟩)), fun j hj => sub_pos.2 (h3 j _ hj ?_)⟩
    rw [List.getElem?_eq_getElem (by simp; omega)]
    simp
  obtain ⟨f1, f2, f3⟩ := un hf
  obtain ⟨_, g2, g3⟩ := un hg
  obtain ⟨l1, l2, l3⟩ := un hh
  rcases lt_trichotomy l i with hl | hl | hl
  · have := between_lt h0 h1 (f3 l hl) (g3 l hl)
    rw [← e i f1 l l1] at this
    have := l2 i f1
    linarith
  · exact hl
  · have := between_le h0 h1 (f2 l l1) (g2 l l1)
    rw [← e i f1 l l1] at this
    have := l3 i hl
    linarith

theorem oneHot_inj {k i j : ℕ} {u : List ℝ} (hi : IsOneHot k i u) (hj : IsOneHot k j u) : i = j := by
  have a := hi.2.2 i hi.2.1
  have b := hj.2.2 i hi.2.1
  rw [a, if_pos rfl] at b
  by_contra h
  rw [if_neg h] at b
  exact one_ne_zero b

theorem oneHot_same {k i : ℕ} {u v : List ℝ} (hu : IsOneHot k i u) (hv : IsOneHot k i v) : u = v := by
  refine List.ext_getElem (by rw [hu.1, hv.1]) fun j h1 h2 => ?_
  have a := hu.2.2 j (by rw [← hu.1]; exact h1)
  have b := hv.2.2 j (by rw [← hu.1]; exact h1)
  rw [coord, getD_lt _ h1] at a
  rw [coord, getD_lt _ h2] at b
  rw [a, b]

/-- Predictions from affine differences of the log likelihoods. -/
theorem nb_between {D : Type} (B : NBDistr D ℝ) (m : NaiveBayes D ℝ) {k d : ℕ} (hk : 0 < k) (hm : m.clusterCount = some k) {x z : List ℝ} {t : ℝ} (h0 : 0 ≤ t) (h1 : t ≤ 1)
    (lik : ℕ → List ℝ → ℝ) (hL : nbLogProbs B m ⟨d, [x, z, between t x z]⟩ = ok ⟨k, [x, z, between t x z].map fun x => (List.range k).map fun c => lik c x⟩)
    (e : ∀ i < k, ∀ j < k, lik i (between t x z) - lik j (between t x z) = (1 - t) * (lik i x - lik j x) + t * (lik i z - lik j z)) :
    ∃ u v w, nbPredict B m ⟨d, [x, z, between t x z]⟩ = ok ⟨k, [u, v, w]⟩ ∧ (u = v → w = u) := by
  obtain ⟨⟨Pc, Pr⟩, hP, p1, p2⟩ := nbPredict_real B m _ _ hk hm hL ⟨rfl, by simp, by
    intro r hr
    obtain ⟨y, _, rfl⟩ := List.mem_map.1 hr
    simp⟩
  simp only at p1 p2
  subst p1
  simp only [List.map_cons, List.map_nil] at p2
  obtain _ | ⟨f1, p2⟩ := p2
  obtain _ | ⟨f2, p2⟩ := p2
  obtain _ | ⟨f3, p2⟩ := p2
  cases p2
  refine ⟨_, _, _, hP, ?_⟩
  rintro rfl
  obtain ⟨i, i1, i2⟩ := f1
  obtain ⟨j, j1, j2⟩ := f2
  obtain ⟨l, l1, l2⟩ := f3
  have := firstMax_between h0 h1 e i1 j1 l1 (oneHot_inj i2 j2)
  subst this
  exact oneHot_same l2 i2

/-- C145: the regions of the classes of multinomial and Bernoulli naive Bayes are convex, whatever the training data. -/
theorem C145_counts (m : NaiveBayes (LogProbsD ℝ) ℝ) (X T : Mat ℝ) (hT : T.WF) (hk : 0 < T.cols) (hc : ∀ t ∈ T.rows, ∃ v ∈ t, v = 1)
    (hn : X.rows.length = T.rows.length) (x z : List ℝ) (hx : x.length = X.cols) (hz : z.length = X.cols) (t : ℝ) (h0 : 0 ≤ t) (h1 : t ≤ 1) :
    (∃ m' u v w, nbTrain multDistr m X T = (m', ok ()) ∧ nbPredict multDistr m' ⟨X.cols, [x, z, between t x z]⟩ = ok ⟨T.cols, [u, v, w]⟩ ∧ (u = v → w = u)) ∧
    ∃ m' u v w, nbTrain bernDistr m X T = (m', ok ()) ∧ nbPredict bernDistr m' ⟨X.cols, [x, z, between t x z]⟩ = ok ⟨T.cols, [u, v, w]⟩ ∧ (u = v → w = u) := by
  have hY : (⟨X.cols, [x, z, between t x z]⟩ : Mat ℝ).WF := by simp [Mat.WF, hx, hz, between_length t hx hz]
  have lin : ∀ b : ℕ → ℝ, ∑ j ∈ Finset.range X.cols, coord (between t x z) j * b j =
      (1 - t) * ∑ j ∈ Finset.range X.cols, coord x j * b j + t * ∑ j ∈ Finset.range X.cols, coord z j * b j := fun b => by
    rw [Finset.mul_sum, Finset.mul_sum, ← Finset.sum_add_distrib]
    refine Finset.sum_congr rfl fun j hj => ?_
    rw [coord_between t hx hz (Finset.mem_range.1 hj)]
    ring
  constructor
  · obtain ⟨m', d, a1, a2, a3, a4, a5, _⟩ := nb_trained_mult (m := m) hT (classOf_ne_none hc) hn
    obtain ⟨u, v, w, r⟩ := nb_between multDistr m' hk a3 h0 h1 _ (mult_logProbs hY a2 a4 (k := T.cols) (by simp) a5) (fun i _ j _ => by
      simp only [multLik, lin]
      ring)
    exact ⟨m', u, v, w, a1, r⟩
  · obtain ⟨m', d, a1, a2, a3, a4, a5, _⟩ := nb_trained_bern (m := m) hT (classOf_ne_none hc) hn
    obtain ⟨u, v, w, r⟩ := nb_between bernDistr m' hk a3 h0 h1 _ (bern_logProbs hY a2 a4 (k := T.cols) (by simp) a5) (fun i _ j _ => by
      simp only [bernLik, lin]
      ring)
    exact ⟨m', u, v, w, a1, r⟩

theorem quad_between (t : ℝ) : ∀ {x z a b s : List ℝ}, z.length = x.length → a.length = x.length → b.length = x.length → s.length = x.length →
    let W : List ℝ → List ℝ → ℝ := fun a x => (List.zipWith (fun d s => d / s) ((List.zipWith (fun a b => a - b) x a).map fun d => d * d) s).sum
    W a (between t x z) - W b (between t x z) = (1 - t) * (W a x - W b x) + t * (W a z - W b z)
  | [], _, _, _, _, _, _, _, _ => by
    simp_all [between]
  | x :: xs, [], _, _, _, h, _, _, _ => by simp at h
  | x :: xs, _ :: _, [], _, _, _, h, _, _ => by simp at h
  | x :: xs, _ :: _, _ :: _, [], _, _, _, h, _ => by simp at h
  | x :: xs, _ :: _, _ :: _, _ :: _, [], _, _, _, h => by simp at h
  | x :: xs, z :: zs, a :: as, b :: bs, s :: ss, h1, h2, h3, h4 => by
    have ih := quad_between t (x := xs) (z := zs) (a := as) (b := bs) (s := ss) (by simpa using h1) (by simpa using h2) (by simpa using h3) (by simpa using h4)
    simp only [between, List.zipWith_cons_cons, List.sum_cons, List.map_cons] at ih ⊢
    linear_combination ih

/-- C145: the regions of Gaussian naive Bayes are convex if every feature has the same spread in all classes. -/
theorem C145_gaussian_equal_spread (m : NaiveBayes (GaussD ℝ) ℝ) (X T : Mat ℝ) (hX : X.WF) (hT : T.WF) (hk : 0 < T.cols) (h1 : ∀ t ∈ T.rows, ∃ v ∈ t, v = 1)
    (hn : X.rows.length = T.rows.length) (hc : ∀ c < T.cols, 2 ≤ classSize T.rows c) (_hvar : ∀ c < T.cols, ∀ j < X.cols, NonConstant ((classSamples X.rows T.rows c).map fun x => coord x j))
    (heq : ∀ b < T.cols, ∀ c < T.cols, ∀ j < X.cols, sampleVar ((classSamples X.rows T.rows b).map fun x => coord x j) = sampleVar ((classSamples X.rows T.rows c).map fun x => coord x j))
    (x z : List ℝ) (hx : x.length = X.cols) (hz : z.length = X.cols) (t : ℝ) (t0 : 0 ≤ t) (t1 : t ≤ 1) :
    ∃ m' u v w, nbTrain gaussDistr m X T = (m', ok ()) ∧ nbPredict gaussDistr m' ⟨X.cols, [x, z, between t x z]⟩ = ok ⟨T.cols, [u, v, w]⟩ ∧ (u = v → w = u) := by
  obtain ⟨m', h⟩ := (C35_trains_iff m X T hX hT hn).2 ⟨h1, fun c hlt => by have := hc c hlt; omega⟩
  obtain ⟨hcl, d, hd, hm'⟩ := (nbTrain_ok_iff _ m m' X T hT).1 h
  obtain ⟨q1, q2⟩ := gauss_tables hd
  have par := fun c (hlt : c < T.cols) => gauss_params hX hcl hn hd hlt (by have := hc c hlt; omega)
  obtain ⟨u, v, w, r⟩ := nb_between gaussDistr m' hk (by rw [hm']) t0 t1 _ (by
    rw [hm']
    exact gaussJoint_real d ⟨X.cols, [x, z, between t x z]⟩ q1 q2 ((List.range T.cols).map fun c => (classSize T.rows c : ℝ) / X.rows.length) (by simp)) (fun i hi j hj => by
      have hs : rowOf d.sigma i = rowOf d.sigma j := by
        rw [(par i hi).2.2, (par j hj).2.2]
        exact List.map_congr_left fun f hf => heq i hi j hj f (by simpa using hf)
      have := quad_between t (x := x) (z := z) (a := rowOf d.theta i) (b := rowOf d.theta j) (s := rowOf d.sigma j) (by omega) (by rw [q1.row_length hi]; omega)
        (by rw [q1.row_length hj]; omega) (by rw [q2.row_length hj]; omega)
      simp only at this
      unfold gaussLik
      rw [hs]
      linear_combination (-1 / 2) * this)
  exact ⟨m', u, v, w, h, r⟩

theorem two_rows {l0 l1 : ℝ} {row : List ℝ} (h : ∃ i, IsFirstMax [l0, l1] i ∧ IsOneHot 2 i row) : (l0 < l1 → row = [0, 1]) ∧ (l1 ≤ l0 → row = [1, 0]) := by
  have o0 : IsOneHot 2 0 [1, 0] := ⟨rfl, by norm_num, fun j hj => by
    have : j = 0 ∨ j = 1 := by omega
    rcases this with rfl | rfl <;> simp [coord]⟩
  have o1 : IsOneHot 2 1 [0, 1] := ⟨rfl, by norm_num, fun j hj => by
    have : j = 0 ∨ j = 1 := by omega
    rcases this with rfl | rfl <;> simp [coord]⟩
  obtain ⟨i, ⟨v, h1, h2, h3⟩, h4⟩ := h
  have : i = 0 ∨ i = 1 := by have := h4.2.1; omega
  rcases this with rfl | rfl
  · simp only [List.getElem?_cons_zero, Option.some.injEq] at h1
    subst h1
    refine ⟨fun h => absurd (h2 l1 (by simp)) (not_le.2 h), fun _ => oneHot_same h4 o0⟩
  · simp only [List.getElem?_cons_succ, List.getElem?_cons_zero, Option.some.injEq] at h1
    subst h1
    refine ⟨fun _ => oneHot_same h4 o1, fun h => absurd (h3 0 l0 (by norm_num) rfl) (not_lt.2 h)⟩

/-- C145: in general they are not. Trained on -1 and 1 against -10 and 10 the model gives -10 and 10 the second class and 0, halfway between them, the first. -/
theorem C145_gaussian_not_convex (m : NaiveBayes (GaussD ℝ) ℝ) :
    ∃ m', nbTrain gaussDistr m ⟨1, [[-1], [1], [-10], [10]]⟩ pairT = (m', ok ()) ∧
      nbPredict gaussDistr m' ⟨1, [[-10], [10], between (1 / 2) [-10] [10]]⟩ = ok ⟨2, [[0, 1], [0, 1], [1, 0]]⟩ := by
  have hs := pair_samples (-1) 1 (-10) 10
  have wX : (⟨1, [[-1], [1], [-10], [10]]⟩ : Mat ℝ).WF := by simp [Mat.WF]
  have wT : pairT.WF := by simp [Mat.WF, pairT]
  have hn : (⟨1, [[-1], [1], [-10], [10]]⟩ : Mat ℝ).rows.length = pairT.rows.length := rfl
  have size0 : classSize pairT.rows 0 = 2 := by simp [classSize, pairT, ex_class0, ex_class1]
  have size1 : classSize pairT.rows 1 = 2 := by simp [classSize, pairT, ex_class0, ex_class1]
  obtain ⟨m', h⟩ := (C35_trains_iff m _ pairT wX wT hn).2 ⟨by simp [pairT], fun c hc => by
    have hc : c = 0 ∨ c = 1 := by simp [pairT] at hc; omega
    rcases hc with rfl | rfl <;> omega⟩
  refine ⟨m', h, ?_⟩
  have hb : between (1 / 2) [-10] [10] = [0] := by norm_num [between]
  rw [hb]
  obtain ⟨hcl, d, hd, hm'⟩ := (nbTrain_ok_iff _ m m' _ pairT wT).1 h
  obtain ⟨q1, q2⟩ := gauss_tables hd
  obtain ⟨_, a1, a2⟩ := gauss_params wX hcl hn hd (c := 0) (by simp [pairT]) (by omega)
  obtain ⟨_, b1, b2⟩ := gauss_params wX hcl hn hd (c := 1) (by simp [pairT]) (by omega)
  simp only [hs.1, hs.2, List.map_cons, List.map_nil, coord, List.getD_cons_zero, List.range_one] at a1 a2 b1 b2
  have m0 : Spec.mean [(-1 : ℝ), 1] = 0 := by norm_num [Spec.mean]
  have m1 : Spec.mean [(-10 : ℝ), 10] = 0 := by norm_num [Spec.mean]
  have v0 : sampleVar [(-1 : ℝ), 1] = 2 := by unfold sampleVar; rw [m0]; norm_num
  have v1 : sampleVar [(-10 : ℝ), 10] = 200 := by unfold sampleVar; rw [m1]; norm_num
  rw [m0] at a1
  rw [m1] at b1
  rw [v0] at a2
  rw [v1] at b2
  have hL := (show nbLogProbs gaussDistr m' ⟨1, [[-10], [10], [0]]⟩ = (gaussDistr : NBDistr (GaussD ℝ) ℝ).jointLogLik d ⟨1, [[-10], [10], [0]]⟩
      ((List.range pairT.cols).map fun c => (classSize pairT.rows c : ℝ) / (4 : ℕ)) by rw [hm']; rfl).trans (gaussJoint_real d ⟨1, [[-10], [10], [0]]⟩ q1 q2 _ (by simp))
  obtain ⟨⟨Pc, Pr⟩, hP, p1, p2⟩ := nbPredict_real gaussDistr m' _ _ (k := 2) (by norm_num) (by rw [hm']; rfl) hL ⟨rfl, by simp, by
    intro r hr
    obtain ⟨y, _, rfl⟩ := List.mem_map.1 hr
    simp⟩
  rw [hP]
  simp only at p1 p2
  subst p1
  have r2 : List.range pairT.cols = [0, 1] := rfl
  simp only [List.map_cons, List.map_nil, r2, a1, a2, b1, b2, size0, size1, List.getD_cons_zero, List.getD_cons_succ] at p2
  obtain _ | ⟨f1, p2⟩ := p2
  obtain _ | ⟨f2, p2⟩ := p2
  obtain _ | ⟨f3, p2⟩ := p2
  cases p2
  have l2 : Real.log (2 * 2 * Real.pi) = Real.log 2 + Real.log (2 * Real.pi) := by
    rw [mul_assoc, Real.log_mul (by norm_num) (by have := Real.pi_pos; positivity)]
  have l200 : Real.log (200 * 2 * Real.pi) = Real.log 2 + Real.log 100 + Real.log (2 * Real.pi) := by
    rw [mul_assoc, Real.log_mul (by norm_num) (by have := Real.pi_pos; positivity), show (200 : ℝ) = 2 * 100 by norm_num, Real.log_mul (by norm_num) (by norm_num)]
  have h10 : Real.log 100 ≤ 20 := by
    rw [show (100 : ℝ) = 10 ^ 2 by norm_num, Real.log_pow]
    have := Real.log_le_sub_one_of_pos (show (0 : ℝ) < 10 by norm_num)
    push_cast
    linarith
  have hpos : 0 < Real.log 100 := Real.log_pos (by norm_num)
  have e1 := (two_rows f1).1 (by
    simp only [gaussLik, List.zipWith_cons_cons, List.zipWith_nil_right, List.map_cons, List.map_nil, List.sum_cons, List.sum_nil, l2, l200]
    norm_num
    linarith)
  have e2 := (two_rows f2).1 (by
    simp only [gaussLik, List.zipWith_cons_cons, List.zipWith_nil_right, List.map_cons, List.map_nil, List.sum_cons, List.sum_nil, l2, l200]
    norm_num
    linarith)
  have e3 := (two_rows f3).2 (by
    simp only [gaussLik, List.zipWith_cons_cons, List.zipWith_nil_right, List.map_cons, List.map_nil, List.sum_cons, List.sum_nil, l2, l200]
    norm_num
    linarith)
  rw [e1, e2, e3]

/-! ### Non-vacuity -/

/-- Two centroids on a line. -/
example (t : ℝ) (h0 : 0 ≤ t) (h1 : t ≤ 1) : ∃ i j l, kmPredict ⟨5, 2, some (finMat ⟨1, [[0], [4]]⟩)⟩ (finMat ⟨1, [[-7], [1], between t [-7] [1]]⟩) = ok [i, j, l] ∧ (i = j → l = i) :=
  C145_kmeans ⟨5, 2, some (finMat ⟨1, [[0], [4]]⟩)⟩ ⟨1, [[0], [4]]⟩ rfl (by simp) (by simp [Mat.WF]) [-7] [1] rfl rfl t h0 h1

/-- The samples 0 and 4 with the labels 3 and 8: from 2, which is as near to 4 as to 0, on the way to 0 everything gets the label 3, on the way to 4 the label 8. -/
example (t : ℝ) (h0 : 0 < t) (h1 : t ≤ 1) : knnPredict bruteSearcher ⟨1, some ⟨1, [[0], [4]]⟩, some [3, 8]⟩ ⟨1, [between t [2] [0]]⟩ = ok [3] ∧
    knnPredict bruteSearcher ⟨1, some ⟨1, [[0], [4]]⟩, some [3, 8]⟩ ⟨1, [between t [2] [4]]⟩ = ok [8] := by
  have near : ∀ i < 2, ∀ j < 2, eucl [2] (([[0], [4]] : List (List ℝ)).getD i []) ≤ eucl [2] (([[0], [4]] : List (List ℝ)).getD j []) := by
    intro i hi j hj
    have hi : i = 0 ∨ i = 1 := by omega
    have hj : j = 0 ∨ j = 1 := by omega
    rcases hi with rfl | rfl <;> rcases hj with rfl | rfl <;> simp only [List.getD_cons_zero, List.getD_cons_succ, eucl_one] <;> norm_num
  have key := fun i (hi : i < 2) => C145_nearest_neighbour bruteSearcher (⟨1, some ⟨1, [[0], [4]]⟩, some [3, 8]⟩ : KNNClassifier (Option (Mat ℝ))) [3, 8] rfl (X := ⟨1, [[0], [4]]⟩)
    (by simp [Mat.WF]) (by simp) rfl rfl (fun z _ => C19_brute_force_exact ⟨1, [[0], [4]]⟩ z 1 le_rfl (by simp)) [2] rfl i (by simpa using hi)
    (fun j hj => near i hi j (by simpa using hj)) t h0 h1
  exact ⟨key 0 (by norm_num), key 1 (by norm_num)⟩

/-- A DBSCAN model that can predict. -/
example : ∃ fuel m', dbTrain fuel (⟨2, 1, none, true, [], none⟩ : Dbscan ℝ) ⟨1, [[0], [1], [5]]⟩ = some (ok m') ∧ ([[0], [1], [5]] : List (List ℝ)).Nodup := by
  obtain ⟨_, _, ⟨f, hf⟩, _⟩ := C26_train (⟨2, 1, none, true, [], none⟩ : Dbscan ℝ) ⟨1, [[0], [1], [5]]⟩ (by simp [Mat.WF])
  obtain ⟨m', h⟩ := hf f le_rfl
  exact ⟨f, m', h, by norm_num⟩

/-- A support vector machine trained on two samples. -/
example (draws : ℕ → ℕ) (t : ℝ) (h0 : 0 ≤ t) (h1 : t ≤ 1) : ∃ m' u v s, (⟨linearKernel (XR.fin 1), XR.fin 1, 9, none, none, none⟩ : Svm XR).train draws (finMat ⟨1, [[-3], [3]]⟩) (fins [-1, 1]) = ok m' ∧
    m'.predict (finMat ⟨1, [[1], [2], between t [1] [2]]⟩) = ok [u, v, s] ∧ (u = v → s = u) :=
  C145_svm (X := ⟨1, [[-3], [3]]⟩) rfl rfl one_pos (by simp [Mat.WF]) rfl (by simp) (by norm_num) draws [1] [2] rfl rfl t h0 h1

/-- Word counts of two classes. -/
example (m : NaiveBayes (LogProbsD ℝ) ℝ) (t : ℝ) (h0 : 0 ≤ t) (h1 : t ≤ 1) : ∃ m' u v w, nbTrain multDistr m ⟨2, [[3, 0], [2, 1], [0, 4], [1, 5]]⟩ pairT = (m', ok ()) ∧
    nbPredict multDistr m' ⟨2, [[7, 1], [0, 0], between t [7, 1] [0, 0]]⟩ = ok ⟨2, [u, v, w]⟩ ∧ (u = v → w = u) :=
  (C145_counts m ⟨2, [[3, 0], [2, 1], [0, 4], [1, 5]]⟩ pairT (by simp [Mat.WF, pairT]) (by simp [pairT]) (by simp [pairT]) rfl [7, 1] [0, 0] rfl rfl t h0 h1).1

/-- 0 and 1 against 9 and 10: equal spreads. -/
example : ∀ b < 2, ∀ c < 2, ∀ j < 1, sampleVar ((classSamples [[0], [1], [9], [10]] pairT.rows b).map fun x => coord x j) =
    sampleVar ((classSamples [[0], [1], [9], [10]] pairT.rows c).map fun x => coord x j) := by
  have hs := pair_samples 0 1 9 10
  intro b hb c hc j hj
  have hj : j = 0 := by omega
  have hb : b = 0 ∨ b = 1 := by omega
  have hc : c = 0 ∨ c = 1 := by omega
  subst hj
  rcases hb with rfl | rfl <;> rcases hc with rfl | rfl <;> simp only [hs.1, hs.2] <;> norm_num [sampleVar, Spec.mean, coord]

end RM
