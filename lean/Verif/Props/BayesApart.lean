import Verif.Props.NaiveBayes
import Mathlib.Analysis.Complex.ExponentialBounds

/-! C142: Gaussian naive Bayes tells apart classes that lie apart. -/

namespace RM
open Outcome Scalar Spec

/-! ### Means and variances of numbers that lie together -/

theorem sum_sq_about (l : List ℝ) (hl : l ≠ []) (a : ℝ) :
    (l.map fun y => (y - a) ^ 2).sum = (l.map fun y => (y - Spec.mean l) ^ 2).sum + l.length * (a - Spec.mean l) ^ 2 := by
  have hn : (l.length : ℝ) ≠ 0 := by
    have := List.length_pos_iff.2 hl
    positivity
  have key : ∀ (m : ℝ) (l : List ℝ), (l.map fun y => (y - a) ^ 2).sum =
      (l.map fun y => (y - m) ^ 2).sum + 2 * (m - a) * (l.sum - l.length * m) + l.length * (a - m) ^ 2 := by
    intro m l
    induction l with
    | nil => simp
    | cons y l ih =>
      simp only [List.map_cons, List.sum_cons, List.length_cons, Nat.cast_add, Nat.cast_one]
      rw [ih]
      ring
  rw [key (Spec.mean l) l]
  have : l.sum - l.length * Spec.mean l = 0 := by
    unfold Spec.mean
    field_simp
    ring
  rw [this]
  ring

theorem sum_sq_near {l : List ℝ} {a D : ℝ} (ha : a ∈ l) (h : ∀ y ∈ l, |y - a| ≤ D) : (l.map fun y => (y - a) ^ 2).sum ≤ ((l.length : ℝ) - 1) * D ^ 2 := by
  have hp := List.perm_cons_erase ha
  rw [(hp.map fun y => (y - a) ^ 2).sum_eq, List.map_cons, List.sum_cons, sub_self]
  have hlen : (l.length : ℝ) - 1 = (l.erase a).length := by
    rw [hp.length_eq, List.length_cons]
    push_cast
    ring
  rw [hlen]
  have := List.sum_le_card_nsmul ((l.erase a).map fun y => (y - a) ^ 2) (D ^ 2) fun z hz => by
    obtain ⟨y, hy, rfl⟩ := List.mem_map.1 hz
    have := h y (List.mem_of_mem_erase hy)
    rw [← sq_abs]
    exact pow_le_pow_left₀ (abs_nonneg _) this 2
  simp only [List.length_map, nsmul_eq_mul] at this
  simpa using this

variable {l : List ℝ} {D : ℝ}

theorem sampleVar_sum (h2 : 2 ≤ l.length) : (l.map fun y => (y - Spec.mean l) ^ 2).sum = ((l.length : ℝ) - 1) * sampleVar l := by
  have : (2 : ℝ) ≤ l.length := by exact_mod_cast h2
  unfold sampleVar
  rw [mul_div_cancel₀]
  linarith

theorem sampleVar_near (h2 : 2 ≤ l.length) (h : ∀ x ∈ l, ∀ y ∈ l, |y - x| ≤ D) : sampleVar l ≤ D ^ 2 := by
  obtain ⟨a, ha⟩ := List.exists_mem_of_length_pos (show 0 < l.length by omega)
  have h1 := sum_sq_about l (List.ne_nil_of_mem ha) a
  rw [sampleVar_sum h2] at h1
  have h3 := sum_sq_near ha (h a ha)
  have h4 : (2 : ℝ) ≤ l.length := by exact_mod_cast h2
  have h5 : 0 ≤ (l.length : ℝ) * (a - Spec.mean l) ^ 2 := by positivity
  refine le_of_mul_le_mul_left ?_ (show (0 : ℝ) < l.length - 1 by linarith)
  linarith

theorem mean_near {a : ℝ} (ha : a ∈ l) (h : ∀ y ∈ l, |y - a| ≤ D) : |a - Spec.mean l| ≤ D := by
  have hD : 0 ≤ D := (abs_nonneg _).trans (h a ha)
  have h1 := sum_sq_about l (List.ne_nil_of_mem ha) a
  have h3 := sum_sq_near ha h
  have h4 : (0 : ℝ) < l.length := by exact_mod_cast List.length_pos_of_mem ha
  have h5 : 0 ≤ (l.map fun y => (y - Spec.mean l) ^ 2).sum := List.sum_nonneg fun z hz => by
    obtain ⟨y, _, rfl⟩ := List.mem_map.1 hz
    positivity
  refine abs_le_of_sq_le_sq ?_ hD
  refine le_of_mul_le_mul_left ?_ h4
  nlinarith [sq_nonneg D]

/-- A value between two of the numbers is within `√(n - 1)` standard deviations of their mean. -/
theorem score_le (h2 : 2 ≤ l.length) {x x' z : ℝ} (hx : x ∈ l) (hx' : x' ∈ l) (h1 : x ≤ z) (h3 : z ≤ x') :
    (z - Spec.mean l) ^ 2 ≤ ((l.length : ℝ) - 1) * sampleVar l := by
  rw [← sampleVar_sum h2]
  have key : ∀ y ∈ l, (y - Spec.mean l) ^ 2 ≤ (l.map fun y => (y - Spec.mean l) ^ 2).sum := fun y hy =>
    List.single_le_sum (fun q hq => by
      obtain ⟨r, _, rfl⟩ := List.mem_map.1 hq
      positivity) _ (List.mem_map.2 ⟨y, hy, rfl⟩)
  rcases le_total (Spec.mean l) z with h | h
  · refine le_trans ?_ (key x' hx')
    exact pow_le_pow_left₀ (by linarith) (by linarith) 2
  · refine le_trans ?_ (key x hx)
    rw [← neg_sub, neg_sq, ← neg_sub (Spec.mean l) x, neg_sq]
    exact pow_le_pow_left₀ (by linarith) (by linarith) 2

theorem log_normalPdf {μ v z : ℝ} (hv : 0 < v) : Real.log (normalPdf μ v z) = -(Real.log (2 * Real.pi) + Real.log v) / 2 - (z - μ) ^ 2 / (2 * v) := by
  unfold normalPdf
  have hp := Real.pi_pos
  rw [Real.log_mul (by positivity) (Real.exp_ne_zero _), Real.log_exp, Real.log_inv, Real.log_sqrt (by positivity), Real.log_mul (by positivity) hv.ne']
  ring

/-- A normal density with a larger variance is larger far away. -/
theorem wider_le {v w A : ℝ} (hv : 0 < v) (hvw : v ≤ w) (hA : w ≤ A ^ 2) : Real.log w / 2 + A ^ 2 / (2 * w) ≤ Real.log v / 2 + A ^ 2 / (2 * v) := by
  have hw : 0 < w := hv.trans_le hvw
  have h1 := Real.log_le_sub_one_of_pos (div_pos hw hv)
  rw [Real.log_div hw.ne' hv.ne'] at h1
  have h2 : w / v - 1 ≤ A ^ 2 / w * (w / v - 1) := by
    have h3 : 0 ≤ w / v - 1 := by rw [sub_nonneg, le_div_iff₀ hv]; linarith
    have h4 : 1 ≤ A ^ 2 / w := by rw [le_div_iff₀ hw]; linarith
    nlinarith
  have h5 : A ^ 2 / w * (w / v - 1) = A ^ 2 / v - A ^ 2 / w := by field_simp
  have h6 : A ^ 2 / (2 * w) = A ^ 2 / w / 2 := by field_simp
  have h7 : A ^ 2 / (2 * v) = A ^ 2 / v / 2 := by field_simp
  rw [h6, h7]
  linarith

/-- One feature's share of the evidence for the class whose values surround `z`. -/
theorem feature_gap {lc lb : List ℝ} {D S z x x' : ℝ} {n : ℕ} (hc : NonConstant lc) (hb : NonConstant lb) (hn : lc.length ≤ n)
    (nc : ∀ x ∈ lc, ∀ y ∈ lc, |y - x| ≤ D) (nb : ∀ x ∈ lb, ∀ y ∈ lb, |y - x| ≤ D) (far : ∀ x ∈ lc, ∀ y ∈ lb, S ≤ |x - y|)
    (gap : D * (2 + Real.sqrt (n + 2 * Real.log n)) < S) (hx : x ∈ lc) (hx' : x' ∈ lc) (h1 : x ≤ z) (h2 : z ≤ x') :
    Real.log (normalPdf (Spec.mean lb) (sampleVar lb) z) + Real.log n < Real.log (normalPdf (Spec.mean lc) (sampleVar lc) z) := by
  have l2 := NonConstant.length hc
  have vc := sampleVar_pos hc
  have vb := sampleVar_pos hb
  have wc := sampleVar_near l2 nc
  have wb := sampleVar_near (NonConstant.length hb) nb
  have hD0 : 0 ≤ D := (abs_nonneg _).trans (nc x hx x hx)
  have hD : 0 < D := lt_of_le_of_ne hD0 fun h => by
    rw [← h] at wc
    norm_num at wc
    linarith
  obtain ⟨y, hy, _⟩ := id hb
  have hn1 : (2 : ℝ) ≤ n := by exact_mod_cast l2.trans hn
  have hln : 0 ≤ Real.log n := Real.log_nonneg (by linarith)
  have hs : 0 ≤ (n : ℝ) + 2 * Real.log n := by linarith
  have hA : D * Real.sqrt (n + 2 * Real.log n) < |z - Spec.mean lb| := by
    have a1 := far x hx y hy
    have a2 := mean_near hy (nb y hy)
    have a3 : |z - x| ≤ D := by
      have := nc x hx x' hx'
      rw [abs_of_nonneg (by linarith)] at this ⊢
      linarith
    have a4 : |x - y| ≤ |z - x| + |z - Spec.mean lb| + |y - Spec.mean lb| := by
      have e : x - y = -(z - x) + (z - Spec.mean lb) + -(y - Spec.mean lb) := by ring
      rw [e]
      refine (abs_add_le _ _).trans ?_
      rw [abs_neg]
      refine add_le_add_left ((abs_add_le _ _).trans ?_) _
      rw [abs_neg]
    nlinarith
  have hA2 : D ^ 2 * (n + 2 * Real.log n) < (z - Spec.mean lb) ^ 2 := by
    have := pow_lt_pow_left₀ hA (by positivity) (show 2 ≠ 0 by norm_num)
    rwa [mul_pow, Real.sq_sqrt hs, sq_abs] at this
  have hDA : D ^ 2 ≤ (z - Spec.mean lb) ^ 2 := by
    refine le_trans ?_ hA2.le
    nlinarith [sq_nonneg D]
  have b1 := wider_le vb wb hDA
  have b2 : (n + 2 * Real.log n) / 2 < (z - Spec.mean lb) ^ 2 / (2 * D ^ 2) := by
    rw [div_lt_div_iff₀ (by norm_num) (by positivity)]
    linarith
  have b3 := Real.log_le_log vc wc
  have b4 : (z - Spec.mean lc) ^ 2 / (2 * sampleVar lc) ≤ ((n : ℝ) - 1) / 2 := by
    rw [div_le_div_iff₀ (by positivity) (by norm_num)]
    have c1 := score_le l2 hx hx' h1 h2
    have c2 : (lc.length : ℝ) ≤ n := by exact_mod_cast hn
    nlinarith
  rw [log_normalPdf vc, log_normalPdf vb]
  linarith

namespace Spec

/-- The rows of `X`, labelled by `T`, form classes that lie apart: in each class each feature `j` takes at least two values, values of feature `j`
in one class differ by at most `D j`, and values of feature `j` in two classes differ by at least `S j`. -/
structure ClassesApart (X T : Mat ℝ) (D S : ℕ → ℝ) : Prop where
  varies : ∀ c < T.cols, ∀ j < X.cols, NonConstant ((classSamples X.rows T.rows c).map fun x => coord x j)
  near : ∀ c < T.cols, ∀ x ∈ classSamples X.rows T.rows c, ∀ y ∈ classSamples X.rows T.rows c, ∀ j < X.cols, |coord y j - coord x j| ≤ D j
  far : ∀ b < T.cols, ∀ c < T.cols, b ≠ c → ∀ x ∈ classSamples X.rows T.rows b, ∀ y ∈ classSamples X.rows T.rows c, ∀ j < X.cols,
    S j ≤ |coord x j - coord y j|

/-- Each of the first `k` coordinates of `z` lies between those of two of the points `C`. -/
def Amidst (k : ℕ) (C : List (List ℝ)) (z : List ℝ) : Prop :=
  ∀ j < k, ∃ x ∈ C, ∃ y ∈ C, coord x j ≤ coord z j ∧ coord z j ≤ coord y j

end Spec

/-- C142: training on classes that lie apart succeeds, and the model then gives any point amidst the training points of a class that class.
"Apart" allows the distance to grow with the number of samples only like its square root. -/
theorem C142_apart (m : NaiveBayes (GaussD ℝ) ℝ) (X T Z : Mat ℝ) (D S : ℕ → ℝ) (hX : X.WF) (hT : T.WF) (hZ : Z.WF) (hf : Z.cols = X.cols)
    (hn : X.rows.length = T.rows.length) (h1 : ∀ t ∈ T.rows, ∃ v ∈ t, v = 1) (hj : 0 < X.cols) (hk : 0 < T.cols) (ha : ClassesApart X T D S)
    (gap : ∀ j < X.cols, D j * (2 + Real.sqrt (X.rows.length + 2 * Real.log X.rows.length)) < S j) :
    ∃ m' P, nbTrain gaussDistr m X T = (m', ok ()) ∧ nbPredict gaussDistr m' Z = ok P ∧ P.cols = T.cols ∧ P.rows.length = Z.rows.length ∧
      ∀ i < Z.rows.length, ∀ c < T.cols, Amidst X.cols (classSamples X.rows T.rows c) (rowOf Z i) → IsOneHot T.cols c (rowOf P i) := by
  have big : ∀ c < T.cols, 2 ≤ classSize T.rows c := fun c hc => by
    have := NonConstant.length (ha.varies c hc 0 hj)
    rwa [List.length_map, classSamples_length hn] at this
  have small : ∀ c, classSize T.rows c ≤ X.rows.length := fun c => by
    rw [hn]
    exact List.countP_le_length
  obtain ⟨m', h⟩ := (C35_trains_iff m X T hX hT hn).2 ⟨h1, fun c hc h => by have := big c hc; omega⟩
  obtain ⟨L, P, hL, hP, l1, p1, hall⟩ := C34_predict_gaussian m m' X T Z hT hk hf h
  obtain ⟨L', hL', _, hjoint⟩ := C35_gaussian m m' X T Z hX hT hZ hf hn h
  rw [hL] at hL'
  injection hL' with hL'
  subst hL'
  refine ⟨m', P, h, hP, p1, by rw [← hall.length_eq, l1], ?_⟩
  intro i hi c hc ham
  have iL : i < L.rows.length := by omega
  have iP : i < P.rows.length := by rw [← hall.length_eq]; exact iL
  obtain ⟨hlen, b, hb, hot⟩ := (List.forall₂_iff_get.1 hall).2 i iL iP
  have rP : rowOf P i = P.rows[i] := getD_lt _ iP
  have rL : rowOf L i = L.rows[i] := getD_lt _ iL
  simp only [List.get_eq_getElem] at hlen hb hot
  rw [rP]
  by_cases hbc : b = c
  · rwa [← hbc]
  exfalso
  have hbk : b < T.cols := hot.2.1
  obtain ⟨v, hv, hmax, _⟩ := hb
  have eb : coord (rowOf L i) b = v := by
    rw [rL, coord, List.getD_eq_getElem?_getD, hv]
    rfl
  have ec : coord (rowOf L i) c ≤ v := by
    rw [rL, coord, getD_lt _ (by omega)]
    exact hmax _ (List.getElem_mem _)
  have npos : (0 : ℝ) < X.rows.length := by exact_mod_cast lt_of_lt_of_le (by norm_num) ((big c hc).trans (small c))
  have likelihood : ∀ d < T.cols, coord (rowOf L i) d = Real.log ((classSize T.rows d : ℝ) / X.rows.length) +
      ∑ j ∈ Finset.range X.cols, Real.log (normalPdf (Spec.mean ((classSamples X.rows T.rows d).map fun x => coord x j))
        (sampleVar ((classSamples X.rows T.rows d).map fun x => coord x j)) (coord (rowOf Z i) j)) := fun d hd => by
    have e := (hjoint d hd (by have := big d hd; omega)).2.2 (ha.varies d hd) i hi
    have dpos : (0 : ℝ) < classSize T.rows d := by exact_mod_cast lt_of_lt_of_le (by norm_num) (big d hd)
    have ppos : ∀ j ∈ Finset.range X.cols, normalPdf (Spec.mean ((classSamples X.rows T.rows d).map fun x => coord x j))
        (sampleVar ((classSamples X.rows T.rows d).map fun x => coord x j)) (coord (rowOf Z i) j) ≠ 0 := fun j hjj => by
      have := sampleVar_pos (ha.varies d hd j (Finset.mem_range.1 hjj))
      have := Real.pi_pos
      unfold normalPdf
      positivity
    rw [← Real.log_exp (coord (rowOf L i) d), e, Real.log_mul (by positivity) (Finset.prod_ne_zero_iff.2 ppos), Real.log_prod ppos]
  have hfeat : ∀ j ∈ Finset.range X.cols, Real.log (normalPdf (Spec.mean ((classSamples X.rows T.rows b).map fun x => coord x j))
        (sampleVar ((classSamples X.rows T.rows b).map fun x => coord x j)) (coord (rowOf Z i) j)) + Real.log X.rows.length <
      Real.log (normalPdf (Spec.mean ((classSamples X.rows T.rows c).map fun x => coord x j))
        (sampleVar ((classSamples X.rows T.rows c).map fun x => coord x j)) (coord (rowOf Z i) j)) := fun j hjj => by
    have hjj := Finset.mem_range.1 hjj
    obtain ⟨x, hx, y, hy, hxz, hzy⟩ := ham j hjj
    refine feature_gap (D := D j) (S := S j) (ha.varies c hc j hjj) (ha.varies b hbk j hjj) ?_ ?_ ?_ ?_ (gap j hjj)
      (List.mem_map.2 ⟨x, hx, rfl⟩) (List.mem_map.2 ⟨y, hy, rfl⟩) hxz hzy
    · rw [List.length_map, classSamples_length hn]
      exact small c
    · intro p hp q hq
      obtain ⟨p, hp', rfl⟩ := List.mem_map.1 hp
      obtain ⟨q, hq', rfl⟩ := List.mem_map.1 hq
      exact ha.near c hc p hp' q hq' j hjj
    · intro p hp q hq
      obtain ⟨p, hp', rfl⟩ := List.mem_map.1 hp
      obtain ⟨q, hq', rfl⟩ := List.mem_map.1 hq
      exact ha.near b hbk p hp' q hq' j hjj
    · intro p hp q hq
      obtain ⟨p, hp', rfl⟩ := List.mem_map.1 hp
      obtain ⟨q, hq', rfl⟩ := List.mem_map.1 hq
      exact ha.far c hc b hbk (Ne.symm hbc) p hp' q hq' j hjj
  have hsum := Finset.sum_lt_sum_of_nonempty ⟨0, Finset.mem_range.2 hj⟩ hfeat
  rw [Finset.sum_add_distrib, Finset.sum_const, Finset.card_range, nsmul_eq_mul] at hsum
  have hlog : 0 ≤ Real.log X.rows.length := Real.log_nonneg (by
    exact_mod_cast le_trans (by norm_num) ((big c hc).trans (small c)))
  have hcols : Real.log X.rows.length ≤ X.cols * Real.log X.rows.length :=
    le_mul_of_one_le_left hlog (by exact_mod_cast hj)
  have priorb : Real.log ((classSize T.rows b : ℝ) / X.rows.length) ≤ 0 := by
    refine Real.log_nonpos (by positivity) ?_
    rw [div_le_one npos]
    exact_mod_cast small b
  have priorc : -Real.log X.rows.length ≤ Real.log ((classSize T.rows c : ℝ) / X.rows.length) := by
    rw [← Real.log_inv, ← one_div]
    refine Real.log_le_log (by positivity) ?_
    gcongr
    exact_mod_cast le_trans (by norm_num) (big c hc)
  rw [← eb, likelihood b hbk, likelihood c hc] at ec
  linarith

/-- A training point lies amidst the training points of its class. -/
theorem amidst_self {X T : Mat ℝ} (hn : X.rows.length = T.rows.length) {i c : ℕ} (hi : i < X.rows.length) (h : classOf (rowOf T i) = some c) (k : ℕ) :
    Amidst k (classSamples X.rows T.rows c) (rowOf X i) := by
  have : rowOf X i ∈ classSamples X.rows T.rows c := by
    refine List.mem_map.2 ⟨(rowOf X i, rowOf T i), List.mem_filter.2 ⟨?_, by simpa using h⟩, rfl⟩
    rw [rowOf, rowOf, getD_lt _ hi, getD_lt _ (hn ▸ hi)]
    exact List.mem_iff_getElem.2 ⟨i, by simp; omega, by simp⟩
  exact fun j _ => ⟨_, this, _, this, le_rfl, le_rfl⟩

/-- C142: on classes that lie apart the trained model gives every training point the class it was labelled with. -/
theorem C142_training_points (m : NaiveBayes (GaussD ℝ) ℝ) (X T : Mat ℝ) (D S : ℕ → ℝ) (hX : X.WF) (hT : T.WF)
    (hn : X.rows.length = T.rows.length) (h1 : ∀ t ∈ T.rows, ∃ c, IsOneHot T.cols c t) (hj : 0 < X.cols) (hk : 0 < T.cols) (ha : ClassesApart X T D S)
    (gap : ∀ j < X.cols, D j * (2 + Real.sqrt (X.rows.length + 2 * Real.log X.rows.length)) < S j) :
    ∃ m', nbTrain gaussDistr m X T = (m', ok ()) ∧ nbPredict gaussDistr m' X = ok T := by
  have hot : ∀ t ∈ T.rows, ∀ c, IsOneHot T.cols c t → (∃ v ∈ t, v = 1) ∧ classOf t = some c := by
    rintro t _ c ⟨e, hc, h⟩
    have hlt : c < t.length := by omega
    have g : ∀ j (hj : j < t.length), t[j] = if j = c then 1 else 0 := fun j hj => by
      rw [← h j (by omega), coord, getD_lt _ hj]
    refine ⟨⟨t[c], List.getElem_mem hlt, by rw [g c hlt, if_pos rfl]⟩, ?_⟩
    unfold classOf
    rw [List.findIdx?_eq_some_iff_getElem]
    refine ⟨hlt, by simp [g c hlt], fun j hjc => ?_⟩
    rw [g j (by omega), if_neg (by omega)]
    simp
  obtain ⟨m', P, ht, hp, p1, p2, hall⟩ := C142_apart m X T X D S hX hT hX rfl hn
    (fun t h => by obtain ⟨c, hc⟩ := h1 t h; exact (hot t h c hc).1) hj hk ha gap
  refine ⟨m', ht, ?_⟩
  rw [hp]
  congr 1
  have : P.rows = T.rows := by
    refine List.ext_getElem (by omega) fun i iP iT => ?_
    obtain ⟨c, hc⟩ := h1 _ (List.getElem_mem iT)
    have e : rowOf T i = T.rows[i] := getD_lt _ iT
    have := hall i (by omega) c hc.2.1 (amidst_self hn (by omega) (by rw [e]; exact (hot _ (List.getElem_mem iT) c hc).2) _)
    rw [rowOf, getD_lt _ iP] at this
    refine List.ext_getElem (by rw [this.1, hc.1]) fun j j1 j2 => ?_
    have a := this.2.2 j (by have := this.1; omega)
    have b := hc.2.2 j (by have := this.1; omega)
    rw [coord, getD_lt _ j1] at a
    rw [coord, getD_lt _ j2] at b
    rw [a, b]
  cases P
  cases T
  simp_all

/-- Two labelled pairs of numbers. -/
def pairT : Mat ℝ := ⟨2, [[1, 0], [1, 0], [0, 1], [0, 1]]⟩

theorem pair_hot : ∀ t ∈ pairT.rows, ∃ c, IsOneHot pairT.cols c t := by
  have h0 : IsOneHot 2 0 [1, 0] := ⟨rfl, by norm_num, fun j hj => by
    have : j = 0 ∨ j = 1 := by omega
    rcases this with rfl | rfl <;> simp [coord]⟩
  have h1 : IsOneHot 2 1 [0, 1] := ⟨rfl, by norm_num, fun j hj => by
    have : j = 0 ∨ j = 1 := by omega
    rcases this with rfl | rfl <;> simp [coord]⟩
  simp only [pairT, List.mem_cons, List.not_mem_nil, or_false]
  rintro t (rfl | rfl | rfl | rfl)
  exacts [⟨0, h0⟩, ⟨0, h0⟩, ⟨1, h1⟩, ⟨1, h1⟩]

theorem pair_samples (a b c d : ℝ) : classSamples [[a], [b], [c], [d]] pairT.rows 0 = [[a], [b]] ∧
    classSamples [[a], [b], [c], [d]] pairT.rows 1 = [[c], [d]] := by
  simp [classSamples, pairT, ex_class0, ex_class1]

/-- Non-vacuity of C142: 0 and 1 against 9 and 10. -/
example : ClassesApart ⟨1, [[0], [1], [9], [10]]⟩ pairT (fun _ => 1) (fun _ => 8) ∧
    (1 : ℝ) * (2 + Real.sqrt ((4 : ℕ) + 2 * Real.log (4 : ℕ))) < 8 ∧ ∀ t ∈ pairT.rows, ∃ c, IsOneHot pairT.cols c t := by
  have hs := pair_samples 0 1 9 10
  refine ⟨⟨?_, ?_, ?_⟩, ?_, pair_hot⟩
  · intro c hc j hj
    have hj : j = 0 := by simp at hj; omega
    have hc : c = 0 ∨ c = 1 := by simp [pairT] at hc; omega
    subst hj
    rcases hc with rfl | rfl
    · simp only [hs.1]
      exact ⟨0, by simp [coord], 1, by simp [coord], by norm_num⟩
    · simp only [hs.2]
      exact ⟨9, by simp [coord], 10, by simp [coord], by norm_num⟩
  · intro c hc x hx y hy j hj
    have hj : j = 0 := by simp at hj; omega
    have hc : c = 0 ∨ c = 1 := by simp [pairT] at hc; omega
    subst hj
    rcases hc with rfl | rfl
    · simp only [hs.1] at hx hy
      simp only [List.mem_cons, List.not_mem_nil, or_false] at hx hy
      rcases hx with rfl | rfl <;> rcases hy with rfl | rfl <;> norm_num [coord]
    · simp only [hs.2] at hx hy
      simp only [List.mem_cons, List.not_mem_nil, or_false] at hx hy
      rcases hx with rfl | rfl <;> rcases hy with rfl | rfl <;> norm_num [coord]
  · intro b hb c hc hne x hx y hy j hj
    have hj : j = 0 := by simp at hj; omega
    have hb : b = 0 ∨ b = 1 := by simp [pairT] at hb; omega
    have hc : c = 0 ∨ c = 1 := by simp [pairT] at hc; omega
    subst hj
    rcases hb with rfl | rfl <;> rcases hc with rfl | rfl
    · exact absurd rfl hne
    · simp only [hs.1, hs.2] at hx hy
      simp only [List.mem_cons, List.not_mem_nil, or_false] at hx hy
      rcases hx with rfl | rfl <;> rcases hy with rfl | rfl <;> norm_num [coord]
    · simp only [hs.1, hs.2] at hx hy
      simp only [List.mem_cons, List.not_mem_nil, or_false] at hx hy
      rcases hx with rfl | rfl <;> rcases hy with rfl | rfl <;> norm_num [coord]
    · exact absurd rfl hne
  · have h1 : Real.log (4 : ℕ) ≤ 3 := by
      have := Real.log_le_sub_one_of_pos (show (0 : ℝ) < (4 : ℕ) by norm_num)
      norm_num at this ⊢
      exact this
    have h2 : Real.sqrt ((4 : ℕ) + 2 * Real.log (4 : ℕ)) ≤ 4 := by
      rw [Real.sqrt_le_left (by norm_num)]
      push_cast at h1 ⊢
      linarith
    linarith

/-- C142: that the classes do not overlap is not enough. Trained on 0 and 10 against 11 and 13, the model gives the training point 10 the class of
11 and 13. -/
theorem C142_overlap_free_not_enough (m : NaiveBayes (GaussD ℝ) ℝ) :
    ∃ m' P, nbTrain gaussDistr m ⟨1, [[0], [10], [11], [13]]⟩ pairT = (m', ok ()) ∧
      nbPredict gaussDistr m' ⟨1, [[0], [10], [11], [13]]⟩ = ok P ∧ IsOneHot 2 1 (rowOf P 1) := by
  have hs := pair_samples 0 10 11 13
  have wX : (⟨1, [[0], [10], [11], [13]]⟩ : Mat ℝ).WF := by simp [Mat.WF]
  have wT : pairT.WF := by simp [Mat.WF, pairT]
  have hn : (⟨1, [[0], [10], [11], [13]]⟩ : Mat ℝ).rows.length = pairT.rows.length := rfl
  have size0 : classSize pairT.rows 0 = 2 := by simp [classSize, pairT, ex_class0, ex_class1]
  have size1 : classSize pairT.rows 1 = 2 := by simp [classSize, pairT, ex_class0, ex_class1]
  obtain ⟨m', h⟩ := (C35_trains_iff m _ pairT wX wT hn).2 ⟨by simp [pairT], fun c hc => by
    have hc : c = 0 ∨ c = 1 := by simp [pairT] at hc; omega
    rcases hc with rfl | rfl <;> omega⟩
  obtain ⟨L, P, hL, hP, l1, p1, hall⟩ := C34_predict_gaussian m m' _ pairT _ wT (by simp [pairT]) rfl h
  obtain ⟨L', hL', _, hjoint⟩ := C35_gaussian m m' _ pairT _ wX wT wX rfl hn h
  rw [hL] at hL'
  injection hL' with hL'
  subst hL'
  refine ⟨m', P, h, hP, ?_⟩
  have l1 : L.rows.length = 4 := l1
  have iL : 1 < L.rows.length := by omega
  have iP : 1 < P.rows.length := by rw [← hall.length_eq]; exact iL
  obtain ⟨hlen, b, hb, hot⟩ := (List.forall₂_iff_get.1 hall).2 1 iL iP
  have rP : rowOf P 1 = P.rows[1] := getD_lt _ iP
  have rL : rowOf L 1 = L.rows[1] := getD_lt _ iL
  simp only [List.get_eq_getElem] at hlen hb hot
  rw [rP]
  have hbk : b < 2 := hot.2.1
  have hb01 : b = 0 ∨ b = 1 := by omega
  rcases hb01 with rfl | rfl
  swap
  · exact hot
  exfalso
  obtain ⟨v, hv, hmax, _⟩ := hb
  have hlen : L.rows[1].length = 2 := hlen
  have eb : coord (rowOf L 1) 0 = v := by
    rw [rL, coord, List.getD_eq_getElem?_getD, hv]
    rfl
  have ec : coord (rowOf L 1) 1 ≤ v := by
    rw [rL, coord, getD_lt _ (by omega)]
    exact hmax _ (List.getElem_mem _)
  rw [← eb, ← Real.exp_le_exp] at ec
  have e0 := (hjoint 0 (by simp [pairT]) (by omega)).2.2 (fun j hj => by
    have hj : j = 0 := by simp at hj; omega
    subst hj
    simp only [hs.1]
    exact ⟨0, by simp [coord], 10, by simp [coord], by norm_num⟩) 1 (by simp)
  have e1 := (hjoint 1 (by simp [pairT]) (by omega)).2.2 (fun j hj => by
    have hj : j = 0 := by simp at hj; omega
    subst hj
    simp only [hs.2]
    exact ⟨11, by simp [coord], 13, by simp [coord], by norm_num⟩) 1 (by simp)
  rw [e0, e1, size0, size1] at ec
  have z : coord (rowOf (⟨1, [[0], [10], [11], [13]]⟩ : Mat ℝ) 1) 0 = 10 := by simp [coord, rowOf]
  simp only [Finset.prod_range_one, hs.1, hs.2, z] at ec
  have m0 : Spec.mean (([[0], [10]] : List (List ℝ)).map fun x => coord x 0) = 5 := by norm_num [Spec.mean, coord]
  have m1 : Spec.mean (([[11], [13]] : List (List ℝ)).map fun x => coord x 0) = 12 := by norm_num [Spec.mean, coord]
  have v0 : sampleVar (([[0], [10]] : List (List ℝ)).map fun x => coord x 0) = 50 := by
    unfold sampleVar
    rw [m0]
    norm_num [coord]
  have v1 : sampleVar (([[11], [13]] : List (List ℝ)).map fun x => coord x 0) = 2 := by
    unfold sampleVar
    rw [m1]
    norm_num [coord]
  rw [m0, m1, v0, v1] at ec
  have hp := Real.pi_pos
  have ec : normalPdf 12 2 10 ≤ normalPdf 5 50 10 := by
    refine le_of_mul_le_mul_left ec ?_
    norm_num
  have ec := Real.log_le_log (by unfold normalPdf; positivity) ec
  rw [log_normalPdf (by norm_num), log_normalPdf (by norm_num)] at ec
  have h50 : Real.log 50 = Real.log 2 + 2 * Real.log 5 := by
    rw [show (50 : ℝ) = 2 * 5 ^ 2 by norm_num, Real.log_mul (by norm_num) (by norm_num), Real.log_pow]
    norm_num
  have h5 : 1 < Real.log 5 := by
    rw [Real.lt_log_iff_exp_lt (by norm_num)]
    exact Real.exp_one_lt_d9.trans (by norm_num)
  rw [h50] at ec
  norm_num at ec
  linarith

end RM
