import Verif.Proofs.BinaryTree
import Verif.Proofs.Linalg

/-! Regions of the two trees: they contain their rows and never overestimate the distance. -/

set_option linter.unusedSectionVars false

namespace RM
open Outcome Scalar Spec

variable {F : Type} [Scalar F] {B : Type}

theorem Node.Bounded.mono {R R' : B → ℕ → Prop} : ∀ {t : Node F B}, t.Bounded R →
    (∀ b i, i ∈ t.rows → R b i → R' b i) → t.Bounded R'
  | .leaf _, _, _ => trivial
  | .branch _ _ b l r, h, hi =>
    ⟨fun i him => hi b i him (h.1 i him), h.2.1.mono (fun b i him => hi b i (by simp [Node.rows, him])),
      h.2.2.mono (fun b i him => hi b i (by simp [Node.rows, him]))⟩

theorem Node.DimsBelow.mono {c c' : ℕ} (h : c ≤ c') : ∀ {t : Node F B}, t.DimsBelow c → t.DimsBelow c'
  | .leaf _, _ => trivial
  | .branch _ _ _ _ _, hd => ⟨lt_of_lt_of_le hd.1 h, hd.2.1.mono h, hd.2.2.mono h⟩

theorem leaves_flatten : ∀ t : Node F B, t.leaves.flatten = t.rows
  | .leaf _ => by simp [Node.leaves, Node.rows]
  | .branch _ _ _ l r => by simp [Node.leaves, Node.rows, leaves_flatten l, leaves_flatten r]

section ord
variable [LinearOrder F] [OrdScalar F]

/-- Box with the right lengths. -/
def KdIn (data : Mat F) (b : List F × List F) (i : ℕ) : Prop :=
  b.1.length = data.cols ∧ b.2.length = data.cols ∧ BoxD data b.1 b.2 i

theorem kd_mkBound {data : Mat F} (remains : List ℕ) (dmin dmax : List F) (h1 : dmin.length = data.cols)
    (h2 : dmax.length = data.cols) (hbox : ∀ i ∈ remains, BoxD data dmin dmax i) :
    ∃ b, (kdKind (F := F)).mkBound data remains dmin dmax = ok b ∧ ∀ i ∈ remains, KdIn data b i :=
  ⟨_, rfl, fun i hi => ⟨h1, h2, hbox i hi⟩⟩

theorem KdIn.inBox {data : Mat F} (hw : data.WF) {b : List F × List F} {i : ℕ} (hi : i < data.rows.length)
    (h : KdIn data b i) : InBox data b i := by
  refine ⟨data.rows[i], List.getElem?_eq_getElem hi, ?_⟩
  intro j x hx
  have hr : (data.rows[i]).length = data.cols := hw _ (List.getElem_mem hi)
  have hj : j < data.cols := by
    by_contra hc
    rw [List.getElem?_eq_none (by omega)] at hx; simp at hx
  have hv : val data i j = x := by simp [val, hi, hx]
  have h1 : j < b.1.length := by rw [h.1]; exact hj
  have h2 : j < b.2.length := by rw [h.2.1]; exact hj
  refine ⟨b.1[j], b.2[j], List.getElem?_eq_getElem h1, List.getElem?_eq_getElem h2, ?_⟩
  have := h.2.2 j hj
  rw [hv, getD_of_lt' _ h1, getD_of_lt' _ h2] at this
  exact this

/-! ### Ball: containment -/

theorem sumRowsSel_ok {data : Mat F} (hw : data.WF) : ∀ (ids : List ℕ) (acc : List F),
    (∀ i ∈ ids, i < data.rows.length) → acc.length = data.cols →
    ∃ s, sumRowsSel data ids acc = ok s ∧ s.length = data.cols
  | [], acc, _, h => ⟨acc, rfl, h⟩
  | i :: ids, acc, hi, h => by
    have hi' : i < data.rows.length := hi i (by simp)
    have hr : (data.rows[i]).length = data.cols := hw _ (List.getElem_mem hi')
    rw [sumRowsSel]
    simp only [getAt, List.getElem?_eq_getElem hi', ofOption_some, ok_bind]
    exact sumRowsSel_ok hw ids _ (fun x hx => hi x (by simp [hx])) (by simp [h, hr])

theorem maxDistSel_ok {data : Mat F} (center : List F) : ∀ (ids : List ℕ) (r : F),
    (∀ i ∈ ids, i < data.rows.length) →
    ∃ s, maxDistSel data center ids r = ok s ∧ r ≤ s ∧ ∀ i ∈ ids, knnDist center (data.rows.getD i []) ≤ s
  | [], r, _ => ⟨r, rfl, le_refl _, by simp⟩
  | i :: ids, r, hi => by
    have hi' : i < data.rows.length := hi i (by simp)
    rw [maxDistSel]
    simp only [getAt, List.getElem?_eq_getElem hi', ofOption_some, ok_bind]
    obtain ⟨s, h1, h2, h3⟩ := maxDistSel_ok center ids
      (if r <. knnDist center data.rows[i] then knnDist center data.rows[i] else r) (fun x hx => hi x (by simp [hx]))
    have ha : r ≤ if r <. knnDist center data.rows[i] then knnDist center data.rows[i] else r := by
      split
      · rename_i h; exact (slt_true.1 h).le
      · exact le_refl _
    have hb : knnDist center data.rows[i] ≤ if r <. knnDist center data.rows[i] then knnDist center data.rows[i] else r := by
      split
      · exact le_refl _
      · rename_i h; rw [slt_true] at h; exact not_lt.1 h
    refine ⟨s, h1, le_trans ha h2, ?_⟩
    intro x hx
    rcases List.mem_cons.1 hx with rfl | hx
    · rw [getD_of_lt' _ hi']; exact le_trans hb h2
    · exact h3 x hx

/-- Ball of the right dimension containing row `i`. -/
def BallIn (data : Mat F) (b : List F × F) (i : ℕ) : Prop :=
  b.1.length = data.cols ∧ knnDist b.1 (data.rows.getD i []) ≤ b.2

theorem ball_mkBound {data : Mat F} (hw : data.WF) (remains : List ℕ) (dmin dmax : List F)
    (hr : ∀ i ∈ remains, i < data.rows.length) :
    ∃ b, (ballKind (F := F)).mkBound data remains dmin dmax = ok b ∧ ∀ i ∈ remains, BallIn data b i := by
  obtain ⟨s, h1, h2⟩ := sumRowsSel_ok hw remains (List.replicate data.cols Scalar.zero) hr (by simp)
  obtain ⟨r, h3, _, h5⟩ := maxDistSel_ok (data := data) (s.map fun c => c /. Scalar.ofNat remains.length) remains Scalar.zero hr
  refine ⟨(s.map fun c => c /. Scalar.ofNat remains.length, r), ?_, ?_⟩
  · simp [ballKind, h1, h3]
  · intro i hi
    exact ⟨by simpa using h2, h5 i hi⟩

end ord

/-! ### kd: the box distance is a lower bound, also with rounding -/

section mono
variable [LinearOrder F] [MonoScalar F]

theorem boxStep_le {d d' p r mi ma : F} (hd : d ≤ d') (h1 : mi ≤ r) (h2 : r ≤ ma) :
    boxStep d p mi ma ≤ d' +. (p -. r) *. (p -. r) := by
  unfold boxStep
  split
  · rename_i h
    rw [slt_true] at h
    refine MonoScalar.add_mono _ _ _ _ hd ?_
    rw [MonoScalar.sq_comm p r]
    exact MonoScalar.sq_mono _ _ (MonoScalar.sub_nonneg _ _ h.le) (MonoScalar.sub_mono _ _ _ _ h1 (le_refl _))
  · split
    · rename_i _ h
      rw [slt_true] at h
      refine MonoScalar.add_mono _ _ _ _ hd ?_
      rw [MonoScalar.sq_comm ma p]
      exact MonoScalar.sq_mono _ _ (MonoScalar.sub_nonneg _ _ h.le) (MonoScalar.sub_mono _ _ _ _ (le_refl _) h2)
    · exact le_trans hd (MonoScalar.le_add _ _ (MonoScalar.sq_nonneg _))

theorem le_foldl_sq : ∀ (l : List F) (d : F), (∀ x ∈ l, Scalar.zero ≤ x) → d ≤ l.foldl Scalar.add d
  | [], d, _ => le_refl _
  | x :: l, d, h => le_trans (MonoScalar.le_add d x (h x (by simp))) (le_foldl_sq l _ (fun y hy => h y (by simp [hy])))

theorem boxAcc_le : ∀ (p row mi ma : List F) (d d' : F), d ≤ d' → mi.length = row.length → ma.length = row.length →
    (∀ j, j < row.length → mi.getD j Scalar.zero ≤ row.getD j Scalar.zero ∧ row.getD j Scalar.zero ≤ ma.getD j Scalar.zero) →
    boxAcc d p mi ma ≤ (List.zipWith (fun x y => (x -. y) *. (x -. y)) p row).foldl Scalar.add d'
  | [], row, mi, ma, d, d', h, _, _, _ => by simpa [boxAcc] using h
  | p :: ps, [], mi, ma, d, d', h, h1, h2, _ => by
    have : mi = [] := by simpa using h1
    subst this
    simpa [boxAcc] using h
  | p :: ps, r :: row, mi, ma, d, d', h, h1, h2, hb => by
    cases mi with
    | nil => simp at h1
    | cons m mi =>
      cases ma with
      | nil => simp at h2
      | cons a ma =>
        rw [boxAcc, List.zipWith_cons_cons, List.foldl_cons]
        have h0 := hb 0 (by simp)
        simp at h0
        refine boxAcc_le ps row mi ma _ _ (boxStep_le h h0.1 h0.2) (by simpa using h1) (by simpa using h2) ?_
        intro j hj
        have := hb (j + 1) (by simpa using hj)
        simpa using this

theorem kd_dist_le {data : Mat F} (hw : data.WF) (point : List F) {b : List F × List F} {i : ℕ}
    (hi : i < data.rows.length) (h : KdIn data b i) :
    (kdKind (F := F)).dist b point ≤ knnDist point (data.rows.getD i []) := by
  have hr : (data.rows.getD i []).length = data.cols := by
    rw [getD_of_lt' _ hi]; exact hw _ (List.getElem_mem hi)
  refine MonoScalar.sqrt_mono _ _ (boxAcc_le _ _ _ _ _ _ (le_refl _) (by rw [hr, h.1]) (by rw [hr, h.2.1]) ?_)
  intro j hj
  exact h.2.2 j (by omega)

end mono

/-! ### Ball: triangle inequality over the reals -/

theorem knnDist_real (u v : List ℝ) : knnDist u v = Real.sqrt ((List.zipWith (fun x y => (x - y) * (x - y)) u v).sum) := by
  unfold knnDist
  have : (List.zipWith (fun x y : ℝ => (x -. y) *. (x -. y)) u v) = List.zipWith (fun x y => (x - y) * (x - y)) u v := rfl
  rw [this]
  have h2 := fsum_real (List.zipWith (fun x y : ℝ => (x - y) * (x - y)) u v)
  unfold fsum at h2
  rw [h2]; rfl

theorem knnDist_comm (u v : List ℝ) : knnDist u v = knnDist v u := by
  rw [knnDist_real, knnDist_real, List.zipWith_comm]
  congr 3
  funext a b
  ring_nf

theorem minkowski2 (a b A B : ℝ) :
    Real.sqrt ((a + b) * (a + b) + (A + B) * (A + B)) ≤ Real.sqrt (a * a + A * A) + Real.sqrt (b * b + B * B) := by
  have h1 : 0 ≤ a * a + A * A := by nlinarith [mul_self_nonneg a, mul_self_nonneg A]
  have h2 : 0 ≤ b * b + B * B := by nlinarith [mul_self_nonneg b, mul_self_nonneg B]
  rw [Real.sqrt_le_left (by positivity)]
  have hs : a * b + A * B ≤ Real.sqrt (a * a + A * A) * Real.sqrt (b * b + B * B) := by
    rw [← Real.sqrt_mul h1]
    apply Real.le_sqrt_of_sq_le
    nlinarith [mul_self_nonneg (a * B - A * b)]
  nlinarith [Real.sq_sqrt h1, Real.sq_sqrt h2]

theorem sq_sum_nonneg (u v : List ℝ) : 0 ≤ (List.zipWith (fun x y : ℝ => (x - y) * (x - y)) u v).sum := by
  apply List.sum_nonneg
  intro x hx
  obtain ⟨i, hi, rfl⟩ := List.mem_iff_getElem.1 hx
  simp only [List.getElem_zipWith]
  exact mul_self_nonneg _

theorem knnDist_triangle : ∀ (u v w : List ℝ), u.length = v.length → knnDist u w ≤ knnDist u v + knnDist v w
  | [], [], w, _ => by simp [knnDist_real]
  | [], _ :: _, _, h => by simp at h
  | _ :: _, [], _, h => by simp at h
  | x :: u, y :: v, [], h => by
    simp only [knnDist_real, List.zipWith_nil_right, List.sum_nil, Real.sqrt_zero, add_zero]
    exact Real.sqrt_nonneg _
  | x :: u, y :: v, z :: w, h => by
    have ih := knnDist_triangle u v w (by simpa using h)
    simp only [knnDist_real, List.zipWith_cons_cons, List.sum_cons] at ih ⊢
    have e1 := sq_sum_nonneg u v
    have e2 := sq_sum_nonneg v w
    have e3 := sq_sum_nonneg u w
    set A := (List.zipWith (fun x y : ℝ => (x - y) * (x - y)) u v).sum
    set B := (List.zipWith (fun x y : ℝ => (x - y) * (x - y)) v w).sum
    set C := (List.zipWith (fun x y : ℝ => (x - y) * (x - y)) u w).sum
    have hm := minkowski2 (x - y) (y - z) (Real.sqrt A) (Real.sqrt B)
    rw [Real.mul_self_sqrt e1, Real.mul_self_sqrt e2] at hm
    refine le_trans (Real.sqrt_le_sqrt ?_) hm
    have hc : C ≤ (Real.sqrt A + Real.sqrt B) * (Real.sqrt A + Real.sqrt B) := by
      rw [← Real.mul_self_sqrt e3]
      exact mul_self_le_mul_self (Real.sqrt_nonneg _) ih
    nlinarith

theorem ball_dist_le {data : Mat ℝ} (hw : data.WF) (point : List ℝ) {b : List ℝ × ℝ} {i : ℕ}
    (hi : i < data.rows.length) (h : BallIn data b i) :
    (ballKind (F := ℝ)).dist b point ≤ knnDist point (data.rows.getD i []) := by
  have hr : (data.rows.getD i []).length = data.cols := by
    rw [getD_of_lt' _ hi]; exact hw _ (List.getElem_mem hi)
  have ht := knnDist_triangle b.1 (data.rows.getD i []) point (by rw [hr, h.1])
  have hp : 0 ≤ knnDist point (data.rows.getD i []) := by rw [knnDist_real]; exact Real.sqrt_nonneg _
  rw [knnDist_comm (data.rows.getD i []) point] at ht
  have hb := h.2
  simp only [ballKind]
  split
  · exact hp
  · simp only [real_sub]; linarith

end RM
