import Verif.Props.KMeansTwo
import Verif.Props.KppSeeding

/-! C134: k-means finds groups of rows that lie apart. -/

namespace RM
open Outcome Scalar Spec MeasureTheory ProbabilityTheory

namespace Spec

/-- The rows fall into groups: the squared distance is at most `D` between rows of one group and at least `S` between rows of different groups. -/
structure Grouped (rows : List (List ℝ)) (grp : List ℝ → ℕ) (D S : ℝ) : Prop where
  near : ∀ x ∈ rows, ∀ y ∈ rows, grp x = grp y → sqDist x y ≤ D
  far : ∀ x ∈ rows, ∀ y ∈ rows, grp x ≠ grp y → S ≤ sqDist x y

/-- `cs` consists of one row of every group. -/
structure OneOfEach (rows : List (List ℝ)) (grp : List ℝ → ℕ) (cs : List (List ℝ)) : Prop where
  mem : ∀ c ∈ cs, c ∈ rows
  once : (cs.map grp).Nodup
  all : ∀ x ∈ rows, grp x ∈ cs.map grp

/-- The rows in the group of `c`. -/
def groupOf (rows : List (List ℝ)) (grp : List ℝ → ℕ) (c : List ℝ) : List (List ℝ) := rows.filter fun x => grp x = grp c

/-- The numbers given to the rows say which rows are in one group. -/
def SaysGroups (rows : List (List ℝ)) (grp : List ℝ → ℕ) (labels : List ℕ) : Prop :=
  labels.length = rows.length ∧ ∀ (i j : ℕ) x y a b, rows[i]? = some x → rows[j]? = some y → labels[i]? = some a → labels[j]? = some b → (a = b ↔ grp x = grp y)

end Spec

/-! ### Training from a good start -/

variable {X : Mat ℝ} {grp : List ℝ → ℕ} {D S : ℝ} {cs : List (List ℝ)}

/-- The mean of points is not farther from a point than all of them. -/
theorem sqDist_mean_le (d : ℕ) (T : List (List ℝ)) (hT : ∀ r ∈ T, r.length = d) (hne : T ≠ []) (x : List ℝ) (hx : x.length = d)
    (h : ∀ y ∈ T, sqDist x y ≤ D) : sqDist x (centroidOf d T) ≤ D := by
  have h1 := sum_sqDist_sub d T hT hne x (centroidOf d T) hx (centroidOf_length d T)
  have h3 : sqDist (centroidOf d T) (centroidOf d T) = 0 := by
    rw [sqDist_range d _ _ (centroidOf_length d T) (centroidOf_length d T)]
    simp
  have hn : (0 : ℝ) < T.length := by exact_mod_cast List.length_pos_iff.2 hne
  have h2 : (T.map fun y => sqDist y x - sqDist y (centroidOf d T)).sum ≤ T.length * D := by
    have : (T.map fun y => sqDist y x - sqDist y (centroidOf d T)).sum ≤ (T.map fun _ => D).sum := by
      apply List.sum_le_sum
      intro y hy
      have a := h y hy
      have b := sqDist_nonneg y (centroidOf d T)
      rw [sqDist_comm] at a
      linarith
    simpa using this
  rw [h1, h3, sub_zero, sqDist_comm] at h2
  exact le_of_mul_le_mul_left h2 hn

/-- Each row is near to the centroid at the place of its group and not near to the others. -/
def Fits (rows : List (List ℝ)) (grp : List ℝ → ℕ) (D : ℝ) (gs : List ℕ) (C : List (List ℝ)) : Prop :=
  C.length = gs.length ∧ ∀ x ∈ rows, ∀ (j : ℕ) c g, C[j]? = some c → gs[j]? = some g → if grp x = g then sqDist x c ≤ D else D < sqDist x c

theorem fits_start (h : Grouped X.rows grp D S) (hDS : 4 * D < S) (hc : OneOfEach X.rows grp cs) : Fits X.rows grp D (cs.map grp) cs := by
  refine ⟨by simp, ?_⟩
  intro x hx j c g h1 h2
  rw [List.getElem?_map, h1] at h2
  cases h2
  have hcr := hc.mem c (List.mem_of_getElem? h1)
  split
  · exact h.near x hx c hcr ‹_›
  · have h0 : 0 ≤ D := (sqDist_nonneg x x).trans (h.near x hx x hx rfl)
    have := h.far x hx c hcr ‹_›
    linarith

theorem fits_means {Z : List (List ℝ)} (hX : X.WF) (hZ : ∀ z ∈ Z, z.length = X.cols)
    (hnear : ∀ z ∈ Z, ∀ y ∈ X.rows, grp z = grp y → sqDist z y ≤ D) (hfar : ∀ z ∈ Z, ∀ y ∈ X.rows, grp z ≠ grp y → S ≤ sqDist z y)
    (h : Grouped X.rows grp D S) (hDS : 4 * D < S) (hc : OneOfEach X.rows grp cs) :
    Fits Z grp D (cs.map grp) (cs.map fun c => centroidOf X.cols (groupOf X.rows grp c)) := by
  refine ⟨by simp, ?_⟩
  intro z hz j c g h1 h2
  rw [List.getElem?_map] at h1 h2
  cases hj : cs[j]? with
  | none => rw [hj] at h1; cases h1
  | some c0 =>
    rw [hj] at h1 h2
    cases h1
    cases h2
    have hcr := hc.mem c0 (List.mem_of_getElem? hj)
    have hw : ∀ r ∈ groupOf X.rows grp c0, r.length = X.cols := fun r hr => hX r (List.mem_filter.1 hr).1
    have hgne : groupOf X.rows grp c0 ≠ [] := List.ne_nil_of_mem (List.mem_filter.2 ⟨hcr, by simp⟩)
    split
    · rename_i he
      refine sqDist_mean_le X.cols _ hw hgne z (hZ z hz) ?_
      intro y hy
      obtain ⟨hy1, hy2⟩ := List.mem_filter.1 hy
      exact hnear z hz y hy1 (he.trans (of_decide_eq_true hy2).symm)
    · rename_i he
      have a : sqDist c0 (centroidOf X.cols (groupOf X.rows grp c0)) ≤ D := by
        refine sqDist_mean_le X.cols _ hw hgne c0 (hX c0 hcr) ?_
        intro y hy
        obtain ⟨hy1, hy2⟩ := List.mem_filter.1 hy
        exact h.near c0 hcr y hy1 (of_decide_eq_true hy2).symm
      have b := hfar z hz c0 hcr he
      have t := sqDist_tri (x := centroidOf X.cols (groupOf X.rows grp c0)) (y := z) (z := c0) (centroidOf_length _ _) (hZ z hz) (hX c0 hcr)
      rw [sqDist_comm (centroidOf _ _) c0, sqDist_comm (centroidOf _ _) z] at t
      simp only
      linarith

theorem labels_of_fits {Z : List (List ℝ)} {gs : List ℕ} {C : List (List ℝ)} (hg : gs.Nodup) (hall : ∀ z ∈ Z, grp z ∈ gs) (hf : Fits Z grp D gs C)
    {R : List ℝ → ℕ → Prop} (hR : ∀ z j, R z j → ∃ c, C[j]? = some c ∧ ∀ c' ∈ C, sqDist z c ≤ sqDist z c') {labels : List ℕ} (hl : List.Forall₂ R Z labels) :
    labels = Z.map fun z => gs.idxOf (grp z) := by
  induction hl with
  | nil => rfl
  | @cons z j Z labels h hl ih =>
    rw [List.map_cons, ← ih (fun z hz => hall z (List.mem_cons_of_mem _ hz)) ⟨hf.1, fun x hx => hf.2 x (List.mem_cons_of_mem _ hx)⟩]
    congr 1
    obtain ⟨c, h1, h2⟩ := hR z j h
    have hz : z ∈ z :: Z := List.mem_cons_self
    have hm := hall z hz
    have hi : gs.idxOf (grp z) < gs.length := List.idxOf_lt_length_of_mem hm
    have hgi : gs[gs.idxOf (grp z)]? = some (grp z) := by rw [List.getElem?_eq_getElem hi, List.getElem_idxOf]
    have hjl : j < gs.length := hf.1 ▸ (List.getElem?_eq_some_iff.1 h1).1
    have hci : gs.idxOf (grp z) < C.length := hf.1 ▸ hi
    have e1 := hf.2 z hz _ _ _ (List.getElem?_eq_getElem hci) hgi
    rw [if_pos rfl] at e1
    have e2 := hf.2 z hz j c _ h1 (List.getElem?_eq_getElem hjl)
    have e3 := h2 _ (List.getElem_mem hci)
    by_cases he : grp z = gs[j]
    · rw [he]
      exact (hg.idxOf_getElem j hjl).symm
    · rw [if_neg he] at e2
      linarith

theorem labelled_map_self {α : Type} (j : ℕ) (f : α → ℕ) (l : List α) : labelled j l (l.map f) = l.filter fun x => f x = j := by
  induction l with
  | nil => rfl
  | cons x l ih =>
    simp only [labelled, List.map_cons, List.zip_cons_cons, List.filter_cons] at ih ⊢
    by_cases h : f x = j <;> simp [h, ih]

theorem fits_step (hX : X.WF) (hd : 0 < X.cols) (hne : cs ≠ []) (hc : OneOfEach X.rows grp cs) {C : List (List ℝ)}
    (hf : Fits X.rows grp D (cs.map grp) C) :
    kmNext cs.length X (C.map some) = (cs.map fun c => centroidOf X.cols (groupOf X.rows grp c)).map some := by
  obtain ⟨c0, C', rfl⟩ : ∃ c0 C', C = c0 :: C' := by
    cases C with
    | nil => have := hf.1; simp at this; exact absurd this.symm (by simpa using hne)
    | cons a b => exact ⟨a, b, rfl⟩
  have hl : kmLabels X ((c0 :: C').map some) = X.rows.map fun z => (cs.map grp).idxOf (grp z) := by
    refine labels_of_fits hc.once hc.all hf (R := NearestProper ((c0 :: C').map some)) ?_ (km_some hX hd c0 (C'.map some)).1
    rintro z j ⟨c, h1, h2, -⟩
    refine ⟨c, ?_, fun c' hc' => h2 c' (List.mem_map.2 ⟨c', hc', rfl⟩)⟩
    rw [List.getElem?_map] at h1
    cases h : (c0 :: C')[j]? with
    | none => rw [h] at h1; cases h1
    | some v => rw [h] at h1; simp at h1; rw [h1]
  unfold kmNext newCentroids
  rw [hl]
  simp only [labelled_map_self]
  apply List.ext_getElem
  · simp
  · intro j h1 h2
    simp only [List.length_map, List.length_range] at h1
    simp only [List.getElem_map, List.getElem_range]
    have hcr := hc.mem cs[j] (List.getElem_mem _)
    have he : (X.rows.filter fun x => decide ((cs.map grp).idxOf (grp x) = j)) = groupOf X.rows grp cs[j] := by
      unfold groupOf
      apply List.filter_congr
      intro x hx
      rw [decide_eq_decide]
      have hi := List.idxOf_lt_length_of_mem (hc.all x hx)
      constructor
      · intro h
        have := List.getElem_idxOf hi
        simp only [h, List.getElem_map] at this
        exact this.symm
      · intro h
        rw [h]
        have := hc.once.idxOf_getElem j (by simpa using h1)
        simpa using this
    rw [he, if_neg]
    exact List.ne_nil_of_mem (List.mem_filter.2 ⟨hcr, by simp⟩)

theorem apart_loop (hX : X.WF) (hd : 0 < X.cols) (hne : cs ≠ []) (h : Grouped X.rows grp D S) (hDS : 4 * D < S) (hc : OneOfEach X.rows grp cs) :
    ∀ (n : ℕ) (cost : XR) (C : List (List ℝ)), Fits X.rows grp D (cs.map grp) C → 
    kmLoop cs.length (finMat X) (n + 1) cost (stored X.cols (C.map some)) =
      ok (stored X.cols ((cs.map fun c => centroidOf X.cols (groupOf X.rows grp c)).map some)) := by
  have hr : X.rows ≠ [] := by
    obtain ⟨c, hcm⟩ := List.exists_mem_of_ne_nil cs hne
    exact List.ne_nil_of_mem (hc.mem c hcm)
  have hm := fits_means (Z := X.rows) hX hX h.near h.far h hDS hc
  intro n
  induction n with
  | zero =>
    intro cost C hf
    have hCne : C.map some ≠ [] := by
      intro he
      have := hf.1
      simp at he
      rw [he] at this
      simp at this
      exact hne (by simpa using this.symm)
    rw [kmLoop_succ hX hd _ hCne, fits_step hX hd hne hc hf]
    split <;> rfl
  | succ n ih =>
    intro cost C hf
    have hCne : C.map some ≠ [] := by
      intro he
      have := hf.1
      simp at he
      rw [he] at this
      simp at this
      exact hne (by simpa using this.symm)
    rw [kmLoop_succ hX hd _ hCne, fits_step hX hd hne hc hf]
    split
    · rfl
    · exact ih _ _ hm

theorem length_le_of_oneOfEach (hc : OneOfEach X.rows grp cs) : cs.length ≤ X.rows.length := by
  have h : cs.map grp ⊆ X.rows.map grp := by
    intro g hg
    obtain ⟨c, hcm, rfl⟩ := List.mem_map.1 hg
    exact List.mem_map.2 ⟨c, hc.mem c hcm, rfl⟩
  simpa using (List.subperm_of_subset hc.once h).length_le

theorem saysGroups_idxOf {rows : List (List ℝ)} {gs : List ℕ} (hall : ∀ x ∈ rows, grp x ∈ gs) : SaysGroups rows grp (rows.map fun x => gs.idxOf (grp x)) := by
  refine ⟨by simp, ?_⟩
  intro i j x y a b hi hj ha hb
  rw [List.getElem?_map, hi] at ha
  rw [List.getElem?_map, hj] at hb
  cases ha
  cases hb
  constructor
  · intro h
    exact (List.idxOf_inj (hall x (List.mem_of_getElem? hi))).1 h
  · intro h
    simp only [h]

/-- **C134 (good start).** Rows of one group lie within distance `√D`, rows of different groups more than twice as far apart. If the training starts at one row of
every group then, with one iteration or more, the centroids are the means of the groups - in the order of the start - and predicting the training data says
exactly which rows are in one group. -/
theorem C134_good_start (init : ℕ → Mat XR → Outcome (Mat XR)) (m : KMeans XR) (hX : X.WF) (hd : 0 < X.cols) (hit : 0 < m.iters)
    (h : Grouped X.rows grp D S) (hDS : 4 * D < S) (hne : cs ≠ []) (hc : OneOfEach X.rows grp cs) (hk : m.k = cs.length)
    (hi : init m.k (finMat X) = ok (finMat ⟨X.cols, cs⟩)) :
    ∃ m' labels, kmTrain init m (finMat X) = (m', ok ()) ∧
      m'.centroids = some (finMat ⟨X.cols, cs.map fun c => centroidOf X.cols (groupOf X.rows grp c)⟩) ∧
      kmPredict m' (finMat X) = ok labels ∧ SaysGroups X.rows grp labels := by
  have hr : X.rows ≠ [] := by
    obtain ⟨c, hcm⟩ := List.exists_mem_of_ne_nil cs hne
    exact List.ne_nil_of_mem (hc.mem c hcm)
  obtain ⟨n, hn⟩ : ∃ n, m.iters = n + 1 := ⟨m.iters - 1, by omega⟩
  have hloop := apart_loop hX hd hne h hDS hc n Scalar.zero cs (fits_start h hDS hc)
  have hst : ∀ C : List (List ℝ), stored X.cols (C.map some) = finMat ⟨X.cols, C⟩ := fun C => stored_some ⟨X.cols, C⟩
  rw [hst, hst] at hloop
  have htr := kmTrain_of_loop init m X ⟨X.cols, cs⟩ (by rw [hk]; exact length_le_of_oneOfEach hc) hi hk.symm rfl _ (by rw [hk, hn]; exact hloop)
  obtain ⟨labels, hp, hl⟩ := C30_predict_nearest { m with centroids := some (finMat ⟨X.cols, cs.map fun c => centroidOf X.cols (groupOf X.rows grp c)⟩) }
    ⟨X.cols, cs.map fun c => centroidOf X.cols (groupOf X.rows grp c)⟩ X rfl (by simpa using hne) hX rfl
  refine ⟨_, labels, htr, rfl, hp, ?_⟩
  have := labels_of_fits hc.once hc.all (fits_means (Z := X.rows) hX hX h.near h.far h hDS hc) (fun z j hz => ?_) hl
  · rw [this]
    exact saysGroups_idxOf hc.all
  · obtain ⟨c, h1, h2, -⟩ := hz
    exact ⟨c, h1, h2⟩

/-- **C134 (new rows).** New rows that lie with one of the groups get the number of that group: the number the trained model gives to the rows of the
group. -/
theorem C134_new_rows (m : KMeans XR) (Z : Mat ℝ) (hX : X.WF) (hZ : Z.WF) (hcols : Z.cols = X.cols)
    (h : Grouped X.rows grp D S) (hDS : 4 * D < S) (hne : cs ≠ []) (hc : OneOfEach X.rows grp cs)
    (hm : m.centroids = some (finMat ⟨X.cols, cs.map fun c => centroidOf X.cols (groupOf X.rows grp c)⟩))
    (hall : ∀ z ∈ Z.rows, ∃ x ∈ X.rows, grp z = grp x)
    (hnear : ∀ z ∈ Z.rows, ∀ y ∈ X.rows, grp z = grp y → sqDist z y ≤ D) (hfar : ∀ z ∈ Z.rows, ∀ y ∈ X.rows, grp z ≠ grp y → S ≤ sqDist z y) :
    ∃ labels new, kmPredict m (finMat X) = ok labels ∧ kmPredict m (finMat Z) = ok new ∧ SaysGroups (X.rows ++ Z.rows) grp (labels ++ new) := by
  have hr : X.rows ≠ [] := by
    obtain ⟨c, hcm⟩ := List.exists_mem_of_ne_nil cs hne
    exact List.ne_nil_of_mem (hc.mem c hcm)
  have hall' : ∀ z ∈ Z.rows, grp z ∈ cs.map grp := by
    intro z hz
    obtain ⟨x, hx, he⟩ := hall z hz
    rw [he]
    exact hc.all x hx
  have hw : ∀ z j, IsNearestIndex (cs.map fun c => centroidOf X.cols (groupOf X.rows grp c)) z j →
      ∃ c, (cs.map fun c => centroidOf X.cols (groupOf X.rows grp c))[j]? = some c ∧
        ∀ c' ∈ cs.map fun c => centroidOf X.cols (groupOf X.rows grp c), sqDist z c ≤ sqDist z c' := by
    rintro z j ⟨c, h1, h2, -⟩
    exact ⟨c, h1, h2⟩
  obtain ⟨labels, hp, hl⟩ := C30_predict_nearest m ⟨X.cols, cs.map fun c => centroidOf X.cols (groupOf X.rows grp c)⟩ X hm (by simpa using hne) hX rfl
  obtain ⟨new, hp', hl'⟩ := C30_predict_nearest m ⟨X.cols, cs.map fun c => centroidOf X.cols (groupOf X.rows grp c)⟩ Z hm (by simpa using hne) hZ hcols.symm
  refine ⟨labels, new, hp, hp', ?_⟩
  rw [labels_of_fits hc.once hc.all (fits_means (Z := X.rows) hX hX h.near h.far h hDS hc) hw hl,
    labels_of_fits hc.once hall' (fits_means (Z := Z.rows) hX (fun z hz => (hZ z hz).trans hcols) hnear hfar h hDS hc) hw hl', ← List.map_append]
  refine saysGroups_idxOf ?_
  intro x hx
  rcases List.mem_append.1 hx with hx | hx
  · exact hc.all x hx
  · exact hall' x hx

/-! ### How likely k-means++ starts well -/

/-- One more draw: the average over the draws is the average over the next row, weighted by its squared distance. -/
theorem loop_expect (hX : X.WF) (F : Outcome (List (List XR)) → ℝ) (m : ℕ) (cs : List (List ℝ)) (hne : cs ≠ []) (hs : 0 < inertia X.rows cs)
    (hg : ∀ i : Fin X.rows.length, 
      Integrable (fun us : Fin m → ℝ => F (kppLoop (finMat X) ((List.ofFn us).map XR.fin) ((cs ++ [X.rows[i]]).map (List.map XR.fin)))) (drawsLaw m)) :
    Integrable (fun us : Fin (m + 1) → ℝ => F (kppLoop (finMat X) ((List.ofFn us).map XR.fin) (cs.map (List.map XR.fin)))) (drawsLaw (m + 1)) ∧
    ∫ us, F (kppLoop (finMat X) ((List.ofFn us).map XR.fin) (cs.map (List.map XR.fin))) ∂(drawsLaw (m + 1)) =
      ∑ i : Fin X.rows.length, nearestSq X.rows[i] cs / inertia X.rows cs *
        ∫ us, F (kppLoop (finMat X) ((List.ofFn us).map XR.fin) ((cs ++ [X.rows[i]]).map (List.map XR.fin))) ∂(drawsLaw m) := by
  set ws := X.rows.map fun x => nearestSq x cs with hws
  have hwl : ws.length = X.rows.length := by simp [hws]
  have hw0 : ∀ w ∈ ws, 0 ≤ w := by
    intro p hp
    obtain ⟨y, _, rfl⟩ := List.mem_map.1 hp
    exact nearestSq_nonneg _ _
  have hsum : ws.sum = inertia X.rows cs := rfl
  rw [← hsum] at hs
  let g : Fin X.rows.length → (Fin m → ℝ) → ℝ := fun i us =>
    F (kppLoop (finMat X) ((List.ofFn us).map XR.fin) ((cs ++ [X.rows[i]]).map (List.map XR.fin)))
  have hg : ∀ i, Integrable (g i) (drawsLaw m) := hg
  let G : ℝ × (Fin m → ℝ) → ℝ := fun z => ∑ i : Fin X.rows.length, (pickSet ws i).indicator (fun _ => (1 : ℝ)) z.1 * g i z.2
  have hind : ∀ i : Fin X.rows.length, Integrable ((pickSet ws i).indicator fun _ => (1 : ℝ)) unitLaw :=
    fun i => (integrable_const _).indicator (pickSet_measurable ws i)
  have hGi : Integrable G (unitLaw.prod (drawsLaw m)) := integrable_finsetSum _ fun i _ => (hind i).mul_prod (hg i)
  have hGv : ∫ z, G z ∂(unitLaw.prod (drawsLaw m)) = ∑ i : Fin X.rows.length, nearestSq X.rows[i] cs / inertia X.rows cs * ∫ us, g i us ∂(drawsLaw m) := by
    rw [integral_finsetSum _ fun i _ => (hind i).mul_prod (hg i)]
    refine Finset.sum_congr rfl fun i _ => ?_
    rw [integral_prod_mul, integral_indicator_const _ (pickSet_measurable ws i), smul_eq_mul, mul_one,
      pickSet_measure hw0 hs (w := nearestSq X.rows[i] cs) (by simp [hws]), hsum]
  have hmp := measurePreserving_piFinSuccAbove (fun _ : Fin (m + 1) => unitLaw) 0
  let e := MeasurableEquiv.piFinSuccAbove (fun _ : Fin (m + 1) => ℝ) 0
  have hae : (fun us : Fin (m + 1) → ℝ => F (kppLoop (finMat X) ((List.ofFn us).map XR.fin) (cs.map (List.map XR.fin)))) =ᵐ[drawsLaw (m + 1)]
      fun us => G (e us) := by
    have h1 : ∀ᵐ z ∂(unitLaw.prod (drawsLaw m)), z.1 ∈ Set.Ico (0 : ℝ) 1 := by
      have : ∀ᵐ u ∂unitLaw, u ∈ Set.Ico (0 : ℝ) 1 := ae_restrict_mem measurableSet_Ico
      exact Measure.quasiMeasurePreserving_fst.ae this
    have h2 : ∀ᵐ us ∂(drawsLaw (m + 1)), (e us).1 ∈ Set.Ico (0 : ℝ) 1 := hmp.quasiMeasurePreserving.ae h1
    filter_upwards [h2] with us hus
    have hu : us 0 ∈ Set.Ico (0 : ℝ) 1 := hus
    have he2 : (e us).2 = fun i => us i.succ := by
      funext i
      show us (Fin.succAbove 0 i) = _
      rw [Fin.zero_succAbove]
    obtain ⟨j, v, ej, hj, -, -⟩ := sampleDiscretely_spec ws (us 0) hw0 hs hu.1 hu.2
    have hjl : j < X.rows.length := hwl ▸ (List.getElem?_eq_some_iff.1 hj).1
    have hrow : rowUnchecked (finMat X) j = ok ((X.rows[j]).map XR.fin) := rowUnchecked_ok _ _ _ (by simp [finMat, hjl])
    have hlhs : kppLoop (finMat X) ((List.ofFn us).map XR.fin) (cs.map (List.map XR.fin)) =
        kppLoop (finMat X) ((List.ofFn (e us).2).map XR.fin) ((cs ++ [X.rows[j]]).map (List.map XR.fin)) := by
      rw [List.ofFn_succ, kppLoop_step hX _ _ hne, ← hws, ej, ok_bind, hrow, ok_bind, he2]
      simp
    rw [hlhs]
    show _ = ∑ i : Fin X.rows.length, (pickSet ws i).indicator (fun _ => (1 : ℝ)) (us 0) * g i (e us).2
    rw [Finset.sum_eq_single ⟨j, hjl⟩]
    · rw [Set.indicator_of_mem ((mem_pickSet hw0 hs hu (hwl ▸ hjl)).2 ej), one_mul]
      rfl
    · intro i _ hij
      rw [Set.indicator_of_notMem, zero_mul]
      intro hm
      have := (mem_pickSet hw0 hs hu (by rw [hwl]; exact i.2)).1 hm
      rw [ej] at this
      cases this
      exact hij rfl
    · simp
  refine ⟨?_, ?_⟩
  · rw [integrable_congr hae]
    exact (hmp.integrable_comp_emb e.measurableEmbedding).2 hGi
  · rw [integral_congr_ae hae, ← hGv]
    exact hmp.integral_comp' G

open Classical in
/-- 1 if the initialiser's loop returned one row of every group. -/
noncomputable def goodStart (X : Mat ℝ) (grp : List ℝ → ℕ) (o : Outcome (List (List XR))) : ℝ :=
  if ∃ cs, o = ok (cs.map (List.map XR.fin)) ∧ OneOfEach X.rows grp cs then 1 else 0

/-- The probability that the next row is of a new group. -/
theorem new_group_le (h : Grouped X.rows grp D S) (hS : 0 < S) (hD : 0 ≤ D) {s : ℕ} (hs : 0 < s) (hsz : ∀ x ∈ X.rows, s ≤ (groupOf X.rows grp x).length)
    (hne : cs ≠ []) (hc : ∀ c ∈ cs, c ∈ X.rows) {x0 : List ℝ} (hx0 : x0 ∈ X.rows) (hnew : grp x0 ∉ cs.map grp) :
    0 < inertia X.rows cs ∧
    s * S / (s * S + X.rows.length * D) ≤
      ∑ i : Fin X.rows.length, if grp X.rows[i] ∈ cs.map grp then 0 else nearestSq X.rows[i] cs / inertia X.rows cs := by
  classical
  set A : ℝ := (X.rows.map fun x => if grp x ∈ cs.map grp then 0 else nearestSq x cs).sum with hA
  set B : ℝ := (X.rows.map fun x => if grp x ∈ cs.map grp then nearestSq x cs else 0).sum with hB
  have hAB : inertia X.rows cs = A + B := by
    unfold inertia
    rw [hA, hB, ← List.sum_map_add]
    congr 1
    apply List.map_congr_left
    intro x _
    split <;> simp
  have hB1 : B ≤ X.rows.length * D := by
    have : B ≤ (X.rows.map fun _ => D).sum := by
      apply List.sum_le_sum
      intro x hx
      split
      · rename_i hm
        obtain ⟨c, hcm, he⟩ := List.mem_map.1 hm
        exact (nearestSq_le hcm).trans (h.near x hx c (hc c hcm) he.symm)
      · exact hD
    simpa using this
  have hB0 : 0 ≤ B := by
    apply List.sum_nonneg
    intro v hv
    obtain ⟨x, _, rfl⟩ := List.mem_map.1 hv
    split
    · exact nearestSq_nonneg _ _
    · exact le_refl _
  have hA1 : s * S ≤ A := by
    have h1 : ((groupOf X.rows grp x0).length : ℝ) * S ≤ A := by
      have : (X.rows.map fun x => if grp x = grp x0 then S else 0).sum = (groupOf X.rows grp x0).length * S := by
        unfold groupOf
        clear * -
        induction X.rows with
        | nil => simp
        | cons x l ih =>
          rw [List.map_cons, List.sum_cons, ih, List.filter_cons]
          by_cases hx : grp x = grp x0
          · simp [hx]; ring
          · simp [hx]
      rw [← this]
      apply List.sum_le_sum
      intro x hx
      by_cases he : grp x = grp x0
      · rw [if_pos he, if_neg (by rw [he]; exact hnew)]
        obtain ⟨c, hcm, hcs⟩ := nearestSq_mem (x := x) hne
        rw [hcs]
        refine h.far x hx c (hc c hcm) fun hg => hnew ?_
        rw [← he, hg]
        exact List.mem_map.2 ⟨c, hcm, rfl⟩
      · rw [if_neg he]
        split
        · exact le_refl _
        · exact nearestSq_nonneg _ _
    have h2 : (s : ℝ) ≤ (groupOf X.rows grp x0).length := by exact_mod_cast hsz x0 hx0
    nlinarith
  have hsS : (0 : ℝ) < s * S := mul_pos (by exact_mod_cast hs) hS
  have hpos : 0 < inertia X.rows cs := by rw [hAB]; linarith
  refine ⟨hpos, ?_⟩
  have hsum : (∑ i : Fin X.rows.length, if grp X.rows[i] ∈ cs.map grp then 0 else nearestSq X.rows[i] cs / inertia X.rows cs) = A / (A + B) := by
    rw [← hAB, hA, sum_map_fin, Finset.sum_div]
    refine Finset.sum_congr rfl fun i _ => ?_
    split <;> simp
  rw [hsum, div_le_div_iff₀ (by positivity) (by linarith)]
  have hA0 : 0 ≤ A := by linarith
  nlinarith [mul_le_mul hA1 hB1 hB0 hA0, mul_nonneg hA0 (show (0:ℝ) ≤ X.rows.length * D by positivity)]

theorem loop_integrable (hX : X.WF) (F : Outcome (List (List XR)) → ℝ) : ∀ (m : ℕ) (cs : List (List ℝ)), cs ≠ [] →
    Integrable (fun us : Fin m → ℝ => F (kppLoop (finMat X) ((List.ofFn us).map XR.fin) (cs.map (List.map XR.fin)))) (drawsLaw m)
  | 0, cs, _ => by
    simp only [List.ofFn_zero]
    exact integrable_const _
  | m + 1, cs, hne => by
    set ws := X.rows.map fun x => nearestSq x cs with hws
    have hw0 : ∀ w ∈ ws, 0 ≤ w := by
      intro p hp
      obtain ⟨y, _, rfl⟩ := List.mem_map.1 hp
      exact nearestSq_nonneg _ _
    rcases (List.sum_nonneg hw0).eq_or_lt with h0 | hs
    · have h : ∀ us : Fin (m + 1) → ℝ, kppLoop (finMat X) ((List.ofFn us).map XR.fin) (cs.map (List.map XR.fin)) = panic := by
        intro us
        rw [List.ofFn_succ, kppLoop_step hX _ _ hne, ← hws, C33_zero_total ws _ h0.symm.le, panic_bind]
      simp only [h]
      exact integrable_const _
    · exact (loop_expect hX F m cs hne hs fun i => loop_integrable hX F m (cs ++ [X.rows[i]]) (by simp)).1

theorem goodStart_nonneg (o : Outcome (List (List XR))) : 0 ≤ goodStart X grp o := by
  unfold goodStart
  split <;> norm_num

theorem start_law (hX : X.WF) (h : Grouped X.rows grp D S) (hS : 0 < S) (hD : 0 ≤ D) {s : ℕ} (hs : 0 < s)
    (hsz : ∀ x ∈ X.rows, s ≤ (groupOf X.rows grp x).length) (k : ℕ) (hk : (X.rows.map grp).dedup.length = k) :
    ∀ (m : ℕ) (cs : List (List ℝ)), cs ≠ [] → (∀ c ∈ cs, c ∈ X.rows) → (cs.map grp).Nodup → cs.length + m = k →
    (s * S / (s * S + X.rows.length * D)) ^ m ≤
      ∫ us, goodStart X grp (kppLoop (finMat X) ((List.ofFn us).map XR.fin) (cs.map (List.map XR.fin))) ∂(drawsLaw m)
  | 0, cs, hne, hc, hnd, hl => by
    have hsub : cs.map grp ⊆ (X.rows.map grp).dedup := by
      intro g hg
      obtain ⟨c, hcm, rfl⟩ := List.mem_map.1 hg
      exact List.mem_dedup.2 (List.mem_map.2 ⟨c, hc c hcm, rfl⟩)
    have hperm : (cs.map grp).Perm (X.rows.map grp).dedup :=
      (List.subperm_of_subset hnd hsub).perm_of_length_le (by rw [hk, List.length_map]; omega)
    have hgood : OneOfEach X.rows grp cs := ⟨hc, hnd, fun x hx => hperm.mem_iff.2 (List.mem_dedup.2 (List.mem_map.2 ⟨x, hx, rfl⟩))⟩
    have : ∀ us : Fin 0 → ℝ, goodStart X grp (kppLoop (finMat X) ((List.ofFn us).map XR.fin) (cs.map (List.map XR.fin))) = 1 := by
      intro us
      unfold goodStart
      rw [if_pos ⟨cs, rfl, hgood⟩]
    simp only [this]
    rw [integral_const, probReal_univ, one_smul, pow_zero]
  | m + 1, cs, hne, hc, hnd, hl => by
    obtain ⟨x0, hx0, hnew⟩ : ∃ x0 ∈ X.rows, grp x0 ∉ cs.map grp := by
      by_contra hcon
      push Not at hcon
      have hsub : (X.rows.map grp).dedup ⊆ cs.map grp := by
        intro g hg
        obtain ⟨x, hx, rfl⟩ := List.mem_map.1 (List.mem_dedup.1 hg)
        exact hcon x hx
      have := (List.subperm_of_subset (List.nodup_dedup _) hsub).length_le
      rw [hk, List.length_map] at this
      omega
    obtain ⟨hpos, hq⟩ := new_group_le h hS hD hs hsz hne hc hx0 hnew
    rw [(loop_expect hX (goodStart X grp) m cs hne hpos fun i => loop_integrable hX _ m _ (by simp)).2]
    set q : ℝ := s * S / (s * S + X.rows.length * D) with hqdef
    have hq0 : 0 ≤ q := by positivity
    rw [pow_succ']
    refine (mul_le_mul_of_nonneg_right hq (pow_nonneg hq0 m)).trans ?_
    rw [Finset.sum_mul]
    refine Finset.sum_le_sum fun i _ => ?_
    have hw : 0 ≤ nearestSq X.rows[i] cs / inertia X.rows cs := div_nonneg (nearestSq_nonneg _ _) hpos.le
    split
    · rw [zero_mul]
      exact mul_nonneg hw (integral_nonneg fun us => goodStart_nonneg _)
    · rename_i hni
      refine mul_le_mul_of_nonneg_left ?_ hw
      refine start_law hX h hS hD hs hsz k hk m (cs ++ [X.rows[i]]) (by simp) ?_ ?_ ?_
      · intro c hcm
        rcases List.mem_append.1 hcm with hcm | hcm
        · exact hc c hcm
        · rw [List.mem_singleton.1 hcm]
          exact List.getElem_mem _
      · rw [List.map_append, List.map_singleton]
        refine List.Nodup.append hnd (by simp) ?_
        rw [List.disjoint_singleton]
        exact hni
      · rw [List.length_append, List.length_singleton]
        omega

/-- The initialiser is its loop started at the first row. -/
theorem kppInit_of_loop (hX : X.WF) (first : Fin X.rows.length) (us : Fin (k - 1) → ℝ) (hk : cs.length = k) (hc : ∀ c ∈ cs, c ∈ X.rows)
    (h : kppLoop (finMat X) ((List.ofFn us).map XR.fin) ([X.rows[first]].map (List.map XR.fin)) = ok (cs.map (List.map XR.fin))) :
    kppInit first ((List.ofFn us).map XR.fin) k (finMat X) = ok (finMat ⟨X.cols, cs⟩) := by
  have hpos : 0 < X.rows.length := first.pos
  unfold kppInit
  have hg : genRange first 0 (finMat X).rows.length = ok first.1 := by
    simp only [genRange, finMat, List.length_map]
    rw [if_pos hpos, Nat.sub_zero, Nat.mod_eq_of_lt first.2, Nat.zero_add]
  rw [hg, ok_bind, rowUnchecked_ok (finMat X) _ ((X.rows[first]).map XR.fin) (by simp [finMat]), ok_bind,
    List.take_of_length_le (by simp)]
  rw [List.map_singleton] at h
  rw [h, ok_bind, show (finMat X).cols = X.cols from rfl, Mat.new_flatten (by simpa using hk)]
  · rfl
  · intro r hr
    obtain ⟨c, hcm, rfl⟩ := List.mem_map.1 hr
    rw [List.length_map, hX c (hc c hcm)]

/-- **C134 (k-means++).** Let the data fall into `k` groups of `s` rows or more. Whatever the first row the default initialiser chooses, with independent uniform
draws the probability that training finds the groups is at least `(s S / (s S + n D)) ^ (k - 1)`. -/
theorem C134_kplusplus (m : KMeans XR) (hX : X.WF) (hd : 0 < X.cols) (hit : 0 < m.iters) (h : Grouped X.rows grp D S) (hDS : 4 * D < S) {s : ℕ} (hs : 0 < s)
    (hsz : ∀ x ∈ X.rows, s ≤ (groupOf X.rows grp x).length) (hk : (X.rows.map grp).dedup.length = m.k) (first : Fin X.rows.length) :
    (s * S / (s * S + X.rows.length * D)) ^ (m.k - 1) ≤
      (drawsLaw (m.k - 1)).real {us | ∃ m' labels, kmTrain (kppInit first ((List.ofFn us).map XR.fin)) m (finMat X) = (m', ok ()) ∧
        kmPredict m' (finMat X) = ok labels ∧ SaysGroups X.rows grp labels} := by
  have hx : X.rows[first] ∈ X.rows := List.getElem_mem _
  have hD : 0 ≤ D := (sqDist_nonneg _ _).trans (h.near _ hx _ hx rfl)
  have hS : 0 < S := by linarith
  have hk0 : 0 < m.k := by
    rw [← hk]
    exact List.length_pos_of_mem (List.mem_dedup.2 (List.mem_map.2 ⟨_, hx, rfl⟩))
  refine (start_law hX h hS hD hs hsz m.k hk (m.k - 1) [X.rows[first]] (by simp) (by simp) (by simp) ?_).trans ?_
  · rw [List.length_singleton]
    omega
  · set good : Set (Fin (m.k - 1) → ℝ) := {us | ∃ cs, kppLoop (finMat X) ((List.ofFn us).map XR.fin) ([X.rows[first]].map (List.map XR.fin)) =
      ok (cs.map (List.map XR.fin)) ∧ OneOfEach X.rows grp cs} with hgood
    have hfun : (fun us : Fin (m.k - 1) → ℝ => goodStart X grp (kppLoop (finMat X) ((List.ofFn us).map XR.fin) ([X.rows[first]].map (List.map XR.fin)))) =
        good.indicator fun _ => (1 : ℝ) := by
      funext us
      unfold goodStart
      by_cases hu : us ∈ good
      · rw [Set.indicator_of_mem hu]
        exact if_pos hu
      · rw [Set.indicator_of_notMem hu]
        exact if_neg hu
    have hint := loop_integrable hX (goodStart X grp) (m.k - 1) [X.rows[first]] (by simp)
    rw [hfun] at hint ⊢
    have hmeas : NullMeasurableSet good (drawsLaw (m.k - 1)) := (aemeasurable_indicator_const_iff (1 : ℝ)).1 hint.aemeasurable
    rw [integral_indicator₀ hmeas, setIntegral_const, smul_eq_mul, mul_one]
    refine measureReal_mono ?_
    rintro us ⟨cs, h1, h2⟩
    have hlen : cs.length = m.k := by
      have hsub : (X.rows.map grp).dedup ⊆ cs.map grp := by
        intro g hg
        obtain ⟨x, hx, rfl⟩ := List.mem_map.1 (List.mem_dedup.1 hg)
        exact h2.all x hx
      have hsub' : cs.map grp ⊆ (X.rows.map grp).dedup := by
        intro g hg
        obtain ⟨c, hcm, rfl⟩ := List.mem_map.1 hg
        exact List.mem_dedup.2 (List.mem_map.2 ⟨c, h2.mem c hcm, rfl⟩)
      have a := (List.subperm_of_subset (List.nodup_dedup _) hsub).length_le
      have b := (List.subperm_of_subset h2.once hsub').length_le
      rw [hk, List.length_map] at *
      omega
    obtain ⟨m', labels, e1, -, e2, e3⟩ := C134_good_start _ m hX hd hit h hDS (by intro hn; rw [hn] at hlen; simp at hlen; omega) h2 hlen.symm
      (kppInit_of_loop hX first us hlen h2.mem h1)
    exact ⟨m', labels, e1, e2, e3⟩

/-- The mean of copies of a row is the row. -/
theorem centroidOf_copies (d : ℕ) (T : List (List ℝ)) (hne : T ≠ []) (c : List ℝ) (hc : c.length = d) (h : ∀ x ∈ T, x = c) : centroidOf d T = c := by
  have hn : (T.length : ℝ) ≠ 0 := by exact_mod_cast (List.length_pos_iff.2 hne).ne'
  have hT : T = List.replicate T.length c := List.eq_replicate_iff.2 ⟨rfl, h⟩
  apply List.ext_getElem
  · rw [centroidOf_length, hc]
  · intro j h1 h2
    simp only [centroidOf, List.getElem_map, List.getElem_range]
    rw [hT, List.map_replicate, Spec.mean, List.sum_replicate, List.length_replicate, nsmul_eq_mul, getD_lt 0 h2]
    field_simp

/-- **C134 (as many clusters as different rows).** If the data have exactly `k` different rows then, with the default initialiser, whatever the draws, the
centroids are these rows and two rows get the same number exactly if they are equal. -/
theorem C134_different_rows (m : KMeans XR) (hX : X.WF) (hd : 0 < X.cols) (hit : 0 < m.iters) (hk0 : 0 < m.k) (hk : X.rows.dedup.length = m.k) (raw : ℕ)
    (us : List ℝ) (hu : ∀ u ∈ us, 0 ≤ u ∧ u < 1) (hl : m.k - 1 ≤ us.length) :
    ∃ cs m' labels, cs.Perm X.rows.dedup ∧ kmTrain (kppInit raw (us.map XR.fin)) m (finMat X) = (m', ok ()) ∧
      m'.centroids = some (finMat ⟨X.cols, cs⟩) ∧ kmPredict m' (finMat X) = ok labels ∧ labels.length = X.rows.length ∧
      ∀ (i j : ℕ) x y a b, X.rows[i]? = some x → X.rows[j]? = some y → labels[i]? = some a → labels[j]? = some b → (a = b ↔ x = y) := by
  obtain ⟨cs, hi, hcl, hnd, hmem⟩ := C32_C33_kplusplus raw us m.k X hX hk0 hk.ge hu hl
  have hsub : cs ⊆ X.rows.dedup := fun c hc => List.mem_dedup.2 (hmem c hc)
  have hperm : cs.Perm X.rows.dedup := (List.subperm_of_subset hnd hsub).perm_of_length_le (by omega)
  let grp : List ℝ → ℕ := fun x => cs.idxOf x
  have hcs : ∀ x ∈ X.rows, x ∈ cs := fun x hx => hperm.mem_iff.2 (List.mem_dedup.2 hx)
  have hgrp : ∀ x ∈ X.rows, ∀ y, grp x = grp y ↔ x = y := fun x hx y => List.idxOf_inj (hcs x hx)
  have hS : ∃ S : ℝ, 0 < S ∧ ∀ x ∈ X.rows, ∀ y ∈ X.rows, x ≠ y → S ≤ sqDist x y := by
    have key : ∀ l : List (List ℝ × List ℝ), (∀ p ∈ l, p.1 ∈ X.rows ∧ p.2 ∈ X.rows) → ∃ S : ℝ, 0 < S ∧ ∀ p ∈ l, p.1 ≠ p.2 → S ≤ sqDist p.1 p.2 := by
      intro l
      induction l with
      | nil => exact fun _ => ⟨1, by norm_num, by simp⟩
      | cons p l ih =>
        intro hp
        obtain ⟨S, h0, h1⟩ := ih fun q hq => hp q (List.mem_cons_of_mem _ hq)
        obtain ⟨ha, hb⟩ := hp p List.mem_cons_self
        by_cases he : p.1 = p.2
        · refine ⟨S, h0, ?_⟩
          intro q hq hne
          rcases List.mem_cons.1 hq with rfl | hq
          · exact absurd he hne
          · exact h1 q hq hne
        · have hpos := sqDist_pos (by rw [hX _ ha, hX _ hb]) he
          refine ⟨min S (sqDist p.1 p.2), lt_min h0 hpos, ?_⟩
          intro q hq hne
          rcases List.mem_cons.1 hq with rfl | hq
          · exact min_le_right _ _
          · exact (min_le_left _ _).trans (h1 q hq hne)
    obtain ⟨S, h0, h1⟩ := key (X.rows.product X.rows) fun p hp => by
      have := List.mem_product.1 hp
      exact this
    exact ⟨S, h0, fun x hx y hy hne => h1 (x, y) (List.mem_product.2 ⟨hx, hy⟩) hne⟩
  obtain ⟨S, hS0, hS⟩ := hS
  have hg : Grouped X.rows grp 0 S := by
    refine ⟨?_, ?_⟩
    · intro x hx y hy he
      rw [(hgrp x hx y).1 he, sqDist_self]
    · intro x hx y hy hne
      exact hS x hx y hy fun he => hne (by rw [he])
  have hone : OneOfEach X.rows grp cs := by
    refine ⟨hmem, ?_, fun x hx => List.mem_map.2 ⟨x, hcs x hx, rfl⟩⟩
    refine List.Nodup.map_on ?_ hnd
    intro x hx y hy he
    exact (hgrp x (hmem x hx) y).1 he
  have hne : cs ≠ [] := by
    intro h
    rw [h] at hcl
    simp at hcl
    omega
  obtain ⟨m', labels, e1, e2, e3, e4⟩ := C134_good_start _ m hX hd hit hg (by linarith) hne hone hcl.symm hi
  have hcen : (cs.map fun c => centroidOf X.cols (groupOf X.rows grp c)) = cs := by
    conv_rhs => rw [← List.map_id cs]
    refine List.map_congr_left fun c hc => ?_
    refine centroidOf_copies _ _ (List.ne_nil_of_mem (List.mem_filter.2 ⟨hmem c hc, by simp⟩)) c (hX c (hmem c hc)) ?_
    intro x hx
    obtain ⟨h1, h2⟩ := List.mem_filter.1 hx
    exact (hgrp x h1 c).1 (of_decide_eq_true h2)
  rw [hcen] at e2
  refine ⟨cs, m', labels, hperm, e1, e2, e3, e4.1, ?_⟩
  intro i j x y a b h1 h2 h3 h4
  rw [e4.2 i j x y a b h1 h2 h3 h4]
  exact hgrp x (List.mem_of_getElem? h1) y

/-! ### A bad start -/

/-- Two pairs of rows, one unit apart in each pair, with the distance `g` between the pairs. -/
noncomputable def twoPairs (g : ℝ) : Mat ℝ := ⟨2, [[0, 0], [0, 1], [g, 0], [g, 1]]⟩

/-- The pairs. -/
noncomputable def pairOf (r : List ℝ) : ℕ := if r.getD 0 0 = 0 then 0 else 1

theorem twoPairs_wf (g : ℝ) : (twoPairs g).WF := by
  intro r hr
  simp only [twoPairs, List.mem_cons, List.not_mem_nil, or_false] at hr
  rcases hr with rfl | rfl | rfl | rfl <;> rfl

theorem twoPairs_step (g t : ℝ) : kmNext 2 (twoPairs g) [some [t, 0], some [t, 1]] = [some [g / 2, 0], some [g / 2, 1]] := by
  obtain ⟨hl, -, -⟩ := km_some (twoPairs_wf g) (by simp [twoPairs]) [t, 0] [some [t, 1]]
  have hL : kmLabels (twoPairs g) [some [t, 0], some [t, 1]] = [0, 1, 0, 1] := by
    have hx : ∀ v j, NearestProper [some [t, 0], some [t, 1]] [v, 0] j → j = 0 := by
      intro v j h
      rcases nearest_two h with ⟨h, -⟩ | ⟨-, h⟩
      · exact h
      · simp [sqDist] at h
        norm_num at h
    have hy : ∀ v j, NearestProper [some [t, 0], some [t, 1]] [v, 1] j → j = 1 := by
      intro v j h
      rcases nearest_two h with ⟨-, h⟩ | ⟨h, -⟩
      · simp [sqDist] at h
        norm_num at h
      · exact h
    revert hl
    generalize kmLabels (twoPairs g) [some [t, 0], some [t, 1]] = L
    intro hl
    simp only [twoPairs] at hl
    rcases hl with _ | ⟨h1, hl⟩
    rcases hl with _ | ⟨h2, hl⟩
    rcases hl with _ | ⟨h3, hl⟩
    rcases hl with _ | ⟨h4, hl⟩
    cases hl
    rw [hx _ _ h1, hy _ _ h2, hx _ _ h3, hy _ _ h4]
  simp only [kmNext, newCentroids, hL]
  simp [twoPairs, labelled, List.range_succ, centroidOf, Spec.mean]

theorem twoPairs_loop (g : ℝ) : ∀ (n : ℕ) (cost : XR) (t : ℝ),
    kmLoop 2 (finMat (twoPairs g)) (n + 1) cost (stored 2 [some [t, 0], some [t, 1]]) = ok (stored 2 [some [g / 2, 0], some [g / 2, 1]]) := by
  intro n
  induction n with
  | zero =>
    intro cost t
    have := kmLoop_succ (k := 2) (twoPairs_wf g) (by simp [twoPairs]) [some [t, 0], some [t, 1]] (by simp) 0 cost
    rw [twoPairs_step] at this
    refine this.trans ?_
    split <;> rfl
  | succ n ih =>
    intro cost t
    have := kmLoop_succ (k := 2) (twoPairs_wf g) (by simp [twoPairs]) [some [t, 0], some [t, 1]] (by simp) (n + 1) cost
    rw [twoPairs_step] at this
    refine this.trans ?_
    split
    · rfl
    · exact ih _ _

/-- **C134 (bad start).** The start matters, however far apart the groups lie: if Forgy's initialiser draws the two rows of one pair, training on two pairs puts
one row of each pair into each cluster, whatever the iteration limit, and says so without an error. -/
theorem C134_bad_start (g : ℝ) (m : KMeans XR) (hk : m.k = 2) (hit : 0 < m.iters) (init : ℕ → Mat XR → Outcome (Mat XR))
    (hi : ∀ r, forgyInit [0, 1] 2 (finMat (twoPairs g)) = some r → init 2 (finMat (twoPairs g)) = r) :
    ∃ m', kmTrain init m (finMat (twoPairs g)) = (m', ok ()) ∧ m'.centroids = some (finMat ⟨2, [[g / 2, 0], [g / 2, 1]]⟩) ∧
      kmPredict m' (finMat (twoPairs g)) = ok [0, 1, 0, 1] := by
  have hst : ∀ C : List (List ℝ), stored 2 (C.map some) = finMat ⟨2, C⟩ := fun C => stored_some ⟨2, C⟩
  have hi' : init m.k (finMat (twoPairs g)) = ok (finMat ⟨2, [[0, 0], [0, 1]]⟩) := by
    rw [hk]
    exact hi _ rfl
  obtain ⟨n, hn⟩ : ∃ n, m.iters = n + 1 := ⟨m.iters - 1, by omega⟩
  have hloop := twoPairs_loop g n Scalar.zero 0
  have htr := kmTrain_of_loop init m (twoPairs g) ⟨2, [[0, 0], [0, 1]]⟩ (by simp [hk, twoPairs]) hi' (by simp [hk]) rfl (finMat ⟨2, [[g / 2, 0], [g / 2, 1]]⟩)
    (by rw [hk, hn]; exact (hst [[0, 0], [0, 1]]) ▸ (hst [[g / 2, 0], [g / 2, 1]]) ▸ hloop)
  refine ⟨_, htr, rfl, ?_⟩
  obtain ⟨labels, hp, hl⟩ := C30_predict_nearest { m with centroids := some (finMat ⟨2, [[g / 2, 0], [g / 2, 1]]⟩) } ⟨2, [[g / 2, 0], [g / 2, 1]]⟩ (twoPairs g)
    rfl (by simp) (twoPairs_wf g) rfl
  rw [hp]
  congr 1
  have two : ∀ x j, IsNearestIndex [[g / 2, 0], [g / 2, 1]] x j →
      (j = 0 ∧ sqDist x [g / 2, 0] ≤ sqDist x [g / 2, 1]) ∨ (j = 1 ∧ sqDist x [g / 2, 1] < sqDist x [g / 2, 0]) := by
    rintro x j ⟨c, h1, h2, h3⟩
    match j, h1 with
    | 0, h1 =>
      simp only [List.getElem?_cons_zero, Option.some.injEq] at h1
      subst h1
      exact .inl ⟨rfl, h2 _ (by simp)⟩
    | 1, h1 =>
      simp only [List.getElem?_cons_succ, List.getElem?_cons_zero, Option.some.injEq] at h1
      subst h1
      exact .inr ⟨rfl, h3 0 _ (by omega) (by simp)⟩
    | j + 2, h1 => simp at h1
  have hx : ∀ v j, IsNearestIndex [[g / 2, 0], [g / 2, 1]] [v, 0] j → j = 0 := by
    intro v j h
    rcases two _ _ h with ⟨h, -⟩ | ⟨-, h⟩
    · exact h
    · simp [sqDist] at h
      norm_num at h
  have hy : ∀ v j, IsNearestIndex [[g / 2, 0], [g / 2, 1]] [v, 1] j → j = 1 := by
    intro v j h
    rcases two _ _ h with ⟨-, h⟩ | ⟨h, -⟩
    · simp [sqDist] at h
      norm_num at h
    · exact h
  simp only [twoPairs] at hl
  rcases hl with _ | ⟨h1, hl⟩
  rcases hl with _ | ⟨h2, hl⟩
  rcases hl with _ | ⟨h3, hl⟩
  rcases hl with _ | ⟨h4, hl⟩
  cases hl
  rw [hx _ _ h1, hy _ _ h2, hx _ _ h3, hy _ _ h4]

/-- The pairs are groups in the sense of C134 if their distance is more than 2. -/
theorem twoPairs_grouped (g : ℝ) (hg : 2 < g) : Grouped (twoPairs g).rows pairOf 1 (g ^ 2) ∧ 4 * 1 < g ^ 2 := by
  have h0 : g ≠ 0 := by linarith
  refine ⟨⟨?_, ?_⟩, by nlinarith⟩
  · intro x hx y hy he
    simp only [twoPairs, List.mem_cons, List.not_mem_nil, or_false] at hx hy
    rcases hx with rfl | rfl | rfl | rfl <;> rcases hy with rfl | rfl | rfl | rfl <;> simp [pairOf, h0] at he <;> simp [sqDist]
  · intro x hx y hy he
    simp only [twoPairs, List.mem_cons, List.not_mem_nil, or_false] at hx hy
    rcases hx with rfl | rfl | rfl | rfl <;> rcases hy with rfl | rfl | rfl | rfl <;> simp [pairOf, h0] at he <;> simp [sqDist]

/-- From one row of each pair the training finds the pairs. -/
example (g : ℝ) (hg : 2 < g) : ∃ m' labels, kmTrain (fun _ _ => ok (finMat ⟨2, [[g, 1], [0, 0]]⟩)) (⟨100, 2, none⟩ : KMeans XR) (finMat (twoPairs g)) = (m', ok ()) ∧
    m'.centroids = some (finMat ⟨2, [[g, 1], [0, 0]].map fun c => centroidOf 2 (groupOf (twoPairs g).rows pairOf c)⟩) ∧
    kmPredict m' (finMat (twoPairs g)) = ok labels ∧ SaysGroups (twoPairs g).rows pairOf labels := by
  obtain ⟨h1, h2⟩ := twoPairs_grouped g hg
  have h0 : g ≠ 0 := by linarith
  refine C134_good_start _ _ (twoPairs_wf g) (by simp [twoPairs]) (by norm_num) h1 h2 (by simp) ?_ rfl rfl
  refine ⟨?_, ?_, ?_⟩
  · simp [twoPairs]
  · simp [pairOf, h0]
  · simp [pairOf, twoPairs, h0]

/-- With k-means++ two pairs at the distance `g > 2` are found with probability at least `2 g² / (2 g² + 4)`. -/
example (g : ℝ) (hg : 2 < g) (first : Fin (twoPairs g).rows.length) :
    ((2 : ℕ) * g ^ 2 / ((2 : ℕ) * g ^ 2 + (twoPairs g).rows.length * 1)) ^ (2 - 1) ≤
      (drawsLaw (2 - 1)).real {us | ∃ m' labels, kmTrain (kppInit first ((List.ofFn us).map XR.fin)) (⟨100, 2, none⟩ : KMeans XR) (finMat (twoPairs g)) = (m', ok ()) ∧
        kmPredict m' (finMat (twoPairs g)) = ok labels ∧ SaysGroups (twoPairs g).rows pairOf labels} := by
  obtain ⟨h1, h2⟩ := twoPairs_grouped g hg
  have h0 : g ≠ 0 := by linarith
  refine C134_kplusplus (⟨100, 2, none⟩ : KMeans XR) (twoPairs_wf g) (by simp [twoPairs]) (by norm_num) h1 h2 (by norm_num) ?_ ?_ first
  · intro x hx
    simp only [twoPairs, List.mem_cons, List.not_mem_nil, or_false] at hx
    rcases hx with rfl | rfl | rfl | rfl <;> simp [groupOf, twoPairs, pairOf, h0]
  · simp [twoPairs, pairOf, h0]

example := C134_different_rows (X := ⟨1, [[0], [5], [0], [7]]⟩) (⟨100, 3, none⟩ : KMeans XR)
  (by intro r hr; simp at hr; rcases hr with rfl | rfl | rfl | rfl <;> rfl) (by simp) (by norm_num) (by norm_num)
  (by norm_num [List.dedup_cons_of_mem, List.dedup_cons_of_notMem]) 6 [1 / 2, 1 / 3] (by norm_num) (by simp)

example (g : ℝ) := C134_bad_start g (⟨100, 2, none⟩ : KMeans XR) rfl (by norm_num) (fun _ _ => ok (finMat ⟨2, [[0, 0], [0, 1]]⟩)) (by
  intro r hr
  have : forgyInit [0, 1] 2 (finMat (twoPairs g)) = some (ok (finMat ⟨2, [[0, 0], [0, 1]]⟩)) := rfl
  rw [this] at hr
  cases hr
  rfl)

/-- A new row beside a pair. -/
example : ∃ labels new, kmPredict (⟨100, 2, some (finMat ⟨2, [[0, 0], [9, 1]].map fun c => centroidOf 2 (groupOf (twoPairs 9).rows pairOf c)⟩)⟩ : KMeans XR)
      (finMat (twoPairs 9)) = ok labels ∧
    kmPredict (⟨100, 2, some (finMat ⟨2, [[0, 0], [9, 1]].map fun c => centroidOf 2 (groupOf (twoPairs 9).rows pairOf c)⟩)⟩ : KMeans XR)
      (finMat ⟨2, [[9, 1 / 2]]⟩) = ok new ∧ SaysGroups ((twoPairs 9).rows ++ [[9, 1 / 2]]) pairOf (labels ++ new) := by
  refine C134_new_rows (X := twoPairs 9) (D := 1) (S := 81) _ ⟨2, [[9, 1 / 2]]⟩ (twoPairs_wf 9) (by intro r hr; simp at hr; rw [hr]; rfl) rfl ?_ (by norm_num)
    (cs := [[0, 0], [9, 1]]) (by simp) ?_ rfl ?_ ?_ ?_
  · have := (twoPairs_grouped 9 (by norm_num)).1
    norm_num at this
    exact this
  · refine ⟨?_, ?_, ?_⟩
    · simp [twoPairs]
    · simp [pairOf]
    · simp [pairOf, twoPairs]
  · simp [twoPairs, pairOf]
  · simp [twoPairs, pairOf, sqDist]
    norm_num
  · simp [twoPairs, pairOf, sqDist]
    norm_num

end RM
