import Mathlib.MeasureTheory.Integral.Prod
import Mathlib.MeasureTheory.Integral.Bochner.Set
import Verif.Proofs.KppExpect
import Verif.Proofs.KMeansInit
import Verif.Proofs.PSD
import Verif.Spec.Seeding

/-! The law of the k-means++ centroids. -/

namespace RM
open Outcome Scalar Spec MeasureTheory Finset

instance : IsProbabilityMeasure unitLaw := ⟨by
  rw [unitLaw, Measure.restrict_apply MeasurableSet.univ]
  simp⟩

instance (m : ℕ) : IsProbabilityMeasure (drawsLaw m) := by unfold drawsLaw; infer_instance

/-- The draws in `[0,1)` for which index `i` is chosen. -/
def pickSet (ws : List ℝ) (i : ℕ) : Set ℝ := Set.Ico ((ws.take i).sum / ws.sum) ((ws.take (i + 1)).sum / ws.sum)

theorem pickSet_subset {ws : List ℝ} (hw : ∀ w ∈ ws, 0 ≤ w) (hs : 0 < ws.sum) (i : ℕ) : pickSet ws i ⊆ Set.Ico 0 1 := by
  rintro u ⟨h0, h1⟩
  have a : 0 ≤ (ws.take i).sum := List.sum_nonneg fun x hx => hw x (List.mem_of_mem_take hx)
  have b : (ws.take (i + 1)).sum ≤ ws.sum := by
    have := take_sum_mono hw (show i + 1 ≤ max (i + 1) ws.length from le_max_left _ _)
    rwa [List.take_of_length_le (l := ws) (le_max_right _ _)] at this
  exact ⟨(div_nonneg a hs.le).trans h0, h1.trans_le ((div_le_one hs).2 b)⟩

theorem mem_pickSet {ws : List ℝ} (hw : ∀ w ∈ ws, 0 ≤ w) (hs : 0 < ws.sum) {u : ℝ} (hu : u ∈ Set.Ico (0 : ℝ) 1) {i : ℕ} (hi : i < ws.length) :
    u ∈ pickSet ws i ↔ sampleDiscretely u ws = ok i := by
  obtain ⟨j, v, e, hj, ha, hb⟩ := sampleDiscretely_spec ws u hw hs hu.1 hu.2
  unfold pickSet
  rw [Set.mem_Ico, div_le_iff₀ hs, lt_div_iff₀ hs, e]
  rw [← take_succ_sum hj] at hb
  constructor
  · rintro ⟨hc, hd⟩
    congr 1
    rcases lt_trichotomy i j with h | h | h
    · have := take_sum_mono hw (show i + 1 ≤ j by omega)
      linarith
    · exact h.symm
    · have := take_sum_mono hw (show j + 1 ≤ i by omega)
      linarith
  · intro h
    cases h
    exact ⟨ha, hb⟩

theorem pickSet_measurable (ws : List ℝ) (i : ℕ) : MeasurableSet (pickSet ws i) := measurableSet_Ico

theorem pickSet_measure {ws : List ℝ} (hw : ∀ w ∈ ws, 0 ≤ w) (hs : 0 < ws.sum) {i : ℕ} {w : ℝ} (hi : ws[i]? = some w) :
    unitLaw.real (pickSet ws i) = w / ws.sum := by
  rw [measureReal_def, unitLaw, Measure.restrict_apply (pickSet_measurable ws i), Set.inter_eq_left.2 (pickSet_subset hw hs i), pickSet, Real.volume_Ico,
    take_succ_sum hi, ← sub_div, add_sub_cancel_left, ENNReal.toReal_ofReal]
  exact div_nonneg (hw w (List.mem_of_getElem? hi)) hs.le

/-- The objective of a list of centroids as the loop returns it. -/
noncomputable def loopCost (X : Mat ℝ) : Outcome (List (List XR)) → ℝ
  | .ok l => inertia X.rows (l.map (List.map finVal))
  | _ => 0

theorem finVal_fin (cs : List (List ℝ)) : (cs.map (List.map XR.fin)).map (List.map finVal) = cs := by
  rw [List.map_map]
  conv_rhs => rw [← List.map_id cs]
  refine List.map_congr_left fun c _ => ?_
  simp only [Function.comp_apply, List.map_map, id]
  conv_rhs => rw [← List.map_id c]
  rfl

theorem nearestSq_append {x : List ℝ} {cs : List (List ℝ)} (hne : cs ≠ []) (c : List ℝ) :
    nearestSq x (cs ++ [c]) = min (nearestSq x cs) (sqDist x c) := by
  cases cs with
  | nil => exact absurd rfl hne
  | cons a cs => simp [nearestSq, List.foldl_append]

/-- One step of the loop. -/
theorem kppLoop_step {X : Mat ℝ} (hw : X.WF) (u : ℝ) (us : List ℝ) {cs : List (List ℝ)} (hne : cs ≠ []) :
    kppLoop (finMat X) ((u :: us).map XR.fin) (cs.map (List.map XR.fin)) =
      (sampleDiscretely u (X.rows.map fun x => nearestSq x cs) >>= fun next => rowUnchecked (finMat X) next >>= fun row =>
        kppLoop (finMat X) (us.map XR.fin) (cs.map (List.map XR.fin) ++ [row])) := by
  obtain ⟨labels, hf⟩ := findClosest_real hw cs hne
  have hfin : (((X.rows.map fun x => nearestSq x cs).map XR.fin).all Scalar.isFinite) = true := by
    rw [List.all_eq_true]
    intro v hv
    obtain ⟨y, _, rfl⟩ := List.mem_map.1 hv
    rfl
  rw [List.map_cons, kppLoop, show (finMat X).cols = X.cols from rfl, hf, ok_bind]
  simp only [hfin, if_true, sampleDiscretely_xr]

/-- The squared distances between the rows. -/
noncomputable def rowsD (X : Mat ℝ) (a b : Fin X.rows.length) : ℝ := sqDist X.rows[a] X.rows[b]

/-- The squared distances of the rows to the centroids. -/
noncomputable def rowsNear (X : Mat ℝ) (cs : List (List ℝ)) (a : Fin X.rows.length) : ℝ := nearestSq X.rows[a] cs

theorem rowsNear_append (X : Mat ℝ) {cs : List (List ℝ)} (hne : cs ≠ []) (i : Fin X.rows.length) :
    rowsNear X (cs ++ [X.rows[i]]) = Kpp.addCentre (rowsD X) (rowsNear X cs) i := by
  funext a
  exact nearestSq_append hne _

theorem sum_map_fin {α : Type} (l : List α) (f : α → ℝ) : (l.map f).sum = ∑ a : Fin l.length, f l[a] := by
  rw [← List.sum_ofFn]
  congr 1
  exact (List.ofFn_getElem_eq_map l f).symm

theorem inertia_eq_sum (X : Mat ℝ) (cs : List (List ℝ)) : inertia X.rows cs = ∑ a, rowsNear X cs a := sum_map_fin _ _

theorem loop_law {X : Mat ℝ} (hX : X.WF) : ∀ (m : ℕ) (cs : List (List ℝ)), cs ≠ [] →
    Integrable (fun us : Fin m → ℝ => loopCost X (kppLoop (finMat X) ((List.ofFn us).map XR.fin) (cs.map (List.map XR.fin)))) (drawsLaw m) ∧
    ∫ us, loopCost X (kppLoop (finMat X) ((List.ofFn us).map XR.fin) (cs.map (List.map XR.fin))) ∂(drawsLaw m) =
      Kpp.expCost (rowsD X) m (rowsNear X cs)
  | 0, cs, hne => by
    have h : ∀ us : Fin 0 → ℝ, loopCost X (kppLoop (finMat X) ((List.ofFn us).map XR.fin) (cs.map (List.map XR.fin))) = inertia X.rows cs := by
      intro us
      simp only [List.ofFn_zero, List.map_nil, kppLoop, loopCost, finVal_fin]
    simp only [h]
    refine ⟨integrable_const _, ?_⟩
    rw [integral_const, probReal_univ, one_smul, inertia_eq_sum, Kpp.expCost]
  | m + 1, cs, hne => by
    set ws := X.rows.map fun x => nearestSq x cs with hws
    have hwl : ws.length = X.rows.length := by simp [hws]
    have hw0 : ∀ w ∈ ws, 0 ≤ w := by
      intro p hp
      obtain ⟨y, _, rfl⟩ := List.mem_map.1 hp
      exact nearestSq_nonneg _ _
    have hsum : ws.sum = ∑ a, rowsNear X cs a := inertia_eq_sum X cs
    rcases (List.sum_nonneg hw0).eq_or_lt with h0 | hs
    · have h : ∀ us : Fin (m + 1) → ℝ, loopCost X (kppLoop (finMat X) ((List.ofFn us).map XR.fin) (cs.map (List.map XR.fin))) = 0 := by
        intro us
        rw [List.ofFn_succ, kppLoop_step hX _ _ hne]
        have hpanic : sampleDiscretely (us 0) ws = panic := by
          unfold sampleDiscretely
          have hs : ¬ 0 < ws.sum := by rw [← h0]; exact lt_irrefl _
          by_cases h : 0 < ws.length
          · simp only [h, decide_true, assert_true, ok_bind, fsum_real, real_zero, real_lt, hs, decide_false, assert_false, panic_bind]
          · simp only [h, decide_false, assert_false, panic_bind]
        rw [← hws, hpanic, panic_bind]
        rfl
      simp only [h]
      refine ⟨integrable_zero _ _ _, ?_⟩
      rw [integral_zero, Kpp.expCost, ← hsum, ← h0]
      simp
    · let g : Fin X.rows.length → (Fin m → ℝ) → ℝ := fun i us =>
        loopCost X (kppLoop (finMat X) ((List.ofFn us).map XR.fin) ((cs ++ [X.rows[i]]).map (List.map XR.fin)))
      have hg : ∀ i, Integrable (g i) (drawsLaw m) ∧ ∫ us, g i us ∂(drawsLaw m) = Kpp.expCost (rowsD X) m (rowsNear X (cs ++ [X.rows[i]])) :=
        fun i => loop_law hX m (cs ++ [X.rows[i]]) (by simp)
      let G : ℝ × (Fin m → ℝ) → ℝ := fun z => ∑ i : Fin X.rows.length, (pickSet ws i).indicator (fun _ => (1 : ℝ)) z.1 * g i z.2
      have hind : ∀ i : Fin X.rows.length, Integrable ((pickSet ws i).indicator fun _ => (1 : ℝ)) unitLaw :=
        fun i => (integrable_const _).indicator (pickSet_measurable ws i)
      have hGi : Integrable G (unitLaw.prod (drawsLaw m)) := integrable_finsetSum _ fun i _ => (hind i).mul_prod (hg i).1
      have hGv : ∫ z, G z ∂(unitLaw.prod (drawsLaw m)) = Kpp.expCost (rowsD X) (m + 1) (rowsNear X cs) := by
        rw [integral_finsetSum _ fun i _ => (hind i).mul_prod (hg i).1, Kpp.expCost]
        refine sum_congr rfl fun i _ => ?_
        rw [integral_prod_mul, (hg i).2, integral_indicator_const _ (pickSet_measurable ws i), smul_eq_mul, mul_one, rowsNear_append X hne,
          pickSet_measure hw0 hs (w := rowsNear X cs i) (by simp [hws, rowsNear]), hsum]
      have hmp := measurePreserving_piFinSuccAbove (fun _ : Fin (m + 1) => unitLaw) 0
      let e := MeasurableEquiv.piFinSuccAbove (fun _ : Fin (m + 1) => ℝ) 0
      have hae : (fun us : Fin (m + 1) → ℝ => loopCost X (kppLoop (finMat X) ((List.ofFn us).map XR.fin) (cs.map (List.map XR.fin)))) =ᵐ[drawsLaw (m + 1)]
          fun us => G (e us) := by
        have h1 : ∀ᵐ z ∂(unitLaw.prod (drawsLaw m)), z.1 ∈ Set.Ico (0 : ℝ) 1 := by
          have : ∀ᵐ u ∂unitLaw, u ∈ Set.Ico (0 : ℝ) 1 := ae_restrict_mem measurableSet_Ico
          exact Measure.quasiMeasurePreserving_fst.ae this
        have h2 : ∀ᵐ us ∂(drawsLaw (m + 1)), (e us).1 ∈ Set.Ico (0 : ℝ) 1 := hmp.quasiMeasurePreserving.ae h1
        filter_upwards [h2] with us hus
        have hu : us 0 ∈ Set.Ico (0 : ℝ) 1 := hus
        have he2 : (e us).2 = fun i => us i.succ := by
          funext i
          show us (Fin.succAbove 0 i) = _
          rw [Fin.zero_succAbove]
        obtain ⟨j, v, ej, hj, -, -⟩ := sampleDiscretely_spec ws (us 0) hw0 hs hu.1 hu.2
        have hjl : j < X.rows.length := hwl ▸ (List.getElem?_eq_some_iff.1 hj).1
        have hrow : rowUnchecked (finMat X) j = ok ((X.rows[j]).map XR.fin) := rowUnchecked_ok _ _ _ (by simp [finMat, hjl])
        have hlhs : kppLoop (finMat X) ((List.ofFn us).map XR.fin) (cs.map (List.map XR.fin)) =
            kppLoop (finMat X) ((List.ofFn (e us).2).map XR.fin) ((cs ++ [X.rows[j]]).map (List.map XR.fin)) := by
          rw [List.ofFn_succ, kppLoop_step hX _ _ hne, ← hws, ej, ok_bind, hrow, ok_bind, he2]
          simp
        rw [hlhs]
        show _ = ∑ i : Fin X.rows.length, (pickSet ws i).indicator (fun _ => (1 : ℝ)) (us 0) * g i (e us).2
        rw [Finset.sum_eq_single ⟨j, hjl⟩]
        · rw [Set.indicator_of_mem ((mem_pickSet hw0 hs hu (hwl ▸ hjl)).2 ej), one_mul]
          rfl
        · intro i _ hij
          rw [Set.indicator_of_notMem, zero_mul]
          intro hm
          have := (mem_pickSet hw0 hs hu (by rw [hwl]; exact i.2)).1 hm
          rw [ej] at this
          cases this
          exact hij rfl
        · simp
      refine ⟨?_, ?_⟩
      · rw [integrable_congr hae]
        exact (hmp.integrable_comp_emb e.measurableEmbedding).2 hGi
      · rw [integral_congr_ae hae, ← hGv]
        exact hmp.integral_comp' G

theorem sqDist_tri {d : ℕ} {x y z : List ℝ} (hx : x.length = d) (hy : y.length = d) (hz : z.length = d) :
    sqDist y z ≤ 2 * sqDist x z + 2 * sqDist x y := by
  rw [sqDist_eq_range hy hz, sqDist_eq_range hx hz, sqDist_eq_range hx hy, mul_sum, mul_sum, ← sum_add_distrib]
  refine sum_le_sum fun j _ => ?_
  nlinarith [sq_nonneg (2 * x.getD j 0 - y.getD j 0 - z.getD j 0)]

theorem rowsD_isSq {X : Mat ℝ} (hX : X.WF) : Kpp.IsSq (rowsD X) where
  nonneg a b := sqDist_nonneg _ _
  tri a b i := sqDist_tri (hX _ (List.getElem_mem _)) (hX _ (List.getElem_mem _)) (hX _ (List.getElem_mem _))

theorem rowsD_isNear {X : Mat ℝ} (hX : X.WF) (i : Fin X.rows.length) : Kpp.IsNear (rowsD X) (fun a => rowsD X a i) where
  nonneg a := sqDist_nonneg _ _
  tri a b := (rowsD_isSq hX).tri a b i

theorem spread_le {ι : Type} (A : Finset ι) (f : ι → ℝ) (z : ℝ) :
    ∑ b ∈ A, ∑ a ∈ A, (f a - f b) ^ 2 ≤ 2 * A.card * ∑ a ∈ A, (f a - z) ^ 2 := by
  have h : ∀ a b, (f a - f b) ^ 2 = (f a - z) ^ 2 + (f b - z) ^ 2 - 2 * ((f a - z) * (f b - z)) := fun a b => by ring
  have h1 : ∑ b ∈ A, ∑ a ∈ A, (f a - f b) ^ 2 = 2 * A.card * ∑ a ∈ A, (f a - z) ^ 2 - 2 * (∑ a ∈ A, (f a - z)) ^ 2 := by
    simp only [h, sum_sub_distrib, sum_add_distrib, ← mul_sum, ← sum_mul, sum_const, nsmul_eq_mul]
    ring
  rw [h1]
  have := sq_nonneg (∑ a ∈ A, (f a - z))
  linarith

theorem cluster_spread {X : Mat ℝ} (hX : X.WF) {z : List ℝ} (hz : z.length = X.cols) (A : Finset (Fin X.rows.length)) :
    ∑ b ∈ A, ∑ a ∈ A, rowsD X a b ≤ 2 * A.card * ∑ a ∈ A, sqDist X.rows[a] z := by
  have h : ∀ c : Fin X.rows.length, (X.rows[c]).length = X.cols := fun c => hX _ (List.getElem_mem _)
  have e1 : ∑ b ∈ A, ∑ a ∈ A, rowsD X a b = ∑ j ∈ range X.cols, ∑ b ∈ A, ∑ a ∈ A, ((X.rows[a]).getD j 0 - (X.rows[b]).getD j 0) ^ 2 := by
    unfold rowsD
    simp only [sqDist_eq_range (h _) (h _)]
    rw [sum_comm]
    simp only [sum_comm (s := A) (t := range X.cols)]
    refine sum_congr rfl fun j _ => sum_comm
  have e2 : ∑ a ∈ A, sqDist X.rows[a] z = ∑ j ∈ range X.cols, ∑ a ∈ A, ((X.rows[a]).getD j 0 - z.getD j 0) ^ 2 := by
    simp only [sqDist_eq_range (h _) hz]
    exact sum_comm
  rw [e1, e2, mul_sum]
  exact sum_le_sum fun j _ => spread_le A _ _

/-- The expected cost against `k` arbitrary centres. -/
theorem expected_le {X : Mat ℝ} (hX : X.WF) {cs : List (List ℝ)} (hne : cs ≠ []) (hc : ∀ c ∈ cs, c.length = X.cols) :
    ∑ i, Kpp.expCost (rowsD X) (cs.length - 1) (fun a => rowsD X a i) ≤ X.rows.length * (8 * (Real.log cs.length + 2) * inertia X.rows cs) := by
  have hlab : ∀ a : Fin X.rows.length, ∃ j : Fin cs.length, nearestSq X.rows[a] cs = sqDist X.rows[a] cs[j] := by
    intro a
    obtain ⟨c, hcm, he⟩ := nearestSq_mem (x := X.rows[a]) hne
    obtain ⟨j, hj, rfl⟩ := List.mem_iff_getElem.1 hcm
    exact ⟨⟨j, hj⟩, he⟩
  choose lab hlab using hlab
  let o : Fin cs.length → ℝ := fun j => ∑ a ∈ Kpp.cluster lab j, sqDist X.rows[a] cs[j]
  have ho0 : ∀ j, 0 ≤ o j := fun j => sum_nonneg fun a _ => sqDist_nonneg _ _
  have hO : ∑ j, o j = inertia X.rows cs := by
    rw [inertia_eq_sum, Kpp.sum_split lab univ]
    simp only [mem_univ, not_true_eq_false, filter_false, sum_empty, zero_add]
    refine sum_congr rfl fun j _ => sum_congr rfl fun a ha => ?_
    have : lab a = j := by simpa [Kpp.cluster] using ha
    rw [← this]
    exact (hlab a).symm
  have h := Kpp.seeding_le (rowsD_isSq hX) lab ho0 (fun j => cluster_spread hX (hc _ (List.getElem_mem _)) _) (rowsD_isNear hX)
  rw [Fintype.card_fin, Fintype.card_fin, hO] at h
  refine h.trans ?_
  have hI : 0 ≤ inertia X.rows cs := hO ▸ sum_nonneg fun j _ => ho0 j
  have hpos : 0 < cs.length := List.length_pos_of_ne_nil hne
  have hH : 1 + ((harmonic (cs.length - 1) : ℚ) : ℝ) ≤ Real.log cs.length + 2 := by
    have h1 := harmonic_le_one_add_log cs.length
    have h2 : harmonic (cs.length - 1) ≤ harmonic cs.length := by
      conv_rhs => rw [show cs.length = cs.length - 1 + 1 by omega, harmonic_succ]
      have : (0 : ℚ) ≤ (((cs.length - 1 + 1 : ℕ) : ℚ))⁻¹ := by positivity
      linarith
    have h3 : ((harmonic (cs.length - 1) : ℚ) : ℝ) ≤ ((harmonic cs.length : ℚ) : ℝ) := by exact_mod_cast h2
    linarith
  have := mul_le_mul_of_nonneg_right hH hI
  refine mul_le_mul_of_nonneg_left ?_ (Nat.cast_nonneg _)
  linarith

end RM
