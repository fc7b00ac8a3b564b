import Mathlib.Probability.UniformOn
import Mathlib.Probability.HasLaw
import Verif.Proofs.KppLaw
import Verif.Props.KMeansInit

/-! C79: the law of the k-means++ centroids and how good they are on average. -/

namespace RM
open Outcome Scalar Spec MeasureTheory ProbabilityTheory Finset

/-- **C79 (next centroid).** With the centroids `cs` already chosen, and at least one row that is none of them, the next centroid is a
row with value `x` with probability proportional to the number of such rows times the squared distance to the nearest of `cs`. -/
theorem C79_next (X : Mat ℝ) (hX : X.WF) (cs : List (List ℝ)) (hne : cs ≠ []) (hc : ∀ c ∈ cs, c.length = X.cols) (hex : ∃ x ∈ X.rows, x ∉ cs) (x : List ℝ) :
    unitLaw.real {u | kppLoop (finMat X) [XR.fin u] (finMat ⟨X.cols, cs⟩).rows = ok (finMat ⟨X.cols, cs ++ [x]⟩).rows} =
      X.rows.count x * nearestSq x cs / inertia X.rows cs := by
  set ws := X.rows.map fun x => nearestSq x cs with hws
  have hwl : ws.length = X.rows.length := by simp [hws]
  have hw0 : ∀ w ∈ ws, 0 ≤ w := by
    intro p hp
    obtain ⟨y, _, rfl⟩ := List.mem_map.1 hp
    exact nearestSq_nonneg _ _
  have hs : 0 < ws.sum := (inertia_pos_iff hX hc hne).2 hex
  have hfinj : Function.Injective (List.map XR.fin) := List.map_injective_iff.2 fun a b h => by injection h
  have hset : ∀ u ∈ Set.Ico (0 : ℝ) 1, kppLoop (finMat X) [XR.fin u] (finMat ⟨X.cols, cs⟩).rows = ok (finMat ⟨X.cols, cs ++ [x]⟩).rows ↔
      u ∈ ⋃ i ∈ (univ.filter fun i : Fin X.rows.length => X.rows[i] = x), pickSet ws i := by
    intro u hu
    obtain ⟨j, v, ej, hj, -, -⟩ := sampleDiscretely_spec ws u hw0 hs hu.1 hu.2
    have hjl : j < X.rows.length := hwl ▸ (List.getElem?_eq_some_iff.1 hj).1
    have hrow : rowUnchecked (finMat X) j = ok ((X.rows[j]).map XR.fin) := rowUnchecked_ok _ _ _ (by simp [finMat, hjl])
    have hl : kppLoop (finMat X) [XR.fin u] (finMat ⟨X.cols, cs⟩).rows = ok (cs.map (List.map XR.fin) ++ [(X.rows[j]).map XR.fin]) := by
      have := kppLoop_step hX u [] hne
      rw [← hws, ej, ok_bind, hrow, ok_bind] at this
      exact this
    rw [hl]
    simp only [finMat, List.map_append, List.map_cons, List.map_nil, Outcome.ok.injEq, List.append_cancel_left_eq, List.cons.injEq, and_true,
      hfinj.eq_iff, Set.mem_iUnion, mem_filter, mem_univ, true_and, exists_prop]
    constructor
    · intro h
      exact ⟨⟨j, hjl⟩, h, (mem_pickSet hw0 hs hu (by rw [hwl]; exact hjl)).2 ej⟩
    · rintro ⟨i, h1, h2⟩
      have := (mem_pickSet hw0 hs hu (by rw [hwl]; exact i.2)).1 h2
      rw [ej] at this
      cases this
      exact h1
  have hae : {u | kppLoop (finMat X) [XR.fin u] (finMat ⟨X.cols, cs⟩).rows = ok (finMat ⟨X.cols, cs ++ [x]⟩).rows} =ᵐ[unitLaw]
      ⋃ i ∈ (univ.filter fun i : Fin X.rows.length => X.rows[i] = x), pickSet ws i := by
    have : ∀ᵐ u ∂unitLaw, u ∈ Set.Ico (0 : ℝ) 1 := ae_restrict_mem measurableSet_Ico
    filter_upwards [this] with u hu
    exact propext (hset u hu)
  rw [measureReal_congr hae, measureReal_biUnion_finset]
  · have h1 : ∀ i ∈ univ.filter (fun i : Fin X.rows.length => X.rows[i] = x), unitLaw.real (pickSet ws i) = nearestSq x cs / inertia X.rows cs := by
      intro i hi
      have hi' : X.rows[i] = x := by simpa using hi
      refine pickSet_measure hw0 hs ?_
      simp only [hws, List.getElem?_map, ← hi']
      simp
    rw [sum_congr rfl h1, sum_const, nsmul_eq_mul]
    have h2 : (univ.filter fun i : Fin X.rows.length => X.rows[i] = x).card = X.rows.count x := by
      rw [card_filter]
      have := List.sum_ofFn (f := fun i : Fin X.rows.length => if X.rows[i] = x then (1 : ℕ) else 0)
      rw [← this, show (List.ofFn fun i : Fin X.rows.length => if X.rows[i] = x then (1 : ℕ) else 0) = X.rows.map (fun y => if y = x then 1 else 0) from
        List.ofFn_getElem_eq_map X.rows fun y => if y = x then 1 else 0]
      clear * -
      induction X.rows with
      | nil => rfl
      | cons y l ih =>
        rw [List.map_cons, List.sum_cons, ih, List.count_cons]
        by_cases h : y = x <;> simp [h, add_comm]
    rw [h2]
    ring
  · intro i hi j hj hij
    rw [Function.onFun, Set.disjoint_left]
    intro u hu1 hu2
    have hu := pickSet_subset hw0 hs _ hu1
    have a := (mem_pickSet hw0 hs hu (by rw [hwl]; exact i.2)).1 hu1
    have b := (mem_pickSet hw0 hs hu (by rw [hwl]; exact j.2)).1 hu2
    rw [a] at b
    cases hij (Fin.ext (by injection b))
  · intro i _
    exact pickSet_measurable _ _

/-- The cost of the start that the draws `us` lead to. -/
theorem start_eq_loop (X : Mat ℝ) (hX : X.WF) (k : ℕ) (hk0 : 0 < k) (first : Fin X.rows.length) (us : Fin (k - 1) → ℝ)
    (hu : ∀ i, us i ∈ Set.Ico (0 : ℝ) 1) :
    startCost X (kppInit first ((List.ofFn us).map XR.fin) k (finMat X)) =
      loopCost X (kppLoop (finMat X) ((List.ofFn us).map XR.fin) ([X.rows[first]].map (List.map XR.fin))) := by
  have hpos : 0 < X.rows.length := first.pos
  have hfl : (List.ofFn us).length = k - 1 := List.length_ofFn
  have hu' : ∀ u ∈ List.ofFn us, 0 ≤ u ∧ u < 1 := by
    intro u h
    obtain ⟨i, rfl⟩ := List.mem_ofFn.1 h
    exact hu i
  have hxm : X.rows[first] ∈ X.rows := List.getElem_mem _
  have hspec := kppLoop_spec hX (List.ofFn us) [X.rows[first]] hu' (by simp) (by simp)
    (by intro c hc; simp only [List.mem_singleton] at hc; rw [hc]; exact hxm)
  unfold kppInit
  have hg : genRange first 0 (finMat X).rows.length = ok first.1 := by
    simp only [genRange, finMat, List.length_map]
    rw [if_pos hpos, Nat.sub_zero, Nat.mod_eq_of_lt first.2, Nat.zero_add]
  rw [hg, ok_bind, rowUnchecked_ok (finMat X) _ ((X.rows[first]).map XR.fin) (by simp [finMat]), ok_bind,
    List.take_of_length_le (by simp)]
  rw [List.map_singleton] at hspec ⊢
  by_cases hk : 1 + (k - 1) ≤ X.rows.dedup.length
  · obtain ⟨cs, h1, h2, _, h4⟩ := hspec.1 (by rw [hfl]; simpa using hk)
    have h2' : cs.length = k := by
      rw [h2, List.length_singleton, hfl]
      clear * - hk0
      omega
    rw [h1, ok_bind, show (finMat X).cols = X.cols from rfl, Mat.new_flatten (by simpa using h2')]
    · rfl
    · intro r hr
      obtain ⟨c, hc, rfl⟩ := List.mem_map.1 hr
      rw [List.length_map, hX c (h4 c hc)]
  · have h1 : 0 < X.rows.dedup.length := by
      have : X.rows.dedup ≠ [] := fun h => by simp [List.dedup_eq_nil] at h; rw [h] at hpos; simp at hpos
      exact List.length_pos_of_ne_nil this
    rw [hspec.2 (by rw [hfl]; simp only [List.length_singleton]; omega) (by intro h; rw [h] at hfl; simp at hfl; omega), panic_bind]
    rfl

/-- **C79 (average quality).** Let the first row be chosen uniformly and the further draws be independent and uniform in `[0,1)`.
Then the expected objective of the centroids that k-means++ returns is at most `8 (ln k + 2)` times the objective of any `k` centres,
so of the best ones. (The initialiser does not fail if the data has `k` different rows, C32; otherwise failures count 0.) -/
theorem C79_expected_cost {Ω : Type} [MeasurableSpace Ω] {P : Measure Ω} (X : Mat ℝ) (hX : X.WF) (k : ℕ) (hk0 : 0 < k) (hr : X.rows ≠ [])
    {first : Ω → Fin X.rows.length} {us : Ω → Fin (k - 1) → ℝ}
    (hlaw : HasLaw (fun ω => (first ω, us ω)) ((uniformOn Set.univ).prod (drawsLaw (k - 1))) P)
    (cs : List (List ℝ)) (hk : cs.length = k) (hc : ∀ c ∈ cs, c.length = X.cols) :
    Integrable (fun ω => startCost X (kppInit (first ω) ((List.ofFn (us ω)).map XR.fin) k (finMat X))) P ∧
    ∫ ω, startCost X (kppInit (first ω) ((List.ofFn (us ω)).map XR.fin) k (finMat X)) ∂P ≤ 8 * (Real.log k + 2) * inertia X.rows cs := by
  have hne : cs ≠ [] := by rintro rfl; simp at hk; omega
  have hn : 0 < X.rows.length := List.length_pos_of_ne_nil hr
  have : Nonempty (Fin X.rows.length) := ⟨⟨0, hn⟩⟩
  have : IsProbabilityMeasure (uniformOn (Set.univ : Set (Fin X.rows.length))) := isProbabilityMeasure_uniformOn Set.finite_univ Set.univ_nonempty
  let g : Fin X.rows.length → (Fin (k - 1) → ℝ) → ℝ := fun i us =>
    loopCost X (kppLoop (finMat X) ((List.ofFn us).map XR.fin) ([X.rows[i]].map (List.map XR.fin)))
  have hg : ∀ i, Integrable (g i) (drawsLaw (k - 1)) ∧ ∫ us, g i us ∂(drawsLaw (k - 1)) = Kpp.expCost (rowsD X) (k - 1) (rowsNear X [X.rows[i]]) :=
    fun i => loop_law hX (k - 1) [X.rows[i]] (by simp)
  let f : Fin X.rows.length × (Fin (k - 1) → ℝ) → ℝ := fun z => startCost X (kppInit z.1 ((List.ofFn z.2).map XR.fin) k (finMat X))
  let G : Fin X.rows.length × (Fin (k - 1) → ℝ) → ℝ := fun z => ∑ i, ({i} : Set (Fin X.rows.length)).indicator (fun _ => (1 : ℝ)) z.1 * g i z.2
  have hind : ∀ i : Fin X.rows.length, Integrable (({i} : Set (Fin X.rows.length)).indicator fun _ => (1 : ℝ)) (uniformOn Set.univ) :=
    fun i => (integrable_const _).indicator (measurableSet_singleton i)
  have hGi : Integrable G ((uniformOn Set.univ).prod (drawsLaw (k - 1))) := integrable_finsetSum _ fun i _ => (hind i).mul_prod (hg i).1
  have hunif : ∀ i : Fin X.rows.length, (uniformOn (Set.univ : Set (Fin X.rows.length))).real {i} = 1 / X.rows.length := by
    intro i
    rw [measureReal_def, uniformOn_univ, Measure.count_singleton, ENNReal.toReal_div, Fintype.card_fin]
    simp
  have hGv : ∫ z, G z ∂((uniformOn Set.univ).prod (drawsLaw (k - 1))) = (∑ i, Kpp.expCost (rowsD X) (k - 1) (fun a => rowsD X a i)) / X.rows.length := by
    rw [integral_finsetSum _ fun i _ => (hind i).mul_prod (hg i).1, sum_div]
    refine sum_congr rfl fun i _ => ?_
    rw [integral_prod_mul, (hg i).2, integral_indicator_const _ (measurableSet_singleton i), smul_eq_mul, mul_one, hunif, one_div_mul_eq_div]
    rfl
  have hdraws : ∀ᵐ us ∂(drawsLaw (k - 1)), ∀ i, us i ∈ Set.Ico (0 : ℝ) 1 := by
    unfold drawsLaw
    rw [ae_all_iff]
    intro i
    have h0 : ∀ᵐ u ∂unitLaw, u ∈ Set.Ico (0 : ℝ) 1 := ae_restrict_mem measurableSet_Ico
    exact (Measure.quasiMeasurePreserving_eval (fun _ : Fin (k - 1) => unitLaw) i).ae h0
  have hae : f =ᵐ[(uniformOn Set.univ).prod (drawsLaw (k - 1))] G := by
    have h1 : ∀ᵐ z ∂((uniformOn (Set.univ : Set (Fin X.rows.length))).prod (drawsLaw (k - 1))), ∀ i, z.2 i ∈ Set.Ico (0 : ℝ) 1 :=
      Measure.quasiMeasurePreserving_snd.ae hdraws
    filter_upwards [h1] with z hz
    show startCost X (kppInit z.1 ((List.ofFn z.2).map XR.fin) k (finMat X)) = ∑ i, _
    rw [start_eq_loop X hX k hk0 z.1 z.2 hz, Finset.sum_eq_single z.1]
    · rw [Set.indicator_of_mem (Set.mem_singleton _), one_mul]
    · intro i _ hi
      rw [Set.indicator_of_notMem (by simpa using fun h => hi h.symm), zero_mul]
    · simp
  have hfi : Integrable f ((uniformOn Set.univ).prod (drawsLaw (k - 1))) := (integrable_congr hae).2 hGi
  have hfi' : Integrable f (P.map fun ω => (first ω, us ω)) := by rw [hlaw.map_eq]; exact hfi
  refine ⟨hfi'.comp_aemeasurable hlaw.aemeasurable, ?_⟩
  have h1 := hlaw.integral_comp hfi.aestronglyMeasurable
  have h2 : ∫ ω, startCost X (kppInit (first ω) ((List.ofFn (us ω)).map XR.fin) k (finMat X)) ∂P = ∫ z, f z ∂((uniformOn Set.univ).prod (drawsLaw (k - 1))) := h1
  rw [h2, integral_congr_ae hae, hGv, div_le_iff₀ (by exact_mod_cast hn)]
  have h3 := expected_le hX hne hc
  rw [hk] at h3
  linarith

/-- The random choices C79 speaks of exist. -/
example (X : Mat ℝ) (k : ℕ) (hr : X.rows ≠ []) : ∃ (Ω : Type) (_ : MeasurableSpace Ω) (P : Measure Ω) (first : Ω → Fin X.rows.length) (us : Ω → Fin (k - 1) → ℝ),
    IsProbabilityMeasure P ∧ HasLaw (fun ω => (first ω, us ω)) ((uniformOn Set.univ).prod (drawsLaw (k - 1))) P := by
  have : Nonempty (Fin X.rows.length) := ⟨⟨0, List.length_pos_of_ne_nil hr⟩⟩
  have : IsProbabilityMeasure (uniformOn (Set.univ : Set (Fin X.rows.length))) := isProbabilityMeasure_uniformOn Set.finite_univ Set.univ_nonempty
  exact ⟨_, inferInstance, (uniformOn Set.univ).prod (drawsLaw (k - 1)), Prod.fst, Prod.snd, inferInstance, ⟨aemeasurable_id, Measure.map_id⟩⟩

example : unitLaw.real {u | kppLoop (finMat ⟨1, [[0], [1], [3], [1]]⟩) [XR.fin u] (finMat ⟨1, [[0]]⟩).rows = ok (finMat ⟨1, [[0], [1]]⟩).rows} = 2 / 11 := by
  rw [show (finMat ⟨1, [[0], [1]]⟩).rows = (finMat ⟨1, [[(0 : ℝ)]] ++ [[1]]⟩).rows from rfl]
  refine (C79_next ⟨1, [[0], [1], [3], [1]]⟩ ?_ [[0]] ?_ ?_ ?_ [1]).trans ?_
  · intro r hr; simp at hr; rcases hr with rfl | rfl | rfl | rfl <;> rfl
  · simp
  · simp
  · exact ⟨[1], by simp, by simp⟩
  · simp [inertia, nearestSq, sqDist, List.count_cons]
    norm_num

end RM
