import Verif.Props.TestScores
import Verif.Model.Examples
import Verif.Props.KMeansTwo
import Mathlib.MeasureTheory.Measure.Prod
import Mathlib.Probability.Independence.Basic
import Mathlib.Probability.Distributions.Gaussian.Real

/-! C119: the example programs run to the end. This file: examples/k-means_generating_cluster.rs. -/

namespace RM
open Outcome Scalar Spec

/-- The points generated: `points` times one point around each centroid, every coordinate moved by `noise` times a draw of its own. -/
def Spec.cloudAround (z : ℕ → ℝ) (C : Mat ℝ) (points : ℕ) (noise : ℝ) : Mat ℝ :=
  ⟨C.cols, (List.range points).flatMap fun p => C.rows.zipIdx.map fun c => c.1.zipIdx.map fun x =>
    x.1 + noise * z ((p * C.rows.length + c.2) * C.cols + x.2)⟩

theorem cloudAround_wf {z : ℕ → ℝ} {C : Mat ℝ} (hC : C.WF) (points : ℕ) (noise : ℝ) : (cloudAround z C points noise).WF := by
  intro r hr
  simp only [cloudAround, List.mem_flatMap, List.mem_map] at hr
  obtain ⟨p, -, c, hc, rfl⟩ := hr
  have : c.1 ∈ C.rows := by
    obtain ⟨a, i⟩ := c
    have := List.mem_zipIdx hc
    rw [this.2.2]
    exact List.getElem_mem _
  simpa [cloudAround] using hC _ this

theorem cloudAround_length (z : ℕ → ℝ) (C : Mat ℝ) (points : ℕ) (noise : ℝ) :
    (cloudAround z C points noise).rows.length = C.rows.length * points := by
  simp [cloudAround, List.length_flatMap, Nat.mul_comm]

/-- **C119 (the data of the k-means example).** From centroids with at least one row and column, and a noise that is not negative, `generate_data`
makes the matrix of all points; otherwise it panics. -/
theorem C119_generate (z : ℕ → ℝ) (C : Mat ℝ) (hC : C.WF) (points : ℕ) (noise : ℝ) :
    generateData (fun i => XR.fin (z i)) (finMat C) points (XR.fin noise) =
      if C.cols ≠ 0 ∧ C.rows ≠ [] ∧ 0 ≤ noise then ok (finMat (cloudAround z C points noise)) else Outcome.panic := by
  unfold generateData
  have e1 : (finMat C).cols = C.cols := rfl
  have e2 : (finMat C).rows.length = C.rows.length := by simp [finMat]
  rw [e1, e2]
  by_cases h1 : C.cols = 0
  · rw [if_neg (by simp [h1]), h1]; rfl
  by_cases h2 : C.rows = []
  · rw [if_neg (by simp [h2]), h2, decide_eq_true (by omega), assert_true, ok_bind]; rfl
  have h2' := List.length_pos_iff.2 h2
  by_cases h3 : 0 ≤ noise
  · rw [if_pos ⟨h1, h2, h3⟩, decide_eq_true (by omega), decide_eq_true h2', assert_true, ok_bind, ok_bind,
      show (Scalar.zero <=. XR.fin noise) = true from by simpa using h3, assert_true, ok_bind]
    have hraw : (List.range points).flatMap (fun p => (finMat C).rows.zipIdx.flatMap fun c => c.1.zipIdx.map fun x =>
        x.1 +. normalSample Scalar.zero (XR.fin noise) (XR.fin (z ((p * C.rows.length + c.2) * C.cols + x.2)))) =
        ((cloudAround z C points noise).rows.map (List.map XR.fin)).flatten := by
      simp only [cloudAround, List.flatMap_def, List.map_map, finMat, List.zipIdx_map, List.map_flatten, List.flatten_flatten]
      congr 1
      apply List.map_congr_left
      intro p _
      simp [normalSample, Function.comp_def, List.zipIdx_map]
    simp only [hraw]
    have := Mat.new_flatten (k := C.rows.length * points) (c := C.cols) (rows := (cloudAround z C points noise).rows.map (List.map XR.fin))
      (by rw [List.length_map, cloudAround_length]) (by
        intro r hr
        obtain ⟨s, hs, rfl⟩ := List.mem_map.1 hr
        rw [List.length_map]; exact cloudAround_wf hC _ _ s hs)
    rw [this]
    rfl
  · rw [if_neg (by simp [h3]), decide_eq_true (by omega), decide_eq_true h2', assert_true, ok_bind, ok_bind,
      show (Scalar.zero <=. XR.fin noise) = false from by simpa using h3]
    rfl

/-- The two centres of the example. -/
noncomputable def Spec.centres : Mat ℝ := ⟨2, [[-1 / 2, -1 / 2], [0, 1 / 2]]⟩

/-- **C119 (the k-means example).** Whatever the draws, with at least one sample around each centre: if two samples differ the program ends, it
prints two positive numbers and they add up to the number of samples; if all samples are equal it panics. -/
theorem C119_kmeans (z : ℕ → ℝ) (raw points : ℕ) (u : ℝ) (h0 : 0 ≤ u) (h1 : u < 1) (hp : 0 < points) :
    ((∃ x ∈ (cloudAround z centres points (2 / 5)).rows, ∃ y ∈ (cloudAround z centres points (2 / 5)).rows, x ≠ y) →
      ∃ a b, kmeansExample (fun i => XR.fin (z i)) raw [XR.fin u] points = ok (a, b) ∧ 0 < a ∧ 0 < b ∧ a + b = 2 * points) ∧
    ((∀ x ∈ (cloudAround z centres points (2 / 5)).rows, ∀ y ∈ (cloudAround z centres points (2 / 5)).rows, x = y) →
      kmeansExample (fun i => XR.fin (z i)) raw [XR.fin u] points = Outcome.panic) := by
  have hw : centres.WF := by intro r hr; simp [centres] at hr; rcases hr with rfl | rfl <;> rfl
  have hC : Mat.new 2 2 [Scalar.ofRat (-1 / 2), Scalar.ofRat (-1 / 2), Scalar.zero, Scalar.ofRat (1 / 2)] = ok (finMat centres) := by
    simp [Mat.new, chunk, finMat, centres]
  have hg := C119_generate z centres hw points (2 / 5)
  rw [if_pos ⟨by simp [centres], by simp [centres], by norm_num⟩] at hg
  have hl : (cloudAround z centres points (2 / 5)).rows.length = 2 * points := by rw [cloudAround_length]; rfl
  have hr : (Scalar.ofRat (2 / 5) : XR) = XR.fin (2 / 5) := by simp
  obtain ⟨k1, k2⟩ := C118_kplusplus (X := cloudAround z centres points (2 / 5)) (KMeans.new 2) rfl (cloudAround_wf hw _ _) (by simp [cloudAround, centres])
    (by omega) raw u h0 h1
  unfold kmeansExample
  simp only [hC, ok_bind, hr, hg]
  constructor
  · intro hx
    obtain ⟨a, b, m', -, ht, hc, labels, hpr, hll, l0, l1, hlab⟩ := k1 hx
    rw [ht]
    simp only [expectOk, ok_bind, hc, ofOption, hpr]
    refine ⟨_, _, rfl, ?_, ?_, ?_⟩
    · exact List.length_pos_iff.2 (List.ne_nil_of_mem (List.mem_filter.2 ⟨l0, rfl⟩))
    · exact List.length_pos_iff.2 (List.ne_nil_of_mem (List.mem_filter.2 ⟨l1, rfl⟩))
    · rw [← hl, ← hll, ← List.length_eq_length_filter_add]
  · intro hx
    have := k2 hx
    rw [this]
    rfl

open MeasureTheory ProbabilityTheory in
/-- **C119 (the k-means example, probability).** If the draws are independent and no single value has positive probability - as for draws of a normal
distribution - then the program almost surely ends, and prints two positive numbers that add up to the number of samples. -/
theorem C119_kmeans_almost_surely {Ω : Type*} [MeasurableSpace Ω] (P : Measure Ω) [IsProbabilityMeasure P] (z : ℕ → Ω → ℝ) (hm : ∀ i, Measurable (z i))
    (hi : iIndepFun z P) (hna : ∀ i x, P {ω | z i ω = x} = 0) (raw points : ℕ) (u : ℝ) (h0 : 0 ≤ u) (h1 : u < 1) (hp : 0 < points) :
    ∀ᵐ ω ∂P, ∃ a b, kmeansExample (fun i => XR.fin (z i ω)) raw [XR.fin u] points = ok (a, b) ∧ 0 < a ∧ 0 < b ∧ a + b = 2 * points := by
  have hind : IndepFun (z 0) (z 2) P := hi.indepFun (by norm_num)
  have hmap : P.map (fun ω => (z 0 ω, z 2 ω)) = (P.map (z 0)).prod (P.map (z 2)) :=
    (indepFun_iff_map_prod_eq_prod_map_map (hm 0).aemeasurable (hm 2).aemeasurable).1 hind
  have : IsProbabilityMeasure (P.map (z 0)) := Measure.isProbabilityMeasure_map (hm 0).aemeasurable
  have : IsProbabilityMeasure (P.map (z 2)) := Measure.isProbabilityMeasure_map (hm 2).aemeasurable
  have hs : MeasurableSet {q : ℝ × ℝ | -1 / 2 + 2 / 5 * q.1 = 2 / 5 * q.2} := measurableSet_eq_fun (by fun_prop) (by fun_prop)
  have hnull : P {ω | -1 / 2 + 2 / 5 * z 0 ω = 2 / 5 * z 2 ω} = 0 := by
    have e : P {ω | -1 / 2 + 2 / 5 * z 0 ω = 2 / 5 * z 2 ω} = (P.map (fun ω => (z 0 ω, z 2 ω))) {q : ℝ × ℝ | -1 / 2 + 2 / 5 * q.1 = 2 / 5 * q.2} := by
      rw [Measure.map_apply ((hm 0).prodMk (hm 2)) hs]; rfl
    rw [e, hmap, Measure.measure_prod_null hs]
    refine Filter.Eventually.of_forall fun x => ?_
    have : Prod.mk x ⁻¹' {q : ℝ × ℝ | -1 / 2 + 2 / 5 * q.1 = 2 / 5 * q.2} = {5 / 2 * (-1 / 2 + 2 / 5 * x)} := by
      ext y
      simp only [Set.mem_preimage, Set.mem_ofPred_eq, Set.mem_singleton_iff]
      constructor <;> intro h <;> linarith
    show (P.map (z 2)) (Prod.mk x ⁻¹' {q : ℝ × ℝ | -1 / 2 + 2 / 5 * q.1 = 2 / 5 * q.2}) = 0
    rw [this, Measure.map_apply (hm 2) (measurableSet_singleton _)]
    exact hna 2 _
  have hae : ∀ᵐ ω ∂P, ¬ (-1 / 2 + 2 / 5 * z 0 ω = 2 / 5 * z 2 ω) := by
    rw [ae_iff]
    simpa using hnull
  filter_upwards [hae] with ω hω
  refine (C119_kmeans (fun i => z i ω) raw points u h0 h1 hp).1 ⟨[-1 / 2 + 2 / 5 * z 0 ω, -1 / 2 + 2 / 5 * z 1 ω], ?_, [0 + 2 / 5 * z 2 ω, 1 / 2 + 2 / 5 * z 3 ω], ?_, ?_⟩
  · simp only [cloudAround, List.mem_flatMap]
    exact ⟨0, by simpa using hp, by simp [centres]⟩
  · simp only [cloudAround, List.mem_flatMap]
    exact ⟨0, by simpa using hp, by simp [centres]⟩
  · intro h
    simp only [List.cons.injEq] at h
    exact hω (by linarith [h.1])

/-- Non-vacuity of C119: without noise the samples are the centres, and the program ends. -/
example : ∃ a b, kmeansExample (fun _ => XR.fin 0) 7 [XR.fin (1 / 2)] 3 = ok (a, b) ∧ 0 < a ∧ 0 < b ∧ a + b = 2 * 3 :=
  (C119_kmeans (fun _ => 0) 7 3 (1 / 2) (by norm_num) (by norm_num) (by norm_num)).1
    ⟨[-1 / 2, -1 / 2], by simp [cloudAround, centres]; exact ⟨0, by norm_num⟩, [0, 1 / 2], by simp [cloudAround, centres]; exact ⟨0, by norm_num⟩, by simp⟩

open MeasureTheory ProbabilityTheory in
/-- Non-vacuity of C119: independent standard normal draws. -/
example : ∃ (Ω : Type) (_ : MeasurableSpace Ω) (P : Measure Ω) (_ : IsProbabilityMeasure P) (z : ℕ → Ω → ℝ), (∀ i, P.map (z i) = gaussianReal 0 1) ∧
    ∀ᵐ ω ∂P, ∃ a b, kmeansExample (fun i => XR.fin (z i ω)) 7 [XR.fin (1 / 2)] 2000 = ok (a, b) ∧ 0 < a ∧ 0 < b ∧ a + b = 2 * 2000 := by
  obtain ⟨Ω, mΩ, P, hP, z, ⟨h1, h2, h3⟩, h4⟩ := sample_exists (gaussianReal 0 1)
  have hlaw (i : ℕ) : P.map (z i) = gaussianReal 0 1 := (h3 i).map_eq.trans h4
  refine ⟨Ω, mΩ, P, hP, z, hlaw, C119_kmeans_almost_surely P z h1 h2 (fun i x => ?_) 7 2000 (1 / 2) (by norm_num) (by norm_num) (by norm_num)⟩
  have := nullSingletonClass_gaussianReal (μ := 0) (v := 1) one_ne_zero
  have e : P {ω | z i ω = x} = P.map (z i) {x} := (Measure.map_apply (h1 i) (measurableSet_singleton x)).symm
  rw [e, hlaw, measure_singleton]

end RM
