import Mathlib.Probability.Distributions.Gaussian.Real
import Mathlib.Probability.Independence.Basic
import Mathlib.Probability.HasLawExists
import Verif.Props.NNet
import Verif.Proofs.RealMat
import Verif.Proofs.Svm

/-! C104: the weights of a new network.

As in C78 the raw draws of `StandardNormal` (crate `rand`, external) are random variables: independent, with the standard normal
distribution. -/

namespace RM
open Outcome Scalar Spec MeasureTheory ProbabilityTheory

/-- The network with the layers `ls`, each added with its own stream of raw draws. -/
noncomputable def Spec.freshNet (c : Criterion ℝ) (ls : List (NetLayer ℝ)) (N : ℕ → ℕ → ℝ) : BaseNet ℝ :=
  (BaseNet.new c).addLayers (ls.zipIdx.map fun p => (p.1, N p.2))

/-- The normal distribution with mean 0 and variance `v ≥ 0`. -/
noncomputable def Spec.centredNormal (v : ℝ) : Measure ℝ := gaussianReal 0 v.toNNReal

/-- Where the weights of the layers come from: layer, draw and factor. -/
noncomputable def tags : ℕ → List (NetLayer ℝ) → List ((ℕ × ℕ) × ℝ)
  | _, [] => []
  | s, l :: ls => (List.range l.numParams).map (fun j => ((s, j), Real.sqrt (2 / (l.paramShape.1 + l.paramShape.2 : ℕ)))) ++ tags (s + 1) ls

theorem defaultParams_real (l : NetLayer ℝ) (r : ℕ → ℝ) :
    l.defaultParams r = (List.range l.numParams).map fun j => Real.sqrt (2 / (l.paramShape.1 + l.paramShape.2 : ℕ)) * r j := by
  cases l with
  | activ A => simp [NetLayer.defaultParams, NetLayer.numParams, NetLayer.paramShape]
  | linear i o b =>
    simp only [NetLayer.defaultParams, NetLayer.numParams, NetLayer.paramShape]
    refine List.map_congr_left fun j _ => ?_
    simp

theorem addLayers_weights : ∀ (ls : List (NetLayer ℝ)) (net : BaseNet ℝ) (s : ℕ) (N : ℕ → ℕ → ℝ),
    (net.addLayers ((ls.zipIdx s).map fun p => (p.1, N p.2))).weights = net.weights ++ (tags s ls).map fun t => t.2 * N t.1.1 t.1.2
  | [], net, s, N => by simp [BaseNet.addLayers, tags]
  | l :: ls, net, s, N => by
    rw [List.zipIdx_cons, List.map_cons, BaseNet.addLayers, addLayers_weights ls _ (s + 1) N]
    simp only [BaseNet.add, defaultParams_real, tags, List.map_append, List.map_map, List.append_assoc]
    rfl

theorem freshNet_weights (c : Criterion ℝ) (ls : List (NetLayer ℝ)) (N : ℕ → ℕ → ℝ) :
    (freshNet c ls N).weights = (tags 0 ls).map fun t => t.2 * N t.1.1 t.1.2 := by
  have := addLayers_weights ls (BaseNet.new c) 0 N
  rw [freshNet, this]
  rfl

theorem freshNet_layers (c : Criterion ℝ) (ls : List (NetLayer ℝ)) (N : ℕ → ℕ → ℝ) :
    (freshNet c ls N).layers = ls ∧ (freshNet c ls N).weights.length = totalParams ls := by
  obtain ⟨h1, h2⟩ := C38_length c (ls.zipIdx.map fun p => (p.1, N p.2))
  have e : (ls.zipIdx.map fun p => (p.1, N p.2)).map Prod.fst = ls := by
    rw [List.map_map]
    exact List.zipIdx_map_fst 0 ls
  rw [e] at h1 h2
  exact ⟨h1, h2⟩

theorem tags_ge {s : ℕ} {ls : List (NetLayer ℝ)} : ∀ t ∈ tags s ls, s ≤ t.1.1 := by
  induction ls generalizing s with
  | nil => simp [tags]
  | cons l ls ih =>
    intro t ht
    rw [tags, List.mem_append] at ht
    rcases ht with ht | ht
    · obtain ⟨j, -, rfl⟩ := List.mem_map.mp ht
      exact le_refl s
    · exact (Nat.le_succ s).trans (ih t ht)

theorem tags_nodup (s : ℕ) (ls : List (NetLayer ℝ)) : ((tags s ls).map Prod.fst).Nodup := by
  induction ls generalizing s with
  | nil => simp [tags]
  | cons l ls ih =>
    rw [tags, List.map_append, List.nodup_append]
    refine ⟨?_, ih _, ?_⟩
    · rw [List.map_map]
      exact List.nodup_range.map fun a b h => by simpa using h
    · rintro a ha b hb rfl
      obtain ⟨t, ht, rfl⟩ := List.mem_map.mp hb
      rw [List.map_map] at ha
      obtain ⟨j, -, hj⟩ := List.mem_map.mp ha
      have := tags_ge t ht
      rw [← hj] at this
      simp at this

theorem tags_length (s : ℕ) (ls : List (NetLayer ℝ)) : (tags s ls).length = totalParams ls := by
  induction ls generalizing s with
  | nil => rfl
  | cons l ls ih =>
    rw [tags, List.length_append, ih, totalParams_cons]
    simp

/-- The entries of the block of a layer. -/
theorem tags_block {ls : List (NetLayer ℝ)} {t : ℕ} (ht : t < ls.length) (s j : ℕ) (hj : j < ls[t].numParams) :
    (tags s ls)[blockStart ls t + j]? = some ((s + t, j), Real.sqrt (2 / (ls[t].paramShape.1 + ls[t].paramShape.2 : ℕ))) := by
  induction ls generalizing s t with
  | nil => simp at ht
  | cons l ls ih =>
    cases t with
    | zero =>
      simp only [List.getElem_cons_zero] at hj ⊢
      have h0 : blockStart (l :: ls) 0 = 0 := rfl
      rw [tags, h0, zero_add, List.getElem?_append_left (by simpa using hj)]
      simp [hj]
    | succ t =>
      simp only [List.getElem_cons_succ] at hj ⊢
      have h0 : blockStart (l :: ls) (t + 1) = l.numParams + blockStart ls t := by
        rw [blockStart, List.take_succ_cons, totalParams_cons]
        rfl
      rw [tags, h0, List.getElem?_append_right (by simp; omega)]
      have := ih (by simpa using ht) (s + 1) hj
      simp only [List.length_map, List.length_range]
      rw [show l.numParams + blockStart ls t + j - l.numParams = blockStart ls t + j by omega, this]
      simp only [Option.some.injEq, Prod.mk.injEq, and_true]
      omega

variable {Ω : Type} [MeasurableSpace Ω] {P : Measure Ω} {N : ℕ → ℕ → Ω → ℝ}

/-- **C104 (independence).** All weights of a new network are independent of each other, within and across layers. -/
theorem C104_independent (hN : iIndepFun (fun (p : ℕ × ℕ) ω => N p.1 p.2 ω) P) (c : Criterion ℝ) (ls : List (NetLayer ℝ)) :
    iIndepFun (fun (k : Fin (totalParams ls)) ω => (freshNet c ls fun t j => N t j ω).weights.getD k 0) P := by
  have hlen := tags_length 0 ls
  have hinj : Function.Injective fun k : Fin (totalParams ls) => ((tags 0 ls)[(k : ℕ)]'(by rw [hlen]; exact k.2)).1 := by
    intro a b hab
    have hnd := tags_nodup 0 ls
    rw [List.nodup_iff_injective_getElem] at hnd
    have := @hnd ⟨a, by simp [hlen]⟩ ⟨b, by simp [hlen]⟩ (by simpa using hab)
    simpa [Fin.ext_iff] using this
  have h1 := (hN.precomp hinj).comp (fun k : Fin (totalParams ls) => fun x : ℝ => ((tags 0 ls)[(k : ℕ)]'(by rw [hlen]; exact k.2)).2 * x)
    fun k => measurable_const.mul measurable_id
  convert h1 using 2 with k
  funext ω
  rw [freshNet_weights]
  simp [List.getD_eq_getElem?_getD, hlen]

theorem scaled_law {X : Ω → ℝ} (hX : HasLaw X (gaussianReal 0 1) P) {s v : ℝ} (hv : s ^ 2 = v) : HasLaw (fun ω => s * X ω) (centredNormal v) P := by
  have h := gaussianReal_const_mul hX s
  rw [mul_zero, mul_one] at h
  have e : (NNReal.mk (s ^ 2) (sq_nonneg s)) = v.toNNReal := by
    apply NNReal.eq
    rw [Real.coe_toNNReal _ (hv ▸ sq_nonneg s), ← hv]
    rfl
  rw [centredNormal, ← e]
  exact h

/-- **C104 (law).** The weights of a linear layer with `i` rows (the first one for the bias, if there is one) and `o` columns in a new
network are normal with mean 0 and variance 2 / (i + o), as documented. -/
theorem C104_law (hlaw : ∀ t j, HasLaw (N t j) (gaussianReal 0 1) P) (c : Criterion ℝ) (ls : List (NetLayer ℝ)) {t i o : ℕ} {b : Bool}
    (ht : ls[t]? = some (.linear i o b)) :
    ∃ W : Ω → Mat ℝ, (∀ ω, (freshNet c ls fun t j => N t j ω).netWeights t = ok (W ω) ∧ HasShape (W ω) i o) ∧
      ∀ a < i, ∀ e < o, HasLaw (fun ω => ent (W ω) a e) (centredNormal (2 / (i + o))) P := by
  obtain ⟨htl, hte⟩ := List.getElem?_eq_some_iff.mp ht
  have hb : ∀ ω, ∃ M, (freshNet c ls fun t j => N t j ω).netWeights t = ok M ∧ HasShape M i o ∧ ∀ a < i, ∀ e < o,
      ent M a e = Real.sqrt (2 / (i + o : ℕ)) * N t (a * o + e) ω := by
    intro ω
    obtain ⟨g1, g2⟩ := freshNet_layers c ls fun t j => N t j ω
    obtain ⟨M, m1, m2, -, m3⟩ := (C38_blocks (freshNet c ls fun t j => N t j ω) (by rw [g1, g2])).1 t (by rw [g1]; exact htl)
    simp only [g1, hte, NetLayer.paramShape] at m2 m3
    refine ⟨M, m1, m2, fun a ha e he => ?_⟩
    obtain ⟨row, r1, r2⟩ := m3 a e ha he
    have hj : a * o + e < ls[t].numParams := by
      rw [hte]
      show a * o + e < i * o
      calc a * o + e < a * o + o := by omega
        _ = (a + 1) * o := by ring
        _ ≤ i * o := Nat.mul_le_mul_right o ha
    have := tags_block htl 0 (a * o + e) hj
    rw [freshNet_weights, List.getElem?_map, add_assoc, this, hte] at r2
    simp only [ent, List.getD_eq_getElem?_getD, r1, Option.getD_some, r2, Option.map_some, zero_add, NetLayer.paramShape]
  choose W w1 w2 w3 using hb
  refine ⟨W, fun ω => ⟨w1 ω, w2 ω⟩, fun a ha e he => ?_⟩
  have : (fun ω => ent (W ω) a e) = fun ω => Real.sqrt (2 / (i + o : ℕ)) * N t (a * o + e) ω := by
    funext ω
    exact w3 ω a ha e he
  rw [this]
  refine scaled_law (hlaw t _) ?_
  rw [Real.sq_sqrt (by positivity)]
  push_cast
  rfl

/-- Sums of independent normal variables with mean 0. -/
theorem normal_sum {ι : Type} [DecidableEq ι] {X : ι → Ω → ℝ} (hX : iIndepFun X P) {v : ι → ℝ} (hv : ∀ i, 0 ≤ v i)
    (hlaw : ∀ i, HasLaw (X i) (centredNormal (v i)) P) [IsProbabilityMeasure P] (s : Finset ι) :
    HasLaw (fun ω => ∑ i ∈ s, X i ω) (centredNormal (∑ i ∈ s, v i)) P := by
  induction s using Finset.induction_on with
  | empty =>
    simp only [Finset.sum_empty, centredNormal, Real.toNNReal_zero, gaussianReal_zero_var]
    exact ⟨aemeasurable_const, by rw [Measure.map_const, measure_univ, one_smul]⟩
  | insert a s ha ih =>
    have hind : IndepFun (fun ω => ∑ i ∈ s, X i ω) (X a) P := by
      have := hX.indepFun_finsetSum_of_notMem₀ (fun i => (hlaw i).aemeasurable) ha
      convert this using 1
      funext ω
      simp
    have h := gaussianReal_add_gaussianReal_of_indepFun hind ih.map_eq (hlaw a).map_eq
    refine ⟨?_, ?_⟩
    · exact (Finset.aemeasurable_fun_sum _ fun i _ => (hlaw i).aemeasurable)
    · have e1 : (fun ω => ∑ i ∈ insert a s, X i ω) = (fun ω => ∑ i ∈ s, X i ω) + X a := by
        funext ω
        rw [Finset.sum_insert ha, Pi.add_apply, add_comm]
      rw [e1, h, centredNormal, Finset.sum_insert ha, add_zero, add_comm (v a), Real.toNNReal_add (Finset.sum_nonneg fun i _ => hv i) (hv a)]

/-- **C104 (outputs).** A new linear layer from `d` features to `o` outputs, with a bias, gives every sample outputs that are normal with
mean 0 and variance 2 (1 + the square of the length of the sample) / (d + 1 + o), independent in pairs. -/
theorem C104_outputs [IsProbabilityMeasure P] (hN : iIndepFun (fun (p : ℕ × ℕ) ω => N p.1 p.2 ω) P) (hlaw : ∀ t j, HasLaw (N t j) (gaussianReal 0 1) P)
    (c : Criterion ℝ) {d o : ℕ} (x : List ℝ) (hx : x.length = d) :
    ∃ Y : Ω → List ℝ, (∀ ω, (freshNet c [.new d o] fun t j => N t j ω).forwardProp ⟨d, [x]⟩ = ok ⟨o, [Y ω]⟩) ∧
      (∀ e < o, HasLaw (fun ω => (Y ω).getD e 0) (centredNormal (2 * (1 + (x.map fun a => a ^ 2).sum) / (d + 1 + o))) P) ∧
      ∀ e < o, ∀ e' < o, e ≠ e' → IndepFun (fun ω => (Y ω).getD e 0) (fun ω => (Y ω).getD e' 0) P := by
  have hlines : LinesUp ([.new d o] : List (NetLayer ℝ)) d o := .linear true rfl (.nil _)
  have hXs : HasShape (⟨d, [x]⟩ : Mat ℝ) 1 d := ⟨rfl, rfl, by simp [hx]⟩
  refine ⟨fun ω => netRow [.new d o] (freshNet c [.new d o] fun t j => N t j ω).weights x, ?_, ?_⟩
  · intro ω
    obtain ⟨g1, g2⟩ := freshNet_layers c [.new d o] fun t j => N t j ω
    have := forwardProp_ok (net := freshNet c [.new d o] fun t j => N t j ω) hXs (by rw [g1]; exact hlines) (by rw [g1, g2])
    rw [this, g1]
    rfl
  have hform : ∀ e < o, ∀ ω, (netRow [.new d o] (freshNet c [.new d o] fun t j => N t j ω).weights x).getD e 0 =
      ∑ a ∈ Finset.range (d + 1), ((1 :: x).getD a 0 * Real.sqrt (2 / (d + 1 + o : ℕ))) * N 0 (a * o + e) ω := by
    intro e he ω
    obtain ⟨-, g2⟩ := freshNet_layers c [.new d o] fun t j => N t j ω
    simp only [NetLayer.new, netRow, if_true]
    rw [getD_map_range _ _ _ he, dot_eq_range (n := d + 1) (by simp [hx]) (by simp)]
    refine Finset.sum_congr rfl fun a ha => ?_
    have ha' := Finset.mem_range.mp ha
    have hj : a * o + e < (d + 1) * o := by
      calc a * o + e < a * o + o := by omega
        _ = (a + 1) * o := by ring
        _ ≤ (d + 1) * o := Nat.mul_le_mul_right o ha'
    rw [getD_map_range _ _ _ ha', mul_assoc]
    congr 1
    have := tags_block (ls := [NetLayer.linear (d + 1) o true]) (t := 0) (by simp) 0 (a * o + e) hj
    have h0 : blockStart [(NetLayer.linear (d + 1) o true : NetLayer ℝ)] 0 = 0 := rfl
    rw [h0, zero_add] at this
    rw [freshNet_weights]
    simp [List.getD_eq_getElem?_getD, this, NetLayer.paramShape]
  have hmeas : ∀ p : ℕ × ℕ, AEMeasurable (fun ω => N p.1 p.2 ω) P := fun p => (hlaw p.1 p.2).aemeasurable
  refine ⟨fun e he => ?_, fun e he e' he' hne => ?_⟩
  · simp only [hform e he]
    have hinj : Function.Injective fun a : ℕ => ((0, a * o + e) : ℕ × ℕ) := by
      intro a b hab
      simp only [Prod.mk.injEq, true_and, Nat.add_right_cancel_iff] at hab
      exact Nat.eq_of_mul_eq_mul_right (by omega) hab
    have hi := (hN.precomp hinj).comp (fun (a : ℕ) (y : ℝ) => ((1 :: x).getD a 0 * Real.sqrt (2 / (d + 1 + o : ℕ))) * y)
      fun a => measurable_const.mul measurable_id
    have := normal_sum (X := fun a ω => ((1 :: x).getD a 0 * Real.sqrt (2 / (d + 1 + o : ℕ))) * N 0 (a * o + e) ω)
      (v := fun a => ((1 :: x).getD a 0 * Real.sqrt (2 / (d + 1 + o : ℕ))) ^ 2) hi (fun a => sq_nonneg _) (fun a => scaled_law (hlaw 0 _) rfl)
      (Finset.range (d + 1))
    convert this using 2
    have hs : (x.map fun a => a ^ 2).sum = ∑ a ∈ Finset.range d, (x.getD a 0) ^ 2 := by
      rw [sum_range_getD, List.length_map, hx]
      refine Finset.sum_congr rfl fun a ha => ?_
      have := Finset.mem_range.mp ha
      simp [List.getD_eq_getElem?_getD, hx, this]
    simp only [mul_pow]
    rw [← Finset.sum_mul, Real.sq_sqrt (by positivity), Finset.sum_range_succ', hs]
    simp only [List.getD_cons_succ, List.getD_cons_zero]
    push_cast
    ring
  · simp only [hform e he, hform e' he']
    have hinj : Function.Injective fun j : ℕ => ((0, j) : ℕ × ℕ) := fun a b hab => by simpa using hab
    have h1 := hN.precomp hinj
    have hdis : Disjoint ((Finset.range (d + 1)).image fun a => a * o + e) ((Finset.range (d + 1)).image fun a => a * o + e') := by
      rw [Finset.disjoint_left]
      intro j hj hj'
      obtain ⟨a, -, rfl⟩ := Finset.mem_image.mp hj
      obtain ⟨b, -, hb⟩ := Finset.mem_image.mp hj'
      have m1 : (a * o + e) % o = e := by rw [Nat.mul_add_mod_self_right, Nat.mod_eq_of_lt he]
      have m2 : (b * o + e') % o = e' := by rw [Nat.mul_add_mod_self_right, Nat.mod_eq_of_lt he']
      rw [hb, m1] at m2
      exact hne m2
    have h2 := h1.indepFun_finset₀ _ _ hdis fun j => hmeas (0, j)
    have h3 := h2.comp
      (φ := fun g => ∑ a ∈ (Finset.range (d + 1)).attach, ((1 :: x).getD a 0 * Real.sqrt (2 / (d + 1 + o : ℕ))) * g ⟨a * o + e, Finset.mem_image_of_mem _ a.2⟩)
      (ψ := fun g => ∑ a ∈ (Finset.range (d + 1)).attach, ((1 :: x).getD a 0 * Real.sqrt (2 / (d + 1 + o : ℕ))) * g ⟨a * o + e', Finset.mem_image_of_mem _ a.2⟩)
      (Finset.measurable_fun_sum _ fun a _ => measurable_const.mul (measurable_pi_apply _))
      (Finset.measurable_fun_sum _ fun a _ => measurable_const.mul (measurable_pi_apply _))
    convert h3 using 1
    · funext ω
      rw [← Finset.sum_attach]
      rfl
    · funext ω
      rw [← Finset.sum_attach]
      rfl

theorem tags_pos (s : ℕ) (ls : List (NetLayer ℝ)) : ∀ t ∈ tags s ls, 0 < t.2 := by
  induction ls generalizing s with
  | nil => simp [tags]
  | cons l ls ih =>
    intro t ht
    rw [tags, List.mem_append] at ht
    rcases ht with ht | ht
    · obtain ⟨j, hj, rfl⟩ := List.mem_map.mp ht
      rw [List.mem_range] at hj
      cases l with
      | activ A => simp [NetLayer.numParams, NetLayer.paramShape] at hj
      | linear i o b =>
        have hi : 0 < i * o := lt_of_le_of_lt (Nat.zero_le _) hj
        have : 0 < i := Nat.pos_of_mul_pos_right hi
        refine Real.sqrt_pos.mpr (div_pos two_pos ?_)
        show (0 : ℝ) < ((i + o : ℕ) : ℝ)
        exact_mod_cast (by omega)
    · exact ih _ t ht

theorem centredNormal_ne {X : Ω → ℝ} {v : ℝ} (hv : 0 < v) (hX : HasLaw X (centredNormal v) P) (y : ℝ) : ∀ᵐ ω ∂P, X ω ≠ y := by
  have := nullSingletonClass_gaussianReal (μ := 0) (v := v.toNNReal) (by simpa using hv)
  have h0 : (centredNormal v) {y} = 0 := by
    rw [centredNormal]
    exact measure_singleton y
  rw [← hX.map_eq, Measure.map_apply_of_aemeasurable hX.aemeasurable (measurableSet_singleton y)] at h0
  rw [ae_iff]
  simp only [ne_eq, not_not]
  exact h0

/-- **C104 (no two alike).** With probability one no weight of a new network is 0 and no two of its weights are equal: units of one layer
never start out as copies of each other. -/
theorem C104_distinct [IsProbabilityMeasure P] (hN : iIndepFun (fun (p : ℕ × ℕ) ω => N p.1 p.2 ω) P) (hlaw : ∀ t j, HasLaw (N t j) (gaussianReal 0 1) P)
    (c : Criterion ℝ) (ls : List (NetLayer ℝ)) :
    ∀ᵐ ω ∂P, (freshNet c ls fun t j => N t j ω).weights.Nodup ∧ 0 ∉ (freshNet c ls fun t j => N t j ω).weights := by
  have hlen := tags_length 0 ls
  let T : Fin (totalParams ls) → (ℕ × ℕ) × ℝ := fun k => (tags 0 ls)[(k : ℕ)]'(by rw [hlen]; exact k.2)
  let w : Fin (totalParams ls) → Ω → ℝ := fun k ω => (T k).2 * N (T k).1.1 (T k).1.2 ω
  have hw : ∀ ω, (freshNet c ls fun t j => N t j ω).weights = List.ofFn fun k => w k ω := by
    intro ω
    rw [freshNet_weights]
    apply List.ext_getElem
    · simp [hlen]
    · intro k h1 h2
      simp [w, T]
  have hT : ∀ k, 0 < (T k).2 := fun k => tags_pos 0 ls _ (List.getElem_mem _)
  have hlw : ∀ k, HasLaw (w k) (centredNormal ((T k).2 ^ 2)) P := fun k => scaled_law (hlaw _ _) rfl
  have hind : iIndepFun w P := by
    have := C104_independent hN c ls
    convert this using 2 with k
    funext ω
    simp [hw]
  have h0 : ∀ᵐ ω ∂P, ∀ k, w k ω ≠ 0 := ae_all_iff.mpr fun k => centredNormal_ne (pow_pos (hT k) 2) (hlw k) 0
  have h1 : ∀ᵐ ω ∂P, ∀ k l, k ≠ l → w k ω ≠ w l ω := by
    refine ae_all_iff.mpr fun k => ae_all_iff.mpr fun l => ?_
    by_cases hkl : k = l
    · simp [hkl]
    · have hneg : HasLaw (fun ω => (-(T l).2) * N (T l).1.1 (T l).1.2 ω) (centredNormal ((T l).2 ^ 2)) P := scaled_law (hlaw _ _) (by ring)
      have hi : IndepFun (w k) (fun ω => (-(T l).2) * N (T l).1.1 (T l).1.2 ω) P := by
        have := (hind.indepFun hkl).comp (φ := fun y => y) (ψ := fun y => -y) measurable_id measurable_neg
        convert this using 1
        · rfl
        · funext ω
          simp only [w, Function.comp]
          ring
      have hsum := gaussianReal_add_gaussianReal_of_indepFun hi (hlw k).map_eq hneg.map_eq
      have hd : HasLaw (fun ω => w k ω - w l ω) (centredNormal ((T k).2 ^ 2 + (T l).2 ^ 2)) P := by
        refine ⟨(hlw k).aemeasurable.sub (hlw l).aemeasurable, ?_⟩
        have e : (fun ω => w k ω - w l ω) = w k + fun ω => (-(T l).2) * N (T l).1.1 (T l).1.2 ω := by
          funext ω
          simp only [w, Pi.add_apply]
          ring
        rw [e, hsum, centredNormal, add_zero, Real.toNNReal_add (sq_nonneg _) (sq_nonneg _)]
      filter_upwards [centredNormal_ne (add_pos (pow_pos (hT k) 2) (pow_pos (hT l) 2)) hd 0] with ω hω _ he
      exact hω (by rw [he, sub_self])
  filter_upwards [h0, h1] with ω a b
  rw [hw ω]
  refine ⟨?_, ?_⟩
  · rw [List.nodup_ofFn]
    intro k l hkl
    by_contra hne
    exact b k l hne hkl
  · rw [List.mem_ofFn]
    rintro ⟨k, hk⟩
    exact a k hk

theorem mlpLoop_fresh (A : Activ ℝ) (N : ℕ → ℕ → ℝ) : ∀ (sizes : List ℕ) (net : BaseNet ℝ) (i : ℕ),
    mlpLoop A (fun i => N (2 * i)) net i sizes = net.addLayers
      ((((List.zip sizes sizes.tail).flatMap fun p => [NetLayer.new p.1 p.2, .activ A]).zipIdx (2 * i)).map fun p => (p.1, N p.2))
  | [], net, i => by simp [mlpLoop, BaseNet.addLayers]
  | [a], net, i => by simp [mlpLoop, BaseNet.addLayers]
  | a :: b :: rest, net, i => by
    rw [mlpLoop, mlpLoop_fresh A N (b :: rest)]
    simp only [List.tail_cons, List.zip_cons_cons, List.flatMap_cons, List.cons_append, List.nil_append, List.zipIdx_cons, List.map_cons, BaseNet.addLayers]
    rfl

/-- **C104 (mlp).** `mlp` is the same as adding its layers one by one: all of the above is said of the networks it makes. (Activation
layers draw nothing, so its `i`-th linear layer is number `2 i`.) -/
theorem C104_mlp (s₀ : ℕ) (sizes : List ℕ) (c : Criterion ℝ) (A : Activ ℝ) (N : ℕ → ℕ → ℝ) :
    BaseNet.mlp (s₀ :: sizes) c A (fun i => N (2 * i)) =
      ok (freshNet c ((List.zip (s₀ :: sizes) sizes).flatMap fun p => [.new p.1 p.2, .activ A]) N) := by
  rw [BaseNet.mlp, if_neg (by simp), mlpLoop_fresh]
  rfl

/-- Draws of the assumed kind exist. -/
theorem draws_exist : ∃ (Ω : Type) (_ : MeasurableSpace Ω) (P : Measure Ω) (_ : IsProbabilityMeasure P) (N : ℕ → ℕ → Ω → ℝ),
    iIndepFun (fun (p : ℕ × ℕ) ω => N p.1 p.2 ω) P ∧ ∀ t j, HasLaw (N t j) (gaussianReal 0 1) P :=
  ⟨ℕ × ℕ → ℝ, inferInstance, Measure.infinitePi fun _ => gaussianReal 0 1, inferInstance, fun t j ω => ω (t, j),
    iIndepFun_infinitePi (X := fun _ y => y) fun _ => measurable_id,
    fun t j => (measurePreserving_eval_infinitePi (fun _ : ℕ × ℕ => gaussianReal 0 1) (t, j)).hasLaw⟩

/-- Two linear layers with an activation between them: 9 + 4 weights; those of the second layer have variance 2/5. -/
example (c : Criterion ℝ) (N : ℕ → ℕ → Ω → ℝ) (hlaw : ∀ t j, HasLaw (N t j) (gaussianReal 0 1) P) :
    totalParams ([.new 2 3, .activ sigmoid, .new 3 1] : List (NetLayer ℝ)) = 13 ∧
      ∃ W : Ω → Mat ℝ, (∀ ω, (freshNet c [.new 2 3, .activ sigmoid, .new 3 1] fun t j => N t j ω).netWeights 2 = ok (W ω) ∧ HasShape (W ω) 4 1) ∧
        ∀ a < 4, ∀ e < 1, HasLaw (fun ω => ent (W ω) a e) (centredNormal (2 / ((4 : ℕ) + (1 : ℕ)))) P :=
  ⟨by simp [totalParams, NetLayer.new], C104_law hlaw c _ rfl⟩

end RM
