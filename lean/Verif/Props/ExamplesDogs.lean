import Verif.Model.Examples
import Verif.Props.NaiveBayes
import Verif.Props.NoPanicModels

/-! C119: the example programs run to the end. This file: examples/naive_bayes_dogs.rs. -/

namespace RM
open Outcome Scalar Spec

/-- The traits of the dogs, one row for each. -/
def Spec.traitsOf (dogs : List (Dog ℝ)) : Mat ℝ := ⟨3, dogs.map fun d => [d.friendliness, d.furriness, d.speed]⟩

/-- The colours of the dogs, one row for each: `[1, 0]` for red, `[0, 1]` for white. -/
noncomputable def Spec.coloursOf (dogs : List (Dog ℝ)) : Mat ℝ := ⟨2, dogs.map fun d => if d.red then [1, 0] else [0, 1]⟩

instance : Inhabited (Dog ℝ) := ⟨⟨true, 0, 0, 0⟩⟩

theorem collect_map {α F : Type} {c : ℕ} (f : α → List F) (h : ∀ a, (f a).length = c) {l : List α} (hl : l ≠ []) : Mat.collect (l.map f) = ok ⟨c, l.map f⟩ := by
  obtain ⟨a, l, rfl⟩ := List.exists_cons_of_ne_nil hl
  simp [Mat.collect, h]

theorem classSize_colours (dogs : List (Dog ℝ)) : classSize (coloursOf dogs).rows 0 = dogs.countP (fun d => d.red) ∧
    classSize (coloursOf dogs).rows 1 = dogs.countP fun d => !d.red := by
  simp only [classSize, coloursOf, List.countP_map]
  constructor <;> (congr 1; funext d; cases h : d.red <;> simp [h, classOf, List.findIdx?_cons])

theorem dogHits_eq (l : List (Dog ℝ × List ℝ)) (h : ∀ q ∈ l, q.2 ≠ []) (k : ℕ) :
    dogHits l k = ok (k + l.countP fun q => q.1.red == decide (q.2.head? = some 1)) := by
  induction l generalizing k with
  | nil => rfl
  | cons q l ih =>
    obtain ⟨d, p⟩ := q
    obtain ⟨x, p, rfl⟩ := List.exists_cons_of_ne_nil (h (d, p) (by simp))
    rw [dogHits]
    have : d.hit (x :: p) = ok (d.red == decide (x = 1)) := by simp [Dog.hit, getAt, ofOption]
    rw [this, ok_bind, ih fun q hq => h q (List.mem_cons_of_mem _ hq), List.countP_cons]
    simp only [List.head?_cons, Option.some.injEq]
    congr 1
    split <;> omega

/-- **C119 (the naive Bayes example).** With at least one training dog and one test dog: the program ends exactly when neither colour has exactly
one training dog. Then it counts the test dogs that are red just when the model finds red at least as likely as white. -/
theorem C119_dogs (training test : List (Dog ℝ)) (hn : training ≠ []) (ht : test ≠ []) :
    (training.countP (fun d => d.red) = 1 ∨ training.countP (fun d => !d.red) = 1 → dogsExample training test = Outcome.panic) ∧
    (training.countP (fun d => d.red) ≠ 1 → training.countP (fun d => !d.red) ≠ 1 →
      ∃ m' L, nbTrain gaussDistr (nbNew (GaussD ℝ) ℝ) (traitsOf training) (coloursOf training) = (m', ok ()) ∧
        nbLogProbs gaussDistr m' (traitsOf test) = ok L ∧ L.rows.length = test.length ∧
        dogsExample training test = ok ((test.zip L.rows).countP fun q => q.1.red == decide (q.2.getD 1 0 ≤ q.2.getD 0 0))) := by
  have hX : (traitsOf training).WF := by
    intro r hr
    simp only [traitsOf, List.mem_map] at hr
    obtain ⟨d, -, rfl⟩ := hr
    rfl
  have hT : (coloursOf training).WF := by
    intro r hr
    simp only [coloursOf, List.mem_map] at hr
    obtain ⟨d, -, rfl⟩ := hr
    split <;> rfl
  have hlen : (traitsOf training).rows.length = (coloursOf training).rows.length := by simp [traitsOf, coloursOf]
  have hiff := C35_trains_iff (nbNew (GaussD ℝ) ℝ) (traitsOf training) (coloursOf training) hX hT hlen
  obtain ⟨c0, c1⟩ := classSize_colours training
  have hone : ∀ t ∈ (coloursOf training).rows, ∃ v ∈ t, v = 1 := by
    intro t h
    simp only [coloursOf, List.mem_map] at h
    obtain ⟨d, -, rfl⟩ := h
    split <;> simp
  have hex : dogsExample training test = (do
      let trained := nbTrain gaussDistr (nbNew (GaussD ℝ) ℝ) (traitsOf training) (coloursOf training)
      let _ ← expectOk trained.2
      let predictions ← expectOk (nbPredict gaussDistr trained.1 (traitsOf test))
      let hits ← dogHits ((test.zip predictions.rows).take (test.length - 10)) 0
      dogHits ((test.zip predictions.rows).drop (test.length - 10)) hits) := by
    unfold dogsExample
    rw [collect_map (c := 3) Dog.traits (fun _ => rfl) hn, collect_map (c := 2) Dog.target (fun d => by unfold Dog.target; split <;> rfl) hn,
      collect_map (c := 3) Dog.traits (fun _ => rfl) ht]
    rfl
  rw [hex]
  constructor
  · intro h
    have hno : ¬ ∃ m', nbTrain gaussDistr (nbNew (GaussD ℝ) ℝ) (traitsOf training) (coloursOf training) = (m', ok ()) := by
      rw [hiff]
      rintro ⟨-, h2⟩
      rcases h with h | h
      · exact h2 0 (by simp [coloursOf]) (by rw [c0, h])
      · exact h2 1 (by simp [coloursOf]) (by rw [c1, h])
    have hsafe := C87_naive_bayes_train gaussDistr _ C87_gaussian (nbNew (GaussD ℝ) ℝ) (X := traitsOf training) (T := coloursOf training)
      (n := training.length) (c := 3) (k := 2) ⟨by simp [traitsOf], rfl, hX⟩ ⟨by simp [coloursOf], rfl, hT⟩
    simp only
    generalize nbTrain gaussDistr (nbNew (GaussD ℝ) ℝ) (traitsOf training) (coloursOf training) = q at hno hsafe ⊢
    obtain ⟨m', o⟩ := q
    cases o with
    | ok u => exact absurd ⟨m', rfl⟩ hno
    | err e => rfl
    | panic => rfl
    | ub => exact hsafe.elim
  · intro h0 h1
    obtain ⟨m', hm⟩ := hiff.2 ⟨hone, by
      intro c hc
      have : c = 0 ∨ c = 1 := by simp [coloursOf] at hc; omega
      rcases this with rfl | rfl
      · rwa [c0]
      · rwa [c1]⟩
    obtain ⟨L, P, hL, hP, hLl, -, hF⟩ := C34_predict_gaussian _ m' (traitsOf training) (coloursOf training) (traitsOf test) hT (by simp [coloursOf]) rfl hm
    have hLt : L.rows.length = test.length := by simpa [traitsOf] using hLl
    refine ⟨m', L, hm, hL, hLt, ?_⟩
    simp only [hm, expectOk, ok_bind, hP]
    have hPl : P.rows.length = test.length := by rw [← hF.length_eq, hLt]
    have hFr : ∀ (i : ℕ) (h1 : i < L.rows.length) (h2 : i < P.rows.length), L.rows[i].length = (coloursOf training).cols ∧
        ∃ c, IsFirstMax L.rows[i] c ∧ IsOneHot (coloursOf training).cols c P.rows[i] := fun i h1 h2 => hF.get h1 h2
    have hrow : ∀ (i : ℕ) (h : i < P.rows.length), P.rows[i].head? = some 1 ↔ (L.rows[i]'(by omega)).getD 1 0 ≤ (L.rows[i]'(by omega)).getD 0 0 := by
      intro i h
      have hi : i < L.rows.length := by omega
      obtain ⟨h2, c, ⟨v, hv, hmax, hfirst⟩, h3, h4, h5⟩ := hFr i hi h
      obtain ⟨x, y, hxy⟩ : ∃ x y, L.rows[i] = [x, y] := List.length_eq_two.1 h2
      obtain ⟨p, q, hpq⟩ : ∃ p q, P.rows[i] = [p, q] := List.length_eq_two.1 h3
      have h50 := h5 0 (by norm_num [coloursOf])
      rw [hpq] at h50 ⊢
      rw [hxy] at hv hmax hfirst ⊢
      simp only [List.head?_cons, Option.some.injEq, List.getD_cons_zero, List.getD_cons_succ]
      have hc : c = 0 ∨ c = 1 := by
        have : c < 2 := h4
        omega
      rcases hc with rfl | rfl
      · have hp : p = 1 := by simpa [coord] using h50
        have hx : x = v := by simpa using hv
        exact ⟨fun _ => hx ▸ hmax y (by simp), fun _ => hp⟩
      · have hp : p = 0 := by simpa [coord] using h50
        have hy : y = v := by simpa using hv
        have := hfirst 0 x (by norm_num) rfl
        subst hp hy
        exact ⟨fun h => absurd h (by norm_num), fun h => absurd h (not_le.2 this)⟩
    have hne : ∀ q ∈ test.zip P.rows, q.2 ≠ [] := by
      rintro ⟨d, r⟩ hq hr
      obtain ⟨i, hi, rfl⟩ := List.mem_iff_getElem.1 (List.of_mem_zip hq).2
      obtain ⟨-, c, -, h3, -⟩ := hFr i (by omega) hi
      simp only at hr
      rw [hr] at h3
      simp [coloursOf] at h3
    rw [dogHits_eq _ fun q hq => hne q (List.mem_of_mem_take hq), ok_bind, dogHits_eq _ fun q hq => hne q (List.mem_of_mem_drop hq)]
    rw [Nat.zero_add, ← List.countP_append, List.take_append_drop]
    congr 1
    have e : test.zip P.rows = (List.range test.length).map fun i => (test.getD i default, P.rows.getD i []) := by
      refine List.ext_getElem (by simp [hPl]) fun i h1 h2 => ?_
      simp at h1
      simp [h1.1, h1.2]
    have e' : test.zip L.rows = (List.range test.length).map fun i => (test.getD i default, L.rows.getD i []) := by
      refine List.ext_getElem (by simp [hLt]) fun i h1 h2 => ?_
      simp at h1
      simp [h1.1, h1.2]
    rw [e, e', List.countP_map, List.countP_map]
    refine List.countP_congr fun i hi => ?_
    have hi := List.mem_range.1 hi
    have := hrow i (by omega)
    simp only [Function.comp, getD_lt [] (l := P.rows) (by omega : i < P.rows.length), getD_lt [] (l := L.rows) (by omega : i < L.rows.length), this]

/-- **C119 (the draws that stop the naive Bayes example).** Of the `2 ^ n` ways to colour `n ≥ 3` training dogs exactly `2 n` stop the
program, whatever the traits and the test dogs are: those with a single dog of some colour. -/
theorem C119_dogs_failures (n : ℕ) (hn : 3 ≤ n) :
    {c : Fin n → Bool | ∀ training test : List (Dog ℝ), training.map Dog.red = List.ofFn c → test ≠ [] →
      dogsExample training test = Outcome.panic}.ncard = 2 * n := by
  classical
  have hcount (c : Fin n → Bool) (b : Bool) : (List.ofFn c).count b = (Finset.univ.filter fun i => c i = b).card := by
    have e : (Finset.univ.filter fun i => c i = b) = ((List.finRange n).filter fun i => c i == b).toFinset := by
      ext i
      simp
    rw [List.count_eq_countP, List.ofFn_eq_map, List.countP_map, List.countP_eq_length_filter, e,
      List.toFinset_card_of_nodup ((List.nodup_finRange n).filter _)]
    rfl
  have hset : {c : Fin n → Bool | ∀ training test : List (Dog ℝ), training.map Dog.red = List.ofFn c → test ≠ [] →
      dogsExample training test = Outcome.panic} =
      ↑((Finset.univ : Finset (Bool × Fin n)).image fun q : Bool × Fin n => fun j => if j = q.2 then q.1 else !q.1) := by
    ext c
    have hred (training : List (Dog ℝ)) (h : training.map Dog.red = List.ofFn c) :
        training.countP (fun d => d.red) = (Finset.univ.filter fun i => c i = true).card ∧
        training.countP (fun d => !d.red) = (Finset.univ.filter fun i => c i = false).card := by
      rw [← hcount, ← hcount, ← h, List.count_eq_countP, List.count_eq_countP, List.countP_map, List.countP_map]
      constructor <;> (congr 1; funext d; cases h : d.red <;> simp [h])
    have key : (c ∈ {c : Fin n → Bool | ∀ training test : List (Dog ℝ), training.map Dog.red = List.ofFn c → test ≠ [] →
        dogsExample training test = Outcome.panic}) ↔
        ((Finset.univ.filter fun i => c i = true).card = 1 ∨ (Finset.univ.filter fun i => c i = false).card = 1) := by
      constructor
      · intro h
        by_contra hno
        push Not at hno
        have hmap : ((List.ofFn c).map fun b => (⟨b, 0, 0, 0⟩ : Dog ℝ)).map Dog.red = List.ofFn c := by simp [Function.comp_def]
        have hne : ((List.ofFn c).map fun b => (⟨b, 0, 0, 0⟩ : Dog ℝ)) ≠ [] := by simp; omega
        obtain ⟨h1, h2⟩ := hred _ hmap
        obtain ⟨m', L, -, -, -, hr⟩ := (C119_dogs _ [⟨true, 0, 0, 0⟩] hne (by simp)).2 (by rw [h1]; exact hno.1) (by rw [h2]; exact hno.2)
        rw [h _ _ hmap (by simp)] at hr
        cases hr
      · intro h training test hmap htest
        obtain ⟨h1, h2⟩ := hred _ hmap
        have hne : training ≠ [] := by
          rintro rfl
          have := congrArg List.length hmap
          simp at this
          omega
        exact (C119_dogs training test hne htest).1 (by rw [h1, h2]; exact h)
    rw [key]
    simp only [Finset.card_eq_one, Finset.coe_image, Finset.coe_univ, Set.image_univ, Set.mem_range, Prod.exists, Bool.exists_bool]
    rw [or_comm]
    refine or_congr (exists_congr fun i => ?_) (exists_congr fun i => ?_)
    · rw [Finset.ext_iff, funext_iff]
      refine forall_congr' fun j => ?_
      by_cases hj : j = i <;> cases h : c j <;> simp [hj, h] <;> simp_all
    · rw [Finset.ext_iff, funext_iff]
      refine forall_congr' fun j => ?_
      by_cases hj : j = i <;> cases h : c j <;> simp [hj, h] <;> simp_all
  rw [hset, Set.ncard_coe_finset, Finset.card_image_of_injective]
  · simp [mul_comm]
  · rintro ⟨b, i⟩ ⟨b', i'⟩ h
    simp only [funext_iff] at h
    have hi : i = i' := by
      by_contra hne
      obtain ⟨k, hk⟩ : ∃ k, k ∉ ({i, i'} : Finset (Fin n)) := by
        by_contra hall
        push Not at hall
        have h1 : (Finset.univ : Finset (Fin n)) ⊆ {i, i'} := fun k _ => hall k
        have := Finset.card_le_card h1
        have := Finset.card_le_two (a := i) (b := i')
        simp at *
        omega
      simp only [Finset.mem_insert, Finset.mem_singleton, not_or] at hk
      have h1 := h k
      have h2 := h i
      simp [hk.1, hk.2, hne] at h1 h2
      subst h1
      cases b <;> simp at h2
    subst hi
    have := h i
    simp at this
    rw [this]

/-- **C119 (the dogs drawn).** A dog is red exactly when its coin is below one half. The traits of a red dog are the three raw draws; those of a
white one are the draws moved by 1, 1 and -1. -/
theorem C119_dog_rand (coin z₁ z₂ z₃ : ℝ) :
    Dog.rand coin z₁ z₂ z₃ = if coin < 1 / 2 then ⟨true, z₁, z₂, z₃⟩ else ⟨false, 1 + z₁, 1 + z₂, -1 + z₃⟩ := by
  unfold Dog.rand normalSample
  by_cases h : coin < 1 / 2 <;> simp

/-- Non-vacuity of C119: two red and two white training dogs and one test dog. -/
example : ∃ k, dogsExample [(⟨true, 0, 0, 0⟩ : Dog ℝ), ⟨true, 1, 2, 3⟩, ⟨false, 5, 6, 7⟩, ⟨false, 6, 8, 5⟩] [⟨true, 1, 1, 1⟩] = ok k := by
  obtain ⟨m', L, -, -, -, h⟩ := (C119_dogs [(⟨true, 0, 0, 0⟩ : Dog ℝ), ⟨true, 1, 2, 3⟩, ⟨false, 5, 6, 7⟩, ⟨false, 6, 8, 5⟩] [⟨true, 1, 1, 1⟩]
    (by simp) (by simp)).2 (by simp) (by simp)
  exact ⟨_, h⟩

/-- Non-vacuity of C119: one red and two white training dogs. -/
example : dogsExample [(⟨true, 0, 0, 0⟩ : Dog ℝ), ⟨false, 5, 6, 7⟩, ⟨false, 6, 8, 5⟩] [⟨true, 1, 1, 1⟩] = Outcome.panic :=
  (C119_dogs _ _ (by simp) (by simp)).1 (by simp)

end RM
