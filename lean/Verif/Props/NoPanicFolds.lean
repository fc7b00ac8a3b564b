import Verif.Props.NoPanicMore
import Verif.Props.CrossValidation

/-! C87, continued: cross validation, and cases that meet the hypotheses. -/

namespace RM
open Outcome Scalar Spec

variable {F : Type}

/-- **C87 (cross validation).** Validating a model on `1 < k ≤` rows folds does not crash if training it on rows from the data,
predicting rows from the data and scoring lists of equal length do not. -/
theorem C87_cross_validation {σ X Y S : Type} (r : ℕ → ℕ) (M : SupModel σ X Y) (I : σ → Prop) (s : σ) (inputs : List X) (targets : List Y) (k : ℕ)
    (score : List Y → List Y → Outcome S) (hrows : inputs.length = targets.length) (h1 : 1 < k) (hn : k ≤ inputs.length)
    (htrain : ∀ s xs ys, xs.length = ys.length → 0 < xs.length → (∀ x ∈ xs, x ∈ inputs) → (∀ y ∈ ys, y ∈ targets) →
      Safe (fun _ => I (M.train s xs ys).1) (M.train s xs ys).2)
    (hpred : ∀ s xs, I s → (∀ x ∈ xs, x ∈ inputs) → Safe (fun out => out.length = xs.length) (M.predict s xs))
    (hscore : ∀ a b : List Y, a.length = b.length → Safe (fun _ => True) (score a b)) :
    Safe (fun costs => costs.length = k) (kFoldValidate r M s inputs targets k score).2 := by
  obtain ⟨folds, s', res, hf, hruns, e⟩ := C03_validate_runs_the_folds r M s inputs targets k score hrows h1 hn
  rw [e]
  have mem_of : ∀ {Z : Type} {data : List Z} {idx : List ℕ} {rows : List Z}, RowsAt data idx rows → rows.length = idx.length ∧ ∀ z ∈ rows, z ∈ data := by
    intro Z data idx rows h
    induction h with
    | nil => exact ⟨rfl, by simp⟩
    | cons h _ ih =>
      refine ⟨by simp [ih.1], ?_⟩
      intro z hz
      rcases List.mem_cons.mp hz with rfl | hz
      · exact List.mem_of_getElem? h
      · exact ih.2 z hz
  have hpos : ∀ p ∈ folds, 0 < p.train.length := by
    intro p hp
    obtain ⟨i, hi, rfl⟩ := List.mem_iff_getElem.mp hp
    have hs := hf.sizes i hi
    have hc := (hf.complementary _ (List.getElem_mem hi)).length_eq
    rw [List.length_append, List.length_range, hs] at hc
    by_contra h0
    have h0 : folds[i].train.length = 0 := by omega
    rw [h0, Nat.zero_add] at hc
    have hd := Nat.div_add_mod inputs.length k
    have hq : 1 ≤ inputs.length / k := (Nat.one_le_div_iff (by omega)).mpr hn
    have hm : k * (inputs.length / k) ≥ 2 * (inputs.length / k) := Nat.mul_le_mul_right _ h1
    split at hc <;> omega
  have hkl := hf.length
  clear hf e hn
  have main : ∀ (folds : List Partition) (s s' : σ) (res : Outcome (List S)), (∀ p ∈ folds, 0 < p.train.length) →
      Runs M inputs targets score folds s s' res → Safe (fun costs => costs.length = folds.length) res := by
    intro folds s s' res hp hr
    induction hr with
    | done s => exact rfl
    | fold hx hy htx hty ht hpr hsc rest ih =>
      exact Safe.bind (ih fun p h => hp p (List.mem_cons_of_mem _ h)) fun cs hcs => by
        show (_ :: cs).length = _
        simp [hcs]
    | @trainStops p ps s s' xs ys bad res hx hy ht hbad hres =>
      have hm1 := mem_of hx
      have hm2 := mem_of hy
      have := htrain s xs ys (by rw [hm1.1, hm2.1]) (by rw [hm1.1]; exact hp _ List.mem_cons_self) hm1.2 hm2.2
      rw [ht] at this
      subst hres
      cases bad with
      | ok u => exact absurd rfl hbad
      | err _ => trivial
      | panic => exact this.elim
      | ub => exact this.elim
    | @testStops p ps s s' xs ys tx ty bad res hx hy htx hty ht hbad hne hres =>
      have hm1 := mem_of hx
      have hm2 := mem_of hy
      have hm3 := mem_of htx
      have hm4 := mem_of hty
      have hI := htrain s xs ys (by rw [hm1.1, hm2.1]) (by rw [hm1.1]; exact hp _ List.mem_cons_self) hm1.2 hm2.2
      rw [ht] at hI
      have hb : Safe (fun _ => True) bad := by
        rw [← hbad]
        exact Safe.bind (hpred s' tx hI hm3.2) fun out ho => hscore out ty (by rw [ho, hm3.1, hm4.1])
      subst hres
      cases bad with
      | ok c => exact absurd rfl (hne c)
      | err _ => trivial
      | panic => exact hb.elim
      | ub => exact hb.elim
  rw [← hkl]
  exact main folds s s' res hpos hruns

/-! ### Cases that meet the hypotheses

Two rows with an infinity and a NaN. -/

noncomputable def oddData : Mat XR := ⟨2, [[.fin 1, .nan], [.pinf, .fin 2]]⟩

theorem oddData_shape : HasShape oddData 2 2 := by simp [HasShape, oddData]

/-- A solver that always fails. -/
def failSolve : Mat XR → List XR → Outcome (List XR) := fun _ _ => err .LinearAlgebra
theorem failSolve_safe : SafeSolver failSolve := fun _ _ _ _ _ => trivial

example : Safe (fun m => ∃ p, m.parameters = some p ∧ p.length = 3) (LinReg.train failSolve oddData [.nan, .ninf]) :=
  C87_lin_reg_train failSolve failSolve_safe oddData_shape rfl

example : Safe (fun m => ∃ p, m.parameters = some p ∧ p.length = 3)
    (LogReg.train (fun g start => (GradientDesc.optimize ⟨.fin 1, 100⟩ g start).out) oddData [.nan, .ninf]) :=
  C87_log_reg_train _ (C87_gradient_desc _) oddData_shape rfl

/-- A network of two linear layers is trained on these rows. -/
noncomputable def oddNet : BaseNet XR := ⟨[.new 2 3, .activ sigmoid, .new 3 1], List.replicate 13 .nan, ⟨.bce, .l2 .pinf⟩⟩

example (r : ℕ → ℕ → ℕ) : Safe (fun net' => net'.layers = oddNet.layers ∧ net'.weights.length = totalParams oddNet.layers)
    (oddNet.train (fun g start X Y => (StochasticGD.optimize ⟨.fin 1, .fin 1, 20⟩ g r start X Y).out) oddData ⟨1, [[.nan], [.fin 1]]⟩) :=
  C87_nnet_train _ (C87_stochastic_gd _ r) oddNet (by simp [oddNet]) (.linear true rfl (.activ _ (.linear true rfl (.nil 1)))) rfl oddData_shape
    (by simp [HasShape])

example : Safe (fun _ => ∃ C, (kmTrain (fun k X => partitionInit [5] k X) ⟨100, 2, none⟩ oddData).1.centroids = some C ∧ HasShape C 2 2)
    (kmTrain (fun k X => partitionInit [5] k X) ⟨100, 2, none⟩ oddData).2 :=
  C87_kmeans_train _ _ oddData_shape (by simp) fun h => C87_random_partition _ _ oddData_shape (by simp) h

/-- A new model. -/
def nbOdd : NaiveBayes (GaussD XR) XR := nbNew _ _

example : Safe (fun _ => NBReady (fun d k c => HasShape d.theta k c ∧ HasShape d.sigma k c)
    (nbTrain (gaussDistr (F := XR)) nbOdd oddData ⟨2, [[.fin 1, .fin 0], [.nan, .fin 1]]⟩).1 2 2)
    (nbTrain (gaussDistr (F := XR)) nbOdd oddData ⟨2, [[.fin 1, .fin 0], [.nan, .fin 1]]⟩).2 :=
  C87_naive_bayes_train _ _ C87_gaussian _ oddData_shape (by simp [HasShape])

/-- Two neighbours of a row with a NaN: the search panics. -/
example : ¬ Safe (fun r => r.1.length = 2 ∧ r.2.length = 2 ∧ ∀ i ∈ r.1, i < 2) (bruteSearch (some oddData) [.fin 0, .fin 0] 2) := by
  intro h
  have := (C87_brute_force oddData [.fin 0, .fin 0] (k := 2) (by omega) (by simp [oddData])).mp h
  rcases this with h | h
  · omega
  · have := h [.fin 1, .nan] (by simp [oddData])
    have e : knnDist [.fin 0, .fin 0] [.fin 1, .nan] = XR.nan := rfl
    rw [e] at this
    cases this

/-- One neighbour: it does not. -/
example : Safe (fun r => r.1.length = 1 ∧ r.2.length = 1 ∧ ∀ i ∈ r.1, i < 2) (bruteSearch (some oddData) [.fin 0, .fin 0] 1) :=
  (C87_brute_force oddData [.fin 0, .fin 0] (k := 1) (by omega) (by simp [oddData])).mpr (.inl rfl)

/-- A factorisation that always succeeds. -/
noncomputable def oddLup : Mat XR → Outcome (XR × Outcome (Mat XR)) := fun A => ok (.fin 1, ok A)

/-- Two components on these rows: training with a factorisation that succeeds does not crash. -/
example (draws : ℕ → ℕ) : Safe (fun m' => GmmReady m' 2 2)
    (Gmm.train oddLup draws ⟨2, [.fin 1, .fin 1], none, none, .fin 0, 100, .full⟩ oddData) := by
  rcases C87_gmm_train oddLup draws ⟨2, [.fin 1, .fin 1], none, none, .fin 0, 100, .full⟩ (fun A hA => hA) rfl oddData_shape (Nat.le_refl 2) with h | ⟨_, h⟩
  · exact h
  · obtain ⟨_, _, _, _, _, _, _, _, _, _, _, h⟩ := h
    cases h

/-- A factorisation that always fails meets the hypothesis too, and then predicting panics. -/
example : SafeLup 2 (fun _ : Mat XR => err .LinearAlgebra) ∧
    Gmm.predict (fun _ => err .LinearAlgebra) ⟨2, [.fin 1, .fin 1], some oddData, some [oddData, oddData], .fin 0, 100, .full⟩ oddData = Outcome.panic :=
  ⟨fun _ _ => trivial, rfl⟩

end RM
