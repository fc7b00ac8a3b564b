import Mathlib.Tactic.NormNum
import Verif.Base.Scalar
import Verif.Model.Calls
import Verif.Model.NaiveBayes
import Verif.Model.Score
import Verif.Spec.Fresh
import Verif.Props.CrossValidation

/-! C82: cross validation scores come from models that have not seen the rows they are tested on. -/

namespace RM
open Outcome Scalar Spec

theorem RowsAt_rowsAt {X : Type} {data : List X} {idx : List ℕ} {rows : List X} (h : RowsAt data idx rows) : rowsAt data idx = rows := by
  induction h with
  | nil => rfl
  | cons h _ ih => rw [rowsAt, List.filterMap_cons, h]; simp only [List.cons.injEq, true_and]; exact ih

/-- One fold after the other, each with the model the fold before has left. -/
def runFolds {σ X Y S : Type} (M : SupModel σ X Y) (inputs : List X) (targets : List Y) (score : List Y → List Y → Outcome S) :
    List Partition → σ → Outcome (List S)
  | [], _ => ok []
  | p :: ps, s => do
    let c ← foldScore M inputs targets score s p
    let cs ← runFolds M inputs targets score ps (M.train s (rowsAt inputs p.train) (rowsAt targets p.train)).1
    ok (c :: cs)

theorem Runs_runFolds {σ X Y S : Type} {M : SupModel σ X Y} {inputs : List X} {targets : List Y} {score : List Y → List Y → Outcome S}
    {folds : List Partition} {s s' : σ} {res : Outcome (List S)} (h : Runs M inputs targets score folds s s' res) :
    runFolds M inputs targets score folds s = res := by
  induction h with
  | done => rfl
  | fold hx hy htx hty htrain hpred hscore rest ih =>
    rw [runFolds, foldScore, RowsAt_rowsAt hx, RowsAt_rowsAt hy, RowsAt_rowsAt htx, RowsAt_rowsAt hty, htrain]
    simp only
    rw [hpred, ok_bind, hscore, ok_bind, ih]
    rfl
  | @trainStops p ps s s' xs ys bad res hx hy htrain hbad hr =>
    rw [runFolds, foldScore, RowsAt_rowsAt hx, RowsAt_rowsAt hy, htrain, hr]
    cases bad with
    | ok u => exact absurd rfl hbad
    | err e => rfl
    | panic => rfl
    | ub => rfl
  | @testStops p ps s s' xs ys tx ty bad res hx hy htx hty htrain hb hne hr =>
    rw [runFolds, foldScore, RowsAt_rowsAt hx, RowsAt_rowsAt hy, RowsAt_rowsAt htx, RowsAt_rowsAt hty, htrain, hr]
    simp only
    rw [hb]
    cases bad with
    | ok u => exact absurd rfl (hne u)
    | err e => rfl
    | panic => rfl
    | ub => rfl

theorem validate_runFolds {σ X Y S : Type} (r : ℕ → ℕ) (M : SupModel σ X Y) (s : σ) (inputs : List X) (targets : List Y) (k : ℕ)
    (score : List Y → List Y → Outcome S) (hrows : inputs.length = targets.length) (h1 : 1 < k) (hn : k ≤ inputs.length) :
    ∃ folds, IsKFold inputs.length k folds ∧ (kFoldValidate r M s inputs targets k score).2 = runFolds M inputs targets score folds s := by
  obtain ⟨folds, s', res, h2, h3, h4⟩ := C03_validate_runs_the_folds r M s inputs targets k score hrows h1 hn
  exact ⟨folds, h2, by rw [h4, Runs_runFolds h3]⟩

/-- **C82.** For a model whose training does not depend on what it was trained on before, every score of the validation is that of the
model, as it was before the validation, trained on the rows outside the fold only. -/
theorem C82_fresh {σ X Y S : Type} (r : ℕ → ℕ) (M : SupModel σ X Y) (s : σ) (inputs : List X) (targets : List Y) (k : ℕ)
    (score : List Y → List Y → Outcome S) (hrows : inputs.length = targets.length) (h1 : 1 < k) (hn : k ≤ inputs.length)
    (hM : ∀ s₁ s₂ xs ys, (M.train s₁ xs ys).2 = (M.train s₂ xs ys).2 ∧
      ((M.train s₁ xs ys).2 = ok () → ∀ tx, M.predict (M.train s₁ xs ys).1 tx = M.predict (M.train s₂ xs ys).1 tx)) :
    ∃ folds, IsKFold inputs.length k folds ∧ FreshScores M inputs targets score s folds (kFoldValidate r M s inputs targets k score).2 := by
  obtain ⟨folds, h2, h3⟩ := validate_runFolds r M s inputs targets k score hrows h1 hn
  refine ⟨folds, h2, ?_⟩
  rw [h3, FreshScores]
  have hf : ∀ s₁ s₂ p, foldScore M inputs targets score s₁ p = foldScore M inputs targets score s₂ p := by
    intro s₁ s₂ p
    obtain ⟨h4, h5⟩ := hM s₁ s₂ (rowsAt inputs p.train) (rowsAt targets p.train)
    unfold foldScore
    rcases e1 : M.train s₁ (rowsAt inputs p.train) (rowsAt targets p.train) with ⟨t1, o1⟩
    rcases e2 : M.train s₂ (rowsAt inputs p.train) (rowsAt targets p.train) with ⟨t2, o2⟩
    rw [e1, e2] at h4 h5
    simp only at h4 h5
    subst h4
    cases o1 with
    | ok u => simp only; rw [h5 rfl]
    | err e => rfl
    | panic => rfl
    | ub => rfl
  have : ∀ (ps : List Partition) (t : σ), runFolds M inputs targets score ps t = ps.mapM (foldScore M inputs targets score s) := by
    intro ps
    induction ps with
    | nil => intro t; rfl
    | cons p ps ih =>
      intro t
      rw [runFolds, hf t s, List.mapM_cons]
      simp only [ih]
      rfl
  exact this folds s

/-- The model that predicts the sum of its training targets meets the hypothesis. -/
example : ∃ M : SupModel ℕ ℕ ℕ, (∀ s₁ s₂ xs ys, (M.train s₁ xs ys).2 = (M.train s₂ xs ys).2 ∧
      ((M.train s₁ xs ys).2 = ok () → ∀ tx, M.predict (M.train s₁ xs ys).1 tx = M.predict (M.train s₂ xs ys).1 tx)) ∧
    (kFoldValidate (fun _ => 1) M 7 [10, 11, 12] [1, 2, 3] 3 (fun o t => ok (o.sum + 100 * t.sum))).2 = ok [204, 303, 105] :=
  ⟨⟨fun _ _ ys => (ys.sum, ok ()), fun s xs => ok (xs.map fun _ => s)⟩, fun _ _ _ _ => ⟨rfl, fun _ _ => rfl⟩, by decide +kernel⟩

variable {F : Type} [Scalar F]

/-- Naive Bayes on data with `c` features and `t` classes. -/
def nbSup {D : Type} (B : NBDistr D F) (c t : ℕ) : SupModel (NaiveBayes D F) (List F) (List F) where
  train m xs ys := nbTrain B m ⟨c, xs⟩ ⟨t, ys⟩
  predict m xs := do
    let out ← nbPredict B m ⟨c, xs⟩
    ok out.rows

/-- **C82 (naive Bayes)**, for every class distribution, in any arithmetic, and whatever the model was trained on before. -/
theorem C82_naive_bayes {D S : Type} (B : NBDistr D F) (c t : ℕ) (r : ℕ → ℕ) (m : NaiveBayes D F) (inputs targets : List (List F)) (k : ℕ)
    (score : List (List F) → List (List F) → Outcome S) (hrows : inputs.length = targets.length) (h1 : 1 < k) (hn : k ≤ inputs.length) :
    ∃ folds, IsKFold inputs.length k folds ∧
      FreshScores (nbSup B c t) inputs targets score m folds (kFoldValidate r (nbSup B c t) m inputs targets k score).2 := by
  refine C82_fresh r _ m inputs targets k score hrows h1 hn fun m₁ m₂ xs ys => ?_
  unfold nbSup nbTrain
  simp only
  rcases nbScan 0 ys (List.replicate t 0) (List.replicate t []) with ⟨counts, o⟩
  cases o with
  | ok data =>
    simp only
    rcases nbFit B ⟨c, xs⟩ 0 data (B.fromParams t c) with ⟨d, o⟩
    cases o <;> simp
  | err e => simp
  | panic => simp
  | ub => simp

/-- Neural networks on data with `c` features and `t` targets, for any optimiser. -/
def netSup (opt : ComputeGrad F → List F → Mat F → Mat F → Outcome (List F)) (c t : ℕ) : SupModel (BaseNet F) (List F) (List F) where
  train m xs ys := m.trainCall opt ⟨c, xs⟩ ⟨t, ys⟩
  predict m xs := do
    let out ← m.forwardProp ⟨c, xs⟩
    ok out.rows

/-- For any model at all the first fold is scored as it should be: the validation stops with its failure or starts with its score. -/
theorem C82_first_fold_partial {σ X Y S : Type} (r : ℕ → ℕ) (M : SupModel σ X Y) (s : σ) (inputs : List X) (targets : List Y) (k : ℕ)
    (score : List Y → List Y → Outcome S) (hrows : inputs.length = targets.length) (h1 : 1 < k) (hn : k ≤ inputs.length) :
    ∃ p ps, IsKFold inputs.length k (p :: ps) ∧
      ∃ rest : Outcome (List S), (kFoldValidate r M s inputs targets k score).2 = (do
        let c ← foldScore M inputs targets score s p
        let cs ← rest
        ok (c :: cs)) := by
  obtain ⟨folds, h2, h3⟩ := validate_runFolds r M s inputs targets k score hrows h1 hn
  cases folds with
  | nil => have := h2.length; simp at this; omega
  | cons p ps => exact ⟨p, ps, h2, _, by rw [h3]; rfl⟩

/-- Gradient descent with one step of size 1/2. -/
noncomputable def oneStep (g : ComputeGrad ℝ) (w : List ℝ) (X T : Mat ℝ) : Outcome (List ℝ) :=
  (GradientDesc.optimize ⟨1 / 2, 1⟩ (fun w => g w X T) w).out

/-- A network with one weight: the output is the weight times the input. -/
noncomputable def oneWeight (w : ℝ) : BaseNet ℝ := ⟨[.withoutBias 1 1], [w], ⟨.mse, .none⟩⟩

theorem one_by_one (x : ℝ) : transposeRows 1 [[x]] = [[x]] := rfl

theorem oneWeight_grad (w y : ℝ) : (oneWeight w).computeGrad [w] ⟨1, [[1]]⟩ ⟨1, [[y]]⟩ = ok ((w - y) ^ 2 / 2, [w - y]) := by
  simp [oneWeight, BaseNet.computeGrad, netForward, sliceAt, NetLayer.withoutBias, NetLayer.paramShape, chunk, NetLayer.forward, Mat.mul,
    Outcome.unwrap, Criterion.costGrad, Criterion.cost, mseGrad, mseCost, Mat.zip, dot, colOf, fsum, netBackward, layerInput, getAt, ofOption,
    NetLayer.backParams, NetLayer.backInput, NetLayer.numParams, copyInto, Mat.transpose, Mat.data, Criterion.isRegularized, Mat.sum, one_by_one, allInit]
  ring

theorem oneWeight_train (w y : ℝ) (h : 1 ≤ |w - y|) : (netSup oneStep 1 1).train (oneWeight w) [[1]] [[y]] = (oneWeight (w - (w - y) / 2), ok ()) := by
  have hc : ¬ |(w - y) ^ 2 / 2| < ((1 / 10 ^ 20 : ℚ) : ℝ) := by
    rw [abs_of_nonneg (by positivity), not_lt, ← sq_abs]
    push_cast
    nlinarith
  have hg := oneWeight_grad w y
  have hw : (oneWeight w).weights = [w] := rfl
  simp only [netSup, BaseNet.trainCall, BaseNet.train, oneStep, GradientDesc.optimize, gdLoop, hw, hg, Logged.call_ok_bind]
  simp only [real_abs, real_sub, real_zero, zero_sub, abs_neg, learningEps, real_ofRat, real_lt, hc, decide_false, Bool.false_eq_true, if_false]
  simp [vecZip, vecScale, assignLast, oneWeight, Logged.lift]
  ring

theorem oneWeight_predict (w : ℝ) : (netSup oneStep 1 1).predict (oneWeight w) [[1]] = ok [[w]] := by
  simp [netSup, oneWeight, BaseNet.forwardProp, forwardRest, sliceAt, NetLayer.withoutBias, NetLayer.paramShape, chunk, NetLayer.forward, Mat.mul, dot, colOf, fsum]

/-- The negative mean squared error. -/
noncomputable def negMse (out t : List (List ℝ)) : Outcome ℝ := negMeanSquaredError ⟨1, out⟩ ⟨1, t⟩

theorem negMse_one (a b : ℝ) : negMse [[a]] [[b]] = ok (-(a - b) ^ 2) := by
  simp [negMse, negMeanSquaredError, mseCost, Mat.zip, Mat.sum, fsum, Mat.data]
  ring

theorem oneWeight_fold (w y z : ℝ) (h : 1 ≤ |w - y|) (X T : List (List ℝ)) (p : Partition) (h1 : rowsAt X p.train = [[1]]) (h2 : rowsAt T p.train = [[y]])
    (h3 : rowsAt X p.test = [[1]]) (h4 : rowsAt T p.test = [[z]]) :
    foldScore (netSup oneStep 1 1) X T negMse (oneWeight w) p = ok (-((w - (w - y) / 2) - z) ^ 2) ∧
    ((netSup oneStep 1 1).train (oneWeight w) (rowsAt X p.train) (rowsAt T p.train)).1 = oneWeight (w - (w - y) / 2) := by
  unfold foldScore
  rw [h1, h2, h3, h4, oneWeight_train w y h]
  simp only
  rw [oneWeight_predict, ok_bind, negMse_one]
  simp

theorem two_folds {folds : List Partition} (h : IsKFold 2 2 folds) :
    folds = [⟨[0], [1]⟩, ⟨[1], [0]⟩] ∨ folds = [⟨[1], [0]⟩, ⟨[0], [1]⟩] := by
  obtain ⟨p, q, rfl⟩ := List.length_eq_two.1 h.length
  have hp : p.test.length = 1 := by simpa using h.sizes 0 (by simp)
  have hq : q.test.length = 1 := by simpa using h.sizes 1 (by simp)
  obtain ⟨i, hi⟩ := List.length_eq_one_iff.1 hp
  obtain ⟨j, hj⟩ := List.length_eq_one_iff.1 hq
  have hcp := h.complementary p (by simp)
  have hcq := h.complementary q (by simp)
  have hpl : p.train.length = 1 := by have := hcp.length_eq; simp [hp] at this; exact this
  have hql : q.train.length = 1 := by have := hcq.length_eq; simp [hq] at this; exact this
  obtain ⟨a, ha⟩ := List.length_eq_one_iff.1 hpl
  obtain ⟨b, hb⟩ := List.length_eq_one_iff.1 hql
  have ht := h.tests
  simp only [List.flatMap_cons, List.flatMap_nil, hi, hj, List.append_nil, List.singleton_append] at ht
  rw [ha, hi, List.singleton_append] at hcp
  rw [hb, hj, List.singleton_append] at hcq
  have key : ∀ u v : ℕ, [u, v].Perm (List.range 2) → (u = 0 ∧ v = 1) ∨ (u = 1 ∧ v = 0) := by
    intro u v huv
    have hu : u ∈ List.range 2 := huv.mem_iff.1 (by simp)
    have hv : v ∈ List.range 2 := huv.mem_iff.1 (by simp)
    have hn : u ≠ v := by
      have := huv.nodup_iff.2 List.nodup_range
      simpa using this
    simp only [List.mem_range] at hu hv
    omega
  have e1 : p = ⟨[a], [i]⟩ := by cases p; simp_all
  have e2 : q = ⟨[b], [j]⟩ := by cases q; simp_all
  rw [e1, e2]
  clear h hp hq hpl hql hi hj ha hb e1 e2
  rcases key _ _ ht with ⟨h1, h2⟩ | ⟨h1, h2⟩ <;> rcases key _ _ hcp with ⟨h3, h4⟩ | ⟨h3, h4⟩ <;> rcases key _ _ hcq with ⟨h5, h6⟩ | ⟨h5, h6⟩ <;>
    first
    | (exfalso; omega)
    | (subst h1 h2 h3 h5; simp)

/-- **C82 fails for neural networks**: training goes on from the weights the fold before has left, and those come from training on the rows
that are now tested. Two samples, a network with one weight, one step of gradient descent per fold: for every shuffle the scores are not
those of networks that have only seen the other sample. -/
theorem C82_nnet_violation (r : ℕ → ℕ) : ∃ folds scores fresh, IsKFold 2 2 folds ∧
    (kFoldValidate r (netSup oneStep 1 1) (oneWeight 0) [[1], [1]] [[2], [6]] 2 negMse).2 = ok scores ∧
    FreshScores (netSup oneStep 1 1) [[1], [1]] [[2], [6]] negMse (oneWeight 0) folds (ok fresh) ∧ scores ≠ fresh := by
  obtain ⟨folds, h1, h2⟩ := validate_runFolds r (netSup oneStep 1 1) (oneWeight 0) [[1], [1]] [[2], [6]] 2 negMse rfl (by norm_num) (by simp)
  rw [h2]
  rcases two_folds h1 with rfl | rfl
  · obtain ⟨a1, a2⟩ := oneWeight_fold 0 2 6 (by norm_num) [[1], [1]] [[2], [6]] ⟨[0], [1]⟩ rfl rfl rfl rfl
    obtain ⟨b1, -⟩ := oneWeight_fold (0 - (0 - 2) / 2) 6 2 (by norm_num) [[1], [1]] [[2], [6]] ⟨[1], [0]⟩ rfl rfl rfl rfl
    obtain ⟨c1, -⟩ := oneWeight_fold 0 6 2 (by norm_num) [[1], [1]] [[2], [6]] ⟨[1], [0]⟩ rfl rfl rfl rfl
    refine ⟨_, [-(0 - (0 - 2) / 2 - 6) ^ 2, -(0 - (0 - 2) / 2 - (0 - (0 - 2) / 2 - 6) / 2 - 2) ^ 2], [-(0 - (0 - 2) / 2 - 6) ^ 2, -(0 - (0 - 6) / 2 - 2) ^ 2], h1, ?_, ?_, by norm_num⟩
    · simp only [runFolds]; rw [a1, a2, b1]; rfl
    · rw [FreshScores, List.mapM_cons, List.mapM_cons, a1, c1]; rfl
  · obtain ⟨a1, a2⟩ := oneWeight_fold 0 6 2 (by norm_num) [[1], [1]] [[2], [6]] ⟨[1], [0]⟩ rfl rfl rfl rfl
    obtain ⟨b1, -⟩ := oneWeight_fold (0 - (0 - 6) / 2) 2 6 (by norm_num) [[1], [1]] [[2], [6]] ⟨[0], [1]⟩ rfl rfl rfl rfl
    obtain ⟨c1, -⟩ := oneWeight_fold 0 2 6 (by norm_num) [[1], [1]] [[2], [6]] ⟨[0], [1]⟩ rfl rfl rfl rfl
    refine ⟨_, [-(0 - (0 - 6) / 2 - 2) ^ 2, -(0 - (0 - 6) / 2 - (0 - (0 - 6) / 2 - 2) / 2 - 6) ^ 2], [-(0 - (0 - 6) / 2 - 2) ^ 2, -(0 - (0 - 2) / 2 - 6) ^ 2], h1, ?_, ?_, by norm_num⟩
    · simp only [runFolds]; rw [a1, a2, b1]; rfl
    · rw [FreshScores, List.mapM_cons, List.mapM_cons, a1, c1]; rfl

end RM
