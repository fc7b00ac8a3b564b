import Verif.Props.NaiveBayesSmoothing
import Verif.Proofs.Lloyd
import Mathlib.Analysis.MeanInequalities
import Mathlib.MeasureTheory.Integral.Pi
import Mathlib.Probability.Distributions.Gaussian.Real

/-! C113: under the distribution that naive Bayes fits no other classifier is right more often, and the distribution is the one of largest likelihood. Exact arithmetic. -/

namespace RM
open Outcome Scalar Spec MeasureTheory

/-! ### Specification -/

/-- The sum of feature `j` over the training samples of class `c`. -/
noncomputable def Spec.featureSum (X T : Mat ℝ) (c j : ℕ) : ℝ := ((classSamples X.rows T.rows c).map fun x => coord x j).sum

/-- The proportion of the training samples in class `c`. -/
noncomputable def Spec.proportion (X T : Mat ℝ) (c : ℕ) : ℝ := (classSize T.rows c : ℝ) / X.rows.length

/-- The probability of feature `j` in class `c`, with one more sample with it and one without it. -/
noncomputable def Spec.presence (X T : Mat ℝ) (c j : ℕ) : ℝ := (featureSum X T c j + 1) / (classSize T.rows c + 2)

/-- The probability of class `c` together with the 0/1 features `x` when class `c` has probability `q c` and feature `j` is present in it with probability `p c j`. -/
noncomputable def Spec.bernoulliJoint (d : ℕ) (q : ℕ → ℝ) (p : ℕ → ℕ → ℝ) (c : ℕ) (x : List ℝ) : ℝ :=
  q c * ∏ j ∈ Finset.range d, p c j ^ coord x j * (1 - p c j) ^ (1 - coord x j)

/-- The same with the fitted probabilities. -/
noncomputable def Spec.bernoulliModel (X T : Mat ℝ) : ℕ → List ℝ → ℝ := bernoulliJoint X.cols (proportion X T) (presence X T)

/-- The share of feature `j` among the counts of class `c`, with one more count for each feature. -/
noncomputable def Spec.share (X T : Mat ℝ) (c j : ℕ) : ℝ := (featureSum X T c j + 1) / (∑ l ∈ Finset.range X.cols, featureSum X T c l + X.cols)

/-- The probability of class `c` together with any sequence of draws in which feature `j` appears `x_j` times. -/
noncomputable def Spec.multinomialJoint (d : ℕ) (q : ℕ → ℝ) (p : ℕ → ℕ → ℝ) (c : ℕ) (x : List ℝ) : ℝ := q c * ∏ j ∈ Finset.range d, p c j ^ coord x j

/-- The same with the fitted probabilities. -/
noncomputable def Spec.multinomialModel (X T : Mat ℝ) : ℕ → List ℝ → ℝ := multinomialJoint X.cols (proportion X T) (share X T)

/-- The density of class `c` together with the features `x`: independent normal features. -/
noncomputable def Spec.gaussianJoint (d : ℕ) (q : ℕ → ℝ) (μ v : ℕ → ℕ → ℝ) (c : ℕ) (x : List ℝ) : ℝ :=
  q c * ∏ j ∈ Finset.range d, normalPdf (μ c j) (v c j) (coord x j)

/-- The mean of feature `j` in class `c`. -/
noncomputable def Spec.classMean (X T : Mat ℝ) (c j : ℕ) : ℝ := Spec.mean ((classSamples X.rows T.rows c).map fun x => coord x j)

/-- The sample variance of feature `j` in class `c`. -/
noncomputable def Spec.classVar (X T : Mat ℝ) (c j : ℕ) : ℝ := sampleVar ((classSamples X.rows T.rows c).map fun x => coord x j)

/-- The density with the fitted means and variances. -/
noncomputable def Spec.gaussianModel (X T : Mat ℝ) : ℕ → List ℝ → ℝ := gaussianJoint X.cols (proportion X T) (classMean X T) (classVar X T)

/-- How likely the training data are: the product over the samples of the probability of the sample with its class. -/
noncomputable def Spec.likelihood (X T : Mat ℝ) (joint : ℕ → List ℝ → ℝ) : ℝ := ∏ c ∈ Finset.range T.cols, ((classSamples X.rows T.rows c).map (joint c)).prod

/-- `q` gives the first `n` outcomes probabilities. -/
def Spec.Probabilities (n : ℕ) (q : ℕ → ℝ) : Prop := (∀ i < n, 0 ≤ q i) ∧ ∑ i ∈ Finset.range n, q i = 1

/-- The trained model computes the logarithms of `joint`. -/
def Spec.ComputesLog {D : Type} (B : NBDistr D ℝ) (m : NaiveBayes D ℝ) (d k : ℕ) (joint : ℕ → List ℝ → ℝ) : Prop :=
  ∀ x : List ℝ, x.length = d → ∃ L, nbLogProbs B m ⟨d, [x]⟩ = ok L ∧ ∀ c < k, Real.exp (coord (rowOf L 0) c) = joint c x

/-- All rows of `d` zeros and ones. -/
def Spec.binaryRows : ℕ → List (List ℝ)
  | 0 => [[]]
  | d + 1 => (binaryRows d).flatMap fun x => [0 :: x, 1 :: x]

/-- The model marks class `pred x` for the row `x`. -/
def Spec.Decides {D : Type} (B : NBDistr D ℝ) (m : NaiveBayes D ℝ) (d k : ℕ) (pred : List ℝ → ℕ) : Prop :=
  ∀ x : List ℝ, x.length = d → pred x < k ∧ ∃ row, nbPredict B m ⟨d, [x]⟩ = ok ⟨k, [row]⟩ ∧ IsOneHot k (pred x) row

/-! ### Decisions -/

theorem nb_decides {D : Type} (B : NBDistr D ℝ) (m : NaiveBayes D ℝ) {d k : ℕ} {x : List ℝ} (hk : 0 < k) (hm : m.clusterCount = some k) {L : Mat ℝ}
    (hL : nbLogProbs B m ⟨d, [x]⟩ = ok L) (hLt : IsTable 1 k L) :
    ∃ i, i < k ∧ (∃ row, nbPredict B m ⟨d, [x]⟩ = ok ⟨k, [row]⟩ ∧ IsOneHot k i row) ∧ ∀ c < k, coord (rowOf L 0) c ≤ coord (rowOf L 0) i := by
  obtain ⟨P, hP, h1, h2⟩ := nbPredict_real B m ⟨d, [x]⟩ L hk hm hL hLt
  obtain ⟨hc, hl, hw⟩ := hLt
  obtain ⟨lik, hlik⟩ := List.length_eq_one_iff.1 hl
  obtain ⟨pc, prows⟩ := P
  simp only at h1 h2
  subst h1
  rw [hlik] at h2
  cases h2 with
  | cons h3 h4 =>
    cases h4
    rename_i row
    obtain ⟨i, ⟨v, hv, hmax, -⟩, hone⟩ := h3
    have hll : lik.length = pc := by rw [← hc]; exact hw lik (by rw [hlik]; simp)
    have hrow : rowOf L 0 = lik := by simp [rowOf, hlik]
    refine ⟨i, hone.2.1, ⟨row, hP, hone⟩, fun c hck => ?_⟩
    rw [hrow]
    unfold coord
    rw [List.getD_eq_getElem?_getD, List.getD_eq_getElem?_getD, hv, List.getElem?_eq_getElem (by omega)]
    exact hmax _ (List.getElem_mem _)

theorem choose_decides {D : Type} {B : NBDistr D ℝ} {m : NaiveBayes D ℝ} {d k : ℕ} (hk : 0 < k) {joint : ℕ → List ℝ → ℝ}
    (h : ∀ x : List ℝ, x.length = d → ∃ i, i < k ∧ (∃ row, nbPredict B m ⟨d, [x]⟩ = ok ⟨k, [row]⟩ ∧ IsOneHot k i row) ∧ ∀ c < k, joint c x ≤ joint i x) :
    ∃ pred, Decides B m d k pred ∧ ∀ x : List ℝ, x.length = d → ∀ c < k, joint c x ≤ joint (pred x) x := by
  choose! pred h1 h2 h3 using h
  exact ⟨pred, fun x hx => ⟨h1 x hx, h2 x hx⟩, h3⟩

theorem binaryRows_length {d : ℕ} {x : List ℝ} (h : x ∈ binaryRows d) : x.length = d := by
  induction d generalizing x with
  | zero => simp [binaryRows] at h; simp [h]
  | succ d ih =>
    simp only [binaryRows, List.mem_flatMap, List.mem_cons, List.not_mem_nil, or_false] at h
    obtain ⟨y, hy, rfl | rfl⟩ := h <;> simp [ih hy]

theorem sum_map_flatMap {α β : Type} (l : List α) (f : α → List β) (g : β → ℝ) : ((l.flatMap f).map g).sum = (l.map fun x => ((f x).map g).sum).sum := by
  induction l with
  | nil => rfl
  | cons a l ih => simp [ih]

theorem sum_map_sum {α : Type} (l : List α) (s : Finset ℕ) (f : ℕ → α → ℝ) : (l.map fun x => ∑ c ∈ s, f c x).sum = ∑ c ∈ s, (l.map (f c)).sum := by
  induction l with
  | nil => simp
  | cons a l ih => simp [ih, Finset.sum_add_distrib]

theorem sum_map_le {α : Type} {l : List α} {f g : α → ℝ} (h : ∀ x ∈ l, f x ≤ g x) : (l.map f).sum ≤ (l.map g).sum := by
  induction l with
  | nil => simp
  | cons a l ih =>
    simp only [List.map_cons, List.sum_cons]
    exact add_le_add (h a (by simp)) (ih fun x hx => h x (by simp [hx]))

theorem sum_binary {p : ℕ → ℝ} (d : ℕ) :
    ((binaryRows d).map fun x => ∏ j ∈ Finset.range d, p j ^ coord x j * (1 - p j) ^ (1 - coord x j)).sum = 1 := by
  induction d generalizing p with
  | zero => simp [binaryRows]
  | succ d ih =>
    have e : ((binaryRows (d + 1)).map fun x => ∏ j ∈ Finset.range (d + 1), p j ^ coord x j * (1 - p j) ^ (1 - coord x j)).sum =
        ((binaryRows d).map fun x => ∏ j ∈ Finset.range d, p (j + 1) ^ coord x j * (1 - p (j + 1)) ^ (1 - coord x j)).sum := by
      simp only [binaryRows]
      rw [sum_map_flatMap]
      congr 1
      refine List.map_congr_left fun x _ => ?_
      simp only [Finset.prod_range_succ', coord, List.getD_cons_zero, List.getD_cons_succ, List.map_cons, List.map_nil, List.sum_cons, List.sum_nil]
      simp
      ring
    rw [e]
    exact ih (p := fun j => p (j + 1))

theorem proportion_sum {X T : Mat ℝ} (hT : T.WF) (hn : X.rows.length = T.rows.length) (hpos : 0 < X.rows.length) (hc : ∀ t ∈ T.rows, ∃ v ∈ t, v = 1) :
    ∑ c ∈ Finset.range T.cols, proportion X T c = 1 := by
  have h1 := sum_count T.cols (classesOf T.rows) (classesOf_lt hT)
  rw [classesOf_length (classOf_ne_none hc)] at h1
  have h2 : ∑ c ∈ Finset.range T.cols, (classSize T.rows c : ℝ) = (T.rows.length : ℝ) := by
    rw [← h1]
    induction T.cols with
    | zero => simp
    | succ n ih => rw [Finset.sum_range_succ, ih, List.range_succ, List.map_append, List.sum_append]; simp [count_classesOf]
  unfold proportion
  rw [← Finset.sum_div, h2, hn]
  exact div_self (by rw [← hn]; positivity)

/-- What the three models share: the exponentials of the log-probabilities are the joint probabilities. -/
theorem decides_of_logProbs {D : Type} {B : NBDistr D ℝ} {m : NaiveBayes D ℝ} {d k : ℕ} (hk : 0 < k) (hm : m.clusterCount = some k) {joint : ℕ → List ℝ → ℝ}
    (h : ∀ x : List ℝ, x.length = d → ∃ L, nbLogProbs B m ⟨d, [x]⟩ = ok L ∧ IsTable 1 k L ∧ ∀ c < k, Real.exp (coord (rowOf L 0) c) = joint c x) :
    ∃ pred, Decides B m d k pred ∧ ∀ x : List ℝ, x.length = d → ∀ c < k, joint c x ≤ joint (pred x) x := by
  refine choose_decides hk fun x hx => ?_
  obtain ⟨L, h1, h2, h3⟩ := h x hx
  obtain ⟨i, hi, hrow, hmax⟩ := nb_decides B m hk hm h1 h2
  refine ⟨i, hi, hrow, fun c hck => ?_⟩
  rw [← h3 c hck, ← h3 i hi]
  exact Real.exp_le_exp.2 (hmax c hck)

section
variable {X T : Mat ℝ} (hX : X.WF) (hT : T.WF) (hn : X.rows.length = T.rows.length) (hc : ∀ t ∈ T.rows, ∃ v ∈ t, v = 1) (hall : ∀ c < T.cols, 0 < classSize T.rows c)

include hX hT hn hc hall in
theorem bern_joint (m : NaiveBayes (LogProbsD ℝ) ℝ) (hdata : ∀ x ∈ X.rows, ∀ v ∈ x, 0 ≤ v ∧ v ≤ 1) :
    ∃ m', nbTrain bernDistr m X T = (m', ok ()) ∧ m'.clusterCount = some T.cols ∧ ∀ x : List ℝ, x.length = X.cols → ∃ L, nbLogProbs bernDistr m' ⟨X.cols, [x]⟩ = ok L ∧
      IsTable 1 T.cols L ∧ ∀ c < T.cols, Real.exp (coord (rowOf L 0) c) = bernoulliModel X T c x := by
  obtain ⟨m', d, h1, h2, h3, h4, h5, -⟩ := nb_trained_bern (m := m) hT (classOf_ne_none hc) hn
  have hx : ∀ x : List ℝ, x.length = X.cols → ∃ L, nbLogProbs bernDistr m' ⟨X.cols, [x]⟩ = ok L ∧ IsTable 1 T.cols L ∧
      ∀ c < T.cols, Real.exp (coord (rowOf L 0) c) = bernoulliModel X T c x := by
    intro x hx
    have hY : (⟨X.cols, [x]⟩ : Mat ℝ).WF := by intro r h; simp only [List.mem_singleton] at h; rw [h, hx]
    obtain ⟨m₁, L, t1, t2, -, t3⟩ := C36_bernoulli m X T ⟨X.cols, [x]⟩ hX hT hY rfl hc hn hdata
    rw [h1] at t1
    obtain rfl : m' = m₁ := congrArg Prod.fst t1
    have hL := bern_logProbs (Y := ⟨X.cols, [x]⟩) hY h2 h4 (k := T.cols) (by simp) h5
    rw [hL] at t2
    injection t2 with t2
    refine ⟨_, hL, lik_table T.cols [x] _, fun c hck => ?_⟩
    rw [t2]
    exact (t3 c hck (hall c hck)).2 0 (by simp)
  exact ⟨m', h1, h3, hx⟩

include hX hT hn hc hall in
theorem mult_joint (m : NaiveBayes (LogProbsD ℝ) ℝ) (hdata : ∀ x ∈ X.rows, ∀ v ∈ x, 0 ≤ v) :
    ∃ m', nbTrain multDistr m X T = (m', ok ()) ∧ m'.clusterCount = some T.cols ∧ ∀ x : List ℝ, x.length = X.cols → ∃ L, nbLogProbs multDistr m' ⟨X.cols, [x]⟩ = ok L ∧
      IsTable 1 T.cols L ∧ ∀ c < T.cols, Real.exp (coord (rowOf L 0) c) = multinomialModel X T c x := by
  obtain ⟨m', d, h1, h2, h3, h4, h5, -⟩ := nb_trained_mult (m := m) hT (classOf_ne_none hc) hn
  have hx : ∀ x : List ℝ, x.length = X.cols → ∃ L, nbLogProbs multDistr m' ⟨X.cols, [x]⟩ = ok L ∧ IsTable 1 T.cols L ∧
      ∀ c < T.cols, Real.exp (coord (rowOf L 0) c) = multinomialModel X T c x := by
    intro x hx
    have hY : (⟨X.cols, [x]⟩ : Mat ℝ).WF := by intro r h; simp only [List.mem_singleton] at h; rw [h, hx]
    obtain ⟨m₁, L, t1, t2, -, t3⟩ := C36_multinomial m X T ⟨X.cols, [x]⟩ hX hT hY rfl hc hn hdata
    rw [h1] at t1
    obtain rfl : m' = m₁ := congrArg Prod.fst t1
    have hL := mult_logProbs (Y := ⟨X.cols, [x]⟩) hY h2 h4 (k := T.cols) (by simp) h5
    rw [hL] at t2
    injection t2 with t2
    refine ⟨_, hL, lik_table T.cols [x] _, fun c hck => ?_⟩
    rw [t2]
    exact (t3 c hck (hall c hck)).2.2.2 0 (by simp)
  exact ⟨m', h1, h3, hx⟩

include hX hT hn hall in
theorem gauss_joint (m m' : NaiveBayes (GaussD ℝ) ℝ) (h : nbTrain gaussDistr m X T = (m', ok ()))
    (hvar : ∀ c < T.cols, ∀ j < X.cols, NonConstant ((classSamples X.rows T.rows c).map fun x => coord x j)) :
    ∀ x : List ℝ, x.length = X.cols → ∃ L, nbLogProbs gaussDistr m' ⟨X.cols, [x]⟩ = ok L ∧ IsTable 1 T.cols L ∧
      ∀ c < T.cols, Real.exp (coord (rowOf L 0) c) = gaussianModel X T c x := by
  intro x hx
  have hY : (⟨X.cols, [x]⟩ : Mat ℝ).WF := by intro r h; simp only [List.mem_singleton] at h; rw [h, hx]
  obtain ⟨L, t2, -, t3⟩ := C35_gaussian m m' X T ⟨X.cols, [x]⟩ hX hT hY rfl hn h
  obtain ⟨-, L', hL, hLt⟩ := nb_trained_gauss (X := X) (Y := ⟨X.cols, [x]⟩) hT rfl h
  rw [hL] at t2
  injection t2 with t2
  refine ⟨_, hL, hLt, fun c hck => ?_⟩
  rw [t2]
  exact (t3 c hck (hall c hck)).2.2 (hvar c hck) 0 (by simp)

end

section
variable {X T : Mat ℝ} (hX : X.WF) (hT : T.WF) (hn : X.rows.length = T.rows.length) (hc : ∀ t ∈ T.rows, ∃ v ∈ t, v = 1) (hk : 0 < T.cols)
  (hall : ∀ c < T.cols, 0 < classSize T.rows c)
include hX hT hn hc hk hall

/-- **C113 (Bernoulli).** With 0/1 features and samples of every class, naive Bayes fits a probability distribution of classes and feature rows. Under this distribution no classifier
is right with a larger probability than the trained model. -/
theorem C113_bernoulli (m : NaiveBayes (LogProbsD ℝ) ℝ) (hdata : ∀ x ∈ X.rows, ∀ v ∈ x, 0 ≤ v ∧ v ≤ 1) :
    (∀ c < T.cols, ∀ x ∈ binaryRows X.cols, 0 ≤ bernoulliModel X T c x) ∧
    ((binaryRows X.cols).map fun x => ∑ c ∈ Finset.range T.cols, bernoulliModel X T c x).sum = 1 ∧
    ∃ m' pred, nbTrain bernDistr m X T = (m', ok ()) ∧ Decides bernDistr m' X.cols T.cols pred ∧
      ∀ g : List ℝ → ℕ, (∀ x, g x < T.cols) →
        ((binaryRows X.cols).map fun x => bernoulliModel X T (g x) x).sum ≤ ((binaryRows X.cols).map fun x => bernoulliModel X T (pred x) x).sum := by
  have hpos := class_pos hn (hall 0 hk)
  obtain ⟨m', h1, h3, hx⟩ := bern_joint hX hT hn hc hall m hdata
  obtain ⟨pred, hp, hmax⟩ := decides_of_logProbs hk h3 hx
  refine ⟨?_, ?_, m', pred, h1, hp, ?_⟩
  · intro c hck x hxb
    obtain ⟨L, -, -, hL⟩ := hx x (binaryRows_length hxb)
    rw [← hL c hck]
    exact (Real.exp_pos _).le
  · rw [sum_map_sum, ← proportion_sum hT hn hpos hc]
    refine Finset.sum_congr rfl fun c _ => ?_
    unfold bernoulliModel bernoulliJoint
    rw [List.sum_map_mul_left, sum_binary, mul_one]
  · intro g hg
    exact sum_map_le fun x hxb => hmax x (binaryRows_length hxb) _ (hg x)

/-- **C113 (multinomial).** With counts as features and samples of every class, the trained model is right at least as often as any other classifier, whatever finite set of rows is
classified and however many sequences of draws are counted for each row. -/
theorem C113_multinomial (m : NaiveBayes (LogProbsD ℝ) ℝ) (hdata : ∀ x ∈ X.rows, ∀ v ∈ x, 0 ≤ v) :
    ∃ m' pred, nbTrain multDistr m X T = (m', ok ()) ∧ Decides multDistr m' X.cols T.cols pred ∧
      ∀ g : List ℝ → ℕ, (∀ x, g x < T.cols) → ∀ (rows : List (List ℝ)) (weight : List ℝ → ℝ), (∀ x ∈ rows, x.length = X.cols ∧ 0 ≤ weight x) →
        (rows.map fun x => weight x * multinomialModel X T (g x) x).sum ≤ (rows.map fun x => weight x * multinomialModel X T (pred x) x).sum := by
  have hpos := class_pos hn (hall 0 hk)
  obtain ⟨m', h1, h3, hx⟩ := mult_joint hX hT hn hc hall m hdata
  obtain ⟨pred, hp, hmax⟩ := decides_of_logProbs hk h3 hx
  refine ⟨m', pred, h1, hp, ?_⟩
  intro g hg rows weight hw
  exact sum_map_le fun x hxb => mul_le_mul_of_nonneg_left (hmax x (hw x hxb).1 _ (hg x)) (hw x hxb).2

/-- **C113 (Gaussian).** With samples of every class and no feature constant on a class, naive Bayes fits a probability density of classes and feature rows. Under this density no
classifier is right with a larger probability than the trained model. -/
theorem C113_gaussian (m m' : NaiveBayes (GaussD ℝ) ℝ) (h : nbTrain gaussDistr m X T = (m', ok ()))
    (hvar : ∀ c < T.cols, ∀ j < X.cols, NonConstant ((classSamples X.rows T.rows c).map fun x => coord x j)) :
    (∀ c < T.cols, ∀ x : List ℝ, 0 ≤ gaussianModel X T c x) ∧
    ∫ x : Fin X.cols → ℝ, ∑ c ∈ Finset.range T.cols, gaussianModel X T c (List.ofFn x) = 1 ∧
    ∃ pred, Decides gaussDistr m' X.cols T.cols pred ∧ ∀ g : List ℝ → ℕ, (∀ x, g x < T.cols) →
      ∫ x : Fin X.cols → ℝ, gaussianModel X T (g (List.ofFn x)) (List.ofFn x) ≤ ∫ x : Fin X.cols → ℝ, gaussianModel X T (pred (List.ofFn x)) (List.ofFn x) := by
  have hpos := class_pos hn (hall 0 hk)
  have hx := gauss_joint hX hT hn hall m m' h hvar
  have hm' : m'.clusterCount = some T.cols := (nb_trained_gauss (Y := X) hT rfl h).1
  obtain ⟨pred, hp, hmax⟩ := decides_of_logProbs hk hm' hx
  have hv : ∀ c < T.cols, ∀ j < X.cols, 0 < sampleVar ((classSamples X.rows T.rows c).map fun x => coord x j) := fun c hck j hj => sampleVar_pos (hvar c hck j hj)
  have hnn : ∀ c < T.cols, ∀ x : List ℝ, 0 ≤ gaussianModel X T c x := by
    intro c hck x
    unfold gaussianModel gaussianJoint proportion normalPdf
    positivity
  have hform : ∀ c (x : Fin X.cols → ℝ), gaussianModel X T c (List.ofFn x) = proportion X T c *
      ∏ j : Fin X.cols, normalPdf (Spec.mean ((classSamples X.rows T.rows c).map fun x => coord x j))
        (sampleVar ((classSamples X.rows T.rows c).map fun x => coord x j)) (x j) := by
    intro c x
    unfold gaussianModel gaussianJoint classMean classVar
    rw [Finset.prod_range]
    congr 1
    refine Finset.prod_congr rfl fun j _ => ?_
    congr 1
    unfold coord
    rw [List.getD_eq_getElem?_getD, List.getElem?_eq_getElem (by simp)]
    simp
  have hone : ∀ c < T.cols, ∀ j : Fin X.cols, Integrable (fun t => normalPdf (Spec.mean ((classSamples X.rows T.rows c).map fun x => coord x j))
        (sampleVar ((classSamples X.rows T.rows c).map fun x => coord x j)) t) ∧
      ∫ t, normalPdf (Spec.mean ((classSamples X.rows T.rows c).map fun x => coord x j)) (sampleVar ((classSamples X.rows T.rows c).map fun x => coord x j)) t = 1 := by
    intro c hck j
    have h0 := hv c hck j j.2
    set v : NNReal := ⟨_, h0.le⟩ with hvdef
    have hv0 : v ≠ 0 := fun h => h0.ne' (congrArg NNReal.toReal h)
    exact ⟨ProbabilityTheory.integrable_gaussianPDFReal _ v, ProbabilityTheory.integral_gaussianPDFReal_eq_one _ hv0⟩
  have hint : ∀ c < T.cols, Integrable (fun x : Fin X.cols → ℝ => gaussianModel X T c (List.ofFn x)) := by
    intro c hck
    simp only [hform]
    exact (Integrable.fintype_prod fun j => (hone c hck j).1).const_mul _
  refine ⟨hnn, ?_, pred, hp, ?_⟩
  · rw [integral_finsetSum _ fun c hcm => hint c (Finset.mem_range.1 hcm), ← proportion_sum hT hn hpos hc]
    refine Finset.sum_congr rfl fun c hcm => ?_
    simp only [hform]
    rw [integral_const_mul, MeasureTheory.volume_pi, integral_fintype_prod_eq_prod]
    rw [Finset.prod_eq_one fun j _ => (hone c (Finset.mem_range.1 hcm) j).2, mul_one]
  · intro g hg
    have hsup : ∀ x : Fin X.cols → ℝ, gaussianModel X T (pred (List.ofFn x)) (List.ofFn x) =
        (Finset.range T.cols).sup' ⟨0, Finset.mem_range.2 hk⟩ fun c => gaussianModel X T c (List.ofFn x) := by
      intro x
      apply le_antisymm
      · exact Finset.le_sup' (fun c => gaussianModel X T c (List.ofFn x)) (Finset.mem_range.2 (hp (List.ofFn x) (by simp)).1)
      · exact Finset.sup'_le _ _ fun c hcm => hmax _ (by simp) c (Finset.mem_range.1 hcm)
    have hmeas : ∀ c, Measurable fun x : Fin X.cols → ℝ => gaussianModel X T c (List.ofFn x) := by
      intro c
      simp only [hform]
      unfold normalPdf
      fun_prop
    refine integral_mono_of_nonneg (Filter.Eventually.of_forall fun x => hnn _ (hg _) _) ?_
      (Filter.Eventually.of_forall fun x => hmax _ (by simp) _ (hg _))
    refine (integrable_finsetSum (Finset.range T.cols) fun c hcm => hint c (Finset.mem_range.1 hcm)).mono' ?_ ?_
    · simp only [hsup]
      have := (Finset.measurable_sup' (f := fun c (x : Fin X.cols → ℝ) => gaussianModel X T c (List.ofFn x)) (⟨0, Finset.mem_range.2 hk⟩ : (Finset.range T.cols).Nonempty)
        fun c _ => hmeas c).aestronglyMeasurable (μ := volume)
      refine this.congr (Filter.Eventually.of_forall fun x => ?_)
      exact Finset.sup'_apply _ _ _
    · refine Filter.Eventually.of_forall fun x => ?_
      have hpx := (hp (List.ofFn x) (by simp)).1
      rw [Real.norm_eq_abs, abs_of_nonneg (hnn _ hpx _)]
      exact Finset.single_le_sum (f := fun c => gaussianModel X T c (List.ofFn x)) (fun c hcm => hnn c (Finset.mem_range.1 hcm) _) (Finset.mem_range.2 hpx)

end

/-! ### The fit -/

/-- Proportional probabilities have the largest weighted geometric mean. -/
theorem max_lik {s : Finset ℕ} {w q : ℕ → ℝ} (hw : ∀ i ∈ s, 0 ≤ w i) (hpos : 0 < ∑ i ∈ s, w i) (hq : ∀ i ∈ s, 0 ≤ q i) (hsum : ∑ i ∈ s, q i ≤ 1) :
    ∏ i ∈ s, q i ^ w i ≤ ∏ i ∈ s, (w i / ∑ i ∈ s, w i) ^ w i := by
  set W := ∑ i ∈ s, w i with hW
  have hr : ∀ i ∈ s, 0 ≤ w i / W := fun i hi => div_nonneg (hw i hi) hpos.le
  have hz : ∀ i ∈ s, 0 ≤ q i / (w i / W) := fun i hi => div_nonneg (hq i hi) (hr i hi)
  have h1 := Real.geom_mean_le_arith_mean_weighted s (fun i => w i / W) (fun i => q i / (w i / W)) hr (by rw [← Finset.sum_div]; exact div_self hpos.ne') hz
  have h2 : ∑ i ∈ s, w i / W * (q i / (w i / W)) ≤ 1 := by
    refine le_trans (Finset.sum_le_sum fun i hi => ?_) hsum
    rcases (hr i hi).eq_or_lt with h | h
    · rw [← h]; simpa using hq i hi
    · exact (mul_div_cancel₀ _ h.ne').le
  have h3 : ∏ i ∈ s, (q i / (w i / W)) ^ w i ≤ 1 := by
    have h4 : ∏ i ∈ s, (q i / (w i / W)) ^ w i = (∏ i ∈ s, (q i / (w i / W)) ^ (w i / W)) ^ W := by
      rw [← Real.finset_prod_rpow _ _ fun i hi => Real.rpow_nonneg (hz i hi) _]
      refine Finset.prod_congr rfl fun i hi => ?_
      rw [← Real.rpow_mul (hz i hi), div_mul_cancel₀ _ hpos.ne']
    rw [h4]
    exact Real.rpow_le_one (Finset.prod_nonneg fun i hi => Real.rpow_nonneg (hz i hi) _) (h1.trans h2) hpos.le
  have h5 : ∏ i ∈ s, q i ^ w i = (∏ i ∈ s, (q i / (w i / W)) ^ w i) * ∏ i ∈ s, (w i / W) ^ w i := by
    rw [← Finset.prod_mul_distrib]
    refine Finset.prod_congr rfl fun i hi => ?_
    rcases (hw i hi).eq_or_lt with h | h
    · rw [← h]; simp
    · rw [← Real.mul_rpow (hz i hi) (hr i hi), div_mul_cancel₀ _ (div_pos h hpos).ne']
  rw [h5]
  exact mul_le_of_le_one_left (Finset.prod_nonneg fun i hi => Real.rpow_nonneg (hr i hi) _) h3

theorem prod_map_rpow {a : ℝ} (ha : 0 ≤ a) {l : List ℝ} (hl : ∀ x ∈ l, 0 ≤ x) : (l.map fun x => a ^ x).prod = a ^ l.sum := by
  induction l with
  | nil => simp
  | cons x l ih =>
    rw [List.map_cons, List.prod_cons, List.sum_cons, ih fun y hy => hl y (by simp [hy]), Real.rpow_add_of_nonneg ha (hl x (by simp)) (List.sum_nonneg fun y hy => hl y (by simp [hy]))]

/-- The likelihood of a product model, class by class and feature by feature. -/
theorem likelihood_factor (X T : Mat ℝ) (hn : X.rows.length = T.rows.length) (q : ℕ → ℝ) (f : ℕ → ℕ → ℝ → ℝ) :
    likelihood X T (fun c x => q c * ∏ j ∈ Finset.range X.cols, f c j (coord x j)) =
      (∏ c ∈ Finset.range T.cols, q c ^ (classSize T.rows c : ℝ)) *
        ∏ c ∈ Finset.range T.cols, ∏ j ∈ Finset.range X.cols, (((classSamples X.rows T.rows c).map fun x => coord x j).map (f c j)).prod := by
  unfold likelihood
  rw [← Finset.prod_mul_distrib]
  refine Finset.prod_congr rfl fun c _ => ?_
  rw [← classSamples_length hn c, Real.rpow_natCast]
  induction classSamples X.rows T.rows c with
  | nil => simp
  | cons x l ih =>
    simp only [List.map_cons, List.prod_cons, List.length_cons, Finset.prod_mul_distrib] at ih ⊢
    rw [ih]
    ring

theorem prior_fit {X T : Mat ℝ} (hT : T.WF) (hn : X.rows.length = T.rows.length) (hpos : 0 < X.rows.length) (hc : ∀ t ∈ T.rows, ∃ v ∈ t, v = 1) {q : ℕ → ℝ}
    (hq : Probabilities T.cols q) :
    ∏ c ∈ Finset.range T.cols, q c ^ (classSize T.rows c : ℝ) ≤ ∏ c ∈ Finset.range T.cols, proportion X T c ^ (classSize T.rows c : ℝ) := by
  have h1 := proportion_sum hT hn hpos hc
  unfold proportion at h1
  rw [← Finset.sum_div, div_eq_one_iff_eq (by positivity)] at h1
  have := max_lik (s := Finset.range T.cols) (w := fun c => (classSize T.rows c : ℝ)) (q := q) (fun _ _ => by positivity) (by rw [h1]; exact_mod_cast hpos)
    (fun i hi => hq.1 i (Finset.mem_range.1 hi)) hq.2.le
  rw [h1] at this
  exact this

/-- One binary feature: the smoothed frequency maximises the likelihood with the two extra samples. -/
theorem presence_fit {l : List ℝ} (hl : ∀ x ∈ l, 0 ≤ x ∧ x ≤ 1) {p : ℝ} (hp : 0 ≤ p ∧ p ≤ 1) :
    (l.map fun x => p ^ x * (1 - p) ^ (1 - x)).prod * (p * (1 - p)) ≤
      (l.map fun x => ((l.sum + 1) / (l.length + 2)) ^ x * (1 - (l.sum + 1) / (l.length + 2)) ^ (1 - x)).prod * ((l.sum + 1) / (l.length + 2) * (1 - (l.sum + 1) / (l.length + 2))) := by
  have h0 : 0 ≤ l.sum := List.sum_nonneg fun x hx => (hl x hx).1
  have hsub : (l.map fun x => 1 - x).sum = l.length - l.sum := by
    clear hl h0
    induction l with
    | nil => simp
    | cons x l ih => simp [ih]; ring
  have h1 : 0 ≤ (l.length : ℝ) - l.sum := by
    rw [← hsub]
    exact List.sum_nonneg fun x hx => by
      obtain ⟨y, hy, rfl⟩ := List.mem_map.1 hx
      linarith [(hl y hy).2]
  have hform : ∀ r : ℝ, 0 ≤ r ∧ r ≤ 1 → (l.map fun x => r ^ x * (1 - r) ^ (1 - x)).prod * (r * (1 - r)) =
      ∏ i ∈ Finset.range 2, (if i = 0 then r else 1 - r) ^ (if i = 0 then l.sum + 1 else (l.length : ℝ) - l.sum + 1) := by
    intro r hr
    rw [Finset.prod_range_succ, Finset.prod_range_one]
    simp only [if_true, one_ne_zero, if_false]
    rw [Real.rpow_add_of_nonneg hr.1 h0 zero_le_one, Real.rpow_add_of_nonneg (by linarith [hr.2]) h1 zero_le_one, Real.rpow_one, Real.rpow_one, List.prod_map_mul,
      ← prod_map_rpow hr.1 fun x hx => (hl x hx).1, ← hsub, ← prod_map_rpow (by linarith [hr.2]) (l := l.map fun x => 1 - x) (by
        intro x hx
        obtain ⟨y, hy, rfl⟩ := List.mem_map.1 hx
        linarith [(hl y hy).2]), List.map_map]
    simp only [Function.comp_def]
    ring
  have hfit : 0 ≤ (l.sum + 1) / ((l.length : ℝ) + 2) ∧ (l.sum + 1) / ((l.length : ℝ) + 2) ≤ 1 :=
    ⟨by positivity, by rw [div_le_one (by positivity)]; linarith⟩
  rw [hform p hp, hform _ hfit]
  have hW : ∑ i ∈ Finset.range 2, (if i = 0 then l.sum + 1 else (l.length : ℝ) - l.sum + 1) = l.length + 2 := by
    rw [Finset.sum_range_succ, Finset.sum_range_one]; simp; ring
  have := max_lik (s := Finset.range 2) (w := fun i => if i = 0 then l.sum + 1 else (l.length : ℝ) - l.sum + 1) (q := fun i => if i = 0 then p else 1 - p)
    (fun i _ => by split <;> linarith) (by rw [hW]; positivity) (fun i _ => by split <;> linarith [hp.1, hp.2])
    (by rw [Finset.sum_range_succ, Finset.sum_range_one]; simp)
  refine this.trans (le_of_eq (Finset.prod_congr rfl fun i _ => ?_))
  rw [hW]
  split
  · rfl
  · congr 1
    field_simp
    ring

/-- One normal feature: mean and mean squared deviation maximise the likelihood. -/
theorem normal_prod (l : List ℝ) {v : ℝ} (hv : 0 < v) (μ : ℝ) :
    (l.map fun x => normalPdf μ v x).prod = (Real.sqrt (2 * Real.pi * v))⁻¹ ^ l.length * Real.exp (-(l.map fun x => (x - μ) ^ 2).sum / (2 * v)) := by
  induction l with
  | nil => simp
  | cons x l ih =>
    rw [List.map_cons, List.prod_cons, ih, List.map_cons, List.sum_cons, List.length_cons, normalPdf, neg_add, add_div, Real.exp_add]
    ring

theorem normal_fit_mean {l : List ℝ} (hl : l ≠ []) {v : ℝ} (hv : 0 < v) (μ : ℝ) :
    (l.map fun x => normalPdf μ v x).prod ≤ (l.map fun x => normalPdf (Spec.mean l) v x).prod := by
  rw [normal_prod l hv, normal_prod l hv]
  refine mul_le_mul_of_nonneg_left (Real.exp_le_exp.2 ?_) (by positivity)
  have := mean_minimises l hl μ
  gcongr

theorem normal_fit_var {l : List ℝ} (hl : l ≠ []) {v s : ℝ} (hv : 0 < v) (hs : 0 < s) {μ : ℝ} (hS : (l.map fun x => (x - μ) ^ 2).sum = l.length * s) :
    (l.map fun x => normalPdf μ v x).prod ≤ (l.map fun x => normalPdf μ s x).prod := by
  rw [normal_prod l hv, normal_prod l hs, hS]
  have hn : (0 : ℝ) < l.length := by exact_mod_cast List.length_pos_iff.2 hl
  have e : ∀ u : ℝ, 0 < u → (Real.sqrt (2 * Real.pi * u))⁻¹ ^ l.length * Real.exp (-(l.length * s) / (2 * u)) =
      Real.exp (-(l.length / 2) * (Real.log (2 * Real.pi) + Real.log u + s / u)) := by
    intro u hu
    have h2 : 0 < 2 * Real.pi * u := by positivity
    rw [← Real.exp_log (pow_pos (inv_pos.2 (Real.sqrt_pos.2 h2)) l.length), ← Real.exp_add, Real.log_pow, Real.log_inv, Real.log_sqrt h2.le,
      Real.log_mul (by positivity) hu.ne']
    congr 1
    field_simp
    ring
  rw [e v hv, e s hs, Real.exp_le_exp]
  have h3 := Real.log_le_sub_one_of_pos (div_pos hs hv)
  rw [Real.log_div hs.ne' hv.ne'] at h3
  rw [div_self hs.ne']
  nlinarith

section
variable {X T : Mat ℝ} (hX : X.WF) (hT : T.WF) (hn : X.rows.length = T.rows.length) (hc : ∀ t ∈ T.rows, ∃ v ∈ t, v = 1) (hk : 0 < T.cols)
  (hall : ∀ c < T.cols, 0 < classSize T.rows c)
include hX hT hn hc hk hall

/-- **C113 (Bernoulli fit).** The trained Bernoulli model computes the probabilities of a distribution that makes the training data, together with one more sample with and one
without each feature in each class, at least as likely as any other distribution with independent features. -/
theorem C113_bernoulli_fit (m : NaiveBayes (LogProbsD ℝ) ℝ) (hdata : ∀ x ∈ X.rows, ∀ v ∈ x, 0 ≤ v ∧ v ≤ 1) :
    ∃ m' q' p', nbTrain bernDistr m X T = (m', ok ()) ∧ ComputesLog bernDistr m' X.cols T.cols (bernoulliJoint X.cols q' p') ∧
      Probabilities T.cols q' ∧ (∀ c < T.cols, ∀ j < X.cols, 0 ≤ p' c j ∧ p' c j ≤ 1) ∧
      ∀ q p, Probabilities T.cols q → (∀ c < T.cols, ∀ j < X.cols, 0 ≤ p c j ∧ p c j ≤ 1) →
        likelihood X T (bernoulliJoint X.cols q p) * (∏ c ∈ Finset.range T.cols, ∏ j ∈ Finset.range X.cols, p c j * (1 - p c j)) ≤
          likelihood X T (bernoulliJoint X.cols q' p') * ∏ c ∈ Finset.range T.cols, ∏ j ∈ Finset.range X.cols, p' c j * (1 - p' c j) := by
  have hpos := class_pos hn (hall 0 hk)
  obtain ⟨m', h1, -, hx⟩ := bern_joint hX hT hn hc hall m hdata
  have hl : ∀ c j, ∀ v ∈ (classSamples X.rows T.rows c).map fun x => coord x j, 0 ≤ v ∧ v ≤ 1 := by
    intro c j v hv
    obtain ⟨x, hxm, rfl⟩ := List.mem_map.1 hv
    by_cases hj : j < x.length
    · unfold coord
      rw [List.getD_eq_getElem?_getD, List.getElem?_eq_getElem hj]
      exact hdata x (classSamples_mem hxm) _ (List.getElem_mem _)
    · unfold coord
      rw [List.getD_eq_getElem?_getD, List.getElem?_eq_none (by omega)]
      simp
  have hlen : ∀ c j, (((classSamples X.rows T.rows c).map fun x => coord x j).length : ℝ) = classSize T.rows c := by
    intro c j
    rw [List.length_map, classSamples_length hn]
  have hfs : ∀ c j, 0 ≤ featureSum X T c j ∧ featureSum X T c j ≤ classSize T.rows c := by
    intro c j
    refine ⟨List.sum_nonneg fun v hv => (hl c j v hv).1, ?_⟩
    have := sum_le_length (l := (classSamples X.rows T.rows c).map fun x => coord x j) (fun v hv => (hl c j v hv).2)
    rw [hlen] at this
    exact this
  have hp' : ∀ c < T.cols, ∀ j < X.cols, 0 ≤ presence X T c j ∧ presence X T c j ≤ 1 := by
    intro c _ j _
    have := hfs c j
    unfold presence
    exact ⟨div_nonneg (by linarith) (by positivity), by rw [div_le_one (by positivity)]; linarith⟩
  refine ⟨m', proportion X T, presence X T, h1, fun x hxl => ?_, ⟨fun c _ => by unfold proportion; positivity, proportion_sum hT hn hpos hc⟩, hp', ?_⟩
  · obtain ⟨L, hL, -, hLc⟩ := hx x hxl
    exact ⟨L, hL, hLc⟩
  · intro q p hq hp
    have e : ∀ (q : ℕ → ℝ) (p : ℕ → ℕ → ℝ), likelihood X T (bernoulliJoint X.cols q p) * (∏ c ∈ Finset.range T.cols, ∏ j ∈ Finset.range X.cols, p c j * (1 - p c j)) =
        (∏ c ∈ Finset.range T.cols, q c ^ (classSize T.rows c : ℝ)) * ∏ c ∈ Finset.range T.cols, ∏ j ∈ Finset.range X.cols,
          ((((classSamples X.rows T.rows c).map fun x => coord x j).map fun v => p c j ^ v * (1 - p c j) ^ (1 - v)).prod * (p c j * (1 - p c j))) := by
      intro q p
      have := likelihood_factor X T hn q fun c j v => p c j ^ v * (1 - p c j) ^ (1 - v)
      unfold bernoulliJoint
      rw [this]
      simp only [Finset.prod_mul_distrib]
      ring
    rw [e, e]
    refine mul_le_mul (prior_fit hT hn hpos hc hq) ?_ ?_ (Finset.prod_nonneg fun c _ => Real.rpow_nonneg (by unfold proportion; positivity) _)
    · refine Finset.prod_le_prod (fun c hcm => Finset.prod_nonneg fun j hjm => ?_) fun c hcm => Finset.prod_le_prod (fun j hjm => ?_) fun j hjm => ?_
      · obtain ⟨h2, h3⟩ := hp c (Finset.mem_range.1 hcm) j (Finset.mem_range.1 hjm)
        exact mul_nonneg (List.prod_nonneg fun v hv => by
          obtain ⟨x, -, rfl⟩ := List.mem_map.1 hv
          exact mul_nonneg (Real.rpow_nonneg h2 _) (Real.rpow_nonneg (by linarith) _)) (mul_nonneg h2 (by linarith))
      · obtain ⟨h2, h3⟩ := hp c (Finset.mem_range.1 hcm) j (Finset.mem_range.1 hjm)
        exact mul_nonneg (List.prod_nonneg fun v hv => by
          obtain ⟨x, -, rfl⟩ := List.mem_map.1 hv
          exact mul_nonneg (Real.rpow_nonneg h2 _) (Real.rpow_nonneg (by linarith) _)) (mul_nonneg h2 (by linarith))
      · have := presence_fit (hl c j) (hp c (Finset.mem_range.1 hcm) j (Finset.mem_range.1 hjm))
        rw [hlen] at this
        exact this
    · refine Finset.prod_nonneg fun c hcm => Finset.prod_nonneg fun j hjm => ?_
      obtain ⟨h2, h3⟩ := hp c (Finset.mem_range.1 hcm) j (Finset.mem_range.1 hjm)
      exact mul_nonneg (List.prod_nonneg fun v hv => by
          obtain ⟨x, -, rfl⟩ := List.mem_map.1 hv
          exact mul_nonneg (Real.rpow_nonneg h2 _) (Real.rpow_nonneg (by linarith) _)) (mul_nonneg h2 (by linarith))

/-- **C113 (multinomial fit).** The trained multinomial model computes the probabilities of a distribution that makes the training data, together with one more count of each feature in
each class, at least as likely as any other. -/
theorem C113_multinomial_fit (m : NaiveBayes (LogProbsD ℝ) ℝ) (hd : 0 < X.cols) (hdata : ∀ x ∈ X.rows, ∀ v ∈ x, 0 ≤ v) :
    ∃ m' q' p', nbTrain multDistr m X T = (m', ok ()) ∧ ComputesLog multDistr m' X.cols T.cols (multinomialJoint X.cols q' p') ∧
      Probabilities T.cols q' ∧ (∀ c < T.cols, Probabilities X.cols (p' c)) ∧
      ∀ q p, Probabilities T.cols q → (∀ c < T.cols, Probabilities X.cols (p c)) →
        likelihood X T (multinomialJoint X.cols q p) * (∏ c ∈ Finset.range T.cols, ∏ j ∈ Finset.range X.cols, p c j) ≤
          likelihood X T (multinomialJoint X.cols q' p') * ∏ c ∈ Finset.range T.cols, ∏ j ∈ Finset.range X.cols, p' c j := by
  have hpos := class_pos hn (hall 0 hk)
  obtain ⟨m', h1, -, hx⟩ := mult_joint hX hT hn hc hall m hdata
  have hl : ∀ c j, ∀ v ∈ (classSamples X.rows T.rows c).map fun x => coord x j, 0 ≤ v := by
    intro c j v hv
    obtain ⟨x, hxm, rfl⟩ := List.mem_map.1 hv
    by_cases hj : j < x.length
    · unfold coord
      rw [List.getD_eq_getElem?_getD, List.getElem?_eq_getElem hj]
      exact hdata x (classSamples_mem hxm) _ (List.getElem_mem _)
    · unfold coord
      rw [List.getD_eq_getElem?_getD, List.getElem?_eq_none (by omega)]
      simp
  have hfs : ∀ c j, 0 ≤ featureSum X T c j := fun c j => List.sum_nonneg (hl c j)
  have htot : ∀ c, ∑ j ∈ Finset.range X.cols, (featureSum X T c j + 1) = ∑ l ∈ Finset.range X.cols, featureSum X T c l + X.cols := by
    intro c
    rw [Finset.sum_add_distrib]
    simp
  have htp : ∀ c, 0 < ∑ l ∈ Finset.range X.cols, featureSum X T c l + (X.cols : ℝ) := by
    intro c
    have h2 : (0 : ℝ) < X.cols := by exact_mod_cast hd
    have h3 := Finset.sum_nonneg fun (j : ℕ) (_ : j ∈ Finset.range X.cols) => hfs c j
    linarith
  have hp' : ∀ c < T.cols, Probabilities X.cols (share X T c) := by
    intro c _
    refine ⟨fun j _ => div_nonneg (by linarith [hfs c j]) (htp c).le, ?_⟩
    unfold share
    rw [← Finset.sum_div, htot, div_self (htp c).ne']
  refine ⟨m', proportion X T, share X T, h1, fun x hxl => ?_, ⟨fun c _ => by unfold proportion; positivity, proportion_sum hT hn hpos hc⟩, hp', ?_⟩
  · obtain ⟨L, hL, -, hLc⟩ := hx x hxl
    exact ⟨L, hL, hLc⟩
  · intro q p hq hp
    have e : ∀ (q : ℕ → ℝ) (p : ℕ → ℕ → ℝ), (∀ c < T.cols, Probabilities X.cols (p c)) →
        likelihood X T (multinomialJoint X.cols q p) * (∏ c ∈ Finset.range T.cols, ∏ j ∈ Finset.range X.cols, p c j) =
        (∏ c ∈ Finset.range T.cols, q c ^ (classSize T.rows c : ℝ)) * ∏ c ∈ Finset.range T.cols, ∏ j ∈ Finset.range X.cols, p c j ^ (featureSum X T c j + 1) := by
      intro q p hp
      have := likelihood_factor X T hn q fun c j v => p c j ^ v
      unfold multinomialJoint
      rw [this, mul_assoc, ← Finset.prod_mul_distrib]
      congr 1
      refine Finset.prod_congr rfl fun c hcm => ?_
      rw [← Finset.prod_mul_distrib]
      refine Finset.prod_congr rfl fun j hjm => ?_
      have h2 := (hp c (Finset.mem_range.1 hcm)).1 j (Finset.mem_range.1 hjm)
      rw [prod_map_rpow h2 (hl c j), Real.rpow_add_of_nonneg h2 (hfs c j) zero_le_one, Real.rpow_one]
      rfl
    rw [e q p hp, e _ _ hp']
    have hnn : ∀ c ∈ Finset.range T.cols, 0 ≤ ∏ j ∈ Finset.range X.cols, p c j ^ (featureSum X T c j + 1) := fun c hcm =>
      Finset.prod_nonneg fun j hjm => Real.rpow_nonneg ((hp c (Finset.mem_range.1 hcm)).1 j (Finset.mem_range.1 hjm)) _
    refine mul_le_mul (prior_fit hT hn hpos hc hq) ?_ (Finset.prod_nonneg hnn) (Finset.prod_nonneg fun c _ => Real.rpow_nonneg (by unfold proportion; positivity) _)
    refine Finset.prod_le_prod hnn fun c hcm => ?_
    have := max_lik (s := Finset.range X.cols) (w := fun j => featureSum X T c j + 1) (q := p c) (fun j _ => by linarith [hfs c j]) (by rw [htot]; exact htp c)
      (fun j hjm => (hp c (Finset.mem_range.1 hcm)).1 j (Finset.mem_range.1 hjm)) (hp c (Finset.mem_range.1 hcm)).2.le
    rw [htot] at this
    exact this

/-- **C113 (Gaussian fit).** The trained Gaussian model computes the density with priors `q'`, means `μ'` and variances `v'`. No priors and means make the training data more likely,
whatever the variances. The likelihood is largest when the variances are also reduced by the factor `(n − 1) / n`, with `n` the number of samples of the class: the model uses the
sample variances, which are larger. -/
theorem C113_gaussian_fit (m m' : NaiveBayes (GaussD ℝ) ℝ) (h : nbTrain gaussDistr m X T = (m', ok ()))
    (hvar : ∀ c < T.cols, ∀ j < X.cols, NonConstant ((classSamples X.rows T.rows c).map fun x => coord x j)) :
    ∃ q' μ' v', ComputesLog gaussDistr m' X.cols T.cols (gaussianJoint X.cols q' μ' v') ∧ Probabilities T.cols q' ∧ (∀ c < T.cols, ∀ j < X.cols, 0 < v' c j) ∧
      ∀ q μ v, Probabilities T.cols q → (∀ c < T.cols, ∀ j < X.cols, 0 < v c j) →
        likelihood X T (gaussianJoint X.cols q μ v) ≤ likelihood X T (gaussianJoint X.cols q' μ' v) ∧
        likelihood X T (gaussianJoint X.cols q μ v) ≤
          likelihood X T (gaussianJoint X.cols q' μ' fun c j => ((classSize T.rows c : ℝ) - 1) / classSize T.rows c * v' c j) := by
  have hpos := class_pos hn (hall 0 hk)
  have hx := gauss_joint hX hT hn hall m m' h hvar
  have hv' : ∀ c < T.cols, ∀ j < X.cols, 0 < classVar X T c j := fun c hck j hj => sampleVar_pos (hvar c hck j hj)
  have hlen : ∀ c j, ((classSamples X.rows T.rows c).map fun x => coord x j).length = classSize T.rows c := by
    intro c j
    rw [List.length_map, classSamples_length hn]
  have hne : ∀ c < T.cols, ∀ j, ((classSamples X.rows T.rows c).map fun x => coord x j) ≠ [] := by
    intro c hck j h0
    have := hlen c j
    rw [h0] at this
    exact absurd this (hall c hck).ne
  refine ⟨proportion X T, classMean X T, classVar X T, fun x hxl => ?_, ⟨fun c _ => by unfold proportion; positivity, proportion_sum hT hn hpos hc⟩, hv', ?_⟩
  · obtain ⟨L, hL, -, hLc⟩ := hx x hxl
    exact ⟨L, hL, hLc⟩
  intro q μ v hq hv
  have e : ∀ (q : ℕ → ℝ) (μ v : ℕ → ℕ → ℝ), likelihood X T (gaussianJoint X.cols q μ v) =
      (∏ c ∈ Finset.range T.cols, q c ^ (classSize T.rows c : ℝ)) * ∏ c ∈ Finset.range T.cols, ∏ j ∈ Finset.range X.cols,
        (((classSamples X.rows T.rows c).map fun x => coord x j).map fun t => normalPdf (μ c j) (v c j) t).prod := by
    intro q μ v
    exact likelihood_factor X T hn q fun c j t => normalPdf (μ c j) (v c j) t
  have hnp : ∀ (μ v : ℝ) (l : List ℝ), 0 ≤ (l.map fun t => normalPdf μ v t).prod := fun μ v l => List.prod_nonneg fun t ht => by
    obtain ⟨x, -, rfl⟩ := List.mem_map.1 ht
    unfold normalPdf
    positivity
  have hqn : 0 ≤ ∏ c ∈ Finset.range T.cols, proportion X T c ^ (classSize T.rows c : ℝ) :=
    Finset.prod_nonneg fun c _ => Real.rpow_nonneg (by unfold proportion; positivity) _
  have hmean : likelihood X T (gaussianJoint X.cols q μ v) ≤ likelihood X T (gaussianJoint X.cols (proportion X T) (classMean X T) v) := by
    rw [e, e]
    refine mul_le_mul (prior_fit hT hn hpos hc hq) ?_ (Finset.prod_nonneg fun c _ => Finset.prod_nonneg fun j _ => hnp _ _ _) hqn
    refine Finset.prod_le_prod (fun c _ => Finset.prod_nonneg fun j _ => hnp _ _ _) fun c hcm => Finset.prod_le_prod (fun j _ => hnp _ _ _) fun j hjm => ?_
    exact normal_fit_mean (hne c (Finset.mem_range.1 hcm) j) (hv c (Finset.mem_range.1 hcm) j (Finset.mem_range.1 hjm)) _
  refine ⟨hmean, hmean.trans ?_⟩
  rw [e, e]
  refine mul_le_mul_of_nonneg_left ?_ hqn
  refine Finset.prod_le_prod (fun c _ => Finset.prod_nonneg fun j _ => hnp _ _ _) fun c hcm => Finset.prod_le_prod (fun j _ => hnp _ _ _) fun j hjm => ?_
  have hck := Finset.mem_range.1 hcm
  have hjk := Finset.mem_range.1 hjm
  have h2 : 2 ≤ classSize T.rows c := by
    obtain ⟨a, ha, b, hb, hab⟩ := hvar c hck j hjk
    by_contra hlt
    have h1 : ((classSamples X.rows T.rows c).map fun x => coord x j).length = 1 := by
      have := hall c hck
      rw [hlen]; omega
    obtain ⟨y, hy⟩ := List.length_eq_one_iff.1 h1
    rw [hy, List.mem_singleton] at ha hb
    exact hab (ha.trans hb.symm)
  have h2r : (2 : ℝ) ≤ classSize T.rows c := by exact_mod_cast h2
  refine normal_fit_var (hne c hck j) (hv c hck j hjk) (mul_pos (div_pos (by linarith) (by linarith)) (hv' c hck j hjk)) ?_
  unfold classVar classMean sampleVar
  rw [hlen]
  have h3 : (classSize T.rows c : ℝ) ≠ 0 := by linarith
  have h4 : (classSize T.rows c : ℝ) - 1 ≠ 0 := by linarith
  field_simp

end

/-! ### Examples -/

theorem ex_sizes : ∀ c < exT.cols, 0 < classSize exT.rows c := by
  intro c hc
  have : c = 0 ∨ c = 1 := by simp [exT] at hc; omega
  rcases this with rfl | rfl <;> simp [classSize, exT, ex_class0, ex_class1]

/-- Non-vacuity of C113 (Bernoulli and multinomial): all hypotheses hold of the example data. -/
example (m : NaiveBayes (LogProbsD ℝ) ℝ) :
    (∃ m' pred, nbTrain bernDistr m exX exT = (m', ok ()) ∧ Decides bernDistr m' 2 2 pred) ∧ ∃ m' pred, nbTrain multDistr m exX exT = (m', ok ()) ∧ Decides multDistr m' 2 2 pred := by
  obtain ⟨-, -, m', p, h1, h2, -⟩ := C113_bernoulli (X := exX) (T := exT) ex_wf ex_wf rfl (by simp [exT]) (by simp [exT]) ex_sizes m (by simp [exX])
  obtain ⟨m'', p', h3, h4, -⟩ := C113_multinomial (X := exX) (T := exT) ex_wf ex_wf rfl (by simp [exT]) (by simp [exT]) ex_sizes m (by simp [exX])
  exact ⟨⟨m', p, h1, h2⟩, m'', p', h3, h4⟩

/-- The smoothed fit of the example data is strictly better than the fit that gives every feature probability 1/2: 16/729 against 1/64 for each class. -/
example (m : NaiveBayes (LogProbsD ℝ) ℝ) : ∃ m', nbTrain bernDistr m exX exT = (m', ok ()) ∧
    (∀ c < 2, presence exX exT c c = 2 / 3 ∧ presence exX exT c (1 - c) = 1 / 3) ∧ (1 / 2 : ℝ) * (1 - 1 / 2) * ((1 / 2) * (1 - 1 / 2)) * ((1 / 2) * (1 - 1 / 2)) < 2 / 3 * (1 - 1 / 3) * (2 / 3 * (1 - 2 / 3)) * (1 / 3 * (1 - 1 / 3)) := by
  obtain ⟨m', -, -, h1, -⟩ := C113_bernoulli_fit (X := exX) (T := exT) ex_wf ex_wf rfl (by simp [exT]) (by simp [exT]) ex_sizes m (by simp [exX])
  refine ⟨m', h1, fun c hc => ?_, by norm_num⟩
  have : c = 0 ∨ c = 1 := by omega
  rcases this with rfl | rfl <;> simp [presence, featureSum, classSamples, classSize, exX, exT, ex_class0, ex_class1, coord] <;> norm_num

/-- Non-vacuity of C113 (Gaussian): two classes of two samples each, with a varying feature. -/
example : ∃ m' pred, nbTrain gaussDistr (nbNew _ ℝ) ⟨1, [[0], [2], [5], [9]]⟩ ⟨2, [[1, 0], [1, 0], [0, 1], [0, 1]]⟩ = (m', ok ()) ∧ Decides gaussDistr m' 1 2 pred := by
  have h0 := ex_class0
  have h1 := ex_class1
  obtain ⟨m', hm⟩ := (C35_trains_iff (nbNew _ ℝ) ⟨1, [[0], [2], [5], [9]]⟩ ⟨2, [[1, 0], [1, 0], [0, 1], [0, 1]]⟩ (by simp [Mat.WF]) (by simp [Mat.WF]) (by simp)).2 (by
    refine ⟨by simp, fun c hc => ?_⟩
    have : c = 0 ∨ c = 1 := by simp at hc; omega
    rcases this with rfl | rfl <;> simp [classSize, h0, h1, List.countP_cons])
  obtain ⟨-, -, p, hp, -⟩ := C113_gaussian (X := ⟨1, [[0], [2], [5], [9]]⟩) (T := ⟨2, [[1, 0], [1, 0], [0, 1], [0, 1]]⟩) (by simp [Mat.WF]) (by simp [Mat.WF]) rfl (by simp) (by simp)
    (by intro c hc
        have : c = 0 ∨ c = 1 := by simp at hc; omega
        rcases this with rfl | rfl <;> simp [classSize, h0, h1]) _ m' hm
    (by intro c hc j hj
        have hj0 : j = 0 := by simp at hj; omega
        subst hj0
        have : c = 0 ∨ c = 1 := by simp at hc; omega
        rcases this with rfl | rfl
        · exact ⟨0, by simp [classSamples, h0, h1, coord], 2, by simp [classSamples, h0, h1, coord], by norm_num⟩
        · exact ⟨5, by simp [classSamples, h0, h1, coord], 9, by simp [classSamples, h0, h1, coord], by norm_num⟩)
  exact ⟨m', p, hm, hp⟩

end RM
