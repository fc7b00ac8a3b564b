import Verif.Props.Separable
import Verif.Props.SameFunction

/-! C137, networks: a network of one linear layer and the sigmoid separates classes that can be separated. -/

namespace RM
open Outcome Scalar Spec

/-- **C137 (networks).** The network of one linear layer and the sigmoid with the cross entropy, trained by gradient descent from the
weights 1/2 under the same conditions - its gradient is the sum over the samples and not the mean, so its step is `alpha / n` - gives more
than one half to all training samples with target 1 and less to all with target 0. -/
theorem C137_network (o : GradientDesc ℝ) (ha : 0 < o.alpha) (X : Mat ℝ) (hX : X.WF) (y : List ℝ) (hy : y.length = X.rows.length) (hn : 0 < X.rows.length)
    (hb : o.alpha * (totalSquares X / X.rows.length) ≤ 4) (v : List ℝ) (hv : v.length = X.cols + 1) (γ : ℝ) (hγ : 0 < γ) (hs : SeparatedBy X y v γ)
    (hit : 5 * X.rows.length * distSq (X.cols + 1) (List.replicate (X.cols + 1) (1 / 2)) (v.map (Real.log (4 * X.rows.length) / γ * ·)) < 4 * o.alpha * o.iters)
    (heps : 13 * X.rows.length ^ 2 * distSq (X.cols + 1) (List.replicate (X.cols + 1) (1 / 2)) (v.map (Real.log (4 * X.rows.length) / γ * ·)) ≤ 10 ^ 20 * o.alpha)
    (hbig : X.rows.length ≤ 10 ^ 19) :
    ∃ net p, BaseNet.train (netDescent ⟨o.alpha / X.rows.length, o.iters⟩)
        ⟨[.new X.cols 1, .activ sigmoid], List.replicate (X.cols + 1) (1 / 2), ⟨.bce, .none⟩⟩ X (oneColumn y) = ok net ∧
      net.forwardProp X = ok (oneColumn p) ∧ TellsApart p y := by
  obtain ⟨m, p, h1, h2, h3⟩ := C137_logistic o ha X hX y hy hn hb v hv γ hγ hs hit heps hbig
  obtain ⟨β, g1, g2⟩ := C102_logistic_train o.alpha o.iters X hX y hy (List.length_pos_iff.1 hn)
  rw [h1] at g1
  injection g1 with g1
  subst g1
  have hlen : β.length = X.cols + 1 := by
    by_contra hne
    unfold LogReg.predict at h2
    simp only [withOnes_ok, ok_bind] at h2
    rw [show Mat.mulVec (⟨X.cols + 1, X.rows.map ((1 : ℝ) :: ·)⟩ : Mat ℝ) β = Outcome.panic by
      unfold Mat.mulVec
      rw [if_neg (fun h => hne h.symm)]] at h2
    cases h2
  obtain ⟨q, q1, q2⟩ := C102_logistic_predict (⟨.bce, .none⟩ : Criterion ℝ) X hX β hlen
  rw [h2] at q1
  injection q1 with q1
  subst q1
  exact ⟨_, p, g2, q2, h3⟩

/-- Adding the parameters adds the values. -/
theorem affine_zipAdd {β v : List ℝ} (h : β.length = v.length) (hb : β ≠ []) (x : List ℝ) :
    affine (List.zipWith (· + ·) β v) x = affine β x + affine v x := by
  obtain ⟨b, bs, rfl⟩ := List.exists_cons_of_ne_nil hb
  obtain ⟨c, cs, rfl⟩ : ∃ c cs, v = c :: cs := List.exists_cons_of_ne_nil (by rintro rfl; simp at h)
  have h' : bs.length = cs.length := by simpa using h
  unfold affine Spec.inner
  simp only [List.zipWith_cons_cons, List.headD_cons, List.tail_cons]
  have : (List.zipWith (· * ·) x (List.zipWith (· + ·) bs cs)).sum = (List.zipWith (· * ·) x bs).sum + (List.zipWith (· * ·) x cs).sum := by
    clear h hb
    induction x generalizing bs cs with
    | nil => simp
    | cons a x ih =>
      cases bs with
      | nil => cases cs with
        | nil => simp
        | cons _ _ => simp at h'
      | cons p bs => cases cs with
        | nil => simp at h'
        | cons q cs =>
          simp only [List.zipWith_cons_cons, List.sum_cons]
          rw [ih bs cs (by simpa using h')]
          ring
  rw [this]
  ring

/-- **C137 (no best parameters).** If a hyperplane separates the classes, no parameters are the best ones: moving them in the direction of
the hyperplane always makes the outcomes more likely, so that the likelihood of a Bernoulli model has no maximum and the gradient of
logistic regression vanishes nowhere. Training by steps of gradient descent or by Newton's method ends where its iterations end. -/
theorem C137_no_best (X : Mat ℝ) (hX : X.WF) (y : List ℝ) (hy : y.length = X.rows.length) (hn : X.rows ≠ []) (v : List ℝ) (hv : v.length = X.cols + 1)
    (γ : ℝ) (hγ : 0 < γ) (hs : SeparatedBy X y v γ) (β : List ℝ) (hb : β.length = X.cols + 1) :
    logLik .bernoulli X y β < logLik .bernoulli X y (List.zipWith (· + ·) β v) ∧ ¬ MaxLikelihood .bernoulli X y β ∧
    ∃ full c g, withOnes X = ok full ∧ logComputeGrad β full y = ok (c, g) ∧ g ≠ List.replicate (X.cols + 1) 0 := by
  have hbne : β ≠ [] := by intro h; rw [h] at hb; simp at hb
  have hterm : ∀ (x : List ℝ) (t : ℝ), (t = 1 ∧ γ ≤ affine v x) ∨ (t = 0 ∧ affine v x ≤ -γ) →
      sampleLogLik .bernoulli t (affine β x) < sampleLogLik .bernoulli t (affine (List.zipWith (· + ·) β v) x) := by
    intro x t h
    rw [affine_zipAdd (by rw [hb, hv]) hbne]
    unfold sampleLogLik
    rcases h with ⟨rfl, h⟩ | ⟨rfl, h⟩
    · simp only [one_mul, sub_self, zero_mul, add_zero]
      exact Real.log_lt_log (logistic_mem _).1 (logistic_strictMono (by linarith))
    · simp only [zero_mul, sub_zero, one_mul, zero_add]
      refine Real.log_lt_log (by linarith [(logistic_mem (affine β x)).2]) ?_
      have := logistic_strictMono (show affine β x + affine v x < affine β x by linarith)
      linarith
  have hlt : logLik .bernoulli X y β < logLik .bernoulli X y (List.zipWith (· + ·) β v) := by
    unfold logLik
    obtain ⟨cols, rows⟩ := X
    simp only at hy hn hs hterm ⊢
    clear hX
    have hs' : ∀ (i : ℕ) (x : List ℝ) (t : ℝ), rows[i]? = some x → y[i]? = some t → (t = 1 ∧ γ ≤ affine v x) ∨ (t = 0 ∧ affine v x ≤ -γ) := hs
    have key : ∀ (R : List (List ℝ)) (Y : List ℝ), Y.length = R.length →
        (∀ (i : ℕ) (x : List ℝ) (t : ℝ), R[i]? = some x → Y[i]? = some t → (t = 1 ∧ γ ≤ affine v x) ∨ (t = 0 ∧ affine v x ≤ -γ)) →
        (List.zipWith (fun x t => sampleLogLik .bernoulli t (affine β x)) R Y).sum ≤
          (List.zipWith (fun x t => sampleLogLik .bernoulli t (affine (List.zipWith (· + ·) β v) x)) R Y).sum := by
      intro R
      induction R with
      | nil => intro Y _ _; simp
      | cons x R ih =>
        intro Y hl h
        obtain ⟨t, Y, rfl⟩ : ∃ t Y', Y = t :: Y' := List.exists_cons_of_ne_nil (by rintro rfl; simp at hl)
        simp only [List.zipWith_cons_cons, List.sum_cons]
        exact add_le_add (hterm x t (h 0 x t rfl rfl)).le (ih Y (by simpa using hl) fun i a b ha hb' => h (i + 1) a b ha hb')
    obtain ⟨x, R, rfl⟩ := List.exists_cons_of_ne_nil hn
    obtain ⟨t, Y, rfl⟩ : ∃ t Y', y = t :: Y' := List.exists_cons_of_ne_nil (by rintro rfl; simp at hy)
    simp only [List.zipWith_cons_cons, List.sum_cons]
    exact add_lt_add_of_lt_of_le (hterm x t (hs' 0 x t rfl rfl)) (key R Y (by simpa using hy) fun i a b ha hb' => hs' (i + 1) a b ha hb')
  have hno : ¬ MaxLikelihood .bernoulli X y β := fun h => absurd (h (List.zipWith (· + ·) β v) (by simp [hb, hv])) (not_le.2 hlt)
  refine ⟨hlt, hno, ?_⟩
  obtain ⟨full, c, g, e1, e2, -, e3⟩ := C102_bernoulli_cost X hX y hy hn β hb
  exact ⟨full, c, g, e1, e2, fun h => hno (e3.2 h)⟩

/-- Two points on different sides of 0. -/
example : SeparatedBy ⟨1, [[-1], [2]]⟩ [0, 1] [0, 1] 1 := by
  intro i x t hx ht
  rcases i with _ | _ | i
  · simp at hx ht; subst hx; subst ht; right; norm_num [affine, Spec.inner]
  · simp at hx ht; subst hx; subst ht; left; norm_num [affine, Spec.inner]
  · simp at hx

end RM
