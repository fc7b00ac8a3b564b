import Mathlib.Analysis.Complex.ExponentialBounds
import Verif.Props.GdRate

/-! C137: logistic regression separates classes that can be separated. -/

namespace RM
open Outcome Scalar Spec

namespace Spec

/-- The targets are 0 and 1, and the affine function `v` is at least `γ` on the samples with target 1 and at most `-γ` on those with target 0. -/
def SeparatedBy (X : Mat ℝ) (y v : List ℝ) (γ : ℝ) : Prop :=
  ∀ (i : ℕ) x t, X.rows[i]? = some x → y[i]? = some t → (t = 1 ∧ γ ≤ affine v x) ∨ (t = 0 ∧ affine v x ≤ -γ)

/-- Every sample with target 1 has a prediction of more than one half, every sample with target 0 one of less. -/
def TellsApart (p y : List ℝ) : Prop :=
  p.length = y.length ∧ ∀ (i : ℕ) q t, p[i]? = some q → y[i]? = some t → (t = 1 → 1 / 2 < q) ∧ (t = 0 → q < 1 / 2)

end Spec

/-- The cost of one sample. -/
noncomputable def sampleCost (v x : List ℝ) (t : ℝ) : ℝ :=
  -(t * Real.log (logistic (affine v x)) + (1 - t) * Real.log (1 - logistic (affine v x)))

theorem inner_one_cons {v : List ℝ} (hv : v ≠ []) (x : List ℝ) : Spec.inner (1 :: x) v = affine v x := by
  cases v with
  | nil => exact absurd rfl hv
  | cons b w => simp [Spec.inner, affine]

theorem mce_full (X : Mat ℝ) (y : List ℝ) {v : List ℝ} (hv : v ≠ []) :
    meanCrossEntropy (fullOf X) y v = (List.zipWith (fun x t => sampleCost v x t) X.rows y).sum / X.rows.length := by
  unfold meanCrossEntropy fullOf
  simp only [List.length_map, List.zipWith_map_left, inner_one_cons hv]
  rfl

theorem neg_log_logistic_le (s : ℝ) : -Real.log (logistic s) ≤ Real.exp (-s) := by
  have h : 0 < 1 + Real.exp (-s) := by positivity
  unfold logistic
  rw [one_div, Real.log_inv, neg_neg]
  have := Real.log_le_sub_one_of_pos h
  linarith

theorem one_sub_logistic (s : ℝ) : 1 - logistic s = logistic (-s) := by
  have h : 0 < 1 + Real.exp (-s) := by positivity
  have h' : 0 < 1 + Real.exp s := by positivity
  have e : Real.exp (-s) * Real.exp s = 1 := by rw [← Real.exp_add]; simp
  unfold logistic
  rw [neg_neg]
  field_simp
  linarith

theorem half_lt_logistic {s : ℝ} (h : -Real.log (logistic s) < Real.log 2) : 1 / 2 < logistic s := by
  have hp := (logistic_mem s).1
  have : Real.log (1 / 2) < Real.log (logistic s) := by
    rw [one_div, Real.log_inv]
    linarith
  exact (Real.log_lt_log_iff (by norm_num) hp).1 this

theorem affine_scale (s : ℝ) (v x : List ℝ) : affine (v.map (s * ·)) x = s * affine v x := by
  cases v with
  | nil => simp [affine, Spec.inner]
  | cons b w =>
    simp only [affine, Spec.inner, List.map_cons, List.headD_cons, List.tail_cons, List.zipWith_map_right, mul_add]
    congr 1
    clear b
    induction x generalizing w with
    | nil => simp
    | cons a x ih =>
      cases w with
      | nil => simp
      | cons c w =>
        simp only [List.zipWith_cons_cons, List.sum_cons, ih w]
        ring

/-- A mean cross entropy of less than `log 2` over the number of samples leaves no sample on the wrong side. -/
theorem tells_of_cost {X : Mat ℝ} {y β : List ℝ} (hy : y.length = X.rows.length) (ht : ∀ t ∈ y, t = 0 ∨ t = 1) (hb : β.length = X.cols + 1)
    (h : X.rows.length * meanCrossEntropy (fullOf X) y β < Real.log 2) : ∃ p, LogReg.predict ⟨some β⟩ X = ok p ∧ TellsApart p y := by
  have hbne : β ≠ [] := by intro h; rw [h] at hb; simp at hb
  have hp : LogReg.predict ⟨some β⟩ X = ok (X.rows.map fun x => logistic (affine β x)) := by
    unfold LogReg.predict
    dsimp only
    rw [withOnes_ok, ok_bind]
    unfold Mat.mulVec
    rw [if_pos hb.symm, ok_bind, List.map_map, List.map_map]
    congr 1
    apply List.map_congr_left
    intro x _
    simp only [Function.comp]
    rw [dot_affine x β hbne, sigmoid_logistic]
  refine ⟨_, hp, by simp [hy], ?_⟩
  intro i q t hq hti
  rw [List.getElem?_map] at hq
  obtain ⟨x, hx, rfl⟩ := Option.map_eq_some_iff.1 hq
  have hn : 0 < X.rows.length := lt_of_le_of_lt (Nat.zero_le _) (List.getElem?_eq_some_iff.1 hx).1
  have hn' : (0 : ℝ) < X.rows.length := by exact_mod_cast hn
  rw [mce_full X y hbne, mul_div_cancel₀ _ hn'.ne'] at h
  have hnn : ∀ c ∈ List.zipWith (fun x t => sampleCost β x t) X.rows y, 0 ≤ c := by
    intro c hc
    obtain ⟨j, hj, rfl⟩ := List.mem_iff_getElem.1 hc
    rw [List.getElem_zipWith]
    have := ht _ (List.getElem_mem (l := y) (n := j) (by simp at hj; omega))
    refine crossEntropy_nonneg ?_ ?_ <;> rcases this with e | e <;> rw [e] <;> norm_num
  have hmem : sampleCost β x t ∈ List.zipWith (fun x t => sampleCost β x t) X.rows y := by
    refine List.mem_iff_getElem?.2 ⟨i, ?_⟩
    rw [List.getElem?_zipWith, hx, hti]
  have hc := (List.single_le_sum hnn _ hmem).trans_lt h
  unfold sampleCost at hc
  constructor
  · intro e
    subst e
    refine half_lt_logistic ?_
    linarith
  · intro e
    subst e
    have : 1 / 2 < logistic (-affine β x) := half_lt_logistic (by rw [← one_sub_logistic]; linarith)
    rw [← one_sub_logistic] at this
    linarith

/-- **C137.** Let the samples of the two classes lie on different sides of a hyperplane, at least `γ` in terms of its affine function `v`; let `alpha` times the mean over
the samples of `1 + |x|²` be at most 4. With `R²` the squared distance of the start to `log (4 n) / γ` times `v`: if the number of iterations is more than
`5 n R² / (4 alpha)` - and unless the stop test of `1e-20` hides the margin, that is as long as `13 n² R² ≤ 1e20 alpha` - training by gradient descent ends with
parameters that classify every training sample correctly. -/
theorem C137_logistic (o : GradientDesc ℝ) (ha : 0 < o.alpha) (X : Mat ℝ) (hX : X.WF) (y : List ℝ) (hy : y.length = X.rows.length) (hn : 0 < X.rows.length)
    (hb : o.alpha * (totalSquares X / X.rows.length) ≤ 4) (v : List ℝ) (hv : v.length = X.cols + 1) (γ : ℝ) (hγ : 0 < γ) (hs : SeparatedBy X y v γ)
    (hit : 5 * X.rows.length * distSq (X.cols + 1) (List.replicate (X.cols + 1) (1 / 2)) (v.map (Real.log (4 * X.rows.length) / γ * ·)) < 4 * o.alpha * o.iters)
    (heps : 13 * X.rows.length ^ 2 * distSq (X.cols + 1) (List.replicate (X.cols + 1) (1 / 2)) (v.map (Real.log (4 * X.rows.length) / γ * ·)) ≤ 10 ^ 20 * o.alpha)
    (hbig : X.rows.length ≤ 10 ^ 19) :
    ∃ m p, LogReg.train (fun g s => (o.optimize g s).out) X y = ok m ∧ m.predict X = ok p ∧ TellsApart p y := by
  have hn' : (0 : ℝ) < X.rows.length := by exact_mod_cast hn
  have hbig' : (X.rows.length : ℝ) ≤ 10 ^ 19 := by exact_mod_cast hbig
  set n : ℝ := (X.rows.length : ℝ) with hnd
  set s := Real.log (4 * n) / γ with hsd
  set z := v.map (s * ·) with hz
  set Rsq := distSq (X.cols + 1) (List.replicate (X.cols + 1) (1 / 2)) z with hR
  have hR0 : 0 ≤ Rsq := Finset.sum_nonneg fun i _ => sq_nonneg _
  have h4n : 1 ≤ 4 * n := by
    have : (1 : ℝ) ≤ n := by rw [hnd]; exact_mod_cast hn
    linarith
  have hs0 : 0 ≤ s := div_nonneg (Real.log_nonneg h4n) hγ.le
  have hi : 0 < o.iters := by
    by_contra h0
    have : o.iters = 0 := by omega
    rw [this] at hit
    have : 0 ≤ 5 * n * Rsq := by positivity
    simp at hit
    linarith
  have ht : ∀ t ∈ y, t = 0 ∨ t = 1 := by
    intro t htm
    obtain ⟨i, hi, rfl⟩ := List.mem_iff_getElem.1 htm
    rcases hs i _ _ (List.getElem?_eq_getElem (by omega)) (List.getElem?_eq_getElem hi) with h | h
    · exact Or.inr h.1
    · exact Or.inl h.1
  obtain ⟨β, h1, h2, h3⟩ := C83_logistic o ha hi X hX y hy (by
    intro t htm
    rcases ht t htm with e | e <;> rw [e] <;> norm_num) hb
  have hzl : z.length = X.cols + 1 := by rw [hz, List.length_map, hv]
  have hzne : z ≠ [] := by intro h; rw [h] at hzl; simp at hzl
  -- the reference has a small cost
  have hexp : Real.exp (-(s * γ)) = 1 / (4 * n) := by
    rw [hsd, div_mul_cancel₀ _ hγ.ne', Real.exp_neg, Real.exp_log (by linarith), one_div]
  have hzc : meanCrossEntropy (fullOf X) y z ≤ 1 / (4 * n) := by
    rw [mce_full X y hzne, div_le_iff₀ hn']
    have hl : (List.zipWith (fun x t => sampleCost z x t) X.rows y).length = X.rows.length := by simp [hy]
    have : (List.zipWith (fun x t => sampleCost z x t) X.rows y).sum ≤ (List.zipWith (fun x t => sampleCost z x t) X.rows y).length • (1 / (4 * n)) := by
      apply List.sum_le_card_nsmul
      intro c hc
      obtain ⟨j, hj, rfl⟩ := List.mem_iff_getElem.1 hc
      rw [List.getElem_zipWith, ← hexp]
      have hj1 : j < X.rows.length := by rw [hl] at hj; exact hj
      have hza : affine z X.rows[j] = s * affine v X.rows[j] := affine_scale s v _
      unfold sampleCost
      rw [hza]
      rcases hs j _ _ (List.getElem?_eq_getElem hj1) (List.getElem?_eq_getElem (by omega)) with ⟨e, hm⟩ | ⟨e, hm⟩
      · rw [e]
        have a := neg_log_logistic_le (s * affine v X.rows[j])
        have b : Real.exp (-(s * affine v X.rows[j])) ≤ Real.exp (-(s * γ)) := Real.exp_le_exp.2 (neg_le_neg (mul_le_mul_of_nonneg_left hm hs0))
        linarith
      · rw [e, one_sub_logistic]
        have a := neg_log_logistic_le (-(s * affine v X.rows[j]))
        have b : Real.exp (-(-(s * affine v X.rows[j]))) ≤ Real.exp (-(s * γ)) := by
          refine Real.exp_le_exp.2 ?_
          have := mul_le_mul_of_nonneg_left hm hs0
          linarith
        linarith
    rw [hl, nsmul_eq_mul] at this
    linarith
  -- the gap
  have hgap : gdGap o.alpha o.iters Rsq < 2 / (5 * n) := by
    have hi' : (0 : ℝ) < o.iters := by exact_mod_cast hi
    unfold gdGap
    refine max_lt ?_ (max_lt ?_ ?_)
    · rw [div_lt_div_iff₀ (by positivity) (by positivity)]
      linarith
    · rw [Real.sqrt_lt' (by positivity), div_pow, div_div, lt_div_iff₀ (by positivity), mul_div_assoc', div_mul_eq_mul_div, div_lt_iff₀ (by positivity)]
      have hpos : 0 < o.alpha := ha
      nlinarith [mul_nonneg (sq_nonneg n) hR0]
    · rw [div_lt_div_iff₀ (by positivity) (by positivity)]
      linarith
  have hfin : n * meanCrossEntropy (fullOf X) y β < Real.log 2 := by
    have h4 := (h3 z hzl).trans (add_le_add hzc hgap.le)
    have h5 := mul_le_mul_of_nonneg_left h4 hn'.le
    have e : n * (1 / (4 * n) + 2 / (5 * n)) = 13 / 20 := by
      field_simp
      norm_num
    rw [e] at h5
    have := Real.log_two_gt_d9
    linarith
  obtain ⟨p, h6, h7⟩ := tells_of_cost hy ht h2 hfin
  exact ⟨_, p, h1, h6, h7⟩

theorem positive_below (l : List ℝ) (h : ∀ a ∈ l, 0 < a) : ∃ γ, 0 < γ ∧ ∀ a ∈ l, γ ≤ a := by
  induction l with
  | nil => exact ⟨1, one_pos, by simp⟩
  | cons a l ih =>
    obtain ⟨γ, h1, h2⟩ := ih fun b hb => h b (List.mem_cons_of_mem _ hb)
    refine ⟨min a γ, lt_min (h a List.mem_cons_self) h1, ?_⟩
    intro b hb
    rcases List.mem_cons.1 hb with rfl | hb
    · exact min_le_left _ _
    · exact (min_le_right _ _).trans (h2 b hb)

/-- **C137 (no more than that).** If any logistic model tells the classes apart then they lie on different sides of a hyperplane: no training could do so otherwise. -/
theorem C137_only_separable (X : Mat ℝ) (y β p : List ℝ) (hb : β.length = X.cols + 1) (ht : ∀ t ∈ y, t = 0 ∨ t = 1)
    (hp : LogReg.predict ⟨some β⟩ X = ok p) (h : TellsApart p y) : ∃ γ, 0 < γ ∧ SeparatedBy X y β γ := by
  have hbne : β ≠ [] := by intro h; rw [h] at hb; simp at hb
  have hp' : LogReg.predict ⟨some β⟩ X = ok (X.rows.map fun x => logistic (affine β x)) := by
    unfold LogReg.predict
    dsimp only
    rw [withOnes_ok, ok_bind]
    unfold Mat.mulVec
    rw [if_pos hb.symm, ok_bind, List.map_map, List.map_map]
    congr 1
    apply List.map_congr_left
    intro x _
    simp only [Function.comp]
    rw [dot_affine x β hbne, sigmoid_logistic]
  rw [hp] at hp'
  injection hp' with hp'
  subst hp'
  obtain ⟨hl, h⟩ := h
  have hsides : ∀ (i : ℕ) x t, X.rows[i]? = some x → y[i]? = some t → (t = 1 → 0 < affine β x) ∧ (t = 0 → affine β x < 0) := by
    intro i x t hx hti
    obtain ⟨a, b⟩ := h i _ t (by rw [List.getElem?_map, hx]; rfl) hti
    rw [← logistic_zero] at a b
    exact ⟨fun e => logistic_strictMono.lt_iff_lt.1 (a e), fun e => logistic_strictMono.lt_iff_lt.1 (b e)⟩
  obtain ⟨γ, h1, h2⟩ := positive_below ((X.rows.map fun x => |affine β x|).filter fun a => decide (0 < a)) (by
    intro a ha
    exact of_decide_eq_true (List.mem_filter.1 ha).2)
  refine ⟨γ, h1, ?_⟩
  intro i x t hx hti
  obtain ⟨a, b⟩ := hsides i x t hx hti
  have key : 0 < |affine β x| → γ ≤ |affine β x| := fun hpos =>
    h2 _ (List.mem_filter.2 ⟨List.mem_map.2 ⟨x, List.mem_of_getElem? hx, rfl⟩, by simpa using hpos⟩)
  rcases ht t (List.mem_of_getElem? hti) with e | e
  · right
    have hlt := b e
    have := key (abs_pos.2 hlt.ne)
    rw [abs_of_neg hlt] at this
    exact ⟨e, by linarith⟩
  · left
    have hlt := a e
    have := key (abs_pos.2 hlt.ne')
    rw [abs_of_pos hlt] at this
    exact ⟨e, this⟩

/-- The default gradient descent (step 0.3, 100 iterations) classifies the points -1 and 1. -/
example : ∃ m p, LogReg.train (fun g s => ((GradientDesc.default : GradientDesc ℝ).optimize g s).out) ⟨1, [[-1], [1]]⟩ [0, 1] = ok m ∧
    m.predict ⟨1, [[-1], [1]]⟩ = ok p ∧ TellsApart p [0, 1] := by
  have hlog : Real.log (4 * ((2 : ℕ) : ℝ)) / 1 = 3 * Real.log 2 := by
    rw [div_one, show (4 * ((2 : ℕ) : ℝ)) = 2 ^ 3 by norm_num, Real.log_pow]
    norm_num
  have l1 := Real.log_two_gt_d9
  have l2 := Real.log_two_lt_d9
  have hd : distSq (1 + 1) (List.replicate (1 + 1) (1 / 2)) ([0, 1].map (Real.log (4 * ((2 : ℕ) : ℝ)) / 1 * ·)) ≤ 3 := by
    rw [hlog]
    simp [distSq, Finset.sum_range_succ]
    nlinarith
  have ea : (GradientDesc.default : GradientDesc ℝ).alpha = 3 / 10 := by simp [GradientDesc.default]
  refine C137_logistic GradientDesc.default (by rw [ea]; norm_num) ⟨1, [[-1], [1]]⟩ (by intro r hr; simp at hr; rcases hr with rfl | rfl <;> rfl) [0, 1] rfl (by simp)
    (by rw [ea]; norm_num [totalSquares, Spec.inner]) [0, 1] rfl 1 one_pos ?_ ?_ ?_ (by simp)
  · intro i x t hx ht
    rcases i with _ | _ | i
    · simp at hx ht; subst hx; subst ht; right; norm_num [affine, Spec.inner]
    · simp at hx ht; subst hx; subst ht; left; norm_num [affine, Spec.inner]
    · simp at hx
  · rw [ea]
    change 5 * ((2 : ℕ) : ℝ) * distSq (1 + 1) _ _ < 4 * (3 / 10) * ((100 : ℕ) : ℝ)
    have : 5 * ((2 : ℕ) : ℝ) * distSq (1 + 1) (List.replicate (1 + 1) (1 / 2)) ([0, 1].map (Real.log (4 * ((2 : ℕ) : ℝ)) / 1 * ·)) ≤ 5 * ((2 : ℕ) : ℝ) * 3 :=
      mul_le_mul_of_nonneg_left hd (by norm_num)
    refine this.trans_lt (by norm_num)
  · rw [ea]
    change 13 * ((2 : ℕ) : ℝ) ^ 2 * distSq (1 + 1) _ _ ≤ _
    have : 13 * ((2 : ℕ) : ℝ) ^ 2 * distSq (1 + 1) (List.replicate (1 + 1) (1 / 2)) ([0, 1].map (Real.log (4 * ((2 : ℕ) : ℝ)) / 1 * ·)) ≤ 13 * ((2 : ℕ) : ℝ) ^ 2 * 3 :=
      mul_le_mul_of_nonneg_left hd (by norm_num)
    refine this.trans (by norm_num)

end RM
