import Verif.Proofs.Underflow
import Verif.Model.NNet
import Verif.Model.Gmm
import Verif.Model.Kernel
import Verif.Proofs.Reservoir

/-! Property C122: exponentials that underflow or overflow. The arithmetic is `UR`: exact, with infinities and NaN, but `exp` gives 0
below -746 and infinity above 710, as `f64` does. -/

namespace RM
open Outcome Scalar Spec

/-- The logistic function of a finite float is a number in `[0, 1]`, whatever the exponential does, and within `exp (-710)` of
the exact value. -/
theorem C122_sigmoid (x : ℝ) : ∃ y : ℝ, sigmoid.func (UR.fin x) = UR.fin y ∧ 0 ≤ y ∧ y ≤ 1 ∧ |y - logistic x| ≤ Real.exp (-710) := by
  have hE := Real.exp_pos (-x)
  have h0 : 0 ≤ logistic x := by unfold logistic; positivity
  have h1 : logistic x ≤ 1 := by
    unfold logistic
    rw [div_le_one (by positivity)]
    linarith
  rcases lt_or_ge x (-710) with hl | hl
  · refine ⟨0, ur_sigmoid_low hl, le_rfl, zero_le_one, ?_⟩
    rw [zero_sub, abs_neg, abs_of_nonneg h0]
    unfold logistic
    rw [div_le_iff₀ (by positivity)]
    have : Real.exp (-710) * Real.exp (-x) = Real.exp (-710 + -x) := (Real.exp_add _ _).symm
    have h2 : 1 ≤ Real.exp (-710 + -x) := Real.one_le_exp (by linarith)
    nlinarith [Real.exp_pos (-710)]
  · rcases le_or_gt x 746 with hh | hh
    · exact ⟨logistic x, ur_sigmoid_mid hl hh, h0, h1, by simpa using (Real.exp_pos _).le⟩
    · refine ⟨1, ur_sigmoid_high hh, zero_le_one, le_rfl, ?_⟩
      rw [abs_of_nonneg (by linarith)]
      have hs : 1 - logistic x ≤ Real.exp (-x) := by
        unfold logistic
        rw [sub_le_iff_le_add, ← sub_le_iff_le_add', le_div_iff₀ (by positivity)]
        nlinarith
      exact hs.trans (Real.exp_le_exp.mpr (by linarith))

/-- A logistic regressor with finite parameters predicts, for finite inputs of its width, numbers in `[0, 1]` within `exp (-710)` of
the exact probabilities. -/
theorem C122_logistic_predict (b : ℝ) (v : List ℝ) (X : Mat ℝ) (hw : v.length = X.cols) :
    ∃ ps : List ℝ, LogReg.predict ⟨some (ufins (b :: v))⟩ (ufinMat X) = ok (ufins ps) ∧ ps.length = X.rows.length ∧
      ∀ (i : ℕ) (x : List ℝ) (p : ℝ), X.rows[i]? = some x → ps[i]? = some p → 0 ≤ p ∧ p ≤ 1 ∧ |p - logistic (affine (b :: v) x)| ≤ Real.exp (-710) := by
  choose s hs using C122_sigmoid
  refine ⟨X.rows.map fun x => s (affine (b :: v) x), ?_, by simp, ?_⟩
  · rw [LogReg.predict]
    simp only
    rw [ur_withOnes, ok_bind, ur_mulVec (by simp [onesMat, hw]), ok_bind]
    congr 1
    simp only [ufins, onesMat, List.map_map]
    apply List.map_congr_left
    intro x _
    have : rdot (1 :: x) (b :: v) = affine (b :: v) x := by simp [rdot, affine, Spec.inner]
    simp only [Function.comp_apply]
    rw [this]
    exact (hs _).1
  · intro i x p hx hp
    rw [List.getElem?_map, hx] at hp
    cases hp
    exact (hs _).2

/-- The gradient that the logistic regressor hands to its optimiser is finite, for finite data and parameters. -/
theorem logGrad_finite {X : Mat ℝ} (hne : X.rows ≠ []) {y w : List ℝ} (hy : y.length = X.rows.length) (hw : w.length = X.cols) :
    ∃ c g, logComputeGrad (ufins w) (ufinMat X) (ufins y) = ok (c, ufins g) ∧ g.length = w.length := by
  choose s hs using C122_sigmoid
  have hsc : (ufins (X.rows.map fun r => rdot r w)).map sigmoid.func = ufins (X.rows.map fun r => s (rdot r w)) := by
    simp only [ufins, List.map_map]
    apply List.map_congr_left
    intro x _
    exact (hs _).1
  have hn : (X.rows.length : ℝ) ≠ 0 := by simpa using hne
  have hcost : ∃ c, ceCostVec (ufins (X.rows.map fun r => s (rdot r w))) (ufins y) = ok c := by
    simp [ceCostVec, vecZip, hy]
  obtain ⟨c, hc⟩ := hcost
  refine ⟨c, (X.transpose.rows.map fun r => rdot r (List.zipWith (fun a b => a - b) (X.rows.map fun r => s (rdot r w)) y)).map
    fun t => t / X.rows.length, ?_, ?_⟩
  · simp only [logComputeGrad]
    rw [ur_mulVec hw.symm, ok_bind, hsc, hc, ok_bind, ur_vecZip_fins (h := fun a b => a - b) (by simp) (by simp [hy]), ok_bind, ur_transpose,
      ur_mulVec (by simp [Mat.transpose, hy]), ok_bind]
    congr 2
    simp only [ufins, List.map_map, ufinMat, List.length_map]
    apply List.map_congr_left
    intro r _
    simp only [Function.comp_apply, ur_ofNat]
    exact ur_div _ _ hn
  · simp [Mat.transpose, transposeRows, hw]

theorem gdLoop_finite {g : List UR → Outcome (UR × List UR)} {d : ℕ}
    (hg : ∀ w : List ℝ, w.length = d → ∃ c v, g (ufins w) = ok (c, ufins v) ∧ v.length = d) (a : ℝ) :
    ∀ (n : ℕ) (w : List ℝ) (prev : UR), w.length = d → ∃ w', (gdLoop (UR.fin a) g n (ufins w) prev).out = ok (ufins w') ∧ w'.length = d := by
  intro n
  induction n with
  | zero => intro w prev hw; exact ⟨w, rfl, hw⟩
  | succ n ih =>
    intro w prev hw
    obtain ⟨c, v, h1, h2⟩ := hg w hw
    have hz : vecZip Scalar.sub (ufins w) (vecScale (ufins v) (UR.fin a)) = ok (ufins (List.zipWith (fun x y => x - y) w (v.map fun x => x * a))) := by
      have : vecScale (ufins v) (UR.fin a) = ufins (v.map fun x => x * a) := by simp [vecScale, ufins]
      rw [this, ur_vecZip_fins (h := fun a b => a - b) (by simp) (by simp [hw, h2])]
    rw [gdLoop, h1]
    by_cases hs : (Scalar.abs (prev -. c) <. learningEps) = true
    · exact ⟨w, by simp [Logged.call, hs], hw⟩
    · obtain ⟨w', h3, h4⟩ := ih (List.zipWith (fun x y => x - y) w (v.map fun x => x * a)) c (by simp [hw, h2])
      refine ⟨w', ?_, h4⟩
      rw [← h3]
      simp only [Logged.call]
      simp [hz]
      rw [if_neg hs]

/-- Training a logistic regressor by gradient descent on finite data, at least one sample, succeeds with finite parameters, however
large the scores become and whatever the cost is: neither overflow nor underflow of the exponential reaches the parameters. -/
theorem C122_logistic_train {X : Mat ℝ} (hne : X.rows ≠ []) {y : List ℝ} (hy : y.length = X.rows.length) (a : ℝ) (iters : ℕ) :
    ∃ w : List ℝ, LogReg.train (fun g s => ((⟨UR.fin a, iters⟩ : GradientDesc UR).optimize g s).out) (ufinMat X) (ufins y) =
      ok ⟨some (ufins w)⟩ ∧ w.length = X.cols + 1 := by
  obtain ⟨w, h1, h2⟩ := gdLoop_finite (g := fun w => logComputeGrad w (ufinMat (onesMat X)) (ufins y)) (d := X.cols + 1)
    (fun w hw => by
      obtain ⟨c, g, h1, h2⟩ := logGrad_finite (X := onesMat X) (by simpa [onesMat] using hne) (y := y) (w := w) (by simp [onesMat, hy])
        (by simp [onesMat, hw])
      exact ⟨c, g, h1, h2.trans hw⟩) a iters (List.replicate (X.cols + 1) (1 / 2)) Scalar.zero (by simp)
  refine ⟨w, ?_, h2⟩
  have hr : (List.replicate (ufinMat (onesMat X)).cols (Scalar.ofRat (1 / 2)) : List UR) = ufins (List.replicate (X.cols + 1) (1 / 2)) := by
    simp [ufinMat, onesMat, ufins]
  rw [LogReg.train, ur_withOnes, ok_bind, hr]
  simp only [GradientDesc.optimize]
  rw [h1]
  rfl

/-- The cost is lost: one sample of class 1 with a score above 746, or one of class 0 with a score below -710 (both classified rightly,
with the largest confidence), makes the cost of the whole data NaN. -/
theorem C122_cost_violation {X : Mat ℝ} {y w : List ℝ} (hy : y.length = X.rows.length) (hw : w.length = X.cols) {i : ℕ} {x : List ℝ} {t : ℝ}
    (hx : X.rows[i]? = some x) (ht : y[i]? = some t) (h : t = 1 ∧ 746 < Spec.inner x w ∨ t = 0 ∧ Spec.inner x w < -710) :
    ∃ g : List ℝ, logComputeGrad (ufins w) (ufinMat X) (ufins y) = ok (UR.nan, ufins g) := by
  have hne : X.rows ≠ [] := by rintro h0; simp [h0] at hx
  obtain ⟨c, g, hg, _⟩ := logGrad_finite hne hy hw
  suffices hc : c = UR.nan from ⟨g, by rw [hg, hc]⟩
  simp only [logComputeGrad] at hg
  rw [ur_mulVec hw.symm, ok_bind] at hg
  set o := (ufins (X.rows.map fun r => rdot r w)).map sigmoid.func with ho
  have hol : o.length = y.length := by simp [ho, hy]
  have hce : ceCostVec o (ufins y) = ok UR.nan := by
    simp only [ceCostVec, vecZip, List.length_map, ufins_length, hol, if_true, ok_bind, List.length_zipWith, min_self]
    rw [fsum_nan]
    · simp
    · have hoi : o[i]? = some (sigmoid.func (UR.fin (Spec.inner x w))) := by
        rw [ho, List.getElem?_map, ufins, List.getElem?_map, List.getElem?_map, hx]
        rfl
      have hti : (ufins y)[i]? = some (UR.fin t) := by rw [ufins, List.getElem?_map, ht]; rfl
      apply List.mem_of_getElem? (i := i)
      simp only [List.getElem?_zipWith, List.getElem?_map, hoi, hti, Option.map_some]
      congr 1
      rcases h with ⟨rfl, h⟩ | ⟨rfl, h⟩
      · rw [ur_sigmoid_high h]
        simp [oneMinus, ur_ln_zero, ur_zero_mul_ninf]
      · rw [ur_sigmoid_low h]
        simp [oneMinus, ur_ln_zero, ur_zero_mul_ninf]
  rw [hce, ok_bind] at hg
  generalize vecZip Scalar.sub o (ufins y) = d at hg
  cases d with
  | ok d =>
    rw [ok_bind] at hg
    generalize (ufinMat X).transpose.mulVec d = e at hg
    cases e with
    | ok e => injection hg with hg; exact (Prod.mk.inj hg).1.symm
    | err _ => cases hg
    | panic => cases hg
    | ub => cases hg
  | err _ => cases hg
  | panic => cases hg
  | ub => cases hg

/-- The weights are lost: the network with one linear layer, one sigmoid output and the cross-entropy criterion, that is
`BaseNet.mlp [1, 1]`, when it classifies its sample rightly with a score above 746, gets NaN weights from a single step of gradient descent with any step size (the
gradient `(o - t) / (o (1 - o))` is `0 / 0`). -/
theorem C122_network_violation (b w x a : ℝ) (h : 746 < b + x * w) :
    BaseNet.train (fun g s X T => ((⟨UR.fin a, 1⟩ : GradientDesc UR).optimize (fun v => g v X T) s).out)
      ⟨[NetLayer.new 1 1, .activ sigmoid], [UR.fin b, UR.fin w], ⟨.bce, .none⟩⟩ ⟨1, [[UR.fin x]]⟩ ⟨1, [[UR.fin 1]]⟩ =
    ok ⟨[NetLayer.new 1 1, .activ sigmoid], [UR.nan, UR.nan], ⟨.bce, .none⟩⟩ := by
  have hs : sigmoid.func (UR.fin (b + x * w)) = UR.fin 1 := ur_sigmoid_high h
  have hg : BaseNet.computeGrad (F := UR) ⟨[NetLayer.new 1 1, .activ sigmoid], [UR.fin b, UR.fin w], ⟨.bce, .none⟩⟩ [UR.fin b, UR.fin w]
      ⟨1, [[UR.fin x]]⟩ ⟨1, [[UR.fin 1]]⟩ = ok (UR.nan, [UR.nan, UR.nan]) := by
    have hfw : netForward [UR.fin b, UR.fin w] ⟨1, [[UR.fin x]]⟩ [NetLayer.new 1 1, .activ sigmoid] 0 [] [] =
        ok (2, [⟨1, [[UR.fin (b + x * w)]]⟩, ⟨1, [[UR.fin 1]]⟩], [⟨1, [[UR.fin b], [UR.fin w]]⟩, ⟨0, []⟩]) := by
      simp [netForward, sliceAt, NetLayer.new, NetLayer.paramShape, NetLayer.numParams, chunk, NetLayer.forward, Mat.hcat, Mat.ones, Mat.mul, colOf,
        dot, fsum, Mat.new, Mat.data, hs, Outcome.unwrap, List.range_succ, List.filterMap_cons]
    rw [BaseNet.computeGrad, hfw, ok_bind]
    simp [ofOption, Criterion.costGrad, ceGrad, Mat.zip, Mat.map, oneMinus, ur_div_zero_zero]
    simp [netBackward, layerInput, getAt, ofOption, NetLayer.backParams, NetLayer.backInput, Mat.new, copyInto, NetLayer.numParams, NetLayer.paramShape, chunk, Mat.data, NetLayer.new]
    simp [Mat.hcat, Mat.ones, Mat.transpose, transposeRows, Mat.mul, colOf, dot, fsum, List.range_succ, List.filterMap_cons, removeFirstCol,
      removeLoop, Mat.data, getAt, setAt, ofOption, Mat.new, chunk, Criterion.cost, ceCost, Mat.zip, Mat.map, Mat.sum, oneMinus, ur_ln_zero,
      ur_zero_mul_ninf, ur_ln _ one_pos, allInit, Criterion.isRegularized]
  simp [BaseNet.train, GradientDesc.optimize, gdLoop, Logged.call, hg, vecScale, vecZip]

/-- The exponent of the density of one component, on finite floats. -/
theorem ur_compPdf {d : ℕ} {S : Mat ℝ} (hS : S.WF) (hd : S.rows.length = d) (hc : S.cols = d) {x mu : List ℝ} (hx : x.length = d) (hm : mu.length = d)
    (sd : UR) :
    compPdf (ufins x) (ufins mu) (ufinMat S) sd = ok (Scalar.exp (UR.fin (sqMahalanobis d S x mu * (-1 / 2))) /. sd) := by
  have hdl : (List.zipWith (fun a b => a - b) x mu).length = d := by simp [hx, hm]
  set v := List.zipWith (fun a b => a - b) x mu with hv
  have hvi : ∀ i, v.getD i 0 = x.getD i 0 - mu.getD i 0 := by
    intro i
    rw [hv]
    rcases lt_or_ge i d with hi | hi
    · simp [List.getD_eq_getElem?_getD, List.getElem?_zipWith, List.getElem?_eq_getElem (show i < x.length by omega),
        List.getElem?_eq_getElem (show i < mu.length by omega)]
    · simp [List.getD_eq_getElem?_getD, List.getElem?_zipWith, List.getElem?_eq_none (show x.length ≤ i by omega),
        List.getElem?_eq_none (show mu.length ≤ i by omega)]
  have hrd : ∀ a b : List ℝ, a.length = d → b.length = d → rdot a b = ∑ i ∈ Finset.range d, a.getD i 0 * b.getD i 0 := by
    intro a b ha hb
    rw [rdot, sum_range_getD]
    have : (List.zipWith (fun x y => x * y) a b).length = d := by simp [ha, hb]
    rw [this]
    apply Finset.sum_congr rfl
    intro i hi
    have hi := Finset.mem_range.mp hi
    simp [List.getD_eq_getElem?_getD, List.getElem?_zipWith, List.getElem?_eq_getElem (show i < a.length by omega),
        List.getElem?_eq_getElem (show i < b.length by omega)]
  have hcol : ∀ j < d, (colOf S.rows j).length = d ∧ ∀ i < d, (colOf S.rows j).getD i 0 = (S.rows.getD i []).getD j 0 := by
    intro j hj
    have : colOf S.rows j = S.rows.map fun r => r.getD j 0 := by
      unfold colOf
      rw [← List.filterMap_eq_map]
      apply List.filterMap_congr
      intro r hr
      have := hS r hr
      simp [List.getD_eq_getElem?_getD, List.getElem?_eq_getElem (show j < r.length by omega)]
    rw [this]
    refine ⟨by simp [hd], fun i hi => ?_⟩
    simp [List.getD_eq_getElem?_getD, List.getElem?_eq_getElem (show i < S.rows.length by omega)]
  simp only [compPdf]
  rw [ur_vecZip_fins (h := fun a b => a - b) (by simp) (by simp [hx, hm]), ok_bind, ← hv]
  have hmul1 : (rowMat (ufins v)).mul (ufinMat S) = ok ⟨d, [ufins ((List.range d).map fun j => rdot v (colOf S.rows j))]⟩ := by
    simp only [Mat.mul, rowMat, ufinMat, ufins_length, List.length_map, hdl, hd, if_true, hc, List.map_cons, List.map_nil]
    congr 3
    simp only [ufins, List.map_map]
    apply List.map_congr_left
    intro j _
    exact (congrArg _ (colOf_ufins S.rows j)).trans (ur_dot_fins _ _)
  rw [hmul1, ok_bind]
  have htr : (rowMat (ufins v)).transpose = ⟨1, v.map fun t => [UR.fin t]⟩ := by
    simp only [Mat.transpose, rowMat, transposeRows, ufins_length]
    congr 1
    apply List.ext_getElem?
    intro i
    rcases lt_or_ge i v.length with hi | hi
    · simp [hi, ufins]
    · simp [hi]
  have hcv : colOf (v.map fun t => [UR.fin t]) 0 = ufins v := by
    simp [colOf, ufins, List.filterMap_map, List.filterMap_eq_map']
  have hmul2 : (⟨d, [ufins ((List.range d).map fun j => rdot v (colOf S.rows j))]⟩ : Mat UR).mul (rowMat (ufins v)).transpose =
      ok ⟨1, [[UR.fin (sqMahalanobis d S x mu)]]⟩ := by
    rw [htr]
    simp only [Mat.mul, List.length_map, hdl, if_true, List.map_cons, List.map_nil, List.range_one]
    rw [hcv, ur_dot_fins, hrd _ _ (by simp) hdl]
    congr 5
    apply Finset.sum_congr rfl
    intro j hj
    have hj := Finset.mem_range.mp hj
    rw [hvi]
    congr 1
    rw [List.getD_eq_getElem?_getD, List.getElem?_map, List.getElem?_range hj]
    simp only [Option.map_some, Option.getD_some]
    rw [hrd _ _ hdl (hcol j hj).1]
    apply Finset.sum_congr rfl
    intro i hi
    rw [hvi, (hcol j hj).2 i (Finset.mem_range.mp hi)]
  rw [hmul2, ok_bind]
  simp [Mat.scaleBy, Mat.map, Mat.data, getAt, ofOption]

/-- The densities of all components at a far sample. -/
theorem ur_compPdfs_far {d : ℕ} {x : List ℝ} (hx : x.length = d) {means : Mat ℝ} (hm : means.WF) (hmc : means.cols = d)
    (comps : List (ℝ × Mat ℝ)) (hcl : comps.length = means.rows.length)
    (hS : ∀ c ∈ comps, 0 < c.1 ∧ c.2.WF ∧ c.2.rows.length = d ∧ c.2.cols = d)
    (hfar : ∀ (j : ℕ) (mu : List ℝ) (c : ℝ × Mat ℝ), means.rows[j]? = some mu → comps[j]? = some c → 1492 < sqMahalanobis d c.2 x mu) :
    compPdfs means.rows.length (ufinMat means) (comps.map fun c => (UR.fin c.1, ufinMat c.2)) (ufins x) =
      ok (ufins (List.replicate means.rows.length 0)) := by
  unfold compPdfs
  rw [mapM_ok_map _ (fun _ => UR.fin 0)]
  · simp [ufins]
  · intro j hj
    have hj := List.mem_range.mp hj
    have h1 := List.getElem?_eq_getElem hj
    have h2 := List.getElem?_eq_getElem (show j < comps.length by omega)
    obtain ⟨h3, h4, h5, h6⟩ := hS _ (List.getElem_mem (show j < comps.length by omega))
    have hf := hfar j _ _ h1 h2
    simp only [getAt, ufinMat, List.getElem?_map, h1, h2, Option.map_some, ofOption, ok_bind]
    refine (ur_compPdf h4 h5 h6 hx ((hm _ (List.getElem_mem hj)).trans hmc) _).trans ?_
    rw [ur_exp_low _ (by linarith), ur_div _ _ h3.ne', zero_div]

/-- The membership weights of a sample all of whose densities are zero are NaN. -/
theorem ur_memberRow_zero {k : ℕ} {mix : List ℝ} (hmix : mix.length = k) {means : Mat UR} {parts : List (UR × Mat UR)} {x : List UR}
    (h : compPdfs k means parts x = ok (ufins (List.replicate k 0))) :
    memberRow k (ufins mix) means parts x = ok (List.replicate k UR.nan, UR.fin 0) := by
  have hs : dot (ufins (List.replicate k 0)) (ufins mix) = UR.fin 0 := by
    rw [ur_dot_fins, rdot]
    congr 1
    apply List.sum_eq_zero
    intro t ht
    rw [List.mem_iff_getElem] at ht
    obtain ⟨i, hi, rfl⟩ := ht
    simp
  simp only [memberRow, h, ok_bind, hs]
  rw [mapM_ok_map _ (fun _ => UR.nan)]
  · simp
  · intro i hi
    have hi : i < k := by simpa using hi
    simp [getAt, ufins, hi, List.getElem?_eq_getElem (show i < mix.length by omega), ofOption, ur_div_zero_zero]

/-- The determinants and inverses of finite regular covariances. -/
theorem ur_parts {lup : Mat UR → Outcome (UR × Outcome (Mat UR))} : ∀ (covs : List (Mat ℝ)) (comps : List (ℝ × Mat ℝ)), (∀ c ∈ comps, 0 < c.1) →
    covs.mapM (fun c => lup (ufinMat c)) = ok (comps.map fun c => (UR.fin c.1, ok (ufinMat c.2))) →
    (covs.map ufinMat).mapM (covParts lup) = ok (comps.map fun c => (UR.fin (Real.sqrt c.1), ufinMat c.2)) := by
  intro covs
  induction covs with
  | nil =>
    intro comps _ h
    cases comps with
    | nil => rfl
    | cons c comps => cases h
  | cons c0 covs ih =>
    intro comps hpos h
    rw [List.mapM_cons] at h
    cases hl : lup (ufinMat c0) with
    | ok r =>
      rw [hl, ok_bind] at h
      cases hr : covs.mapM (fun c => lup (ufinMat c)) with
      | ok rs =>
        rw [hr, ok_bind] at h
        cases comps with
        | nil => cases h
        | cons c comps =>
          injection h with h
          rw [List.map_cons] at h
          injection h with h1 h2
          rw [List.map_cons, List.mapM_cons, ih comps (fun c hc => hpos c (by simp [hc])) (by rw [hr, h2])]
          simp only [covParts, hl, h1, expectOk, ok_bind, fromLinalg, ur_sqrt _ (hpos c (by simp)).le, List.map_cons]
          rfl
      | err _ => rw [hr] at h; cases h
      | panic => rw [hr] at h; cases h
      | ub => rw [hr] at h; cases h
    | err _ => rw [hl] at h; cases h
    | panic => rw [hl] at h; cases h
    | ub => rw [hl] at h; cases h

/-- The memberships are lost: for a sample whose squared distance from every component, in the units of the component's covariance, is
above 1492, the prediction of a mixture with finite parameters and regular covariances is NaN for every component (all densities are 0, and
the weights are divided by their sum). -/
theorem C122_far_sample_violation (lup : Mat UR → Outcome (UR × Outcome (Mat UR))) {d : ℕ} {x : List ℝ} (hx : x.length = d) {means : Mat ℝ}
    (hm : means.WF) (hmc : means.cols = d) (mix : List ℝ) (hmix : mix.length = means.rows.length) (covs : List (Mat ℝ))
    (comps : List (ℝ × Mat ℝ)) (hcl : comps.length = means.rows.length)
    (hlup : covs.mapM (fun c => lup (ufinMat c)) = ok (comps.map fun c => (UR.fin c.1, ok (ufinMat c.2))))
    (hS : ∀ c ∈ comps, 0 < c.1 ∧ c.2.WF ∧ c.2.rows.length = d ∧ c.2.cols = d)
    (hfar : ∀ (j : ℕ) (mu : List ℝ) (c : ℝ × Mat ℝ), means.rows[j]? = some mu → comps[j]? = some c → 1492 < sqMahalanobis d c.2 x mu)
    (logLik : UR) (iters : ℕ) (opt : CovOption UR) :
    Gmm.predict lup ⟨means.rows.length, ufins mix, some (ufinMat means), some (covs.map ufinMat), logLik, iters, opt⟩ ⟨d, [ufins x]⟩ =
      ok ⟨means.rows.length, [List.replicate means.rows.length UR.nan]⟩ := by
  have hp := ur_parts covs comps (fun c hc => (hS c hc).1) hlup
  have hrow := ur_memberRow_zero hmix (ur_compPdfs_far hx hm hmc (comps.map fun c => (Real.sqrt c.1, c.2)) (by simp [hcl])
    (by
      intro c hc
      obtain ⟨c', hc', rfl⟩ := List.mem_map.mp hc
      exact ⟨Real.sqrt_pos.mpr (hS c' hc').1, (hS c' hc').2⟩)
    (by
      intro j mu c h1 h2
      rw [List.getElem?_map] at h2
      cases h3 : comps[j]? with
      | none => rw [h3] at h2; cases h2
      | some c' => rw [h3] at h2; cases h2; exact hfar j mu c' h1 h3))
  simp only [Gmm.predict, Gmm.memberships, Option.getD_some]
  rw [hp]
  simp only [List.map_map, Function.comp_def] at hrow
  simp [hrow]

/-- For a sample within a squared distance of 1492 of a component of positive weight, the prediction of the mixture is finite: for every
component a number that is not negative, and they add up to 1. -/
theorem C122_near_sample (lup : Mat UR → Outcome (UR × Outcome (Mat UR))) {d : ℕ} {x : List ℝ} (hx : x.length = d) {means : Mat ℝ}
    (hm : means.WF) (hmc : means.cols = d) (mix : List ℝ) (hmix : mix.length = means.rows.length) (hpos : ∀ w ∈ mix, 0 ≤ w) (covs : List (Mat ℝ))
    (comps : List (ℝ × Mat ℝ)) (hcl : comps.length = means.rows.length)
    (hlup : covs.mapM (fun c => lup (ufinMat c)) = ok (comps.map fun c => (UR.fin c.1, ok (ufinMat c.2))))
    (hS : ∀ c ∈ comps, 0 < c.1 ∧ c.2.WF ∧ c.2.rows.length = d ∧ c.2.cols = d)
    (hdist : ∀ (j : ℕ) (mu : List ℝ) (c : ℝ × Mat ℝ), means.rows[j]? = some mu → comps[j]? = some c → 0 ≤ sqMahalanobis d c.2 x mu)
    (hnear : ∃ (j : ℕ) (mu : List ℝ) (c : ℝ × Mat ℝ) (w : ℝ), means.rows[j]? = some mu ∧ comps[j]? = some c ∧ mix[j]? = some w ∧ 0 < w ∧
      sqMahalanobis d c.2 x mu ≤ 1492)
    (logLik : UR) (iters : ℕ) (opt : CovOption UR) :
    ∃ row : List ℝ, Gmm.predict lup ⟨means.rows.length, ufins mix, some (ufinMat means), some (covs.map ufinMat), logLik, iters, opt⟩ ⟨d, [ufins x]⟩ =
      ok ⟨means.rows.length, [ufins row]⟩ ∧ row.length = means.rows.length ∧ (∀ p ∈ row, 0 ≤ p) ∧ row.sum = 1 := by
  set k := means.rows.length with hk
  have hp := ur_parts covs comps (fun c hc => (hS c hc).1) hlup
  have hexp : ∀ t : ℝ, 0 ≤ t → ∃ e : ℝ, Scalar.exp (UR.fin (t * (-1 / 2))) = UR.fin e ∧ 0 ≤ e ∧ (t ≤ 1492 → 0 < e) := by
    intro t ht
    rcases lt_or_ge (t * (-1 / 2)) (-746) with h | h
    · exact ⟨0, ur_exp_low _ h, le_rfl, fun h2 => by linarith⟩
    · exact ⟨_, ur_exp _ h (by linarith), (Real.exp_pos _).le, fun _ => Real.exp_pos _⟩
  choose! e he using hexp
  let dist : ℕ → ℝ := fun j => sqMahalanobis d (comps.getD j (1, means)).2 x (means.rows.getD j [])
  let p : ℕ → ℝ := fun j => e (dist j) / Real.sqrt (comps.getD j (1, means)).1
  have hd0 : ∀ j < k, 0 ≤ dist j := by
    intro j hj
    refine hdist j _ _ ?_ ?_
    · rw [List.getD_eq_getElem?_getD, List.getElem?_eq_getElem (by omega)]; rfl
    · rw [List.getD_eq_getElem?_getD, List.getElem?_eq_getElem (by omega)]; rfl
  have hcomp : ∀ j < k, comps.getD j (1, means) ∈ comps := by
    intro j hj
    rw [List.getD_eq_getElem?_getD, List.getElem?_eq_getElem (by omega)]
    exact List.getElem_mem _
  have hp0 : ∀ j < k, 0 ≤ p j := fun j hj => div_nonneg (he _ (hd0 j hj)).2.1 (Real.sqrt_nonneg _)
  have hpdfs : compPdfs k (ufinMat means) (comps.map fun c => (UR.fin (Real.sqrt c.1), ufinMat c.2)) (ufins x) = ok (ufins ((List.range k).map p)) := by
    unfold compPdfs
    rw [mapM_ok_map _ (fun j => UR.fin (p j))]
    · simp [ufins]
    · intro j hj
      have hj := List.mem_range.mp hj
      have h1 := List.getElem?_eq_getElem (show j < means.rows.length by omega)
      have h2 : comps[j]? = some (comps.getD j (1, means)) := by
        rw [List.getD_eq_getElem?_getD, List.getElem?_eq_getElem (by omega)]; rfl
      obtain ⟨h3, h4, h5, h6⟩ := hS _ (hcomp j hj)
      have hmu : means.rows[j] = means.rows.getD j [] := by
        rw [List.getD_eq_getElem?_getD, h1]; rfl
      simp only [getAt, ufinMat, List.getElem?_map, h1, h2, Option.map_some, ofOption, ok_bind]
      refine (ur_compPdf h4 h5 h6 hx ((hm _ (List.getElem_mem (show j < means.rows.length by omega))).trans hmc) _).trans ?_
      rw [hmu, (he _ (hd0 j hj)).1, ur_div _ _ (Real.sqrt_pos.mpr h3).ne']
  have hmixe : mix = (List.range k).map fun j => mix.getD j 0 := by
    apply List.ext_getElem (by simp [hmix])
    intro i h1 h2
    simp [List.getElem?_eq_getElem h1]
  have hmg : ∀ j < k, 0 ≤ mix.getD j 0 := by
    intro j hj
    rw [List.getD_eq_getElem?_getD, List.getElem?_eq_getElem (by omega)]
    exact hpos _ (List.getElem_mem _)
  have hs : rdot ((List.range k).map p) mix = ∑ j ∈ Finset.range k, mix.getD j 0 * p j := by
    conv_lhs => rw [hmixe]
    rw [rdot, List.zipWith_map, List.zipWith_self, sum_range_getD]
    simp only [List.length_map, List.length_range]
    apply Finset.sum_congr rfl
    intro j hj
    rw [List.getD_eq_getElem?_getD, List.getElem?_map, List.getElem?_range (Finset.mem_range.mp hj)]
    exact mul_comm _ _
  have hspos : 0 < ∑ j ∈ Finset.range k, mix.getD j 0 * p j := by
    obtain ⟨j, mu, c, w, h1, h2, h3, h4, h5⟩ := hnear
    have hj : j < k := by
      by_contra h
      rw [List.getElem?_eq_none (by omega)] at h1
      cases h1
    apply Finset.sum_pos' (fun i hi => mul_nonneg (hmg i (Finset.mem_range.mp hi)) (hp0 i (Finset.mem_range.mp hi)))
    refine ⟨j, Finset.mem_range.mpr hj, mul_pos ?_ (div_pos ((he _ (hd0 j hj)).2.2 ?_) (Real.sqrt_pos.mpr (hS _ (hcomp j hj)).1))⟩
    · rw [List.getD_eq_getElem?_getD, h3]; exact h4
    · simp only [dist]
      rw [List.getD_eq_getElem?_getD, h2, List.getD_eq_getElem?_getD, h1]
      exact h5
  set s := ∑ j ∈ Finset.range k, mix.getD j 0 * p j with hsdef
  have hrow : memberRow k (ufins mix) (ufinMat means) (comps.map fun c => (UR.fin (Real.sqrt c.1), ufinMat c.2)) (ufins x) =
      ok (ufins ((List.range k).map fun j => mix.getD j 0 * p j / s), UR.fin s) := by
    simp only [memberRow, hpdfs, ok_bind]
    rw [ur_dot_fins, hs]
    simp only [ufins_length, List.length_map, List.length_range]
    rw [mapM_ok_map _ (fun j => UR.fin (mix.getD j 0 * p j / s))]
    · simp [ufins]
    · intro i hi
      have hi := List.mem_range.mp hi
      have h3 : mix[i]? = some (mix.getD i 0) := by
        rw [List.getD_eq_getElem?_getD, List.getElem?_eq_getElem (by omega)]; rfl
      simp only [getAt, ufins, List.getElem?_map, h3, List.getElem?_range hi, Option.map_some, ofOption, ok_bind]
      rw [ur_mul, ur_div _ _ hspos.ne']
  refine ⟨(List.range k).map fun j => mix.getD j 0 * p j / s, ?_, by simp, ?_, ?_⟩
  · simp only [Gmm.predict, Gmm.memberships, Option.getD_some]
    rw [hp]
    simp [hrow]
  · intro q hq
    obtain ⟨j, hj, rfl⟩ := List.mem_map.mp hq
    have hj := List.mem_range.mp hj
    exact div_nonneg (mul_nonneg (hmg j hj) (hp0 j hj)) hspos.le
  · rw [sum_range_getD]
    simp only [List.length_map, List.length_range]
    rw [← div_self hspos.ne', hsdef, Finset.sum_div]
    apply Finset.sum_congr rfl
    intro j hj
    have hj := Finset.mem_range.mp hj
    rw [List.getD_eq_getElem?_getD, List.getElem?_map, List.getElem?_range hj]
    rfl

/-! ### Training on one outlier -/

/-- `n` samples at 0 and one at 1. -/
def outlierData (n : ℕ) : Mat ℝ := ⟨1, List.replicate n [0] ++ [[1]]⟩

/-- NaN in the column makes the sums of rows NaN. -/
theorem covSum_nan (opt : CovOption UR) (X W : Mat UR) (k : ℕ) (hX : ∀ r ∈ X.rows, ∃ t, r = [t]) (hc : X.cols = 1) (hW : ∀ r ∈ W.rows, k < r.length)
    (hl : W.rows.length = X.rows.length) (hne : W.rows ≠ []) (hopt : opt = .full) :
    covSum opt X W [UR.nan] k = ok ⟨1, [[UR.nan]]⟩ := by
  subst hopt
  have key : ∀ (l : List ℕ) (a : UR), (∀ i ∈ l, i < W.rows.length) → (a = UR.nan ∨ l ≠ []) → l.foldlM (fun acc i => do
      let x ← getAt X.rows i
      let diff ← vecZip Scalar.sub x [UR.nan]
      let wr ← getAt W.rows i
      let w ← getAt wr k
      let c ← computeCov (CovOption.full) diff w
      acc.zip Scalar.add c) (⟨1, [[a]]⟩ : Mat UR) = ok ⟨1, [[UR.nan]]⟩ := by
    intro l
    induction l with
    | nil => intro a _ h; simp at h; subst h; rfl
    | cons i l ih =>
      intro a hi _
      have h1 := hi i (by simp)
      obtain ⟨t, ht⟩ := hX _ (List.getElem_mem (show i < X.rows.length by omega))
      have h2 := hW _ (List.getElem_mem h1)
      have step : (do
          let x ← getAt X.rows i
          let diff ← vecZip Scalar.sub x [UR.nan]
          let wr ← getAt W.rows i
          let w ← getAt wr k
          let c ← computeCov (CovOption.full) diff w
          (⟨1, [[a]]⟩ : Mat UR).zip Scalar.add c) = ok ⟨1, [[UR.nan]]⟩ := by
        rw [getAt, List.getElem?_eq_getElem (show i < X.rows.length by omega), ht]
        simp only [ofOption, ok_bind, vecZip, List.length_cons, List.length_nil, if_true]
        rw [getAt, List.getElem?_eq_getElem h1]
        simp only [ofOption, ok_bind]
        rw [getAt, List.getElem?_eq_getElem h2]
        simp [ofOption, computeCov, rowMat, Mat.transpose, transposeRows, Mat.mul, colOf, dot, fsum, Mat.scaleBy, Mat.map, Mat.zip]
      rw [List.foldlM_cons, step, ok_bind]
      exact ih _ (fun j hj => hi j (by simp [hj])) (Or.inl rfl)
  unfold covSum
  rw [hc]
  exact key _ _ (fun i hi => List.mem_range.mp hi) (Or.inr (by simpa using hne))

theorem colOf_append {F : Type} (a b : List (List F)) (j : ℕ) : colOf (a ++ b) j = colOf a j ++ colOf b j := by simp [colOf]

theorem colOf_replicate {F : Type} (n : ℕ) (r : List F) (j : ℕ) (x : F) (h : r[j]? = some x) : colOf (List.replicate n r) j = List.replicate n x := by
  induction n with
  | zero => rfl
  | succ n ih => rw [List.replicate_succ, List.replicate_succ, ← ih]; simp [colOf, h]

theorem outlier_rows (n : ℕ) : (ufinMat (outlierData n)).rows = List.replicate n [UR.fin 0] ++ [[UR.fin 1]] := by
  simp [ufinMat, outlierData, ufins]

theorem outlier_col (n : ℕ) : colOf (ufinMat (outlierData n)).rows 0 = List.replicate n (UR.fin 0) ++ [UR.fin 1] := by
  rw [outlier_rows, colOf_append, colOf_replicate n _ 0 (UR.fin 0) rfl]
  rfl

theorem outlier_cov (n : ℕ) (hn : 0 < n) (m : Gmm UR) (hm : m.covOption = .full) :
    m.initCov (ufinMat (outlierData n)) (Scalar.one /. Scalar.ofNat n) = ok ⟨1, [[UR.fin (1 / (n + 1))]]⟩ := by
  have hn0 : (n : ℝ) ≠ 0 := by positivity
  have hn1 : (n : ℝ) + 1 ≠ 0 := by positivity
  have hmean : (ufinMat (outlierData n)).meanRow = [UR.fin (1 / (n + 1))] := by
    have hc : (ufinMat (outlierData n)).cols = 1 := rfl
    have hl : (ufinMat (outlierData n)).rows.length = n + 1 := by rw [outlier_rows]; simp
    have hu : (List.replicate n (UR.fin 0) ++ [UR.fin 1] : List UR) = ufins (List.replicate n 0 ++ [1]) := by simp [ufins]
    simp only [Mat.meanRow, Mat.sumRows, hc, hl, List.range_one, List.map_cons, List.map_nil]
    rw [outlier_col, hu, ur_fsum_fins, ur_ofNat, ur_div _ _ (by push_cast; exact hn1)]
    simp
  have hsum : fsum ((ufinMat (outlierData n)).rows.map fun r => (r.getD 0 Scalar.zero -. UR.fin (1 / (n + 1))) *.
      (r.getD 0 Scalar.zero -. UR.fin (1 / (n + 1)))) = UR.fin (n / (n + 1)) := by
    have : ((ufinMat (outlierData n)).rows.map fun r => (r.getD 0 Scalar.zero -. UR.fin (1 / (n + 1))) *.
        (r.getD 0 Scalar.zero -. UR.fin (1 / (n + 1)))) =
        ufins (List.replicate n (((0 : ℝ) - 1 / (n + 1)) * (0 - 1 / (n + 1))) ++ [((1 : ℝ) - 1 / (n + 1)) * (1 - 1 / (n + 1))]) := by
      rw [outlier_rows]
      simp [ufins]
    rw [this, ur_fsum_fins]
    congr 1
    simp only [List.sum_append, List.sum_replicate, List.sum_cons, List.sum_nil, nsmul_eq_mul]
    field_simp
    ring
  simp only [Gmm.initCov, hm, scatterMat, hmean]
  have hc : (ufinMat (outlierData n)).cols = 1 := rfl
  simp only [hc, List.range_one, List.map_cons, List.map_nil, List.getD_cons_zero, hsum, Mat.scaleBy, Mat.map]
  rw [ur_one, ur_ofNat, ur_div _ _ hn0, ur_mul]
  congr 5
  field_simp

/-- The whole model is lost: of 1493 samples or more let all but the last be 0 and the last be 1, and let the initial means be drawn from
the others. Then one iteration of training, with any number of components and finite data, makes every weight, every mean and every
covariance NaN: the density of every component at the last sample is 0. -/
theorem C122_outlier_violation (lup : Mat UR → Outcome (UR × Outcome (Mat UR)))
    (hlup : ∀ a : ℝ, 0 < a → lup ⟨1, [[UR.fin a]]⟩ = ok (UR.fin a, ok ⟨1, [[UR.fin (1 / a)]]⟩)) (draws : ℕ → ℕ) {n k : ℕ} (hn : 1492 ≤ n)
    (hk : 0 < k) {rows : List ℕ} (hd : reservoirSample draws (List.range (n + 1)) k = ok rows) (hlast : n ∉ rows) :
    ∃ m', Gmm.train lup draws ((Gmm.new k).setMaxIters 1) (ufinMat (outlierData n)) = ok m' ∧ m'.mixWeights = List.replicate k UR.nan ∧
      m'.means = some ⟨1, List.replicate k [UR.nan]⟩ ∧ m'.covars = some (List.replicate k ⟨1, [[UR.nan]]⟩) := by
  have hkn : k ≤ n + 1 := by
    by_contra h
    rw [reservoirSample, List.length_range, decide_eq_false h] at hd
    cases hd
  obtain ⟨res, h1, h2, h3⟩ := reservoirSample_subperm draws (List.range (n + 1)) k (by simpa using hkn)
  rw [hd] at h1
  injection h1 with h1
  subst h1
  have hrows : ∀ i ∈ rows, i < n := by
    intro i hi
    have := h3.subset hi
    have h4 : i ≠ n := fun h => hlast (h ▸ hi)
    simp at this
    omega
  have hkr : (0 : ℝ) < k := by exact_mod_cast hk
  have hnr : (1492 : ℝ) ≤ n := by exact_mod_cast hn
  have hX := outlier_rows n
  have hXl : (ufinMat (outlierData n)).rows.length = n + 1 := by rw [hX]; simp
  have hsel : (ufinMat (outlierData n)).selectRows rows = ok ⟨1, List.replicate k [UR.fin 0]⟩ := by
    rw [Mat.selectRows, mapM_ok_map _ (fun _ => [UR.fin 0])]
    · simp [h2]; rfl
    · intro i hi
      rw [getAt, hX, List.getElem?_append_left (by simpa using hrows i hi)]
      simp [hrows i hi, ofOption]
  obtain ⟨c, hcdef⟩ : ∃ c : ℝ, c = 1 / ((n : ℝ) + 1) := ⟨_, rfl⟩
  have hc : 0 < c := by rw [hcdef]; positivity
  have hinv : 1 / c = n + 1 := by rw [hcdef]; simp
  have hmix : (Gmm.new k : Gmm UR).mixWeights = ufins (List.replicate k (1 / (k : ℝ))) := by
    simp [Gmm.new, ufins, ur_div _ _ hkr.ne']
  have hinit : ((Gmm.new k : Gmm UR).setMaxIters 1).init draws (ufinMat (outlierData n)) =
      ok ⟨k, ufins (List.replicate k (1 / (k : ℝ))), some ⟨1, List.replicate k [UR.fin 0]⟩, some (List.replicate k ⟨1, [[UR.fin c]]⟩), UR.fin 0, 1, .full⟩ := by
    rw [Gmm.init, if_pos (by omega), hXl, Nat.add_sub_cancel, outlier_cov n (by omega) _ rfl, ok_bind]
    have : ((Gmm.new k : Gmm UR).setMaxIters 1).compCount = k := rfl
    rw [this, hd, ok_bind, hsel, ok_bind, ← hmix, hcdef]
    rfl
  have hparts : (List.replicate k (⟨1, [[UR.fin c]]⟩ : Mat UR)).mapM (covParts lup) =
      ok (List.replicate k (UR.fin (Real.sqrt c), ⟨1, [[UR.fin (1 / c)]]⟩)) := by
    rw [mapM_ok_map _ (fun _ => (UR.fin (Real.sqrt c), (⟨1, [[UR.fin (1 / c)]]⟩ : Mat UR)))]
    · simp
    · intro m hm
      rw [List.eq_of_mem_replicate hm, covParts, hlup c hc]
      simp only [expectOk, ok_bind, fromLinalg, ur_sqrt _ hc.le]
  have hpdf : ∀ x : ℝ, compPdfs k ⟨1, List.replicate k [UR.fin 0]⟩ (List.replicate k (UR.fin (Real.sqrt c), ⟨1, [[UR.fin (1 / c)]]⟩)) [UR.fin x] =
      ok (List.replicate k (Scalar.exp (UR.fin (x * (1 / c) * x * (-1 / 2))) /. UR.fin (Real.sqrt c))) := by
    intro x
    unfold compPdfs
    rw [mapM_ok_map _ (fun _ => Scalar.exp (UR.fin (x * (1 / c) * x * (-1 / 2))) /. UR.fin (Real.sqrt c))]
    · simp
    · intro j hj
      have hj := List.mem_range.mp hj
      simp only [getAt, List.getElem?_replicate, hj, if_true, ofOption, ok_bind]
      have := ur_compPdf (d := 1) (S := ⟨1, [[1 / c]]⟩) (by intro r hr; simp at hr; simp [hr]) rfl rfl (x := [x]) (mu := [0]) rfl rfl (UR.fin (Real.sqrt c))
      refine Eq.trans this ?_
      simp [sqMahalanobis]
  have hsc : 0 < Real.sqrt c := Real.sqrt_pos.mpr hc
  -- the rows at zero
  have hrow0 : ∃ r0 s0, memberRow k (ufins (List.replicate k (1 / (k : ℝ)))) ⟨1, List.replicate k [UR.fin 0]⟩
      (List.replicate k (UR.fin (Real.sqrt c), ⟨1, [[UR.fin (1 / c)]]⟩)) [UR.fin 0] = ok (r0, UR.fin s0) ∧ r0.length = k ∧ 0 < s0 := by
    have hp0 : Scalar.exp (UR.fin (0 * (1 / c) * 0 * (-1 / 2))) /. UR.fin (Real.sqrt c) = UR.fin (1 / Real.sqrt c) := by
      rw [mul_zero, zero_mul, ur_exp _ (by norm_num) (by norm_num), Real.exp_zero, ur_div _ _ hsc.ne']
    have hu : List.replicate k (UR.fin (1 / Real.sqrt c)) = ufins (List.replicate k (1 / Real.sqrt c)) := by simp [ufins]
    have hs : rdot (List.replicate k (1 / Real.sqrt c)) (List.replicate k (1 / (k : ℝ))) = 1 / Real.sqrt c := by
      simp only [rdot, List.zipWith_replicate, min_self, List.sum_replicate, nsmul_eq_mul]
      field_simp
    refine ⟨(List.range k).map fun _ => (UR.fin (1 / (k : ℝ)) *. UR.fin (1 / Real.sqrt c)) /. UR.fin (1 / Real.sqrt c), 1 / Real.sqrt c, ?_, by simp, by positivity⟩
    simp only [memberRow, hpdf, ok_bind, hp0]
    rw [hu, ur_dot_fins, hs]
    simp only [ufins_length, List.length_replicate]
    rw [mapM_ok_map _ (fun _ => (UR.fin (1 / (k : ℝ)) *. UR.fin (1 / Real.sqrt c)) /. UR.fin (1 / Real.sqrt c))]
    · rfl
    · intro i hi
      have hi := List.mem_range.mp hi
      simp only [getAt, ufins, List.map_replicate, List.getElem?_replicate, hi, if_true, ofOption, ok_bind]
  obtain ⟨r0, s0, hr0, hr0l, hs0⟩ := hrow0
  -- the last row
  have hrow1 : memberRow k (ufins (List.replicate k (1 / (k : ℝ)))) ⟨1, List.replicate k [UR.fin 0]⟩
      (List.replicate k (UR.fin (Real.sqrt c), ⟨1, [[UR.fin (1 / c)]]⟩)) [UR.fin 1] = ok (List.replicate k UR.nan, UR.fin 0) := by
    apply ur_memberRow_zero (by simp)
    rw [hpdf, hinv, ur_exp_low _ (by linarith), ur_div _ _ hsc.ne', zero_div]
    simp [ufins]
  have hmem : Gmm.memberships lup ⟨k, ufins (List.replicate k (1 / (k : ℝ))), some ⟨1, List.replicate k [UR.fin 0]⟩,
      some (List.replicate k ⟨1, [[UR.fin c]]⟩), UR.fin 0, 1, .full⟩ (ufinMat (outlierData n)) =
      ok (⟨k, List.replicate n r0 ++ [List.replicate k UR.nan]⟩, UR.ninf) := by
    simp only [Gmm.memberships, Option.getD_some, hparts, ok_bind, hX]
    have hm0 : (List.replicate n [UR.fin 0]).mapM (memberRow k (ufins (List.replicate k (1 / (k : ℝ)))) ⟨1, List.replicate k [UR.fin 0]⟩
        (List.replicate k (UR.fin (Real.sqrt c), ⟨1, [[UR.fin (1 / c)]]⟩))) = ok (List.replicate n (r0, UR.fin s0)) := by
      rw [mapM_ok_map _ (fun _ => (r0, UR.fin s0))]
      · simp
      · intro r hr; rw [List.eq_of_mem_replicate hr, hr0]
    rw [List.mapM_append, hm0, ok_bind, List.mapM_cons, hrow1, ok_bind, List.mapM_nil]
    have hln : ((List.replicate n (r0, UR.fin s0) ++ [(List.replicate k UR.nan, UR.fin 0)]).map fun r => Scalar.ln r.2) =
        ufins (List.replicate n (Real.log s0)) ++ [UR.ninf] := by
      simp [ufins, ur_ln _ hs0, ur_ln_zero]
    have hfold : (ufins (List.replicate n (Real.log s0)) ++ [UR.ninf]).foldl Scalar.add Scalar.zero = UR.ninf := by
      rw [List.foldl_append]
      have : (ufins (List.replicate n (Real.log s0))).foldl Scalar.add Scalar.zero = UR.fin _ := ur_fsum_fins _
      rw [this]
      rfl
    simp only [pure_eq, ok_bind]
    rw [hln, hfold]
    simp
  -- the update
  have hW : ∀ j < k, ∃ a, colOf (List.replicate n r0 ++ [List.replicate k UR.nan]) j = List.replicate n a ++ [UR.nan] := by
    intro j hj
    refine ⟨r0[j], ?_⟩
    rw [colOf_append, colOf_replicate n r0 j r0[j] (by simp [hr0l, hj])]
    simp [colOf, hj]
  have hall : ∀ f : ℕ → UR, (∀ j < k, f j = UR.nan) → (List.range k).map f = List.replicate k UR.nan := by
    intro f hf
    apply List.ext_getElem (by simp)
    intro i h1 h2
    simp at h1
    simp [hf i h1]
  have hsums : (⟨k, List.replicate n r0 ++ [List.replicate k UR.nan]⟩ : Mat UR).sumRows = List.replicate k UR.nan := by
    apply hall
    intro j hj
    obtain ⟨a, ha⟩ := hW j hj
    rw [ha]
    exact fsum_nan (by simp)
  have hprod : (⟨k, List.replicate n r0 ++ [List.replicate k UR.nan]⟩ : Mat UR).transpose.mul (ufinMat (outlierData n)) =
      ok ⟨1, List.replicate k [UR.nan]⟩ := by
    rw [Mat.mul, if_pos (by rw [hXl]; simp [Mat.transpose])]
    have hc1 : (ufinMat (outlierData n)).cols = 1 := rfl
    rw [hc1]
    congr 2
    apply List.ext_getElem (by simp [Mat.transpose, transposeRows])
    intro j h1 h2
    have hj : j < k := by simpa using h2
    obtain ⟨a, ha⟩ := hW j hj
    have ha' : (List.replicate n r0 ++ [List.replicate k UR.nan]).filterMap (fun r => r[j]?) = List.replicate n a ++ [UR.nan] := ha
    simp only [Mat.transpose, transposeRows, List.getElem_map, List.getElem_range, List.range_one, List.map_cons, List.map_nil, List.getElem_replicate]
    rw [ha', outlier_col, dot, fsum_nan]
    rw [List.zipWith_append (by simp)]
    simp
  have hcovs : (List.range k).mapM (newCov CovOption.full (ufinMat (outlierData n)) ⟨k, List.replicate n r0 ++ [List.replicate k UR.nan]⟩
      ⟨1, List.replicate k [UR.nan]⟩ (List.replicate k UR.nan)) = ok (List.replicate k ⟨1, [[UR.nan]]⟩) := by
    rw [mapM_ok_map _ (fun _ => (⟨1, [[UR.nan]]⟩ : Mat UR))]
    · simp
    · intro j hj
      have hj := List.mem_range.mp hj
      rw [newCov, getAt, List.getElem?_replicate, if_pos hj]
      simp only [ofOption, ok_bind]
      rw [covSum_nan _ _ _ j (by rw [hX]; intro r hr; simp at hr; rcases hr with ⟨_, rfl⟩ | rfl <;> exact ⟨_, rfl⟩) rfl
        (by intro r hr; simp at hr; rcases hr with ⟨_, rfl⟩ | rfl <;> simp [hr0l, hj]) (by rw [hXl]; simp) (by simp) rfl, ok_bind]
      simp [addReg, getAt, hj, ofOption, Mat.map]
  have hupd : ∃ m', Gmm.update ⟨k, ufins (List.replicate k (1 / (k : ℝ))), some ⟨1, List.replicate k [UR.fin 0]⟩,
      some (List.replicate k ⟨1, [[UR.fin c]]⟩), UR.ninf, 1, .full⟩ (ufinMat (outlierData n)) ⟨k, List.replicate n r0 ++ [List.replicate k UR.nan]⟩ =
      ok m' ∧ m'.mixWeights = List.replicate k UR.nan ∧
      m'.means = some ⟨1, List.replicate k [UR.nan]⟩ ∧ m'.covars = some (List.replicate k ⟨1, [[UR.nan]]⟩) := by
    rw [Gmm.update]
    simp only [hsums, hprod, ok_bind, List.zipWith_replicate, min_self, List.map_cons, List.map_nil, ur_nan_div, hcovs, List.map_replicate]
    exact ⟨_, rfl, rfl, rfl, rfl⟩
  obtain ⟨m', hu1, hu2⟩ := hupd
  refine ⟨m', ?_, hu2⟩
  rw [Gmm.train, hinit, ok_bind]
  have hit : ((Gmm.new k : Gmm UR).setMaxIters 1).maxIters = 1 := rfl
  have hlt : (Scalar.abs (UR.ninf -. UR.fin 0) <. (Scalar.ofRat (1 / 10 ^ 15) : UR)) = false := rfl
  rw [hit]
  simp only [Gmm.emLoop, Gmm.emStep, hmem, ok_bind, hlt, hu1]
  rfl

theorem reservoirLoop_keeps {α : Type} (k : ℕ) (pool : List α) : ∀ (seen t : ℕ) (res : List α), k ≤ seen →
    reservoirLoop (fun _ => k) k pool seen t res = ok res := by
  induction pool with
  | nil => intros; rfl
  | cons p pool ih =>
    intro seen t res h
    simp only [reservoirLoop, genRange_zero (Nat.succ_pos _), Nat.succ_eq_add_one, ok_bind, Nat.mod_eq_of_lt (show k < seen + 1 by omega),
      lt_irrefl, if_false, pure_eq]
    exact ih _ _ _ (by omega)

/-- The draws with which `C122_outlier_violation` applies, for any number of components up to the number of zeros: the initial means
are the first samples. -/
theorem outlier_draws {n k : ℕ} (h : k ≤ n) : ∃ rows, reservoirSample (fun _ => k) (List.range (n + 1)) k = ok rows ∧ n ∉ rows := by
  refine ⟨(List.range (n + 1)).take k, ?_, ?_⟩
  · rw [reservoirSample, List.length_range, decide_eq_true (by omega : k ≤ n + 1)]
    exact reservoirLoop_keeps k _ _ _ _ le_rfl
  · rw [List.take_range]
    simp
    omega

/-- A decomposition for matrices of one element. -/
noncomputable def lupOne : Mat UR → Outcome (UR × Outcome (Mat UR))
  | ⟨_, [[XR.fin a]]⟩ => ok (UR.fin a, ok ⟨1, [[UR.fin (1 / a)]]⟩)
  | _ => err .LinearAlgebra

/-- Any number of components up to 1492, and 1493 samples. -/
example (k : ℕ) (hk : 0 < k) (hk2 : k ≤ 1492) : ∃ m', Gmm.train lupOne (fun _ => k) ((Gmm.new k).setMaxIters 1) (ufinMat (outlierData 1492)) = ok m' ∧
      m'.mixWeights = List.replicate k UR.nan := by
  obtain ⟨rows, h1, h2⟩ := outlier_draws hk2
  obtain ⟨m', h3, h4, _⟩ := C122_outlier_violation lupOne (fun a _ => rfl) (fun _ => k) le_rfl hk h1 h2
  exact ⟨m', h3, h4⟩

/-- A sample at 40 from a component of mean 0 and variance 1: the squared distance is 1600. -/
example : Gmm.predict (fun _ => ok (UR.fin 1, ok ⟨1, [[UR.fin 1]]⟩))
    ⟨1, ufins [1], some (ufinMat ⟨1, [[0]]⟩), some ([(⟨1, [[1]]⟩ : Mat ℝ)].map ufinMat), Scalar.zero, 100, .full⟩ ⟨1, [ufins [40]]⟩ =
      ok ⟨1, [[UR.nan]]⟩ := by
  refine C122_far_sample_violation (d := 1) _ rfl (means := ⟨1, [[0]]⟩) (by intro r hr; simp at hr; simp [hr]) rfl [1] rfl [⟨1, [[1]]⟩] [(1, ⟨1, [[1]]⟩)] rfl ?_ ?_ ?_ _ _ _
  · rfl
  · intro c hc; simp at hc; subst hc; refine ⟨one_pos, ?_, rfl, rfl⟩; intro r hr; simp at hr; simp [hr]
  · intro j mu c h1 h2
    cases j with
    | zero => simp at h1 h2; subst h1 h2; simp [sqMahalanobis]; norm_num
    | succ j => simp at h1

/-- A sample at 1 from the same component. -/
example : ∃ row : List ℝ, Gmm.predict (fun _ => ok (UR.fin 1, ok ⟨1, [[UR.fin 1]]⟩))
    ⟨1, ufins [1], some (ufinMat ⟨1, [[0]]⟩), some ([(⟨1, [[1]]⟩ : Mat ℝ)].map ufinMat), Scalar.zero, 100, .full⟩ ⟨1, [ufins [1]]⟩ =
      ok ⟨1, [ufins row]⟩ ∧ row.length = 1 ∧ (∀ p ∈ row, 0 ≤ p) ∧ row.sum = 1 := by
  refine C122_near_sample (d := 1) _ rfl (means := ⟨1, [[0]]⟩) (by intro r hr; simp at hr; simp [hr]) rfl [1] rfl (by simp) [⟨1, [[1]]⟩] [(1, ⟨1, [[1]]⟩)] rfl
    ?_ ?_ ?_ ?_ _ _ _
  · rfl
  · intro c hc; simp at hc; subst hc; refine ⟨one_pos, ?_, rfl, rfl⟩; intro r hr; simp at hr; simp [hr]
  · intro j mu c h1 h2
    cases j with
    | zero => simp at h1 h2; subst h1 h2; simp [sqMahalanobis]
    | succ j => simp at h1
  · exact ⟨0, [0], (1, ⟨1, [[1]]⟩), 1, rfl, rfl, rfl, one_pos, by simp [sqMahalanobis]⟩

/-- A sample of class 1 at 1000 under the slope 1. -/
example : ∃ g : List ℝ, logComputeGrad (ufins [0, 1]) (ufinMat ⟨2, [[1, 1000]]⟩) (ufins [1]) = ok (UR.nan, ufins g) :=
  C122_cost_violation (X := ⟨2, [[1, 1000]]⟩) rfl rfl (i := 0) rfl rfl (Or.inl ⟨rfl, by simp [Spec.inner]; norm_num⟩)

/-- The same data train to finite parameters. -/
example : ∃ w : List ℝ, LogReg.train (fun g s => ((⟨UR.fin (3 / 10), 100⟩ : GradientDesc UR).optimize g s).out) (ufinMat ⟨1, [[1000], [-1000]]⟩) (ufins [1, 0]) =
    ok ⟨some (ufins w)⟩ ∧ w.length = 2 :=
  C122_logistic_train (X := ⟨1, [[1000], [-1000]]⟩) (by simp) rfl _ _

/-- A network with slope 1 and the sample 1000 of class 1. -/
example : BaseNet.train (fun g s X T => ((⟨UR.fin (3 / 10), 1⟩ : GradientDesc UR).optimize (fun v => g v X T) s).out)
      ⟨[NetLayer.new 1 1, .activ sigmoid], [UR.fin 0, UR.fin 1], ⟨.bce, .none⟩⟩ ⟨1, [[UR.fin 1000]]⟩ ⟨1, [[UR.fin 1]]⟩ =
    ok ⟨[NetLayer.new 1 1, .activ sigmoid], [UR.nan, UR.nan], ⟨.bce, .none⟩⟩ :=
  C122_network_violation 0 1 1000 _ (by norm_num)

/-! ### Kernels -/

/-- The squared exponential kernel on finite floats, with a length scale that is not 0 and an amplitude that is not negative, is a number
between 0 and the amplitude: underflow loses at most the amplitude times `exp (-746)`. -/
theorem C122_kernel {ls a : ℝ} (hls : ls ≠ 0) (ha : 0 ≤ a) {u v : List ℝ} (huv : u.length = v.length) :
    ∃ q : ℝ, sqExpKernel (UR.fin ls) (UR.fin a) (ufins u) (ufins v) = ok (UR.fin q) ∧ 0 ≤ q ∧ q ≤ a ∧
      |q - a * Real.exp (-(List.zipWith (fun x y => (x - y) ^ 2) u v).sum / (2 * ls * ls))| ≤ a * Real.exp (-746) := by
  have hden : 2 * ls * ls ≠ 0 := by positivity
  have hsq : rdot (List.zipWith (fun a b => a - b) u v) (List.zipWith (fun a b => a - b) u v) = (List.zipWith (fun x y => (x - y) ^ 2) u v).sum := by
    rw [rdot, List.zipWith_self, List.map_zipWith]
    congr 1
    congr 1
    funext x y
    ring
  have hnn : 0 ≤ (List.zipWith (fun x y => (x - y) ^ 2) u v).sum := hsq ▸ rdot_self_nonneg _
  set q := (List.zipWith (fun x y => (x - y) ^ 2) u v).sum with hq
  have hle : -q / (2 * ls * ls) ≤ 0 := div_nonpos_of_nonpos_of_nonneg (by linarith) (by nlinarith [mul_self_nonneg ls])
  have hval : sqExpKernel (UR.fin ls) (UR.fin a) (ufins u) (ufins v) = ok (UR.fin a *. Scalar.exp (UR.fin (-q / (2 * ls * ls)))) := by
    simp only [sqExpKernel, ufins_length, huv, beq_self_eq_true, assert_true, ok_bind]
    rw [ur_vecZip_fins (h := fun a b => a - b) (by simp) huv, ok_bind, ur_dot_fins, hsq, ur_neg, ur_ofNat, ur_mul, ur_mul, ur_div _ _ (by simpa using hls)]
    simp
  rw [hval]
  rcases lt_or_ge (-q / (2 * ls * ls)) (-746) with h | h
  · refine ⟨0, ?_, le_rfl, ha, ?_⟩
    · rw [ur_exp_low _ h, ur_mul, mul_zero]
    · rw [zero_sub, abs_neg, abs_of_nonneg (mul_nonneg ha (Real.exp_pos _).le)]
      exact mul_le_mul_of_nonneg_left (Real.exp_le_exp.mpr h.le) ha
  · refine ⟨a * Real.exp (-q / (2 * ls * ls)), ?_, mul_nonneg ha (Real.exp_pos _).le, ?_, ?_⟩
    · rw [ur_exp _ h (by linarith), ur_mul]
    · exact mul_le_of_le_one_right ha (Real.exp_le_one_iff.mpr hle)
    · rw [sub_self, abs_zero]
      exact mul_nonneg ha (Real.exp_pos _).le

end RM
