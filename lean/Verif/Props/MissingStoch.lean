import Verif.Props.MissingTrain
import Verif.Proofs.Optim

/-! C148 for the stochastic optimisers: a missing number (NaN) in a training sample. -/

namespace RM
open Outcome Scalar Spec

/-- The update of a coordinate gives NaN if the coordinate or the gradient is NaN. -/
def NanRule (u : CoordRule XR) : Prop := (∀ s g, (u XR.nan s g).1 = XR.nan) ∧ ∀ w s, (u w s XR.nan).1 = XR.nan

theorem sgd_nanRule (a m : XR) : NanRule (sgdRule a m) := by
  refine ⟨fun s g => xr_nan_sub _, fun w s => ?_⟩
  simp only [sgdRule, mv_nan_mul, xr_nan_add, xr_add_nan, mv_sub_nan]

theorem ada_nanRule (a t : XR) : NanRule (adaRule a t) := by
  refine ⟨fun s g => xr_nan_sub _, fun w s => ?_⟩
  simp only [adaRule, mv_mul_nan, xr_nan_div, xr_add_nan, mv_sub_nan]

theorem rms_nanRule (a b c : XR) : NanRule (rmsRule a b c) := by
  refine ⟨fun s g => xr_nan_sub _, fun w s => ?_⟩
  simp only [rmsRule, mv_nan_mul, mv_mul_nan, xr_nan_div, xr_nan_add, xr_add_nan, mv_sub_nan]

theorem nan_step {u : CoordRule XR} (hu : NanRule u) {n : ℕ} {w aux g : List XR} (h1 : w.length = n) (h2 : aux.length = n) (h3 : g.length = n)
    (h : w = List.replicate n XR.nan ∨ g = List.replicate n XR.nan) : (u.step (w, aux) g).1 = List.replicate n XR.nan := by
  unfold CoordRule.step
  rw [List.eq_replicate_iff]
  refine ⟨by simp [h1, h2, h3], ?_⟩
  intro b hb
  obtain ⟨p, hp, rfl⟩ := List.mem_map.1 hb
  obtain ⟨i, hi, rfl⟩ := List.mem_iff_getElem.1 hp
  simp only [List.getElem_zipWith, List.getElem_zip]
  rcases h with rfl | rfl
  · rw [List.getElem_replicate]; exact hu.1 _ _
  · rw [List.getElem_replicate]; exact hu.2 _ _

namespace Spec

/-- The model has a cost and a gradient of `n` coordinates for each single sample, and all coordinates are NaN if the sample has a NaN. -/
def NanGradient (g : ComputeGrad XR) (n : ℕ) (inputs targets : Mat XR) : Prop :=
  ∀ w : List XR, w.length = n → ∀ x ∈ inputs.rows, ∀ y ∈ targets.rows, ∃ c d, g w ⟨inputs.cols, [x]⟩ ⟨targets.cols, [y]⟩ = ok (c, d) ∧ d.length = n ∧
    (XR.nan ∈ x → d = List.replicate n XR.nan)

end Spec

variable {upd : List XR → List XR → List XR → Outcome (List XR × List XR)} {u : CoordRule XR} {n : ℕ} {g : ComputeGrad XR} {X T : Mat XR}

theorem stochPass_nan (hu : Follows upd u n) (hn : NanRule u) (hg : NanGradient g n X T) (hl : X.rows.length = T.rows.length) :
    ∀ (is : List ℕ) (w aux : List XR) (c : XR), (∀ i ∈ is, i < X.rows.length) → w.length = n → aux.length = n →
      (w = List.replicate n XR.nan ∨ ∃ i ∈ is, ∃ x, X.rows[i]? = some x ∧ XR.nan ∈ x) →
      ∃ aux' c', aux'.length = n ∧ (stochPass upd g X T is (w, aux, c)).out = ok (List.replicate n XR.nan, aux', c')
  | [], w, aux, c, _, hw, ha, h => by
    rcases h with rfl | ⟨i, hi, _⟩
    · exact ⟨aux, c, ha, rfl⟩
    · simp at hi
  | i :: is, w, aux, c, hi, hw, ha, h => by
    have hx : i < X.rows.length := hi i (by simp)
    have hy : i < T.rows.length := hl ▸ hx
    obtain ⟨c1, d, hgd, hd, hdn⟩ := hg w hw X.rows[i] (List.getElem_mem hx) T.rows[i] (List.getElem_mem hy)
    have s1 : X.selectRows [i] = ok ⟨X.cols, [X.rows[i]]⟩ := by
      simp [Mat.selectRows, getAt, List.getElem?_eq_getElem hx, ofOption]
    have s2 : T.selectRows [i] = ok ⟨T.cols, [T.rows[i]]⟩ := by
      simp [Mat.selectRows, getAt, List.getElem?_eq_getElem hy, ofOption]
    unfold stochPass
    rw [s1, s2]
    simp only [Logged.lift_ok_bind]
    rw [hgd]
    simp only [Logged.call_ok_bind]
    rw [hu w aux d hw ha hd]
    simp only [Logged.lift_ok_bind]
    obtain ⟨l1, l2⟩ := step_length u (s := (w, aux)) hw ha hd
    refine stochPass_nan hu hn hg hl is _ _ _ (fun j hj => hi j (by simp [hj])) l1 l2 ?_
    rcases h with rfl | ⟨j, hj, x, hxj, hxn⟩
    · exact .inl (nan_step hn hw ha hd (.inl rfl))
    · rcases List.mem_cons.1 hj with rfl | hj
      · rw [List.getElem?_eq_getElem hx, Option.some.injEq] at hxj
        subst hxj
        exact .inl (nan_step hn hw ha hd (.inr (hdn hxn)))
      · exact .inr ⟨j, hj, x, hxj, hxn⟩

theorem stochLoop_nan (hu : Follows upd u n) (hn : NanRule u) (hg : NanGradient g n X T) (hl : X.rows.length = T.rows.length) {x : List XR} (hx : x ∈ X.rows)
    (hxn : XR.nan ∈ x) (r : ℕ → ℕ → ℕ) : ∀ (k e : ℕ) (perm : List ℕ) (w aux : List XR) (prev : XR), perm.Perm (List.range X.rows.length) → w.length = n →
      aux.length = n → (k = 0 → w = List.replicate n XR.nan) → (stochLoop upd g X T r k e perm w aux prev).out = ok (List.replicate n XR.nan)
  | 0, _, _, w, _, _, _, _, _, h => by rw [h rfl]; rfl
  | k + 1, e, perm, w, aux, prev, hp, hw, ha, _ => by
    unfold stochLoop
    rw [inPlaceFisherYates_eq]
    simp only [Logged.lift_ok_bind]
    have hp' : (fyRec (r e) 0 perm).Perm (List.range X.rows.length) := (fyRec_perm _ perm.length 0 perm rfl).trans hp
    obtain ⟨i, hi, rfl⟩ := List.mem_iff_getElem.1 hx
    obtain ⟨aux', c', ha', hs⟩ := stochPass_nan hu hn hg hl (fyRec (r e) 0 perm) w aux Scalar.zero (fun j hj => List.mem_range.1 (hp'.subset hj)) hw ha
      (.inr ⟨i, hp'.symm.subset (List.mem_range.2 hi), _, List.getElem?_eq_getElem hi, hxn⟩)
    rw [Logged.bind_ok hs]
    simp only
    split
    · rfl
    · exact stochLoop_nan hu hn hg hl (List.getElem_mem hi) hxn r k (e + 1) _ _ _ _ hp' (by simp) ha' fun _ => rfl

/-- C148 fails for the stochastic optimisers, visibly: one NaN in the samples, and all parameters found are NaN, whatever the order of the samples. -/
theorem C148_stochastic_violation (hg : NanGradient g n X T) (hl : X.rows.length = T.rows.length) (x : List XR) (hx : x ∈ X.rows) (hxn : XR.nan ∈ x)
    (r : ℕ → ℕ → ℕ) (start : List XR) (hs : start.length = n) :
    (∀ o : StochasticGD XR, 0 < o.iters → (o.optimize g r start X T).out = ok (List.replicate n XR.nan)) ∧
    (∀ o : AdaGrad XR, 0 < o.iters → (o.optimize g r start X T).out = ok (List.replicate n XR.nan)) ∧
    ∀ o : RMSProp XR, 0 < o.iters → (o.optimize g r start X T).out = ok (List.replicate n XR.nan) :=
  ⟨fun _ ho => stochLoop_nan (sgd_follows _ _ _) (sgd_nanRule _ _) hg hl hx hxn r _ 0 _ _ _ _ (List.Perm.refl _) hs (by simp [hs]) fun h => absurd h ho.ne',
    fun _ ho => stochLoop_nan (ada_follows _ _ _) (ada_nanRule _ _) hg hl hx hxn r _ 0 _ _ _ _ (List.Perm.refl _) hs (by simp [hs]) fun h => absurd h ho.ne',
    fun _ ho => stochLoop_nan (rms_follows _ _ _ _) (rms_nanRule _ _ _) hg hl hx hxn r _ 0 _ _ _ _ (List.Perm.refl _) hs (by simp [hs]) fun h => absurd h ho.ne'⟩

/-- The squared error of a linear function of the sample, with one target, has such a gradient. -/
theorem linear_nanGradient {X T : Mat XR} (hX : X.WF) (hT : T.WF) (h1 : T.cols = 1) : NanGradient (fun w x y => linComputeGrad w x y.data) X.cols X T := by
  intro w hw x hx y hy
  have hA : (⟨X.cols, [x]⟩ : Mat XR).WF := by
    intro r hr
    rw [List.mem_singleton.1 hr]
    exact hX x hx
  have hyl : y.length = 1 := by rw [hT y hy, h1]
  obtain ⟨c, d, hcd, hd⟩ : ∃ c d, linComputeGrad w ⟨X.cols, [x]⟩ y = ok (c, d) ∧ d.length = X.cols := by
    unfold linComputeGrad Mat.mulVec mseCostVec vecZip
    simp only [hw, if_true, ok_bind, List.map_cons, List.map_nil]
    rw [if_pos (by simp [hyl])]
    simp only [ok_bind]
    rw [if_pos (by simp [Mat.transpose, hyl])]
    exact ⟨_, _, rfl, by simp [Mat.transpose, transposeRows]⟩
  refine ⟨c, d, by simpa [Mat.data] using hcd, hd, ?_⟩
  intro hn
  have := linComputeGrad_nan hA (t := y) (by simpa using hyl) (List.mem_singleton.2 rfl) hn w hw
  rw [hcd] at this
  exact (Prod.mk.inj (ok.inj this)).2

/-- Two samples of which the second is NaN, the default stochastic gradient descent, any shuffles. -/
example (r : ℕ → ℕ → ℕ) : ((StochasticGD.default : StochasticGD XR).optimize (fun w x y => linComputeGrad w x y.data) r [.fin 1, .fin 1]
    ⟨2, [[.fin 1, .fin 2], [.fin 1, .nan]]⟩ ⟨1, [[.fin 0], [.fin 1]]⟩).out = ok [.nan, .nan] :=
  (C148_stochastic_violation (linear_nanGradient (X := ⟨2, [[.fin 1, .fin 2], [.fin 1, .nan]]⟩) (T := ⟨1, [[.fin 0], [.fin 1]]⟩)
    (by intro r hr; simp at hr; rcases hr with rfl | rfl <;> rfl) (by intro r hr; simp at hr; rcases hr with rfl | rfl <;> rfl) rfl) rfl [.fin 1, .nan] (by simp)
    (by simp) r [.fin 1, .fin 1] rfl).1 _ (by norm_num [StochasticGD.default])

end RM
