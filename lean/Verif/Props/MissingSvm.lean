import Verif.Props.MissingTrain

/-! C148 for support vector machines: a missing number (NaN) in a training sample. -/

namespace RM
open Outcome Scalar Spec

namespace Spec

/-- The kernel has a value for any two points of the same dimension, and this is NaN if one of the points has a NaN. -/
def NanEither (K : Kernel XR) : Prop :=
  (∀ x y : List XR, x.length = y.length → ∃ k, K x y = ok k) ∧ ∀ x y : List XR, XR.nan ∈ x ∨ XR.nan ∈ y → x.length = y.length → K x y = ok XR.nan

end Spec

/-- C148: the kernels with this property. -/
theorem C148_kernels (a b : XR) :
    NanEither (linearKernel a) ∧ NanEither (sqExpKernel a b) ∧ NanEither (expKernel a b) ∧ NanEither (hyperTanKernel a b) ∧
    (∀ K K' : Kernel XR, NanEither K → NanEither K' → NanEither (kernelSum K K') ∧ NanEither (kernelProd K K')) := by
  have hd : ∀ x y : List XR, XR.nan ∈ y → x.length = y.length →
      dot (List.zipWith Scalar.sub x y) (List.zipWith Scalar.sub x y) = XR.nan := fun x y hx hl =>
    dot_nan_mem (zipWith_nan_mem_right mv_sub_nan hx hl) rfl
  obtain ⟨k1, k2, k3, k4, -⟩ := C147_kernels a b
  refine ⟨⟨fun _ _ _ => ⟨_, rfl⟩, ?_⟩, ⟨?_, ?_⟩, ⟨?_, ?_⟩, ⟨fun _ _ _ => ⟨_, rfl⟩, ?_⟩, ?_⟩
  · rintro x y (hx | hx) hl
    · exact k1 x y hx hl
    · unfold linearKernel
      rw [dot_nan_mem_right hx hl, xr_nan_add]
  · intro x y hl
    unfold sqExpKernel
    simp only [hl, beq_self_eq_true, assert, if_true, ok_bind, vecZip]
    exact ⟨_, rfl⟩
  · rintro x y (hx | hx) hl
    · exact k2 x y hx hl
    · unfold sqExpKernel
      simp only [hl, beq_self_eq_true, assert, if_true, ok_bind, vecZip]
      rw [hd x y hx hl]
      show ok (Scalar.mul b (Scalar.exp (Scalar.div XR.nan _))) = _
      rw [xr_nan_div]
      show ok (Scalar.mul b XR.nan) = _
      rw [mv_mul_nan]
  · intro x y hl
    unfold expKernel
    simp only [hl, beq_self_eq_true, assert, if_true, ok_bind, vecZip]
    exact ⟨_, rfl⟩
  · rintro x y (hx | hx) hl
    · exact k3 x y hx hl
    · unfold expKernel
      simp only [hl, beq_self_eq_true, assert, if_true, ok_bind, vecZip]
      rw [hd x y hx hl]
      show ok (Scalar.mul b (Scalar.exp (Scalar.div XR.nan _))) = _
      rw [xr_nan_div]
      show ok (Scalar.mul b XR.nan) = _
      rw [mv_mul_nan]
  · rintro x y (hx | hx) hl
    · exact k4 x y hx hl
    · unfold hyperTanKernel
      rw [dot_nan_mem_right hx hl, mv_mul_nan, xr_nan_add]
      rfl
  · intro K K' h h'
    refine ⟨⟨?_, ?_⟩, ⟨?_, ?_⟩⟩
    · intro x y hl
      obtain ⟨u, hu⟩ := h.1 x y hl
      obtain ⟨v, hv⟩ := h'.1 x y hl
      unfold kernelSum; rw [hu, hv]; exact ⟨_, rfl⟩
    · intro x y hx hl
      unfold kernelSum; rw [h.2 x y hx hl, h'.2 x y hx hl]; rfl
    · intro x y hl
      obtain ⟨u, hu⟩ := h.1 x y hl
      obtain ⟨v, hv⟩ := h'.1 x y hl
      unfold kernelProd; rw [hu, hv]; exact ⟨_, rfl⟩
    · intro x y hx hl
      unfold kernelProd; rw [h.2 x y hx hl, h'.2 x y hx hl]; rfl

theorem kernelRowSum_nan {K : Kernel XR} (hK : NanEither K) {row : List XR} : ∀ (l : List (List XR)) (a : XR), (∀ y ∈ l, row.length = y.length) →
    ((a = XR.nan ∨ ∃ y ∈ l, XR.nan ∈ y) → l.foldlM (fun s r => do let k ← K row r; ok (s +. k)) a = ok XR.nan)
  | [], a, _, h => by
    rcases h with rfl | ⟨y, hy, _⟩
    · rfl
    · simp at hy
  | r :: l, a, hl, h => by
    obtain ⟨k, hk⟩ := hK.1 row r (hl r (by simp))
    rw [List.foldlM_cons, hk]
    simp only [ok_bind]
    refine kernelRowSum_nan hK l _ (fun y hy => hl y (by simp [hy])) ?_
    rcases h with rfl | ⟨y, hy, hy'⟩
    · exact .inl (xr_nan_add _)
    · rcases List.mem_cons.1 hy with rfl | hy
      · rw [hK.2 row y (.inr hy') (hl y (by simp))] at hk
        cases hk
        exact .inl (xr_add_nan _)
      · exact .inr ⟨y, hy, hy'⟩

theorem svmStep_nan {K : Kernel XR} (hK : NanEither K) {lam : XR} {full : Mat XR} (hF : full.WF) {y : List XR} (hy : y ∈ full.rows) (hn : XR.nan ∈ y)
    {targets : List XR} (ht : targets.length = full.rows.length) (alpha : List XR) (t raw : ℕ) : svmStep K lam full targets alpha t raw = ok alpha := by
  have hpos : 0 < full.rows.length := List.length_pos_of_mem hy
  have hi : raw % full.rows.length < full.rows.length := Nat.mod_lt _ hpos
  unfold svmStep genRange kernelRowSum
  rw [if_pos hpos]
  simp only [ok_bind, Nat.zero_add, Nat.sub_zero, getAt, List.getElem?_eq_getElem hi, List.getElem?_eq_getElem (ht ▸ hi : raw % full.rows.length < targets.length), ofOption]
  rw [kernelRowSum_nan hK full.rows _ (fun r hr => by rw [hF r hr, hF _ (List.getElem_mem hi)]) (.inr ⟨y, hy, hn⟩)]
  simp only [ok_bind, mv_nan_mul, xr_nan_div]
  rw [if_neg (by simp [Scalar.lt, XR.lt])]

theorem svm_loop_nan {K : Kernel XR} (hK : NanEither K) {lam : XR} {full : Mat XR} (hF : full.WF) {y : List XR} (hy : y ∈ full.rows) (hn : XR.nan ∈ y)
    {targets : List XR} (ht : targets.length = full.rows.length) {draws : ℕ → ℕ} : ∀ (l : List ℕ) (alpha : List XR),
    l.foldlM (fun a t => svmStep K lam full targets a t (draws t)) alpha = ok alpha
  | [], alpha => rfl
  | t :: l, alpha => by
    rw [List.foldlM_cons, svmStep_nan hK hF hy hn ht, ok_bind, svm_loop_nan hK hF hy hn ht l]

/-- C148 fails for support vector machines: with a NaN in one training sample, training leaves every multiplier at 0 whatever is drawn, and the prediction for
every query is NaN. -/
theorem C148_svm_violation (m : Svm XR) (hK : NanEither m.ker) (draws : ℕ → ℕ) (X Y : Mat XR) (hX : X.WF) (hY : Y.WF) (hc : Y.cols = X.cols) (t : List XR)
    (ht : t.length = X.rows.length) (x : List XR) (hx : x ∈ X.rows) (hnan : XR.nan ∈ x) :
    ∃ m', m.train draws X t = ok m' ∧ m'.alpha = some (List.replicate X.rows.length (Scalar.div (.fin 0) (Scalar.ofNat m.optimIters))) ∧
    m'.predict Y = ok (List.replicate Y.rows.length XR.nan) := by
  have hF : (⟨X.cols + 1, X.rows.map (Scalar.one :: ·)⟩ : Mat XR).WF := by
    intro r hr
    obtain ⟨q, hq, rfl⟩ := List.mem_map.1 hr
    simp [hX q hq]
  have hy : (Scalar.one :: x) ∈ X.rows.map (Scalar.one :: ·) := List.mem_map.2 ⟨x, hx, rfl⟩
  have hl := svm_loop_nan hK (lam := m.lambda) hF hy (List.mem_cons_of_mem _ hnan) (targets := t) (by simpa using ht) (draws := draws) (List.range m.optimIters)
    (List.replicate X.rows.length Scalar.zero)
  refine ⟨_, by unfold Svm.train; rw [withOnes_eq]; simp only [ok_bind]; rw [hl]; rfl, by simp, ?_⟩
  unfold Svm.predict
  simp only [withOnes_eq, ok_bind]
  have hmem : ∀ q ∈ Y.rows.map (Scalar.one :: ·), ∃ ks : List XR, (X.rows.map (Scalar.one :: ·)).mapM (fun r2 => m.ker q r2) = ok ks ∧ ks.length = X.rows.length ∧ XR.nan ∈ ks := by
    intro q hq
    obtain ⟨q', hq', rfl⟩ := List.mem_map.1 hq
    have hl : ∀ r ∈ X.rows.map (Scalar.one :: ·), (Scalar.one :: q').length = r.length := by
      intro r hr
      obtain ⟨r', hr', rfl⟩ := List.mem_map.1 hr
      simp [hX r' hr', hY q' hq', hc]
    let g : List XR → XR := fun r => match m.ker (Scalar.one :: q') r with | ok k => k | _ => .nan
    have hg : ∀ r ∈ X.rows.map (Scalar.one :: ·), m.ker (Scalar.one :: q') r = ok (g r) := by
      intro r hr
      obtain ⟨k, hk⟩ := hK.1 _ _ (hl r hr)
      simp only [g, hk]
    refine ⟨_, mapM_ok_map _ g _ hg, by simp, List.mem_map.2 ⟨_, hy, ?_⟩⟩
    have := hg _ hy
    rw [hK.2 _ _ (.inr (List.mem_cons_of_mem _ hnan)) (hl _ hy)] at this
    exact (ok.inj this).symm
  obtain ⟨rows, hrows, hrl, hrP⟩ := mapM_shape (f := fun r1 => (X.rows.map (Scalar.one :: ·)).mapM fun r2 => m.ker r1 r2)
    (P := fun ks => ks.length = X.rows.length ∧ XR.nan ∈ ks) (l := Y.rows.map (Scalar.one :: ·)) hmem
  unfold kerMat
  rw [if_neg (by simp [hc])]
  simp only
  rw [hrows]
  simp only [ok_bind, vecZip]
  rw [if_pos (by simp [ht])]
  simp only [ok_bind, Mat.mulVec]
  rw [if_pos (by simp [ht])]
  simp only [ok_bind, List.map_map, ok.injEq]
  rw [List.eq_replicate_iff]
  refine ⟨by simp [hrl], ?_⟩
  intro v hv
  obtain ⟨r, hr, rfl⟩ := List.mem_map.1 hv
  simp only [Function.comp]
  rw [dot_nan_mem (hrP r hr).2 (by simp [(hrP r hr).1, ht])]
  rfl

/-- The default machine on two samples, the second with a missing number. -/
example (draws : ℕ → ℕ) : ∃ m', (Svm.default : Svm XR).train draws ⟨1, [[.fin 1], [.nan]]⟩ [.fin 1, .fin (-1)] = ok m' ∧
    m'.predict ⟨1, [[.fin 1], [.fin 5]]⟩ = ok [.nan, .nan] := by
  obtain ⟨m', h1, -, h2⟩ := C148_svm_violation Svm.default (C148_kernels _ _).2.1 draws ⟨1, [[.fin 1], [.nan]]⟩ ⟨1, [[.fin 1], [.fin 5]]⟩
    (by intro r hr; simp at hr; rcases hr with rfl | rfl <;> rfl) (by intro r hr; simp at hr; rcases hr with rfl | rfl <;> rfl) rfl [.fin 1, .fin (-1)] rfl
    [.nan] (by simp) (by simp)
  exact ⟨m', h1, h2⟩

end RM
