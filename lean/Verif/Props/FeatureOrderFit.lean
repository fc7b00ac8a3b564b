import Verif.Props.FeatureOrder

/-!
C97 for the models that are trained by gradient descent or by reweighted least squares.
-/

set_option linter.unusedSectionVars false

namespace RM
open Outcome Scalar Spec

/-! ### Matrices -/

/-- The rows in the order `σ`. -/
noncomputable def reorderRows (σ : List ℕ) (A : Mat ℝ) : Mat ℝ := ⟨A.cols, σ.map fun i => A.rows.getD i []⟩

theorem map_getD_lt {α β : Type} (f : α → β) {l : List α} {i : ℕ} (d : α) (d' : β) (hi : i < l.length) : (l.map f).getD i d' = f (l.getD i d) := by
  rw [getD_lt d' (by simpa using hi), getD_lt d hi, List.getElem_map]

theorem colOf_shape {R : List (List ℝ)} {c j : ℕ} (hR : ∀ r ∈ R, r.length = c) (hj : j < c) : colOf R j = R.map fun r => r.getD j 0 := by
  have := colOf_map R (fun r => r) hR hj
  rwa [List.map_id'] at this

theorem colOf_reorderCols {n : ℕ} {σ : List ℕ} (h : IsOrder n σ) {R : List (List ℝ)} (hR : ∀ r ∈ R, r.length = n) {i : ℕ} (hi : i < n) :
    colOf (R.map (reorder σ)) i = colOf R (σ.getD i 0) := by
  have hs : σ.getD i 0 < n := h.lt (by rw [getD_lt 0 (by rw [h.length]; exact hi)]; exact List.getElem_mem _)
  rw [colOf_shape (c := n) (by
    intro r hr
    obtain ⟨q, _, rfl⟩ := List.mem_map.1 hr
    rw [reorder_length, h.length]) hi, colOf_shape hR hs, List.map_map]
  apply List.map_congr_left
  intro r hr
  exact reorder_getD σ r (by rw [h.length]; exact hi)

theorem transpose_reorderCols {n : ℕ} {σ : List ℕ} (h : IsOrder n σ) {X : Mat ℝ} (hX : X.WF) (hn : X.cols = n) :
    (reorderCols σ X).transpose = reorderRows σ X.transpose := by
  unfold Mat.transpose reorderCols reorderRows transposeRows
  rw [List.length_map]
  congr 1
  show (List.range X.cols).map (fun j => colOf (X.rows.map (reorder σ)) j) = _
  rw [hn]
  have e : ∀ i ∈ σ, ((List.range n).map fun j => colOf X.rows j).getD i [] = colOf X.rows i := by
    intro i hi
    rw [getD_lt [] (by simpa using h.lt hi)]
    simp
  rw [show (σ.map fun i => ((List.range n).map fun j => X.rows.filterMap fun r => r[j]?).getD i []) = σ.map fun i => colOf X.rows i from
    List.map_congr_left e]
  apply List.ext_getElem (by simp [h.length])
  intro i h1 h2
  simp only [List.length_map] at h2
  have hi : i < n := by rw [← h.length]; exact h2
  rw [List.getElem_map, List.getElem_map, List.getElem_range, colOf_reorderCols h (fun r hr => by rw [hX r hr, hn]) hi, getD_lt 0 h2]

theorem reorderRows_length (σ : List ℕ) (A : Mat ℝ) : (reorderRows σ A).rows.length = σ.length := by simp [reorderRows]

theorem mulVec_reorderRows {n : ℕ} {σ : List ℕ} (h : IsOrder n σ) {A : Mat ℝ} (hA : A.rows.length = n) (v : List ℝ) :
    (reorderRows σ A).mulVec v = reorder σ <$> A.mulVec v := by
  unfold Mat.mulVec reorderRows
  simp only
  split
  · rw [ok_map, List.map_map]
    congr 1
    unfold reorder
    apply List.map_congr_left
    intro i hi
    rw [map_getD_lt _ [] _ (by rw [hA]; exact h.lt hi)]
    rfl
  · rfl

theorem mulVec_reorder {n : ℕ} {σ : List ℕ} (h : IsOrder n σ) {X : Mat ℝ} (hX : X.WF) (hn : X.cols = n) {w : List ℝ} (hw : w.length = n) :
    (reorderCols σ X).mulVec (reorder σ w) = X.mulVec w := by
  unfold Mat.mulVec reorderCols
  simp only
  rw [if_pos (by rw [reorder_length, h.length, hn]), if_pos (by rw [hw, hn]), List.map_map]
  congr 1
  apply List.map_congr_left
  intro r hr
  exact dot_reorder h (by rw [hX r hr, hn]) hw

theorem reorderRows_shape {n m : ℕ} {σ : List ℕ} (h : IsOrder n σ) {A : Mat ℝ} (hA : HasShape A n m) : HasShape (reorderRows σ A) n m := by
  refine ⟨by rw [reorderRows_length, h.length], hA.2.1, ?_⟩
  intro r hr
  obtain ⟨i, hi, rfl⟩ := List.mem_map.1 hr
  rw [getD_lt [] (by rw [hA.1]; exact h.lt hi)]
  exact hA.2.2 _ (List.getElem_mem _)

theorem reorderCols_shape {n m : ℕ} {σ : List ℕ} (h : IsOrder m σ) {A : Mat ℝ} (hA : HasShape A n m) : HasShape (reorderCols σ A) n m := by
  refine ⟨by simp [reorderCols, hA.1], hA.2.1, ?_⟩
  intro r hr
  obtain ⟨q, hq, rfl⟩ := List.mem_map.1 hr
  rw [reorder_length, h.length]

theorem mul_reorderRows {n : ℕ} {σ : List ℕ} (h : IsOrder n σ) {A : Mat ℝ} (hA : A.rows.length = n) (B : Mat ℝ) :
    (reorderRows σ A).mul B = reorderRows σ <$> A.mul B := by
  unfold Mat.mul reorderRows
  simp only
  split
  · rw [ok_map, List.map_map]
    congr 2
    apply List.map_congr_left
    intro i hi
    rw [map_getD_lt _ [] _ (by rw [hA]; exact h.lt hi)]
    rfl
  · rfl

theorem mul_reorderCols {n : ℕ} {σ : List ℕ} (h : IsOrder n σ) (A : Mat ℝ) {B : Mat ℝ} (hB : B.WF) (hn : B.cols = n) :
    A.mul (reorderCols σ B) = reorderCols σ <$> A.mul B := by
  unfold Mat.mul reorderCols
  simp only [List.length_map]
  split
  · rw [ok_map, List.map_map]
    congr 2
    apply List.map_congr_left
    intro r hr
    simp only [Function.comp]
    rw [hn, reorder_map_range h, ← map_range_order h]
    apply List.map_congr_left
    intro j hj
    rw [colOf_reorderCols h (fun r hr => by rw [hB r hr, hn]) (List.mem_range.1 hj)]
  · rfl

theorem mul_reorder_both {n m p : ℕ} {σ : List ℕ} (h : IsOrder m σ) {A B : Mat ℝ} (hA : HasShape A n m) (hB : HasShape B m p) :
    (reorderCols σ A).mul (reorderRows σ B) = A.mul B := by
  unfold Mat.mul reorderCols reorderRows
  simp only [List.length_map]
  rw [if_pos (by rw [hA.2.1, h.length]), if_pos (by rw [hA.2.1, hB.1]), List.map_map]
  congr 2
  apply List.map_congr_left
  intro r hr
  apply List.map_congr_left
  intro j hj
  rw [hB.2.1] at hj
  have e : colOf (σ.map fun i => B.rows.getD i []) j = reorder σ (colOf B.rows j) := by
    rw [colOf_shape (R := σ.map fun i => B.rows.getD i []) (reorderRows_shape h hB).2.2 (List.mem_range.1 hj), colOf_shape hB.2.2 (List.mem_range.1 hj), List.map_map]
    unfold reorder
    apply List.map_congr_left
    intro i hi
    rw [map_getD_lt _ [] _ (by rw [hB.1]; exact h.lt hi)]
    rfl
  rw [e]
  exact dot_reorder h (hA.2.2 r hr) (by rw [colOf_shape hB.2.2 (List.mem_range.1 hj), List.length_map, hB.1])

/-! ### Gradient descent -/

theorem Logged.out_bind {C α β : Type} (x : Logged C α) (f : α → Logged C β) : (x >>= f).out = x.out >>= fun a => (f a).out := by
  rw [Logged.bind_def, Logged.bind]
  cases x.out <;> rfl

theorem gdLoop_reorder (alpha : ℝ) {n : ℕ} {τ : List ℕ} (h : IsOrder n τ) {g g' : List ℝ → Outcome (ℝ × List ℝ)}
    (hg : ∀ w, w.length = n → g' (reorder τ w) = (fun p => (p.1, reorder τ p.2)) <$> g w ∧ ∀ c d, g w = ok (c, d) → d.length = n) :
    ∀ (k : ℕ) (w : List ℝ) (prev : ℝ), w.length = n →
      (gdLoop alpha g' k (reorder τ w) prev).out = reorder τ <$> (gdLoop alpha g k w prev).out ∧
        ∀ r, (gdLoop alpha g k w prev).out = ok r → r.length = n
  | 0, w, prev, hw => ⟨rfl, fun r hr => by cases hr; exact hw⟩
  | k + 1, w, prev, hw => by
    obtain ⟨h1, h2⟩ := hg w hw
    rw [gdLoop, gdLoop, Logged.out_bind, Logged.out_bind]
    show (g' (reorder τ w) >>= _) = reorder τ <$> (g w >>= _) ∧ ∀ r, (g w >>= _) = ok r → _
    rw [h1]
    cases hgw : g w with
    | ok p =>
      obtain ⟨c, d⟩ := p
      have hd := h2 c d hgw
      simp only [ok_map, ok_bind]
      split
      · exact ⟨rfl, fun r hr => by cases hr; exact hw⟩
      · have e : vecScale (reorder τ d) alpha = reorder τ (vecScale d alpha) := map_reorder h _ hd
        have hl : (vecScale d alpha).length = n := by simp [vecScale, hd]
        rw [Logged.out_bind, Logged.out_bind, e]
        show (vecZip _ _ _ >>= _) = reorder τ <$> (vecZip _ _ _ >>= _) ∧ ∀ r, (vecZip _ _ _ >>= _) = ok r → _
        rw [(vecZip_reorder h Scalar.sub hw hl).1, (vecZip_reorder h Scalar.sub hw hl).2]
        simp only [ok_bind]
        exact gdLoop_reorder alpha h hg k _ c (by simp [hw, hl])
    | err e => exact ⟨rfl, fun r hr => by cases hr⟩
    | panic => exact ⟨rfl, fun r hr => by cases hr⟩
    | ub => exact ⟨rfl, fun r hr => by cases hr⟩

/-- The gradient of linear regression, and that of logistic regression, in another order of the features. -/
theorem grad_reorder (f : ℝ → ℝ) (cost : List ℝ → List ℝ → Outcome ℝ) {n : ℕ} {σ : List ℕ} (h : IsOrder n σ) {X : Mat ℝ} (hX : X.WF) (hn : X.cols = n)
    (y w : List ℝ) (hw : w.length = n) (G : List ℝ → Mat ℝ → Outcome (ℝ × List ℝ))
    (hG : ∀ w X, G w X = do
      let s ← Mat.mulVec X w
      let c ← cost (s.map f) y
      let diff ← vecZip Scalar.sub (s.map f) y
      let g ← X.transpose.mulVec diff
      ok (c, g.map fun x => x /. Scalar.ofNat X.rows.length)) :
    G (reorder σ w) (reorderCols σ X) = (fun p => (p.1, reorder σ p.2)) <$> G w X ∧ ∀ c d, G w X = ok (c, d) → d.length = n := by
  have ht : X.transpose.rows.length = n := by simp [Mat.transpose, transposeRows, hn]
  refine ⟨?_, ?_⟩
  · rw [hG, hG, mulVec_reorder h hX hn hw]
    simp only [map_bind]
    congr 1
    funext s
    congr 1
    funext c
    congr 1
    funext diff
    rw [transpose_reorderCols h hX hn, mulVec_reorderRows h ht]
    unfold Mat.mulVec
    split
    · simp only [ok_map, ok_bind]
      rw [map_reorder h _ (by simp [ht])]
      simp [reorderCols]
    · rfl
  · intro c d hcd
    rw [hG] at hcd
    obtain ⟨s, _, hcd⟩ := bind_eq_ok.1 hcd
    obtain ⟨c', _, hcd⟩ := bind_eq_ok.1 hcd
    obtain ⟨df, _, hcd⟩ := bind_eq_ok.1 hcd
    obtain ⟨g, hg, hcd⟩ := bind_eq_ok.1 hcd
    cases hcd
    unfold Mat.mulVec at hg
    split at hg
    · cases hg
      simp [ht]
    · cases hg

theorem full_reorder (σ : List ℕ) (X : Mat ℝ) : withOnes (reorderCols σ X) = reorderCols (withFirst σ) <$> withOnes X := by
  rw [withOnes_ok, withOnes_ok, ok_map]
  simp only [reorderCols, List.map_map]
  congr 2
  apply List.map_congr_left
  intro r _
  simp [reorder_withFirst]

theorem full_wf {X : Mat ℝ} (hX : X.WF) : (⟨X.cols + 1, X.rows.map ((1 : ℝ) :: ·)⟩ : Mat ℝ).WF := by
  intro r hr
  obtain ⟨q, hq, rfl⟩ := List.mem_map.1 hr
  simp [hX q hq]

/-- **C97 (linear regression by gradient descent).** The weights of the model trained on the reordered data are those of the model
trained on the data, reordered in the same way, with the intercept left in front. -/
theorem C97_lin_reg_descent {X : Mat ℝ} (hX : X.WF) {σ : List ℕ} (h : IsOrder X.cols σ) (y : List ℝ) :
    (∀ m, LinReg.trainWithOptimization X y = ok m → ∃ a w, m.parameters = some (a :: w) ∧ w.length = X.cols ∧
      LinReg.trainWithOptimization (reorderCols σ X) y = ok ⟨some (a :: reorder σ w)⟩) ∧
    ∀ m', LinReg.trainWithOptimization (reorderCols σ X) y = ok m' → ∃ m, LinReg.trainWithOptimization X y = ok m := by
  have h' := withFirst_order h
  have key : LinReg.trainWithOptimization (reorderCols σ X) y =
      (fun m => ⟨m.parameters.map (reorder (withFirst σ))⟩) <$> LinReg.trainWithOptimization X y ∧
      ∀ m, LinReg.trainWithOptimization X y = ok m → ∃ w, m.parameters = some w ∧ w.length = X.cols + 1 := by
    unfold LinReg.trainWithOptimization
    rw [full_reorder, withOnes_ok, ok_map]
    simp only [ok_bind, GradientDesc.optimize]
    have := gdLoop_reorder (GradientDesc.default (F := ℝ)).alpha h' (g := fun w => linComputeGrad w ⟨X.cols + 1, X.rows.map ((1 : ℝ) :: ·)⟩ y)
      (g' := fun w => linComputeGrad w (reorderCols (withFirst σ) ⟨X.cols + 1, X.rows.map ((1 : ℝ) :: ·)⟩) y)
      (fun w hw => grad_reorder id (fun s t => mseCostVec s t) h' (full_wf hX) rfl y w hw (fun w X => linComputeGrad w X y) (by
        intro w X
        simp [linComputeGrad]))
      (GradientDesc.default (F := ℝ)).iters (List.replicate (X.cols + 1) 0) 0 (by simp)
    rw [reorder_replicate h'] at this
    obtain ⟨t1, t2⟩ := this
    refine ⟨?_, ?_⟩
    · show (Logged.out (gdLoop _ _ _ (List.replicate (X.cols + 1) 0) 0) >>= _) = _
      rw [t1]
      show _ = _ <$> (Logged.out (gdLoop _ _ _ (List.replicate (X.cols + 1) 0) 0) >>= _)
      cases (gdLoop (GradientDesc.default (F := ℝ)).alpha (fun w => linComputeGrad w ⟨X.cols + 1, X.rows.map ((1 : ℝ) :: ·)⟩ y)
        (GradientDesc.default (F := ℝ)).iters (List.replicate (X.cols + 1) 0) 0).out <;> rfl
    · intro m hm
      obtain ⟨w, hw, hm⟩ := bind_eq_ok.1 hm
      cases hm
      exact ⟨w, rfl, t2 w hw⟩
  refine ⟨?_, ?_⟩
  · intro m hm
    obtain ⟨w, hw, hl⟩ := key.2 m hm
    cases w with
    | nil => simp at hl
    | cons a w =>
      refine ⟨a, w, hw, by simpa using hl, ?_⟩
      rw [key.1, hm, ok_map, hw, Option.map_some, reorder_withFirst]
  · intro m' hm'
    rw [key.1] at hm'
    cases hm : LinReg.trainWithOptimization X y with
    | ok m => exact ⟨m, rfl⟩
    | err e => rw [hm] at hm'; cases hm'
    | panic => rw [hm] at hm'; cases hm'
    | ub => rw [hm] at hm'; cases hm'

/-- **C97 (logistic regression)** trained by gradient descent. -/
theorem C97_logistic (o : GradientDesc ℝ) {X : Mat ℝ} (hX : X.WF) {σ : List ℕ} (h : IsOrder X.cols σ) (y : List ℝ) :
    (∀ m, LogReg.train (fun g s => (o.optimize g s).out) X y = ok m → ∃ a w, m.parameters = some (a :: w) ∧ w.length = X.cols ∧
      LogReg.train (fun g s => (o.optimize g s).out) (reorderCols σ X) y = ok ⟨some (a :: reorder σ w)⟩) ∧
    ∀ m', LogReg.train (fun g s => (o.optimize g s).out) (reorderCols σ X) y = ok m' → ∃ m, LogReg.train (fun g s => (o.optimize g s).out) X y = ok m := by
  have h' := withFirst_order h
  have key : LogReg.train (fun g s => (o.optimize g s).out) (reorderCols σ X) y =
      (fun m => ⟨m.parameters.map (reorder (withFirst σ))⟩) <$> LogReg.train (fun g s => (o.optimize g s).out) X y ∧
      ∀ m, LogReg.train (fun g s => (o.optimize g s).out) X y = ok m → ∃ w, m.parameters = some w ∧ w.length = X.cols + 1 := by
    unfold LogReg.train
    rw [full_reorder, withOnes_ok, ok_map]
    simp only [ok_bind, GradientDesc.optimize]
    have := gdLoop_reorder o.alpha h' (g := fun w => logComputeGrad w ⟨X.cols + 1, X.rows.map ((1 : ℝ) :: ·)⟩ y)
      (g' := fun w => logComputeGrad w (reorderCols (withFirst σ) ⟨X.cols + 1, X.rows.map ((1 : ℝ) :: ·)⟩) y)
      (fun w hw => grad_reorder sigmoid.func (fun s t => ceCostVec s t) h' (full_wf hX) rfl y w hw (fun w X => logComputeGrad w X y) (by
        intro w X
        simp [logComputeGrad]))
      o.iters (List.replicate (X.cols + 1) (Scalar.ofRat (1 / 2))) 0 (by simp)
    rw [reorder_replicate h'] at this
    obtain ⟨t1, t2⟩ := this
    refine ⟨?_, ?_⟩
    · show (Logged.out (gdLoop _ _ _ (List.replicate (X.cols + 1) (Scalar.ofRat (1 / 2))) 0) >>= _) = _
      rw [t1]
      show _ = _ <$> (Logged.out (gdLoop _ _ _ (List.replicate (X.cols + 1) (Scalar.ofRat (1 / 2))) 0) >>= _)
      cases (gdLoop o.alpha (fun w => logComputeGrad w ⟨X.cols + 1, X.rows.map ((1 : ℝ) :: ·)⟩ y) o.iters
        (List.replicate (X.cols + 1) (Scalar.ofRat (1 / 2))) 0).out <;> rfl
    · intro m hm
      obtain ⟨w, hw, hm⟩ := bind_eq_ok.1 hm
      cases hm
      exact ⟨w, rfl, t2 w hw⟩
  refine ⟨?_, ?_⟩
  · intro m hm
    obtain ⟨w, hw, hl⟩ := key.2 m hm
    cases w with
    | nil => simp at hl
    | cons a w =>
      refine ⟨a, w, hw, by simpa using hl, ?_⟩
      rw [key.1, hm, ok_map, hw, Option.map_some, reorder_withFirst]
  · intro m' hm'
    rw [key.1] at hm'
    cases hm : LogReg.train (fun g s => (o.optimize g s).out) X y with
    | ok m => exact ⟨m, rfl⟩
    | err e => rw [hm] at hm'; cases hm'
    | panic => rw [hm] at hm'; cases hm'
    | ub => rw [hm] at hm'; cases hm'

/-- **C97 (predictions).** A model with reordered weights gives the reordered data what the model gives the data: linear regression,
logistic regression and all generalised linear models. -/
theorem C97_predictions {Q : Mat ℝ} (hQ : Q.WF) {σ : List ℕ} (h : IsOrder Q.cols σ) (a : ℝ) (w : List ℝ) (hw : w.length = Q.cols) (f : Family ℝ) :
    (⟨some (a :: reorder σ w)⟩ : LinReg ℝ).predict (reorderCols σ Q) = (⟨some (a :: w)⟩ : LinReg ℝ).predict Q ∧
    (⟨some (a :: reorder σ w)⟩ : LogReg ℝ).predict (reorderCols σ Q) = (⟨some (a :: w)⟩ : LogReg ℝ).predict Q ∧
    (⟨f, some (a :: reorder σ w)⟩ : Glm ℝ).predict (reorderCols σ Q) = (⟨f, some (a :: w)⟩ : Glm ℝ).predict Q := by
  have h' := withFirst_order h
  have e : (reorderCols (withFirst σ) (⟨Q.cols + 1, Q.rows.map ((1 : ℝ) :: ·)⟩ : Mat ℝ)).mulVec (a :: reorder σ w) =
      (⟨Q.cols + 1, Q.rows.map ((1 : ℝ) :: ·)⟩ : Mat ℝ).mulVec (a :: w) := by
    rw [← reorder_withFirst]
    exact mulVec_reorder h' (full_wf hQ) rfl (by simp [hw])
  have eo : withOnes (reorderCols σ Q) = ok (reorderCols (withFirst σ) ⟨Q.cols + 1, Q.rows.map ((1 : ℝ) :: ·)⟩) := by
    rw [full_reorder, withOnes_ok, ok_map]
  refine ⟨?_, ?_, ?_⟩
  · unfold LinReg.predict
    simp only [eo, ok_bind, e]
    rw [withOnes_ok, ok_bind]
  · unfold LogReg.predict
    simp only [eo, ok_bind, e]
    rw [withOnes_ok, ok_bind]
  · unfold Glm.predict
    simp only [eo, ok_bind, e]
    rw [withOnes_ok, ok_bind]

/-! ### Generalised linear models -/

/-- The positions of an order as a permutation. -/
theorem order_equiv {n : ℕ} {σ : List ℕ} (h : IsOrder n σ) : ∃ E : Equiv.Perm (Fin n), ∀ i : Fin n, (E i : ℕ) = σ.getD i 0 := by
  have hnd : σ.Nodup := (List.Perm.nodup_iff h).2 List.nodup_range
  let e : Fin n → Fin n := fun i => ⟨σ.getD i 0, h.lt (by rw [getD_lt 0 (by rw [h.length]; exact i.2)]; exact List.getElem_mem _)⟩
  have hinj : Function.Injective e := by
    intro i j hij
    have h1 : σ.getD i 0 = σ.getD j 0 := congrArg Fin.val hij
    rw [getD_lt 0 (by rw [h.length]; exact i.2), getD_lt 0 (by rw [h.length]; exact j.2)] at h1
    exact Fin.ext ((hnd.getElem_inj_iff).1 h1)
  exact ⟨Equiv.ofBijective e (Finite.injective_iff_bijective.1 hinj), fun i => rfl⟩

theorem toM_reorder {n : ℕ} {σ : List ℕ} (h : IsOrder n σ) {E : Equiv.Perm (Fin n)} (hE : ∀ i : Fin n, (E i : ℕ) = σ.getD i 0) {A : Mat ℝ} (hA : HasShape A n n) :
    toM n n (reorderRows σ (reorderCols σ A)) = (toM n n A).submatrix E E := by
  ext i j
  rw [Matrix.submatrix_apply, toM_apply, toM_apply]
  have hi : (i : ℕ) < σ.length := by rw [h.length]; exact i.2
  have hj : (j : ℕ) < σ.length := by rw [h.length]; exact j.2
  unfold ent reorderRows reorderCols
  simp only
  rw [map_getD_lt _ 0 [] hi, map_getD_lt _ [] [] (by rw [hA.1, ← hE]; exact (E i).2), reorder_getD σ _ hj, hE, hE]

theorem inverse_reorder {inverse : Mat ℝ → Outcome (Mat ℝ)} (hi : InvertsExactly inverse) (hr : InvertsRegular inverse) {n : ℕ} {σ : List ℕ}
    (h : IsOrder n σ) {A B : Mat ℝ} (hA : HasShape A n n) (hB : inverse A = ok B) :
    HasShape B n n ∧ inverse (reorderRows σ (reorderCols σ A)) = ok (reorderRows σ (reorderCols σ B)) := by
  obtain ⟨E, hE⟩ := order_equiv h
  obtain ⟨h1, h2, h3⟩ := inverse_toM hi hA hB
  refine ⟨h1, ?_⟩
  have hA' := reorderRows_shape h (reorderCols_shape h hA)
  have hB' := reorderRows_shape h (reorderCols_shape h h1)
  have hrank : FullColumnRank (reorderRows σ (reorderCols σ A)) := by
    rw [fullColumnRank_det hA', toM_reorder h hE hA, Matrix.det_submatrix_equiv_self]
    intro h0
    have := congrArg Matrix.det h2
    rw [Matrix.det_mul, h0, zero_mul, Matrix.det_one] at this
    exact zero_ne_one this
  obtain ⟨C, hC⟩ := hr _ n hA' hrank
  obtain ⟨g1, g2, g3⟩ := inverse_toM hi hA' hC
  rw [hC]
  congr 1
  apply toM_inj g1 hB'
  have e : toM n n (reorderRows σ (reorderCols σ A)) * toM n n (reorderRows σ (reorderCols σ B)) = 1 := by
    rw [toM_reorder h hE hA, toM_reorder h hE h1, Matrix.submatrix_mul_equiv, h2, Matrix.submatrix_one_equiv]
  calc toM n n C = toM n n C * (toM n n (reorderRows σ (reorderCols σ A)) * toM n n (reorderRows σ (reorderCols σ B))) := by rw [e, Matrix.mul_one]
    _ = toM n n (reorderRows σ (reorderCols σ B)) := by rw [← Matrix.mul_assoc, g3, Matrix.one_mul]

theorem irlsStep_reorder {inverse : Mat ℝ → Outcome (Mat ℝ)} (hi : InvertsExactly inverse) (hr : InvertsRegular inverse) (f : Family ℝ) {n N : ℕ} {σ : List ℕ}
    (h : IsOrder n σ) {full : Mat ℝ} (hf : HasShape full N n) {y mu z : List ℝ} (hmu : mu.length = N) {s : List ℝ × List ℝ}
    (hs : irlsStep inverse f full full.transpose y mu z = ok s) :
    s.2.length = n ∧ irlsStep inverse f (reorderCols σ full) (reorderCols σ full).transpose y mu z = ok (s.1, reorder σ s.2) := by
  have hwf : full.WF := fun r hr => by rw [hf.2.2 r hr, hf.2.1]
  unfold irlsStep at hs ⊢
  obtain ⟨w, hw, hs⟩ := bind_eq_ok.1 hs
  obtain ⟨yb, hyb, hs⟩ := bind_eq_ok.1 hs
  obtain ⟨xtw, hxtw, hs⟩ := bind_eq_ok.1 hs
  obtain ⟨a, ha, hs⟩ := bind_eq_ok.1 hs
  obtain ⟨inv, hinv, hs⟩ := bind_eq_ok.1 hs
  obtain ⟨t, ht, hs⟩ := bind_eq_ok.1 hs
  obtain ⟨b, hb, hs⟩ := bind_eq_ok.1 hs
  cases hs
  have htr := (transpose_toM hf).1
  have hwl : w.length = N := by
    unfold Mat.mul at hxtw
    split at hxtw
    · rename_i hc
      rw [htr.2.1] at hc
      simpa [diagMat] using hc.symm
    · cases hxtw
  have hdiag : HasShape (diagMat w) N N := by
    refine ⟨by simp [diagMat, hwl], by simp [diagMat, hwl], ?_⟩
    intro r hr
    unfold diagMat at hr
    obtain ⟨i, _, rfl⟩ := List.mem_map.1 hr
    simp [hwl]
  obtain ⟨xtw', e1, sx, -⟩ := mul_toM htr hdiag
  rw [hxtw] at e1
  cases e1
  obtain ⟨a', e2, sa, -⟩ := mul_toM sx hf
  rw [ha] at e2
  cases e2
  have hinv' : inverse a = ok inv := by
    revert hinv
    unfold expectOk
    cases inverse a <;> intro h <;> first | exact h | cases h
  obtain ⟨si, e3⟩ := inverse_reorder hi hr h sa hinv'
  obtain ⟨t', e4, st, -⟩ := mul_toM si sx
  rw [ht] at e4
  cases e4
  have hbl : b.length = n := by
    unfold Mat.mulVec at hb
    split at hb
    · cases hb
      simp [st.1]
    · cases hb
  refine ⟨hbl, ?_⟩
  rw [hw, ok_bind, hyb, ok_bind, transpose_reorderCols h hwf hf.2.1, mul_reorderRows h htr.1, hxtw, ok_map, ok_bind, mul_reorderCols h _ hwf hf.2.1,
    mul_reorderRows h sx.1, ha, ok_map, ok_map, ok_bind]
  have hcomm : reorderCols σ (reorderRows σ a) = reorderRows σ (reorderCols σ a) := by
    unfold reorderCols reorderRows
    simp only [List.map_map]
    congr 1
    apply List.map_congr_left
    intro i hi
    rw [map_getD_lt _ [] [] (by rw [sa.1]; exact h.lt hi)]
    rfl
  rw [hcomm, e3]
  show (ok _ >>= _) = _
  rw [ok_bind, mul_reorderRows h (by simp [reorderCols, si.1]), mul_reorder_both h si sx, ht, ok_map, ok_bind, mulVec_reorderRows h st.1, hb, ok_map]
  rfl

theorem irlsLoop_reorder {inverse : Mat ℝ → Outcome (Mat ℝ)} (hi : InvertsExactly inverse) (hr : InvertsRegular inverse) (f : Family ℝ) {n N : ℕ} {σ : List ℕ}
    (h : IsOrder n σ) {full : Mat ℝ} (hf : HasShape full N n) (y : List ℝ) :
    ∀ (k : ℕ) (mu z beta : List ℝ), mu.length = N → beta.length = n → ∀ b, irlsLoop inverse f full full.transpose y k mu z beta = ok b →
      b.length = n ∧ irlsLoop inverse f (reorderCols σ full) (reorderCols σ full).transpose y k mu z (reorder σ beta) = ok (reorder σ b)
  | 0, mu, z, beta, _, hb, b, hl => by
    cases hl
    exact ⟨hb, rfl⟩
  | k + 1, mu, z, beta, hmu, hb, b, hl => by
    have hwf : full.WF := fun r hr => by rw [hf.2.2 r hr, hf.2.1]
    rw [irlsLoop] at hl
    obtain ⟨s, hs, hl⟩ := bind_eq_ok.1 hl
    obtain ⟨hsl, hs'⟩ := irlsStep_reorder hi hr f h hf hmu hs
    rw [(vecZip_reorder h Scalar.sub hb hsl).1, ok_bind] at hl
    rw [irlsLoop, hs', ok_bind, (vecZip_reorder h Scalar.sub hb hsl).2, ok_bind, map_reorder h _ (by simp [hb, hsl]), fsum_real,
      sum_reorder h (by simp [hb, hsl]), ← fsum_real]
    split at hl
    · rename_i hc
      cases hl
      rw [if_pos hc]
      exact ⟨hsl, rfl⟩
    · rename_i hc
      rw [if_neg hc, mulVec_reorder h hwf hf.2.1 hsl]
      obtain ⟨ft, hft, hl⟩ := bind_eq_ok.1 hl
      obtain ⟨z', hz', hl⟩ := bind_eq_ok.1 hl
      rw [hft, ok_bind, hz', ok_bind]
      have hfl : ft.length = N := by
        unfold Mat.mulVec at hft
        split at hft
        · cases hft
          simp [hf.1]
        · cases hft
      exact irlsLoop_reorder hi hr f h hf y k _ z' s.2 (by simp [hfl]) hsl b hl

/-- **C97 (generalised linear models)**, all families. -/
theorem C97_glm {inverse : Mat ℝ → Outcome (Mat ℝ)} (hi : InvertsExactly inverse) (hr : InvertsRegular inverse) (g m : Glm ℝ) {X : Mat ℝ} (hX : X.WF)
    {σ : List ℕ} (h : IsOrder X.cols σ) (y : List ℝ) (hm : g.train inverse X y = ok m) :
    ∃ a w, m = ⟨g.family, some (a :: w)⟩ ∧ w.length = X.cols ∧ g.train inverse (reorderCols σ X) y = ok ⟨g.family, some (a :: reorder σ w)⟩ := by
  have h' := withFirst_order h
  unfold Glm.train at hm ⊢
  split at hm
  · cases hm
  · rename_i hl
    rw [withOnes_ok, ok_bind] at hm
    obtain ⟨b, hb, hm⟩ := bind_eq_ok.1 hm
    cases hm
    rw [if_neg (by simpa [reorderCols] using hl), full_reorder, withOnes_ok, ok_map, ok_bind]
    have hl' : y.length = X.rows.length := by
      by_contra hc
      exact hl (Ne.symm hc)
    have := irlsLoop_reorder hi hr g.family h' (withOnes_shape hX) y 8 _ _ _ (by simp [hl']) (by simp) b hb
    rw [show reorder (withFirst σ) (List.replicate (X.cols + 1) (Scalar.zero : ℝ)) = List.replicate (X.cols + 1) (Scalar.zero : ℝ) from
      reorder_replicate h' _] at this
    obtain ⟨t1, t2⟩ := this
    cases b with
    | nil => simp at t1
    | cons a w =>
      refine ⟨a, w, rfl, by simpa using t1, ?_⟩
      rw [reorder_withFirst] at t2
      show (irlsLoop inverse g.family _ _ y 8 _ _ (List.replicate (X.cols + 1) Scalar.zero) >>= _) = _
      rw [t2]
      rfl

/-! ### Stochastic training -/

theorem gdLoop_reorder_ok (alpha : ℝ) {n : ℕ} {τ : List ℕ} (h : IsOrder n τ) {g g' : List ℝ → Outcome (ℝ × List ℝ)}
    (hg : ∀ w c d, w.length = n → g w = ok (c, d) → d.length = n ∧ g' (reorder τ w) = ok (c, reorder τ d)) :
    ∀ (k : ℕ) (w : List ℝ) (prev : ℝ) (r : List ℝ), w.length = n → (gdLoop alpha g k w prev).out = ok r →
      r.length = n ∧ (gdLoop alpha g' k (reorder τ w) prev).out = ok (reorder τ r)
  | 0, w, prev, r, hw, hr => by cases hr; exact ⟨hw, rfl⟩
  | k + 1, w, prev, r, hw, hr => by
    rw [gdLoop, Logged.out_bind] at hr
    rw [gdLoop, Logged.out_bind]
    obtain ⟨p, hp, hr⟩ := bind_eq_ok.1 hr
    obtain ⟨c, d⟩ := p
    obtain ⟨hd, hg'⟩ := hg w c d hw hp
    show r.length = n ∧ (g' (reorder τ w) >>= _) = _
    rw [hg', ok_bind]
    split at hr
    · rename_i hc
      rw [if_pos hc]
      cases hr
      exact ⟨hw, rfl⟩
    · rename_i hc
      rw [if_neg hc]
      rw [Logged.out_bind] at hr ⊢
      have e : vecScale (reorder τ d) alpha = reorder τ (vecScale d alpha) := map_reorder h _ hd
      have hl : (vecScale d alpha).length = n := by simp [vecScale, hd]
      change (vecZip _ _ _ >>= _) = _ at hr
      show _ ∧ (vecZip _ _ _ >>= _) = _
      rw [(vecZip_reorder h Scalar.sub hw hl).1, ok_bind] at hr
      rw [e, (vecZip_reorder h Scalar.sub hw hl).2, ok_bind]
      exact gdLoop_reorder_ok alpha h hg k _ c r (by simp [hw, hl]) hr

theorem stochPass_reorder {upd : List ℝ → List ℝ → List ℝ → Outcome (List ℝ × List ℝ)} {n : ℕ} {τ : List ℕ} (σ : List ℕ) (h : IsOrder n τ)
    (hu : ∀ w a d, w.length = n → a.length = n → d.length = n → ∃ w' a', upd w a d = ok (w', a') ∧ w'.length = n ∧ a'.length = n ∧
      upd (reorder τ w) (reorder τ a) (reorder τ d) = ok (reorder τ w', reorder τ a'))
    {g g' : ComputeGrad ℝ} {X T : Mat ℝ}
    (hg : ∀ w i x t c d, w.length = n → X.selectRows [i] = ok x → T.selectRows [i] = ok t → g w x t = ok (c, d) →
      d.length = n ∧ g' (reorder τ w) (reorderCols σ x) t = ok (c, reorder τ d)) :
    ∀ (is : List ℕ) (w a : List ℝ) (c : ℝ) (s : List ℝ × List ℝ × ℝ), w.length = n → a.length = n → (stochPass upd g X T is (w, a, c)).out = ok s →
      s.1.length = n ∧ s.2.1.length = n ∧
      (stochPass upd g' (reorderCols σ X) T is (reorder τ w, reorder τ a, c)).out = ok (reorder τ s.1, reorder τ s.2.1, s.2.2)
  | [], w, a, c, s, hw, ha, hs => by cases hs; exact ⟨hw, ha, rfl⟩
  | i :: is, w, a, c, s, hw, ha, hs => by
    have hsel : (reorderCols σ X).selectRows [i] = reorderCols σ <$> X.selectRows [i] := by
      unfold Mat.selectRows reorderCols getAt
      simp only [List.mapM_cons, List.mapM_nil, List.getElem?_map]
      cases X.rows[i]? <;> rfl
    rw [stochPass] at hs
    simp only [Logged.out_bind] at hs
    obtain ⟨x, hx, hs⟩ := bind_eq_ok.1 hs
    obtain ⟨t, ht, hs⟩ := bind_eq_ok.1 hs
    obtain ⟨p, hp, hs⟩ := bind_eq_ok.1 hs
    obtain ⟨u, hu', hs⟩ := bind_eq_ok.1 hs
    obtain ⟨c', d⟩ := p
    change X.selectRows [i] = ok x at hx
    change T.selectRows [i] = ok t at ht
    change g w x t = ok (c', d) at hp
    change upd w a d = ok u at hu'
    obtain ⟨hd, hg'⟩ := hg w i x t c' d hw hx ht hp
    obtain ⟨w', a', u1, u2, u3, u4⟩ := hu w a d hw ha hd
    rw [hu'] at u1
    cases u1
    rw [stochPass]
    simp only [Logged.out_bind]
    show _ ∧ _ ∧ ((reorderCols σ X).selectRows [i] >>= _) = _
    rw [hsel, hx, ok_map, ok_bind]
    show _ ∧ _ ∧ (T.selectRows [i] >>= _) = _
    rw [ht, ok_bind]
    show _ ∧ _ ∧ (g' (reorder τ w) (reorderCols σ x) t >>= _) = _
    rw [hg', ok_bind]
    show _ ∧ _ ∧ (upd (reorder τ w) (reorder τ a) (reorder τ d) >>= _) = _
    rw [u4, ok_bind]
    exact stochPass_reorder σ h hu hg is w' a' _ s u2 u3 hs

theorem stochLoop_reorder {upd : List ℝ → List ℝ → List ℝ → Outcome (List ℝ × List ℝ)} {n : ℕ} {τ : List ℕ} (σ : List ℕ) (h : IsOrder n τ)
    (hu : ∀ w a d, w.length = n → a.length = n → d.length = n → ∃ w' a', upd w a d = ok (w', a') ∧ w'.length = n ∧ a'.length = n ∧
      upd (reorder τ w) (reorder τ a) (reorder τ d) = ok (reorder τ w', reorder τ a'))
    {g g' : ComputeGrad ℝ} {X T : Mat ℝ}
    (hg : ∀ w i x t c d, w.length = n → X.selectRows [i] = ok x → T.selectRows [i] = ok t → g w x t = ok (c, d) →
      d.length = n ∧ g' (reorder τ w) (reorderCols σ x) t = ok (c, reorder τ d)) (r : ℕ → ℕ → ℕ) :
    ∀ (k e : ℕ) (perm : List ℕ) (w a : List ℝ) (prev : ℝ) (s : List ℝ), w.length = n → a.length = n → (stochLoop upd g X T r k e perm w a prev).out = ok s →
      s.length = n ∧ (stochLoop upd g' (reorderCols σ X) T r k e perm (reorder τ w) (reorder τ a) prev).out = ok (reorder τ s)
  | 0, e, perm, w, a, prev, s, hw, ha, hs => by cases hs; exact ⟨hw, rfl⟩
  | k + 1, e, perm, w, a, prev, s, hw, ha, hs => by
    rw [stochLoop] at hs
    simp only [Logged.out_bind] at hs
    obtain ⟨q, hq, hs⟩ := bind_eq_ok.1 hs
    obtain ⟨p, hp, hs⟩ := bind_eq_ok.1 hs
    obtain ⟨l1, l2, hp'⟩ := stochPass_reorder σ h hu hg q w a Scalar.zero p hw ha hp
    rw [stochLoop]
    simp only [Logged.out_bind]
    rw [hq, ok_bind, hp', ok_bind, show (reorderCols σ X).rows.length = X.rows.length by simp [reorderCols]]
    split at hs
    · rename_i hc
      cases hs
      rw [if_pos hc]
      exact ⟨l1, rfl⟩
    · rename_i hc
      rw [if_neg hc]
      exact stochLoop_reorder σ h hu hg r k (e + 1) q p.1 p.2.1 _ s l1 l2 hs

theorem inPlaceBin_reorder {n : ℕ} {τ : List ℕ} (h : IsOrder n τ) (f : ℝ → ℝ → ℝ) {u v : List ℝ} (hu : u.length = n) (hv : v.length = n) :
    (inPlaceBin f u v).length = n ∧ inPlaceBin f (reorder τ u) (reorder τ v) = reorder τ (inPlaceBin f u v) := by
  have e : ∀ a b : List ℝ, a.length = n → b.length = n → inPlaceBin f a b = List.zipWith f a b := by
    intro a b ha hb
    unfold inPlaceBin
    rw [List.drop_of_length_le (by omega), List.append_nil]
  have hl : ∀ a, (reorder τ a).length = n := fun a => by rw [reorder_length, h.length]
  rw [e u v hu hv, e _ _ (hl u) (hl v), zipWith_reorder h f hu hv]
  exact ⟨by simp [hu, hv], rfl⟩

theorem sgdUpdate_reorder {n : ℕ} {τ : List ℕ} (h : IsOrder n τ) (alpha mu : ℝ) (w a d : List ℝ) (hw : w.length = n) (ha : a.length = n) (hd : d.length = n) :
    ∃ w' a', sgdUpdate alpha mu w a d = ok (w', a') ∧ w'.length = n ∧ a'.length = n ∧
      sgdUpdate alpha mu (reorder τ w) (reorder τ a) (reorder τ d) = ok (reorder τ w', reorder τ a') := by
  have hs : ∀ (v : List ℝ) (c : ℝ), v.length = n → (vecScale v c).length = n ∧ vecScale (reorder τ v) c = reorder τ (vecScale v c) :=
    fun v c hv => ⟨by simp [vecScale, hv], map_reorder h _ hv⟩
  have hz : ∀ (f : ℝ → ℝ → ℝ) (u v : List ℝ), u.length = n → v.length = n → (List.zipWith f u v).length = n := fun f u v hu hv => by simp [hu, hv]
  have h1 := vecZip_reorder h Scalar.add (hs d mu hd).1 (hs a alpha ha).1
  have l1 := hz Scalar.add _ _ (hs d mu hd).1 (hs a alpha ha).1
  have h2 := vecZip_reorder h Scalar.add (hs a (Scalar.neg alpha) ha).1 (hs _ (Scalar.one +. alpha) l1).1
  have l2 := hz Scalar.add _ _ (hs a (Scalar.neg alpha) ha).1 (hs _ (Scalar.one +. alpha) l1).1
  have h3 := vecZip_reorder h Scalar.sub hw l2
  refine ⟨_, _, ?_, hz Scalar.sub _ _ hw l2, l1, ?_⟩
  · unfold sgdUpdate
    rw [h1.1, ok_bind, h2.1, ok_bind, h3.1, ok_bind]
  · unfold sgdUpdate
    rw [(hs d mu hd).2, (hs a alpha ha).2, h1.2, ok_bind, (hs a (Scalar.neg alpha) ha).2, (hs _ (Scalar.one +. alpha) l1).2, h2.2, ok_bind, h3.2, ok_bind]

theorem adaUpdate_reorder {n : ℕ} {τ : List ℕ} (h : IsOrder n τ) (alpha tau : ℝ) (w a d : List ℝ) (hw : w.length = n) (ha : a.length = n) (hd : d.length = n) :
    ∃ w' a', adaUpdate alpha tau w a d = ok (w', a') ∧ w'.length = n ∧ a'.length = n ∧
      adaUpdate alpha tau (reorder τ w) (reorder τ a) (reorder τ d) = ok (reorder τ w', reorder τ a') := by
  have h1 := inPlaceBin_reorder h (fun x y => x +. y *. y) ha hd
  have h2 := inPlaceBin_reorder h (fun x y => alpha *. (x /. (tau +. Scalar.sqrt y))) hd h1.1
  have h3 := vecZip_reorder h Scalar.sub hw h2.1
  refine ⟨_, _, (by unfold adaUpdate; simp only; rw [h3.1, ok_bind]), ?_, h1.1, ?_⟩
  · exact List.length_zipWith.trans (by rw [hw]; exact (congrArg (min n) h2.1).trans (min_self n))
  · unfold adaUpdate
    simp only
    rw [h1.2, h2.2, h3.2, ok_bind]

theorem rmsUpdate_reorder {n : ℕ} {τ : List ℕ} (h : IsOrder n τ) (lr decay eps : ℝ) (w a d : List ℝ) (hw : w.length = n) (ha : a.length = n) (hd : d.length = n) :
    ∃ w' a', rmsUpdate lr decay eps w a d = ok (w', a') ∧ w'.length = n ∧ a'.length = n ∧
      rmsUpdate lr decay eps (reorder τ w) (reorder τ a) (reorder τ d) = ok (reorder τ w', reorder τ a') := by
  have hs : ∀ (v : List ℝ) (c : ℝ), v.length = n → (vecScale v c).length = n ∧ vecScale (reorder τ v) c = reorder τ (vecScale v c) :=
    fun v c hv => ⟨by simp [vecScale, hv], map_reorder h _ hv⟩
  have hq : (d.map fun x => x *. x).length = n := by simp [hd]
  have h1 := vecZip_reorder h Scalar.add (hs a decay ha).1 (hs _ (Scalar.one -. decay) hq).1
  have l1 : (List.zipWith Scalar.add (vecScale a decay) (vecScale (d.map fun x => x *. x) (Scalar.one -. decay))).length = n := by simp [vecScale, ha, hd]
  have h2 := inPlaceBin_reorder h (fun x y => (x *. lr) /. Scalar.sqrt (y +. eps)) hd l1
  have h3 := vecZip_reorder h Scalar.sub hw h2.1
  refine ⟨_, _, (by unfold rmsUpdate; simp only; rw [h1.1, ok_bind, h3.1, ok_bind]), ?_, l1, ?_⟩
  · exact List.length_zipWith.trans (by rw [hw]; exact (congrArg (min n) h2.1).trans (min_self n))
  · unfold rmsUpdate
    simp only
    rw [map_reorder h _ hd, (hs a decay ha).2, (hs _ (Scalar.one -. decay) hq).2, h1.2, ok_bind, h2.2, h3.2, ok_bind]

/-- The same with the gradient compared only on the whole data and on single samples. -/
theorem optimisers_reorder {n : ℕ} {τ : List ℕ} (σ : List ℕ) (h : IsOrder n τ) {g g' : ComputeGrad ℝ} {X T : Mat ℝ}
    (hg : ∀ w c d, w.length = n → g w X T = ok (c, d) → d.length = n ∧ g' (reorder τ w) (reorderCols σ X) T = ok (c, reorder τ d))
    (hg1 : ∀ w i x t c d, w.length = n → X.selectRows [i] = ok x → T.selectRows [i] = ok t → g w x t = ok (c, d) →
      d.length = n ∧ g' (reorder τ w) (reorderCols σ x) t = ok (c, reorder τ d))
    (r : ℕ → ℕ → ℕ) (start w : List ℝ) (hs : start.length = n) :
    (∀ o : GradientDesc ℝ, (o.optimize (fun w => g w X T) start).out = ok w → w.length = n ∧
      (o.optimize (fun w => g' w (reorderCols σ X) T) (reorder τ start)).out = ok (reorder τ w)) ∧
    (∀ o : StochasticGD ℝ, (o.optimize g r start X T).out = ok w → w.length = n ∧ (o.optimize g' r (reorder τ start) (reorderCols σ X) T).out = ok (reorder τ w)) ∧
    (∀ o : AdaGrad ℝ, (o.optimize g r start X T).out = ok w → w.length = n ∧ (o.optimize g' r (reorder τ start) (reorderCols σ X) T).out = ok (reorder τ w)) ∧
    (∀ o : RMSProp ℝ, (o.optimize g r start X T).out = ok w → w.length = n ∧ (o.optimize g' r (reorder τ start) (reorderCols σ X) T).out = ok (reorder τ w)) := by
  have key : ∀ (upd : List ℝ → List ℝ → List ℝ → Outcome (List ℝ × List ℝ)) (iters : ℕ)
      (_ : ∀ w a d, w.length = n → a.length = n → d.length = n → ∃ w' a', upd w a d = ok (w', a') ∧ w'.length = n ∧ a'.length = n ∧
        upd (reorder τ w) (reorder τ a) (reorder τ d) = ok (reorder τ w', reorder τ a')),
      (stochOptimize upd iters g r start X T).out = ok w → w.length = n ∧ (stochOptimize upd iters g' r (reorder τ start) (reorderCols σ X) T).out = ok (reorder τ w) := by
    intro upd iters hu hw
    unfold stochOptimize at hw ⊢
    rw [hs] at hw
    rw [reorder_length, h.length, show (reorderCols σ X).rows.length = X.rows.length by simp [reorderCols]]
    have := stochLoop_reorder σ h hu hg1 r iters 0 (List.range X.rows.length) start (List.replicate n Scalar.zero) Scalar.zero w hs (by simp) hw
    rwa [reorder_replicate h] at this
  refine ⟨?_, ?_, ?_, ?_⟩
  · intro o ho
    exact (gdLoop_reorder_ok o.alpha h (g := fun w => g w X T) (g' := fun w => g' w (reorderCols σ X) T) hg o.iters start Scalar.zero w hs ho)
  · exact fun o => key _ _ fun w a d => sgdUpdate_reorder h o.alpha o.mu w a d
  · exact fun o => key _ _ fun w a d => adaUpdate_reorder h o.alpha o.tau w a d
  · exact fun o => key _ _ fun w a d => rmsUpdate_reorder h o.learningRate o.decayRate o.epsilon w a d

/-- **C97 (optimisers).** Whatever the model, when its gradient goes along with an order `σ` of the features and an order `τ` of the
weights, so do the weights found by the four optimisers, the stochastic ones with the same random numbers. -/
theorem C97_optimisers {n : ℕ} {τ : List ℕ} (σ : List ℕ) (h : IsOrder n τ) {g g' : ComputeGrad ℝ} {X T : Mat ℝ}
    (hg : ∀ w x t c d, w.length = n → x.cols = X.cols → (∀ r ∈ x.rows, r ∈ X.rows) → t.cols = T.cols → (∀ r ∈ t.rows, r ∈ T.rows) → g w x t = ok (c, d) →
      d.length = n ∧ g' (reorder τ w) (reorderCols σ x) t = ok (c, reorder τ d))
    (r : ℕ → ℕ → ℕ) (start w : List ℝ) (hs : start.length = n) :
    (∀ o : GradientDesc ℝ, (o.optimize (fun w => g w X T) start).out = ok w → w.length = n ∧
      (o.optimize (fun w => g' w (reorderCols σ X) T) (reorder τ start)).out = ok (reorder τ w)) ∧
    (∀ o : StochasticGD ℝ, (o.optimize g r start X T).out = ok w → w.length = n ∧ (o.optimize g' r (reorder τ start) (reorderCols σ X) T).out = ok (reorder τ w)) ∧
    (∀ o : AdaGrad ℝ, (o.optimize g r start X T).out = ok w → w.length = n ∧ (o.optimize g' r (reorder τ start) (reorderCols σ X) T).out = ok (reorder τ w)) ∧
    (∀ o : RMSProp ℝ, (o.optimize g r start X T).out = ok w → w.length = n ∧ (o.optimize g' r (reorder τ start) (reorderCols σ X) T).out = ok (reorder τ w)) := by
  have hsel : ∀ (A B : Mat ℝ) (i : ℕ), A.selectRows [i] = ok B → B.cols = A.cols ∧ ∀ r ∈ B.rows, r ∈ A.rows := by
    intro A B i hB
    unfold Mat.selectRows getAt at hB
    simp only [List.mapM_cons, List.mapM_nil] at hB
    cases hA : A.rows[i]? with
    | none => rw [hA] at hB; cases hB
    | some q =>
      rw [hA] at hB
      cases hB
      refine ⟨rfl, ?_⟩
      intro r hr
      simp only [List.mem_singleton] at hr
      rw [hr]
      exact List.mem_of_getElem? hA
  have hg1 : ∀ w i x t c d, w.length = n → X.selectRows [i] = ok x → T.selectRows [i] = ok t → g w x t = ok (c, d) →
      d.length = n ∧ g' (reorder τ w) (reorderCols σ x) t = ok (c, reorder τ d) := by
    intro w i x t c d hw hx ht
    exact hg w x t c d hw (hsel X x i hx).1 (hsel X x i hx).2 (hsel T t i ht).1 (hsel T t i ht).2
  exact optimisers_reorder σ h (fun w c d hw => hg w X T c d hw rfl (fun _ hr => hr) rfl (fun _ hr => hr)) hg1 r start w hs

end RM
