import Verif.Spec.Gp
import Verif.Proofs.Cholesky
import Verif.Proofs.Transforms
import Verif.Proofs.KMeans

/-! Gaussian process regression. -/

set_option linter.unusedSectionVars false

namespace RM
open Outcome Scalar Spec Matrix

theorem getD_row_length {X : Mat ℝ} (hX : X.WF) {i : ℕ} (hi : i < X.rows.length) : (X.rows.getD i []).length = X.cols := by
  rw [List.getD_eq_getElem?_getD, List.getElem?_eq_getElem hi, Option.getD_some]
  exact hX _ (List.getElem_mem _)

theorem kerMat_gram {K : Kernel ℝ} {k : List ℝ → List ℝ → ℝ} (hk : IsKernel K k) {Z X : Mat ℝ} (hZ : Z.WF) (hX : X.WF) (hc : Z.cols = X.cols) :
    ∃ G, kerMat K Z X = ok G ∧ HasShape G Z.rows.length X.rows.length ∧ toM _ _ G = gram k Z X := by
  refine ⟨⟨X.rows.length, Z.rows.map fun u => X.rows.map fun v => k u v⟩, ?_, ⟨by simp, rfl, ?_⟩, ?_⟩
  · unfold kerMat
    rw [if_neg (by simp [hc])]
    rw [mapM_ok_map (fun r1 => X.rows.mapM fun r2 => K r1 r2) (fun u => X.rows.map fun v => k u v)]
    · rfl
    · intro u hu
      apply mapM_ok_map
      intro v hv
      exact hk.value u v (by rw [hZ u hu, hX v hv, hc])
  · intro r hr
    obtain ⟨u, _, rfl⟩ := List.mem_map.mp hr
    simp
  · ext i j
    rw [toM_apply]
    unfold ent
    simp only
    rw [getD_map_lt _ _ [] _ _ i.2, getD_map_lt _ _ [] _ _ j.2]
    rfl

theorem scaledIdentity_toM (n : ℕ) (s : ℝ) : HasShape (scaledIdentity n s) n n ∧ toM n n (scaledIdentity n s) = s • 1 := by
  refine ⟨⟨by simp [scaledIdentity], rfl, ?_⟩, ?_⟩
  · intro r hr
    obtain ⟨i, _, rfl⟩ := List.mem_map.mp hr
    simp [scaledIdentity]
  · ext i j
    rw [toM_apply]
    unfold ent scaledIdentity
    simp only
    rw [getD_map_lt _ _ 0 _ _ (by simp), getD_map_lt _ _ 0 _ _ (by simp)]
    simp [List.getD_eq_getElem?_getD, Matrix.one_apply, Fin.ext_iff]

theorem zip_toM {A B : Mat ℝ} {n m : ℕ} (f : ℝ → ℝ → ℝ) (hA : HasShape A n m) (hB : HasShape B n m) :
    ∃ C, Mat.zip f A B = ok C ∧ HasShape C n m ∧ ∀ i j, toM n m C i j = f (toM n m A i j) (toM n m B i j) := by
  refine ⟨⟨A.cols, List.zipWith (List.zipWith f) A.rows B.rows⟩, ?_, ⟨?_, hA.2.1, ?_⟩, ?_⟩
  · unfold Mat.zip
    rw [if_pos ⟨hA.1.trans hB.1.symm, hA.2.1.trans hB.2.1.symm⟩]
  · simp [hA.1, hB.1]
  · intro r hr
    obtain ⟨i, hi, rfl⟩ := List.getElem_of_mem hr
    simp only [List.length_zipWith] at hi
    rw [List.getElem_zipWith, List.length_zipWith, hA.2.2 _ (List.getElem_mem _), hB.2.2 _ (List.getElem_mem _)]
    simp [hA.2.1, hB.2.1]
  · intro i j
    have hi : (i : ℕ) < A.rows.length := by rw [hA.1]; exact i.2
    have hi2 : (i : ℕ) < B.rows.length := by rw [hB.1]; exact i.2
    have hj : (j : ℕ) < A.rows[(i : ℕ)].length := by rw [hA.2.2 _ (List.getElem_mem _)]; exact j.2
    have hj2 : (j : ℕ) < B.rows[(i : ℕ)].length := by rw [hB.2.2 _ (List.getElem_mem _)]; exact j.2
    rw [toM_apply, toM_apply, toM_apply]
    unfold ent
    simp only [List.getD_eq_getElem?_getD, List.getElem?_zipWith, List.getElem?_eq_getElem hi, List.getElem?_eq_getElem hi2, Option.getD_some]
    have h1 : A.rows[(i : ℕ)][(j : ℕ)]? = some (A.rows[(i : ℕ)][(j : ℕ)]) := List.getElem?_eq_getElem hj
    have h2 : B.rows[(i : ℕ)][(j : ℕ)]? = some (B.rows[(i : ℕ)][(j : ℕ)]) := List.getElem?_eq_getElem hj2
    rw [h1, h2]
    rfl

theorem gram_symm {K : Kernel ℝ} {k : List ℝ → List ℝ → ℝ} (hk : IsKernel K k) {Z X : Mat ℝ} (hZ : Z.WF) (hX : X.WF) (hc : Z.cols = X.cols) :
    (gram k Z X)ᵀ = gram k X Z := by
  ext i j
  exact hk.symm _ _ (by rw [getD_row_length hZ j.2, getD_row_length hX i.2, hc])

theorem noisyGram_symm {K : Kernel ℝ} {k : List ℝ → List ℝ → ℝ} (hk : IsKernel K k) {X : Mat ℝ} (hX : X.WF) (s : ℝ) :
    (noisyGram k s X)ᵀ = noisyGram k s X := by
  unfold noisyGram
  rw [transpose_add, gram_symm hk hX hX rfl, transpose_smul, transpose_one]

theorem expectOk_ok {α : Type} {o : Outcome α} {a : α} (h : expectOk o = ok a) : o = ok a := by
  cases o <;> simp [expectOk] at h ⊢
  exact h

theorem orInvalidState_ok {α : Type} {o : Outcome α} {a : α} (h : orInvalidState o = ok a) : o = ok a := by
  cases o <;> simp [orInvalidState] at h ⊢
  exact h

/-- A matrix with a Cholesky factor is positive definite. -/
theorem posDefinite_of_factor {n : ℕ} {A L : Matrix (Fin n) (Fin n) ℝ} (hd : L.det ≠ 0) (h : L * Lᵀ = A) : PosDefinite A := by
  refine ⟨by rw [← h, transpose_mul, transpose_transpose], ?_⟩
  intro v hv
  have h1 : v ⬝ᵥ A.mulVec v = Lᵀ.mulVec v ⬝ᵥ Lᵀ.mulVec v := by
    rw [← h, ← Matrix.mulVec_mulVec, Matrix.dotProduct_mulVec, ← Matrix.mulVec_transpose]
  rw [h1]
  have hne : Lᵀ.mulVec v ≠ 0 := by
    intro h0
    apply hd
    rw [← Matrix.det_transpose]
    exact Matrix.exists_mulVec_eq_zero_iff.mp ⟨v, hv, h0⟩
  have : 0 ≤ Lᵀ.mulVec v ⬝ᵥ Lᵀ.mulVec v := Finset.sum_nonneg fun i _ => mul_self_nonneg _
  exact lt_of_le_of_ne this fun h => hne (dotProduct_self_eq_zero.mp h.symm)

theorem posDefinite_det {n : ℕ} {A : Matrix (Fin n) (Fin n) ℝ} (h : PosDefinite A) : A.det ≠ 0 := by
  intro hd
  obtain ⟨v, hv, h0⟩ := Matrix.exists_mulVec_eq_zero_iff.mpr hd
  have := h.2 v hv
  rw [h0, dotProduct_zero] at this
  exact lt_irrefl _ this

/-- What training computes. -/
theorem gp_train_spec {lib : TriLib ℝ} (hl : TriLibOk lib) {g g' : Gp ℝ} {k : List ℝ → List ℝ → ℝ} (hk : IsKernel g.ker k) {X : Mat ℝ} (hX : X.WF)
    {y : List ℝ} (h : g.train lib X y = ok g') :
    ∃ l alpha, g' = ⟨g.ker, g.mean, g.noise, some alpha, some l, some X⟩ ∧ HasShape l X.rows.length X.rows.length ∧
      LowerTriangular (toM X.rows.length X.rows.length l) ∧ (∀ i, 0 < toM X.rows.length X.rows.length l i i) ∧
      toM X.rows.length X.rows.length l * (toM X.rows.length X.rows.length l)ᵀ = noisyGram k g.noise X ∧
      y.length = (g.mean X).length ∧ (y.length = X.rows.length → alpha.length = X.rows.length ∧
        (noisyGram k g.noise X).mulVec (toV _ alpha) = toV _ y - toV _ (g.mean X)) := by
  unfold Gp.train at h
  obtain ⟨G, g1, g2, g3⟩ := kerMat_gram hk hX hX rfl
  obtain ⟨n1, n2⟩ := scaledIdentity_toM X.rows.length g.noise
  obtain ⟨A, a1, a2, a3⟩ := zip_toM Scalar.add g2 n1
  have hA : toM X.rows.length X.rows.length A = noisyGram k g.noise X := by
    ext i j
    rw [a3, g3, n2]
    rfl
  rw [g1] at h
  simp only [expectOk, ok_bind] at h
  rw [a1, ok_bind] at h
  obtain ⟨l, hl1, h⟩ := bind_eq_ok.mp h
  obtain ⟨c1, c2, c3, c4⟩ := hl.exact A l _ a2 (by rw [hA]; exact noisyGram_symm hk hX _) (orInvalidState_ok hl1)
  obtain ⟨r, hr, h⟩ := bind_eq_ok.mp h
  have hlen : y.length = (g.mean X).length := by
    unfold vecZip at hr
    by_contra hne
    rw [if_neg hne] at hr
    cases hr
  unfold vecZip at hr
  rw [if_pos hlen] at hr
  injection hr with hr
  obtain ⟨x, hx, h⟩ := bind_eq_ok.mp h
  obtain ⟨alpha, ha, h⟩ := bind_eq_ok.mp h
  injection h with h
  refine ⟨l, alpha, h.symm, c1, c2, c3, by rw [c4, hA], hlen, ?_⟩
  intro hy
  have hrl : r.length = X.rows.length := by rw [← hr]; simp [← hlen, hy]
  obtain ⟨x', x1, x2, x3⟩ := hl.lower l r _ c1 c2 (fun i => (c3 i).ne') hrl
  rw [expectOk_ok hx] at x1
  injection x1 with x1
  subst x1
  obtain ⟨t1, t2⟩ := transpose_toM c1
  obtain ⟨b, b1, b2, b3⟩ := hl.upper l.transpose x _ t1 (by rw [t2, transpose_transpose]; exact c2) (by
    intro i; rw [t2]; exact (c3 i).ne') x2
  rw [expectOk_ok ha] at b1
  injection b1 with b1
  subst b1
  refine ⟨b2, ?_⟩
  rw [← hA, ← c4, ← Matrix.mulVec_mulVec, ← t2, b3, x3, ← hr]
  funext i
  have h1 : (i : ℕ) < y.length := by rw [hy]; exact i.2
  have h2 : (i : ℕ) < (g.mean X).length := by rw [← hlen, hy]; exact i.2
  simp [toV, List.getD_eq_getElem?_getD, h1, h2]

/-- The state after training on `X`, `y`. -/
theorem gp_alpha {lib : TriLib ℝ} (hl : TriLibOk lib) {g g' : Gp ℝ} {k : List ℝ → List ℝ → ℝ} (hk : IsKernel g.ker k) (hm : MeanSized g.mean)
    {X : Mat ℝ} (hX : X.WF) {y : List ℝ} (h : g.train lib X y = ok g') :
    ∃ l alpha, g' = ⟨g.ker, g.mean, g.noise, some alpha, some l, some X⟩ ∧ HasShape l X.rows.length X.rows.length ∧
      LowerTriangular (toM X.rows.length X.rows.length l) ∧ (∀ i, 0 < toM X.rows.length X.rows.length l i i) ∧
      toM X.rows.length X.rows.length l * (toM X.rows.length X.rows.length l)ᵀ = noisyGram k g.noise X ∧
      y.length = X.rows.length ∧ PosDefinite (noisyGram k g.noise X) ∧ alpha.length = X.rows.length ∧
      (noisyGram k g.noise X).mulVec (toV _ alpha) = toV _ y - toV _ (g.mean X) := by
  obtain ⟨l, alpha, e, h1, h2, h3, h4, h5, h6⟩ := gp_train_spec hl hk hX h
  have hy : y.length = X.rows.length := h5.trans (hm X)
  exact ⟨l, alpha, e, h1, h2, h3, h4, hy, posDefinite_of_factor (lower_det h2 fun i => (h3 i).ne') h4, h6 hy⟩

theorem toV_add_zip {n : ℕ} {a b : List ℝ} (ha : a.length = n) (hb : b.length = n) : toV n (List.zipWith Scalar.add a b) = toV n a + toV n b := by
  funext i
  have h1 : (i : ℕ) < a.length := by rw [ha]; exact i.2
  have h2 : (i : ℕ) < b.length := by rw [hb]; exact i.2
  simp [toV, List.getD_eq_getElem?_getD, h1, h2]

theorem gp_predict_trained {lib : TriLib ℝ} (hl : TriLibOk lib) {g g' : Gp ℝ} {k : List ℝ → List ℝ → ℝ} (hk : IsKernel g.ker k) (hm : MeanSized g.mean)
    {X : Mat ℝ} (hX : X.WF) {y : List ℝ} (h : g.train lib X y = ok g') {Z : Mat ℝ} (hZ : Z.WF) (hc : Z.cols = X.cols) :
    ∃ p, g'.predict Z = ok p ∧ p.length = Z.rows.length ∧
      toV _ p = toV _ (g.mean Z) + (gram k Z X).mulVec ((noisyGram k g.noise X)⁻¹.mulVec (toV _ y - toV _ (g.mean X))) := by
  obtain ⟨l, alpha, e, h1, h2, h3, h4, hy, hpd, ha, hA⟩ := gp_alpha hl hk hm hX h
  obtain ⟨G, g1, g2, g3⟩ := kerMat_gram hk hZ hX hc
  obtain ⟨w, w1, w2, w3⟩ := mulVec_toV g2 ha
  refine ⟨List.zipWith Scalar.add (g.mean Z) w, ?_, by simp [hm Z, w2], ?_⟩
  · subst e
    unfold Gp.predict
    simp only
    rw [g1, ok_bind, w1, ok_bind]
    unfold vecZip
    rw [if_pos ((hm Z).trans w2.symm)]
  · rw [toV_add_zip (hm Z) w2, w3, g3, ← hA, Matrix.mulVec_mulVec _ (noisyGram k g.noise X)⁻¹, Matrix.nonsing_inv_mul _ (isUnit_iff_ne_zero.mpr (posDefinite_det hpd)), Matrix.one_mulVec]

theorem gp_posterior_trained {lib : TriLib ℝ} (hl : TriLibOk lib) {g g' : Gp ℝ} {k : List ℝ → List ℝ → ℝ} (hk : IsKernel g.ker k) (hm : MeanSized g.mean)
    {X : Mat ℝ} (hX : X.WF) {y : List ℝ} (h : g.train lib X y = ok g') {Z : Mat ℝ} (hZ : Z.WF) (hc : Z.cols = X.cols) :
    ∃ p S, g'.predict Z = ok p ∧ g'.posterior lib Z = ok (p, S) ∧ HasShape S Z.rows.length Z.rows.length ∧
      toM _ _ S = gram k Z Z - gram k Z X * (noisyGram k g.noise X)⁻¹ * gram k X Z ∧
      ∃ V : Matrix (Fin Z.rows.length) (Fin X.rows.length) ℝ, gram k Z X * (noisyGram k g.noise X)⁻¹ * gram k X Z = V * Vᵀ := by
  obtain ⟨p, p1, -, -⟩ := gp_predict_trained hl hk hm hX h hZ hc
  obtain ⟨l, alpha, e, h1, h2, h3, h4, hy, hpd, ha, hA⟩ := gp_alpha hl hk hm hX h
  obtain ⟨G, g1, g2, g3⟩ := kerMat_gram hk hZ hX hc
  obtain ⟨G2, k1, k2, k3⟩ := kerMat_gram hk hZ hZ rfl
  -- the rows of the triangular solution
  have hrow : ∀ r ∈ G.rows, ∃ x, lib.solveL l r = ok x ∧ x.length = X.rows.length ∧
      (toM X.rows.length X.rows.length l).mulVec (toV X.rows.length x) = toV X.rows.length r := fun r hr =>
    hl.lower l r _ h1 h2 (fun i => (h3 i).ne') (g2.2.2 r hr)
  choose! sol hs1 hs2 hs3 using hrow
  have hmap : (G.rows.mapM fun row => expectOk (lib.solveL l row)) = ok (G.rows.map sol) := by
    apply mapM_ok_map
    intro r hr
    rw [hs1 r hr]
    rfl
  have hV : HasShape (⟨X.rows.length, G.rows.map sol⟩ : Mat ℝ) Z.rows.length X.rows.length := by
    refine ⟨by simp [g2.1], rfl, ?_⟩
    intro r hr
    obtain ⟨r', hr', rfl⟩ := List.mem_map.mp hr
    exact hs2 r' hr'
  have hnew : Mat.new G.rows.length G.cols (G.rows.map sol).flatten = ok ⟨X.rows.length, G.rows.map sol⟩ := by
    unfold Mat.new
    have hall : ∀ r ∈ G.rows.map sol, r.length = X.rows.length := hV.2.2
    have hlen : (G.rows.map sol).flatten.length = G.rows.length * G.cols := by
      rw [List.length_flatten, List.map_congr_left (g := fun _ => X.rows.length) hall, g2.2.1]
      rw [List.map_const', List.sum_replicate, List.length_map, smul_eq_mul]
    rw [if_pos hlen]
    have := chunk_flatten X.rows.length (G.rows.map sol) hall
    rw [List.length_map] at this
    rw [g2.2.1, this]
  obtain ⟨t1, t2⟩ := transpose_toM hV
  obtain ⟨VV, v1, v2, v3⟩ := mul_toM hV t1
  obtain ⟨S, s1, s2, s3⟩ := zip_toM Scalar.sub k2 v2
  have hdet : (toM X.rows.length X.rows.length l).det ≠ 0 := lower_det h2 fun i => (h3 i).ne'
  have hVL : gram k Z X = toM Z.rows.length X.rows.length (⟨X.rows.length, G.rows.map sol⟩ : Mat ℝ) * (toM X.rows.length X.rows.length l)ᵀ := by
    rw [← g3]
    ext i j
    have hi : (i : ℕ) < G.rows.length := by rw [g2.1]; exact i.2
    have := congrFun (hs3 (G.rows[(i : ℕ)]) (List.getElem_mem _)) j
    rw [toM_apply]
    unfold ent
    have e0 : G.rows.getD (i : ℕ) [] = G.rows[(i : ℕ)] := by
      rw [List.getD_eq_getElem?_getD, List.getElem?_eq_getElem hi, Option.getD_some]
    rw [e0]
    simp only [toV] at this
    rw [← this, Matrix.mul_apply]
    unfold Matrix.mulVec dotProduct
    apply Finset.sum_congr rfl
    intro q _
    rw [Matrix.transpose_apply, mul_comm]
    congr 1
    have e1 : toM Z.rows.length X.rows.length (⟨X.rows.length, G.rows.map sol⟩ : Mat ℝ) i q = ((G.rows.map sol).getD i []).getD q 0 := rfl
    rw [e1, List.getD_eq_getElem?_getD (l := G.rows.map sol), List.getElem?_map, List.getElem?_eq_getElem hi]
    rfl
  have hfac : gram k Z X * (noisyGram k g.noise X)⁻¹ * gram k X Z =
      toM Z.rows.length X.rows.length (⟨X.rows.length, G.rows.map sol⟩ : Mat ℝ) * (toM Z.rows.length X.rows.length (⟨X.rows.length, G.rows.map sol⟩ : Mat ℝ))ᵀ := by
    have hu : IsUnit (toM X.rows.length X.rows.length l).det := isUnit_iff_ne_zero.mpr hdet
    have hut : IsUnit ((toM X.rows.length X.rows.length l)ᵀ).det := by rw [Matrix.det_transpose]; exact hu
    rw [← gram_symm hk hZ hX hc, hVL, transpose_mul, transpose_transpose, ← h4, Matrix.mul_inv_rev]
    rw [Matrix.mul_assoc, Matrix.mul_assoc, Matrix.mul_assoc, Matrix.nonsing_inv_mul_cancel_left _ _ hu, Matrix.mul_nonsing_inv_cancel_left _ _ hut]
  refine ⟨p, S, p1, ?_, s2, ?_, _, hfac⟩
  · subst e
    unfold Gp.predict at p1
    simp only at p1
    unfold Gp.posterior
    simp only
    rw [g1, ok_bind] at p1 ⊢
    obtain ⟨q, q1, q2⟩ := bind_eq_ok.mp p1
    rw [q1, ok_bind, q2, ok_bind, ok_bind, hmap, ok_bind, hnew, ok_bind, k1, ok_bind, v1, ok_bind, s1, ok_bind]
  · rw [hfac]
    ext i j
    rw [s3, k3, v3, t2]
    rfl

end RM
