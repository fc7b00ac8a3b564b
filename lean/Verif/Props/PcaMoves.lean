import Verif.Props.Pca
import Verif.Props.Copies
import Verif.Proofs.PcaUnique
import Verif.Proofs.MatOf
import Verif.Spec.PcaMoves

/-! C103: principal components do not depend on the coordinates, the unit, the order or the number of copies of the samples. -/

namespace RM
open Outcome Scalar Spec Matrix

variable {svd svd' : Mat ℝ → Outcome (Mat ℝ × Mat ℝ × Mat ℝ)} {n n' d : ℕ}

theorem Pca.Fresh.n_le {m m' : Pca ℝ} {X : Mat ℝ} (h : m.train svd X = ok m') : asked m.n X.cols ≤ X.cols := by
  have : tooManyComponents m.n X.cols = false := by
    rw [Pca.train] at h
    split at h
    · simp at h
    · rename_i h1
      simpa using h1
  cases hn : m.n with
  | none => simp [asked]
  | some k =>
    simp only [hn, tooManyComponents, decide_eq_false_iff_not, not_lt] at this
    simpa [asked] using this

theorem mean_entries {X : Mat ℝ} (j : ℕ) : mean (Spec.col X j) = (∑ l : Fin X.rows.length, ent X l j) / X.rows.length := by
  have : (Spec.col X j).sum = ∑ i : Fin X.rows.length, ent X i j := by
    rw [Spec.col, sum_eq_range (n := X.rows.length) (by simp), Finset.sum_range]
    refine Finset.sum_congr rfl fun i _ => ?_
    simp [ent]
  rw [mean, this]
  simp [Spec.col]

theorem centred_minusMeans (center : Bool) (X Z : Mat ℝ) :
    centred center X Z = minusMeans center (toM X.rows.length X.cols X) (toM Z.rows.length X.cols Z) := by
  ext i j
  simp only [centred, minusMeans, Matrix.of_apply, mean_entries, toM_apply]
  rfl

/-- What training does, for data with at least as many samples as columns. -/
theorem pca_tall (hs : SvdExact svd) {m m' : Pca ℝ} (hm : m.Fresh) {X : Mat ℝ} (hX : HasShape X n d) (hnd : d ≤ n)
    (h : m.train svd X = ok m') :
    ∃ (hk : asked m.n d ≤ d) (σ : Fin d → ℝ) (U : Matrix (Fin n) (Fin d) ℝ) (V : Matrix (Fin d) (Fin d) ℝ),
      IsSvd (minusMeans m.center (toM n d X) (toM n d X)) (Matrix.diagonal σ) U V ∧
      ∀ (p : ℕ) (z : Matrix (Fin p) (Fin d) ℝ), m'.predict (ofM z) =
        ok (ofM (minusMeans m.center (toM n d X) z * V.submatrix id (Fin.castLE hk))) := by
  obtain ⟨rfl, rfl, hW⟩ := hX
  have hk := Pca.Fresh.n_le h
  obtain ⟨B, U, V, hsvd, -, hZ⟩ := pca_core hs hW (Or.inl hnd) (Or.inl hm.inv) h
  have hmin : min X.rows.length X.cols = X.cols := min_eq_right hnd
  have hkk : keptComponents m.n X = asked m.n X.cols := by
    simp only [keptComponents, hmin, asked]
    exact min_eq_left hk
  obtain ⟨σ, hB, -⟩ := hsvd.values
  rw [centred_minusMeans] at hsvd
  have gen : ∀ (q k : ℕ) (hq : q = X.cols) (hk' : k = asked m.n X.cols) (hkq : k ≤ q) (B : Matrix (Fin q) (Fin q) ℝ) (σ : Fin q → ℝ)
      (U : Matrix (Fin X.rows.length) (Fin q) ℝ) (V : Matrix (Fin X.cols) (Fin q) ℝ),
      IsSvd (minusMeans m.center (toM X.rows.length X.cols X) (toM X.rows.length X.cols X)) B U V → B = Matrix.diagonal σ →
      (∀ Z, HasShape Z Z.rows.length X.cols → ∃ P, m'.predict Z = ok P ∧ HasShape P Z.rows.length k ∧
        toM Z.rows.length k P = centred m.center X Z * V.submatrix id (Fin.castLE hkq)) →
      ∃ (hk : asked m.n X.cols ≤ X.cols) (σ : Fin X.cols → ℝ) (U : Matrix (Fin X.rows.length) (Fin X.cols) ℝ)
        (V : Matrix (Fin X.cols) (Fin X.cols) ℝ),
        IsSvd (minusMeans m.center (toM X.rows.length X.cols X) (toM X.rows.length X.cols X)) (Matrix.diagonal σ) U V ∧
        ∀ (p : ℕ) (z : Matrix (Fin p) (Fin X.cols) ℝ), m'.predict (ofM z) =
          ok (ofM (minusMeans m.center (toM X.rows.length X.cols X) z * V.submatrix id (Fin.castLE hk))) := by
    intro q k hq hk' hkq B σ U V h1 h2 h3
    subst hq
    subst hk'
    subst h2
    refine ⟨hk, σ, U, V, h1, fun p z => ?_⟩
    have hz := ofM_shape z
    obtain ⟨P, e1, e2, e3⟩ := h3 (ofM z) ⟨rfl, hz.2.1, hz.2.2⟩
    rw [e1]
    congr 1
    rw [centred_minusMeans] at e3
    have gen2 : ∀ l, l = p → HasShape P l (asked m.n X.cols) → toM l (asked m.n X.cols) P =
        minusMeans m.center (toM X.rows.length X.cols X) (toM l X.cols (ofM z)) * V.submatrix id (Fin.castLE hkq) →
        P = ofM (minusMeans m.center (toM X.rows.length X.cols X) z * V.submatrix id (Fin.castLE hk)) := by
      rintro l rfl g1 g2
      rw [toM_ofM] at g2
      rw [eq_matOf g1, ← g2]
      rfl
    exact gen2 _ hz.1 e2 e3
  exact gen _ _ hmin hkk (kept_le m.n X) B σ U V hsvd hB hZ

/-- Two trainings on data whose Gram matrices are the same up to a turn and a factor. -/
theorem pca_compare (hs : SvdExact svd) (hs' : SvdExact svd') {m m1 m2 : Pca ℝ} (hm : m.Fresh) {X X' : Mat ℝ} (hX : HasShape X n d)
    (hX' : HasShape X' n' d) (hnd : d ≤ n) (hnd' : d ≤ n') (h1 : m.train svd X = ok m1) (h2 : m.train svd' X' = ok m2)
    {O : Matrix (Fin d) (Fin d) ℝ} (hO : O * Oᵀ = 1) {q c : ℝ} (hq : 0 < q)
    (hG : (minusMeans m.center (toM n' d X') (toM n' d X'))ᵀ * minusMeans m.center (toM n' d X') (toM n' d X') =
      q ^ 2 • (O * ((minusMeans m.center (toM n d X) (toM n d X))ᵀ * minusMeans m.center (toM n d X) (toM n d X)) * Oᵀ))
    {T : ∀ p, Matrix (Fin p) (Fin d) ℝ → Matrix (Fin p) (Fin d) ℝ}
    (hT : ∀ (p : ℕ) (z : Matrix (Fin p) (Fin d) ℝ), minusMeans m.center (toM n' d X') (T p z) = c • (minusMeans m.center (toM n d X) z * Oᵀ)) :
    ∃ hk : asked m.n d ≤ d, ∀ σ : Fin d → ℝ, HasSingularValues (minusMeans m.center (toM n d X) (toM n d X)) σ → Separated σ (asked m.n d) →
      SameComponents σ hk c T m1 m2 := by
  obtain ⟨hk, σ₁, U, V, a1, a2⟩ := pca_tall hs hm hX hnd h1
  obtain ⟨_, σ₂, U', V', b1, b2⟩ := pca_tall hs' hm hX' hnd' h2
  refine ⟨hk, ?_⟩
  rintro σ ⟨U₀, V₀, h0⟩ hsep
  have hσ : σ₁ = σ := by
    funext i
    have := singular_values (O := 1) (q := 1) h0 a1 one_pos (by simp) (by simp) i
    rwa [one_mul] at this
  subst hσ
  obtain ⟨R, r1, r2, r3⟩ := singular_vectors a1 b1 hq hO hG hk hsep
  refine ⟨R, r1, r2, fun p z => ⟨_, a2 p z, ?_⟩⟩
  have hO' : Oᵀ * O = 1 := mul_eq_one_comm.mp hO
  refine (b2 p (T p z)).trans ?_
  rw [hT, r3]
  have : c • (minusMeans m.center (toM n d X) z * Oᵀ) * (O * V.submatrix id (Fin.castLE hk) * R) =
      c • (minusMeans m.center (toM n d X) z * V.submatrix id (Fin.castLE hk) * R) := by
    rw [Matrix.smul_mul]
    congr 1
    simp only [Matrix.mul_assoc]
    rw [← Matrix.mul_assoc Oᵀ, hO', Matrix.one_mul]
  rw [this]
  rfl

theorem gram_of_moved {D : Matrix (Fin n) (Fin d) ℝ} (c : ℝ) (O : Matrix (Fin d) (Fin d) ℝ) :
    (c • (D * Oᵀ))ᵀ * (c • (D * Oᵀ)) = c ^ 2 • (O * (Dᵀ * D) * Oᵀ) := by
  rw [Matrix.transpose_smul, Matrix.smul_mul, Matrix.mul_smul, smul_smul, sq]
  congr 1
  simp only [Matrix.transpose_mul, Matrix.transpose_transpose, Matrix.mul_assoc]

theorem minusMeans_moved (center : Bool) (c : ℝ) (O : Matrix (Fin d) (Fin d) ℝ) (b : Fin d → ℝ) (hb : center = true ∨ b = 0) (hnd : d ≤ n)
    (x : Matrix (Fin n) (Fin d) ℝ) {p : ℕ} (z : Matrix (Fin p) (Fin d) ℝ) :
    minusMeans center (movedRows (c • O) b x) (movedRows (c • O) b z) = c • (minusMeans center x z * Oᵀ) := by
  ext i j
  have hn : (n : ℝ) ≠ 0 := by
    have := j.2
    exact_mod_cast (by omega : n ≠ 0)
  simp only [minusMeans, movedRows, Matrix.of_apply, Matrix.smul_apply, Matrix.mul_apply, Matrix.transpose_apply, Pi.add_apply, Matrix.mulVec,
    dotProduct, smul_eq_mul]
  cases center with
  | false =>
    obtain rfl : b = 0 := by simpa using hb
    simp only [Bool.false_eq_true, if_false, sub_zero, Pi.zero_apply, add_zero]
    rw [Finset.mul_sum]
    exact Finset.sum_congr rfl fun k _ => by ring
  | true =>
    simp only [if_true]
    rw [Finset.sum_add_distrib, Finset.sum_const, Finset.card_univ, Fintype.card_fin, nsmul_eq_mul, add_div, mul_div_cancel_left₀ _ hn,
      Finset.sum_comm, Finset.sum_div]
    simp only [sub_mul, Finset.sum_sub_distrib, mul_sub, Finset.mul_sum]
    rw [add_sub_add_right_eq_sub]
    congr 1
    · exact Finset.sum_congr rfl fun k _ => by ring
    · refine Finset.sum_congr rfl fun k _ => ?_
      rw [← Finset.mul_sum]
      ring

/-- **C103 (moved data).** Turn, reflect and shift the samples, and multiply them by `c > 0` (without centring: no shift): the projections
of correspondingly moved points are the projections of the points times `c`, up to an orthogonal matrix that mixes only components with
equal singular values, as long as the singular values of the components kept are different from the other ones. -/
theorem C103_moved (hs : SvdExact svd) (hs' : SvdExact svd') {m m1 m2 : Pca ℝ} (hm : m.Fresh) (x : Matrix (Fin n) (Fin d) ℝ) (hnd : d ≤ n)
    {c : ℝ} (hc : 0 < c) {O : Matrix (Fin d) (Fin d) ℝ} (hO : O * Oᵀ = 1) (b : Fin d → ℝ) (hb : m.center = true ∨ b = 0)
    (h1 : m.train svd (ofM x) = ok m1) (h2 : m.train svd' (ofM (movedRows (c • O) b x)) = ok m2) :
    ∃ hk : asked m.n d ≤ d, ∀ σ : Fin d → ℝ, HasSingularValues (minusMeans m.center x x) σ → Separated σ (asked m.n d) →
      SameComponents σ hk c (fun _ z => movedRows (c • O) b z) m1 m2 := by
  have e := pca_compare (O := O) (q := c) (c := c) hs hs' hm (ofM_shape x) (ofM_shape _) hnd hnd h1 h2 hO hc
    (T := fun _ z => movedRows (c • O) b z)
    (by rw [toM_ofM, toM_ofM, minusMeans_moved _ c O b hb hnd, gram_of_moved])
    (by intro p z; rw [toM_ofM, toM_ofM, minusMeans_moved _ c O b hb hnd])
  rw [toM_ofM] at e
  exact e

theorem sum_fibres {k : ℕ} {f : Fin n' → Fin n} (hf : ∀ i, (Finset.univ.filter fun l => f l = i).card = k) (g : Fin n → ℝ) :
    ∑ l, g (f l) = k * ∑ i, g i := by
  rw [← Finset.sum_fiberwise Finset.univ f, Finset.mul_sum]
  refine Finset.sum_congr rfl fun i _ => ?_
  rw [Finset.sum_congr rfl (g := fun _ => g i), Finset.sum_const, hf i, nsmul_eq_mul]
  intro l hl
  rw [(Finset.mem_filter.mp hl).2]

/-- **C103 (order and copies of the samples).** Give the samples in another order, or every one of them `k` times: the projections of all
points are the same, up to an orthogonal matrix that mixes only components with equal singular values, as long as the singular values of
the components kept are different from the other ones. -/
theorem C103_copies (hs : SvdExact svd) (hs' : SvdExact svd') {m m1 m2 : Pca ℝ} (hm : m.Fresh) (x : Matrix (Fin n) (Fin d) ℝ) (hnd : d ≤ n)
    {k : ℕ} (hk : 0 < k) {f : Fin n' → Fin n} (hf : ∀ i, (Finset.univ.filter fun l => f l = i).card = k)
    (h1 : m.train svd (ofM x) = ok m1) (h2 : m.train svd' (ofM (Matrix.of fun l => x (f l))) = ok m2) :
    ∃ hk : asked m.n d ≤ d, ∀ σ : Fin d → ℝ, HasSingularValues (minusMeans m.center x x) σ → Separated σ (asked m.n d) →
      SameComponents σ hk 1 (fun _ z => z) m1 m2 := by
  have hn' : n' = k * n := by
    have := sum_fibres hf fun _ => 1
    simp only [Finset.sum_const, Finset.card_univ, Fintype.card_fin, nsmul_eq_mul, mul_one] at this
    exact_mod_cast this
  have hk0 : (k : ℝ) ≠ 0 := by exact_mod_cast hk.ne'
  have hmean : ∀ {p : ℕ} (z : Matrix (Fin p) (Fin d) ℝ), minusMeans m.center (Matrix.of fun l => x (f l)) z = minusMeans m.center x z := by
    intro p z
    ext i j
    simp only [minusMeans, Matrix.of_apply]
    rw [sum_fibres hf fun i => x i j, hn']
    push_cast
    rw [mul_div_mul_left _ _ hk0]
  have hgram : ∀ D : Matrix (Fin n) (Fin d) ℝ, (Matrix.of fun l => D (f l))ᵀ * (Matrix.of fun l => D (f l)) = (k : ℝ) • (Dᵀ * D) := by
    intro D
    ext a b
    rw [Matrix.mul_apply, Matrix.smul_apply, Matrix.mul_apply]
    exact sum_fibres hf fun i => D i a * D i b
  have e := pca_compare (O := 1) (q := Real.sqrt k) (c := 1) hs hs' hm (ofM_shape x) (ofM_shape _) hnd
    (by rw [hn']; exact hnd.trans (Nat.le_mul_of_pos_left n hk)) h1 h2 (by simp) (Real.sqrt_pos.mpr (by exact_mod_cast hk))
    (T := fun _ z => z) ?_ ?_
  · rw [toM_ofM] at e
    exact e
  · rw [toM_ofM, toM_ofM, hmean, Real.sq_sqrt (Nat.cast_nonneg k)]
    have : minusMeans m.center x (Matrix.of fun l => x (f l)) = Matrix.of fun l => minusMeans m.center x x (f l) := rfl
    rw [this, hgram]
    simp
  · intro p z
    rw [toM_ofM, toM_ofM, hmean]
    simp

/-- **C103 (signs).** When the singular values are all different, each column of the projections is the same up to its sign (and the
factor `c`). -/
theorem C103_signs {σ : Fin d → ℝ} (hσ : Function.Injective σ) {k : ℕ} {hk : k ≤ d} {c : ℝ}
    {T : ∀ p, Matrix (Fin p) (Fin d) ℝ → Matrix (Fin p) (Fin d) ℝ} {m m' : Pca ℝ} (h : SameComponents σ hk c T m m') :
    ∃ s : Fin k → ℝ, (∀ j, s j = 1 ∨ s j = -1) ∧ ∀ (p : ℕ) (z : Matrix (Fin p) (Fin d) ℝ), ∃ P : Matrix (Fin p) (Fin k) ℝ,
      m.predict (ofM z) = ok (ofM P) ∧ m'.predict (ofM (T p z)) = ok (ofM (Matrix.of fun i j => c * s j * P i j)) := by
  obtain ⟨R, r1, r2, r3⟩ := h
  have hdiag : R = Matrix.diagonal fun j => R j j := by
    ext i j
    by_cases hij : i = j
    · subst hij
      simp
    · rw [Matrix.diagonal_apply_ne _ hij]
      exact r2 i j fun h => hij (Fin.castLE_injective hk (hσ h))
  refine ⟨fun j => R j j, fun j => ?_, fun p z => ?_⟩
  · rw [hdiag, Matrix.diagonal_transpose, Matrix.diagonal_mul_diagonal] at r1
    have := congrFun (congrFun r1 j) j
    rw [Matrix.diagonal_apply_eq, Matrix.one_apply_eq] at this
    exact mul_self_eq_one_iff.mp this
  · obtain ⟨P, p1, p2⟩ := r3 p z
    refine ⟨P, p1, p2.trans ?_⟩
    have : c • (P * R) = Matrix.of fun i j => c * R j j * P i j := by
      rw [hdiag]
      ext i j
      rw [Matrix.smul_apply, Matrix.mul_diagonal, Matrix.of_apply, Matrix.diagonal_apply_eq, smul_eq_mul]
      ring
    rw [this]
    rfl

/-- **C103 (distances).** Distances between projections are multiplied by `|c|`. -/
theorem C103_distances {σ : Fin d → ℝ} {k : ℕ} {hk : k ≤ d} {c : ℝ} {T : ∀ p, Matrix (Fin p) (Fin d) ℝ → Matrix (Fin p) (Fin d) ℝ}
    {m m' : Pca ℝ} (h : SameComponents σ hk c T m m') {p : ℕ} {z : Matrix (Fin p) (Fin d) ℝ} {P P' : Matrix (Fin p) (Fin k) ℝ}
    (hP : m.predict (ofM z) = ok (ofM P)) (hP' : m'.predict (ofM (T p z)) = ok (ofM P')) (i j : Fin p) :
    normSq (P' i - P' j) = c ^ 2 * normSq (P i - P j) := by
  obtain ⟨R, r1, -, r3⟩ := h
  obtain ⟨P₀, p1, p2⟩ := r3 p z
  have e1 : P = P₀ := by
    rw [← toM_ofM P, ← toM_ofM P₀]
    have := hP.symm.trans p1
    injection this with this
    rw [this]; rfl
  have e2 : P' = c • (P₀ * R) := by
    rw [← toM_ofM P', ← toM_ofM (c • (P₀ * R))]
    have := hP'.symm.trans p2
    injection this with this
    rw [this]; rfl
  subst e1 e2
  have e3 : (c • (P * R)) i - (c • (P * R)) j = c • ((P i - P j) ᵥ* R) := by
    rw [Matrix.sub_vecMul, smul_sub]
    rfl
  rw [e3, normSq, normSq, dotProduct_smul, smul_dotProduct, smul_eq_mul, smul_eq_mul, ← mul_assoc, ← sq]
  congr 1
  rw [← Matrix.dotProduct_mulVec, ← Matrix.mulVec_transpose, Matrix.mulVec_mulVec, r1, Matrix.one_mulVec]

theorem first_gram {A : Matrix (Fin n) (Fin d) ℝ} {σ : Fin d → ℝ} {U : Matrix (Fin n) (Fin d) ℝ} {V : Matrix (Fin d) (Fin d) ℝ}
    (h : IsSvd A (Matrix.diagonal σ) U V) {k : ℕ} (hk : k ≤ d) :
    (A * V.submatrix id (Fin.castLE hk))ᵀ * (A * V.submatrix id (Fin.castLE hk)) = Matrix.diagonal fun i => σ (Fin.castLE hk i) ^ 2 := by
  have e : (A * V)ᵀ * (A * V) = Matrix.diagonal fun i => σ i ^ 2 := by
    rw [Matrix.transpose_mul, Matrix.mul_assoc, ← Matrix.mul_assoc Aᵀ, gram_eigen h, ← Matrix.mul_assoc, h.right, Matrix.one_mul]
  ext a b
  have := congrFun (congrFun e (Fin.castLE hk a)) (Fin.castLE hk b)
  rw [Matrix.mul_apply, Matrix.diagonal_apply] at this
  rw [Matrix.mul_apply, Matrix.diagonal_apply]
  simp only [(Fin.castLE_injective hk).eq_iff] at this
  exact this

theorem ok_ofM_inj {p q : ℕ} {M N : Matrix (Fin p) (Fin q) ℝ} (h : (ok (ofM M) : Outcome (Mat ℝ)) = ok (ofM N)) : M = N := by
  injection h with h
  rw [← toM_ofM M, h, toM_ofM]

/-- **C103 (variances).** The sums of squares of the projected columns of the training data are multiplied by `c²`, whether or not the
singular values are different. -/
theorem C103_variances (hs : SvdExact svd) (hs' : SvdExact svd') {m m1 m2 : Pca ℝ} (hm : m.Fresh) (x : Matrix (Fin n) (Fin d) ℝ)
    (hnd : d ≤ n) {c : ℝ} (hc : 0 < c) {O : Matrix (Fin d) (Fin d) ℝ} (hO : O * Oᵀ = 1) (b : Fin d → ℝ) (hb : m.center = true ∨ b = 0)
    (h1 : m.train svd (ofM x) = ok m1) (h2 : m.train svd' (ofM (movedRows (c • O) b x)) = ok m2) :
    ∃ P P' : Matrix (Fin n) (Fin (asked m.n d)) ℝ, m1.predict (ofM x) = ok (ofM P) ∧
      m2.predict (ofM (movedRows (c • O) b x)) = ok (ofM P') ∧ P'ᵀ * P' = c ^ 2 • (Pᵀ * P) := by
  obtain ⟨hk, σ₁, U, V, a1, a2⟩ := pca_tall hs hm (ofM_shape x) hnd h1
  obtain ⟨_, σ₂, U', V', b1, b2⟩ := pca_tall hs' hm (ofM_shape _) hnd h2
  rw [toM_ofM] at a1 a2 b1 b2
  refine ⟨_, _, a2 n x, b2 n _, ?_⟩
  rw [first_gram a1 hk, first_gram b1 hk]
  rw [minusMeans_moved _ c O b hb hnd] at b1
  have hval := singular_values a1 b1 hc hO (gram_of_moved c O)
  rw [← Matrix.diagonal_smul]
  congr 1
  funext i
  rw [hval, mul_pow]
  rfl

/-- **C103 (projecting again).** A second model trained on the projections of the training data and asked for no more components than
they have columns keeps their first columns, up to an orthogonal matrix that mixes only columns with equal singular values. The second
model may centre or not if the first one centres; otherwise it must not. -/
theorem C103_again (hs : SvdExact svd) (hs' : SvdExact svd') {m m1 : Pca ℝ} (hm : m.Fresh) (x : Matrix (Fin n) (Fin d) ℝ) (hnd : d ≤ n)
    (h1 : m.train svd (ofM x) = ok m1) {P : Matrix (Fin n) (Fin (asked m.n d)) ℝ} (hP : m1.predict (ofM x) = ok (ofM P))
    {l l2 : Pca ℝ} (hl : l.Fresh) (hcen : m.center = true ∨ l.center = false) (h2 : l.train svd' (ofM P) = ok l2) :
    ∃ (hk : asked m.n d ≤ d) (hj : asked l.n (asked m.n d) ≤ asked m.n d), ∀ σ : Fin d → ℝ,
      HasSingularValues (minusMeans m.center x x) σ → Separated (fun i => σ (Fin.castLE hk i)) (asked l.n (asked m.n d)) →
      ∃ R : Matrix (Fin (asked l.n (asked m.n d))) (Fin (asked l.n (asked m.n d))) ℝ, R * Rᵀ = 1 ∧
        (∀ i j, σ (Fin.castLE (hj.trans hk) i) ≠ σ (Fin.castLE (hj.trans hk) j) → R i j = 0) ∧
        ∀ (p : ℕ) (Z : Matrix (Fin p) (Fin (asked m.n d)) ℝ), l2.predict (ofM Z) = ok (ofM (Z.submatrix id (Fin.castLE hj) * R)) := by
  obtain ⟨hk, σ₁, U, V, a1, a2⟩ := pca_tall hs hm (ofM_shape x) hnd h1
  rw [toM_ofM] at a1 a2
  have hPe := ok_ofM_inj (hP.symm.trans (a2 n x))
  obtain ⟨hj, σ₂, U', V', b1, b2⟩ := pca_tall hs' hl (ofM_shape P) (hk.trans hnd) h2
  rw [toM_ofM] at b1 b2
  refine ⟨hk, hj, ?_⟩
  rintro σ ⟨U₀, V₀, h0⟩ hsep
  have hσ : σ₁ = σ := by
    funext i
    have := singular_values (O := 1) (q := 1) h0 a1 one_pos (by simp) (by simp) i
    rwa [one_mul] at this
  subst hσ
  -- the projections have mean zero, or the second model does not look at their means
  have hmean : ∀ {p : ℕ} (Z : Matrix (Fin p) (Fin (asked m.n d)) ℝ), minusMeans l.center P Z = Z := by
    intro p Z
    ext i j
    cases hlc : l.center with
    | false => simp [minusMeans]
    | true =>
      have hmc : m.center = true := by
        rcases hcen with h | h
        · exact h
        · rw [h] at hlc; cases hlc
      have hn : (n : ℝ) ≠ 0 := by
        have := j.2
        exact_mod_cast (by omega : n ≠ 0)
      have hzero : ∑ i, P i j = 0 := by
        rw [hPe]
        simp only [Matrix.mul_apply]
        rw [Finset.sum_comm]
        refine Finset.sum_eq_zero fun a _ => ?_
        rw [← Finset.sum_mul]
        have : ∑ i, minusMeans m.center x x i a = 0 := by
          simp only [minusMeans, Matrix.of_apply, hmc, if_true]
          rw [Finset.sum_sub_distrib, Finset.sum_const, Finset.card_univ, Fintype.card_fin, nsmul_eq_mul, mul_div_cancel₀ _ hn, sub_self]
        rw [this, zero_mul]
      simp [minusMeans, hzero]
  rw [hmean] at b1
  -- the projections have the identity as their right singular vectors
  have hPsvd : IsSvd P (Matrix.diagonal fun i => σ₁ (Fin.castLE hk i)) (U.submatrix id (Fin.castLE hk)) 1 := by
    refine ⟨?_, submatrix_orthonormal a1.left _ (Fin.castLE_injective _), by simp, ?_⟩
    · rw [hPe, Matrix.transpose_one, Matrix.mul_one]
      have hAV : minusMeans m.center x x * V = U * Matrix.diagonal σ₁ := by
        conv_lhs => rw [a1.product]
        rw [Matrix.mul_assoc, a1.right, Matrix.mul_one]
      ext i j
      have := congrFun (congrFun hAV i) (Fin.castLE hk j)
      rw [Matrix.mul_diagonal] at this
      rw [Matrix.mul_diagonal]
      exact this
    · obtain ⟨s, e, h3, h4⟩ := a1.values
      have hs1 : σ₁ = s := by
        funext i
        have := congrFun (congrFun e i) i
        rwa [Matrix.diagonal_apply_eq, Matrix.diagonal_apply_eq] at this
      subst hs1
      exact ⟨_, rfl, fun i j hij => h3 hij, fun i => h4 _⟩
  obtain ⟨R, r1, r2, r3⟩ := singular_vectors (O := 1) (q := 1) hPsvd b1 one_pos (by simp) (by simp) hj hsep
  refine ⟨R, r1, r2, fun p Z => ?_⟩
  rw [b2, hmean, r3]
  congr 2
  rw [Matrix.one_mul, ← Matrix.mul_assoc]
  congr 1
  ext i j
  simp [Matrix.mul_apply, Matrix.one_apply]

/-- **C103 (fewer components).** A model asked for `k` components projects on the first `k` components of a model asked for more, or for all
of them, with whatever arithmetic. -/
theorem C103_prefix {F : Type} [Scalar F] {svd : Mat F → Outcome (Mat F × Mat F × Mat F)} {k : ℕ} {center : Bool} {N : Option ℕ}
    (hN : ∀ l, N = some l → k ≤ l) {X : Mat F} (hX : X.cols ≤ X.rows.length) {m1 m2 : Pca F}
    (h1 : (⟨some k, center, none, none, none, false⟩ : Pca F).train svd X = ok m1)
    (h2 : (⟨N, center, none, none, none, false⟩ : Pca F).train svd X = ok m2) {Z P : Mat F} (hP : m2.predict Z = ok P) :
    m1.predict Z = ok ⟨k, P.rows.map fun r => r.take k⟩ := by
  have hw : ¬ X.rows.length < X.cols := by omega
  rw [Pca.train] at h1 h2
  split at h1
  · cases h1
  split at h2
  · cases h2
  obtain ⟨⟨D, cs⟩, d1, h1⟩ := bind_eq_ok.mp h1
  obtain ⟨⟨D', cs'⟩, d2, h2⟩ := bind_eq_ok.mp h2
  have hD : (⟨some k, center, none, none, none, false⟩ : Pca F).prepare X = (⟨N, center, none, none, none, false⟩ : Pca F).prepare X := rfl
  rw [hD, d2] at d1
  cases d1
  obtain ⟨⟨B, U, V⟩, s1, h1⟩ := bind_eq_ok.mp h1
  obtain ⟨⟨B', U', V'⟩, s2, h2⟩ := bind_eq_ok.mp h2
  rw [s1] at s2
  cases s2
  obtain ⟨K, k1, h1⟩ := bind_eq_ok.mp h1
  obtain ⟨K', k2, h2⟩ := bind_eq_ok.mp h2
  simp only [hw, decide_false, Bool.false_eq_true, if_false] at h1 h2 k1 k2
  cases h1
  cases h2
  rw [selectComponents, firstCols] at k1
  split at k1
  case isFalse => cases k1
  rename_i hkV
  cases k1
  have hK' : k ≤ K'.cols ∧ K'.rows.length = V.rows.length ∧ ∀ j < k, colOf (V.rows.map fun r => r.take k) j = colOf K'.rows j := by
    cases hNe : N with
    | none =>
      rw [hNe, selectComponents] at k2
      cases k2
      refine ⟨hkV, rfl, fun j hj => ?_⟩
      simp only [colOf, List.filterMap_map]
      refine List.filterMap_congr fun r _ => ?_
      simp [hj]
    | some l =>
      have hkl := hN l hNe
      rw [hNe, selectComponents, firstCols] at k2
      split at k2
      case isFalse => cases k2
      cases k2
      refine ⟨hkl, by simp, fun j hj => ?_⟩
      simp only [colOf, List.filterMap_map]
      refine List.filterMap_congr fun r _ => ?_
      simp [hj, lt_of_lt_of_le hj hkl]
  obtain ⟨e1, e2, e3⟩ := hK'
  have hmul : ∀ E P : Mat F, E.mul K' = ok P → E.mul ⟨k, V.rows.map fun r => r.take k⟩ = ok ⟨k, P.rows.map fun r => r.take k⟩ := by
    intro E P hE
    rw [Mat.mul] at hE ⊢
    split at hE
    · rename_i hc
      cases hE
      rw [if_pos (by rw [hc, e2]; simp)]
      simp only [List.map_map]
      congr 2
      refine List.map_congr_left fun r _ => ?_
      simp only [Function.comp, ← List.map_take, List.take_range, min_eq_left e1]
      exact List.map_congr_left fun j hj => by rw [e3 j (List.mem_range.mp hj)]
    · cases hE
  unfold Pca.predict at hP ⊢
  simp only [Pca.project, Bool.false_eq_true, if_false] at hP ⊢
  split at hP
  · cases hP
  rename_i hc
  rw [if_neg hc]
  cases center with
  | false =>
    simp only [Bool.false_eq_true, if_false] at hP ⊢
    exact hmul _ _ hP
  | true =>
    simp only [if_true] at hP ⊢
    cases cs with
    | none => cases hP
    | some cs =>
      simp only at hP ⊢
      obtain ⟨E, f1, f2⟩ := bind_eq_ok.mp hP
      rw [f1, ok_bind]
      exact hmul _ _ f2

/-- Four samples with two columns, of variances 8 and 2. -/
def crossData : Matrix (Fin 4) (Fin 2) ℝ := !![2, 0; -2, 0; 0, 1; 0, -1]

theorem crossData_values : HasSingularValues (minusMeans true crossData crossData) ![Real.sqrt 8, Real.sqrt 2] := by
  have h8 : Real.sqrt 8 = 2 * Real.sqrt 2 := by
    rw [show (8 : ℝ) = 2 ^ 2 * 2 by norm_num, Real.sqrt_mul (by norm_num), Real.sqrt_sq (by norm_num)]
  have h2 : Real.sqrt 2 * Real.sqrt 2 = 2 := Real.mul_self_sqrt (by norm_num)
  have h0 : Real.sqrt 2 ≠ 0 := by positivity
  have hi : (Real.sqrt 2)⁻¹ * (Real.sqrt 2)⁻¹ = 1 / 2 := by rw [← mul_inv, h2]; norm_num
  have hc : minusMeans true crossData crossData = crossData := by
    have hz : ∀ j, ∑ l, crossData l j = 0 := by
      intro j
      fin_cases j <;> simp [Fin.sum_univ_succ, crossData]
    ext i j
    simp [minusMeans, hz]
  refine ⟨!![(Real.sqrt 2)⁻¹, 0; -(Real.sqrt 2)⁻¹, 0; 0, (Real.sqrt 2)⁻¹; 0, -(Real.sqrt 2)⁻¹], 1, ?_, ?_, ?_, _, rfl, ?_, ?_⟩
  · rw [hc, Matrix.transpose_one, Matrix.mul_one]
    ext i j
    rw [Matrix.mul_diagonal]
    fin_cases i <;> fin_cases j <;> simp [crossData, h8] <;> field_simp
  · ext i j
    rw [Matrix.mul_apply, Fin.sum_univ_four]
    fin_cases i <;> fin_cases j <;> simp [hi] <;> norm_num
  · simp
  · intro i j hij
    fin_cases i <;> fin_cases j <;> simp_all
  · intro i
    fin_cases i <;> simp

theorem crossData_injective : Function.Injective ![Real.sqrt 8, Real.sqrt 2] := by
  have h : Real.sqrt 2 < Real.sqrt 8 := Real.sqrt_lt_sqrt (by norm_num) (by norm_num)
  intro i j hij
  fin_cases i <;> fin_cases j <;> simp_all

/-- A quarter turn. -/
def turnLeft : Matrix (Fin 2) (Fin 2) ℝ := !![0, -1; 1, 0]

theorem crossData_train (M : Matrix (Fin 4) (Fin 2) ℝ) : ∃ m', (Pca.new 1 true).train someSvd (ofM M) = ok m' := by
  have t := C56_train someSvd_exact someSvd_total (Pca.new 1 true) (X := ofM M) (by
    intro r hr
    rw [(ofM_shape M).2.1]
    exact (ofM_shape M).2.2 r hr)
  rwa [if_neg] at t
  rintro ⟨k, h1, h2⟩
  cases h1
  rw [(ofM_shape M).2.1] at h2
  omega

/-- The hypotheses of `C103_moved`, `C103_signs` and `C103_distances` are met: one component of four samples, a quarter turn, the unit
divided by three and a shift. The projections are three times as large, up to the sign. -/
example : ∃ m1 m2, (Pca.new 1 true).train someSvd (ofM crossData) = ok m1 ∧
    (Pca.new 1 true).train someSvd (ofM (movedRows ((3 : ℝ) • turnLeft) ![5, 7] crossData)) = ok m2 ∧
    ∃ s : Fin 1 → ℝ, (∀ j, s j = 1 ∨ s j = -1) ∧ ∀ (p : ℕ) (z : Matrix (Fin p) (Fin 2) ℝ), ∃ P : Matrix (Fin p) (Fin 1) ℝ,
      m1.predict (ofM z) = ok (ofM P) ∧
      m2.predict (ofM (movedRows ((3 : ℝ) • turnLeft) ![5, 7] z)) = ok (ofM (Matrix.of fun i j => 3 * s j * P i j)) := by
  obtain ⟨m1, h1⟩ := crossData_train crossData
  obtain ⟨m2, h2⟩ := crossData_train (movedRows ((3 : ℝ) • turnLeft) ![5, 7] crossData)
  refine ⟨m1, m2, h1, h2, ?_⟩
  obtain ⟨hk, h⟩ := C103_moved someSvd_exact someSvd_exact (Or.inr ⟨1, true, rfl⟩) crossData (by norm_num) (c := 3) (by norm_num)
    (O := turnLeft) (by ext i j; fin_cases i <;> fin_cases j <;> simp [turnLeft, Matrix.mul_apply]) ![5, 7] (Or.inl rfl) h1 h2
  exact C103_signs crossData_injective (h _ crossData_values fun i j hi hj => by
    intro e
    have := crossData_injective e
    subst this
    omega)

/-- The hypotheses of `C103_copies` are met: every sample twice, in another order. -/
example : ∃ (f : Fin 8 → Fin 4), (∀ i, (Finset.univ.filter fun l => f l = i).card = 2) ∧ f ≠ fun l => ⟨l / 2, by omega⟩ :=
  ⟨fun l => ⟨3 - l % 4, by omega⟩, by decide, by decide⟩

theorem train_any (m : Pca ℝ) {p q : ℕ} (hn : asked m.n q ≤ q) (M : Matrix (Fin p) (Fin q) ℝ) : ∃ m', m.train someSvd (ofM M) = ok m' := by
  have t := C56_train someSvd_exact someSvd_total m (X := ofM M) (by
    intro r hr
    rw [(ofM_shape M).2.1]
    exact (ofM_shape M).2.2 r hr)
  rwa [if_neg] at t
  rintro ⟨k, h1, h2⟩
  rw [(ofM_shape M).2.1] at h2
  rw [asked, h1] at hn
  simp only [Option.getD_some] at hn
  omega

/-- The hypotheses of `C103_again` are met: both components of four samples, then both components of their projections, with another
model. -/
example : ∃ m1 P l2, (Pca.new 2 true).train someSvd (ofM crossData) = ok m1 ∧ m1.predict (ofM crossData) = ok (ofM (P : Matrix (Fin 4) (Fin 2) ℝ)) ∧
    Pca.default.train someSvd (ofM P) = ok l2 ∧ ∃ R : Matrix (Fin 2) (Fin 2) ℝ, R * Rᵀ = 1 ∧ R 0 1 = 0 ∧ R 1 0 = 0 ∧
      ∀ (p : ℕ) (Z : Matrix (Fin p) (Fin 2) ℝ), l2.predict (ofM Z) = ok (ofM (Z * R)) := by
  obtain ⟨m1, h1⟩ := train_any (Pca.new 2 true) (le_refl 2) crossData
  obtain ⟨_, σ, U, V, -, h2⟩ := pca_tall someSvd_exact (Or.inr ⟨2, true, rfl⟩) (ofM_shape crossData) (by norm_num) h1
  obtain ⟨l2, h3⟩ := train_any Pca.default (le_refl 2) (minusMeans true (toM 4 2 (ofM crossData)) crossData * V.submatrix id (Fin.castLE (le_refl 2)))
  refine ⟨m1, _, l2, h1, h2 4 crossData, h3, ?_⟩
  obtain ⟨hk, hj, h⟩ := C103_again someSvd_exact someSvd_exact (Or.inr ⟨2, true, rfl⟩) crossData (by norm_num) h1 (h2 4 crossData)
    (Or.inl rfl) (Or.inl rfl) h3
  obtain ⟨R, r1, r2, r3⟩ := h _ crossData_values fun i j hi hj => absurd j.2 (not_lt.mpr hj)
  have hlt : Real.sqrt 2 < Real.sqrt 8 := Real.sqrt_lt_sqrt (by norm_num) (by norm_num)
  exact ⟨R, r1, r2 (0 : Fin 2) (1 : Fin 2) hlt.ne', r2 (1 : Fin 2) (0 : Fin 2) hlt.ne, r3⟩

end RM
