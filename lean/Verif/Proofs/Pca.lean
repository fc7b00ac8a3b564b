import Verif.Spec.Pca
import Verif.Proofs.ToMatrix
import Verif.Proofs.RealMat
import Verif.Proofs.KMeans

/-! Principal component analysis. -/

namespace RM
open Outcome Scalar Spec Matrix

theorem wf_shape {X : Mat ℝ} (h : X.WF) : HasShape X X.rows.length X.cols := ⟨rfl, rfl, h⟩

theorem centering_toM {Z : Mat ℝ} {s c : ℕ} (hZ : HasShape Z s c) {cs : List ℝ} (hc : cs.length = c) :
    ∃ D, centering Z cs = ok D ∧ HasShape D s c ∧ toM s c D = Matrix.of fun (i : Fin s) (j : Fin c) => ent Z i j - cs.getD j 0 := by
  obtain ⟨h1, h2, h3⟩ := hZ
  have hn : ¬(cs.length < Z.cols ∧ Z.rows ≠ []) := by rw [hc, h2]; omega
  refine ⟨⟨Z.cols, Z.rows.map fun r => List.zipWith Scalar.sub r cs⟩, by rw [centering, if_neg hn], ⟨by simp [h1], h2, ?_⟩, ?_⟩
  · intro row hr
    simp only [List.mem_map] at hr
    obtain ⟨r, hr, rfl⟩ := hr
    simp [h3 r hr, hc]
  · ext i j
    have hi : (i : ℕ) < Z.rows.length := by rw [h1]; exact i.2
    have hl : (Z.rows[(i : ℕ)]).length = c := h3 _ (List.getElem_mem hi)
    have hj1 : (j : ℕ) < (Z.rows[(i : ℕ)]).length := by rw [hl]; exact j.2
    have hj2 : (j : ℕ) < cs.length := by rw [hc]; exact j.2
    simp only [toM_apply, ent, Matrix.of_apply, List.getD_eq_getElem?_getD, List.getElem?_map, List.getElem?_eq_getElem hi,
      Option.map_some, Option.getD_some, List.getElem?_zipWith, List.getElem?_eq_getElem hj1, List.getElem?_eq_getElem hj2]
    rfl

theorem meanRow_getD {X : Mat ℝ} (hX : X.WF) (j : ℕ) (hj : j < X.cols) : X.meanRow.getD j 0 = mean (col X j) := by
  rw [meanRow_real X hX, getD_map_range _ _ _ hj]

theorem meanRow_len {X : Mat ℝ} (hX : X.WF) : X.meanRow.length = X.cols := by
  rw [meanRow_real X hX]; simp

theorem centering_centred {X Z : Mat ℝ} (hX : X.WF) (hZ : HasShape Z Z.rows.length X.cols) :
    ∃ D, centering Z X.meanRow = ok D ∧ HasShape D Z.rows.length X.cols ∧ toM Z.rows.length X.cols D = centred true X Z := by
  obtain ⟨D, h1, h2, h3⟩ := centering_toM hZ (meanRow_len hX)
  refine ⟨D, h1, h2, ?_⟩
  rw [h3]
  ext i j
  simp only [centred, Matrix.of_apply, if_true, meanRow_getD hX j j.2]
  rfl

theorem centred_false {X Z : Mat ℝ} : centred false X Z = toM Z.rows.length X.cols Z := by
  ext i j
  simp [centred, toM_apply, ent]

theorem firstCols_toM {V : Mat ℝ} {c q k : ℕ} (hV : HasShape V c q) (hk : k ≤ q) :
    ∃ K, firstCols k V = ok K ∧ HasShape K c k ∧ toM c k K = (toM c q V).submatrix id (Fin.castLE hk) := by
  obtain ⟨h1, h2, h3⟩ := hV
  refine ⟨⟨k, V.rows.map fun r => r.take k⟩, by rw [firstCols, if_pos (by omega)], ⟨by simp [h1], rfl, ?_⟩, ?_⟩
  · intro row hr
    simp only [List.mem_map] at hr
    obtain ⟨r, hr, rfl⟩ := hr
    simp [h3 r hr, hk]
  · ext i j
    have hi : (i : ℕ) < V.rows.length := by rw [h1]; exact i.2
    simp [toM_apply, ent, Matrix.submatrix_apply, List.getElem?_map, List.getElem?_eq_getElem hi,
      List.getElem?_take, j.2]

/-- What the preparation of the data computes. -/
theorem prepare_ok {m : Pca ℝ} {X : Mat ℝ} (hX : X.WF) :
    ∃ D, m.prepare X = ok (D, if m.center then some X.meanRow else m.centers) ∧ HasShape D X.rows.length X.cols ∧
      toM X.rows.length X.cols D = centred m.center X X := by
  cases hc : m.center with
  | false => exact ⟨X, by simp [Pca.prepare, hc], wf_shape hX, by rw [centred_false]⟩
  | true =>
    obtain ⟨D, h1, h2, h3⟩ := centering_centred hX (wf_shape hX)
    exact ⟨D, by simp [Pca.prepare, hc, h1], h2, h3⟩

/-- The parts of a successful training. -/
theorem train_parts {svd : Mat ℝ → Outcome (Mat ℝ × Mat ℝ × Mat ℝ)} (hs : SvdExact svd) {m m' : Pca ℝ} {X : Mat ℝ}
    (hX : X.WF) (h : m.train svd X = ok m') :
    tooManyComponents m.n X.cols = false ∧ ∃ B U V K, HasShape V X.cols (min X.rows.length X.cols) ∧
      IsSvd (centred m.center X X) B U (toM X.cols (min X.rows.length X.cols) V) ∧
      selectComponents m.n (if X.rows.length < X.cols then V.transpose else V) = ok K ∧
      m' = { m with
        centers := if m.center then some X.meanRow else m.centers
        inv := if X.rows.length < X.cols then true else m.inv
        components := some K
        nFeatures := some X.cols } := by
  rw [Pca.train] at h
  split at h
  · simp at h
  · rename_i ht
    refine ⟨by simpa using ht, ?_⟩
    obtain ⟨D, h1, h2, h3⟩ := prepare_ok (m := m) hX
    rw [h1] at h
    simp only [ok_bind] at h
    cases hsv : svd D with
    | ok t =>
      obtain ⟨B, U, V⟩ := t
      rw [hsv] at h
      simp only [expectOk, ok_bind, decide_eq_true_eq] at h
      obtain ⟨-, -, hV, hsvd⟩ := hs D B U V _ _ h2 hsv
      rw [h3] at hsvd
      cases hk : selectComponents m.n (if X.rows.length < X.cols then V.transpose else V) with
      | ok K =>
        rw [hk] at h
        simp only [ok_bind] at h
        injection h with h
        exact ⟨_, _, V, K, hV, hsvd, hk, h.symm⟩
      | err e => rw [hk] at h; simp at h
      | panic => rw [hk] at h; simp at h
      | ub => rw [hk] at h; simp at h
    | err e => rw [hsv] at h; simp [expectOk] at h
    | panic => rw [hsv] at h; simp [expectOk] at h
    | ub => rw [hsv] at h; simp [expectOk] at h

theorem kept_le (n : Option ℕ) (X : Mat ℝ) : keptComponents n X ≤ min X.rows.length X.cols := min_le_right _ _

/-- The stored components are the first right singular vectors. -/
theorem pca_components {m : Pca ℝ} {X V K : Mat ℝ} (hp : Projectable m.n X) (ht : tooManyComponents m.n X.cols = false)
    (hV : HasShape V X.cols (min X.rows.length X.cols))
    (hK : selectComponents m.n (if X.rows.length < X.cols then V.transpose else V) = ok K) (p : ℕ)
    (hpk : p = keptComponents m.n X) (hle : p ≤ min X.rows.length X.cols) :
    if X.rows.length < X.cols then
      HasShape K p X.cols ∧ toM p X.cols K = ((toM X.cols (min X.rows.length X.cols) V).submatrix id (Fin.castLE hle))ᵀ
    else HasShape K X.cols p ∧ toM X.cols p K = (toM X.cols (min X.rows.length X.cols) V).submatrix id (Fin.castLE hle) := by
  by_cases hw : X.rows.length < X.cols
  · rw [if_pos hw] at hK ⊢
    obtain ⟨hT, hT'⟩ := transpose_toM hV
    have hpq : p = min X.rows.length X.cols := by
      rcases hp with h | h | h
      · omega
      · simp [hpk, keptComponents, h]
      · simp [hpk, keptComponents, h]
    have hKV : HasShape K (min X.rows.length X.cols) X.cols ∧
        toM (min X.rows.length X.cols) X.cols K = (toM X.cols (min X.rows.length X.cols) V)ᵀ := by
      rcases hp with h | h | h
      · omega
      · rw [h, selectComponents] at hK
        injection hK with hK
        rw [← hK]
        exact ⟨hT, hT'⟩
      · rw [h, selectComponents] at hK
        obtain ⟨K', h1, h2, h3⟩ := firstCols_toM hT (le_refl X.cols)
        rw [h1] at hK
        injection hK with hK
        rw [← hK]
        exact ⟨h2, by rw [h3, hT']; rfl⟩
    clear hpk
    subst hpq
    exact ⟨hKV.1, by rw [hKV.2]; rfl⟩
  · rw [if_neg hw] at hK ⊢
    have hmin : min X.rows.length X.cols = X.cols := by omega
    cases hn : m.n with
    | none =>
      rw [hn, selectComponents] at hK
      injection hK with hK
      have hpq : p = min X.rows.length X.cols := by simp [hpk, keptComponents, hn]
      clear hpk
      subst hpq
      rw [← hK]
      exact ⟨hV, rfl⟩
    | some k =>
      rw [hn, selectComponents] at hK
      have hkc : k ≤ X.cols := by
        rw [hn] at ht
        simpa [tooManyComponents] using ht
      have hpk' : p = k := by simp only [hpk, keptComponents, hn, Option.getD_some, hmin]; omega
      clear hpk
      subst hpk'
      obtain ⟨K', h1, h2, h3⟩ := firstCols_toM hV hle
      rw [h1] at hK
      injection hK with hK
      rw [← hK]
      exact ⟨h2, h3⟩

/-- Training and predicting: the projection on the first right singular vectors. -/
theorem pca_core {svd : Mat ℝ → Outcome (Mat ℝ × Mat ℝ × Mat ℝ)} (hs : SvdExact svd) {m m' : Pca ℝ} {X : Mat ℝ}
    (hX : X.WF) (hp : Projectable m.n X) (hinv : m.inv = false ∨ X.rows.length < X.cols) (h : m.train svd X = ok m') :
    ∃ (B : Matrix (Fin (min X.rows.length X.cols)) (Fin (min X.rows.length X.cols)) ℝ)
      (U : Matrix (Fin X.rows.length) (Fin (min X.rows.length X.cols)) ℝ)
      (V : Matrix (Fin X.cols) (Fin (min X.rows.length X.cols)) ℝ),
      IsSvd (centred m.center X X) B U V ∧
      (∃ K, m'.getComponents = ok K ∧
        if X.rows.length < X.cols then HasShape K (keptComponents m.n X) X.cols ∧
          toM (keptComponents m.n X) X.cols K = (V.submatrix id (Fin.castLE (kept_le m.n X)))ᵀ
        else HasShape K X.cols (keptComponents m.n X) ∧
          toM X.cols (keptComponents m.n X) K = V.submatrix id (Fin.castLE (kept_le m.n X))) ∧
      ∀ Z, HasShape Z Z.rows.length X.cols → ∃ P, m'.predict Z = ok P ∧ HasShape P Z.rows.length (keptComponents m.n X) ∧
        toM Z.rows.length (keptComponents m.n X) P = centred m.center X Z * V.submatrix id (Fin.castLE (kept_le m.n X)) := by
  obtain ⟨ht, B, U, V, K, hV, hsvd, hK, rfl⟩ := train_parts hs hX h
  have hc := pca_components hp ht hV hK _ rfl (kept_le m.n X)
  refine ⟨B, U, _, hsvd, ⟨K, rfl, hc⟩, ?_⟩
  intro Z hZ
  have hproj : ∀ D, HasShape D Z.rows.length X.cols → ∃ P,
      Pca.project { m with
        centers := if m.center then some X.meanRow else m.centers
        inv := if X.rows.length < X.cols then true else m.inv
        components := some K
        nFeatures := some X.cols } K D = ok P ∧ HasShape P Z.rows.length (keptComponents m.n X) ∧
      toM Z.rows.length (keptComponents m.n X) P = toM Z.rows.length X.cols D *
        (toM X.cols (min X.rows.length X.cols) V).submatrix id (Fin.castLE (kept_le m.n X)) := by
    intro D hD
    by_cases hw : X.rows.length < X.cols
    · rw [if_pos hw] at hc
      simp only [Pca.project, if_pos hw, if_true]
      obtain ⟨hT, hT'⟩ := transpose_toM hc.1
      obtain ⟨P, h1, h2, h3⟩ := mul_toM hD hT
      exact ⟨P, h1, h2, by rw [h3, hT', hc.2, Matrix.transpose_transpose]⟩
    · rw [if_neg hw] at hc
      have hi : m.inv = false := by
        rcases hinv with hi | hi
        · exact hi
        · exact absurd hi hw
      simp only [Pca.project, if_neg hw, hi]
      obtain ⟨P, h1, h2, h3⟩ := mul_toM hD hc.1
      exact ⟨P, h1, h2, by rw [h3, hc.2]⟩
  simp only [Pca.predict, hZ.2.1, ne_eq, not_true_eq_false, if_false]
  cases hcen : m.center with
  | false =>
    simp only [hcen, Bool.false_eq_true, if_false] at hproj ⊢
    obtain ⟨P, h1, h2, h3⟩ := hproj Z hZ
    exact ⟨P, h1, h2, by rw [h3, centred_false]⟩
  | true =>
    simp only [hcen, if_true] at hproj ⊢
    obtain ⟨D, d1, d2, d3⟩ := centering_centred hX hZ
    obtain ⟨P, h1, h2, h3⟩ := hproj D d2
    exact ⟨P, by rw [d1, ok_bind]; exact h1, h2, by rw [h3, d3]⟩

end RM
