import Verif.Props.NaiveBayesSmoothing

/-! Property C64: classes without training samples. Floats with NaN and infinities. -/

namespace RM
open Outcome Scalar Spec

/-! ### Training on finite data -/

theorem xr_findClass (t : List ℝ) : ∀ i : ℕ, findClass i (t.map XR.fin) = findClass i t := by
  induction t with
  | nil => intro i; rfl
  | cons x t ih =>
    intro i
    rw [List.map_cons, findClass, findClass, ih]
    simp

theorem xr_nbScan (T : List (List ℝ)) : ∀ (i : ℕ) (counts : List ℕ) (data : List (List ℕ)),
    nbScan i (T.map (List.map XR.fin)) counts data = nbScan i T counts data := by
  induction T with
  | nil => intro i counts data; rfl
  | cons t T ih =>
    intro i counts data
    rw [List.map_cons, nbScan, nbScan, xr_findClass]
    simp only [ih]

/-- Successful training on finite targets. -/
theorem xr_nbTrain_ok {D : Type} {B : NBDistr D XR} {m m' : NaiveBayes D XR} {X T : Mat ℝ} (hT : T.WF)
    (h : nbTrain B m (finMat X) (finMat T) = (m', ok ())) : (∀ t ∈ T.rows, classOf t ≠ none) ∧ ∃ d,
      nbFit B (finMat X) 0 ((List.range T.cols).map fun j => members j 0 (classesOf T.rows)) (B.fromParams T.cols X.cols) = (d, ok ()) ∧
      m'.distr = some d ∧ m'.clusterCount = some T.cols ∧
      m'.classPrior = some ((List.range T.cols).map fun c => Scalar.div (XR.fin (classSize T.rows c)) (XR.fin X.rows.length)) := by
  unfold nbTrain at h
  simp only at h
  rw [show (finMat T).rows = T.rows.map (List.map XR.fin) from rfl, xr_nbScan, show (finMat T).cols = T.cols from rfl,
    show (finMat X).cols = X.cols from rfl] at h
  by_cases hc : ∀ t ∈ T.rows, classOf t ≠ none
  · rw [nbScan_ok T.rows 0 T.cols _ _ (by simp) hT hc, classData_eq, foldl_modify_replicate] at h
    refine ⟨hc, ?_⟩
    simp only at h
    split at h
    · rename_i d _ hd
      simp only [Prod.mk.injEq, and_true] at h
      subst h
      refine ⟨d, hd, rfl, rfl, ?_⟩
      simp only [List.map_map]
      congr 1
      apply List.map_congr_left
      intro c _
      simp [count_classesOf, finMat]
    · simp at h
    · simp at h
    · simp at h
  · exfalso
    push Not at hc
    obtain ⟨counts', hs⟩ := nbScan_err T.rows 0 T.cols (List.replicate T.cols 0) (List.replicate T.cols []) (by simp) hT hc
    rw [hs] at h
    simp at h

theorem classSize_zero {T : List (List ℝ)} {c : ℕ} (h : classSize T c = 0) : members c 0 (classesOf T) = [] := by
  rw [members_eq_nil, ← List.count_eq_zero, count_classesOf]; exact h

/-! ### The scan of a row that starts with NaN -/

theorem argMax_nan (l : List XR) : ∀ i : ℕ, argAux (fun best x => Scalar.lt best x) XR.nan 0 i l = (0, XR.nan) := by
  induction l with
  | nil => intro i; rfl
  | cons a l ih =>
    intro i
    rw [argAux]
    have : (Scalar.lt XR.nan a : Bool) = false := by cases a <;> rfl
    rw [this]
    simp only [Bool.false_eq_true, if_false]
    exact ih _

/-- If the first entry of every row of joint log likelihoods is NaN, class 0 is predicted for every row. -/
theorem nbPredict_nan {D : Type} {B : NBDistr D XR} {m : NaiveBayes D XR} {Y L : Mat XR} {k : ℕ} (hk : 0 < k) (hm : m.clusterCount = some k)
    (hL : nbLogProbs B m Y = ok L) (hn : L.rows.length = Y.rows.length) (h : ∀ r ∈ L.rows, ∃ l, r = XR.nan :: l) :
    nbPredict B m Y = ok ⟨k, List.replicate Y.rows.length ((List.replicate k (.fin 0)).set 0 (.fin 1))⟩ := by
  unfold nbPredict
  rw [hL]
  simp only [ok_bind]
  rw [mapM_ok_map _ (fun _ => 0) L.rows]
  · simp only [ok_bind, hm]
    rw [mapM_ok_map _ (fun _ => (List.replicate k (XR.fin 0)).set 0 (.fin 1)) (L.rows.map fun _ => 0)]
    · simp only [ok_bind, List.map_map]
      have e : (L.rows.map ((fun _ => (List.replicate k (XR.fin 0)).set 0 (.fin 1)) ∘ fun _ => 0)) =
          List.replicate Y.rows.length ((List.replicate k (.fin 0)).set 0 (.fin 1)) := by
        rw [List.eq_replicate_iff]
        refine ⟨by simp [hn], ?_⟩
        intro b hb
        obtain ⟨_, _, rfl⟩ := List.mem_map.1 hb
        rfl
      rw [e]
      apply Mat.new_flatten (by simp)
      intro r hr
      rw [(List.mem_replicate.1 hr).2]; simp
    · intro c hc
      obtain ⟨_, _, rfl⟩ := List.mem_map.1 hc
      exact setAt_of_lt _ (by simpa using hk)
  · intro r hr
    obtain ⟨l, rfl⟩ := h r hr
    simp only [argmaxBy, argMax_nan, ok_bind]

/-! ### Gaussian -/

theorem xr_gaussUpdate_ok {F : Type} [Scalar F] {d d' : GaussD F} {M : Mat F} {c : ℕ} (h : gaussUpdate d M c = ok d') :
    ∃ v, v.length = M.cols ∧ c < d.theta.rows.length ∧ c < d.sigma.rows.length ∧
      d' = ⟨⟨d.theta.cols, d.theta.rows.set c M.meanRow⟩, ⟨d.sigma.cols, d.sigma.rows.set c v⟩⟩ := by
  unfold gaussUpdate at h
  cases hv : M.varianceRow with
  | ok v =>
    rw [hv] at h
    simp only at h
    obtain ⟨a, ha, h⟩ := bind_eq_ok.1 h
    obtain ⟨b, hb, h⟩ := bind_eq_ok.1 h
    obtain ⟨h1, rfl⟩ := setAt_eq_ok ha
    obtain ⟨h2, rfl⟩ := setAt_eq_ok hb
    cases h
    refine ⟨v, ?_, h1, h2, rfl⟩
    unfold Mat.varianceRow at hv
    split at hv
    · cases hv
    · cases hv; simp
  | err k => rw [hv] at h; simp at h
  | panic => rw [hv] at h; simp at h
  | ub => rw [hv] at h; simp at h

theorem xr_fsum_nan_of {l : List XR} {a : XR} (h : ∀ x ∈ l, Scalar.add a x = a) : l.foldl Scalar.add a = a := by
  induction l with
  | nil => rfl
  | cons x l ih => rw [List.foldl_cons, h x (by simp)]; exact ih fun y hy => h y (List.mem_cons_of_mem _ hy)

theorem xr_ln_zero : Scalar.ln (XR.fin 0) = XR.ninf := by
  change (if (0 : ℝ) < 0 then _ else _) = _
  simp

/-- The class-0 log likelihood of an unseen class is NaN at every finite row. -/
theorem gaussClassLik_unseen {k f : ℕ} (d : GaussD XR) (Y : Mat ℝ) (hY : Y.WF) (hYf : Y.cols = f) (hf : 0 < f) (h1 : IsTable k f d.theta) (h2 : IsTable k f d.sigma)
    (z1 : d.theta.rows[0]? = some (List.replicate f (.fin 0))) (z2 : d.sigma.rows[0]? = some (List.replicate f (.fin 0))) (p : XR) :
    gaussClassLik d (finMat Y) 0 p = ok (List.replicate Y.rows.length .nan) := by
  unfold gaussClassLik
  have e3 := selectRows_replicate d.sigma z2 1
  simp only [List.replicate_one] at e3
  rw [e3]
  simp only [ok_bind]
  rw [selectRows_replicate d.theta z1, selectRows_replicate d.sigma z2]
  simp only [ok_bind]
  have hcols : (finMat Y).cols = f := hYf
  have e := Mat.zip_replicate Scalar.sub (finMat Y) (List.replicate f (XR.fin 0))
  rw [hcols] at e
  rw [h1.1, h2.1, e]
  simp only [ok_bind]
  have e4 := Mat.zip_replicate Scalar.div (Mat.map (fun x : XR => x *. x) ⟨f, (finMat Y).rows.map fun r => List.zipWith Scalar.sub r (List.replicate f (XR.fin 0))⟩)
    (List.replicate f (XR.fin 0))
  simp only [Mat.map, List.length_map] at e4 ⊢
  rw [e4]
  simp only [ok_bind, Mat.sumCols, List.map_map, Mat.sum, Mat.data]
  congr 1
  rw [List.eq_replicate_iff]
  refine ⟨by simp [finMat], ?_⟩
  intro b hb
  obtain ⟨r, hr, rfl⟩ := List.mem_map.1 hb
  obtain ⟨y, hy, rfl⟩ := List.mem_map.1 hr
  have hnij : (Scalar.ofRat (-1 / 2) : XR) *. fsum ([List.replicate f (XR.fin 0)].map (List.map fun x => Scalar.ln ((x *. Scalar.ofRat 2) *. (ScalarPi.pi : XR)))).flatten = .pinf := by
    have e5 : ([List.replicate f (XR.fin 0)].map (List.map fun x => Scalar.ln ((x *. Scalar.ofRat 2) *. (ScalarPi.pi : XR)))).flatten = List.replicate f XR.ninf := by
      simp only [List.map_cons, List.map_nil, List.flatten_cons, List.flatten_nil, List.append_nil, List.map_replicate]
      congr 1
      show Scalar.ln ((XR.fin 0 *. XR.fin _) *. XR.fin Real.pi) = _
      rw [xr_mul, xr_mul, zero_mul, zero_mul, xr_ln_zero]
    rw [e5]
    have e6 : fsum (List.replicate f XR.ninf) = XR.ninf := by
      obtain ⟨f', rfl⟩ : ∃ f', f = f' + 1 := ⟨f - 1, by omega⟩
      unfold fsum
      rw [List.replicate_succ, List.foldl_cons]
      show List.foldl Scalar.add XR.ninf _ = _
      apply xr_fsum_nan_of
      intro x hx
      rw [(List.mem_replicate.1 hx).2]; rfl
    rw [e6]
    show XR.infOf (-((-1 / 2 : ℚ) : ℝ)) = _
    unfold XR.infOf
    rw [if_pos (by norm_num)]
  simp only [Function.comp]
  rw [hnij]
  -- the quadratic term is a sum of +inf and NaN
  set q := (List.zipWith Scalar.div (List.map (fun x : XR => x *. x) (List.zipWith Scalar.sub (List.map XR.fin y) (List.replicate f (XR.fin 0))))
    (List.replicate f (XR.fin 0))) with hq
  have hq1 : ∀ x ∈ q, x = .pinf ∨ x = .nan := by
    intro x hx
    rw [hq] at hx
    obtain ⟨i, hi, rfl⟩ := List.mem_iff_getElem.1 hx
    simp only [List.getElem_zipWith, List.getElem_map, List.getElem_replicate, xr_sub, xr_mul, xr_div_zero]
    unfold XR.infOf
    split
    · exact Or.inl rfl
    · rw [if_neg (not_lt.2 (mul_self_nonneg _))]
      exact Or.inr rfl
  have hqne : q ≠ [] := by
    rw [hq]
    have := hY y hy
    intro h
    have := congrArg List.length h
    simp at this
    rcases this with h | h
    · subst h; simp at *; omega
    · omega
  have hsum : fsum q = .pinf ∨ fsum q = .nan := by
    unfold fsum
    have key : ∀ (l : List XR) (a : XR), (a = .pinf ∨ a = .nan) → (∀ x ∈ l, x = .pinf ∨ x = .nan) → l.foldl Scalar.add a = .pinf ∨ l.foldl Scalar.add a = .nan := by
      intro l
      induction l with
      | nil => intro a ha _; exact ha
      | cons x l ih =>
        intro a ha hl
        rw [List.foldl_cons]
        apply ih
        · rcases ha with rfl | rfl <;> rcases hl x (by simp) with rfl | rfl
          · exact Or.inl rfl
          · exact Or.inr rfl
          · exact Or.inr rfl
          · exact Or.inr rfl
        · exact fun y hy => hl y (List.mem_cons_of_mem _ hy)
    cases hqq : q with
    | nil => exact absurd hqq hqne
    | cons x l =>
      rw [hqq] at hq1
      rw [List.foldl_cons]
      apply key
      · rcases hq1 x (by simp) with rfl | rfl
        · exact Or.inl rfl
        · exact Or.inr rfl
      · exact fun y hy => hq1 y (List.mem_cons_of_mem _ hy)
  rcases hsum with h | h
  · rw [h]
    have : Scalar.neg XR.pinf *. (Scalar.ofRat (1 / 2) : XR) = .ninf := by
      show XR.infOf (-((1 / 2 : ℚ) : ℝ)) = _
      unfold XR.infOf
      rw [if_neg (by norm_num), if_pos (by norm_num)]
    rw [this]
    rfl
  · rw [h]
    rfl

/-- The shape of a class's likelihoods. -/
theorem gaussClassLik_shape {F : Type} [Scalar F] [ScalarPi F] {k : ℕ} (d : GaussD F) (Y : Mat F) (h1 : IsTable k Y.cols d.theta) (h2 : IsTable k Y.cols d.sigma) {i : ℕ}
    (hi : i < k) (p : F) : ∃ l, gaussClassLik d Y i p = ok l ∧ l.length = Y.rows.length := by
  obtain ⟨th, e1⟩ : ∃ v, d.theta.rows[i]? = some v := ⟨_, List.getElem?_eq_getElem (by rw [h1.2.1]; exact hi)⟩
  obtain ⟨sg, e2⟩ : ∃ v, d.sigma.rows[i]? = some v := ⟨_, List.getElem?_eq_getElem (by rw [h2.2.1]; exact hi)⟩
  unfold gaussClassLik
  have e3 := selectRows_replicate d.sigma e2 1
  simp only [List.replicate_one] at e3
  rw [e3]
  simp only [ok_bind]
  rw [selectRows_replicate d.theta e1, selectRows_replicate d.sigma e2]
  simp only [ok_bind]
  rw [h1.1, h2.1, Mat.zip_replicate]
  simp only [ok_bind]
  have e4 := Mat.zip_replicate Scalar.div (Mat.map (fun x : F => x *. x) ⟨Y.cols, Y.rows.map fun r => List.zipWith Scalar.sub r th⟩) sg
  simp only [Mat.map, List.length_map] at e4 ⊢
  rw [e4]
  exact ⟨_, rfl, by simp [Mat.sumCols]⟩

theorem mapM_shape {α β : Type} {f : α → Outcome β} {P : β → Prop} : ∀ {l : List α}, (∀ a ∈ l, ∃ b, f a = ok b ∧ P b) →
    ∃ r, l.mapM f = ok r ∧ r.length = l.length ∧ ∀ b ∈ r, P b
  | [], _ => ⟨[], rfl, rfl, by simp⟩
  | a :: l, h => by
    obtain ⟨b, hb, hp⟩ := h a (by simp)
    obtain ⟨r, hr, hl, hP⟩ := mapM_shape fun x hx => h x (List.mem_cons_of_mem _ hx)
    refine ⟨b :: r, by rw [List.mapM_cons, hb, hr]; rfl, by simp [hl], ?_⟩
    intro x hx
    rcases List.mem_cons.1 hx with rfl | hx
    · exact hp
    · exact hP x hx

/-- C64 fails for Gaussian models: if class 0 has no training samples, class 0 is predicted for every input row. -/
theorem C64_gaussian_violation (m m' : NaiveBayes (GaussD XR) XR) (X T Y : Mat ℝ) (hT : T.WF) (hY : Y.WF) (hf : Y.cols = X.cols) (hf0 : 0 < X.cols)
    (hk : 0 < T.cols) (h0 : classSize T.rows 0 = 0) (h : nbTrain gaussDistr m (finMat X) (finMat T) = (m', ok ())) :
    nbPredict gaussDistr m' (finMat Y) = ok ⟨T.cols, List.replicate Y.rows.length ((List.replicate T.cols (.fin 0)).set 0 (.fin 1))⟩ := by
  obtain ⟨hc, d, hd, h1, h2, h3⟩ := xr_nbTrain_ok hT h
  have hinv : (IsTable T.cols X.cols d.theta ∧ IsTable T.cols X.cols d.sigma) ∧ d.theta.rows[0]? = some (List.replicate X.cols (.fin 0)) ∧
      d.sigma.rows[0]? = some (List.replicate X.cols (.fin 0)) := by
    obtain ⟨k', hk'⟩ : ∃ k', T.cols = k' + 1 := ⟨T.cols - 1, by omega⟩
    rw [hk', List.range_succ_eq_map, List.map_cons, nbFit, classSize_zero h0] at hd
    simp only [List.isEmpty_nil, if_true] at hd
    refine nbFit_inv (Inv := fun d : GaussD XR => (IsTable T.cols X.cols d.theta ∧ IsTable T.cols X.cols d.sigma) ∧
      d.theta.rows[0]? = some (List.replicate X.cols (.fin 0)) ∧ d.sigma.rows[0]? = some (List.replicate X.cols (.fin 0))) _ (0 + 1) _ d ?_ ?_ hd
    · intro d v M c d' hc hs hd hu
      obtain ⟨w, hw, _, _, rfl⟩ := xr_gaussUpdate_ok hu
      have hM : M.cols = X.cols := selectRows_cols hs
      refine ⟨⟨set_table hd.1.1 (by rw [meanRow_length, hM]), set_table hd.1.2 (by rw [hw, hM])⟩, ?_, ?_⟩
      · simp only; rw [List.getElem?_set_ne (by omega)]; exact hd.2.1
      · simp only; rw [List.getElem?_set_ne (by omega)]; exact hd.2.2
    · rw [← hk']
      have hz : (Mat.zeros T.cols X.cols : Mat XR).rows[0]? = some (List.replicate X.cols (.fin 0)) := by
        simp [Mat.zeros, hk]
      exact ⟨⟨zeros_table _ _, zeros_table _ _⟩, hz, hz⟩
  obtain ⟨⟨t1, t2⟩, z1, z2⟩ := hinv
  set prior := (List.range T.cols).map fun c => Scalar.div (XR.fin (classSize T.rows c)) (XR.fin X.rows.length) with hprior
  have hpl : prior.length = T.cols := by simp [hprior]
  have hfY : (finMat Y).cols = X.cols := hf
  have hnY : (finMat Y).rows.length = Y.rows.length := by simp [finMat]
  cases hp : prior with
  | nil => rw [hp] at hpl; simp at hpl; omega
  | cons p0 ps =>
    obtain ⟨rest, hr, hl, hP⟩ := mapM_shape (f := fun p : XR × ℕ => gaussClassLik d (finMat Y) p.2 p.1) (P := fun l => l.length = Y.rows.length)
      (l := ps.zipIdx 1) (by
        intro p hpm
        have : p.2 < T.cols := by
          have := List.snd_lt_add_of_mem_zipIdx hpm
          rw [← hpl, hp, List.length_cons]; omega
        obtain ⟨l, h1, h2⟩ := gaussClassLik_shape d (finMat Y) (k := T.cols) (by rw [hfY]; exact t1) (by rw [hfY]; exact t2) this p.1
        exact ⟨l, h1, by rw [h2, hnY]⟩)
    have hlp : nbLogProbs gaussDistr m' (finMat Y) = ok (⟨Y.rows.length, List.replicate Y.rows.length XR.nan :: rest⟩ : Mat XR).transpose := by
      unfold nbLogProbs
      rw [h1, h3, hp]
      show (do
        let liks ← (p0 :: ps).zipIdx.mapM fun (p : XR × ℕ) => gaussClassLik d (finMat Y) p.2 p.1
        let m ← Mat.new (p0 :: ps).length (finMat Y).rows.length liks.flatten
        ok m.transpose) = _
      rw [List.zipIdx_cons, List.mapM_cons, gaussClassLik_unseen d Y hY hf hf0 t1 t2 z1 z2 p0]
      simp only [ok_bind]
      rw [Nat.zero_add, hr]
      simp only [ok_bind, pure_eq]
      rw [hnY, Mat.new_flatten (rows := List.replicate Y.rows.length XR.nan :: rest) (c := Y.rows.length) (by simp [hl])]
      · rfl
      · intro r hr
        rcases List.mem_cons.1 hr with rfl | hr
        · simp
        · exact hP r hr
    have := nbPredict_nan hk h2 hlp (by simp [Mat.transpose, transposeRows, finMat]) (by
      intro r hr
      simp only [Mat.transpose, transposeRows, List.mem_map, List.mem_range] at hr
      obtain ⟨j, hj, rfl⟩ := hr
      exact ⟨rest.filterMap fun r => r[j]?, by simp [List.filterMap_cons, hj]⟩)
    rw [hnY] at this
    exact this

/-! ### Bernoulli -/

theorem xr_pinf_or_nan_foldl : ∀ (l : List XR) (a : XR), (a = .pinf ∨ a = .nan) → (∀ x ∈ l, x = .pinf ∨ x = .nan) →
    l.foldl Scalar.add a = .pinf ∨ l.foldl Scalar.add a = .nan
  | [], a, ha, _ => ha
  | x :: l, a, ha, hl => by
    rw [List.foldl_cons]
    apply xr_pinf_or_nan_foldl
    · rcases ha with rfl | rfl <;> rcases hl x (by simp) with rfl | rfl
      · exact Or.inl rfl
      · exact Or.inr rfl
      · exact Or.inr rfl
      · exact Or.inr rfl
    · exact fun y hy => hl y (List.mem_cons_of_mem _ hy)

theorem xr_dot_inf {y : List ℝ} {f : ℕ} (hl : y.length = f) (hf : 0 < f) (hy : ∀ v ∈ y, 0 ≤ v) :
    dot (y.map XR.fin) (List.replicate f XR.pinf) = .pinf ∨ dot (y.map XR.fin) (List.replicate f XR.pinf) = .nan := by
  unfold dot
  have hmem : ∀ x ∈ List.zipWith Scalar.mul (y.map XR.fin) (List.replicate f XR.pinf), x = .pinf ∨ x = .nan := by
    intro x hx
    obtain ⟨i, hi, rfl⟩ := List.mem_iff_getElem.1 hx
    simp only [List.getElem_zipWith, List.getElem_map, List.getElem_replicate]
    have hi' : i < y.length := by simp at hi; omega
    show XR.infOf y[i] = _ ∨ XR.infOf y[i] = _
    unfold XR.infOf
    split
    · exact Or.inl rfl
    · rw [if_neg (not_lt.2 (hy _ (List.getElem_mem hi')))]; exact Or.inr rfl
  unfold fsum
  generalize hq : List.zipWith Scalar.mul (y.map XR.fin) (List.replicate f XR.pinf) = q at hmem
  cases q with
  | nil =>
    have := congrArg List.length hq
    simp [hl] at this; omega
  | cons x l =>
    rw [List.foldl_cons]
    apply xr_pinf_or_nan_foldl
    · rcases hmem x (by simp) with rfl | rfl
      · exact Or.inl rfl
      · exact Or.inr rfl
    · exact fun y hy => hmem y (List.mem_cons_of_mem _ hy)

theorem filterMap_rows {F : Type} {M : Mat F} (hM : M.WF) {j : ℕ} (hj : j < M.cols) {r : List F} (h : r ∈ M.rows) : ∃ v, r[j]? = some v :=
  ⟨_, List.getElem?_eq_getElem (by rw [hM r h]; exact hj)⟩

/-- The transpose's column 0 is row 0 (any scalar type). -/
theorem colOf_transpose_zero {F : Type} {M : Mat F} {r0 : List F} (h0 : M.rows[0]? = some r0) (hr : r0.length = M.cols) :
    colOf M.transpose.rows 0 = r0 := by
  unfold Mat.transpose transposeRows colOf
  obtain ⟨rest, hrest⟩ : ∃ rest, M.rows = r0 :: rest := by
    cases hM : M.rows with
    | nil => rw [hM] at h0; simp at h0
    | cons a l => rw [hM] at h0; simp at h0; exact ⟨l, by rw [h0]⟩
  simp only [hrest, List.filterMap_map]
  apply List.ext_getElem?
  intro i
  have : ∀ (n : ℕ), n ≤ r0.length → (List.range n).filterMap ((fun r => r[0]?) ∘ fun j => (r0 :: rest).filterMap fun r => r[j]?) = r0.take n := by
    intro n
    induction n with
    | zero => intro _; simp
    | succ n ih =>
      intro hn
      have hlt : n < r0.length := by omega
      rw [List.range_succ, List.filterMap_append, ih (by omega), List.take_succ]
      congr 1
      simp [List.filterMap_cons, hlt]
  rw [← hr, this _ (le_refl _), List.take_length]

theorem xr_bernUpdate_ok {F : Type} [Scalar F] {d d' : LogProbsD F} {M : Mat F} {c : ℕ} (h : bernUpdate d M c = ok d') :
    ∃ v, v.length = M.cols ∧ d' = ⟨⟨d.logProbs.cols, d.logProbs.rows.set c v⟩, d.pseudo⟩ := by
  unfold bernUpdate at h
  obtain ⟨a, ha, h⟩ := bind_eq_ok.1 h
  obtain ⟨_, rfl⟩ := setAt_eq_ok ha
  cases h
  exact ⟨_, by simp [Mat.sumRows], rfl⟩

/-- C64 fails for Bernoulli models: if class 0 has no training samples, class 0 is predicted for every row of 0/1 (or any non-negative) entries. -/
theorem C64_bernoulli_violation (m m' : NaiveBayes (LogProbsD XR) XR) (X T Y : Mat ℝ) (hT : T.WF) (hY : Y.WF) (hf : Y.cols = X.cols) (hf0 : 0 < X.cols)
    (hk : 0 < T.cols) (hpos : ∀ y ∈ Y.rows, ∀ v ∈ y, 0 ≤ v) (h0 : classSize T.rows 0 = 0)
    (h : nbTrain bernDistr m (finMat X) (finMat T) = (m', ok ())) :
    nbPredict bernDistr m' (finMat Y) = ok ⟨T.cols, List.replicate Y.rows.length ((List.replicate T.cols (.fin 0)).set 0 (.fin 1))⟩ := by
  obtain ⟨hc, d, hd, h1, h2, h3⟩ := xr_nbTrain_ok hT h
  have hinv : IsTable T.cols X.cols d.logProbs ∧ d.logProbs.rows[0]? = some (List.replicate X.cols (.fin 0)) := by
    obtain ⟨k', hk'⟩ : ∃ k', T.cols = k' + 1 := ⟨T.cols - 1, by omega⟩
    rw [hk', List.range_succ_eq_map, List.map_cons, nbFit, classSize_zero h0] at hd
    simp only [List.isEmpty_nil, if_true] at hd
    refine nbFit_inv (Inv := fun d : LogProbsD XR => IsTable T.cols X.cols d.logProbs ∧
      d.logProbs.rows[0]? = some (List.replicate X.cols (.fin 0))) _ (0 + 1) _ d ?_ ?_ hd
    · intro d v M c d' hc hs hd hu
      obtain ⟨w, hw, rfl⟩ := xr_bernUpdate_ok hu
      have hM : M.cols = X.cols := selectRows_cols hs
      refine ⟨set_table hd.1 (by rw [hw, hM]), ?_⟩
      simp only; rw [List.getElem?_set_ne (by omega)]; exact hd.2
    · rw [← hk']
      exact ⟨zeros_table _ _, by simp [bernDistr, Mat.zeros, hk]⟩
  obtain ⟨t, z⟩ := hinv
  set prior := (List.range T.cols).map fun c => Scalar.div (XR.fin (classSize T.rows c)) (XR.fin X.rows.length) with hprior
  have hpl : prior.length = T.cols := by simp [hprior]
  have hp0 : prior[0]? = some (Scalar.div (XR.fin 0) (XR.fin X.rows.length)) := by simp [hprior, hk, h0]
  have hfY : (finMat Y).cols = X.cols := hf
  have hnY : (finMat Y).rows.length = Y.rows.length := by simp [finMat]
  set g : XR → XR := fun x => Scalar.ln (Scalar.one -. Scalar.exp x) with hg
  have hg0 : g (.fin 0) = .ninf := by
    show Scalar.ln (XR.fin 1 -. XR.fin (Real.exp 0)) = _
    rw [xr_sub, Real.exp_zero, sub_self, xr_ln_zero]
  set neg := d.logProbs.map g with hneg
  have hnt : neg.rows.length = T.cols ∧ neg.cols = X.cols ∧ neg.rows[0]? = some (List.replicate X.cols .ninf) := by
    refine ⟨by simp [hneg, Mat.map, t.2.1], t.1, ?_⟩
    simp only [hneg, Mat.map, List.getElem?_map, z, Option.map_some, List.map_replicate, hg0]
  have hzip : ∃ Z, Mat.zip Scalar.sub d.logProbs neg = ok Z ∧ Z.cols = X.cols ∧ Z.rows.length = T.cols ∧ Z.rows[0]? = some (List.replicate X.cols .pinf) := by
    refine ⟨⟨d.logProbs.cols, List.zipWith (List.zipWith Scalar.sub) d.logProbs.rows neg.rows⟩, ?_, t.1, ?_, ?_⟩
    · unfold Mat.zip; rw [if_pos ⟨by rw [t.2.1, hnt.1], by rw [t.1, hnt.2.1]⟩]
    · simp [t.2.1, hnt.1]
    · simp only [List.getElem?_zipWith, z, hnt.2.2]
      simp only [List.zipWith_replicate, min_self]
      rfl
  obtain ⟨Z, hZ, hZc, hZr, hZ0⟩ := hzip
  obtain ⟨per, hper, hpl', hper0⟩ : ∃ per, (prior.zipIdx.mapM fun (p : XR × ℕ) => do
      let s ← getAt neg.sumCols p.2
      ok (Scalar.ln p.1 +. s)) = ok per ∧ per.length = T.cols ∧ ∃ v, (v = .ninf ∨ v = .nan) ∧ per[0]? = some v := by
    have hs : ∀ i < T.cols, ∃ s, getAt neg.sumCols i = ok s := by
      intro i hi
      unfold getAt
      rw [List.getElem?_eq_getElem (by simp [Mat.sumCols, hnt.1, hi])]
      exact ⟨_, rfl⟩
    have hs0 : getAt neg.sumCols 0 = ok .ninf := by
      unfold getAt Mat.sumCols
      rw [List.getElem?_map, hnt.2.2]
      simp only [Option.map_some, ofOption]
      congr 1
      obtain ⟨f', hf'⟩ : ∃ f', X.cols = f' + 1 := ⟨X.cols - 1, by omega⟩
      rw [hf']
      unfold fsum
      rw [List.replicate_succ, List.foldl_cons]
      show List.foldl Scalar.add XR.ninf _ = _
      apply xr_fsum_nan_of
      intro x hx
      rw [(List.mem_replicate.1 hx).2]; rfl
    cases hp : prior with
    | nil => rw [hp] at hpl; simp at hpl; omega
    | cons p0 ps =>
      rw [hp] at hp0
      simp only [List.getElem?_cons_zero, Option.some.injEq] at hp0
      obtain ⟨rest, hr, hl, -⟩ := mapM_shape (f := fun (p : XR × ℕ) => do
        let s ← getAt neg.sumCols p.2
        ok (Scalar.ln p.1 +. s)) (P := fun _ => True) (l := ps.zipIdx 1) (by
          intro p hpm
          have : p.2 < T.cols := by
            have := List.snd_lt_add_of_mem_zipIdx hpm
            rw [← hpl, hp, List.length_cons]; omega
          obtain ⟨s, hs⟩ := hs p.2 this
          rw [hs]
          exact ⟨_, rfl, trivial⟩)
      refine ⟨(Scalar.ln p0 +. .ninf) :: rest, ?_, ?_, _, ?_, rfl⟩
      · rw [List.zipIdx_cons, List.mapM_cons]
        simp only [hs0, ok_bind]
        rw [Nat.zero_add, hr]
        rfl
      · rw [List.length_cons, hl, List.length_zipIdx, ← hpl, hp, List.length_cons]
      · rw [hp0]
        by_cases hx : X.rows.length = 0
        · right
          rw [hx]
          show Scalar.ln (Scalar.div (XR.fin 0) (XR.fin ((0 : ℕ) : ℝ))) +. _ = _
          rw [Nat.cast_zero, xr_div_zero]
          unfold XR.infOf
          simp only [lt_self_iff_false, if_false]
          rfl
        · left
          rw [xr_div _ _ (by exact_mod_cast hx), zero_div, xr_ln_zero]
          rfl
  have hlp : ∃ L, nbLogProbs bernDistr m' (finMat Y) = ok L ∧ L.rows.length = Y.rows.length ∧ ∀ r ∈ L.rows, ∃ l, r = XR.nan :: l := by
    refine ⟨⟨T.cols, (finMat Y).rows.map fun r => List.zipWith Scalar.add ((List.range T.cols).map fun j => dot r (colOf Z.transpose.rows j)) per⟩, ?_, by simp [finMat], ?_⟩
    · unfold nbLogProbs
      rw [h1, h3]
      show (do
        let diff ← Mat.zip Scalar.sub d.logProbs neg
        let res ← Mat.mul (finMat Y) diff.transpose
        let per ← prior.zipIdx.mapM fun (p : XR × ℕ) => do
          let s ← getAt neg.sumCols p.2
          ok (Scalar.ln p.1 +. s)
        addClassRow res (finMat Y).rows.length per) = _
      rw [hZ]
      simp only [ok_bind]
      have hmul : Mat.mul (finMat Y) Z.transpose = ok ⟨T.cols, (finMat Y).rows.map fun r => (List.range T.cols).map fun j => dot r (colOf Z.transpose.rows j)⟩ := by
        unfold Mat.mul
        rw [if_pos (by simp [Mat.transpose, transposeRows, hZc, hfY])]
        simp [Mat.transpose, hZr]
      rw [hmul]
      simp only [ok_bind]
      rw [hper]
      simp only [ok_bind]
      unfold addClassRow
      have hnew : Mat.new 1 per.length per = ok ⟨T.cols, [per]⟩ := by
        have := Mat.new_flatten (rows := [per]) (c := T.cols) (k := 1) rfl (by simpa using hpl')
        simp at this
        rw [hpl']; exact this
      rw [hnew]
      simp only [ok_bind]
      rw [selectRows_replicate (v := per) _ (by simp)]
      simp only [ok_bind]
      have hz := Mat.zip_replicate Scalar.add (⟨T.cols, (finMat Y).rows.map fun r => (List.range T.cols).map fun j => dot r (colOf Z.transpose.rows j)⟩ : Mat XR) per
      simp only [List.length_map, List.map_map] at hz
      exact hz
    · intro r hr
      simp only [finMat, List.map_map, List.mem_map] at hr
      obtain ⟨y, hy, rfl⟩ := hr
      obtain ⟨k', hk'⟩ : ∃ k', T.cols = k' + 1 := ⟨T.cols - 1, by omega⟩
      obtain ⟨v, hv, hv0⟩ := hper0
      cases per with
      | nil => simp at hv0
      | cons a ps =>
        simp only [List.getElem?_cons_zero, Option.some.injEq] at hv0
        subst hv0
        rw [hk', List.range_succ_eq_map]
        simp only [Function.comp, List.map_cons, List.zipWith_cons_cons]
        refine ⟨_, congrArg₂ _ ?_ rfl⟩
        rw [colOf_transpose_zero hZ0 (by rw [List.length_replicate, hZc])]
        rcases xr_dot_inf (y := y) (f := X.cols) (by rw [hY y hy, hf]) hf0 (hpos y hy) with e | e <;> rw [e] <;> rcases hv with rfl | rfl <;> rfl
  obtain ⟨L, hL, hLn, hLr⟩ := hlp
  have := nbPredict_nan hk h2 hL (by rw [hLn, hnY]) hLr
  rw [hnY] at this
  exact this

/-! ### Multinomial -/

theorem argAux_index {α : Type} (better : α → α → Bool) (full : List α) : ∀ (l : List α) (best : α) (bi i : ℕ), full[bi]? = some best → full.drop i = l →
    full[(argAux better best bi i l).1]? = some (argAux better best bi i l).2
  | [], best, bi, i, hb, _ => hb
  | v :: vs, best, bi, i, hb, hd => by
    have hv : full[i]? = some v := by
      have := congrArg (fun l => l[0]?) hd
      simpa using this
    have hvs : full.drop (i + 1) = vs := by
      have := congrArg List.tail hd
      simpa using this
    rw [argAux]
    split
    · exact argAux_index better full vs v i (i + 1) hv hvs
    · exact argAux_index better full vs best bi (i + 1) hb hvs

theorem argAux_ne_ninf : ∀ (l : List XR) (best : XR) (bi i : ℕ), (best ≠ .ninf ∨ ∃ x ∈ l, ∃ v, x = .fin v) →
    (argAux (fun best x => Scalar.lt best x) best bi i l).2 ≠ .ninf
  | [], best, bi, i, h => by
    rcases h with h | ⟨x, hx, _⟩
    · exact h
    · simp at hx
  | y :: l, best, bi, i, h => by
    rw [argAux]
    by_cases hlt : (Scalar.lt best y : Bool) = true
    · rw [if_pos hlt]
      apply argAux_ne_ninf
      left
      rintro rfl
      cases best <;> simp [Scalar.lt, XR.lt] at hlt
    · rw [if_neg hlt]
      apply argAux_ne_ninf
      by_cases hb : best = .ninf
      · subst hb
        rcases h with h | ⟨x, hx, v, rfl⟩
        · exact absurd rfl h
        · rcases List.mem_cons.1 hx with rfl | hx
          · exact absurd rfl hlt
          · exact Or.inr ⟨_, hx, v, rfl⟩
      · exact Or.inl hb

theorem xr_multRow {f : ℕ} {S : List (List ℝ)} (hS : ∀ r ∈ S, r.length = f) (hpos : ∀ r ∈ S, ∀ v ∈ r, 0 ≤ v) (d : LogProbsD XR) (hd : d.pseudo = .fin 1) (c : ℕ) :
    multUpdate d (finMat ⟨f, S⟩) c = setAt d.logProbs.rows c ((multRow ⟨f, S⟩).map XR.fin) >>= fun rows => ok ⟨⟨d.logProbs.cols, rows⟩, d.pseudo⟩ := by
  have hw : (⟨f, S⟩ : Mat ℝ).WF := hS
  have hsum : (finMat (⟨f, S⟩ : Mat ℝ)).sumRows = ((⟨f, S⟩ : Mat ℝ).sumRows).map XR.fin := by
    unfold Mat.sumRows
    rw [List.map_map]
    apply List.map_congr_left
    intro j hj
    have hj' : j < f := by simpa [finMat] using hj
    simp only [Function.comp]
    rw [colOf_eq (finMat (⟨f, S⟩ : Mat ℝ)) (.fin 0) (finMat_WF.2 hw) j hj', colOf_eq (⟨f, S⟩ : Mat ℝ) 0 hw j hj']
    simp only [finMat, List.map_map]
    have : (fun r => r.getD j (XR.fin 0)) ∘ List.map XR.fin = fun r : List ℝ => XR.fin (r.getD j 0) := by
      funext r; exact getD_map_fin r j
    rw [this, fsum_real, ← xr_fsum_fin, List.map_map]
    rfl
  have hnn : ∀ s ∈ (⟨f, S⟩ : Mat ℝ).sumRows, 0 ≤ s := by
    rw [sumRows_real _ hw]
    intro s hs
    obtain ⟨j, _, rfl⟩ := List.mem_map.1 hs
    exact feature_sum_nonneg hpos j
  have hlp : ((finMat (⟨f, S⟩ : Mat ℝ)).sumRows.map fun s => s +. d.pseudo) = (((⟨f, S⟩ : Mat ℝ).sumRows).map fun s => s + 1).map XR.fin := by
    rw [hsum, hd, List.map_map, List.map_map]
    rfl
  unfold multUpdate
  simp only [hlp, xr_fsum_fin]
  have : ((((⟨f, S⟩ : Mat ℝ).sumRows).map fun s => s + 1).map XR.fin).map (fun x => Scalar.ln x -. Scalar.ln (XR.fin (((⟨f, S⟩ : Mat ℝ).sumRows).map fun s => s + 1).sum)) =
      (multRow ⟨f, S⟩).map XR.fin := by
    unfold multRow
    rw [List.map_map, List.map_map, List.map_map]
    apply List.map_congr_left
    intro s hs
    have h1 := hnn s hs
    have h2 : 0 < (((⟨f, S⟩ : Mat ℝ).sumRows).map fun s => s + 1).sum := by
      generalize (⟨f, S⟩ : Mat ℝ).sumRows = l at hs hnn
      cases l with
      | nil => simp at hs
      | cons a l =>
        have h3 := hnn a (by simp)
        have h4 : 0 ≤ (l.map fun s => s + 1).sum := List.sum_nonneg (by
          intro x hx
          obtain ⟨y, hy, rfl⟩ := List.mem_map.1 hx
          linarith [hnn y (List.mem_cons_of_mem _ hy)])
        simp only [List.map_cons, List.sum_cons]; linarith
    simp only [Function.comp]
    rw [xr_ln _ (by linarith), xr_ln _ h2, xr_sub]
  rw [this]

theorem xr_selectRows_class {X : Mat ℝ} {T : List (List ℝ)} (hc : ∀ t ∈ T, classOf t ≠ none) (hn : X.rows.length = T.length) (j : ℕ) :
    (finMat X).selectRows (members j 0 (classesOf T)) = ok (finMat ⟨X.cols, classSamples X.rows T j⟩) := by
  unfold Mat.selectRows
  rw [select_labelled j (finMat X).rows (classesOf T) (by rw [classesOf_length hc]; simpa [finMat] using hn)]
  simp only [ok_bind, finMat]
  rw [labelled_map, labelled_classSamples hc]

/-- C64 holds for multinomial models: on finite non-negative data, whatever the (finite) input, every predicted class has training samples. -/
theorem C64_multinomial (m : NaiveBayes (LogProbsD XR) XR) (X T Y : Mat ℝ) (hX : X.WF) (hT : T.WF) (hY : Y.WF) (hf : Y.cols = X.cols)
    (hc : ∀ t ∈ T.rows, ∃ v ∈ t, v = 1) (hn : X.rows.length = T.rows.length) (hpos : 0 < X.rows.length) (hdata : ∀ x ∈ X.rows, ∀ v ∈ x, 0 ≤ v) :
    ∃ m' P, nbTrain multDistr m (finMat X) (finMat T) = (m', ok ()) ∧ nbPredict multDistr m' (finMat Y) = ok P ∧ P.rows.length = Y.rows.length ∧
      ∀ row ∈ P.rows, ∃ c, c < T.cols ∧ 0 < classSize T.rows c ∧ row = (List.replicate T.cols (.fin 0)).set c (.fin 1) := by
  have hc' := classOf_ne_none hc
  -- training
  obtain ⟨d, hd, R, hR, hRt⟩ : ∃ d, nbFit multDistr (finMat X) 0 ((List.range T.cols).map fun j => members j 0 (classesOf T.rows))
      ((multDistr : NBDistr (LogProbsD XR) XR).fromParams T.cols X.cols) = (d, ok ()) ∧
      ∃ R : Mat ℝ, d.logProbs = finMat R ∧ IsTable T.cols X.cols R := by
    obtain ⟨d, hd, hR, _⟩ := nbFit_ok (B := (multDistr : NBDistr (LogProbsD XR) XR)) (X := finMat X)
      (Inv := fun d : LogProbsD XR => (∃ R : Mat ℝ, d.logProbs = finMat R ∧ IsTable T.cols X.cols R) ∧ d.pseudo = .fin 1)
      ((List.range T.cols).map fun j => members j 0 (classesOf T.rows)) 0 ((multDistr : NBDistr (LogProbsD XR) XR).fromParams T.cols X.cols)
      ⟨⟨Mat.zeros T.cols X.cols, by simp [multDistr, Mat.zeros, finMat], zeros_table _ _⟩, rfl⟩ (by
        intro j v hj hv
        have hjlt : j < T.cols := by
          have := (List.getElem?_eq_some_iff.1 hj).1
          simpa using this
        rw [getElem?_members _ _ _ hjlt] at hj
        cases hj
        refine ⟨_, xr_selectRows_class hc' hn j, ?_⟩
        rintro d ⟨⟨R, hR, hRt⟩, hp⟩
        show ∃ d', multUpdate d _ _ = _ ∧ _
        rw [xr_multRow (fun r hr => hX r (classSamples_mem hr)) (fun r hr => hdata r (classSamples_mem hr)) d hp]
        rw [setAt_of_lt _ (by rw [hR]; simp [finMat, hRt.2.1]; omega)]
        refine ⟨_, rfl, ⟨⟨R.cols, R.rows.set (0 + j) (multRow ⟨X.cols, classSamples X.rows T.rows j⟩)⟩, ?_, set_table hRt (multRow_length _)⟩, hp⟩
        simp only [hR, finMat, List.map_set])
    exact ⟨d, hd, hR⟩
  set prior := (List.range T.cols).map fun c => Scalar.div (XR.fin (classSize T.rows c)) (XR.fin X.rows.length) with hprior
  have htr : nbTrain multDistr m (finMat X) (finMat T) = (⟨some d, some T.cols, some prior, (List.range T.cols).map fun c => classSize T.rows c⟩, ok ()) := by
    unfold nbTrain
    simp only
    rw [show (finMat T).rows = T.rows.map (List.map XR.fin) from rfl, xr_nbScan, show (finMat T).cols = T.cols from rfl,
      show (finMat X).cols = X.cols from rfl, nbScan_ok T.rows 0 T.cols _ _ (by simp) hT hc', classData_eq, foldl_modify_replicate]
    simp only
    rw [hd]
    have e : (fun j => (classesOf T.rows).count j) = fun c => classSize T.rows c := by funext c; exact count_classesOf _ _
    simp only [e, hprior, List.map_map]
    congr 4
    funext c
    simp [finMat]
  -- likelihoods
  have hnY : (finMat Y).rows.length = Y.rows.length := by simp [finMat]
  set per := prior.map Scalar.ln with hper
  have hpl : per.length = T.cols := by simp [hper, hprior]
  have hx0 : (X.rows.length : ℝ) ≠ 0 := by positivity
  have hperc : ∀ c < T.cols, (0 < classSize T.rows c → ∃ v, per[c]? = some (.fin v)) ∧ (classSize T.rows c = 0 → per[c]? = some .ninf) := by
    intro c hlt
    have e : per[c]? = some (Scalar.ln (Scalar.div (XR.fin (classSize T.rows c)) (XR.fin X.rows.length))) := by
      simp [hper, hprior, hlt]
    rw [e, xr_div _ _ hx0]
    refine ⟨fun h => ⟨_, by rw [xr_ln _ (by have : (0 : ℝ) < classSize T.rows c := by exact_mod_cast h
                                            positivity)]⟩, fun h => by rw [h, Nat.cast_zero, zero_div, xr_ln_zero]⟩
  have hlp : nbLogProbs multDistr ⟨some d, some T.cols, some prior, (List.range T.cols).map fun c => classSize T.rows c⟩ (finMat Y) =
      ok ⟨T.cols, (finMat Y).rows.map fun r => List.zipWith Scalar.add ((List.range T.cols).map fun j => dot r (colOf (finMat R).transpose.rows j)) per⟩ := by
    unfold nbLogProbs
    show (do
      let res ← Mat.mul (finMat Y) d.logProbs.transpose
      addClassRow res (finMat Y).rows.length (prior.map Scalar.ln)) = _
    have hmul : Mat.mul (finMat Y) d.logProbs.transpose = ok ⟨T.cols, (finMat Y).rows.map fun r => (List.range T.cols).map fun j => dot r (colOf (finMat R).transpose.rows j)⟩ := by
      unfold Mat.mul
      rw [hR, if_pos (by simp only [Mat.transpose, transposeRows, List.length_map, List.length_range]; show Y.cols = R.cols; rw [hRt.1, hf])]
      simp [Mat.transpose, finMat, hRt.2.1]
    rw [hmul]
    simp only [ok_bind]
    unfold addClassRow
    have hnew : Mat.new 1 per.length per = ok ⟨T.cols, [per]⟩ := by
      have := Mat.new_flatten (rows := [per]) (c := T.cols) (k := 1) rfl (by simpa using hpl)
      simp at this
      rw [hpl]; exact this
    rw [hnew]
    simp only [ok_bind]
    rw [selectRows_replicate (v := per) _ (by simp)]
    simp only [ok_bind]
    have hz := Mat.zip_replicate Scalar.add (⟨T.cols, (finMat Y).rows.map fun r => (List.range T.cols).map fun j => dot r (colOf (finMat R).transpose.rows j)⟩ : Mat XR) per
    simp only [List.length_map, List.map_map] at hz
    exact hz
  -- every dot product is finite
  have hdot : ∀ y ∈ Y.rows, ∀ j < T.cols, ∃ v, dot (y.map XR.fin) (colOf (finMat R).transpose.rows j) = .fin v := by
    intro y hy j hj
    have hfin : ∃ w : List ℝ, colOf (finMat R).transpose.rows j = w.map XR.fin := by
      refine ⟨colOf R.transpose.rows j, ?_⟩
      unfold colOf Mat.transpose transposeRows
      simp only [List.filterMap_map, List.map_filterMap]
      show _ = List.filterMap _ (List.range R.cols)
      congr 1
      funext i
      simp only [Function.comp, colOf, finMat, List.filterMap_map]
      have e : (fun x : List ℝ => (List.map XR.fin x)[i]?) = fun r : List ℝ => r[i]?.map XR.fin := by
        funext r; simp
      rw [e]
      have e2 : (R.rows.filterMap fun r : List ℝ => r[i]?.map XR.fin) = (R.rows.filterMap fun r => r[i]?).map XR.fin := by
        rw [List.map_filterMap]
      rw [e2, List.getElem?_map]
    obtain ⟨w, hw⟩ := hfin
    rw [hw]
    unfold dot
    have e3 : ∀ (a b : List ℝ), List.zipWith Scalar.mul (a.map XR.fin) (b.map XR.fin) = (List.zipWith (fun x y => x * y) a b).map XR.fin := by
      intro a
      induction a with
      | nil => intro b; rfl
      | cons x a ih =>
        intro b
        cases b with
        | nil => rfl
        | cons z b => simp [ih b]
    rw [e3, xr_fsum_fin]
    exact ⟨_, rfl⟩
  -- a class with samples exists
  obtain ⟨c0, hc0, hc0pos⟩ : ∃ c, c < T.cols ∧ 0 < classSize T.rows c := by
    have hTne : T.rows ≠ [] := by
      intro h; rw [hn, h] at hpos; simp at hpos
    obtain ⟨t, ht⟩ := List.exists_mem_of_ne_nil _ hTne
    obtain ⟨c, hcl⟩ := Option.ne_none_iff_exists'.1 (hc' t ht)
    refine ⟨c, by rw [← hT t ht]; exact classOf_lt hcl, ?_⟩
    unfold classSize
    rw [List.countP_pos_iff]
    exact ⟨t, ht, by simp [hcl]⟩
  have hsel : ∀ y ∈ Y.rows, ∃ c, (argmaxBy Scalar.lt (List.zipWith Scalar.add ((List.range T.cols).map fun j => dot (y.map XR.fin) (colOf (finMat R).transpose.rows j)) per) >>= fun r => ok r.1) = ok c ∧
      c < T.cols ∧ 0 < classSize T.rows c := by
    intro y hy
    set row := List.zipWith Scalar.add ((List.range T.cols).map fun j => dot (y.map XR.fin) (colOf (finMat R).transpose.rows j)) per with hrow
    have hent : ∀ c < T.cols, ∃ a, row[c]? = (per[c]?).map fun b => XR.add (.fin a) b := by
      intro c hlt
      obtain ⟨v, hv⟩ := hdot y hy c hlt
      refine ⟨v, ?_⟩
      have hlt' : c < per.length := by omega
      simp only [hrow, List.getElem?_zipWith, List.getElem?_map, List.getElem?_range hlt, Option.map_some, hv, List.getElem?_eq_getElem hlt']
      rfl
    have hlen : row.length = T.cols := by simp [hrow, hpl]
    have hfin : ∃ x ∈ row, ∃ v, x = .fin v := by
      obtain ⟨a, ha⟩ := hent c0 hc0
      obtain ⟨v, hv⟩ := (hperc c0 hc0).1 hc0pos
      rw [hv] at ha
      exact ⟨_, List.mem_of_getElem? ha, _, rfl⟩
    cases hr : row with
    | nil => rw [hr] at hlen; simp at hlen; omega
    | cons x l =>
      simp only [argmaxBy, ok_bind]
      set res := argAux (fun best x => Scalar.lt best x) x 0 1 l with hres
      have hidx := argAux_index (fun best x => Scalar.lt best x) (x :: l) l x 0 1 rfl rfl
      have hne := argAux_ne_ninf l x 0 1 (by
        rw [hr] at hfin
        obtain ⟨z, hz, v, rfl⟩ := hfin
        rcases List.mem_cons.1 hz with h | h
        · left; rw [← h]; simp
        · right; exact ⟨_, h, v, rfl⟩)
      rw [← hres] at hidx hne
      rw [← hr] at hidx
      have hlt : res.1 < T.cols := by
        have := (List.getElem?_eq_some_iff.1 hidx).1
        omega
      refine ⟨res.1, rfl, hlt, ?_⟩
      by_contra hcon
      obtain ⟨a, ha⟩ := hent res.1 hlt
      rw [(hperc res.1 hlt).2 (by omega), hidx] at ha
      simp only [Option.map_some, Option.some.injEq] at ha
      exact hne (by rw [ha]; rfl)
  choose! cls hcls using hsel
  refine ⟨_, ⟨T.cols, Y.rows.map fun y => (List.replicate T.cols (.fin 0)).set (cls y) (.fin 1)⟩, htr, ?_, by simp, ?_⟩
  · unfold nbPredict
    rw [hlp]
    simp only [ok_bind]
    rw [show (finMat Y).rows = Y.rows.map (List.map XR.fin) from rfl, List.map_map, List.mapM_map]
    have e := mapM_ok_map _ cls Y.rows (fun y hy => (hcls y hy).1)
    simp only [Function.comp_def]
    rw [e]
    simp only [ok_bind, List.length_map]
    rw [mapM_ok_map _ (fun c => (List.replicate T.cols (.fin 0)).set c (.fin 1)) (Y.rows.map cls)]
    · simp only [ok_bind, List.map_map]
      apply Mat.new_flatten (by simp)
      intro r hr
      obtain ⟨y, _, rfl⟩ := List.mem_map.1 hr
      simp
    · intro c hcm
      obtain ⟨y, hy, rfl⟩ := List.mem_map.1 hcm
      exact setAt_of_lt _ (by simpa using (hcls y hy).2.1)
  · intro row hrow
    obtain ⟨y, hy, rfl⟩ := List.mem_map.1 hrow
    exact ⟨cls y, (hcls y hy).2.1, (hcls y hy).2.2, rfl⟩

/-- Non-vacuity: class 0 of these targets has no samples. -/
example : classSize [[(0 : ℝ), 1], [0, 1]] 0 = 0 ∧ ∀ t ∈ [[(0 : ℝ), 1], [0, 1]], ∃ v ∈ t, v = 1 := by
  simp [classSize, ex_class1]

/-- Non-vacuity of the violations: Gaussian and Bernoulli training succeeds on targets without class 0. -/
example : (∃ m', nbTrain gaussDistr (nbNew _ XR) (finMat ⟨1, [[1], [3]]⟩) (finMat ⟨2, [[0, 1], [0, 1]]⟩) = (m', ok ())) ∧
    ∃ m', nbTrain bernDistr (nbNew _ XR) (finMat ⟨1, [[1], [3]]⟩) (finMat ⟨2, [[0, 1], [0, 1]]⟩) = (m', ok ()) := by
  constructor
  · simp [nbTrain, finMat, nbScan, findClass, nbFit, Mat.selectRows, getAt, ofOption, gaussDistr, gaussUpdate, Mat.varianceRow, setAt, Mat.zeros, List.replicate, List.modify]
  · simp [nbTrain, finMat, nbScan, findClass, nbFit, Mat.selectRows, getAt, ofOption, bernDistr, bernUpdate, setAt, Mat.zeros, List.replicate, List.modify]

end RM
