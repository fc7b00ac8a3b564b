import Verif.Props.HiddenUnits
import Verif.Props.Separable
import Verif.Props.SameFunction
import Mathlib.Algebra.Polynomial.Roots

/-! C141: what networks with and without hidden units can express. -/

namespace RM
open Outcome Scalar Spec Filter Topology

/-! ### A direction in which all rows differ -/

/-- The polynomial whose coefficients are the entries. -/
noncomputable def rowPoly : List ℝ → Polynomial ℝ
  | [] => 0
  | a :: x => Polynomial.C a + Polynomial.X * rowPoly x

/-- The first `n` powers of `s`. -/
noncomputable def powers (s : ℝ) (n : ℕ) : List ℝ := (List.range n).map fun i => s ^ i

theorem powers_succ (s : ℝ) (n : ℕ) : powers s (n + 1) = 1 :: (powers s n).map (s * ·) := by
  unfold powers
  rw [List.range_succ_eq_map, List.map_cons, List.map_map, List.map_map]
  simp [Function.comp_def, pow_succ, mul_comm]

theorem inner_map_mul (s : ℝ) : ∀ x u : List ℝ, Spec.inner x (u.map (s * ·)) = s * Spec.inner x u
  | [], _ => by simp [Spec.inner]
  | _ :: _, [] => by simp [Spec.inner]
  | a :: x, b :: u => by
    have := inner_map_mul s x u
    unfold Spec.inner at this ⊢
    simp only [List.map_cons, List.zipWith_cons_cons, List.sum_cons]
    rw [this]
    ring

theorem rowPoly_eval (s : ℝ) : ∀ (x : List ℝ), (rowPoly x).eval s = Spec.inner x (powers s x.length)
  | [] => by simp [rowPoly, Spec.inner]
  | a :: x => by
    rw [rowPoly, List.length_cons, powers_succ]
    have := rowPoly_eval s x
    have h2 := inner_map_mul s x (powers s x.length)
    unfold Spec.inner at this h2 ⊢
    simp only [Polynomial.eval_add, Polynomial.eval_C, Polynomial.eval_mul, Polynomial.eval_X, List.zipWith_cons_cons, List.sum_cons]
    rw [this, h2]
    ring

theorem rowPoly_inj : ∀ (x y : List ℝ), x.length = y.length → rowPoly x = rowPoly y → x = y
  | [], [], _, _ => rfl
  | [], _ :: _, h, _ => by simp at h
  | _ :: _, [], h, _ => by simp at h
  | a :: x, b :: y, h, e => by
    have h0 := congrArg (Polynomial.coeff · 0) e
    simp [rowPoly] at h0
    subst h0
    have e' : Polynomial.X * rowPoly x = Polynomial.X * rowPoly y := by
      simpa [rowPoly] using e
    rw [rowPoly_inj x y (by simpa using h) (mul_left_cancel₀ Polynomial.X_ne_zero e')]

theorem exists_direction (c : ℕ) (rows : List (List ℝ)) (h : ∀ x ∈ rows, x.length = c) :
    ∃ u : List ℝ, u.length = c ∧ ∀ x ∈ rows, ∀ y ∈ rows, x ≠ y → Spec.inner x u ≠ Spec.inner y u := by
  classical
  obtain ⟨s, hs⟩ := Infinite.exists_notMem_finset
    ((rows.toFinset ×ˢ rows.toFinset).biUnion fun p => (rowPoly p.1 - rowPoly p.2).roots.toFinset)
  refine ⟨powers s c, by simp [powers], fun x hx y hy hne he => hs ?_⟩
  rw [Finset.mem_biUnion]
  refine ⟨(x, y), by simp [hx, hy], ?_⟩
  rw [Multiset.mem_toFinset, Polynomial.mem_roots', Polynomial.IsRoot.def, Polynomial.eval_sub, rowPoly_eval, rowPoly_eval, h x hx, h y hy, he, sub_self]
  exact ⟨fun h0 => hne (rowPoly_inj x y (by rw [h x hx, h y hy]) (sub_eq_zero.1 h0)), rfl⟩

/-! ### Steep sigmoids -/

theorem logistic_atTop : Tendsto logistic atTop (𝓝 1) := by
  have : Tendsto (fun s : ℝ => 1 / (1 + Real.exp (-s))) atTop (𝓝 (1 / (1 + 0))) :=
    tendsto_const_nhds.div (tendsto_const_nhds.add (Real.tendsto_exp_atBot.comp tendsto_neg_atTop_atBot)) (by norm_num)
  rw [add_zero, div_one] at this
  exact this

theorem logistic_atBot : Tendsto logistic atBot (𝓝 0) := by
  have : Tendsto (fun s : ℝ => 1 / (1 + Real.exp (-s))) atBot (𝓝 0) :=
    tendsto_const_nhds.div_atTop (tendsto_atTop_add_const_left _ _ (Real.tendsto_exp_atTop.comp tendsto_neg_atBot_atTop))
  exact this

/-- The difference of two steep sigmoids around `p` is close to 1 at `p` and to 0 away from it. -/
theorem bump_tendsto {δ : ℝ} (hδ : 0 < δ) (a : ℝ) (ha : a = 0 ∨ δ < |a|) :
    Tendsto (fun k : ℝ => logistic (k * (a + δ)) - logistic (k * (a - δ))) atTop (𝓝 (if a = 0 then 1 else 0)) := by
  have up : ∀ b : ℝ, 0 < b → Tendsto (fun k : ℝ => logistic (k * b)) atTop (𝓝 1) := fun b hb =>
    logistic_atTop.comp (tendsto_id.atTop_mul_const hb)
  have down : ∀ b : ℝ, b < 0 → Tendsto (fun k : ℝ => logistic (k * b)) atTop (𝓝 0) := fun b hb =>
    logistic_atBot.comp (tendsto_id.atTop_mul_const_of_neg hb)
  rcases ha with rfl | ha
  · simpa using (up (0 + δ) (by linarith)).sub (down (0 - δ) (by linarith))
  · have hne : a ≠ 0 := by rintro rfl; simp at ha; linarith
    rw [if_neg hne]
    rcases lt_abs.1 ha with h | h
    · simpa using (up (a + δ) (by linarith)).sub (up (a - δ) (by linarith))
    · simpa using (down (a + δ) (by linarith)).sub (down (a - δ) (by linarith))

/-! ### The network -/

/-- The weights of a layer, row by row. -/
def packed (k o : ℕ) (f : ℕ → ℕ → ℝ) : List ℝ := (List.range k).flatMap fun i => (List.range o).map (f i)

theorem packed_length (k o : ℕ) (f : ℕ → ℕ → ℝ) : (packed k o f).length = k * o := by
  simp [packed, List.length_flatMap]

theorem packed_getD {k o : ℕ} (f : ℕ → ℕ → ℝ) {i j : ℕ} (hi : i < k) (hj : j < o) : (packed k o f).getD (i * o + j) 0 = f i j := by
  unfold packed
  rw [flatMap_getD o _ 0 (List.range k) (by simp) i j i (by simp [hi]) hj, getD_map_range o (f i) j hj]

theorem dot_packed {k o : ℕ} (f : ℕ → ℕ → ℝ) (rest x : List ℝ) (hx : x.length + 1 = k) {j : ℕ} (hj : j < o) :
    dot ((Scalar.one : ℝ) :: x) ((List.range k).map fun i => (packed k o f ++ rest).getD (i * o + j) Scalar.zero) =
      f 0 j + ∑ m ∈ Finset.range x.length, x.getD m 0 * f (m + 1) j := by
  have hmap : ((List.range k).map fun i => (packed k o f ++ rest).getD (i * o + j) Scalar.zero) = (List.range k).map fun i => f i j := by
    refine List.map_congr_left fun i hi => ?_
    rw [List.mem_range] at hi
    have hlt : i * o + j < (packed k o f).length := by
      rw [packed_length]
      calc i * o + j < i * o + o := by omega
        _ = (i + 1) * o := by ring
        _ ≤ k * o := Nat.mul_le_mul_right o hi
    rw [getD_append_first _ _ _ _ hlt]
    exact packed_getD f hi hj
  rw [hmap, dot_eq_range (n := x.length + 1) (by simp) (by simp [hx]), Finset.sum_range_succ', add_comm]
  congr 1
  · rw [getD_map_range k _ 0 (by omega)]
    simp [Scalar.one]
  · refine Finset.sum_congr rfl fun m hm => ?_
    rw [Finset.mem_range] at hm
    rw [getD_map_range k _ (m + 1) (by omega)]
    simp

/-- The values of a network with one hidden layer of sigmoids. -/
theorem hidden_row {c h o : ℕ} (f g : ℕ → ℕ → ℝ) (x : List ℝ) (hx : x.length = c) :
    netRow [.new c h, .activ sigmoid, .new h o] (packed (c + 1) h f ++ packed (h + 1) o g) x =
      (List.range o).map fun l => g 0 l + ∑ j ∈ Finset.range h, logistic (f 0 j + ∑ m ∈ Finset.range c, x.getD m 0 * f (m + 1) j) * g (j + 1) l := by
  simp only [netRow, NetLayer.new, if_true]
  rw [List.drop_append_of_le_length (by rw [packed_length]), List.drop_of_length_le (by rw [packed_length]), List.nil_append]
  refine List.map_congr_left fun l hl => ?_
  rw [List.mem_range] at hl
  have hd := dot_packed (k := h + 1) g [] (((List.range h).map fun j =>
    dot ((Scalar.one : ℝ) :: x) ((List.range (c + 1)).map fun i => (packed (c + 1) h f ++ packed (h + 1) o g).getD (i * h + j) Scalar.zero)).map
      (sigmoid : Activ ℝ).func) (by simp) hl
  rw [List.append_nil] at hd
  rw [hd]
  congr 1
  rw [List.length_map, List.length_map, List.length_range]
  refine Finset.sum_congr rfl fun j hj => ?_
  rw [Finset.mem_range] at hj
  rw [List.map_map, getD_map_range h _ j hj, Function.comp_apply, dot_packed f _ x (by rw [hx]) hj, sigmoid_logistic, hx]

theorem inner_range {x u : List ℝ} {c : ℕ} (hx : x.length = c) (hu : u.length = c) : Spec.inner x u = ∑ m ∈ Finset.range c, x.getD m 0 * u.getD m 0 := by
  rw [← dot_inner, dot_eq_range hx hu]

theorem exists_gap (n : ℕ) (p : ℕ → ℝ) :
    ∃ δ : ℝ, 0 < δ ∧ ∀ i < n, ∀ j < n, p i - p j = 0 ∨ δ < |p i - p j| := by
  have h : ∀ᶠ δ : ℝ in 𝓝[>] 0, ∀ q ∈ Finset.range n ×ˢ Finset.range n, p q.1 - p q.2 = 0 ∨ δ < |p q.1 - p q.2| := by
    rw [Filter.eventually_all_finset]
    rintro ⟨i, j⟩ -
    by_cases hij : p i - p j = 0
    · exact Eventually.of_forall fun _ => Or.inl hij
    · have hpos : 0 < |p i - p j| := abs_pos.2 hij
      exact (eventually_nhdsWithin_of_eventually_nhds (eventually_lt_nhds hpos)).mono fun δ hδ => Or.inr hδ
  obtain ⟨δ, h1, h2⟩ := (h.and self_mem_nhdsWithin).exists
  exact ⟨δ, h2, fun i hi j hj => h1 (i, j) (by simp [hi, hj])⟩

/-- Weights for one hidden layer of `n + n` steep sigmoids, two for each of the values `p j`: the first layer. -/
noncomputable def steepIn (n : ℕ) (p : ℕ → ℝ) (u : List ℝ) (δ k : ℝ) (i j : ℕ) : ℝ :=
  if i = 0 then (if j < n then k * (δ - p j) else k * (-δ - p (j - n))) else k * u.getD (i - 1) 0

/-- Weights for one hidden layer of `n + n` steep sigmoids: the last layer. -/
def steepOut (n : ℕ) (G : ℕ → ℕ → ℝ) (i l : ℕ) : ℝ :=
  if i = 0 then 0 else if i - 1 < n then G (i - 1) l else -G (i - 1 - n) l

theorem steep_row {c n o : ℕ} (p : ℕ → ℝ) (u : List ℝ) (hu : u.length = c) (δ k : ℝ) (G : ℕ → ℕ → ℝ) (x : List ℝ) (hx : x.length = c) :
    netRow [.new c (n + n), .activ sigmoid, .new (n + n) o] (packed (c + 1) (n + n) (steepIn n p u δ k) ++ packed (n + n + 1) o (steepOut n G)) x =
      (List.range o).map fun l => ∑ j ∈ Finset.range n,
        (logistic (k * (Spec.inner x u - p j + δ)) - logistic (k * (Spec.inner x u - p j - δ))) * G j l := by
  rw [hidden_row _ _ _ hx]
  refine List.map_congr_left fun l _ => ?_
  have hs : ∀ j, ∑ m ∈ Finset.range c, x.getD m 0 * steepIn n p u δ k (m + 1) j = k * Spec.inner x u := by
    intro j
    rw [inner_range hx hu, Finset.mul_sum]
    refine Finset.sum_congr rfl fun m _ => ?_
    unfold steepIn
    rw [if_neg (by omega), Nat.add_sub_cancel]
    ring
  rw [Finset.sum_range_add, ← Finset.sum_add_distrib]
  have h0 : steepOut n G 0 l = 0 := by simp [steepOut]
  rw [h0, zero_add]
  refine Finset.sum_congr rfl fun j hj => ?_
  rw [Finset.mem_range] at hj
  rw [hs, hs]
  have e1 : steepIn n p u δ k 0 j = k * (δ - p j) := by simp [steepIn, hj]
  have e2 : steepIn n p u δ k 0 (n + j) = k * (-δ - p j) := by simp [steepIn]
  have e3 : steepOut n G (j + 1) l = G j l := by simp [steepOut, hj]
  have e4 : steepOut n G (n + j + 1) l = -G j l := by simp [steepOut]
  rw [e1, e2, e3, e4, show k * (δ - p j) + k * Spec.inner x u = k * (Spec.inner x u - p j + δ) by ring,
    show k * (-δ - p j) + k * Spec.inner x u = k * (Spec.inner x u - p j - δ) by ring]
  ring

theorem steep_fits {c o : ℕ} (rows : List (List ℝ)) (hr : ∀ x ∈ rows, x.length = c) (hnd : rows.Nodup) (G : ℕ → ℕ → ℝ) (ε : ℝ) (hε : 0 < ε) :
    ∃ w : List ℝ, w.length = totalParams [NetLayer.new (F := ℝ) c (rows.length + rows.length), .activ sigmoid, .new (rows.length + rows.length) o] ∧
      ∀ (i : ℕ) x, rows[i]? = some x → ∀ l < o,
        |(netRow [.new c (rows.length + rows.length), .activ sigmoid, .new (rows.length + rows.length) o] w x).getD l 0 - G i l| < ε := by
  obtain ⟨u, hu, hdir⟩ := exists_direction c rows hr
  let p : ℕ → ℝ := fun i => Spec.inner (rows.getD i []) u
  have hp : ∀ i < rows.length, ∀ j < rows.length, i ≠ j → p i ≠ p j := by
    intro i hi j hj hij
    refine hdir _ ?_ _ ?_ ?_
    · rw [getD_lt _ hi]; exact List.getElem_mem _
    · rw [getD_lt _ hj]; exact List.getElem_mem _
    · rw [getD_lt _ hi, getD_lt _ hj]
      exact fun e => hij ((List.Nodup.getElem_inj_iff hnd).1 e)
  obtain ⟨δ, hδ, hgap⟩ := exists_gap rows.length p
  have hlim : ∀ i < rows.length, ∀ l, Tendsto (fun k : ℝ => ∑ j ∈ Finset.range rows.length,
      (logistic (k * (p i - p j + δ)) - logistic (k * (p i - p j - δ))) * G j l) atTop (𝓝 (G i l)) := by
    intro i hi l
    have h := tendsto_finsetSum (Finset.range rows.length) fun j hj =>
      (bump_tendsto hδ (p i - p j) (hgap i hi j (Finset.mem_range.1 hj))).mul_const (G j l)
    refine h.trans (le_of_eq ?_)
    congr 1
    rw [Finset.sum_eq_single i]
    · simp
    · intro j hj hji
      rw [if_neg (fun e => hp i hi j (Finset.mem_range.1 hj) (Ne.symm hji) (sub_eq_zero.1 e)), zero_mul]
    · intro h'
      exact absurd (Finset.mem_range.2 hi) h'
  have hev : ∀ᶠ k : ℝ in atTop, ∀ q ∈ Finset.range rows.length ×ˢ Finset.range o, |(∑ j ∈ Finset.range rows.length,
      (logistic (k * (p q.1 - p j + δ)) - logistic (k * (p q.1 - p j - δ))) * G j q.2) - G q.1 q.2| < ε := by
    rw [Filter.eventually_all_finset]
    rintro ⟨i, l⟩ hq
    rw [Finset.mem_product, Finset.mem_range, Finset.mem_range] at hq
    have := (Metric.tendsto_nhds.1 (hlim i hq.1 l)) ε hε
    simpa [Real.dist_eq] using this
  obtain ⟨k, hk⟩ := hev.exists
  refine ⟨packed (c + 1) (rows.length + rows.length) (steepIn rows.length p u δ k) ++ packed (rows.length + rows.length + 1) o (steepOut rows.length G), ?_, ?_⟩
  · simp [packed_length, totalParams, NetLayer.new]
  · intro i x hx l hl
    obtain ⟨hi, rfl⟩ := List.getElem?_eq_some_iff.1 hx
    rw [steep_row p u hu δ k G _ (hr _ (List.getElem_mem _)), getD_map_range o _ l hl]
    have := hk (i, l) (by simp [hi, hl])
    simp only [p] at this
    rw [getD_lt _ hi] at this
    exact this

namespace Spec

/-- Matrices of the same shape whose entries differ by less than `ε`. -/
def CloseTo (ε : ℝ) (Y T : Mat ℝ) : Prop :=
  Y.rows.length = T.rows.length ∧ Y.cols = T.cols ∧ ∀ i < T.rows.length, ∀ j < T.cols, |ent Y i j - ent T i j| < ε

/-- The layers of a network with one hidden layer of `h` sigmoids. -/
noncomputable def oneHidden (c h o : ℕ) : List (NetLayer ℝ) := [.new c h, .activ sigmoid, .new h o]

end Spec

theorem oneHidden_lines (c h o : ℕ) : LinesUp (oneHidden c h o) c o := .linear true rfl (.activ _ (.linear true rfl (.nil _)))

/-- **C141 (any values).** Whatever values are asked for at finitely many different rows, there are weights with which a network of one
hidden layer of sigmoids, two for each row, comes as close to them as one likes. -/
theorem C141_values (X : Mat ℝ) (hX : X.WF) (hnd : X.rows.Nodup) (T : Mat ℝ) {o : ℕ} (hT : HasShape T X.rows.length o) (cr : Criterion ℝ) (ε : ℝ)
    (hε : 0 < ε) : ∃ w Y, w.length = totalParams (oneHidden X.cols (2 * X.rows.length) o) ∧
      (⟨oneHidden X.cols (2 * X.rows.length) o, w, cr⟩ : BaseNet ℝ).forwardProp X = ok Y ∧ CloseTo ε Y T := by
  obtain ⟨w, h1, h2⟩ := steep_fits (o := o) X.rows hX hnd (ent T) ε hε
  rw [two_mul]
  refine ⟨w, _, h1, forwardProp_ok (net := ⟨oneHidden X.cols (X.rows.length + X.rows.length) o, w, cr⟩) ⟨rfl, rfl, hX⟩ (oneHidden_lines _ _ _) h1,
    by simp [hT.1], hT.2.1.symm, fun i hi j hj => ?_⟩
  rw [hT.1] at hi
  rw [hT.2.1] at hj
  have := h2 i X.rows[i] (List.getElem?_eq_getElem hi) j hj
  unfold ent at this ⊢
  rw [getD_lt (l := X.rows.map _) _ (by simpa using hi), List.getElem_map]
  exact this

theorem logistic_reaches {t ε : ℝ} (h0 : 0 ≤ t) (h1 : t ≤ 1) (hε : 0 < ε) : ∃ z, |logistic z - t| < ε := by
  rcases lt_or_ge (logistic 0) t with h | h
  · rcases h1.lt_or_eq with h1 | rfl
    · obtain ⟨z, hz⟩ := (logistic_atTop.eventually (lt_mem_nhds h1)).exists
      have hc : Continuous logistic := by
        unfold logistic
        exact continuous_const.div (continuous_const.add (Real.continuous_exp.comp continuous_neg)) fun x => by positivity
      obtain ⟨y, hy⟩ := mem_range_of_exists_le_of_exists_ge hc ⟨0, h.le⟩ ⟨z, le_of_lt hz⟩
      exact ⟨y, by rw [hy, sub_self, abs_zero]; exact hε⟩
    · obtain ⟨z, hz⟩ := ((Metric.tendsto_nhds.1 logistic_atTop) ε hε).exists
      exact ⟨z, by simpa [Real.dist_eq] using hz⟩
  · rcases h0.lt_or_eq with h0 | rfl
    · obtain ⟨z, hz⟩ := (logistic_atBot.eventually (gt_mem_nhds h0)).exists
      have hc : Continuous logistic := by
        unfold logistic
        exact continuous_const.div (continuous_const.add (Real.continuous_exp.comp continuous_neg)) fun x => by positivity
      obtain ⟨y, hy⟩ := mem_range_of_exists_le_of_exists_ge hc ⟨z, le_of_lt hz⟩ ⟨0, h⟩
      exact ⟨y, by rw [hy, sub_self, abs_zero]; exact hε⟩
    · obtain ⟨z, hz⟩ := ((Metric.tendsto_nhds.1 logistic_atBot) ε hε).exists
      exact ⟨z, by simpa [Real.dist_eq] using hz⟩

theorem logistic_step {a b : ℝ} (h : b ≤ a) : logistic a - logistic b ≤ a - b := by
  unfold logistic
  have ha := Real.exp_pos (-a)
  have hb := Real.exp_pos (-b)
  have he : Real.exp (-a) = Real.exp (-b) * Real.exp (-(a - b)) := by rw [← Real.exp_add]; ring_nf
  have h1 : 1 - (a - b) ≤ Real.exp (-(a - b)) := by have := Real.add_one_le_exp (-(a - b)); linarith
  rw [div_sub_div _ _ (by positivity) (by positivity), div_le_iff₀ (by positivity)]
  have h2 : Real.exp (-b) - Real.exp (-a) ≤ Real.exp (-b) * (a - b) := by rw [he]; nlinarith
  have h3 : 0 ≤ (a - b) * (1 + Real.exp (-a) + Real.exp (-a) * Real.exp (-b)) := mul_nonneg (by linarith) (by positivity)
  nlinarith

theorem logistic_near (a b : ℝ) : |logistic a - logistic b| ≤ |a - b| := by
  rcases le_total b a with h | h
  · rw [abs_of_nonneg (sub_nonneg.2 (logistic_strictMono.monotone h)), abs_of_nonneg (sub_nonneg.2 h)]
    exact logistic_step h
  · rw [abs_sub_comm, abs_sub_comm a, abs_of_nonneg (sub_nonneg.2 (logistic_strictMono.monotone h)), abs_of_nonneg (sub_nonneg.2 h)]
    exact logistic_step h

theorem oneHidden_sigmoid_lines (c h o : ℕ) : LinesUp (oneHidden c h o ++ [.activ sigmoid]) c o :=
  .linear true rfl (.activ _ (.linear true rfl (.activ _ (.nil _))))

theorem totalParams_activ (ls : List (NetLayer ℝ)) (A : Activ ℝ) : totalParams (ls ++ [.activ A]) = totalParams ls := by
  rw [totalParams_append]
  rfl

/-- **C141 (any labels).** The multi-layer perceptron with one hidden layer of two sigmoids for each row can give, up to any error, all
numbers from 0 to 1 as its predictions at different rows: any labels, classes or probabilities. -/
theorem C141_labels (X : Mat ℝ) (hX : X.WF) (hnd : X.rows.Nodup) (T : Mat ℝ) {o : ℕ} (hT : HasShape T X.rows.length o)
    (ht : ∀ i < X.rows.length, ∀ j < o, 0 ≤ ent T i j ∧ ent T i j ≤ 1) (cr : Criterion ℝ) (ε : ℝ)
    (hε : 0 < ε) : ∃ w Y, w.length = totalParams (oneHidden X.cols (2 * X.rows.length) o ++ [.activ sigmoid]) ∧
      (⟨oneHidden X.cols (2 * X.rows.length) o ++ [.activ sigmoid], w, cr⟩ : BaseNet ℝ).forwardProp X = ok Y ∧ CloseTo ε Y T := by
  have hz : ∀ i j, ∃ z, i < X.rows.length → j < o → |logistic z - ent T i j| < ε / 2 := by
    intro i j
    by_cases h : i < X.rows.length ∧ j < o
    · obtain ⟨z, hz⟩ := logistic_reaches (ht i h.1 j h.2).1 (ht i h.1 j h.2).2 (half_pos hε)
      exact ⟨z, fun _ _ => hz⟩
    · exact ⟨0, fun a b => absurd ⟨a, b⟩ h⟩
  choose G hG using hz
  obtain ⟨w, h1, h2⟩ := steep_fits (o := o) X.rows hX hnd G (ε / 2) (half_pos hε)
  rw [two_mul]
  have h1' : w.length = totalParams (oneHidden X.cols (X.rows.length + X.rows.length) o ++ [.activ sigmoid]) := by rw [totalParams_activ]; exact h1
  refine ⟨w, _, h1', forwardProp_ok (net := ⟨oneHidden X.cols (X.rows.length + X.rows.length) o ++ [.activ sigmoid], w, cr⟩) ⟨rfl, rfl, hX⟩
    (oneHidden_sigmoid_lines _ _ _) h1', by simp [hT.1], hT.2.1.symm, fun i hi j hj => ?_⟩
  rw [hT.1] at hi
  rw [hT.2.1] at hj
  have h3 := h2 i X.rows[i] (List.getElem?_eq_getElem hi) j hj
  have hlen : (netRow (oneHidden X.cols (X.rows.length + X.rows.length) o) w X.rows[i]).length = o :=
    netRow_length (oneHidden_lines _ _ _) w _ (hX _ (List.getElem_mem hi))
  unfold ent at hG ⊢
  rw [getD_lt (l := X.rows.map _) _ (by simpa using hi), List.getElem_map, netRow_append]
  simp only [netRow]
  rw [getD_lt _ (by rw [List.length_map, hlen]; exact hj), List.getElem_map, sigmoid_logistic]
  change |(netRow (oneHidden X.cols (X.rows.length + X.rows.length) o) w X.rows[i]).getD j 0 - G i j| < ε / 2 at h3
  rw [getD_lt _ (by rw [hlen]; exact hj)] at h3
  have h4 := hG i j hi hj
  calc _ = |(logistic ((netRow (oneHidden X.cols (X.rows.length + X.rows.length) o) w X.rows[i])[j]) - logistic (G i j)) +
        (logistic (G i j) - (T.rows.getD i []).getD j 0)| := by congr 1; ring
    _ ≤ _ := abs_add_le _ _
    _ < ε / 2 + ε / 2 := add_lt_add ((logistic_near _ _).trans_lt h3) h4
    _ = ε := by ring

/-- **C141 (cost).** With 0 and 1 for targets, the cross entropy that training minimises has no positive lower bound on this network. -/
theorem C141_cost (X : Mat ℝ) (hX : X.WF) (hn : 0 < X.rows.length) (hnd : X.rows.Nodup) (T : Mat ℝ) {o : ℕ} (hT : HasShape T X.rows.length o)
    (ht : ∀ i < X.rows.length, ∀ j < o, ent T i j = 0 ∨ ent T i j = 1) (w₀ : List ℝ) (ε : ℝ) (hε : 0 < ε) :
    ∃ w cost grad, w.length = totalParams (oneHidden X.cols (2 * X.rows.length) o ++ [.activ sigmoid]) ∧
      (⟨oneHidden X.cols (2 * X.rows.length) o ++ [.activ sigmoid], w₀, ⟨.bce, .none⟩⟩ : BaseNet ℝ).computeGrad w X T = ok (cost, grad) ∧
      0 ≤ cost ∧ cost < ε := by
  have hη : (0 : ℝ) < ε / (o + 1) := by positivity
  have hexp : Real.exp (-(ε / (o + 1))) < 1 := by rw [Real.exp_lt_one_iff]; linarith
  obtain ⟨w, Y, hw, hY, hc1, hc2, hc3⟩ := C141_labels X hX hnd T hT
    (fun i hi j hj => by rcases ht i hi j hj with h | h <;> rw [h] <;> norm_num) ⟨.bce, .none⟩ (1 - Real.exp (-(ε / (o + 1)))) (by linarith)
  have hout := C40_sigmoid_outputs (⟨oneHidden X.cols (2 * X.rows.length) o ++ [.activ sigmoid], w₀, ⟨.bce, .none⟩⟩ : BaseNet ℝ) _ rfl X w
  obtain ⟨cost, grad, g1, g2, -⟩ := C40_backprop (⟨oneHidden X.cols (2 * X.rows.length) o ++ [.activ sigmoid], w₀, ⟨.bce, .none⟩⟩ : BaseNet ℝ) rfl hn X T
    ⟨rfl, rfl, hX⟩ hT (by simp [oneHidden]) (oneHidden_sigmoid_lines _ _ _) (C40_activations _ fun A hA => by
      left; simpa [oneHidden, NetLayer.new] using hA) w hw fun _ => hout
  have hYs : Y = ⟨o, X.rows.map (netRow (oneHidden X.cols (2 * X.rows.length) o ++ [.activ sigmoid]) w)⟩ := by
    have hok := forwardProp_ok (net := (⟨oneHidden X.cols (2 * X.rows.length) o ++ [.activ sigmoid], w, ⟨.bce, .none⟩⟩ : BaseNet ℝ)) (X := X) ⟨rfl, rfl, hX⟩
      (oneHidden_sigmoid_lines _ _ _) hw
    rw [hY] at hok
    injection hok
  have hYsh : HasShape Y X.rows.length o := by
    rw [hYs]
    refine ⟨by simp, rfl, fun r hr => ?_⟩
    obtain ⟨x, hx, rfl⟩ := List.mem_map.1 hr
    exact netRow_length (oneHidden_sigmoid_lines _ _ _) w _ (hX _ hx)
  have hin : ∀ i < X.rows.length, ∀ j < o, 0 < ent Y i j ∧ ent Y i j < 1 := by
    intro i hi j hj
    have hlen : (netRow (oneHidden X.cols (2 * X.rows.length) o ++ [.activ sigmoid]) w X.rows[i]).length = o :=
      netRow_length (oneHidden_sigmoid_lines _ _ _) w _ (hX _ (List.getElem_mem hi))
    rw [hYs]
    unfold ent
    rw [getD_lt (l := X.rows.map _) _ (by simpa using hi), List.getElem_map, getD_lt _ (by rw [hlen]; exact hj)]
    exact hout _ (List.getElem_mem hi) _ (List.getElem_mem _)
  have hcost : ceCost Y T = ok cost := by
    unfold costOfWeights withWeights at g2
    simp only at g2
    rw [hY] at g2
    exact g2
  have hval : ceCost Y T = ok (-(∑ k : Fin X.rows.length × Fin o, (ent T k.1 k.2 * Real.log (ent Y k.1 k.2) + (1 - ent T k.1 k.2) * Real.log (1 - ent Y k.1 k.2))) / X.rows.length) := by
    conv_lhs => rw [eq_matOf hYsh, eq_matOf hT]
    exact ceCost_matOf _ _
  rw [hcost] at hval
  injection hval with hval
  have hn' : (0 : ℝ) < X.rows.length := by exact_mod_cast hn
  have hterm : ∀ k : Fin X.rows.length × Fin o, 0 ≤ -(ent T k.1 k.2 * Real.log (ent Y k.1 k.2) + (1 - ent T k.1 k.2) * Real.log (1 - ent Y k.1 k.2)) ∧
      -(ent T k.1 k.2 * Real.log (ent Y k.1 k.2) + (1 - ent T k.1 k.2) * Real.log (1 - ent Y k.1 k.2)) ≤ ε / (o + 1) := by
    rintro ⟨i, j⟩
    have hi := hin i i.2 j j.2
    have hc := abs_lt.1 (hc3 i (by rw [hT.1]; exact i.2) j (by rw [hT.2.1]; exact j.2))
    have key : ∀ q : ℝ, q < 1 → Real.exp (-(ε / (o + 1))) < q → 0 ≤ -Real.log q ∧ -Real.log q ≤ ε / (o + 1) := by
      intro q h1 h2
      have hq : 0 < q := (Real.exp_pos _).trans h2
      have := Real.log_lt_log (Real.exp_pos _) h2
      rw [Real.log_exp] at this
      exact ⟨by have := Real.log_nonpos hq.le h1.le; linarith, by linarith⟩
    rcases ht i i.2 j j.2 with h | h
    · simp only [h] at hc ⊢
      have := key (1 - ent Y i j) (by linarith) (by linarith)
      simpa using this
    · simp only [h] at hc ⊢
      have := key (ent Y i j) (by linarith) (by linarith)
      simpa using this
  refine ⟨w, cost, grad, hw, g1, ?_, ?_⟩
  · rw [hval, ← Finset.sum_neg_distrib]
    exact div_nonneg (Finset.sum_nonneg fun k _ => (hterm k).1) hn'.le
  · rw [hval, ← Finset.sum_neg_distrib, div_lt_iff₀ hn']
    calc _ ≤ ∑ _k : Fin X.rows.length × Fin o, ε / (o + 1) := Finset.sum_le_sum fun k _ => (hterm k).2
      _ = X.rows.length * (o * (ε / (o + 1))) := by simp [mul_assoc]
      _ < X.rows.length * ε := by
        refine mul_lt_mul_of_pos_left ?_ hn'
        rw [← mul_div_assoc, div_lt_iff₀ (by positivity)]
        nlinarith
      _ = ε * X.rows.length := by ring

/-! ### Without hidden units -/

theorem dot_parallel {k : ℕ} (v : List ℝ) (hv : v.length = k) {a b p q : List ℝ} (ha : a.length = k) (hb : b.length = k) (hp : p.length = k) (hq : q.length = k)
    (h : ∀ i, a.getD i 0 + b.getD i 0 = p.getD i 0 + q.getD i 0) : dot a v + dot b v = dot p v + dot q v := by
  rw [dot_eq_range ha hv, dot_eq_range hb hv, dot_eq_range hp hv, dot_eq_range hq hv, ← Finset.sum_add_distrib, ← Finset.sum_add_distrib]
  exact Finset.sum_congr rfl fun i _ => by rw [← add_mul, ← add_mul, h i]

theorem linear_parallel : ∀ (ls : List (NetLayer ℝ)), (∀ l ∈ ls, ∃ k o b, l = .linear k o b) → ∀ {c o : ℕ}, LinesUp ls c o → ∀ (w a b p q : List ℝ),
    a.length = c → b.length = c → p.length = c → q.length = c → (∀ i, a.getD i 0 + b.getD i 0 = p.getD i 0 + q.getD i 0) →
    ∀ j, (netRow ls w a).getD j 0 + (netRow ls w b).getD j 0 = (netRow ls w p).getD j 0 + (netRow ls w q).getD j 0
  | [], _, _, _, _, _, _, _, _, _, _, _, _, _, h => h
  | .activ A :: _, hl, _, _, _, _, _, _, _, _, _, _, _, _, _ => by
    obtain ⟨k, o, b, e⟩ := hl _ (List.mem_cons_self ..)
    cases e
  | .linear k o bias :: ls, hl, c, d, hlines, w, a, b, p, q, ha, hb, hp, hq, h => by
    cases hlines with
    | linear _ hk rest =>
      simp only [netRow]
      refine linear_parallel ls (fun l h' => hl l (List.mem_cons_of_mem _ h')) rest _ _ _ _ _ (by simp) (by simp) (by simp) (by simp) fun j => ?_
      by_cases hj : j < o
      · rw [getD_map_range o _ j hj, getD_map_range o _ j hj, getD_map_range o _ j hj, getD_map_range o _ j hj]
        cases bias with
        | false =>
          simp only [Bool.false_eq_true, if_false] at hk ⊢
          exact dot_parallel (k := k) _ (by simp) (by rw [ha, hk]) (by rw [hb, hk]) (by rw [hp, hk]) (by rw [hq, hk]) h
        | true =>
          simp only [if_true] at hk ⊢
          refine dot_parallel (k := k) _ (by simp) (by simp [ha, hk]) (by simp [hb, hk]) (by simp [hp, hk]) (by simp [hq, hk]) fun i => ?_
          cases i with
          | zero => simp
          | succ i => simpa using h i
      · have hz : ∀ f : ℕ → ℝ, ((List.range o).map f).getD j 0 = 0 := fun f => by
          rw [getD_ge]
          simpa using hj
        rw [hz, hz, hz, hz]

theorem logistic_side {z : ℝ} : (1 / 2 < logistic z ↔ 0 < z) ∧ (logistic z < 1 / 2 ↔ z < 0) := by
  have h0 : logistic 0 = 1 / 2 := by norm_num [logistic]
  rw [← h0]
  exact ⟨logistic_strictMono.lt_iff_lt, logistic_strictMono.lt_iff_lt⟩

/-- **C141 (without hidden units).** A network of linear layers only, however many and wide, with the sigmoid at its end cannot put two
rows into one class and two others with the same middle into the other: no weights do. -/
theorem C141_no_hidden (ls : List (NetLayer ℝ)) (hlin : ∀ l ∈ ls, ∃ k o b, l = .linear k o b) {c o : ℕ} (hl : LinesUp ls c o) (w : List ℝ)
    (hw : w.length = totalParams ls) (cr : Criterion ℝ) (a b p q : List ℝ) (ha : a.length = c) (hb : b.length = c) (hp : p.length = c) (hq : q.length = c)
    (h : ∀ i, a.getD i 0 + b.getD i 0 = p.getD i 0 + q.getD i 0) :
    ∃ Y, (⟨ls ++ [.activ sigmoid], w, cr⟩ : BaseNet ℝ).forwardProp ⟨c, [a, b, p, q]⟩ = ok Y ∧ HasShape Y 4 o ∧
      ∀ j < o, ¬ (1 / 2 < ent Y 0 j ∧ 1 / 2 < ent Y 1 j ∧ ent Y 2 j < 1 / 2 ∧ ent Y 3 j < 1 / 2) ∧
        ¬ (ent Y 0 j < 1 / 2 ∧ ent Y 1 j < 1 / 2 ∧ 1 / 2 < ent Y 2 j ∧ 1 / 2 < ent Y 3 j) := by
  have hl' : LinesUp (ls ++ [.activ sigmoid]) c o := by
    clear hw h ha hb hp hq
    induction hl with
    | nil c => exact .activ _ (.nil c)
    | linear bias hk rest ih => exact .linear bias hk (ih fun l h' => hlin l (List.mem_cons_of_mem _ h'))
    | activ A rest ih =>
      obtain ⟨k, o', b', e⟩ := hlin _ (List.mem_cons_self ..)
      cases e
  have hsh : HasShape (⟨c, [a, b, p, q]⟩ : Mat ℝ) 4 c := ⟨rfl, rfl, by simp [ha, hb, hp, hq]⟩
  refine ⟨_, forwardProp_ok (net := ⟨ls ++ [.activ sigmoid], w, cr⟩) hsh hl' (by rw [hw, totalParams_activ]), ⟨rfl, rfl, ?_⟩, fun j hj => ?_⟩
  · intro r hr
    obtain ⟨x, hx, rfl⟩ := List.mem_map.1 hr
    exact netRow_length hl' w _ (hsh.2.2 x hx)
  · have hent : ∀ x : List ℝ, x.length = c → (netRow (ls ++ [.activ sigmoid]) w x).getD j 0 = logistic ((netRow ls w x).getD j 0) := by
      intro x hx
      have hlen := netRow_length hl w x hx
      rw [netRow_append]
      simp only [netRow]
      rw [getD_lt _ (by rw [List.length_map, hlen]; exact hj), List.getElem_map, sigmoid_logistic, getD_lt _ (by rw [hlen]; exact hj)]
    have key := linear_parallel ls hlin hl w a b p q ha hb hp hq h j
    simp only [ent, List.map_cons, List.map_nil, List.getD_cons_zero, List.getD_cons_succ, hent a ha, hent b hb, hent p hp, hent q hq]
    simp only [logistic_side.1, logistic_side.2]
    constructor
    · rintro ⟨h1, h2, h3, h4⟩
      linarith
    · rintro ⟨h1, h2, h3, h4⟩
      linarith

/-- **C141 (logistic regression).** Nor can logistic regression, with any parameters. -/
theorem C141_logistic {c : ℕ} (β : List ℝ) (hβ : β.length = c + 1) (a b p q : List ℝ) (ha : a.length = c) (hb : b.length = c) (hp : p.length = c)
    (hq : q.length = c) (h : ∀ i, a.getD i 0 + b.getD i 0 = p.getD i 0 + q.getD i 0) :
    ∃ out, LogReg.predict ⟨some β⟩ (⟨c, [a, b, p, q]⟩ : Mat ℝ) = ok out ∧ ¬ TellsApart out [0, 0, 1, 1] ∧ ¬ TellsApart out [1, 1, 0, 0] := by
  have hX : (⟨c, [a, b, p, q]⟩ : Mat ℝ).WF := by simp [Mat.WF, ha, hb, hp, hq]
  obtain ⟨out, h1, h2⟩ := C102_logistic_predict (⟨.bce, .none⟩ : Criterion ℝ) ⟨c, [a, b, p, q]⟩ hX β hβ
  obtain ⟨Y, g1, g2, g3⟩ := C141_no_hidden [.new c 1] (fun l hl => ⟨c + 1, 1, true, by simpa [NetLayer.new] using hl⟩) (.linear true rfl (.nil 1)) β
    (by simp [totalParams, NetLayer.new, hβ]) (⟨.bce, .none⟩ : Criterion ℝ) a b p q ha hb hp hq h
  have g1' : (⟨[.new c 1, .activ sigmoid], β, ⟨.bce, .none⟩⟩ : BaseNet ℝ).forwardProp ⟨c, [a, b, p, q]⟩ = ok Y := g1
  rw [h2] at g1'
  injection g1' with e
  have hlen : out.length = 4 := by
    have := g2.1
    rw [← e] at this
    simpa [oneColumn] using this
  obtain ⟨y0, y1, y2, y3, rfl⟩ : ∃ y0 y1 y2 y3, out = [y0, y1, y2, y3] := by
    match out, hlen with
    | [y0, y1, y2, y3], _ => exact ⟨y0, y1, y2, y3, rfl⟩
  have g4 := g3 0 one_pos
  rw [← e] at g4
  simp only [oneColumn, ent, List.map_cons, List.map_nil, List.getD_cons_zero, List.getD_cons_succ] at g4
  refine ⟨_, h1, fun hT => ?_, fun hT => ?_⟩
  · exact g4.2 ⟨(hT.2 0 y0 0 rfl rfl).2 rfl, (hT.2 1 y1 0 rfl rfl).2 rfl, (hT.2 2 y2 1 rfl rfl).1 rfl, (hT.2 3 y3 1 rfl rfl).1 rfl⟩
  · exact g4.1 ⟨(hT.2 0 y0 1 rfl rfl).1 rfl, (hT.2 1 y1 1 rfl rfl).1 rfl, (hT.2 2 y2 0 rfl rfl).2 rfl, (hT.2 3 y3 0 rfl rfl).2 rfl⟩

/-- Exclusive or: the corners of a square, opposite corners in the same class. -/
noncomputable def xorData : Mat ℝ := ⟨2, [[0, 0], [1, 1], [0, 1], [1, 0]]⟩

/-- A network with eight hidden units can learn it, -/
example : ∃ w Y, (⟨oneHidden 2 8 1 ++ [.activ sigmoid], w, ⟨.bce, .none⟩⟩ : BaseNet ℝ).forwardProp xorData = ok Y ∧
    CloseTo (1 / 100) Y ⟨1, [[0], [0], [1], [1]]⟩ := by
  obtain ⟨w, Y, -, h2, h3⟩ := C141_labels xorData (by simp [Mat.WF, xorData]) (by simp [xorData]) ⟨1, [[0], [0], [1], [1]]⟩ (o := 1)
    (by simp [HasShape, xorData]) (by
      intro i hi j hj
      have hi' : i < 4 := hi
      interval_cases i <;> interval_cases j <;> norm_num [ent]) ⟨.bce, .none⟩ (1 / 100) (by norm_num)
  exact ⟨w, Y, h2, h3⟩

/-- and logistic regression cannot. -/
example (β : List ℝ) (hβ : β.length = 3) : ∃ out, LogReg.predict ⟨some β⟩ xorData = ok out ∧ ¬ TellsApart out [0, 0, 1, 1] := by
  obtain ⟨out, h1, h2, -⟩ := C141_logistic β hβ [0, 0] [1, 1] [0, 1] [1, 0] rfl rfl rfl rfl fun i => by
    match i with
    | 0 => norm_num
    | 1 => norm_num
    | i + 2 => norm_num
  exact ⟨out, h1, h2⟩

end RM
