import Verif.Props.HiddenUnits

/-! C133: measuring a feature with the opposite sign, and turning a hidden unit with an odd activation around, change nothing. -/

namespace RM
open Outcome Scalar Spec

/-- A choice of signs: each place has the sign `1` or `-1`. -/
def Spec.IsSigns (s : ℕ → ℝ) : Prop := ∀ i, s i = 1 ∨ s i = -1

/-- A list with the entry at each place multiplied by the sign of that place. -/
def Spec.turned (s : ℕ → ℝ) (v : List ℝ) : List ℝ := (List.range v.length).map fun i => s i * v.getD i 0

/-- Data with the columns multiplied by their signs. -/
def Spec.turnCols (s : ℕ → ℝ) (X : Mat ℝ) : Mat ℝ := ⟨X.cols, X.rows.map (turned s)⟩

/-- The sign of a row of weights of a linear layer whose inputs have the signs `s`: the row of a bias comes first and keeps its sign. -/
def Spec.rowSign (bias : Bool) (s : ℕ → ℝ) (i : ℕ) : ℝ := if bias then (if i = 0 then 1 else s (i - 1)) else s i

/-- The signs of the weights of a network whose first layer is linear with `k` rows of `o` weights, when its inputs have the signs `s`. -/
def Spec.featureSigns (s : ℕ → ℝ) (k o : ℕ) (bias : Bool) (t : ℕ) : ℝ := if t < k * o then rowSign bias s (t / o) else 1

/-- The signs of the weights of a network when the `h` units of one hidden layer have the signs `u`: the layer's weights (after `start`
others) in `k` rows of `h`, then the weights of the next linear layer in rows of `o`. -/
def Spec.unitSigns (u : ℕ → ℝ) (k h o : ℕ) (bias : Bool) (start t : ℕ) : ℝ :=
  if t < start then 1
  else if t - start < k * h then u ((t - start) % h)
  else if t - start - k * h < (h + if bias then 1 else 0) * o then rowSign bias u ((t - start - k * h) / o)
  else 1

/-! ### Turned lists -/

theorem turned_length (s : ℕ → ℝ) (v : List ℝ) : (turned s v).length = v.length := by simp [turned]

theorem turned_getD (s : ℕ → ℝ) (v : List ℝ) (i : ℕ) : (turned s v).getD i 0 = s i * v.getD i 0 := by
  unfold turned
  by_cases h : i < v.length
  · simp [List.getD_eq_getElem?_getD, h]
  · rw [List.getD_eq_getElem?_getD, List.getD_eq_getElem?_getD, List.getElem?_eq_none (by simpa using h), List.getElem?_eq_none (by omega)]
    simp

theorem turned_one (v : List ℝ) : turned (fun _ => 1) v = v := by
  unfold turned
  simp only [one_mul]
  exact map_range_getD v

theorem turnCols_one (X : Mat ℝ) : turnCols (fun _ => 1) X = X := by
  unfold turnCols
  rw [show turned (fun _ => 1) = id from funext turned_one, List.map_id]

theorem sign_sq {s : ℕ → ℝ} (hs : IsSigns s) (i : ℕ) : s i * s i = 1 := by rcases hs i with h | h <;> rw [h] <;> norm_num

theorem turned_turned {s : ℕ → ℝ} (hs : IsSigns s) (v : List ℝ) : turned s (turned s v) = v := by
  apply ext_getD (by simp [turned_length])
  intro j _
  rw [turned_getD, turned_getD, ← mul_assoc, sign_sq hs, one_mul]

theorem zipWith_turned (f : ℝ → ℝ → ℝ) (s₁ s₂ s₃ : ℕ → ℝ) (hf : ∀ i a b, f (s₁ i * a) (s₂ i * b) = s₃ i * f a b) (u v : List ℝ) :
    List.zipWith f (turned s₁ u) (turned s₂ v) = turned s₃ (List.zipWith f u v) := by
  apply List.ext_getElem
  · simp [turned_length]
  · intro i h1 h2
    simp only [List.length_zipWith, turned_length] at h1
    have hu : i < u.length := by omega
    have hv : i < v.length := by omega
    simp [turned, List.getElem_zipWith, List.getD_eq_getElem?_getD, hu, hv, hf]

theorem map_turned (f : ℝ → ℝ) (s s' : ℕ → ℝ) (hf : ∀ i a, f (s i * a) = s' i * f a) (v : List ℝ) : (turned s v).map f = turned s' (v.map f) := by
  apply List.ext_getElem
  · simp [turned_length]
  · intro i h1 h2
    simp only [List.length_map, turned_length] at h1
    simp [turned, List.getD_eq_getElem?_getD, h1, hf]

theorem vecScale_turned (s : ℕ → ℝ) (v : List ℝ) (c : ℝ) : vecScale (turned s v) c = turned s (vecScale v c) :=
  map_turned _ s s (fun i a => mul_assoc (s i) a c) v

theorem vecZip_turned (f : ℝ → ℝ → ℝ) (s₁ s₂ s₃ : ℕ → ℝ) (hf : ∀ i a b, f (s₁ i * a) (s₂ i * b) = s₃ i * f a b) {u v : List ℝ} (h : u.length = v.length) :
    vecZip f u v = ok (List.zipWith f u v) ∧ vecZip f (turned s₁ u) (turned s₂ v) = ok (turned s₃ (List.zipWith f u v)) := by
  unfold vecZip
  rw [if_pos h, if_pos (by simp [turned_length, h]), zipWith_turned f s₁ s₂ s₃ hf]
  exact ⟨rfl, rfl⟩

theorem inPlaceBin_turned (f : ℝ → ℝ → ℝ) (s₁ s₂ s₃ : ℕ → ℝ) (hf : ∀ i a b, f (s₁ i * a) (s₂ i * b) = s₃ i * f a b) {u v : List ℝ} (h : u.length = v.length) :
    (inPlaceBin f u v).length = u.length ∧ inPlaceBin f (turned s₁ u) (turned s₂ v) = turned s₃ (inPlaceBin f u v) := by
  have e : ∀ a b : List ℝ, a.length = b.length → inPlaceBin f a b = List.zipWith f a b := by
    intro a b hab
    unfold inPlaceBin
    rw [List.drop_of_length_le (by omega), List.append_nil]
  rw [e u v h, e _ _ (by simp [turned_length, h]), zipWith_turned f s₁ s₂ s₃ hf]
  exact ⟨by simp [h], rfl⟩

theorem dot_turned {s : ℕ → ℝ} (hs : IsSigns s) (u v : List ℝ) : dot (turned s u) (turned s v) = dot u v := by
  rw [dot_real, dot_real, zipWith_turned (· * ·) s s (fun _ => 1) (fun i a b => by
    rw [show s i * a * (s i * b) = s i * s i * (a * b) by ring, sign_sq hs]), turned_one]

theorem turned_replicate (s : ℕ → ℝ) (n : ℕ) : turned s (List.replicate n (0 : ℝ)) = List.replicate n 0 := by
  apply ext_getD (by simp [turned_length])
  intro j hj
  rw [turned_getD]
  have : (List.replicate n (0 : ℝ)).getD j 0 = 0 := by
    simp only [List.getD_eq_getElem?_getD, List.getElem?_replicate]
    split_ifs <;> rfl
  rw [this, mul_zero]

theorem turned_map_range (s : ℕ → ℝ) (n : ℕ) (f : ℕ → ℝ) : turned s ((List.range n).map f) = (List.range n).map fun i => s i * f i := by
  apply ext_getD (by simp [turned_length])
  intro j hj
  simp only [turned_length, List.length_map, List.length_range] at hj
  rw [turned_getD]
  simp [List.getD_eq_getElem?_getD, hj]

theorem rowSign_signs {s : ℕ → ℝ} (hs : IsSigns s) (b : Bool) : IsSigns (rowSign b s) := by
  intro i
  unfold rowSign
  split_ifs
  · exact Or.inl rfl
  · exact hs _
  · exact hs _

theorem featureSigns_signs {s : ℕ → ℝ} (hs : IsSigns s) (k o : ℕ) (b : Bool) : IsSigns (featureSigns s k o b) := by
  intro t
  unfold featureSigns
  split_ifs
  · exact rowSign_signs hs b _
  · exact Or.inl rfl

theorem unitSigns_signs {u : ℕ → ℝ} (hu : IsSigns u) (k h o : ℕ) (b : Bool) (start : ℕ) : IsSigns (unitSigns u k h o b start) := by
  intro t
  unfold unitSigns
  split
  · exact Or.inl rfl
  · split
    · exact hu _
    · by_cases hc : t - start - k * h < (h + if b then 1 else 0) * o
      · rw [if_pos hc]
        exact rowSign_signs hu _ _
      · rw [if_neg hc]
        exact Or.inl rfl

theorem unitSigns_before (u : ℕ → ℝ) (k h o : ℕ) (b : Bool) {start t : ℕ} (ht : t < start) : unitSigns u k h o b start t = 1 := by
  unfold unitSigns
  rw [if_pos ht]

theorem block_lt {m n i j : ℕ} (hi : i < m) (hj : j < n) : i * n + j < m * n := by
  calc i * n + j < i * n + n := by omega
    _ = (i + 1) * n := by ring
    _ ≤ m * n := Nat.mul_le_mul_right n hi

theorem unitSigns_in (u : ℕ → ℝ) {k h : ℕ} (o : ℕ) (b : Bool) (start : ℕ) {i j : ℕ} (hi : i < k) (hj : j < h) :
    unitSigns u k h o b start (start + (i * h + j)) = u j := by
  unfold unitSigns
  have e : start + (i * h + j) - start = i * h + j := by omega
  rw [if_neg (by omega), e, if_pos (block_lt hi hj), Nat.mul_comm, Nat.mul_add_mod, Nat.mod_eq_of_lt hj]

theorem unitSigns_out (u : ℕ → ℝ) (k h : ℕ) {o : ℕ} (b : Bool) (start : ℕ) {i e : ℕ} (hi : i < h + if b then 1 else 0) (he : e < o) :
    unitSigns u k h o b start (start + (k * h + (i * o + e))) = rowSign b u i := by
  unfold unitSigns
  have e1 : start + (k * h + (i * o + e)) - start = k * h + (i * o + e) := by omega
  have e2 : k * h + (i * o + e) - k * h = i * o + e := by omega
  rw [if_neg (by omega), e1, if_neg (by omega), e2, if_pos (block_lt hi he), Nat.mul_comm i, Nat.mul_add_div (by omega), Nat.div_eq_of_lt he, Nat.add_zero]

theorem unitSigns_after (u : ℕ → ℝ) (k h o : ℕ) (b : Bool) (start t : ℕ) :
    unitSigns u k h o b start (start + (k * h + ((h + if b then 1 else 0) * o + t))) = 1 := by
  unfold unitSigns
  rw [if_neg (by omega), if_neg (by omega), if_neg (by omega)]

theorem withBias_turned (b : Bool) (s : ℕ → ℝ) (x : List ℝ) :
    (if b then (Scalar.one : ℝ) :: turned s x else turned s x) = turned (rowSign b s) (if b then (Scalar.one : ℝ) :: x else x) := by
  cases b with
  | false =>
    have : rowSign false s = s := by funext i; simp [rowSign]
    simp [this]
  | true =>
    apply ext_getD (by simp [turned_length])
    intro j _
    rw [turned_getD]
    cases j with
    | zero => simp [rowSign]
    | succ j =>
      have := turned_getD s x j
      simp only [List.getD_eq_getElem?_getD] at this
      simp [rowSign, this]

/-! ### The optimisers -/

theorem gdLoop_turned (alpha : ℝ) {n : ℕ} (s : ℕ → ℝ) {g g' : List ℝ → Outcome (ℝ × List ℝ)}
    (hg : ∀ w c d, w.length = n → g w = ok (c, d) → d.length = n ∧ g' (turned s w) = ok (c, turned s d)) :
    ∀ (k : ℕ) (w : List ℝ) (prev : ℝ) (r : List ℝ), w.length = n → (gdLoop alpha g k w prev).out = ok r →
      r.length = n ∧ (gdLoop alpha g' k (turned s w) prev).out = ok (turned s r)
  | 0, w, prev, r, hw, hr => by cases hr; exact ⟨hw, rfl⟩
  | k + 1, w, prev, r, hw, hr => by
    rw [gdLoop, Logged.out_bind] at hr
    rw [gdLoop, Logged.out_bind]
    obtain ⟨p, hp, hr⟩ := bind_eq_ok.1 hr
    obtain ⟨c, d⟩ := p
    obtain ⟨hd, hg'⟩ := hg w c d hw hp
    show r.length = n ∧ (g' (turned s w) >>= _) = _
    rw [hg', ok_bind]
    split at hr
    · rename_i hc
      rw [if_pos hc]
      cases hr
      exact ⟨hw, rfl⟩
    · rename_i hc
      rw [if_neg hc]
      rw [Logged.out_bind] at hr ⊢
      have hl : (vecScale d alpha).length = n := by simp [vecScale, hd]
      have hz := vecZip_turned Scalar.sub s s s (fun i a b => (mul_sub (s i) a b).symm) (hw.trans hl.symm)
      change (vecZip _ _ _ >>= _) = _ at hr
      show _ ∧ (vecZip _ _ _ >>= _) = _
      rw [hz.1, ok_bind] at hr
      rw [vecScale_turned, hz.2, ok_bind]
      exact gdLoop_turned alpha s hg k _ c r (by simp [hw, hl]) hr

theorem stochPass_turned {upd : List ℝ → List ℝ → List ℝ → Outcome (List ℝ × List ℝ)} {n : ℕ} (ε s s' : ℕ → ℝ)
    (hu : ∀ w a d, w.length = n → a.length = n → d.length = n → ∃ w' a', upd w a d = ok (w', a') ∧ w'.length = n ∧ a'.length = n ∧
      upd (turned s w) (turned s' a) (turned s d) = ok (turned s w', turned s' a'))
    {g g' : ComputeGrad ℝ} {X T : Mat ℝ}
    (hg : ∀ w i x t c d, w.length = n → X.selectRows [i] = ok x → T.selectRows [i] = ok t → g w x t = ok (c, d) →
      d.length = n ∧ g' (turned s w) (turnCols ε x) t = ok (c, turned s d)) :
    ∀ (is : List ℕ) (w a : List ℝ) (c : ℝ) (r : List ℝ × List ℝ × ℝ), w.length = n → a.length = n → (stochPass upd g X T is (w, a, c)).out = ok r →
      r.1.length = n ∧ r.2.1.length = n ∧
      (stochPass upd g' (turnCols ε X) T is (turned s w, turned s' a, c)).out = ok (turned s r.1, turned s' r.2.1, r.2.2)
  | [], w, a, c, r, hw, ha, hs => by cases hs; exact ⟨hw, ha, rfl⟩
  | i :: is, w, a, c, r, hw, ha, hs => by
    have hsel : (turnCols ε X).selectRows [i] = turnCols ε <$> X.selectRows [i] := by
      unfold Mat.selectRows turnCols getAt
      simp only [List.mapM_cons, List.mapM_nil, List.getElem?_map]
      cases X.rows[i]? <;> rfl
    rw [stochPass] at hs
    simp only [Logged.out_bind] at hs
    obtain ⟨x, hx, hs⟩ := bind_eq_ok.1 hs
    obtain ⟨t, ht, hs⟩ := bind_eq_ok.1 hs
    obtain ⟨p, hp, hs⟩ := bind_eq_ok.1 hs
    obtain ⟨u, hu', hs⟩ := bind_eq_ok.1 hs
    obtain ⟨c', d⟩ := p
    change X.selectRows [i] = ok x at hx
    change T.selectRows [i] = ok t at ht
    change g w x t = ok (c', d) at hp
    change upd w a d = ok u at hu'
    obtain ⟨hd, hg'⟩ := hg w i x t c' d hw hx ht hp
    obtain ⟨w', a', u1, u2, u3, u4⟩ := hu w a d hw ha hd
    rw [hu'] at u1
    cases u1
    rw [stochPass]
    simp only [Logged.out_bind]
    show _ ∧ _ ∧ ((turnCols ε X).selectRows [i] >>= _) = _
    rw [hsel, hx, ok_map, ok_bind]
    show _ ∧ _ ∧ (T.selectRows [i] >>= _) = _
    rw [ht, ok_bind]
    show _ ∧ _ ∧ (g' (turned s w) (turnCols ε x) t >>= _) = _
    rw [hg', ok_bind]
    show _ ∧ _ ∧ (upd (turned s w) (turned s' a) (turned s d) >>= _) = _
    rw [u4, ok_bind]
    exact stochPass_turned ε s s' hu hg is w' a' _ r u2 u3 hs

theorem stochLoop_turned {upd : List ℝ → List ℝ → List ℝ → Outcome (List ℝ × List ℝ)} {n : ℕ} (ε s s' : ℕ → ℝ)
    (hu : ∀ w a d, w.length = n → a.length = n → d.length = n → ∃ w' a', upd w a d = ok (w', a') ∧ w'.length = n ∧ a'.length = n ∧
      upd (turned s w) (turned s' a) (turned s d) = ok (turned s w', turned s' a'))
    {g g' : ComputeGrad ℝ} {X T : Mat ℝ}
    (hg : ∀ w i x t c d, w.length = n → X.selectRows [i] = ok x → T.selectRows [i] = ok t → g w x t = ok (c, d) →
      d.length = n ∧ g' (turned s w) (turnCols ε x) t = ok (c, turned s d)) (r : ℕ → ℕ → ℕ) :
    ∀ (k e : ℕ) (perm : List ℕ) (w a : List ℝ) (prev : ℝ) (v : List ℝ), w.length = n → a.length = n → (stochLoop upd g X T r k e perm w a prev).out = ok v →
      v.length = n ∧ (stochLoop upd g' (turnCols ε X) T r k e perm (turned s w) (turned s' a) prev).out = ok (turned s v)
  | 0, e, perm, w, a, prev, v, hw, ha, hs => by cases hs; exact ⟨hw, rfl⟩
  | k + 1, e, perm, w, a, prev, v, hw, ha, hs => by
    rw [stochLoop] at hs
    simp only [Logged.out_bind] at hs
    obtain ⟨q, hq, hs⟩ := bind_eq_ok.1 hs
    obtain ⟨p, hp, hs⟩ := bind_eq_ok.1 hs
    obtain ⟨l1, l2, hp'⟩ := stochPass_turned ε s s' hu hg q w a Scalar.zero p hw ha hp
    rw [stochLoop]
    simp only [Logged.out_bind]
    rw [hq, ok_bind, hp', ok_bind, show (turnCols ε X).rows.length = X.rows.length by simp [turnCols]]
    split at hs
    · rename_i hc
      cases hs
      rw [if_pos hc]
      exact ⟨l1, rfl⟩
    · rename_i hc
      rw [if_neg hc]
      exact stochLoop_turned ε s s' hu hg r k (e + 1) q p.1 p.2.1 _ v l1 l2 hs

theorem sgdUpdate_turned {n : ℕ} (s : ℕ → ℝ) (alpha mu : ℝ) (w a d : List ℝ) (hw : w.length = n) (ha : a.length = n) (hd : d.length = n) :
    ∃ w' a', sgdUpdate alpha mu w a d = ok (w', a') ∧ w'.length = n ∧ a'.length = n ∧
      sgdUpdate alpha mu (turned s w) (turned s a) (turned s d) = ok (turned s w', turned s a') := by
  have hs : ∀ (v : List ℝ) (c : ℝ), v.length = n → (vecScale v c).length = n := fun v c hv => by simp [vecScale, hv]
  have hz : ∀ (f : ℝ → ℝ → ℝ) (u v : List ℝ), u.length = n → v.length = n → (List.zipWith f u v).length = n := fun f u v hu hv => by simp [hu, hv]
  have hadd : ∀ i a b, Scalar.add (s i * a) (s i * b) = s i * Scalar.add a b := fun i a b => (mul_add (s i) a b).symm
  have h1 := vecZip_turned Scalar.add s s s hadd ((hs d mu hd).trans (hs a alpha ha).symm)
  have l1 := hz Scalar.add _ _ (hs d mu hd) (hs a alpha ha)
  have h2 := vecZip_turned Scalar.add s s s hadd ((hs a (Scalar.neg alpha) ha).trans (hs _ (Scalar.one +. alpha) l1).symm)
  have l2 := hz Scalar.add _ _ (hs a (Scalar.neg alpha) ha) (hs _ (Scalar.one +. alpha) l1)
  have h3 := vecZip_turned Scalar.sub s s s (fun i a b => (mul_sub (s i) a b).symm) (hw.trans l2.symm)
  refine ⟨_, _, ?_, hz Scalar.sub _ _ hw l2, l1, ?_⟩
  · unfold sgdUpdate
    rw [h1.1, ok_bind, h2.1, ok_bind, h3.1, ok_bind]
  · unfold sgdUpdate
    rw [vecScale_turned, vecScale_turned, h1.2, ok_bind, vecScale_turned, vecScale_turned, h2.2, ok_bind, h3.2, ok_bind]

theorem adaUpdate_turned {n : ℕ} {s : ℕ → ℝ} (hs : IsSigns s) (alpha tau : ℝ) (w a d : List ℝ) (hw : w.length = n) (ha : a.length = n) (hd : d.length = n) :
    ∃ w' a', adaUpdate alpha tau w a d = ok (w', a') ∧ w'.length = n ∧ a'.length = n ∧
      adaUpdate alpha tau (turned s w) (turned (fun _ => 1) a) (turned s d) = ok (turned s w', turned (fun _ => 1) a') := by
  have h1 := inPlaceBin_turned (fun x y : ℝ => x +. y *. y) (fun _ => 1) s (fun _ => 1) (fun i a b => by
    show 1 * a + s i * b * (s i * b) = 1 * (a + b * b)
    rw [show s i * b * (s i * b) = s i * s i * (b * b) by ring, sign_sq hs]; ring) (ha.trans hd.symm)
  have l1 := h1.1.trans ha
  have h2 := inPlaceBin_turned (fun x y : ℝ => alpha *. (x /. (tau +. Scalar.sqrt y))) s (fun _ => 1) s (fun i a b => by
    show alpha * (s i * a / (tau + Real.sqrt (1 * b))) = s i * (alpha * (a / (tau + Real.sqrt b)))
    rw [one_mul]; ring) (hd.trans l1.symm)
  have l2 := h2.1.trans hd
  have h3 := vecZip_turned Scalar.sub s s s (fun i a b => (mul_sub (s i) a b).symm) (hw.trans l2.symm)
  refine ⟨_, _, (by unfold adaUpdate; simp only; rw [h3.1, ok_bind]), ?_, l1, ?_⟩
  · exact List.length_zipWith.trans (by rw [hw]; exact (congrArg (min n) l2).trans (min_self n))
  · unfold adaUpdate
    simp only
    rw [h1.2, h2.2, h3.2, ok_bind]

theorem rmsUpdate_turned {n : ℕ} {s : ℕ → ℝ} (hs : IsSigns s) (lr decay eps : ℝ) (w a d : List ℝ) (hw : w.length = n) (ha : a.length = n) (hd : d.length = n) :
    ∃ w' a', rmsUpdate lr decay eps w a d = ok (w', a') ∧ w'.length = n ∧ a'.length = n ∧
      rmsUpdate lr decay eps (turned s w) (turned (fun _ => 1) a) (turned s d) = ok (turned s w', turned (fun _ => 1) a') := by
  have hsq : (turned s d).map (fun x => x *. x) = turned (fun _ => 1) (d.map fun x => x *. x) := map_turned _ s _ (fun i a => by
    show s i * a * (s i * a) = 1 * (a * a)
    rw [show s i * a * (s i * a) = s i * s i * (a * a) by ring, sign_sq hs]) d
  have hq : (d.map fun x => x *. x).length = n := by simp [hd]
  have hl : (vecScale a decay).length = (vecScale (d.map fun x => x *. x) (Scalar.one -. decay)).length := by simp [vecScale, ha, hd]
  have h1 := vecZip_turned Scalar.add (fun _ => 1) (fun _ => 1) (fun _ => 1) (fun i a b => (mul_add (1 : ℝ) a b).symm) hl
  have l1 : (List.zipWith Scalar.add (vecScale a decay) (vecScale (d.map fun x => x *. x) (Scalar.one -. decay))).length = n := by simp [vecScale, ha, hd]
  have h2 := inPlaceBin_turned (fun x y : ℝ => (x *. lr) /. Scalar.sqrt (y +. eps)) s (fun _ => 1) s (fun i a b => by
    show s i * a * lr / Real.sqrt (1 * b + eps) = s i * (a * lr / Real.sqrt (b + eps))
    rw [one_mul]; ring) (hd.trans l1.symm)
  have l2 := h2.1.trans hd
  have h3 := vecZip_turned Scalar.sub s s s (fun i a b => (mul_sub (s i) a b).symm) (hw.trans l2.symm)
  refine ⟨_, _, (by unfold rmsUpdate; simp only; rw [h1.1, ok_bind, h3.1, ok_bind]), ?_, l1, ?_⟩
  · exact List.length_zipWith.trans (by rw [hw]; exact (congrArg (min n) l2).trans (min_self n))
  · unfold rmsUpdate
    simp only
    rw [hsq, vecScale_turned, vecScale_turned, h1.2, ok_bind, h2.2, h3.2, ok_bind]

theorem optimisers_turned {n : ℕ} {ε s : ℕ → ℝ} (hs : IsSigns s) {g g' : ComputeGrad ℝ} {X T : Mat ℝ}
    (hg : ∀ w c d, w.length = n → g w X T = ok (c, d) → d.length = n ∧ g' (turned s w) (turnCols ε X) T = ok (c, turned s d))
    (hg1 : ∀ w i x t c d, w.length = n → X.selectRows [i] = ok x → T.selectRows [i] = ok t → g w x t = ok (c, d) →
      d.length = n ∧ g' (turned s w) (turnCols ε x) t = ok (c, turned s d))
    (start w : List ℝ) (hst : start.length = n) {train : ComputeGrad ℝ → List ℝ → Mat ℝ → Mat ℝ → Outcome (List ℝ)} (ht : IsTrainer train)
    (hw : train g start X T = ok w) : w.length = n ∧ train g' (turned s start) (turnCols ε X) T = ok (turned s w) := by
  have key : ∀ (upd : List ℝ → List ℝ → List ℝ → Outcome (List ℝ × List ℝ)) (iters : ℕ) (r : ℕ → ℕ → ℕ) (s' : ℕ → ℝ)
      (_ : ∀ w a d, w.length = n → a.length = n → d.length = n → ∃ w' a', upd w a d = ok (w', a') ∧ w'.length = n ∧ a'.length = n ∧
        upd (turned s w) (turned s' a) (turned s d) = ok (turned s w', turned s' a')),
      (stochOptimize upd iters g r start X T).out = ok w → w.length = n ∧ (stochOptimize upd iters g' r (turned s start) (turnCols ε X) T).out = ok (turned s w) := by
    intro upd iters r s' hu hw
    unfold stochOptimize at hw ⊢
    rw [hst] at hw
    rw [turned_length, hst, show (turnCols ε X).rows.length = X.rows.length by simp [turnCols]]
    have := stochLoop_turned ε s s' hu hg1 r iters 0 (List.range X.rows.length) start (List.replicate n Scalar.zero) Scalar.zero w hst (by simp) hw
    have hr : turned s' (List.replicate n (Scalar.zero : ℝ)) = List.replicate n Scalar.zero := turned_replicate s' n
    rwa [hr] at this
  rcases ht with ⟨o, rfl⟩ | ⟨o, r, rfl⟩ | ⟨o, r, rfl⟩ | ⟨o, r, rfl⟩
  · exact gdLoop_turned o.alpha s (g := fun w => g w X T) (g' := fun w => g' w (turnCols ε X) T) hg o.iters start Scalar.zero w hst hw
  · exact key _ _ r s (fun w a d => sgdUpdate_turned s o.alpha o.mu w a d) hw
  · exact key _ _ r (fun _ => 1) (fun w a d => adaUpdate_turned hs o.alpha o.tau w a d) hw
  · exact key _ _ r (fun _ => 1) (fun w a d => rmsUpdate_turned hs o.learningRate o.decayRate o.epsilon w a d) hw

/-! ### The gradient of a network -/

/-- If `f'` is `f` with its arguments turned, the gradient of `f'` is the gradient of `f` turned. -/
theorem gradient_turned {n : ℕ} {s : ℕ → ℝ} (hs : IsSigns s) {f f' : List ℝ → Outcome ℝ} {g g' w : List ℝ} (hw : w.length = n)
    (hf : ∀ v : List ℝ, v.length = n → f' (turned s v) = f v) (h1 : ListGradientAt f g w) (h2 : ListGradientAt f' g' (turned s w)) :
    g' = turned s g := by
  obtain ⟨l1, c, c1, c2⟩ := listGradient_length hw h1
  obtain ⟨l2, c', c1', c2'⟩ := listGradient_length (show (turned s w).length = n by rw [turned_length, hw]) h2
  have hre : ∀ v : Fin n → ℝ, turned s (List.ofFn v) = List.ofFn fun i : Fin n => s i * v i := by
    intro v
    apply ext_getD (by simp [turned_length])
    intro j hj
    simp only [turned_length, List.length_ofFn] at hj
    rw [turned_getD]
    simp [List.getD_eq_getElem?_getD, hj]
  have hinv : (fun v : Fin n → ℝ => c' fun i : Fin n => s i * v i) = c := by
    funext v
    have := hf (List.ofFn v) (by simp)
    rw [hre, c1', c1] at this
    injection this
  have hx : (fun k : Fin n => (turned s w).getD k 0) = fun k : Fin n => s k * w.getD k 0 := funext fun k => turned_getD s w k
  rw [hx] at c2'
  let L : (Fin n → ℝ) →L[ℝ] (Fin n → ℝ) := ContinuousLinearMap.pi fun i : Fin n => s i • ContinuousLinearMap.proj i
  have hcomp : HasFDerivAt (fun v : Fin n → ℝ => c' fun i : Fin n => s i * v i)
      ((∑ k : Fin n, g'.getD k 0 • (ContinuousLinearMap.proj k : (Fin n → ℝ) →L[ℝ] ℝ)).comp L) (fun k => w.getD k 0) :=
    HasFDerivAt.comp (g := c') (f := fun v => L v) (fun k : Fin n => w.getD k 0) c2' L.hasFDerivAt
  rw [hinv] at hcomp
  have huniq := hcomp.unique c2
  apply ext_getD (by rw [l2, turned_length, l1])
  intro j hj
  rw [l2] at hj
  have hj' := congrArg (fun M : (Fin n → ℝ) →L[ℝ] ℝ => M (Pi.single ⟨j, hj⟩ 1)) huniq
  have hj'' : g'.getD j 0 * s j = g.getD j 0 := by
    simpa [_root_.sum_apply, Pi.single_apply, L] using hj'
  rw [turned_getD, ← hj'', show s j * (g'.getD j 0 * s j) = s j * s j * g'.getD j 0 by ring, sign_sq hs, one_mul]

/-- A regularisation without an L1 term. -/
def Spec.NoL1 (r : Reg ℝ) : Prop := r = .none ∨ ∃ x, r = .l2 x

theorem turnCols_shape {X : Mat ℝ} {n c : ℕ} (hX : HasShape X n c) (ε : ℕ → ℝ) : HasShape (turnCols ε X) n c := by
  refine ⟨by simpa [turnCols] using hX.1, hX.2.1, ?_⟩
  intro r hr
  obtain ⟨q, hq, rfl⟩ := List.mem_map.mp hr
  rw [turned_length]
  exact hX.2.2 q hq

theorem l2_turned {s : ℕ → ℝ} (hs : IsSigns s) (x : ℝ) (w : List ℝ) :
    regCost (.l2 x) (column (turned s w)) = regCost (.l2 x) (column w) := by
  show l2Cost (⟨1, (turned s w).map fun x => [x]⟩ : Mat ℝ) x = l2Cost ⟨1, w.map fun x => [x]⟩ x
  have e : (turned s w).map (fun a => a *. a) = w.map fun a => a *. a := by
    rw [map_turned (fun a : ℝ => a *. a) s (fun _ => 1) (fun i a => by
      show s i * a * (s i * a) = 1 * (a * a)
      rw [show s i * a * (s i * a) = s i * s i * (a * a) by ring, sign_sq hs]) w, turned_one]
  unfold l2Cost Mat.data
  simp only [singles_flatten, List.length_map, turned_length, e]

/-- A symmetry of the function of a network, with signs, is a symmetry of its gradient. -/
theorem turned_gradient (net : BaseNet ℝ) {n c d : ℕ} (hn : 0 < n) {X T : Mat ℝ} (hX : HasShape X n c) (hT : HasShape T n d) (hne : net.layers ≠ [])
    (hl : LinesUp net.layers c d) (hA : GoodActivations net) (hb : net.criterion.kind = .bce → ∀ X w, OutputsInside net X w)
    (hr : NoL1 net.criterion.reg) {ε s : ℕ → ℝ} (hs : IsSigns s) (hsym : ∀ w x, netRow net.layers (turned s w) (turned ε x) = netRow net.layers w x)
    (w : List ℝ) (hw : w.length = totalParams net.layers) (cost : ℝ) (g : List ℝ) (hg : net.computeGrad w X T = ok (cost, g)) :
    g.length = totalParams net.layers ∧ net.computeGrad (turned s w) (turnCols ε X) T = ok (cost, turned s g) := by
  have hX' := turnCols_shape hX ε
  have hrl : ∀ v : List ℝ, v.length = totalParams net.layers → (turned s v).length = totalParams net.layers := fun v hv => by rw [turned_length, hv]
  have hcost : ∀ v : List ℝ, v.length = totalParams net.layers → costOfWeights net (turnCols ε X) T (turned s v) = costOfWeights net X T v := by
    intro v hv
    unfold costOfWeights
    have f1 := forwardProp_ok (net := withWeights net (turned s v)) hX' hl (hrl v hv)
    have f2 := forwardProp_ok (net := withWeights net v) hX hl hv
    rw [f1, f2]
    have : (turnCols ε X).rows.map (netRow (withWeights net (turned s v)).layers (withWeights net (turned s v)).weights) =
        X.rows.map (netRow (withWeights net v).layers (withWeights net v).weights) := by
      show (X.rows.map (turned ε)).map _ = _
      rw [List.map_map]
      exact List.map_congr_left fun x _ => hsym v x
    rw [this]
  have hscaled : ∀ v : List ℝ, v.length = totalParams net.layers → scaledCost n net (turnCols ε X) T (turned s v) = scaledCost n net X T v := by
    intro v hv
    unfold scaledCost
    rw [hcost v hv]
  rcases hr with hreg | ⟨lam, hreg⟩
  · obtain ⟨c1, g1, a1, a2, a3⟩ := C40_backprop net hreg hn X T hX hT hne hl hA w hw fun h => hb h X w
    obtain ⟨c2, g2, b1, b2, b3⟩ := C40_backprop net hreg hn _ T hX' hT hne hl hA (turned s w) (hrl w hw) fun h => hb h _ _
    rw [a1] at hg
    cases hg
    rw [hcost w hw, a2] at b2
    cases b2
    rw [b1, gradient_turned hs hw hscaled a3 b3]
    exact ⟨a3.1.trans hw, rfl⟩
  · have hne' : net.criterion.reg ≠ .none := by rw [hreg]; simp
    obtain ⟨c1, g1, R1, a1, a2, a3, a4, a5⟩ := C40_regularised net hne' hn X T hX hT hne hl hA w hw fun h => hb h X w
    obtain ⟨c2, g2, R2, b1, b2, b3, b4, b5⟩ := C40_regularised net hne' hn _ T hX' hT hne hl hA (turned s w) (hrl w hw) fun h => hb h _ _
    rw [a5] at hg
    cases hg
    rw [hcost w hw, a1] at b1
    cases b1
    have hgr := gradient_turned hs hw hscaled a2 b2
    have hR : ∀ (v : List ℝ) (k : ℕ), k < v.length → ent (l2Grad (column v) lam) k 0 = v.getD k 0 * (lam / (v.length : ℝ)) := by
      intro v k hk
      simp [ent, l2Grad, column, Mat.map, List.getD_eq_getElem?_getD, hk]
    have r1 : R1 = l2Grad (column w) lam := by
      rw [hreg] at a3
      cases a3
      rfl
    have r2 : R2 = l2Grad (column (turned s w)) lam := by
      rw [hreg] at b3
      cases b3
      rfl
    refine ⟨by simp [hw], ?_⟩
    rw [b5, hreg, l2_turned hs]
    congr 2
    apply ext_getD (by simp [turned_length])
    intro j hj
    simp only [List.length_map, List.length_range, turned_length] at hj
    have hjr : j < (turned s w).length := by rw [turned_length]; exact hj
    rw [turned_getD, getD_map_range _ _ _ hjr, getD_map_range _ _ _ hj, hgr, r1, r2, hR _ _ hj, hR _ _ hjr, turned_getD, turned_getD, turned_length]
    ring

/-- A symmetry of the function of a network, with signs, is a symmetry of training. -/
theorem turned_train (net : BaseNet ℝ) {n c d : ℕ} (hn : 0 < n) {X T : Mat ℝ} (hX : HasShape X n c) (hT : HasShape T n d) (hne : net.layers ≠ [])
    (hl : LinesUp net.layers c d) (hA : GoodActivations net) (hb : net.criterion.kind = .bce → ∀ X w, OutputsInside net X w)
    (hr : NoL1 net.criterion.reg) {ε s : ℕ → ℝ} (hs : IsSigns s) (hsym : ∀ w x, netRow net.layers (turned s w) (turned ε x) = netRow net.layers w x)
    (hw : net.weights.length = totalParams net.layers) {train : ComputeGrad ℝ → List ℝ → Mat ℝ → Mat ℝ → Outcome (List ℝ)} (ht : IsTrainer train)
    {m : BaseNet ℝ} (hm : net.train train X T = ok m) :
    m = withWeights net m.weights ∧ m.weights.length = totalParams net.layers ∧
      (withWeights net (turned s net.weights)).train train (turnCols ε X) T = ok (withWeights net (turned s m.weights)) := by
  unfold BaseNet.train at hm ⊢
  obtain ⟨v, hv, hm⟩ := bind_eq_ok.1 hm
  cases hm
  have key := optimisers_turned (g := net.computeGrad) (g' := (withWeights net (turned s net.weights)).computeGrad) (ε := ε) hs (X := X) (T := T)
    (fun w c' d' hw' h => turned_gradient net hn hX hT hne hl hA hb hr hs hsym w hw' c' d' h)
    (fun w i x t c' d' hw' hx ht' h => turned_gradient net one_pos (select_shape hX hx) (select_shape hT ht') hne hl hA hb hr hs hsym w hw' c' d' h)
    net.weights v hw ht hv
  refine ⟨rfl, key.1, ?_⟩
  show (train (withWeights net (turned s net.weights)).computeGrad (turned s net.weights) (turnCols ε X) T >>= _) = _
  rw [key.2, ok_bind]
  rfl

/-! ### Features -/

/-- The function of a network with a linear first layer, with features and first layer turned. -/
theorem netRow_features {ε : ℕ → ℝ} (hε : IsSigns ε) (k o : ℕ) (b : Bool) (ls : List (NetLayer ℝ)) (w x : List ℝ) :
    netRow (.linear k o b :: ls) (turned (featureSigns ε k o b) w) (turned ε x) = netRow (.linear k o b :: ls) w x := by
  simp only [netRow]
  have e1 : ((List.range o).map fun j => dot (if b then Scalar.one :: turned ε x else turned ε x)
      ((List.range k).map fun i => (turned (featureSigns ε k o b) w).getD (i * o + j) Scalar.zero)) =
      (List.range o).map fun j => dot (if b then Scalar.one :: x else x) ((List.range k).map fun i => w.getD (i * o + j) Scalar.zero) := by
    refine List.map_congr_left fun j hj => ?_
    have hj := List.mem_range.mp hj
    rw [withBias_turned]
    have e : ((List.range k).map fun i => (turned (featureSigns ε k o b) w).getD (i * o + j) Scalar.zero) =
        turned (rowSign b ε) ((List.range k).map fun i => w.getD (i * o + j) Scalar.zero) := by
      rw [turned_map_range]
      refine List.map_congr_left fun i hi => ?_
      have hi := List.mem_range.mp hi
      refine (turned_getD _ w _).trans ?_
      have hlt : i * o + j < k * o := by
        calc i * o + j < i * o + o := by omega
          _ = (i + 1) * o := by ring
          _ ≤ k * o := Nat.mul_le_mul_right o hi
      have hdiv : (i * o + j) / o = i := by
        rw [Nat.mul_comm, Nat.mul_add_div (by omega), Nat.div_eq_of_lt hj, Nat.add_zero]
      unfold featureSigns
      rw [if_pos hlt, hdiv]
      rfl
    rw [e, dot_turned (rowSign_signs hε b)]
  rw [e1]
  refine netRow_own ls _ _ _ fun t _ => ?_
  have := turned_getD (featureSigns ε k o b) w (k * o + t)
  simp only [List.getD_eq_getElem?_getD, List.getElem?_drop] at this ⊢
  rw [this]
  unfold featureSigns
  rw [if_neg (by omega), one_mul]

/-- **C133 (features: predictions).** With some features measured with the opposite sign and their rows of weights turned, a network
predicts the same. -/
theorem C133_feature_predictions (ls : List (NetLayer ℝ)) (crit : Criterion ℝ) (b : Bool) {c d k o : ℕ} {ε : ℕ → ℝ} (hε : IsSigns ε)
    (hl : LinesUp (.linear k o b :: ls) c d) {n : ℕ} {Z : Mat ℝ} (hZ : HasShape Z n c) (w : List ℝ) (hw : w.length = totalParams (.linear k o b :: ls)) :
    ∃ Y, (⟨.linear k o b :: ls, w, crit⟩ : BaseNet ℝ).forwardProp Z = ok Y ∧
      (⟨.linear k o b :: ls, turned (featureSigns ε k o b) w, crit⟩ : BaseNet ℝ).forwardProp (turnCols ε Z) = ok Y := by
  refine ⟨_, forwardProp_ok (net := ⟨.linear k o b :: ls, w, crit⟩) hZ hl hw, ?_⟩
  rw [forwardProp_ok (net := ⟨.linear k o b :: ls, turned (featureSigns ε k o b) w, crit⟩) (turnCols_shape hZ ε) hl (by rw [turned_length, hw])]
  congr 2
  show (Z.rows.map (turned ε)).map _ = _
  rw [List.map_map]
  exact List.map_congr_left fun x _ => netRow_features hε k o b ls w x

/-- **C133 (features: training).** A network with a linear first layer, trained on data with some features measured with the opposite sign and
started with their rows of weights turned, ends with the weights it would have found, with these rows turned: for all four optimisers, any
further layers and cost function, without an L1 term. -/
theorem C133_feature_training (ls : List (NetLayer ℝ)) (w : List ℝ) (crit : Criterion ℝ) (b : Bool) {c d k o : ℕ} {ε : ℕ → ℝ} (hε : IsSigns ε)
    (hl : LinesUp (.linear k o b :: ls) c d) (hw : w.length = totalParams (.linear k o b :: ls)) (hA : GoodActivations ⟨.linear k o b :: ls, w, crit⟩)
    (hb : crit.kind = .bce → ∀ X v, OutputsInside ⟨.linear k o b :: ls, w, crit⟩ X v) (hr : NoL1 crit.reg)
    {n : ℕ} (hn : 0 < n) {X T : Mat ℝ} (hX : HasShape X n c) (hT : HasShape T n d)
    {train : ComputeGrad ℝ → List ℝ → Mat ℝ → Mat ℝ → Outcome (List ℝ)} (ht : IsTrainer train)
    {m : BaseNet ℝ} (hm : (⟨.linear k o b :: ls, w, crit⟩ : BaseNet ℝ).train train X T = ok m) :
    m.layers = .linear k o b :: ls ∧ m.weights.length = w.length ∧
      (⟨.linear k o b :: ls, turned (featureSigns ε k o b) w, crit⟩ : BaseNet ℝ).train train (turnCols ε X) T =
        ok ⟨m.layers, turned (featureSigns ε k o b) m.weights, m.criterion⟩ := by
  obtain ⟨a1, a2, a3⟩ := turned_train ⟨.linear k o b :: ls, w, crit⟩ hn hX hT (by simp) hl hA hb hr (featureSigns_signs hε k o b)
    (fun v x => netRow_features hε k o b ls v x) hw ht hm
  have e : m.layers = .linear k o b :: ls ∧ m.criterion = crit := by rw [a1]; exact ⟨rfl, rfl⟩
  refine ⟨e.1, a2.trans hw.symm, ?_⟩
  rw [e.1, e.2]
  exact a3

/-! ### Hidden units -/

/-- An odd activation. -/
def Spec.OddActivation (A : Activ ℝ) : Prop := ∀ x, A.func (-x) = -A.func x

theorem odd_sign {A : Activ ℝ} (hA : OddActivation A) {u : ℕ → ℝ} (hu : IsSigns u) (i : ℕ) (a : ℝ) : A.func (u i * a) = u i * A.func a := by
  rcases hu i with h | h
  · rw [h, one_mul, one_mul]
  · rw [h, neg_one_mul, neg_one_mul, hA]

/-- Turning units of a hidden layer with an odd activation around does not change the function of the network. -/
theorem netRow_turn_units {h : ℕ} {u : ℕ → ℝ} (hu : IsSigns u) (pre : List (NetLayer ℝ)) (k : ℕ) (b₁ : Bool) {A : Activ ℝ} (hA : OddActivation A) (o : ℕ) (b : Bool)
    (post : List (NetLayer ℝ)) (w : List ℝ) (x : List ℝ) :
    netRow (hiddenAt pre k h b₁ A o b post) (turned (unitSigns u k h o b (totalParams pre)) w) x = netRow (hiddenAt pre k h b₁ A o b post) w x := by
  set s := totalParams pre with hs
  set τ := unitSigns u k h o b s with hτ
  have hg : ∀ t, (turned τ w).getD t 0 = τ t * w.getD t 0 := turned_getD τ w
  have hin : ∀ {i j : ℕ}, i < k → j < h → τ (s + (i * h + j)) = u j := fun hi hj => unitSigns_in u o b s hi hj
  have hout : ∀ {i e : ℕ}, i < (h + if b then 1 else 0) → e < o → τ (s + (k * h + (i * o + e))) = rowSign b u i := fun hi he => unitSigns_out u k h b s hi he
  unfold hiddenAt
  rw [netRow_append, netRow_append, ← hs]
  rw [netRow_own pre (turned τ w) w x fun t ht => by
    rw [hg t, hτ, unitSigns_before u k h o b ht, one_mul]]
  generalize netRow pre w x = z
  simp only [netRow]
  have e1 : ((List.range h).map fun j => dot (if b₁ then Scalar.one :: z else z) ((List.range k).map fun i => ((turned τ w).drop s).getD (i * h + j) Scalar.zero)) =
      turned u ((List.range h).map fun j => dot (if b₁ then Scalar.one :: z else z) ((List.range k).map fun i => (w.drop s).getD (i * h + j) Scalar.zero)) := by
    rw [turned_map_range]
    refine List.map_congr_left fun j hj => ?_
    have hj := List.mem_range.mp hj
    have e : ((List.range k).map fun i => ((turned τ w).drop s).getD (i * h + j) Scalar.zero) =
        turned (fun _ => u j) ((List.range k).map fun i => (w.drop s).getD (i * h + j) Scalar.zero) := by
      rw [turned_map_range]
      refine List.map_congr_left fun i hi => ?_
      have e := hg (s + (i * h + j))
      rw [hin (List.mem_range.mp hi) hj] at e
      simp only [List.getD_eq_getElem?_getD, List.getElem?_drop] at e ⊢
      exact e
    rw [e, dot_real, dot_real]
    have := zipWith_turned (· * ·) (fun _ => 1) (fun _ => u j) (fun _ => u j) (fun i a b => by ring)
      (if b₁ then Scalar.one :: z else z) ((List.range k).map fun i => (w.drop s).getD (i * h + j) Scalar.zero)
    rw [turned_one] at this
    rw [this]
    generalize List.zipWith (· * ·) (if b₁ then Scalar.one :: z else z) ((List.range k).map fun i => (w.drop s).getD (i * h + j) Scalar.zero) = q
    have hq : turned (fun _ => u j) q = q.map fun a => u j * a := by
      conv_rhs => rw [← map_range_getD q]
      rw [List.map_map]
      rfl
    rw [hq, List.sum_map_mul_left, List.map_id']
  rw [e1, map_turned A.func u u (odd_sign hA hu)]
  generalize hy : (((List.range h).map fun j => dot (if b₁ then Scalar.one :: z else z) ((List.range k).map fun i => (w.drop s).getD (i * h + j) Scalar.zero)).map A.func) = y
  have e3 : ((List.range o).map fun e => dot (if b then Scalar.one :: turned u y else turned u y)
      ((List.range (h + if b then 1 else 0)).map fun i => (((turned τ w).drop s).drop (k * h)).getD (i * o + e) Scalar.zero)) =
      (List.range o).map fun e => dot (if b then Scalar.one :: y else y) ((List.range (h + if b then 1 else 0)).map fun i => ((w.drop s).drop (k * h)).getD (i * o + e) Scalar.zero) := by
    refine List.map_congr_left fun e he => ?_
    have he := List.mem_range.mp he
    have f2 : ((List.range (h + if b then 1 else 0)).map fun i => (((turned τ w).drop s).drop (k * h)).getD (i * o + e) Scalar.zero) =
        turned (rowSign b u) ((List.range (h + if b then 1 else 0)).map fun i => ((w.drop s).drop (k * h)).getD (i * o + e) Scalar.zero) := by
      rw [turned_map_range]
      refine List.map_congr_left fun i hi => ?_
      have e' := hg (s + (k * h + (i * o + e)))
      rw [hout (List.mem_range.mp hi) he] at e'
      simp only [List.getD_eq_getElem?_getD, List.getElem?_drop] at e' ⊢
      exact e'
    rw [withBias_turned, f2, dot_turned (rowSign_signs hu b)]
  rw [e3]
  refine netRow_own post _ _ _ fun t ht => ?_
  have e' := hg (s + (k * h + ((h + if b then 1 else 0) * o + t)))
  have e'' : τ (s + (k * h + ((h + if b then 1 else 0) * o + t))) = 1 := unitSigns_after u k h o b s t
  rw [e'', one_mul] at e'
  simpa only [List.getD_eq_getElem?_getD, List.getElem?_drop, add_assoc] using e'

/-- **C133 (odd activations).** The hyperbolic tangent and the linear activation are odd. -/
theorem C133_odd : OddActivation (tanhActiv : Activ ℝ) ∧ OddActivation (linearActiv : Activ ℝ) :=
  ⟨fun x => Real.tanh_neg x, fun _ => rfl⟩

variable {pre post : List (NetLayer ℝ)} {k h o : ℕ} {b₁ b : Bool} {A : Activ ℝ} {crit : Criterion ℝ} {c d : ℕ}

/-- **C133 (hidden units: predictions).** With some units of a hidden layer with an odd activation turned around, their weights in and out all
with the opposite sign, a network predicts the same. -/
theorem C133_unit_predictions {u : ℕ → ℝ} (hu : IsSigns u) (hodd : OddActivation A) (hl : LinesUp (hiddenAt pre k h b₁ A o b post) c d) {n : ℕ} {Z : Mat ℝ}
    (hZ : HasShape Z n c) (w : List ℝ) (hw : w.length = totalParams (hiddenAt pre k h b₁ A o b post)) :
    ∃ Y, (⟨hiddenAt pre k h b₁ A o b post, w, crit⟩ : BaseNet ℝ).forwardProp Z = ok Y ∧
      (⟨hiddenAt pre k h b₁ A o b post, turned (unitSigns u k h o b (totalParams pre)) w, crit⟩ : BaseNet ℝ).forwardProp Z = ok Y := by
  refine ⟨_, forwardProp_ok (net := ⟨hiddenAt pre k h b₁ A o b post, w, crit⟩) hZ hl hw, ?_⟩
  rw [forwardProp_ok (net := ⟨hiddenAt pre k h b₁ A o b post, turned (unitSigns u k h o b (totalParams pre)) w, crit⟩) hZ hl (by rw [turned_length, hw])]
  congr 2
  exact List.map_congr_left fun x _ => netRow_turn_units hu pre k b₁ hodd o b post w x

/-- **C133 (hidden units: training).** Started with some units of a hidden layer with an odd activation turned around, training ends with the
same network with these units turned around, for all four optimisers and any cost function, without an L1 term. -/
theorem C133_unit_training {u : ℕ → ℝ} (hu : IsSigns u) (hodd : OddActivation A) (hl : LinesUp (hiddenAt pre k h b₁ A o b post) c d) {w : List ℝ}
    (hw : w.length = totalParams (hiddenAt pre k h b₁ A o b post)) (hA : GoodActivations ⟨hiddenAt pre k h b₁ A o b post, w, crit⟩)
    (hb : crit.kind = .bce → ∀ X v, OutputsInside ⟨hiddenAt pre k h b₁ A o b post, w, crit⟩ X v) (hr : NoL1 crit.reg)
    {n : ℕ} (hn : 0 < n) {X T : Mat ℝ} (hX : HasShape X n c) (hT : HasShape T n d)
    {train : ComputeGrad ℝ → List ℝ → Mat ℝ → Mat ℝ → Outcome (List ℝ)} (ht : IsTrainer train)
    {m : BaseNet ℝ} (hm : (⟨hiddenAt pre k h b₁ A o b post, w, crit⟩ : BaseNet ℝ).train train X T = ok m) :
    m.layers = hiddenAt pre k h b₁ A o b post ∧ m.weights.length = w.length ∧
      (⟨hiddenAt pre k h b₁ A o b post, turned (unitSigns u k h o b (totalParams pre)) w, crit⟩ : BaseNet ℝ).train train X T =
        ok ⟨m.layers, turned (unitSigns u k h o b (totalParams pre)) m.weights, m.criterion⟩ := by
  obtain ⟨a1, a2, a3⟩ := turned_train ⟨hiddenAt pre k h b₁ A o b post, w, crit⟩ (ε := fun _ => 1) hn hX hT (by simp [hiddenAt]) hl hA hb hr
    (unitSigns_signs hu k h o b (totalParams pre)) (fun v x => by rw [turned_one]; exact netRow_turn_units hu pre k b₁ hodd o b post v x) hw ht hm
  rw [turnCols_one] at a3
  have e : m.layers = hiddenAt pre k h b₁ A o b post ∧ m.criterion = crit := by rw [a1]; exact ⟨rfl, rfl⟩
  refine ⟨e.1, a2.trans hw.symm, ?_⟩
  rw [e.1, e.2]
  exact a3

/-- **C133 (units at rest).** A unit of a hidden layer with an odd activation whose weights in and out are all zero is never trained: they are
all zero afterwards. -/
theorem C133_unit_at_rest (hodd : OddActivation A) (hl : LinesUp (hiddenAt pre k h b₁ A o b post) c d) {w : List ℝ}
    (hw : w.length = totalParams (hiddenAt pre k h b₁ A o b post)) (hA : GoodActivations ⟨hiddenAt pre k h b₁ A o b post, w, crit⟩)
    (hb : crit.kind = .bce → ∀ X v, OutputsInside ⟨hiddenAt pre k h b₁ A o b post, w, crit⟩ X v) (hr : NoL1 crit.reg)
    {n : ℕ} (hn : 0 < n) {X T : Mat ℝ} (hX : HasShape X n c) (hT : HasShape T n d)
    {train : ComputeGrad ℝ → List ℝ → Mat ℝ → Mat ℝ → Outcome (List ℝ)} (ht : IsTrainer train)
    {m : BaseNet ℝ} (hm : (⟨hiddenAt pre k h b₁ A o b post, w, crit⟩ : BaseNet ℝ).train train X T = ok m) {p : ℕ} (hp : p < h)
    (hin : ∀ i < k, w.getD (totalParams pre + (i * h + p)) 0 = 0)
    (hout : ∀ e < o, w.getD (totalParams pre + (k * h + ((p + if b then 1 else 0) * o + e))) 0 = 0) :
    (∀ i < k, m.weights.getD (totalParams pre + (i * h + p)) 0 = 0) ∧
      ∀ e < o, m.weights.getD (totalParams pre + (k * h + ((p + if b then 1 else 0) * o + e))) 0 = 0 := by
  have hu : IsSigns fun j => if j = p then -1 else 1 := by
    intro j
    simp only
    split
    · exact Or.inr rfl
    · exact Or.inl rfl
  generalize hu' : (fun j => if j = p then (-1 : ℝ) else 1) = u at hu
  have hup : u p = -1 := by rw [← hu']; simp
  have huq : ∀ j, j ≠ p → u j = 1 := fun j hj => by rw [← hu']; simp [hj]
  have hrow : rowSign b u (p + if b then 1 else 0) = -1 := by
    unfold rowSign
    cases b <;> simp [hup]
  have hpb : (p + if b then 1 else 0) < h + if b then 1 else 0 := by omega
  have hw0 : turned (unitSigns u k h o b (totalParams pre)) w = w := by
    apply ext_getD (by rw [turned_length])
    intro t _
    rw [turned_getD]
    by_cases ht1 : t < totalParams pre
    · rw [unitSigns_before u k h o b ht1, one_mul]
    obtain ⟨t, rfl⟩ := Nat.exists_eq_add_of_le (Nat.le_of_not_lt ht1)
    by_cases ht2 : t < k * h
    · have hh : 0 < h := by omega
      have hi : t / h < k := Nat.div_lt_of_lt_mul (by rwa [Nat.mul_comm] at ht2)
      have hj : t % h < h := Nat.mod_lt _ hh
      have e : t = t / h * h + t % h := (Nat.div_add_mod' t h).symm
      by_cases hq : t % h = p
      · have := hin (t / h) hi
        rw [← hq, ← e] at this
        rw [this, mul_zero]
      · have := unitSigns_in u o b (totalParams pre) hi hj
        rw [← e] at this
        rw [this, huq _ hq, one_mul]
    obtain ⟨t, rfl⟩ := Nat.exists_eq_add_of_le (Nat.le_of_not_lt ht2)
    by_cases ht3 : t < (h + if b then 1 else 0) * o
    · have ho : 0 < o := by
        rcases Nat.eq_zero_or_pos o with h0 | h0
        · rw [h0, Nat.mul_zero] at ht3
          omega
        · exact h0
      have hi : t / o < h + if b then 1 else 0 := Nat.div_lt_of_lt_mul (by rwa [Nat.mul_comm] at ht3)
      have hj : t % o < o := Nat.mod_lt _ ho
      have e : t = t / o * o + t % o := (Nat.div_add_mod' t o).symm
      by_cases hq : t / o = p + if b then 1 else 0
      · have := hout (t % o) hj
        rw [← hq, ← e] at this
        rw [this, mul_zero]
      · have := unitSigns_out u k h b (totalParams pre) hi hj
        rw [← e] at this
        have h1 : rowSign b u (t / o) = 1 := by
          unfold rowSign
          cases b with
          | false =>
            simp only [Bool.false_eq_true, if_false, Nat.add_zero] at hq ⊢
            exact huq _ hq
          | true =>
            simp only [if_true] at hq ⊢
            by_cases h0 : t / o = 0
            · rw [if_pos h0]
            · rw [if_neg h0]
              exact huq _ fun h1 => hq (by rw [← h1, Nat.sub_add_cancel (Nat.one_le_iff_ne_zero.mpr h0)])
        rw [this, h1, one_mul]
    obtain ⟨t, rfl⟩ := Nat.exists_eq_add_of_le (Nat.le_of_not_lt ht3)
    rw [unitSigns_after, one_mul]
  obtain ⟨-, -, h3⟩ := C133_unit_training hu hodd hl hw hA hb hr hn hX hT ht hm
  rw [hw0, hm] at h3
  have hm' : m.weights = turned (unitSigns u k h o b (totalParams pre)) m.weights := by
    injection h3 with h3
    exact congrArg BaseNet.weights h3
  have zero : ∀ t, unitSigns u k h o b (totalParams pre) t = -1 → m.weights.getD t 0 = 0 := by
    intro t h1
    have := congrArg (fun l => l.getD t 0) hm'
    simp only [turned_getD, h1] at this
    linarith
  exact ⟨fun i hi => zero _ ((unitSigns_in u o b _ hi hp).trans hup), fun e he => zero _ ((unitSigns_out u k h b _ hpb he).trans hrow)⟩

/-! ### The L1 term -/

/-- One weight, no bias, squared error with an L1 term. -/
noncomputable def l1Net : BaseNet ℝ := ⟨[.linear 1 1 false], [0], ⟨.mse, .l1 1⟩⟩

/-- **C133 (the L1 term).** With an L1 term the weights need not turn: the term's gradient at a weight 0 is positive. A weight that starts at 0
with an input that is always 0 is trained to `-1/2` in one step, and so it is when that input is measured with the opposite sign. -/
theorem C133_l1 : ∃ m, l1Net.train (fun g s X T => ((⟨1, 1⟩ : GradientDesc ℝ).optimize (fun w => g w X T) s).out) ⟨1, [[0]]⟩ ⟨1, [[1]]⟩ = ok m ∧
    m.weights = [-(1 / 2)] ∧ turnCols (fun _ => -1) ⟨1, [[0]]⟩ = ⟨1, [[0]]⟩ ∧ turned (featureSigns (fun _ => -1) 1 1 false) l1Net.weights = l1Net.weights ∧
    turned (featureSigns (fun _ => -1) 1 1 false) m.weights ≠ m.weights := by
  have hg : l1Net.computeGrad [0] ⟨1, [[0]]⟩ ⟨1, [[1]]⟩ = ok (1 / 2, [1 / 2]) := by
    simp [BaseNet.computeGrad, netForward, l1Net, sliceAt, NetLayer.paramShape, NetLayer.forward, chunk,
      Mat.mul, Mat.zip, Mat.sum, dot, colOf, fsum, Outcome.unwrap, ofOption, Criterion.costGrad, mseGrad, netBackward, layerInput,
      getAt, NetLayer.backParams, copyInto, NetLayer.numParams, Mat.data, NetLayer.backInput, Criterion.cost, mseCost, allInit,
      Criterion.isRegularized, regGrad, regCost, l1Grad, l1Cost, inPlaceBin, Mat.transpose, Mat.map, transposeRows]
    norm_num
  have hc : ¬ |(1 : ℝ) / 2| < ((1 / 10 ^ 20 : ℚ) : ℝ) := by
    rw [abs_of_nonneg (by positivity), not_lt]
    push_cast
    norm_num
  have hw : l1Net.weights = [0] := rfl
  refine ⟨⟨l1Net.layers, [-(1 / 2)], l1Net.criterion⟩, ?_, rfl, ?_, ?_, ?_⟩
  · simp only [BaseNet.train, GradientDesc.optimize, gdLoop, hw, hg, Logged.call_ok_bind]
    simp only [real_abs, real_sub, real_zero, zero_sub, abs_neg, learningEps, real_ofRat, real_lt, hc, decide_false, Bool.false_eq_true, if_false]
    simp [vecZip, vecScale, Logged.lift]
  · simp [turnCols, turned]
  · simp [turned, l1Net]
  · simp [turned, featureSigns, rowSign]
    norm_num

/-! ### Logistic regression -/

theorem logistic_rest (o : ℝ) (y : ℝ) : ∀ (n : ℕ) (a prev : ℝ), ∃ a', (gdLoop o (fun w => logComputeGrad w ⟨2, [[1, 0]]⟩ [y]) n [a, 1 / 2] prev).out = ok [a', 1 / 2]
  | 0, a, prev => ⟨a, rfl⟩
  | n + 1, a, prev => by
    obtain ⟨c, g, hg⟩ : ∃ c g, logComputeGrad [a, 1 / 2] ⟨2, [[1, 0]]⟩ [y] = ok (c, [g, 0]) := by
      simp [logComputeGrad, Mat.mulVec, ceCostVec, vecZip, Mat.transpose, transposeRows, dot, fsum, List.range_succ]
    simp only [gdLoop, hg, Logged.call_ok_bind]
    split
    · exact ⟨a, rfl⟩
    · have hz : vecZip Scalar.sub [a, 1 / 2] (vecScale [g, 0] o) = ok [a - g * o, 1 / 2] := by simp [vecZip, vecScale]
      rw [Logged.out_bind]
      rw [hz]
      exact logistic_rest o y n _ c

/-- **C133 (logistic regression).** Logistic regression always starts from the weights 1/2, and so what it learns depends on the sign of a
feature, with gradient descent however long: when the feature is always 0 in training its weight stays 1/2, whichever way it is measured,
and a sample gets another prediction when it is measured the other way. -/
theorem C133_logistic (o : GradientDesc ℝ) (y : ℝ) : turnCols (fun _ => -1) ⟨1, [[0]]⟩ = ⟨1, [[0]]⟩ ∧
    ∃ m, LogReg.train (fun g s => (o.optimize g s).out) ⟨1, [[0]]⟩ [y] = ok m ∧ ∃ p q, p ≠ q ∧ m.predict ⟨1, [[1]]⟩ = ok [p] ∧
      m.predict (turnCols (fun _ => -1) ⟨1, [[1]]⟩) = ok [q] := by
  refine ⟨by simp [turnCols, turned], ?_⟩
  obtain ⟨a, ha⟩ := logistic_rest o.alpha y o.iters (1 / 2) 0
  refine ⟨⟨some [a, 1 / 2]⟩, ?_, sigmoid.func (a + 1 / 2), sigmoid.func (a - 1 / 2), ?_, ?_, ?_⟩
  · unfold LogReg.train
    rw [withOnes_ok, ok_bind]
    have e : List.replicate (1 + 1) (Scalar.ofRat (1 / 2) : ℝ) = [1 / 2, 1 / 2] := by simp [List.replicate]
    show (Logged.out (gdLoop o.alpha (fun w => logComputeGrad w ⟨2, [[1, 0]]⟩ [y]) o.iters (List.replicate (1 + 1) (Scalar.ofRat (1 / 2))) 0) >>= _) = _
    rw [e, ha, ok_bind]
  · intro h
    have h' : 1 / (1 + Real.exp (-(a + 1 / 2))) = 1 / (1 + Real.exp (-(a - 1 / 2))) := by simpa [sigmoid] using h
    have h1 := Real.exp_pos (-(a + 1 / 2))
    have h2 := Real.exp_pos (-(a - 1 / 2))
    rw [div_eq_div_iff (by positivity) (by positivity)] at h'
    have : Real.exp (-(a - 1 / 2)) = Real.exp (-(a + 1 / 2)) := by linarith
    have := Real.exp_injective this
    linarith
  · unfold LogReg.predict
    simp only [withOnes_ok, ok_bind]
    simp [Mat.mulVec, dot, fsum]
  · unfold LogReg.predict
    simp only [withOnes_ok, ok_bind]
    simp [Mat.mulVec, dot, fsum, turnCols, turned]
    ring_nf

/-! ### Examples -/

/-- Two inputs, two hidden units with the hyperbolic tangent, one output. -/
noncomputable def tanhNet : BaseNet ℝ := ⟨hiddenAt [] 3 2 true tanhActiv 1 true [], [1, 0, 2, 0, 3, 0, 1, 2, 0], ⟨.mse, .none⟩⟩

theorem tanhNet_lines : LinesUp tanhNet.layers 2 1 := .linear true rfl (.activ _ (.linear true rfl (.nil _)))

theorem tanhNet_activations : GoodActivations tanhNet := C40_activations _ fun A hA => by
  simp only [tanhNet, hiddenAt, List.nil_append, List.mem_cons, NetLayer.activ.injEq, reduceCtorEq, false_or, List.not_mem_nil, or_false] at hA
  exact Or.inr (Or.inr (Or.inr hA))

/-- The second of the two units has no weights: training on the exclusive or succeeds and never gives it any. -/
example (r : ℕ → ℕ → ℕ) (o : AdaGrad ℝ) :
    ∃ m, tanhNet.train (fun g s X T => (o.optimize g r s X T).out) ⟨2, [[0, 0], [0, 1], [1, 0], [1, 1]]⟩ ⟨1, [[0], [1], [1], [0]]⟩ = ok m ∧
      m.weights.getD 1 0 = 0 ∧ m.weights.getD 3 0 = 0 ∧ m.weights.getD 5 0 = 0 ∧ m.weights.getD 8 0 = 0 := by
  have hb : tanhNet.criterion.kind = .bce → ∀ X v, OutputsInside tanhNet X v := fun h => by cases h
  have hw : ([1, 0, 2, 0, 3, 0, 1, 2, 0] : List ℝ).length = totalParams tanhNet.layers := by simp [tanhNet, hiddenAt, totalParams]
  have hX : HasShape (⟨2, [[0, 0], [0, 1], [1, 0], [1, 1]]⟩ : Mat ℝ) 4 2 := ⟨rfl, rfl, by simp⟩
  have hT : HasShape (⟨1, [[0], [1], [1], [0]]⟩ : Mat ℝ) 4 1 := ⟨rfl, rfl, by simp⟩
  obtain ⟨f, df, -, -, h2, -⟩ := C40_training tanhNet hw rfl (by simp [tanhNet, hiddenAt]) tanhNet_lines tanhNet_activations hb _ _ rfl rfl
    hX.2.2 hT.2.2 le_rfl r
  obtain ⟨w, run, hm, -⟩ := h2 o
  refine ⟨_, hm, ?_⟩
  have := C133_unit_at_rest (pre := []) (h := 2) (post := []) (p := 1) C133_odd.1 tanhNet_lines hw tanhNet_activations hb (Or.inl rfl) (by omega) hX hT
    (Or.inr (Or.inr (Or.inl ⟨o, r, rfl⟩))) hm (by omega) (by intro i hi; interval_cases i <;> simp [totalParams])
    (by intro e he; interval_cases e; simp [totalParams])
  have h1 := this.1 0 (by omega)
  have h3 := this.1 1 (by omega)
  have h5 := this.1 2 (by omega)
  have h8 := this.2 0 (by omega)
  simp only [totalParams, List.map_nil, List.sum_nil] at h1 h3 h5 h8
  exact ⟨h1, h3, h5, h8⟩

/-- Turned around, the same network predicts the same and is trained to the same network turned around. -/
example (Z : Mat ℝ) (hZ : HasShape Z 5 2) :
    ∃ Y, tanhNet.forwardProp Z = ok Y ∧ (⟨tanhNet.layers, [-1, 0, -2, 0, -3, 0, 1, -2, 0], tanhNet.criterion⟩ : BaseNet ℝ).forwardProp Z = ok Y := by
  have hw : ([1, 0, 2, 0, 3, 0, 1, 2, 0] : List ℝ).length = totalParams tanhNet.layers := by simp [tanhNet, hiddenAt, totalParams]
  have hu : IsSigns fun j => if j = 0 then -1 else 1 := fun j => by by_cases h : j = 0 <;> simp [h]
  have := C133_unit_predictions (pre := []) (post := []) (crit := ⟨.mse, .none⟩) hu C133_odd.1 tanhNet_lines hZ [1, 0, 2, 0, 3, 0, 1, 2, 0] hw
  have e : turned (unitSigns (fun j => if j = 0 then -1 else 1) 3 2 1 true (totalParams ([] : List (NetLayer ℝ)))) [1, 0, 2, 0, 3, 0, 1, 2, 0] =
      [-1, 0, -2, 0, -3, 0, 1, -2, 0] := by
    simp [turned, unitSigns, rowSign, totalParams, List.range_succ]
  rw [e] at this
  exact this

end RM
