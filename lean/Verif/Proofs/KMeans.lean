import Verif.Model.KMeans
import Verif.Spec.KMeans
import Verif.Proofs.Linalg
import Verif.Proofs.Argmax
import Verif.Proofs.Transforms

/-! Proofs about k-means. -/

namespace RM
open Outcome Scalar Spec

variable {F : Type}

theorem zipWith_map_replicate {α β γ δ : Type} (f : β → γ → δ) (g : α → β) (b : γ) : ∀ (l : List α),
    List.zipWith f (l.map g) (List.replicate l.length b) = l.map fun a => f (g a) b
  | [] => rfl
  | a :: l => by
    simp only [List.map_cons, List.length_cons, List.replicate_succ, List.zipWith_cons_cons]
    rw [zipWith_map_replicate f g b l]

theorem zipWith_replicate_right {β γ δ : Type} (f : β → γ → δ) (b : γ) (l : List β) :
    List.zipWith f l (List.replicate l.length b) = l.map fun a => f a b := by
  have := zipWith_map_replicate f id b l
  simpa using this

/-- The distance the program computes between a stored centroid and a row. -/
def kmDist [Scalar F] (row c : List F) : F := fsum ((List.zipWith Scalar.sub c row).map fun v => v *. v)

theorem closestTo_eq [Scalar F] (C : Mat F) (row : List F) :
    closestTo C C.cols row = argminBy Scalar.lt (C.rows.map (kmDist row)) := by
  unfold closestTo Mat.zip
  rw [if_pos (by simp)]
  simp only [ok_bind]
  rw [if_pos (by simp)]
  simp only [ok_bind, Mat.sumCols]
  rw [zipWith_replicate_right, List.zipWith_self, List.map_map, List.map_map]
  congr 1
  apply List.map_congr_left
  intro c _
  simp only [Function.comp, kmDist]
  rw [List.zipWith_self]

theorem closestTo_mismatch [Scalar F] (C : Mat F) (d : ℕ) (row : List F) (h : C.cols ≠ d) : closestTo C d row = panic := by
  unfold closestTo Mat.zip
  rw [if_neg (by simp [h])]
  rfl

theorem argAux_lt {α : Type} (better : α → α → Bool) : ∀ (best : α) (bi i : ℕ) (l : List α), bi < i →
    (argAux better best bi i l).1 < i + l.length
  | best, bi, i, [], h => by simp only [argAux, List.length_nil]; omega
  | best, bi, i, v :: vs, h => by
    rw [argAux]
    split
    · have := argAux_lt better v i (i + 1) vs (by omega)
      simp only [List.length_cons]; omega
    · have := argAux_lt better best bi (i + 1) vs (by omega)
      simp only [List.length_cons]; omega

theorem argminBy_lt {α : Type} (lt : α → α → Bool) {l : List α} {r : ℕ × α} (h : argminBy lt l = ok r) : r.1 < l.length := by
  cases l with
  | nil => simp [argminBy] at h
  | cons v vs =>
    simp only [argminBy, ok.injEq] at h
    rw [← h]
    have := argAux_lt (fun best x => lt x best) v 0 1 vs (by omega)
    simp only [List.length_cons]; omega

theorem closestTo_lt [Scalar F] {C : Mat F} {d : ℕ} {row : List F} {r : ℕ × F} (h : closestTo C d row = ok r) : r.1 < C.rows.length := by
  by_cases hd : C.cols = d
  · subst hd
    rw [closestTo_eq] at h
    simpa using argminBy_lt _ h
  · rw [closestTo_mismatch _ _ _ hd] at h; simp at h

theorem mapM_forall₂' {α β : Type} {f : α → Outcome β} : ∀ {l : List α} {r : List β}, l.mapM f = ok r →
    List.Forall₂ (fun a b => f a = ok b) l r
  | [], r, h => by
    simp only [List.mapM_nil, pure_eq, ok.injEq] at h
    subst h; exact .nil
  | a :: l, r, h => by
    rw [List.mapM_cons, bind_eq_ok] at h
    obtain ⟨b, hb, h⟩ := h
    rw [bind_eq_ok] at h
    obtain ⟨bs, hbs, h⟩ := h
    simp only [pure_eq, ok.injEq] at h
    subst h
    exact .cons hb (mapM_forall₂' hbs)

theorem mapM_of_forall₂ {α β : Type} {f : α → Outcome β} {l : List α} {r : List β} (h : List.Forall₂ (fun a b => f a = ok b) l r) :
    l.mapM f = ok r := by
  induction h with
  | nil => rfl
  | cons hab _ ih => rw [List.mapM_cons, hab, ok_bind, ih]; rfl

/-! ### Distances over the extended reals -/

theorem xr_nan_add (a : XR) : Scalar.add XR.nan a = XR.nan := rfl
theorem xr_add_nan (a : XR) : Scalar.add a XR.nan = XR.nan := by cases a <;> rfl

theorem xr_foldl_nan : ∀ (l : List XR), l.foldl Scalar.add XR.nan = XR.nan
  | [] => rfl
  | a :: l => by rw [List.foldl_cons, xr_nan_add, xr_foldl_nan l]

theorem kmDist_fin (x c : List ℝ) : kmDist (x.map XR.fin) (c.map XR.fin) = XR.fin (sqDist x c) := by
  unfold kmDist
  have : (List.zipWith Scalar.sub (c.map XR.fin) (x.map XR.fin)).map (fun v => v *. v) =
      (List.zipWith (fun a b => (a - b) ^ 2) x c).map XR.fin := by
    rw [List.zipWith_map, List.zipWith_comm, List.map_zipWith, List.map_zipWith]
    congr 1
    funext a b
    rw [xr_sub, xr_mul]
    congr 1; ring
  rw [this, xr_fsum_fin]
  rfl

theorem kmDist_nan (x : List ℝ) (d : ℕ) (hd : 0 < d) (hx : x.length = d) : kmDist (x.map XR.fin) (List.replicate d XR.nan) = XR.nan := by
  cases d with
  | zero => omega
  | succ d =>
    cases x with
    | nil => simp at hx
    | cons a x =>
      simp only [kmDist, List.map_cons, List.replicate_succ, List.zipWith_cons_cons, fsum, List.foldl_cons]
      exact xr_foldl_nan _

/-- A possibly-NaN value. -/
def optX : Option ℝ → XR
  | some x => .fin x
  | none => .nan

theorem argAux_opt (full : List (Option ℝ)) :
    ∀ (best : ℝ) (bi i : ℕ) (rest : List (Option ℝ)), full[bi]? = some (some best) → full.drop i = rest → bi < i →
      (∀ (t : ℕ) x, t < i → full[t]? = some (some x) → best ≤ x) → (∀ (t : ℕ) x, t < bi → full[t]? = some (some x) → best < x) →
      ∃ (j : ℕ) (v : ℝ), argAux (fun b x => Scalar.lt x b) (XR.fin best) bi i (rest.map optX) = (j, XR.fin v) ∧ full[j]? = some (some v) ∧
        (∀ x, some x ∈ full → v ≤ x) ∧ (∀ (t : ℕ) x, t < j → full[t]? = some (some x) → v < x)
  | best, bi, i, [], h, hd, _, hle, hlt => by
    refine ⟨bi, best, rfl, h, ?_, hlt⟩
    intro x hx
    obtain ⟨t, ht, hx⟩ := List.mem_iff_getElem.1 hx
    have hi : full.length ≤ i := by simpa using hd
    exact hle t _ (by omega) (by rw [List.getElem?_eq_getElem ht, hx])
  | best, bi, i, v :: vs, h, hd, hbi, hle, hlt => by
    have hi : i < full.length := by
      by_contra hc
      rw [List.drop_eq_nil_of_le (by omega)] at hd; simp at hd
    rw [List.drop_eq_getElem_cons hi] at hd
    injection hd with h1 h2
    rw [List.map_cons, argAux]
    cases v with
    | none =>
      rw [if_neg (by change ¬ (false = true); simp)]
      refine argAux_opt full best bi (i + 1) vs h h2 (by omega) ?_ hlt
      intro t x ht hx
      by_cases hti : t = i
      · subst hti; rw [List.getElem?_eq_getElem hi, h1] at hx; cases hx
      · exact hle t x (by omega) hx
    | some v =>
      by_cases hbt : v < best
      · rw [if_pos (show (optX (some v) <. XR.fin best) = true from decide_eq_true hbt)]
        refine argAux_opt full v i (i + 1) vs (by rw [List.getElem?_eq_getElem hi, h1]) h2 (by omega) ?_ ?_
        · intro t x ht hx
          by_cases hti : t = i
          · subst hti; rw [List.getElem?_eq_getElem hi, h1] at hx; cases hx; exact le_refl _
          · exact le_trans hbt.le (hle t x (by omega) hx)
        · intro t x ht hx; exact lt_of_lt_of_le hbt (hle t x ht hx)
      · rw [if_neg (show ¬ (optX (some v) <. XR.fin best) = true from fun h => hbt (of_decide_eq_true h))]
        rw [not_lt] at hbt
        refine argAux_opt full best bi (i + 1) vs h h2 (by omega) ?_ hlt
        intro t x ht hx
        by_cases hti : t = i
        · subst hti; rw [List.getElem?_eq_getElem hi, h1] at hx; cases hx; exact hbt
        · exact hle t x (by omega) hx

theorem argmin_opt (b : ℝ) (rest : List (Option ℝ)) :
    ∃ (j : ℕ) (v : ℝ), argminBy Scalar.lt ((some b :: rest).map optX) = ok (j, XR.fin v) ∧ (some b :: rest)[j]? = some (some v) ∧
      (∀ x, some x ∈ some b :: rest → v ≤ x) ∧ (∀ (t : ℕ) x, t < j → (some b :: rest)[t]? = some (some x) → v < x) := by
  obtain ⟨j, v, h1, h2⟩ := argAux_opt (some b :: rest) b 0 1 rest (by simp) (by simp) (by omega) (by
    intro t x ht hx
    have : t = 0 := by omega
    subst this; simp at hx; rw [hx]) (by omega)
  exact ⟨j, v, by rw [List.map_cons, argminBy]; simp only [optX]; rw [h1], h2⟩

theorem argAux_nan : ∀ (l : List XR) (i : ℕ), argAux (fun b x => Scalar.lt x b) XR.nan 0 i l = (0, XR.nan)
  | [], _ => rfl
  | a :: l, i => by
    rw [argAux, if_neg (by cases a <;> (change ¬ (false = true); simp))]
    exact argAux_nan l (i + 1)

/-- The stored centroids are good: every proper one has `d` coordinates. -/
def CWidth (d : ℕ) (C : List (Option (List ℝ))) : Prop := ∀ c, some c ∈ C → c.length = d

theorem kmDist_stored {d : ℕ} {x : List ℝ} (hx : x.length = d) {C : List (Option (List ℝ))}
    (hd : 0 < d ∨ none ∉ C) : (stored d C).rows.map (kmDist (x.map XR.fin)) = (C.map (Option.map (sqDist x))).map optX := by
  simp only [stored, List.map_map]
  apply List.map_congr_left
  intro o ho
  cases o with
  | some c => simp only [Function.comp, storedRow, Option.map_some, optX]; exact kmDist_fin x c
  | none =>
    simp only [Function.comp, storedRow, Option.map_none, optX]
    rcases hd with hd | hd
    · exact kmDist_nan x d hd hx
    · exact absurd ho hd

/-- With a proper first centroid the program finds the first nearest proper centroid. -/
theorem closestTo_stored {d : ℕ} {x : List ℝ} (hx : x.length = d) (c0 : List ℝ) (C : List (Option (List ℝ)))
    (hd : 0 < d ∨ none ∉ C) :
    ∃ (j : ℕ) (c : List ℝ), closestTo (stored d (some c0 :: C)) d (x.map XR.fin) = ok (j, XR.fin (sqDist x c)) ∧
      (some c0 :: C)[j]? = some (some c) ∧ (∀ c', some c' ∈ some c0 :: C → sqDist x c ≤ sqDist x c') ∧
      (∀ (t : ℕ) c', t < j → (some c0 :: C)[t]? = some (some c') → sqDist x c < sqDist x c') := by
  have h := closestTo_eq (stored d (some c0 :: C)) (x.map XR.fin)
  rw [show (stored d (some c0 :: C)).cols = d from rfl] at h
  rw [kmDist_stored hx (by rcases hd with hd | hd; · exact .inl hd
                           · right; simpa using hd)] at h
  simp only [List.map_cons, Option.map_some] at h
  obtain ⟨j, v, h1, h2, h3, h4⟩ := argmin_opt (sqDist x c0) (C.map (Option.map (sqDist x)))
  rw [List.map_cons] at h1
  rw [h1] at h
  rw [← Option.map_some, ← List.map_cons (f := Option.map (sqDist x)), List.getElem?_map] at h2
  cases hc : (some c0 :: C)[j]? with
  | none => rw [hc] at h2; cases h2
  | some o =>
    rw [hc] at h2
    cases o with
    | none => simp at h2
    | some c =>
      simp only [Option.map_some, Option.some.injEq] at h2
      refine ⟨j, c, by rw [h, h2], hc, ?_, ?_⟩
      · intro c' hc'
        rw [h2]
        apply h3
        rw [← Option.map_some, ← List.map_cons (f := Option.map (sqDist x))]
        exact List.mem_map.2 ⟨some c', hc', rfl⟩
      · intro t c' ht hc'
        rw [h2]
        apply h4 t _ ht
        rw [← Option.map_some (a := c0), ← List.map_cons (f := Option.map (sqDist x)), List.getElem?_map, hc']
        rfl

/-- With a NaN first centroid every row goes to class 0 with distance NaN. -/
theorem closestTo_nan {d : ℕ} (hd : 0 < d) {x : List ℝ} (hx : x.length = d) (C : List (Option (List ℝ))) :
    closestTo (stored d (none :: C)) d (x.map XR.fin) = ok (0, XR.nan) := by
  have h := closestTo_eq (stored d (none :: C)) (x.map XR.fin)
  rw [show (stored d (none :: C)).cols = d from rfl, kmDist_stored hx (.inl hd)] at h
  rw [h]
  simp only [List.map_cons, Option.map_none, optX, argminBy]
  rw [argAux_nan]

/-! ### The nearest squared distance -/

theorem foldl_min_le : ∀ (l : List ℝ) (a : ℝ), l.foldl min a ≤ a ∧ ∀ b ∈ l, l.foldl min a ≤ b
  | [], a => by simp
  | b :: l, a => by
    obtain ⟨h1, h2⟩ := foldl_min_le l (min a b)
    rw [List.foldl_cons]
    refine ⟨h1.trans (min_le_left _ _), ?_⟩
    intro c hc
    rcases List.mem_cons.1 hc with rfl | hc
    · exact h1.trans (min_le_right _ _)
    · exact h2 c hc

theorem foldl_min_mem : ∀ (l : List ℝ) (a : ℝ), l.foldl min a = a ∨ l.foldl min a ∈ l
  | [], a => by simp
  | b :: l, a => by
    rw [List.foldl_cons]
    rcases foldl_min_mem l (min a b) with h | h
    · rw [h]
      rcases min_choice a b with h' | h'
      · left; exact h'
      · right; rw [h']; simp
    · right; exact List.mem_cons_of_mem _ h

theorem nearestSq_le {x : List ℝ} {cs : List (List ℝ)} {c : List ℝ} (hc : c ∈ cs) : nearestSq x cs ≤ sqDist x c := by
  cases cs with
  | nil => simp at hc
  | cons a cs =>
    rw [nearestSq]
    obtain ⟨h1, h2⟩ := foldl_min_le (cs.map (sqDist x)) (sqDist x a)
    rcases List.mem_cons.1 hc with rfl | hc
    · exact h1
    · exact h2 _ (List.mem_map.2 ⟨c, hc, rfl⟩)

theorem nearestSq_mem {x : List ℝ} {cs : List (List ℝ)} (hne : cs ≠ []) : ∃ c ∈ cs, nearestSq x cs = sqDist x c := by
  cases cs with
  | nil => simp at hne
  | cons a cs =>
    rw [nearestSq]
    rcases foldl_min_mem (cs.map (sqDist x)) (sqDist x a) with h | h
    · exact ⟨a, by simp, h⟩
    · obtain ⟨c, hc, hc'⟩ := List.mem_map.1 h
      exact ⟨c, List.mem_cons_of_mem _ hc, hc'.symm⟩

theorem nearestSq_eq {x : List ℝ} {cs : List (List ℝ)} {c : List ℝ} (hc : c ∈ cs) (h : ∀ c' ∈ cs, sqDist x c ≤ sqDist x c') :
    nearestSq x cs = sqDist x c := by
  obtain ⟨c', hc', he⟩ := nearestSq_mem (x := x) (List.ne_nil_of_mem hc)
  exact le_antisymm (nearestSq_le hc) (he ▸ h c' hc')

theorem mem_proper {C : List (Option (List ℝ))} {c : List ℝ} : c ∈ proper C ↔ some c ∈ C := by
  simp [proper]

/-! ### Grouping -/

/-- Positions (counted from `i`) of the entries equal to `j`. -/
def members (j : ℕ) : ℕ → List ℕ → List ℕ
  | _, [] => []
  | i, c :: cs => if c = j then i :: members j (i + 1) cs else members j (i + 1) cs

theorem groupRows_length : ∀ (i : ℕ) (cs : List ℕ) (g : List (List ℕ)), (groupRows i cs g).length = g.length
  | _, [], g => rfl
  | i, c :: cs, g => by rw [groupRows, groupRows_length]; simp

theorem groupRows_get : ∀ (i : ℕ) (cs : List ℕ) (g : List (List ℕ)) (j : ℕ) (hj : j < g.length),
    (groupRows i cs g)[j]? = some (g[j] ++ members j i cs)
  | _, [], g, j, hj => by simp [groupRows, members, hj]
  | i, c :: cs, g, j, hj => by
    rw [groupRows, groupRows_get (i + 1) cs _ j (by simpa using hj), members]
    rw [List.getElem_modify]
    by_cases h : c = j
    · rw [if_pos h, if_pos h]; simp
    · rw [if_neg h, if_neg h]

theorem groupRows_replicate (i k : ℕ) (cs : List ℕ) : groupRows i cs (List.replicate k []) = (List.range k).map fun j => members j i cs := by
  apply List.ext_getElem?
  intro j
  by_cases hj : j < k
  · rw [groupRows_get i cs _ j (by simpa using hj)]
    simp [hj]
  · rw [List.getElem?_eq_none (by rw [groupRows_length]; simpa using hj), List.getElem?_eq_none (by simpa using hj)]

/-- The rows with label `j`. -/
def labelled {α : Type} (j : ℕ) (X : List α) (cs : List ℕ) : List α := ((X.zip cs).filter fun p => p.2 = j).map Prod.fst

theorem select_members {α : Type} (j : ℕ) : ∀ (cs : List ℕ) (pre suf : List α), suf.length = cs.length →
    (members j pre.length cs).mapM (getAt (pre ++ suf)) = ok (labelled j suf cs)
  | [], pre, suf, h => by
    have : suf = [] := by simpa using h
    subst this; simp [members, labelled]
  | c :: cs, pre, suf, h => by
    cases suf with
    | nil => simp at h
    | cons x suf =>
      have ih := select_members j cs (pre ++ [x]) suf (by simpa using h)
      rw [List.append_assoc, List.singleton_append, List.length_append, List.length_singleton] at ih
      rw [members]
      by_cases hc : c = j
      · rw [if_pos hc, List.mapM_cons, ih]
        simp [getAt, labelled, hc]
      · rw [if_neg hc, ih]
        simp [labelled, hc]

theorem select_labelled {α : Type} (j : ℕ) (X : List α) (cs : List ℕ) (h : X.length = cs.length) :
    (members j 0 cs).mapM (getAt X) = ok (labelled j X cs) := select_members j cs [] X h

theorem chunk_flatten {α : Type} (c : ℕ) : ∀ (rows : List (List α)), (∀ r ∈ rows, r.length = c) → chunk c rows.length rows.flatten = rows
  | [], _ => rfl
  | r :: rows, h => by
    have hr : r.length = c := h r (by simp)
    rw [List.length_cons, chunk, List.flatten_cons, List.take_append_of_le_length (by omega), List.drop_append_of_le_length (by omega)]
    rw [List.take_of_length_le (by omega), List.drop_of_length_le (by omega), List.nil_append,
      chunk_flatten c rows (fun r' hr' => h r' (List.mem_cons_of_mem _ hr'))]

theorem flatten_length_const {α : Type} (c : ℕ) : ∀ (rows : List (List α)), (∀ r ∈ rows, r.length = c) → rows.flatten.length = rows.length * c
  | [], _ => by simp
  | r :: rows, h => by
    rw [List.flatten_cons, List.length_append, List.length_cons, h r (by simp),
      flatten_length_const c rows (fun r' hr' => h r' (List.mem_cons_of_mem _ hr'))]
    ring

theorem Mat.new_flatten {α : Type} {k c : ℕ} {rows : List (List α)} (hk : rows.length = k) (h : ∀ r ∈ rows, r.length = c) :
    Mat.new k c rows.flatten = ok ⟨c, rows⟩ := by
  unfold Mat.new
  rw [if_pos (by rw [flatten_length_const c rows h, hk]), ← hk, chunk_flatten c rows h]

theorem meanRow_length [Scalar F] (m : Mat F) : m.meanRow.length = m.cols := by simp [Mat.meanRow, Mat.sumRows]

theorem updateCentroids_eq [Scalar F] (k : ℕ) (X : Mat F) (cs : List ℕ) (h : X.rows.length = cs.length) :
    updateCentroids k X cs = ok ⟨X.cols, (List.range k).map fun j => (⟨X.cols, labelled j X.rows cs⟩ : Mat F).meanRow⟩ := by
  unfold updateCentroids
  simp only [groupRows_replicate]
  rw [List.mapM_map]
  rw [mapM_ok_map _ (fun j => (⟨X.cols, labelled j X.rows cs⟩ : Mat F).meanRow)]
  · simp only [ok_bind]
    apply Mat.new_flatten (by simp)
    intro r hr
    obtain ⟨j, _, rfl⟩ := List.mem_map.1 hr
    exact meanRow_length _
  · intro j _
    simp only [Mat.selectRows, Function.comp]
    rw [select_labelled j X.rows cs h]
    rfl

end RM
