import Verif.Proofs.Backprop

/-! Back-propagation through a network. -/

namespace RM
open Outcome Scalar Spec

theorem getD_append_lt (a b : List ℝ) (t : ℕ) (h : t < a.length) : (a ++ b).getD t 0 = a.getD t 0 := by
  simp only [List.getD_eq_getElem?_getD, List.getElem?_append_left h]

theorem getD_append_add (a b : List ℝ) (t : ℕ) : (a ++ b).getD (a.length + t) 0 = b.getD t 0 := by
  simp [List.getD_eq_getElem?_getD, List.getElem?_append_right]

theorem unwrap_ok {α : Type} (a : α) : (ok a).unwrap = ok a := rfl

theorem netRow_append (a b : List (NetLayer ℝ)) (w x : List ℝ) : netRow (a ++ b) w x = netRow b (w.drop (totalParams a)) (netRow a w x) := by
  induction a generalizing w x with
  | nil => simp [totalParams_nil, netRow]
  | cons l a ih => rw [List.cons_append, netRow_cons, ih, netRow_cons, totalParams_cons, List.drop_drop]

theorem LinesUp_append {a b : List (NetLayer ℝ)} {c d : ℕ} : LinesUp (a ++ b) c d ↔ ∃ m, LinesUp a c m ∧ LinesUp b m d := by
  induction a generalizing c with
  | nil =>
    constructor
    · intro h; exact ⟨c, .nil c, h⟩
    · rintro ⟨m, h1, h2⟩; cases h1; exact h2
  | cons l a ih =>
    rw [List.cons_append, LinesUp_cons, ih]
    constructor
    · rintro ⟨h1, m, h2, h3⟩; exact ⟨m, LinesUp_cons.mpr ⟨h1, h2⟩, h3⟩
    · rintro ⟨m, h1, h2⟩
      obtain ⟨h3, h4⟩ := LinesUp_cons.mp h1
      exact ⟨h3, m, h4, h2⟩

theorem LinesUp_unique {ls : List (NetLayer ℝ)} {c d d' : ℕ} (h : LinesUp ls c d) (h' : LinesUp ls c d') : d = d' := by
  induction ls generalizing c with
  | nil => cases h; cases h'; rfl
  | cons l ls ih => exact ih (LinesUp_cons.mp h).2 (LinesUp_cons.mp h').2

theorem LinesUp_single {l : NetLayer ℝ} {c d : ℕ} (h : LinesUp [l] c d) : layerFits l c ∧ d = layerOut l c := by
  obtain ⟨h1, h2⟩ := LinesUp_cons.mp h
  cases h2
  exact ⟨h1, rfl⟩

/-- The activations and parameter slices of the layers `ls` on the inputs `X`. -/
def GoodActs (w : List ℝ) (X : Mat ℝ) (c : ℕ) (ls : List (NetLayer ℝ)) (acts ps : List (Mat ℝ)) : Prop :=
  ∀ pre l post, ls = pre ++ l :: post → ∃ m P, LinesUp (pre ++ [l]) c m ∧
    acts[pre.length]? = some ⟨m, X.rows.map (netRow (pre ++ [l]) w)⟩ ∧ ps[pre.length]? = some P ∧
    sliceAt w (totalParams pre) l.paramShape = ok P

/-- The forward loop of `compute_grad`. -/
theorem netForward_spec (w : List ℝ) (X : Mat ℝ) {n c : ℕ} (hX : HasShape X n c) : ∀ (rest done : List (NetLayer ℝ)) (acts ps : List (Mat ℝ)) (d : ℕ),
    LinesUp (done ++ rest) c d → totalParams (done ++ rest) ≤ w.length → acts.length = done.length → ps.length = done.length →
    GoodActs w X c done acts ps →
    ∃ acts' ps', netForward w X rest (totalParams done) acts ps = ok (totalParams (done ++ rest), acts', ps') ∧
      acts'.length = (done ++ rest).length ∧ ps'.length = (done ++ rest).length ∧ GoodActs w X c (done ++ rest) acts' ps'
  | [], done, acts, ps, d, h, hw, ha, hp, hg => by
    simp only [List.append_nil]
    exact ⟨acts, ps, rfl, ha, hp, hg⟩
  | l :: rest, done, acts, ps, d, h, hw, ha, hp, hg => by
    obtain ⟨m, hdone, hrest⟩ := LinesUp_append.mp h
    obtain ⟨hfit, hrest'⟩ := LinesUp_cons.mp hrest
    rw [totalParams_append, totalParams_cons] at hw
    -- the current input
    have hcur : acts.getLast?.getD X = ⟨m, X.rows.map (netRow done w)⟩ := by
      rcases List.eq_nil_or_concat done with hd | ⟨pre, l', hd⟩
      · subst hd
        have : acts = [] := List.length_eq_zero_iff.mp (by simpa using ha)
        subst this
        cases hdone
        simp only [List.getLast?_nil, Option.getD_none, netRow, List.map_id']
        rw [← hX.2.1]
      · rw [List.concat_eq_append] at hd
        subst hd
        obtain ⟨m', P, h1, h2, _, _⟩ := hg pre l' [] rfl
        have hm : m' = m := by
          exact LinesUp_unique h1 hdone
        subst hm
        rw [List.getLast?_eq_getElem?, ha]
        simp [h2]
    have hZ : HasShape (⟨m, X.rows.map (netRow done w)⟩ : Mat ℝ) n m := map_shape hX _ fun x hx => netRow_length hdone _ x hx
    obtain ⟨P, hP⟩ := slice_exists (w := w) (start := totalParams done) (l := l) (by omega)
    have hfw := forward_ok hZ hP hfit
    have hrow : (⟨layerOut l m, List.map (layerRow l (List.drop (totalParams done) w)) (X.rows.map (netRow done w))⟩ : Mat ℝ) =
        ⟨layerOut l m, X.rows.map (netRow (done ++ [l]) w)⟩ := by
      congr 1
      rw [List.map_map]
      apply List.map_congr_left
      intro x _
      rw [netRow_append]
      rfl
    have hup : LinesUp (done ++ [l]) c (layerOut l m) := LinesUp_append.mpr ⟨m, hdone, LinesUp_cons.mpr ⟨hfit, .nil _⟩⟩
    have hg' : GoodActs w X c (done ++ [l]) (acts ++ [⟨layerOut l m, X.rows.map (netRow (done ++ [l]) w)⟩]) (ps ++ [P]) := by
      intro pre l' post he
      rcases List.eq_nil_or_concat post with hpo | ⟨post', b, hpo⟩
      · subst hpo
        have he' : done = pre ∧ l = l' := by
          have := List.append_inj' he rfl
          simpa using this
        obtain ⟨rfl, rfl⟩ := he'
        refine ⟨_, P, hup, ?_, ?_, hP⟩
        · rw [← ha, List.getElem?_append_right le_rfl]; simp
        · rw [← hp, List.getElem?_append_right le_rfl]; simp
      · rw [List.concat_eq_append] at hpo
        subst hpo
        have he' : done = pre ++ l' :: post' := by
          have : done ++ [l] = (pre ++ l' :: post') ++ [b] := by simpa using he
          exact (List.append_inj' this rfl).1
        obtain ⟨m', P', h1, h2, h3, h4⟩ := hg pre l' post' he'
        have hlt : pre.length < done.length := by rw [he']; simp
        exact ⟨m', P', h1, by rw [List.getElem?_append_left (by omega)]; exact h2, by rw [List.getElem?_append_left (by omega)]; exact h3, h4⟩
    have e : done ++ l :: rest = (done ++ [l]) ++ rest := by simp
    have := netForward_spec w X hX rest (done ++ [l]) (acts ++ [⟨layerOut l m, X.rows.map (netRow (done ++ [l]) w)⟩]) (ps ++ [P]) d
      (by rw [← e]; exact h) (by rw [← e, totalParams_append, totalParams_cons]; exact hw) (by simp [ha]) (by simp [hp]) hg'
    rw [← e] at this
    rw [netForward, hP, ok_bind, hcur, hfw, unwrap_ok]
    simp only [ok_bind, hrow]
    rw [totalParams_append, totalParams_cons, totalParams_nil, Nat.add_zero] at this
    exact this
termination_by rest => rest.length

variable {E : Type} [NormedAddCommGroup E] [NormedSpace ℝ E]

/-- The derivative of the network and the backward loop of `compute_grad`. -/
theorem netBackward_spec (e₀ : E) (W : E → List ℝ) (W' : ℕ → E →L[ℝ] ℝ) (N : ℕ)
    (hdW : ∀ t < N, HasFDerivAt (fun e => (W e).getD t 0) (W' t) e₀) (X : Mat ℝ) {n c : ℕ} (hX : HasShape X n c) (ls : List (NetLayer ℝ)) :
    ∀ d, LinesUp ls c d → (∀ l ∈ ls, GradOK l) → totalParams ls ≤ N →
    ∃ Y' : ℕ → ℕ → E →L[ℝ] ℝ,
      (∀ i < n, ∀ j < d, HasFDerivAt (fun e => (netRow ls (W e) (X.rows.getD i [])).getD j 0) (Y' i j) e₀) ∧
      ∀ acts ps, GoodActs (W e₀) X c ls acts ps → ∀ G, HasShape G n d → ∀ g : List (Option ℝ), totalParams ls ≤ g.length →
        ∃ gr : List ℝ, gr.length = totalParams ls ∧
          netBackward X acts ps ls.zipIdx.reverse (totalParams ls) G g = ok (gr.map some ++ g.drop (totalParams ls)) ∧
          ∑ i ∈ Finset.range n, ∑ j ∈ Finset.range d, ent G i j • Y' i j = ∑ t ∈ Finset.range (totalParams ls), gr.getD t 0 • W' t := by
  induction ls using List.reverseRecOn with
  | nil =>
    intro d h _ _
    cases h
    refine ⟨fun _ _ => 0, fun i _ j _ => hasFDerivAt_const ((X.rows.getD i []).getD j 0) e₀, ?_⟩
    intro acts ps _ G _ g _
    exact ⟨[], rfl, by simp [netBackward, totalParams], by simp [totalParams]⟩
  | append_singleton pre l ih =>
    intro d h hok hN
    obtain ⟨m, hpre, hl⟩ := LinesUp_append.mp h
    obtain ⟨hfit, rfl⟩ := LinesUp_single hl
    have htp : totalParams (pre ++ [l]) = totalParams pre + l.numParams := by rw [totalParams_append, totalParams_cons, totalParams_nil, Nat.add_zero]
    rw [htp] at hN
    obtain ⟨Z', hZ', hback⟩ := ih m hpre (fun l' hl' => hok l' (by simp [hl'])) (by omega)
    have hlayer : ∀ i, ∃ y' : ℕ → E →L[ℝ] ℝ, i < n →
        (∀ j < layerOut l m, HasFDerivAt (fun e => (layerRow l ((W e).drop (totalParams pre)) (netRow pre (W e) (X.rows.getD i []))).getD j 0) (y' j) e₀) ∧
        ∀ γ : ℕ → ℝ, ∑ j ∈ Finset.range (layerOut l m), γ j • y' j =
          ∑ t ∈ Finset.range l.numParams, rowParamGrad l (netRow pre (W e₀) (X.rows.getD i [])) γ t • W' (totalParams pre + t) +
          ∑ k ∈ Finset.range m, rowInGrad l ((W e₀).drop (totalParams pre))
            (layerRow l ((W e₀).drop (totalParams pre)) (netRow pre (W e₀) (X.rows.getD i []))) γ k • Z' i k := by
      intro i
      by_cases hi : i < n
      · obtain ⟨y', h1, h2⟩ := layerRow_deriv l (hok l (by simp)) e₀ m hfit (fun e => netRow pre (W e) (X.rows.getD i []))
          (fun e => netRow_length hpre _ _ (shape_row_length hX hi)) (Z' i) (fun k hk => hZ' i hi k hk)
          (fun e => (W e).drop (totalParams pre)) (fun t => W' (totalParams pre + t)) (by
            intro t ht
            have := hdW (totalParams pre + t) (by omega)
            simpa [List.getD_eq_getElem?_getD, List.getElem?_drop] using this)
        exact ⟨y', fun _ => ⟨h1, h2⟩⟩
      · exact ⟨fun _ => 0, fun h => absurd h hi⟩
    choose Y' hY' using hlayer
    refine ⟨Y', ?_, ?_⟩
    · intro i hi j hj
      have := (hY' i hi).1 j hj
      apply this.congr_of_eventuallyEq
      filter_upwards with e
      rw [netRow_append]
      rfl
    · intro acts ps hg G hG g hgl
      rw [htp] at hgl ⊢
      obtain ⟨m', P, hm', ha, hp, hP⟩ := hg pre l [] rfl
      have hm'' : m' = layerOut l m := by
        obtain ⟨k, h1, h2⟩ := LinesUp_append.mp hm'
        exact LinesUp_unique hm' h
      subst hm''
      have hZs : HasShape (⟨m, X.rows.map (netRow pre (W e₀))⟩ : Mat ℝ) n m := map_shape hX _ fun x hx => netRow_length hpre _ x hx
      have hact : layerInput X acts pre.length = ok (⟨m, X.rows.map (netRow pre (W e₀))⟩ : Mat ℝ) := by
        rcases List.eq_nil_or_concat pre with hd | ⟨pre', l', hd⟩
        · subst hd
          cases hpre
          simp only [layerInput, List.length_nil, if_true, netRow, List.map_id']
          rw [← hX.2.1]
        · rw [List.concat_eq_append] at hd
          obtain ⟨k, P', h1, h2, _, _⟩ := hg pre' l' [l] (by rw [hd]; simp)
          rw [← hd] at h1 h2
          have hk : k = m := by
            exact LinesUp_unique h1 hpre
          rw [layerInput, if_neg (by rw [hd]; simp), show pre.length - 1 = pre'.length by rw [hd]; simp, getAt, h2, ofOption_some, hk]
      obtain ⟨M, hM, hMl, hMe⟩ := backParams_ent l hZs hG hfit
      obtain ⟨GZ, hGZ, hGZs, hGZe⟩ := backInput_ent l hZs hG hfit hP
      have hres : (⟨layerOut l m, List.map (layerRow l (List.drop (totalParams pre) (W e₀))) (X.rows.map (netRow pre (W e₀)))⟩ : Mat ℝ) =
          ⟨layerOut l m, X.rows.map (netRow (pre ++ [l]) (W e₀))⟩ := by
        congr 1
        rw [List.map_map]
        apply List.map_congr_left
        intro x _
        rw [netRow_append]
        rfl
      simp only at hGZ
      rw [hres] at hGZ
      have hgpre : GoodActs (W e₀) X c pre acts ps := by
        intro pre' l' post he
        exact hg pre' l' (post ++ [l]) (by rw [he]; simp)
      obtain ⟨gr, hgr, hloop, hsum⟩ := hback acts ps hgpre GZ hGZs (g.take (totalParams pre) ++ M.data.map some ++ g.drop (totalParams pre + l.numParams))
        (by simp; omega)
      refine ⟨gr ++ M.data, by rw [List.length_append, hgr, hMl], ?_, ?_⟩
      · rw [List.zipIdx_append, List.reverse_append]
        simp only [List.zipIdx_singleton, List.reverse_singleton, List.singleton_append, Nat.zero_add]
        rw [netBackward]
        simp only [hact, ok_bind, getAt, ha, hp, ofOption_some, hM, Nat.add_sub_cancel, copyInto]
        rw [if_pos ⟨hgl, hMl⟩, ok_bind, hGZ, ok_bind, hloop]
        congr 1
        rw [List.append_assoc, List.drop_append_of_le_length (by rw [List.length_take]; omega), List.drop_eq_nil_of_le (by rw [List.length_take]; omega)]
        simp [hMl]
      · have hG' : ∀ i ∈ Finset.range n, ∑ j ∈ Finset.range (layerOut l m), ent G i j • Y' i j =
            ∑ t ∈ Finset.range l.numParams, rowParamGrad l (netRow pre (W e₀) (X.rows.getD i [])) (ent G i) t • W' (totalParams pre + t) +
            ∑ k ∈ Finset.range m, ent GZ i k • Z' i k := by
          intro i hi
          have hi' := Finset.mem_range.mp hi
          rw [(hY' i hi').2 (ent G i)]
          congr 1
          apply Finset.sum_congr rfl
          intro k hk
          rw [hGZe i k hi' (Finset.mem_range.mp hk), getD_map_lt _ _ [] _ _ (by rw [hX.1]; exact hi')]
        rw [Finset.sum_congr rfl hG', Finset.sum_add_distrib, hsum, Finset.sum_range_add, add_comm]
        congr 1
        · apply Finset.sum_congr rfl
          intro t ht
          rw [getD_append_lt _ _ _ (by rw [hgr]; exact Finset.mem_range.mp ht)]
        · rw [Finset.sum_comm]
          apply Finset.sum_congr rfl
          intro t ht
          rw [← hgr, getD_append_add, hMe t (Finset.mem_range.mp ht), Finset.sum_smul]
          apply Finset.sum_congr rfl
          intro i hi
          rw [getD_map_lt _ _ [] _ _ (by rw [hX.1]; exact Finset.mem_range.mp hi)]

theorem allInit_some (l : List ℝ) : allInit (l.map some) = ok l := by
  induction l with
  | nil => rfl
  | cons x l ih => simp [allInit, ih]

end RM
