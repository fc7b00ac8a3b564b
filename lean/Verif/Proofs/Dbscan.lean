import Verif.Model.Dbscan
import Verif.Spec.Dbscan
import Verif.Proofs.Linalg
import Verif.Proofs.Argmax

namespace RM
open Outcome Scalar Spec

section graph
variable {F : Type} [Scalar F] (eps : F) (mp : ℕ) (X : Mat F) (n : ℕ) (nb : ℕ → List ℕ)

/-- The neighbour lists the code computes. -/
structure NbrOf : Prop where
  query : ∀ d, d < n → ∃ row, X.rows[d]? = some row ∧ regionQuery eps row X = ok (nb d)
  lt : ∀ d, d < n → ∀ y ∈ nb d, y < n
  len : ∀ d, d < n → (nb d).length ≤ n

/-- Visited? -/
def DV (st : DbState) (x : ℕ) : Prop := st.visited[x]? = some true

/-- Neighbour step between core points. -/
def cadj (a b : ℕ) : Prop := a < n ∧ b < n ∧ mp ≤ (nb a).length ∧ mp ≤ (nb b).length ∧ b ∈ nb a

/-- State of the right size. -/
def DOk (st : DbState) : Prop := st.visited.length = n ∧ st.clusters.length = n

open Classical in
/-- Number of points not yet visited. -/
noncomputable def unv (st : DbState) : ℕ := ((Finset.range n).filter fun x => ¬ DV st x).card

theorem unv_mono {st st' : DbState} (h : ∀ x, DV st x → DV st' x) : unv n st' ≤ unv n st := by
  classical
  unfold unv
  apply Finset.card_le_card
  intro x hx
  rw [Finset.mem_filter] at hx ⊢
  exact ⟨hx.1, fun hv => hx.2 (h x hv)⟩

theorem unv_lt {st st' : DbState} (h : ∀ x, DV st x → DV st' x) {d : ℕ} (hd : d < n) (h1 : ¬ DV st d) (h2 : DV st' d) :
    unv n st' < unv n st := by
  classical
  unfold unv
  apply Finset.card_lt_card
  rw [Finset.ssubset_iff_of_subset]
  · exact ⟨d, by simp [hd, h1], by simp [h2]⟩
  · intro x hx
    rw [Finset.mem_filter] at hx ⊢
    exact ⟨hx.1, fun hv => hx.2 (h x hv)⟩

/-- What visiting a list of points does. -/
structure Grow (c : ℕ) (src : ℕ → Prop) (st st' : DbState) : Prop where
  ok' : DOk n st'
  mono : ∀ x, DV st x → DV st' x
  keep : ∀ x, ¬ (¬ DV st x ∧ DV st' x ∧ mp ≤ (nb x).length) → st'.clusters[x]? = st.clusters[x]?
  label : ∀ x, ¬ DV st x → DV st' x → mp ≤ (nb x).length → st'.clusters[x]? = some (some c)
  reach : ∀ x, ¬ DV st x → DV st' x → mp ≤ (nb x).length → ∃ y, src y ∧ mp ≤ (nb y).length ∧ Relation.ReflTransGen (cadj mp n nb) y x
  closed : ∀ x, ¬ DV st x → DV st' x → mp ≤ (nb x).length → ∀ y ∈ nb x, DV st' y

variable {eps mp X n nb}

theorem Grow.refl' {c : ℕ} {src : ℕ → Prop} {st : DbState} (h : DOk n st) : Grow mp n nb c src st st :=
  ⟨h, fun _ h => h, fun _ _ => rfl, fun _ h h' => absurd h' h, fun _ h h' => absurd h' h, fun _ h h' => absurd h' h⟩

theorem Grow.trans {c : ℕ} {src src' src'' : ℕ → Prop} {a b d : DbState} (h1 : Grow mp n nb c src a b) (h2 : Grow mp n nb c src' b d)
    (hs : ∀ y, src y → src'' y) (hs' : ∀ y, src' y → src'' y) : Grow mp n nb c src'' a d := by
  refine ⟨h2.ok', fun x hx => h2.mono x (h1.mono x hx), ?_, ?_, ?_, ?_⟩
  · intro x hx
    rw [h2.keep x, h1.keep x]
    · rintro ⟨ha, hb, hc⟩; exact hx ⟨ha, h2.mono x hb, hc⟩
    · rintro ⟨ha, hb, hc⟩; exact hx ⟨fun h => ha (h1.mono x h), hb, hc⟩
  · intro x ha hd hc
    by_cases hb : DV b x
    · rw [h2.keep x (by rintro ⟨h, _⟩; exact h hb)]
      exact h1.label x ha hb hc
    · exact h2.label x hb hd hc
  · intro x ha hd hc
    by_cases hb : DV b x
    · obtain ⟨y, h, h'⟩ := h1.reach x ha hb hc; exact ⟨y, hs y h, h'⟩
    · obtain ⟨y, h, h'⟩ := h2.reach x hb hd hc; exact ⟨y, hs' y h, h'⟩
  · intro x ha hd hc y hy
    by_cases hb : DV b x
    · exact h2.mono y (h1.closed x ha hb hc y hy)
    · exact h2.closed x hb hd hc y hy

theorem visitPoint_visited {st : DbState} {d : ℕ} (h : DV st d) : visitPoint eps X d st = ok none := by
  unfold visitPoint getAt
  rw [h]
  rfl

theorem visitPoint_new (hN : NbrOf eps X n nb) {st : DbState} (hok : DOk n st) {d : ℕ} (hd : d < n) (h : ¬ DV st d) :
    visitPoint eps X d st = ok (some (⟨st.visited.set d true, st.clusters⟩, nb d)) := by
  have hd' : d < st.visited.length := by rw [hok.1]; exact hd
  have hf : st.visited[d]? = some false := by
    unfold DV at h
    rw [List.getElem?_eq_getElem hd'] at h ⊢
    cases hv : st.visited[d] with
    | true => rw [hv] at h; exact absurd rfl h
    | false => rfl
  obtain ⟨row, hr, hq⟩ := hN.query d hd
  unfold visitPoint getAt setAt
  rw [hf, if_pos hd', hr]
  simp [hq]

theorem dv_set {st : DbState} {d : ℕ} (cl : List (Option ℕ)) (hd : d < st.visited.length) (x : ℕ) :
    DV ⟨st.visited.set d true, cl⟩ x ↔ x = d ∨ DV st x := by
  unfold DV
  simp only
  rw [List.getElem?_set]
  by_cases hx : d = x
  · subst hx; simp [hd]
  · rw [if_neg hx]
    constructor
    · intro h; right; exact h
    · rintro (h | h)
      · exact absurd h.symm hx
      · exact h

theorem labelPoint_ok {st : DbState} {d c : ℕ} (hd : d < st.clusters.length) :
    labelPoint d c st = ok ⟨st.visited, st.clusters.set d (some c)⟩ := by
  unfold labelPoint setAt
  rw [if_pos hd]
  rfl

theorem expandLoop_spec (hN : NbrOf eps X n nb) (c : ℕ) : ∀ (fuel : ℕ) (nbrs : List ℕ) (st : DbState), DOk n st → (∀ d ∈ nbrs, d < n) →
    unv n st * (n + 1) + nbrs.length ≤ fuel →
    ∃ st', expandLoop eps mp X c fuel nbrs st = some (ok st') ∧ Grow mp n nb c (fun y => y ∈ nbrs) st st' ∧ ∀ d ∈ nbrs, DV st' d := by
  intro fuel
  induction fuel with
  | zero =>
    intro nbrs st hok _ hf
    have : nbrs = [] := List.eq_nil_of_length_eq_zero (by omega)
    subst this
    exact ⟨st, by rw [expandLoop], Grow.refl' hok, by simp⟩
  | succ fuel ih =>
    intro nbrs st hok hlt hf
    cases nbrs with
    | nil => exact ⟨st, by rw [expandLoop], Grow.refl' hok, by simp⟩
    | cons d rest =>
      have hd : d < n := hlt d (by simp)
      have hrest : ∀ x ∈ rest, x < n := fun x hx => hlt x (by simp [hx])
      rw [List.length_cons] at hf
      by_cases hv : DV st d
      · obtain ⟨st', h1, h2, h3⟩ := ih rest st hok hrest (by omega)
        refine ⟨st', by rw [expandLoop, visitPoint_visited hv]; exact h1, ?_, ?_⟩
        · exact Grow.trans (Grow.refl' (src := fun _ => False) hok) h2 (fun _ h => h.elim) (fun y hy => List.mem_cons_of_mem _ hy)
        · intro x hx
          rcases List.mem_cons.1 hx with rfl | hx
          · exact h2.mono x hv
          · exact h3 x hx
      · have hdl : d < st.visited.length := by rw [hok.1]; exact hd
        have hdc : d < st.clusters.length := by rw [hok.2]; exact hd
        have hnew := visitPoint_new hN hok hd hv
        by_cases hcore : mp ≤ (nb d).length
        · -- core: label, recurse, continue
          set st2 : DbState := ⟨st.visited.set d true, st.clusters.set d (some c)⟩ with hst2
          have hok2 : DOk n st2 := ⟨by simp [hst2, hok.1], by simp [hst2, hok.2]⟩
          have hdv2 : ∀ x, DV st2 x ↔ x = d ∨ DV st x := dv_set _ hdl
          have hu : unv n st2 < unv n st := unv_lt n (fun x hx => (hdv2 x).2 (Or.inr hx)) hd hv ((hdv2 d).2 (Or.inl rfl))
          have hlen := hN.len d hd
          have hfuel2 : unv n st2 * (n + 1) + (nb d).length ≤ fuel := by
            have : (unv n st2 + 1) * (n + 1) ≤ unv n st * (n + 1) := Nat.mul_le_mul_right _ hu
            rw [Nat.add_mul] at this
            omega
          obtain ⟨st3, h31, h32, h33⟩ := ih (nb d) st2 hok2 (hN.lt d hd) hfuel2
          have hu3 := unv_mono n h32.mono
          obtain ⟨st4, h41, h42, h43⟩ := ih rest st3 h32.ok' hrest (by
            have : unv n st3 * (n + 1) ≤ unv n st * (n + 1) := Nat.mul_le_mul_right _ (by omega)
            omega)
          refine ⟨st4, ?_, ?_, ?_⟩
          · rw [expandLoop, hnew]
            simp only [ge_iff_le, if_pos hcore]
            rw [labelPoint_ok (by exact hdc)]
            simp only
            rw [h31]
            exact h41
          · have g1 : Grow mp n nb c (fun y => y = d) st st3 := by
              refine ⟨h32.ok', fun x hx => h32.mono x ((hdv2 x).2 (Or.inr hx)), ?_, ?_, ?_, ?_⟩
              · intro x hx
                have hxd : x ≠ d := by
                  rintro rfl
                  exact hx ⟨hv, h32.mono x ((hdv2 x).2 (Or.inl rfl)), hcore⟩
                rw [h32.keep x]
                · simp only [hst2]
                  rw [List.getElem?_set_ne (Ne.symm hxd)]
                · rintro ⟨ha, hb, hc⟩
                  exact hx ⟨fun h => ha ((hdv2 x).2 (Or.inr h)), hb, hc⟩
              · intro x ha hb hc
                by_cases hxd : x = d
                · subst hxd
                  rw [h32.keep x (by rintro ⟨h, _⟩; exact h ((hdv2 x).2 (Or.inl rfl)))]
                  simp [hst2, hdc]
                · exact h32.label x (fun h => by rcases (hdv2 x).1 h with h | h; exacts [hxd h, ha h]) hb hc
              · intro x ha hb hc
                by_cases hxd : x = d
                · subst hxd
                  exact ⟨x, rfl, hc, Relation.ReflTransGen.refl⟩
                · obtain ⟨y, hy, hyc, hr⟩ := h32.reach x (fun h => by rcases (hdv2 x).1 h with h | h; exacts [hxd h, ha h]) hb hc
                  exact ⟨d, rfl, hcore, Relation.ReflTransGen.head ⟨hd, hN.lt d hd y hy, hcore, hyc, hy⟩ hr⟩
              · intro x ha hb hc y hy
                by_cases hxd : x = d
                · subst hxd
                  exact h33 y hy
                · exact h32.closed x (fun h => by rcases (hdv2 x).1 h with h | h; exacts [hxd h, ha h]) hb hc y hy
            exact Grow.trans g1 h42 (fun y hy => by rw [hy]; simp) (fun y hy => List.mem_cons_of_mem _ hy)
          · intro x hx
            rcases List.mem_cons.1 hx with rfl | hx
            · exact h42.mono x (h32.mono x ((hdv2 x).2 (Or.inl rfl)))
            · exact h43 x hx
        · set st2 : DbState := ⟨st.visited.set d true, st.clusters⟩ with hst2
          have hok2 : DOk n st2 := ⟨by simp [hst2, hok.1], hok.2⟩
          have hdv2 : ∀ x, DV st2 x ↔ x = d ∨ DV st x := dv_set _ hdl
          have hu : unv n st2 < unv n st := unv_lt n (fun x hx => (hdv2 x).2 (Or.inr hx)) hd hv ((hdv2 d).2 (Or.inl rfl))
          obtain ⟨st4, h41, h42, h43⟩ := ih rest st2 hok2 hrest (by
            have : unv n st2 * (n + 1) ≤ unv n st * (n + 1) := Nat.mul_le_mul_right _ (by omega)
            omega)
          refine ⟨st4, ?_, ?_, ?_⟩
          · rw [expandLoop, hnew]
            simp only [ge_iff_le, if_neg hcore]
            exact h41
          · have hx_ne : ∀ x, mp ≤ (nb x).length → x ≠ d := by rintro x h rfl; exact hcore h
            have g1 : Grow mp n nb c (fun _ => False) st st2 := by
              refine ⟨hok2, fun x hx => (hdv2 x).2 (Or.inr hx), fun _ _ => rfl, ?_, ?_, ?_⟩ <;>
              · intro x ha hb hc
                rcases (hdv2 x).1 hb with h | h
                · exact absurd h (hx_ne x hc)
                · exact absurd h ha
            exact Grow.trans g1 h42 (fun y hy => hy.elim) (fun y hy => List.mem_cons_of_mem _ hy)
          · intro x hx
            rcases List.mem_cons.1 hx with rfl | hx
            · exact h42.mono x ((hdv2 x).2 (Or.inl rfl))
            · exact h43 x hx

/-- Invariant of the main loop before row `i`, with `c` clusters so far. -/
structure DInv (mp n : ℕ) (nb : ℕ → List ℕ) (i c : ℕ) (st : DbState) : Prop where
  ok' : DOk n st
  done : ∀ x, x < i → x < n → DV st x
  labelled : ∀ x, x < n → ((∃ l, st.clusters[x]? = some (some l)) ↔ DV st x ∧ mp ≤ (nb x).length)
  bound : ∀ (x l : ℕ), st.clusters[x]? = some (some l) → l < c
  same : ∀ (x y : ℕ) (l l' : ℕ), st.clusters[x]? = some (some l) → st.clusters[y]? = some (some l') →
    (l = l' ↔ Relation.ReflTransGen (cadj mp n nb) x y)
  closed : ∀ x, DV st x → mp ≤ (nb x).length → ∀ y ∈ nb x, DV st y
  first : ∀ l, l < c → ∃ x : ℕ, x < i ∧ st.clusters[x]? = some (some l)
  order : ∀ (x : ℕ) (l l' : ℕ), st.clusters[x]? = some (some l) → l' < l → ∃ y : ℕ, y < x ∧ st.clusters[y]? = some (some l')

theorem cadj_symm (hs : ∀ a b, a < n → b < n → b ∈ nb a → a ∈ nb b) {a b : ℕ} (h : cadj mp n nb a b) : cadj mp n nb b a :=
  ⟨h.2.1, h.1, h.2.2.2.1, h.2.2.1, hs a b h.1 h.2.1 h.2.2.2.2⟩

theorem reach_symm (hs : ∀ a b, a < n → b < n → b ∈ nb a → a ∈ nb b) {a b : ℕ} (h : Relation.ReflTransGen (cadj mp n nb) a b) :
    Relation.ReflTransGen (cadj mp n nb) b a := by
  induction h with
  | refl => exact .refl
  | tail _ hbc ih => exact Relation.ReflTransGen.head (cadj_symm hs hbc) ih

/-- Reachability does not leave a closed visited set. -/
theorem reach_visited {st : DbState} (hcl : ∀ x, DV st x → mp ≤ (nb x).length → ∀ y ∈ nb x, DV st y) {a b : ℕ}
    (h : Relation.ReflTransGen (cadj mp n nb) a b) (ha : DV st a) : DV st b := by
  induction h with
  | refl => exact ha
  | tail _ hbc ih => exact hcl _ ih hbc.2.2.1 _ hbc.2.2.2.2

theorem dbTrainLoop_spec (hN : NbrOf eps X n nb) (hs : ∀ a b, a < n → b < n → b ∈ nb a → a ∈ nb b) (fuel : ℕ) (hfuel : (n + 1) * (n + 1) ≤ fuel) :
    ∀ (k i c : ℕ) (st : DbState), i + k = n → DInv mp n nb i c st →
      ∃ st' c', dbTrainLoop eps mp X fuel (List.range' i k) c st = some (ok st') ∧ DInv mp n nb n c' st' := by
  intro k
  induction k with
  | zero =>
    intro i c st hi hinv
    have : i = n := by omega
    subst this
    exact ⟨st, c, rfl, hinv⟩
  | succ k ih =>
    intro i c st hi hinv
    have hin : i < n := by omega
    rw [List.range'_succ, dbTrainLoop]
    by_cases hv : DV st i
    · rw [visitPoint_visited hv]
      simp only
      apply ih (i + 1) c st (by omega)
      refine ⟨hinv.ok', ?_, hinv.labelled, hinv.bound, hinv.same, hinv.closed, ?_, hinv.order⟩
      · intro x hx hxn
        rcases Nat.lt_succ_iff_lt_or_eq.1 hx with h | h
        · exact hinv.done x h hxn
        · rw [h]; exact hv
      · intro l hl
        obtain ⟨x, hx, hxl⟩ := hinv.first l hl
        exact ⟨x, by omega, hxl⟩
    · have hok := hinv.ok'
      have hdl : i < st.visited.length := by rw [hok.1]; exact hin
      have hdc : i < st.clusters.length := by rw [hok.2]; exact hin
      rw [visitPoint_new hN hok hin hv]
      simp only
      by_cases hcore : mp ≤ (nb i).length
      · rw [if_pos (by exact hcore)]
        unfold expandCluster
        rw [labelPoint_ok (by exact hdc)]
        simp only
        set st2 : DbState := ⟨st.visited.set i true, st.clusters.set i (some c)⟩ with hst2
        have hok2 : DOk n st2 := ⟨by simp [hst2, hok.1], by simp [hst2, hok.2]⟩
        have hdv2 : ∀ x, DV st2 x ↔ x = i ∨ DV st x := dv_set _ hdl
        have hunv : unv n st2 ≤ n := by
          classical
          unfold unv
          refine le_trans (Finset.card_filter_le _ _) (by simp)
        obtain ⟨st3, h31, h32, h33⟩ := expandLoop_spec (mp := mp) hN c fuel (nb i) st2 hok2 (hN.lt i hin) (by
          have := hN.len i hin
          have : unv n st2 * (n + 1) ≤ n * (n + 1) := Nat.mul_le_mul_right _ hunv
          have e : (n + 1) * (n + 1) = n * (n + 1) + (n + 1) := by ring
          omega)
        rw [h31]
        simp only
        apply ih (i + 1) (c + 1) st3 (by omega)
        -- facts about st3
        have hmono : ∀ x, DV st x → DV st3 x := fun x hx => h32.mono x ((hdv2 x).2 (Or.inr hx))
        have hi3 : DV st3 i := h32.mono i ((hdv2 i).2 (Or.inl rfl))
        have hnew : ∀ x, ¬ DV st x → DV st3 x → mp ≤ (nb x).length → st3.clusters[x]? = some (some c) ∧
            Relation.ReflTransGen (cadj mp n nb) i x := by
          intro x ha hb hc
          by_cases hxi : x = i
          · subst hxi
            refine ⟨?_, .refl⟩
            rw [h32.keep x (by rintro ⟨h, _⟩; exact h ((hdv2 x).2 (Or.inl rfl)))]
            simp [hst2, hdc]
          · have hn2 : ¬ DV st2 x := fun h => by rcases (hdv2 x).1 h with h | h; exacts [hxi h, ha h]
            refine ⟨h32.label x hn2 hb hc, ?_⟩
            obtain ⟨y, hy, hyc, hr⟩ := h32.reach x hn2 hb hc
            exact Relation.ReflTransGen.head ⟨hin, hN.lt i hin y hy, hcore, hyc, hy⟩ hr
        have hkeep : ∀ x, ¬ (¬ DV st x ∧ DV st3 x ∧ mp ≤ (nb x).length) → st3.clusters[x]? = st.clusters[x]? := by
          intro x hx
          have hxi : x ≠ i := by rintro rfl; exact hx ⟨hv, hi3, hcore⟩
          rw [h32.keep x]
          · simp only [hst2]; rw [List.getElem?_set_ne (Ne.symm hxi)]
          · rintro ⟨ha, hb, hc⟩; exact hx ⟨fun h => ha ((hdv2 x).2 (Or.inr h)), hb, hc⟩
        have hlt_of : ∀ (x l : ℕ), st3.clusters[x]? = some (some l) → x < n := by
          intro x l h
          have := (List.getElem?_eq_some_iff.1 h).1
          rw [h32.ok'.2] at this; exact this
        have hcases : ∀ (x l : ℕ), st3.clusters[x]? = some (some l) →
            (st.clusters[x]? = some (some l) ∧ DV st x ∧ mp ≤ (nb x).length) ∨
            (l = c ∧ ¬ DV st x ∧ DV st3 x ∧ mp ≤ (nb x).length ∧ Relation.ReflTransGen (cadj mp n nb) i x) := by
          intro x l h
          by_cases hx : ¬ DV st x ∧ DV st3 x ∧ mp ≤ (nb x).length
          · right
            obtain ⟨h1, h2⟩ := hnew x hx.1 hx.2.1 hx.2.2
            rw [h1] at h
            exact ⟨by simpa using h.symm, hx.1, hx.2.1, hx.2.2, h2⟩
          · left
            rw [hkeep x hx] at h
            exact ⟨h, (hinv.labelled x (by have := (List.getElem?_eq_some_iff.1 h).1; rw [hok.2] at this; exact this)).1 ⟨l, h⟩⟩
        refine ⟨h32.ok', ?_, ?_, ?_, ?_, ?_, ?_, ?_⟩
        · intro x hx hxn
          rcases Nat.lt_succ_iff_lt_or_eq.1 hx with h | h
          · exact hmono x (hinv.done x h hxn)
          · rw [h]; exact hi3
        · intro x hxn
          constructor
          · rintro ⟨l, hl⟩
            rcases hcases x l hl with ⟨_, h1, h2⟩ | ⟨_, _, h1, h2, _⟩
            · exact ⟨hmono x h1, h2⟩
            · exact ⟨h1, h2⟩
          · rintro ⟨h1, h2⟩
            by_cases hvx : DV st x
            · obtain ⟨l, hl⟩ := (hinv.labelled x hxn).2 ⟨hvx, h2⟩
              exact ⟨l, by rw [hkeep x (fun h => h.1 hvx)]; exact hl⟩
            · exact ⟨c, (hnew x hvx h1 h2).1⟩
        · intro x l hl
          rcases hcases x l hl with ⟨h, _⟩ | ⟨h, _⟩
          · have := hinv.bound x l h; omega
          · omega
        · intro x y l l' hx hy
          rcases hcases x l hx with ⟨hx1, hx2, hx3⟩ | ⟨hx1, hx2, hx3, hx4, hx5⟩ <;>
            rcases hcases y l' hy with ⟨hy1, hy2, hy3⟩ | ⟨hy1, hy2, hy3, hy4, hy5⟩
          · exact hinv.same x y l l' hx1 hy1
          · constructor
            · intro h; have := hinv.bound x l hx1; omega
            · intro h; exact absurd (reach_visited hinv.closed h hx2) hy2
          · constructor
            · intro h; have := hinv.bound y l' hy1; omega
            · intro h; exact absurd (reach_visited hinv.closed (reach_symm hs h) hy2) hx2
          · constructor
            · intro _; exact (reach_symm hs hx5).trans hy5
            · intro _; omega
        · intro x hx hc y hy
          by_cases hvx : DV st x
          · exact hmono y (hinv.closed x hvx hc y hy)
          · by_cases hxi : x = i
            · subst hxi; exact h33 y hy
            · exact h32.closed x (fun h => by rcases (hdv2 x).1 h with h | h; exacts [hxi h, hvx h]) hx hc y hy
        · intro l hl
          rcases Nat.lt_succ_iff_lt_or_eq.1 hl with h | h
          · obtain ⟨x, hx, hxl⟩ := hinv.first l h
            have hxn : x < n := by have := (List.getElem?_eq_some_iff.1 hxl).1; rw [hok.2] at this; exact this
            refine ⟨x, by omega, ?_⟩
            rw [hkeep x (fun h => h.1 ((hinv.labelled x hxn).1 ⟨l, hxl⟩).1)]
            exact hxl
          · subst h
            exact ⟨i, by omega, (hnew i hv hi3 hcore).1⟩
        · intro x l l' hx hl
          have hstay : ∀ y : ℕ, y < n → st.clusters[y]? = some (some l') → st3.clusters[y]? = some (some l') := by
            intro y hyn hy
            rw [hkeep y (fun h => h.1 ((hinv.labelled y hyn).1 ⟨l', hy⟩).1)]
            exact hy
          have hlen : ∀ (y : ℕ) (o : Option ℕ), st.clusters[y]? = some o → y < n := by
            intro y o hy
            have := (List.getElem?_eq_some_iff.1 hy).1; rw [hok.2] at this; exact this
          rcases hcases x l hx with ⟨h1, h2, h3⟩ | ⟨h1, h2, h3, h4, h5⟩
          · obtain ⟨y, hy, hyl⟩ := hinv.order x l l' h1 hl
            exact ⟨y, hy, hstay y (hlen y _ hyl) hyl⟩
          · obtain ⟨y, hy, hyl⟩ := hinv.first l' (by omega)
            have hxi : ¬ x < i := fun h => h2 (hinv.done x h (hlt_of x l hx))
            exact ⟨y, by omega, hstay y (hlen y _ hyl) hyl⟩
      · rw [if_neg (by exact hcore)]
        set st2 : DbState := ⟨st.visited.set i true, st.clusters⟩ with hst2
        have hok2 : DOk n st2 := ⟨by simp [hst2, hok.1], hok.2⟩
        have hdv2 : ∀ x, DV st2 x ↔ x = i ∨ DV st x := dv_set _ hdl
        apply ih (i + 1) c st2 (by omega)
        refine ⟨hok2, ?_, ?_, hinv.bound, hinv.same, ?_, ?_, hinv.order⟩
        · intro x hx hxn
          rcases Nat.lt_succ_iff_lt_or_eq.1 hx with h | h
          · exact (hdv2 x).2 (Or.inr (hinv.done x h hxn))
          · exact (hdv2 x).2 (Or.inl h)
        · intro x hxn
          rw [hdv2]
          simp only [hst2]
          rw [hinv.labelled x hxn]
          constructor
          · rintro ⟨h1, h2⟩; exact ⟨Or.inr h1, h2⟩
          · rintro ⟨h1 | h1, h2⟩
            · subst h1; exact absurd h2 hcore
            · exact ⟨h1, h2⟩
        · intro x hx hc y hy
          rcases (hdv2 x).1 hx with h | h
          · subst h; exact absurd hc hcore
          · exact (hdv2 y).2 (Or.inr (hinv.closed x h hc y hy))
        · intro l hl
          obtain ⟨x, hx, hxl⟩ := hinv.first l hl
          exact ⟨x, by omega, hxl⟩

end graph

/-! ### Distances and neighbourhoods -/

section dist
variable {F : Type} [Scalar F]

/-- The distance as a total function. -/
def dbD (u v : List F) : F := Scalar.sqrt (dot (List.zipWith Scalar.sub u v) (List.zipWith Scalar.sub u v))

theorem dbDist_eq {u v : List F} (h : u.length = v.length) : dbDist u v = ok (dbD u v) := by
  unfold dbDist vecZip
  rw [if_pos h]
  rfl

theorem regionLoop_eq (eps : F) (point : List F) : ∀ (rows : List (List F)) (i : ℕ), (∀ r ∈ rows, r.length = point.length) →
    regionLoop eps point i rows = ok ((List.range' i rows.length).filter fun j => dbD (rows.getD (j - i) []) point <. eps)
  | [], i, _ => rfl
  | r :: rows, i, h => by
    rw [regionLoop, dbDist_eq (h r (by simp)), regionLoop_eq eps point rows (i + 1) (fun x hx => h x (by simp [hx]))]
    simp only [ok_bind, List.length_cons, List.range'_succ, List.filter_cons, Nat.sub_self, List.getD_cons_zero]
    have : (List.range' (i + 1) rows.length).filter (fun j => dbD (rows.getD (j - (i + 1)) []) point <. eps) =
        (List.range' (i + 1) rows.length).filter (fun j => dbD ((r :: rows).getD (j - i) []) point <. eps) := by
      apply List.filter_congr
      intro j hj
      have hj' := (List.mem_range'_1.1 hj).1
      rw [show j - i = (j - (i + 1)) + 1 by omega, List.getD_cons_succ]
    rw [this]

/-- Rows `i` and `j` are closer than `eps`. -/
def nearF (eps : F) (X : Mat F) (i j : ℕ) : Prop := (dbD (X.rows.getD j []) (X.rows.getD i []) <. eps) = true

/-- Neighbour lists of the data. -/
def nbF (eps : F) (X : Mat F) (i : ℕ) : List ℕ :=
  (List.range X.rows.length).filter fun j => dbD (X.rows.getD j []) (X.rows.getD i []) <. eps

theorem mem_nbF {eps : F} {X : Mat F} {i j : ℕ} : j ∈ nbF eps X i ↔ j < X.rows.length ∧ nearF eps X i j := by
  unfold nbF nearF
  simp

theorem nbrOf (eps : F) (X : Mat F) (hw : X.WF) : NbrOf eps X X.rows.length (nbF eps X) := by
  refine ⟨?_, ?_, ?_⟩
  · intro d hd
    refine ⟨X.rows[d], by simp [hd], ?_⟩
    unfold regionQuery
    rw [regionLoop_eq]
    · congr 1
      unfold nbF
      rw [List.range_eq_range']
      apply List.filter_congr
      intro j _
      simp [hd]
    · intro r hr
      rw [hw r hr, hw _ (List.getElem_mem hd)]
  · intro d _ y hy
    exact (mem_nbF.1 hy).1
  · intro d _
    unfold nbF
    exact le_trans (List.length_filter_le _ _) (by simp)

theorem isCore_iff {eps : F} {X : Mat F} {mp i : ℕ} : mp ≤ (nbF eps X i).length ↔ IsCore X.rows.length mp (nearF eps X) i := by
  have hnd : (nbF eps X i).Nodup := List.nodup_range.filter _
  constructor
  · intro h
    refine ⟨(nbF eps X i).toFinset, by rw [List.toFinset_card_of_nodup hnd]; exact h, ?_⟩
    intro j hj
    exact mem_nbF.1 (List.mem_toFinset.1 hj)
  · rintro ⟨s, hs, hsub⟩
    have : s ⊆ (nbF eps X i).toFinset := fun j hj => List.mem_toFinset.2 (mem_nbF.2 (hsub j hj))
    have := Finset.card_le_card this
    rw [List.toFinset_card_of_nodup hnd] at this
    omega

theorem linked_iff {eps : F} {X : Mat F} {mp i j : ℕ} :
    Relation.ReflTransGen (cadj mp X.rows.length (nbF eps X)) i j ↔ Linked X.rows.length mp (nearF eps X) i j := by
  have : cadj mp X.rows.length (nbF eps X) = fun a b => a < X.rows.length ∧ b < X.rows.length ∧
      IsCore X.rows.length mp (nearF eps X) a ∧ IsCore X.rows.length mp (nearF eps X) b ∧ nearF eps X a b := by
    funext a b
    unfold cadj
    rw [isCore_iff, isCore_iff, mem_nbF]
    apply propext
    tauto
  unfold Linked
  rw [this]

/-- Training terminates with the density clustering, for any scalar type with a symmetric distance. -/
theorem dbTrain_spec (hsym : ∀ u v : List F, dbD u v = dbD v u) (m : Dbscan F) (X : Mat F) (hw : X.WF) (fuel : ℕ)
    (hf : (X.rows.length + 1) * (X.rows.length + 1) ≤ fuel) :
    ∃ labels visited, dbTrain fuel m X = some (ok { m with
        clusters := some labels, visited := visited, clusterData := if m.predictive then some X else m.clusterData }) ∧
      IsDensityClustering X.rows.length m.minPoints (nearF m.eps X) labels := by
  have hsymnb : ∀ a b, a < X.rows.length → b < X.rows.length → b ∈ nbF m.eps X a → a ∈ nbF m.eps X b := by
    intro a b ha _ h
    refine mem_nbF.2 ⟨ha, ?_⟩
    have := (mem_nbF.1 h).2
    unfold nearF at this ⊢
    rw [hsym]; exact this
  have hnone : ∀ (x l : ℕ), (List.replicate X.rows.length (none : Option ℕ))[x]? ≠ some (some l) := by
    intro x l h
    rw [List.getElem?_replicate] at h
    split at h <;> simp at h
  have hnv : ∀ x, ¬ DV ⟨List.replicate X.rows.length false, List.replicate X.rows.length none⟩ x := by
    intro x h
    unfold DV at h
    simp only [List.getElem?_replicate] at h
    split at h <;> simp at h
  have hinit : DInv m.minPoints X.rows.length (nbF m.eps X) 0 0
      ⟨List.replicate X.rows.length false, List.replicate X.rows.length none⟩ := by
    refine ⟨⟨by simp, by simp⟩, fun x hx => absurd hx (by omega), ?_, ?_, ?_, ?_, fun l hl => absurd hl (by omega), ?_⟩
    · intro x _
      constructor
      · rintro ⟨l, hl⟩; exact absurd hl (hnone x l)
      · rintro ⟨h, _⟩; exact absurd h (hnv x)
    · intro x l hl; exact absurd hl (hnone x l)
    · intro x y l l' hl; exact absurd hl (hnone x l)
    · intro x h; exact absurd h (hnv x)
    · intro x l l' hl; exact absurd hl (hnone x l)
  obtain ⟨st, c, h1, h2⟩ := dbTrainLoop_spec (mp := m.minPoints) (nbrOf m.eps X hw) hsymnb fuel hf X.rows.length 0 0 _ (by omega) hinit
  refine ⟨st.clusters, st.visited, ?_, ?_⟩
  · unfold dbTrain
    simp only
    rw [List.range_eq_range', h1]
  · refine ⟨h2.ok'.2, ?_, ?_, h2.order⟩
    · intro i hi
      rw [h2.labelled i hi, ← isCore_iff]
      constructor
      · exact fun h => h.2
      · exact fun h => ⟨h2.done i hi hi, h⟩
    · intro i j l l' hl hl'
      rw [h2.same i j l l' hl hl', linked_iff]

end dist

/-! ### More fuel does not change a finished run -/

section fuel
variable {F : Type} [Scalar F]

theorem expandLoop_mono (eps : F) (mp : ℕ) (X : Mat F) (c : ℕ) : ∀ (fuel : ℕ) (nbrs : List ℕ) (st : DbState) (r : Outcome DbState),
    expandLoop eps mp X c fuel nbrs st = some r → expandLoop eps mp X c (fuel + 1) nbrs st = some r := by
  intro fuel
  induction fuel with
  | zero =>
    intro nbrs st r h
    cases nbrs with
    | nil => rw [expandLoop] at h ⊢; exact h
    | cons d rest => simp [expandLoop] at h
  | succ fuel ih =>
    intro nbrs st r h
    cases nbrs with
    | nil => rw [expandLoop] at h ⊢; exact h
    | cons d rest =>
      rw [expandLoop] at h ⊢
      cases hv : visitPoint eps X d st with
      | err k => rw [hv] at h; exact h
      | panic => rw [hv] at h; exact h
      | ub => rw [hv] at h; exact h
      | ok o =>
        rw [hv] at h
        cases o with
        | none => exact ih rest st r h
        | some p =>
          obtain ⟨st', sub⟩ := p
          simp only at h ⊢
          by_cases hc : sub.length ≥ mp
          · rw [if_pos hc] at h ⊢
            cases hl : labelPoint d c st' with
            | err k => rw [hl] at h; exact h
            | panic => rw [hl] at h; exact h
            | ub => rw [hl] at h; exact h
            | ok st2 =>
              rw [hl] at h
              simp only at h ⊢
              cases he : expandLoop eps mp X c fuel sub st2 with
              | none => rw [he] at h; simp at h
              | some o =>
                rw [he] at h
                rw [ih sub st2 o he]
                cases o with
                | ok st3 => exact ih rest st3 r h
                | err k => exact h
                | panic => exact h
                | ub => exact h
          · rw [if_neg hc] at h ⊢
            exact ih rest st' r h

theorem dbTrainLoop_mono (eps : F) (mp : ℕ) (X : Mat F) (fuel : ℕ) : ∀ (l : List ℕ) (c : ℕ) (st : DbState) (r : Outcome DbState),
    dbTrainLoop eps mp X fuel l c st = some r → dbTrainLoop eps mp X (fuel + 1) l c st = some r
  | [], c, st, r, h => h
  | i :: l, c, st, r, h => by
    rw [dbTrainLoop] at h ⊢
    cases hv : visitPoint eps X i st with
    | err k => rw [hv] at h; exact h
    | panic => rw [hv] at h; exact h
    | ub => rw [hv] at h; exact h
    | ok o =>
      rw [hv] at h
      cases o with
      | none => exact dbTrainLoop_mono eps mp X fuel l c st r h
      | some p =>
        obtain ⟨st', sub⟩ := p
        simp only at h ⊢
        by_cases hc : sub.length ≥ mp
        · rw [if_pos hc] at h ⊢
          cases he : expandCluster eps mp X fuel i sub c st' with
          | none => rw [he] at h; simp at h
          | some o =>
            rw [he] at h
            have he' : expandCluster eps mp X (fuel + 1) i sub c st' = some o := by
              unfold expandCluster at he ⊢
              cases hl : labelPoint i c st' with
              | ok st2 => rw [hl] at he; exact expandLoop_mono eps mp X c fuel sub st2 o he
              | err k => rw [hl] at he; exact he
              | panic => rw [hl] at he; exact he
              | ub => rw [hl] at he; exact he
            rw [he']
            cases o with
            | ok st3 => exact dbTrainLoop_mono eps mp X fuel l (c + 1) st3 r h
            | err k => exact h
            | panic => exact h
            | ub => exact h
        · rw [if_neg hc] at h ⊢
          exact dbTrainLoop_mono eps mp X fuel l c st' r h

theorem dbTrain_mono {fuel : ℕ} {m : Dbscan F} {X : Mat F} {r : Outcome (Dbscan F)} (h : dbTrain fuel m X = some r) (k : ℕ) :
    dbTrain (fuel + k) m X = some r := by
  induction k with
  | zero => exact h
  | succ k ih =>
    unfold dbTrain at ih ⊢
    simp only at ih ⊢
    cases he : dbTrainLoop m.eps m.minPoints X (fuel + k) (List.range X.rows.length) 0
        ⟨List.replicate X.rows.length false, List.replicate X.rows.length none⟩ with
    | none => rw [he] at ih; simp at ih
    | some o =>
      rw [he] at ih
      rw [show fuel + (k + 1) = fuel + k + 1 from rfl, dbTrainLoop_mono _ _ _ _ _ _ _ o he]
      exact ih

/-- Whatever the fuel, a finished training run is the density clustering. -/
theorem dbTrain_finished (hsym : ∀ u v : List F, dbD u v = dbD v u) {m : Dbscan F} {X : Mat F} (hw : X.WF) {fuel : ℕ}
    {r : Outcome (Dbscan F)} (h : dbTrain fuel m X = some r) :
    ∃ labels visited, r = ok { m with
        clusters := some labels, visited := visited, clusterData := if m.predictive then some X else m.clusterData } ∧
      IsDensityClustering X.rows.length m.minPoints (nearF m.eps X) labels := by
  obtain ⟨labels, visited, h1, h2⟩ := dbTrain_spec hsym m X hw (fuel + (X.rows.length + 1) * (X.rows.length + 1)) (by omega)
  rw [dbTrain_mono h] at h1
  exact ⟨labels, visited, Option.some.inj h1, h2⟩

end fuel

/-- The density clustering is unique. -/
theorem IsDensityClustering.unique {n mp : ℕ} {near : ℕ → ℕ → Prop} {a b : List (Option ℕ)} (ha : IsDensityClustering n mp near a)
    (hb : IsDensityClustering n mp near b) : a = b := by
  have key : ∀ i : ℕ, i < n → a[i]? = b[i]? := by
    intro i
    induction i using Nat.strong_induction_on with
    | _ i ih =>
      intro hi
      have hai : i < a.length := by rw [ha.length]; exact hi
      have hbi : i < b.length := by rw [hb.length]; exact hi
      by_cases hc : IsCore n mp near i
      · obtain ⟨l, hl⟩ := (ha.labelled i hi).2 hc
        obtain ⟨l', hl'⟩ := (hb.labelled i hi).2 hc
        rw [hl, hl']
        rcases lt_trichotomy l l' with h | h | h
        · obtain ⟨j, hj, hjl⟩ := hb.order i l' l hl' h
          have hja := ih j hj (by omega)
          rw [hjl] at hja
          have := (hb.same i j l' l hl' hjl).2 ((ha.same i j l l hl hja).1 rfl)
          omega
        · rw [h]
        · obtain ⟨j, hj, hjl⟩ := ha.order i l l' hl h
          have hja := ih j hj (by omega)
          rw [hjl] at hja
          have := (ha.same i j l l' hl hjl).2 ((hb.same i j l' l' hl' hja.symm).1 rfl)
          omega
      · have h1 : a[i]? = some none := by
          rw [List.getElem?_eq_getElem hai]
          cases h : a[i] with
          | none => rfl
          | some l => exact absurd ((ha.labelled i hi).1 ⟨l, by simp [hai, h]⟩) hc
        have h2 : b[i]? = some none := by
          rw [List.getElem?_eq_getElem hbi]
          cases h : b[i] with
          | none => rfl
          | some l => exact absurd ((hb.labelled i hi).1 ⟨l, by simp [hbi, h]⟩) hc
        rw [h1, h2]
  apply List.ext_getElem?
  intro i
  by_cases hi : i < n
  · exact key i hi
  · rw [List.getElem?_eq_none (by rw [ha.length]; omega), List.getElem?_eq_none (by rw [hb.length]; omega)]

theorem dbD_real (u v : List ℝ) : dbD u v = eucl u v := by
  unfold dbD eucl
  rw [dot_real, real_sqrt]
  congr 2
  induction u generalizing v with
  | nil => simp
  | cons a u ih =>
    cases v with
    | nil => simp
    | cons b v => simp only [List.zipWith_cons_cons, ih, real_sub, sq]

theorem eucl_comm (u v : List ℝ) : eucl u v = eucl v u := by
  change Real.sqrt (sqDist u v) = Real.sqrt (sqDist v u)
  rw [sqDist_comm]

theorem xr_sub_mul_comm (x y : XR) : (x -. y) *. (x -. y) = (y -. x) *. (y -. x) := by
  cases x <;> cases y <;> first | rfl | (simp only [xr_sub, xr_mul]; congr 1; ring)

theorem dbD_comm_of {F : Type} [Scalar F] (h : ∀ x y : F, (x -. y) *. (x -. y) = (y -. x) *. (y -. x)) (u v : List F) : dbD u v = dbD v u := by
  unfold dbD dot
  congr 2
  induction u generalizing v with
  | nil => simp
  | cons a u ih =>
    cases v with
    | nil => simp
    | cons b v => simp only [List.zipWith_cons_cons, ih, h a b]

end RM
