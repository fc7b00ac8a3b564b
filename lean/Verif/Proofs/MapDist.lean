import Verif.Proofs.KNearest

/-! The bookkeeping of a nearest neighbour search only compares distances, so that it commutes with every map of distances, to any
other number type, that respects the comparisons. -/

namespace RM
open Outcome Scalar Spec

variable {F G : Type} [Scalar F] [Scalar G]

/-- The same rows with other distances. -/
def homDist (g : F → G) (ps : List (ℕ × F)) : List (ℕ × G) := ps.map fun p => (p.1, g p.2)

/-- A map that respects the comparisons. -/
structure CmpHom (g : F → G) : Prop where
  lt : ∀ a b, (g a <. g b) = (a <. b)
  le : ∀ a b, (g a <=. g b) = (a <=. b)
  nan : ∀ a, Scalar.isNaN (g a) = Scalar.isNaN a

variable {g : F → G} (hg : CmpHom g)
include hg

theorem addLoop_homDist (ps : List (ℕ × F)) (x : ℕ × F) : ∀ j, addLoop (homDist g ps) (x.1, g x.2) j = homDist g <$> addLoop ps x j
  | 0 => rfl
  | j + 1 => by
    simp only [addLoop, homDist, List.getElem?_map]
    cases h : ps[j]? with
    | none => rfl
    | some p =>
      simp only [Option.map_some, hg.lt]
      split
      · simp [List.map_insertIdx, homDist]
      · exact addLoop_homDist ps x j

theorem knearestAdd_homDist (k : ℕ) (ps : List (ℕ × F)) (i : ℕ) (d : F) :
    knearestAdd k (homDist g ps) i (g d) = (fun r => (homDist g r.1, g r.2)) <$> knearestAdd k ps i d := by
  have hl : (homDist g ps).length = ps.length := by simp [homDist]
  have hlast : (homDist g ps).getLast? = ps.getLast?.map fun p => (p.1, g p.2) := by simp [homDist, List.getLast?_map]
  unfold knearestAdd
  simp only [hl, hlast]
  cases ps.getLast? with
  | none => rfl
  | some last =>
    simp only [Option.map_some, hg.lt]
    split
    · have e : (if ps.length < k then homDist g ps ++ [(i, g d)] else homDist g ps) = homDist g (if ps.length < k then ps ++ [(i, d)] else ps) := by
        split <;> simp [homDist]
      rw [e]
      generalize (if ps.length < k then ps ++ [(i, d)] else ps) = qs
      generalize (if ps.length < k then ps.length else ps.length - 1) = t
      have ht : (homDist g qs)[t]? = qs[t]?.map fun p => (p.1, g p.2) := by simp [homDist]
      rw [ht]
      cases qs[t]? <;> rfl
    · have e : (if k ≤ ps.length then (homDist g ps).dropLast else homDist g ps) = homDist g (if k ≤ ps.length then ps.dropLast else ps) := by
        split <;> simp [homDist, List.map_dropLast]
      rw [e, addLoop_homDist hg _ (i, d)]
      generalize (if ps.length < k then ps.length else ps.length - 1) = t
      cases addLoop (if k ≤ ps.length then ps.dropLast else ps) (i, d) (ps.length - 1) with
      | ok qs =>
        simp only [ok_map, ok_bind]
        have ht : (homDist g qs)[t]? = qs[t]?.map fun p => (p.1, g p.2) := by simp [homDist]
        rw [ht]
        cases qs[t]? <;> rfl
      | err _ => rfl
      | panic => rfl
      | ub => rfl

theorem offerAll_homDist (k : ℕ) : ∀ (cands ps : List (ℕ × F)) (cur : F),
    offerAll k (homDist g cands) (homDist g ps) (g cur) = homDist g <$> offerAll k cands ps cur
  | [], ps, cur => rfl
  | (i, d) :: rest, ps, cur => by
    simp only [homDist, List.map_cons, offerAll, hg.lt]
    split
    · rw [show (ps.map fun p => (p.1, g p.2)) = homDist g ps from rfl, knearestAdd_homDist hg]
      cases knearestAdd k ps i d with
      | ok r => exact offerAll_homDist k rest r.1 r.2
      | err _ => rfl
      | panic => rfl
      | ub => rfl
    · exact offerAll_homDist k rest ps cur

theorem insertionSort_homDist : ∀ ps : List (ℕ × F), (homDist g ps).insertionSort pairLe = homDist g (ps.insertionSort pairLe) := by
  intro ps
  unfold homDist
  rw [List.map_insertionSort (r := pairLe) (s := pairLe)]
  intro a _ b _
  unfold pairLe
  rw [hg.le]

theorem knearestNew_homDist (k : ℕ) (ids : List ℕ) (ds : List F) : knearestNew k ids (ds.map g) = homDist g <$> knearestNew k ids ds := by
  unfold knearestNew
  have e : ids.zip (ds.map g) = homDist g (ids.zip ds) := by
    rw [List.zip_map_right]
    rfl
  simp only [e]
  have hnan : ∀ l : List (ℕ × F), ((homDist g l).any fun p => Scalar.isNaN p.2) = l.any fun p => Scalar.isNaN p.2 := by
    intro l
    induction l with
    | nil => rfl
    | cons a l ih => simp only [homDist, List.map_cons, List.any_cons, hg.nan] at ih ⊢; rw [ih]
  have hlen : (homDist g (ids.zip ds)).length = (ids.zip ds).length := by simp [homDist]
  rw [hnan, hlen]
  split
  · rfl
  · rw [ok_map, insertionSort_homDist hg, homDist, homDist, List.map_take]

theorem knearestDist_homDist (hm : g Scalar.maxVal = Scalar.maxVal) (k : ℕ) (ps : List (ℕ × F)) :
    knearestDist k (homDist g ps) = g <$> knearestDist k ps := by
  unfold knearestDist
  have hl : (homDist g ps).length = ps.length := by simp [homDist]
  have hlast : (homDist g ps).getLast? = ps.getLast?.map fun p => (p.1, g p.2) := by simp [homDist, List.getLast?_map]
  rw [hl, hlast]
  split
  · rw [ok_map, hm]
  · cases ps.getLast? <;> rfl

theorem argAux_hom : ∀ (best : F) (bi i : ℕ) (l : List F),
    argAux (fun best x : G => x <. best) (g best) bi i (l.map g) =
      ((argAux (fun best x : F => x <. best) best bi i l).1, g (argAux (fun best x : F => x <. best) best bi i l).2)
  | best, bi, i, [] => rfl
  | best, bi, i, v :: vs => by
    simp only [List.map_cons, argAux, hg.lt]
    split
    · exact argAux_hom v i (i + 1) vs
    · exact argAux_hom best bi (i + 1) vs

theorem argminBy_hom (l : List F) : argminBy Scalar.lt (l.map g) = (fun r => (r.1, g r.2)) <$> argminBy Scalar.lt l := by
  cases l with
  | nil => rfl
  | cons v vs =>
    simp only [List.map_cons, argminBy, ok_map]
    rw [argAux_hom hg]

end RM
