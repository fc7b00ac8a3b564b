import Mathlib.Data.List.GetD
import Verif.Props.CrossValidation
import Verif.Props.Score

/-! C107: scores of parts combine; what the scores of a cross validation say. -/

namespace RM
open Outcome Scalar Spec

/-- The score is the mean over the rows of `w output target`; it is there exactly when there are as many outputs as targets. -/
def Spec.IsMeanScore {Y : Type} (score : List Y → List Y → Outcome ℝ) (w : Y → Y → ℝ) : Prop :=
  ∀ o t a, score o t = ok a ↔ o.length = t.length ∧ a = (List.zipWith w o t).sum / o.length

/-- **C107 (accuracy).** The accuracy is a mean score. -/
theorem C107_accuracy {T : Type} (eqb : T → T → Bool) : IsMeanScore (accuracy (F := ℝ) eqb) fun a b => if eqb a b then 1 else 0 := by
  have key : ∀ o t : List T, (((o.zip t).filter fun p => eqb p.1 p.2).length : ℝ) = (List.zipWith (fun a b => if eqb a b then (1 : ℝ) else 0) o t).sum := by
    intro o
    induction o with
    | nil => intro t; simp
    | cons a o ih =>
      intro t
      cases t with
      | nil => simp
      | cons b t =>
        rw [List.zip_cons_cons, List.filter_cons, List.zipWith_cons_cons, List.sum_cons, ← ih]
        by_cases h : eqb a b = true
        · simp [h, add_comm]
        · simp [h]
  intro o t a
  unfold accuracy
  by_cases h : o.length = t.length
  · rw [decide_eq_true h]
    simp only [Outcome.assert, if_true, ok_bind, real_div, real_ofNat, h, true_and, Outcome.ok.injEq]
    rw [key, ← h]
    exact eq_comm
  · rw [decide_eq_false h]
    simp [Outcome.assert, h]

/-- **C107 (row accuracy).** So is the row accuracy of matrices. -/
theorem C107_row_accuracy (c : ℕ) : IsMeanScore (fun o t => rowAccuracy (F := ℝ) ⟨c, o⟩ ⟨c, t⟩) fun a b => if rowEq a b then 1 else 0 :=
  C107_accuracy rowEq

/-- **C107 (squared error).** So is the negative mean squared error. -/
theorem C107_squared_error (c : ℕ) : IsMeanScore (fun o t => negMeanSquaredError (F := ℝ) ⟨c, o⟩ ⟨c, t⟩) fun a b => -sqDist a b := by
  intro o t a
  obtain ⟨h1, h2⟩ := C12_value ⟨c, o⟩ ⟨c, t⟩
  simp only [Mat.nrows] at h1 h2
  have hz : (List.zipWith (fun a b => -sqDist a b) o t).sum = -(List.zipWith sqDist o t).sum := by
    clear h1 h2
    induction o generalizing t with
    | nil => simp
    | cons a o ih => cases t with
      | nil => simp
      | cons b t => simp only [List.zipWith_cons_cons, List.sum_cons, ih]; ring
  beta_reduce
  by_cases h : o.length = t.length
  · rw [h2 h trivial, hz]
    simp only [Outcome.ok.injEq, h, true_and]
    rw [neg_div]
    exact eq_comm
  · rw [h1.mpr (fun hh => h hh.1)]
    simp [h]

theorem zipWith_parts {Y : Type} (w : Y → Y → ℝ) : ∀ parts : List (List Y × List Y), (∀ p ∈ parts, p.1.length = p.2.length) →
    (List.zipWith w (parts.flatMap Prod.fst) (parts.flatMap Prod.snd)).sum = (parts.map fun p => (List.zipWith w p.1 p.2).sum).sum ∧
    (parts.flatMap Prod.fst).length = (parts.flatMap Prod.snd).length
  | [], _ => by simp
  | p :: parts, h => by
    obtain ⟨h1, h2⟩ := zipWith_parts w parts fun q hq => h q (List.mem_cons_of_mem _ hq)
    have hp := h p (by simp)
    rw [List.flatMap_cons, List.flatMap_cons, List.zipWith_append hp, List.sum_append, h1, List.map_cons, List.sum_cons, List.length_append, List.length_append, hp, h2]
    exact ⟨rfl, rfl⟩

/-- **C107 (parts).** If data are cut into parts, the score of the whole times its size is the sum of the scores of the parts times their sizes. -/
theorem C107_parts {Y : Type} {score : List Y → List Y → Outcome ℝ} {w : Y → Y → ℝ} (hm : IsMeanScore score w) (parts : List (List Y × List Y)) (as : List ℝ)
    (h : List.Forall₂ (fun p a => score p.1 p.2 = ok a) parts as) :
    ∃ a, score (parts.flatMap Prod.fst) (parts.flatMap Prod.snd) = ok a ∧
      (parts.flatMap Prod.fst).length * a = (List.zipWith (fun p b => (p.1.length : ℝ) * b) parts as).sum := by
  have hlen : ∀ p ∈ parts, p.1.length = p.2.length := by
    intro p hp
    obtain ⟨i, hi, rfl⟩ := List.mem_iff_getElem.mp hp
    have ha := List.Forall₂.get h hi (h.length_eq ▸ hi)
    rw [List.get_eq_getElem] at ha
    exact ((hm _ _ _).mp ha).1
  obtain ⟨h1, h2⟩ := zipWith_parts w parts hlen
  refine ⟨_, (hm _ _ _).mpr ⟨h2, rfl⟩, ?_⟩
  have e1 : (List.zipWith (fun p b => (p.1.length : ℝ) * b) parts as).sum = (parts.map fun p => (List.zipWith w p.1 p.2).sum).sum := by
    clear h1 h2 hlen
    induction h with
    | nil => rfl
    | @cons p a parts as hpa _ ih =>
      obtain ⟨hl, ha⟩ := (hm _ _ _).mp hpa
      rw [List.zipWith_cons_cons, List.sum_cons, ih, List.map_cons, List.sum_cons, ha]
      congr 1
      by_cases h0 : (p.1.length : ℝ) = 0
      · have : p.1 = [] := List.length_eq_zero_iff.mp (by exact_mod_cast h0)
        rw [this]
        simp
      · field_simp
  rw [e1, ← h1]
  by_cases h0 : ((parts.flatMap Prod.fst).length : ℝ) = 0
  · have : parts.flatMap Prod.fst = [] := List.length_eq_zero_iff.mp (by exact_mod_cast h0)
    rw [this]
    simp
  · field_simp

theorem pairCount_append {T : Type} [DecidableEq T] {u v u' v' : List T} (h : u.length = v.length) (h' : u'.length = v'.length) (a b : T) :
    pairCount (u ++ u') (v ++ v') a b = pairCount u v a b + pairCount u' v' a b := by
  rw [pairCount_zip _ _ (by simp [h, h']), pairCount_zip _ _ h, pairCount_zip _ _ h', List.zip_append h, List.countP_append]

/-- **C107 (confusion matrices).** With the same labels, the confusion matrix of the whole is the sum of those of two parts, entry by entry. -/
theorem C107_confusion {T : Type} [LinearOrder T] {p t p' t' labels : List T} (h : p.length = t.length) (h' : p'.length = t'.length) (hnd : labels.Nodup) :
    ∃ m m' m'', confusionMatrix p t (some labels) = ok m ∧ confusionMatrix p' t' (some labels) = ok m' ∧
      confusionMatrix (p ++ p') (t ++ t') (some labels) = ok m'' ∧
      ∀ i j, i < labels.length → j < labels.length → ∃ a b, entry m i j = some a ∧ entry m' i j = some b ∧ entry m'' i j = some (a + b) := by
  obtain ⟨m, h1, -, -, h2⟩ := C08_confusion_entries p t labels h hnd
  obtain ⟨m', h1', -, -, h2'⟩ := C08_confusion_entries p' t' labels h' hnd
  obtain ⟨m'', h1'', -, -, h2''⟩ := C08_confusion_entries (p ++ p') (t ++ t') labels (by simp [h, h']) hnd
  refine ⟨m, m', m'', h1, h1', h1'', fun i j hi hj => ?_⟩
  have ei := List.getElem?_eq_getElem hi
  have ej := List.getElem?_eq_getElem hj
  refine ⟨_, _, h2 i j _ _ ei ej, h2' i j _ _ ei ej, ?_⟩
  rw [h2'' i j _ _ ei ej, pairCount_append h.symm h'.symm]

/-- **C107 (scores from the confusion matrix).** For labels 0 and 1, precision, recall and F1 are the quotients of entries of the confusion matrix. -/
theorem C107_from_confusion {o t : List ℕ} (hlen : o.length = t.length) (ho : isBinary o) (ht : isBinary t) :
    ∃ tn fp fn tp : ℕ, confusionMatrix o t (some [0, 1]) = ok [[tn, fp], [fn, tp]] ∧
      precision (F := ℝ) isZ isO o t = ok ((tp : ℝ) / (tp + fp)) ∧ recall (F := ℝ) isZ isO o t = ok ((tp : ℝ) / (tp + fn)) ∧
      f1 (F := ℝ) isZ isO o t = ok (2 * (tp : ℝ) / (2 * tp + fp + fn)) ∧
      accuracy (F := ℝ) (fun a b => decide (a = b)) o t = ok (((tp : ℝ) + tn) / (tn + fp + fn + tp)) := by
  obtain ⟨m, h1, h2, h3, h4⟩ := C08_confusion_entries o t [0, 1] hlen (by simp)
  obtain ⟨p1, p2, p3⟩ := C11_score_values o t hlen ho ht
  have hsw : ∀ a b, pairCount t o a b = pairCount o t b a := by
    intro a b
    rw [pairCount_zip _ _ hlen.symm, pairCount_zip _ _ hlen, ← List.zip_swap, List.countP_map]
    apply List.countP_congr
    rintro ⟨x, y⟩ _
    simp [and_comm]
  have hm : m = [[pairCount o t 0 0, pairCount o t 1 0], [pairCount o t 0 1, pairCount o t 1 1]] := by
    obtain ⟨r, r', rfl⟩ := List.length_eq_two.mp h2
    obtain ⟨a, b, rfl⟩ := List.length_eq_two.mp (h3 r (by simp))
    obtain ⟨c, d, rfl⟩ := List.length_eq_two.mp (h3 r' (by simp))
    have e1 := h4 0 0 0 0 rfl rfl
    have e2 := h4 0 1 0 1 rfl rfl
    have e3 := h4 1 0 1 0 rfl rfl
    have e4 := h4 1 1 1 1 rfl rfl
    simp [entry, hsw] at e1 e2 e3 e4
    rw [e1, e2, e3, e4]
  refine ⟨_, _, _, _, by rw [h1, hm], p1, p2, p3, ?_⟩
  rw [(C107_accuracy _ o t _).mpr ⟨hlen, rfl⟩]
  congr 1
  have hb : ∀ (o t : List ℕ), o.length = t.length → isBinary o → isBinary t →
      (List.zipWith (fun a b => if decide (a = b) = true then (1 : ℝ) else 0) o t).sum = pairCount o t 1 1 + pairCount o t 0 0 ∧
      (o.length : ℝ) = pairCount o t 0 0 + pairCount o t 1 0 + pairCount o t 0 1 + pairCount o t 1 1 := by
    intro o
    induction o with
    | nil => intro t ht _ _; simp [pairCount, countPos]
    | cons a o ih =>
      intro t hl h1 h2
      cases t with
      | nil => simp at hl
      | cons b t =>
        have hl' : o.length = t.length := by simpa using hl
        obtain ⟨i1, i2⟩ := ih t hl' (fun x hx => h1 x (List.mem_cons_of_mem _ hx)) fun x hx => h2 x (List.mem_cons_of_mem _ hx)
        have ea := h1 a (by simp)
        have eb := h2 b (by simp)
        have ec : ∀ x y, pairCount (a :: o) (b :: t) x y = pairCount o t x y + if (a, b) = (x, y) then 1 else 0 := by
          intro x y
          rw [pairCount_zip _ _ hl, pairCount_zip _ _ hl', List.zip_cons_cons, List.countP_cons]
          simp
        rw [List.zipWith_cons_cons, List.sum_cons, i1, List.length_cons]
        push_cast
        rw [i2]
        simp only [ec]
        rcases ea with rfl | rfl <;> rcases eb with rfl | rfl <;> simp <;> (try constructor) <;> (try ring)
  obtain ⟨b1, b2⟩ := hb o t hlen ho ht
  rw [b1, b2]

/-! ### Cross validation -/

/-- Entry `i` of the losses of predictions against targets. -/
noncomputable def lossAt {Y : Type} (w : Y → Y → ℝ) (pred targets : List Y) (i : ℕ) : ℝ :=
  match pred[i]?, targets[i]? with
  | some a, some b => w a b
  | _, _ => 0

theorem loss_rows {Y : Type} (w : Y → Y → ℝ) {pred targets : List Y} : ∀ {idx : List ℕ} {out ty : List Y}, RowsAt pred idx out → RowsAt targets idx ty →
    List.zipWith w out ty = idx.map (lossAt w pred targets) := by
  intro idx
  induction idx with
  | nil =>
    intro out ty h1 h2
    cases h1
    cases h2
    rfl
  | cons i idx ih =>
    intro out ty h1 h2
    cases h1 with
    | cons a1 a2 =>
      cases h2 with
      | cons b1 b2 =>
        rw [List.zipWith_cons_cons, ih a2 b2, List.map_cons]
        congr 1
        unfold lossAt
        rw [a1, b1]

theorem rowsAt_range {Y : Type} (l : List Y) : RowsAt l (List.range l.length) l := by
  unfold RowsAt
  rw [List.forall₂_iff_get]
  refine ⟨by simp, fun i h1 h2 => ?_⟩
  simp

/-- Rows put where the indices say: with every index occurring once there is a list that has them there. -/
theorem scatter {Y : Type} {n : ℕ} {idx : List ℕ} (hp : idx.Perm (List.range n)) {out : List Y} (hl : out.length = idx.length) :
    ∃ pred : List Y, pred.length = n ∧ RowsAt pred idx out := by
  have hn : idx.length = n := by simpa using hp.length_eq
  have hlt : ∀ i : Fin n, idx.idxOf (i : ℕ) < out.length := by
    intro i
    rw [hl]
    exact List.idxOf_lt_length_of_mem (hp.mem_iff.mpr (List.mem_range.mpr i.2))
  refine ⟨List.ofFn fun i : Fin n => out[idx.idxOf (i : ℕ)]'(hlt i), by simp, ?_⟩
  unfold RowsAt
  rw [List.forall₂_iff_get]
  refine ⟨hl.symm, fun i h1 h2 => ?_⟩
  have hm : idx[i] < n := List.mem_range.mp (hp.mem_iff.mp (List.getElem_mem h1))
  have hi : idx.idxOf idx[i] = i := (hp.nodup_iff.mpr List.nodup_range).idxOf_getElem i h1
  simp [hm, hi]

/-- What happened in one fold. -/
def FoldRan {σ X Y : Type} (M : SupModel σ X Y) (inputs : List X) (targets : List Y) (p : Partition) (out : List Y) : Prop :=
  ∃ s0 s1 xs ys tx, RowsAt inputs p.train xs ∧ RowsAt targets p.train ys ∧ M.train s0 xs ys = (s1, ok ()) ∧ RowsAt inputs p.test tx ∧ M.predict s1 tx = ok out

theorem runs_folds {σ X Y S : Type} {M : SupModel σ X Y} {inputs : List X} {targets : List Y} {score : List Y → List Y → Outcome S} {folds : List Partition}
    {s s' : σ} {res : Outcome (List S)} (h : Runs M inputs targets score folds s s' res) : ∀ costs, res = ok costs →
    ∃ L : List (Partition × List Y × S), L.map Prod.fst = folds ∧ L.map (fun x => x.2.2) = costs ∧
      ∀ x ∈ L, FoldRan M inputs targets x.1 x.2.1 ∧ ∃ ty, RowsAt targets x.1.test ty ∧ score x.2.1 ty = ok x.2.2 := by
  induction h with
  | done s =>
    intro costs hc
    cases hc
    exact ⟨[], rfl, rfl, by simp⟩
  | @fold p ps s s' s'' xs ys tx ty out c res hx hy htx hty htrain hpred hscore rest ih =>
    intro costs hc
    obtain ⟨cs, h1, h2⟩ := bind_eq_ok.1 hc
    cases h2
    obtain ⟨L, l1, l2, l3⟩ := ih cs h1
    refine ⟨(p, out, c) :: L, by simp [l1], by simp [l2], ?_⟩
    intro x hx'
    rcases List.mem_cons.mp hx' with rfl | hx'
    · exact ⟨⟨s, s', xs, ys, tx, hx, hy, htrain, htx, hpred⟩, ty, hty, hscore⟩
    · exact l3 x hx'
  | @trainStops p ps s s' xs ys bad res hx hy htrain hbad hr =>
    intro costs hc
    rw [hr] at hc
    obtain ⟨u, h1, _⟩ := bind_eq_ok.1 hc
    exact absurd h1 hbad
  | @testStops p ps s s' xs ys tx ty bad res hx hy htx hty htrain hbad hne hr =>
    intro costs hc
    rw [hr] at hc
    obtain ⟨u, h1, _⟩ := bind_eq_ok.1 hc
    exact absurd h1 (hne u)

theorem rowsAt_flatMap {Y α : Type} (pred : List Y) (f : α → List ℕ) (g : α → List Y) : ∀ L : List α, (∀ x ∈ L, (g x).length = (f x).length) →
    RowsAt pred (L.flatMap f) (L.flatMap g) → ∀ x ∈ L, RowsAt pred (f x) (g x)
  | [], _, _ => by simp
  | a :: L, hl, h => by
    rw [List.flatMap_cons, List.flatMap_cons] at h
    unfold RowsAt at h
    have h1 := List.forall₂_take (f a).length h
    have h2 := List.forall₂_drop (f a).length h
    have ha := hl a (by simp)
    rw [List.take_left, ← ha, List.take_left] at h1
    rw [List.drop_left, ← ha, List.drop_left] at h2
    intro x hx
    rcases List.mem_cons.mp hx with rfl | hx
    · exact h1
    · exact rowsAt_flatMap pred f g L (fun y hy => hl y (List.mem_cons_of_mem _ hy)) h2 x hx

theorem sum_range_getD' : ∀ l : List ℝ, ∑ i ∈ Finset.range l.length, l.getD i 0 = l.sum
  | [] => rfl
  | a :: l => by
    rw [List.length_cons, Finset.sum_range_succ', List.sum_cons, ← sum_range_getD' l, add_comm]
    simp

theorem sum_flatMap' {α : Type} (f : α → List ℝ) : ∀ L : List α, (L.flatMap f).sum = (L.map fun x => (f x).sum).sum
  | [] => rfl
  | a :: L => by rw [List.flatMap_cons, List.sum_append, sum_flatMap' f L, List.map_cons, List.sum_cons]

/-- **C107 (cross validation).** A successful cross validation with a mean score scores one prediction for each sample, made by a model that was trained last on
the rows of the other folds: the sum of the reported scores times the sizes of their folds is the score of all these predictions times the number of samples. -/
theorem C107_cross_validation {σ X Y : Type} {M : SupModel σ X Y} {score : List Y → List Y → Outcome ℝ} {w : Y → Y → ℝ} (hm : IsMeanScore score w)
    {r : ℕ → ℕ} {s s' : σ} {inputs : List X} {targets : List Y} {k : ℕ} {costs : List ℝ} (h : kFoldValidate r M s inputs targets k score = (s', ok costs)) :
    ∃ folds pred, IsKFold inputs.length k folds ∧ pred.length = inputs.length ∧ costs.length = k ∧
      (∀ p ∈ folds, ∃ out, FoldRan M inputs targets p out ∧ RowsAt pred p.test out) ∧
      ∃ a, score pred targets = ok a ∧ inputs.length * a = (List.zipWith (fun p c => (p.test.length : ℝ) * c) folds costs).sum := by
  have hok : inputs.length = targets.length ∧ 1 < k ∧ k ≤ inputs.length := by
    by_contra hc
    have := C03_rejects_bad_arguments r M s inputs targets k score (by
      by_cases h1 : inputs.length = targets.length
      · by_cases h2 : 1 < k
        · exact Or.inr (Or.inr (by by_contra h3; exact hc ⟨h1, h2, by omega⟩))
        · exact Or.inr (Or.inl (by omega))
      · exact Or.inl h1)
    rw [this] at h
    cases h
  obtain ⟨hrows, h1, hn⟩ := hok
  obtain ⟨folds, s'', res, hk, hruns, heq⟩ := C03_validate_runs_the_folds r M s inputs targets k score hrows h1 hn
  rw [heq] at h
  cases h
  obtain ⟨L, l1, l2, l3⟩ := runs_folds hruns costs rfl
  have hlen : ∀ x ∈ L, x.2.1.length = x.1.test.length := by
    intro x hx
    obtain ⟨-, ty, hty, hs⟩ := l3 x hx
    rw [((hm _ _ _).mp hs).1]
    exact hty.length_eq.symm
  have hperm : (L.flatMap fun x => x.1.test).Perm (List.range inputs.length) := by
    have := hk.tests
    rw [← l1, List.flatMap_map] at this
    exact this
  obtain ⟨pred, p1, p2⟩ := scatter (out := L.flatMap fun x => x.2.1) hperm (by
    rw [List.length_flatMap, List.length_flatMap]
    congr 1
    exact List.map_congr_left hlen)
  have p3 := rowsAt_flatMap pred (fun x : Partition × List Y × ℝ => x.1.test) (fun x => x.2.1) L hlen p2
  refine ⟨folds, pred, hk, p1, by rw [C03_one_score_per_fold hruns rfl, hk.length], ?_, _, (hm _ _ _).mpr ⟨p1.trans hrows, rfl⟩, ?_⟩
  · intro p hp
    rw [← l1] at hp
    obtain ⟨x, hx, rfl⟩ := List.mem_map.mp hp
    exact ⟨x.2.1, (l3 x hx).1, p3 x hx⟩
  · have e1 : (List.zipWith (fun p c => (p.test.length : ℝ) * c) folds costs) = L.map fun x => (x.1.test.map (lossAt w pred targets)).sum := by
      rw [← l1, ← l2, List.zipWith_map, List.zipWith_self]
      apply List.map_congr_left
      intro x hx
      obtain ⟨-, ty, hty, hs⟩ := l3 x hx
      rw [((hm _ _ _).mp hs).2, loss_rows w (p3 x hx) hty, hlen x hx]
      by_cases h0 : (x.1.test.length : ℝ) = 0
      · have : x.1.test = [] := List.length_eq_zero_iff.mp (by exact_mod_cast h0)
        rw [this]
        simp
      · field_simp
    have e2 : List.zipWith w pred targets = (List.range inputs.length).map (lossAt w pred targets) := by
      refine loss_rows w ?_ ?_
      · rw [← p1]
        exact rowsAt_range pred
      · rw [hrows]
        exact rowsAt_range targets
    have hn0 : (inputs.length : ℝ) ≠ 0 := by
      have : 0 < inputs.length := by omega
      exact_mod_cast this.ne'
    rw [e1, e2, p1, ← (hperm.map (lossAt w pred targets)).sum_eq, List.map_flatMap, sum_flatMap', mul_div_cancel₀ _ hn0]

/-- **C107 (the plain mean).** The plain mean of the scores of a cross validation differs from the score of all the predictions by at most a quarter of the number
of folds over the number of samples, times the range of the scores (1 for accuracies); if the folds have the same size there is no difference. -/
theorem C107_plain_mean {n k : ℕ} {folds : List Partition} (hk : IsKFold n k folds) (h0 : 0 < k) (hn : k ≤ n) {costs : List ℝ} (hc : costs.length = k) {a : ℝ}
    (ha : n * a = (List.zipWith (fun p c => (p.test.length : ℝ) * c) folds costs).sum) {lo hi : ℝ} (hr : ∀ c ∈ costs, lo ≤ c ∧ c ≤ hi) :
    |costs.sum / k - a| ≤ (hi - lo) * k / (4 * n) ∧ (k ∣ n → costs.sum / k = a) := by
  have hn0 : (0 : ℝ) < n := by
    have : 0 < n := by omega
    exact_mod_cast this
  have hk0 : (0 : ℝ) < k := by exact_mod_cast h0
  -- sums over the folds
  let c : ℕ → ℝ := fun i => costs.getD i 0
  let u : ℕ → ℝ := fun i => if i < n % k then 1 else 0
  have hcs : costs.sum = ∑ i ∈ Finset.range k, c i := by
    rw [← hc]
    exact (sum_range_getD' costs).symm
  have hws : (List.zipWith (fun p c => (p.test.length : ℝ) * c) folds costs).sum = ∑ i ∈ Finset.range k, ((n / k : ℕ) + u i) * c i := by
    rw [← sum_range_getD']
    have hl : (List.zipWith (fun p c => (p.test.length : ℝ) * c) folds costs).length = k := by simp [hk.length, hc]
    rw [hl]
    refine Finset.sum_congr rfl fun i hi => ?_
    have hik := Finset.mem_range.mp hi
    have hif : i < folds.length := by rw [hk.length]; exact hik
    rw [List.getD_eq_getElem _ _ (by rw [hl]; exact hik), List.getElem_zipWith, hk.sizes i hif]
    simp only [c, u, List.getD_eq_getElem _ _ (show i < costs.length by omega)]
    push_cast
    split <;> simp
  have hu : ∑ i ∈ Finset.range k, u i = (n % k : ℕ) := by
    have hle : n % k ≤ k := (Nat.mod_lt _ h0).le
    simp only [u]
    rw [Finset.sum_ite, Finset.sum_const_zero, add_zero, Finset.sum_const, nsmul_eq_mul, mul_one]
    congr 1
    rw [show (Finset.range k).filter (fun i => i < n % k) = Finset.range (n % k) by
      ext i
      simp only [Finset.mem_filter, Finset.mem_range]
      omega]
    simp
  have hdm : (n : ℝ) = (n / k : ℕ) * k + (n % k : ℕ) := by
    have := Nat.div_add_mod n k
    have h2 : ((k * (n / k) + n % k : ℕ) : ℝ) = n := by rw [this]
    push_cast at h2
    linarith
  have hrk : ((n % k : ℕ) : ℝ) ≤ k := by exact_mod_cast (Nat.mod_lt _ h0).le
  have hr0 : (0 : ℝ) ≤ (n % k : ℕ) := Nat.cast_nonneg _
  have hdist : ∑ i ∈ Finset.range k, ((n / k : ℕ) + u i) * c i = (n / k : ℕ) * ∑ i ∈ Finset.range k, c i + ∑ i ∈ Finset.range k, u i * c i := by
    rw [Finset.mul_sum, ← Finset.sum_add_distrib]
    exact Finset.sum_congr rfl fun i _ => by ring
  have hshift : ((n % k : ℕ) : ℝ) * (∑ i ∈ Finset.range k, c i) - k * ∑ i ∈ Finset.range k, u i * c i =
      ∑ i ∈ Finset.range k, (((n % k : ℕ) : ℝ) - k * u i) * (c i - lo) := by
    have e : ∀ i, (((n % k : ℕ) : ℝ) - k * u i) * (c i - lo) = ((n % k : ℕ) : ℝ) * c i - k * (u i * c i) - ((n % k : ℕ) * lo - k * lo * u i) := fun i => by ring
    simp only [e, Finset.sum_sub_distrib, ← Finset.mul_sum, hu, Finset.sum_const, Finset.card_range, nsmul_eq_mul]
    ring
  have hcr : ∀ i ∈ Finset.range k, lo ≤ c i ∧ c i ≤ hi := by
    intro i hi
    have hi' : i < costs.length := by rw [hc]; exact Finset.mem_range.mp hi
    simp only [c, List.getD_eq_getElem _ _ hi']
    exact hr _ (List.getElem_mem hi')
  have hlohi : lo ≤ hi := by
    have := hcr 0 (Finset.mem_range.mpr h0)
    linarith
  have hup : ∑ i ∈ Finset.range k, (((n % k : ℕ) : ℝ) - k * u i) * (c i - lo) ≤ (n % k : ℕ) * (k - (n % k : ℕ)) * (hi - lo) := by
    have : ∀ i ∈ Finset.range k, (((n % k : ℕ) : ℝ) - k * u i) * (c i - lo) ≤ ((n % k : ℕ) * (hi - lo)) - u i * ((n % k : ℕ) * (hi - lo)) := by
      intro i hi
      obtain ⟨h1, h2⟩ := hcr i hi
      simp only [u]
      split
      · nlinarith
      · nlinarith
    refine (Finset.sum_le_sum this).trans (le_of_eq ?_)
    rw [Finset.sum_sub_distrib, Finset.sum_const, Finset.card_range, nsmul_eq_mul, ← Finset.sum_mul, hu]
    ring
  have hdown : -((n % k : ℕ) * (k - (n % k : ℕ)) * (hi - lo)) ≤ ∑ i ∈ Finset.range k, (((n % k : ℕ) : ℝ) - k * u i) * (c i - lo) := by
    have : ∀ i ∈ Finset.range k, u i * (((n % k : ℕ) - k) * (hi - lo)) ≤ (((n % k : ℕ) : ℝ) - k * u i) * (c i - lo) := by
      intro i hi
      obtain ⟨h1, h2⟩ := hcr i hi
      simp only [u]
      split
      · nlinarith
      · nlinarith
    refine le_trans (le_of_eq ?_) (Finset.sum_le_sum this)
    rw [← Finset.sum_mul, hu]
    ring
  have hdiff : costs.sum / k - a = (∑ i ∈ Finset.range k, (((n % k : ℕ) : ℝ) - k * u i) * (c i - lo)) / (k * n) := by
    rw [hws, hdist] at ha
    rw [← hshift, hcs, eq_div_iff (by positivity), sub_mul]
    have e1 : (∑ i ∈ Finset.range k, c i) / k * (k * n) = (∑ i ∈ Finset.range k, c i) * n := by field_simp
    rw [e1, show a * ((k : ℝ) * n) = k * (n * a) by ring, ha]
    nth_rewrite 1 [hdm]
    ring
  refine ⟨?_, fun hd => ?_⟩
  · rw [hdiff, abs_div, abs_of_pos (by positivity : (0 : ℝ) < k * n), div_le_div_iff₀ (by positivity) (by positivity)]
    have hq : ((n % k : ℕ) : ℝ) * (k - (n % k : ℕ)) ≤ k ^ 2 / 4 := by nlinarith [sq_nonneg ((k : ℝ) - 2 * (n % k : ℕ))]
    have habs : |∑ i ∈ Finset.range k, (((n % k : ℕ) : ℝ) - k * u i) * (c i - lo)| ≤ k ^ 2 / 4 * (hi - lo) := by
      have := mul_le_mul_of_nonneg_right hq (sub_nonneg.mpr hlohi)
      rw [abs_le]
      constructor <;> linarith
    calc _ ≤ k ^ 2 / 4 * (hi - lo) * (4 * n) := mul_le_mul_of_nonneg_right habs (by positivity)
      _ = (hi - lo) * k * (k * n) := by ring
  · have hz : n % k = 0 := Nat.mod_eq_zero_of_dvd hd
    have : costs.sum / k - a = 0 := by
      rw [hdiff]
      have : (∑ i ∈ Finset.range k, (((n % k : ℕ) : ℝ) - k * u i) * (c i - lo)) = 0 := by
        apply Finset.sum_eq_zero
        intro i _
        simp [u, hz]
      rw [this, zero_div]
    linarith

/-- **C107 (mean accuracy).** The plain mean of the accuracies of a cross validation is within `k / (4 n)` of the accuracy of predictions each of which was made
for a sample by a model trained last on the rows of the other folds. -/
theorem C107_mean_accuracy {σ X Y : Type} {M : SupModel σ X Y} {eqb : Y → Y → Bool} {r : ℕ → ℕ} {s s' : σ} {inputs : List X} {targets : List Y} {k : ℕ}
    {costs : List ℝ} (h : kFoldValidate r M s inputs targets k (accuracy (F := ℝ) eqb) = (s', ok costs)) :
    ∃ folds pred a, IsKFold inputs.length k folds ∧ pred.length = inputs.length ∧ (∀ p ∈ folds, ∃ out, FoldRan M inputs targets p out ∧ RowsAt pred p.test out) ∧
      accuracy eqb pred targets = ok a ∧ |costs.sum / k - a| ≤ k / (4 * inputs.length) ∧ (k ∣ inputs.length → costs.sum / k = a) := by
  obtain ⟨folds, pred, h1, h2, h3, h4, a, h5, h6⟩ := C107_cross_validation (C107_accuracy eqb) h
  have hk : 0 < k ∧ k ≤ inputs.length := by
    by_contra hc
    have := C03_rejects_bad_arguments r M s inputs targets k (accuracy (F := ℝ) eqb) (by omega)
    rw [this] at h
    cases h
  have hr : ∀ c ∈ costs, (0 : ℝ) ≤ c ∧ c ≤ 1 := by
    by_cases hrows : inputs.length = targets.length ∧ 1 < k
    · obtain ⟨folds', s'', res, hk', hruns, heq⟩ := C03_validate_runs_the_folds r M s inputs targets k (accuracy (F := ℝ) eqb) hrows.1 hrows.2 hk.2
      rw [heq] at h
      cases h
      obtain ⟨L, l1, l2, l3⟩ := runs_folds hruns costs rfl
      intro c hc
      rw [← l2] at hc
      obtain ⟨x, hx, rfl⟩ := List.mem_map.mp hc
      obtain ⟨-, ty, -, hs⟩ := l3 x hx
      obtain ⟨hl, e⟩ := (C107_accuracy eqb _ _ _).mp hs
      have hb : ∀ o t : List Y, (0 : ℝ) ≤ (List.zipWith (fun a b => if eqb a b then (1 : ℝ) else 0) o t).sum ∧
          (List.zipWith (fun a b => if eqb a b then (1 : ℝ) else 0) o t).sum ≤ o.length := by
        intro o
        induction o with
        | nil => intro t; simp
        | cons a o ih =>
          intro t
          cases t with
          | nil => simp; positivity
          | cons b t =>
            obtain ⟨i1, i2⟩ := ih t
            rw [List.zipWith_cons_cons, List.sum_cons, List.length_cons]
            push_cast
            split
            · constructor <;> linarith
            · constructor <;> linarith
      obtain ⟨b1, b2⟩ := hb x.2.1 ty
      rw [e]
      exact ⟨div_nonneg b1 (Nat.cast_nonneg _), div_le_one_of_le₀ b2 (Nat.cast_nonneg _)⟩
    · have := C03_rejects_bad_arguments r M s inputs targets k (accuracy (F := ℝ) eqb) (by omega)
      rw [this] at h
      cases h
  have hm := C107_plain_mean h1 hk.1 hk.2 h3 h6 hr
  rw [sub_zero, one_mul] at hm
  exact ⟨folds, pred, a, h1, h2, h4, h5, hm.1, hm.2⟩

/-! ### The hypotheses can be met -/

/-- With a model that always trains and predicts one value for each row, a cross validation with a mean score succeeds. -/
theorem validation_succeeds {σ X Y : Type} {M : SupModel σ X Y} {score : List Y → List Y → Outcome ℝ} {w : Y → Y → ℝ} (hm : IsMeanScore score w)
    (ht : ∀ s xs ys, ∃ s', M.train s xs ys = (s', ok ())) (hp : ∀ s xs, ∃ out, M.predict s xs = ok out ∧ out.length = xs.length)
    (r : ℕ → ℕ) (s : σ) {inputs : List X} {targets : List Y} {k : ℕ} (hrows : inputs.length = targets.length) (h1 : 1 < k) (hn : k ≤ inputs.length) :
    ∃ s' costs, kFoldValidate r M s inputs targets k score = (s', ok costs) := by
  obtain ⟨folds, s', res, -, hr, he⟩ := C03_validate_runs_the_folds r M s inputs targets k score hrows h1 hn
  have : ∃ costs, res = ok costs := by
    clear he
    induction hr with
    | done s => exact ⟨_, rfl⟩
    | fold _ _ _ _ _ _ _ _ ih =>
      obtain ⟨cs, rfl⟩ := ih
      exact ⟨_, rfl⟩
    | @trainStops p ps s s' xs ys bad res hx hy htrain hbad hr =>
      obtain ⟨s1, h⟩ := ht s xs ys
      rw [htrain] at h
      cases h
      exact absurd rfl hbad
    | @testStops p ps s s' xs ys tx ty bad res hx hy htx hty htrain hbad hne hr =>
      obtain ⟨out, h, hl⟩ := hp s' tx
      rw [h, ok_bind, (hm out ty _).mpr ⟨by rw [hl, ← htx.length_eq, hty.length_eq], rfl⟩] at hbad
      exact absurd hbad.symm (hne _)
  obtain ⟨costs, rfl⟩ := this
  exact ⟨s', costs, he⟩

/-- A model that predicts the label it saw last, on five samples in two folds. -/
example (r : ℕ → ℕ) : ∃ s' costs, kFoldValidate r (⟨fun s _ ys => (ys.getLastD s, ok ()), fun s xs => ok (xs.map fun _ => s)⟩ : SupModel ℕ ℝ ℕ) 0
    [1, 2, 3, 4, 5] [0, 1, 1, 0, 1] 2 (accuracy (F := ℝ) fun a b => decide (a = b)) = (s', ok costs) :=
  validation_succeeds (C107_accuracy _) (fun _ _ _ => ⟨_, rfl⟩) (fun _ _ => ⟨_, rfl, by simp⟩) r 0 rfl (by decide) (by decide)

/-- Two parts of sizes 2 and 1 with accuracies 1/2 and 1. -/
example : ∃ a : ℝ, accuracy (fun a b => decide (a = b)) [1, 2, 5] [1, 3, 5] = ok a ∧ ((3 : ℕ) : ℝ) * a = (2 : ℕ) * (1 / 2) + ((1 : ℕ) * 1 + 0) := by
  refine C107_parts (C107_accuracy fun a b : ℕ => decide (a = b)) [([1, 2], [1, 3]), ([5], [5])] [1 / 2, 1] (.cons ?_ (.cons ?_ .nil))
  · rw [C107_accuracy]
    norm_num
  · rw [C107_accuracy]
    norm_num

example : isBinary [1, 0, 1, 1] ∧ isBinary [1, 1, 0, 1] ∧ confusionMatrix [1, 0, 1, 1] [1, 1, 0, 1] (some [0, 1]) = ok [[0, 1], [1, 2]] := by
  refine ⟨by simp [isBinary], by simp [isBinary], by decide⟩

end RM
