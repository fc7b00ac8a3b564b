import Verif.Props.NoPanicModels
import Verif.Model.KNN
import Verif.Model.Transforms
import Verif.Spec.NNet

/-! C87, continued: nearest neighbours, neural networks, transformers, principal components, Gaussian mixtures. -/

namespace RM
open Outcome Scalar Spec

variable {F : Type} [Scalar F]

/-! ### Nearest neighbours -/

theorem addLoop_safe (pairs : List (ℕ × F)) (x : ℕ × F) : ∀ j, j ≤ pairs.length →
    Safe (fun r => r.length = pairs.length + 1 ∧ ∀ p ∈ r, p = x ∨ p ∈ pairs) (addLoop pairs x j)
  | 0, _ => ⟨by simp, by intro p hp; simpa using hp⟩
  | j + 1, h => by
    unfold addLoop
    rw [List.getElem?_eq_getElem (by omega)]
    dsimp only
    split
    · refine ⟨List.length_insertIdx_of_le_length (by omega) _, fun p hp => List.eq_or_mem_of_mem_insertIdx hp⟩
    · exact addLoop_safe pairs x j (by omega)

theorem knearestAdd_safe {k : ℕ} (hk : 1 ≤ k) {pairs : List (ℕ × F)} (hl : pairs.length = k) (i : ℕ) (d : F) :
    Safe (fun r => r.1.length = k ∧ ∀ p ∈ r.1, p = (i, d) ∨ p ∈ pairs) (knearestAdd k pairs i d) := by
  have hne : pairs ≠ [] := by intro h; rw [h] at hl; simp at hl; omega
  unfold knearestAdd
  simp only [hl, lt_irrefl, if_false, le_refl, if_true]
  rw [List.getLast?_eq_some_getLast hne]
  dsimp only
  split
  · rw [List.getElem?_eq_getElem (by omega)]
    exact ⟨hl, fun p hp => .inr hp⟩
  · refine Safe.bind (addLoop_safe pairs.dropLast (i, d) (k - 1) (by simp [hl])) fun r hr => ?_
    have hr1 : r.length = k := by rw [hr.1, List.length_dropLast, hl]; omega
    rw [List.getElem?_eq_getElem (by omega)]
    refine ⟨hr1, fun p hp => ?_⟩
    rcases hr.2 p hp with h | h
    · exact .inl h
    · exact .inr (List.mem_of_mem_dropLast h)

theorem offerAll_safe {k n : ℕ} (hk : 1 ≤ k) : ∀ (rest pairs : List (ℕ × F)) (cur : F), pairs.length = k → (∀ p ∈ rest, p.1 < n) →
    (∀ p ∈ pairs, p.1 < n) → Safe (fun r => r.length = k ∧ ∀ p ∈ r, p.1 < n) (offerAll k rest pairs cur)
  | [], pairs, cur, hl, _, h => ⟨hl, h⟩
  | (i, d) :: rest, pairs, cur, hl, hr, h => by
    unfold offerAll
    split
    · refine Safe.bind (knearestAdd_safe hk hl i d) fun r hr' => offerAll_safe hk rest r.1 r.2 hr'.1 (fun p hp => hr p (List.mem_cons_of_mem _ hp)) ?_
      intro p hp
      rcases hr'.2 p hp with rfl | hp
      · exact hr _ List.mem_cons_self
      · exact h p hp
    · exact offerAll_safe hk rest pairs cur hl (fun p hp => hr p (List.mem_cons_of_mem _ hp)) h

theorem indexedDists_lt (point : List F) : ∀ (i : ℕ) (rows : List (List F)), ∀ p ∈ indexedDists point i rows, p.1 < i + rows.length
  | _, [], p, hp => by simp [indexedDists] at hp
  | i, r :: rs, p, hp => by
    rw [indexedDists] at hp
    simp only [List.length_cons]
    rcases List.mem_cons.mp hp with rfl | hp
    · simp only; omega
    · have := indexedDists_lt point (i + 1) rs p hp
      omega

theorem getDistances_first (data : Mat F) (point : List F) {k : ℕ} (h1 : 1 ≤ k) (hk : k ≤ data.rows.length) :
    getDistances data point (List.range k) = ok ((data.rows.take k).map (knnDist point)) := by
  unfold getDistances
  have : (List.range k).isEmpty = false := by
    cases k with
    | zero => omega
    | succ k => rw [List.range_succ]; cases List.range k <;> rfl
  rw [this]
  show (List.range k).mapM _ = _
  have hm : ∀ id ∈ List.range k, (getAt data.rows id >>= fun row => ok (knnDist point row)) = ok (knnDist point (data.rows.getD id [])) := by
    intro id hid
    rw [List.mem_range] at hid
    unfold getAt
    rw [List.getElem?_eq_getElem (show id < data.rows.length by omega), getD_lt [] (show id < data.rows.length by omega)]
    rfl
  rw [mapM_ok_map _ _ _ hm]
  congr 1
  apply List.ext_getElem
  · simp [hk]
  · intro i h1 h2
    simp only [List.length_map, List.length_range] at h1
    simp only [List.getElem_map, List.getElem_range, List.getElem_take]
    rw [getD_lt [] (show i < data.rows.length by omega)]

/-- **C87 (nearest neighbours, searching).** An exhaustive search among at least `k ≥ 1` rows does not crash exactly when `k = 1` or
the query has a proper distance (not NaN) to each of the first `k` rows. -/
theorem C87_brute_force (data : Mat F) (point : List F) {k : ℕ} (h1 : 1 ≤ k) (hk : k ≤ data.rows.length) :
    Safe (fun r => r.1.length = k ∧ r.2.length = k ∧ ∀ i ∈ r.1, i < data.rows.length) (bruteSearch (some data) point k) ↔
      (k = 1 ∨ ∀ row ∈ data.rows.take k, Scalar.isNaN (knnDist point row) = false) := by
  have hlen : (List.zip (List.range k) ((data.rows.take k).map (knnDist point))).length = k := by simp [hk]
  have hany : ((List.range k).zip ((data.rows.take k).map (knnDist point))).any (fun p => Scalar.isNaN p.2) = true ↔
      ∃ row ∈ data.rows.take k, Scalar.isNaN (knnDist point row) = true := by
    have hz : (((List.range k).zip ((data.rows.take k).map (knnDist point))).map Prod.snd) = (data.rows.take k).map (knnDist point) := by
      apply List.map_snd_zip
      simp
    have : ((List.range k).zip ((data.rows.take k).map (knnDist point))).any (fun p => Scalar.isNaN p.2) =
        (((List.range k).zip ((data.rows.take k).map (knnDist point))).map Prod.snd).any Scalar.isNaN := by
      rw [List.any_map]; rfl
    rw [this, hz, List.any_map, List.any_eq_true]
    rfl
  unfold bruteSearch
  dsimp only
  rw [getDistances_first data point h1 hk]
  show Safe _ (knearestNew k _ _ >>= _) ↔ _
  unfold knearestNew
  dsimp only
  rw [hlen]
  constructor
  · intro h
    by_cases hc : k = 1
    · exact .inl hc
    · right
      intro row hrow
      by_contra hn
      rw [Bool.not_eq_false] at hn
      rw [if_pos ⟨by omega, hany.mpr ⟨row, hrow, hn⟩⟩] at h
      exact h
  · intro h
    rw [if_neg]
    swap
    · rintro ⟨h2, h3⟩
      obtain ⟨row, hrow, hn⟩ := hany.mp h3
      rcases h with h | h
      · omega
      · rw [h row hrow] at hn; cases hn
    show Safe _ (knearestDist k _ >>= _)
    have hl : ((((List.range k).zip ((data.rows.take k).map (knnDist point))).insertionSort pairLe).take k).length = k := by
      rw [List.length_take, List.length_insertionSort, hlen, Nat.min_self]
    have hidx : ∀ p ∈ (((List.range k).zip ((data.rows.take k).map (knnDist point))).insertionSort pairLe).take k, p.1 < data.rows.length := by
      intro p hp
      have := (List.mem_insertionSort pairLe).mp (List.mem_of_mem_take hp)
      have := (List.of_mem_zip (a := p.1) (b := p.2) this).1
      rw [List.mem_range] at this
      omega
    generalize (((List.range k).zip ((data.rows.take k).map (knnDist point))).insertionSort pairLe).take k = pairs at hl hidx
    refine Safe.bind (P := fun _ => True) ?_ fun cur _ => Safe.bind (offerAll_safe (n := data.rows.length) h1 _ pairs cur hl ?_ hidx) fun r hr =>
      ⟨by simp [knearestResults, hr.1], by simp [knearestResults, hr.1], ?_⟩
    · unfold knearestDist
      rw [hl, if_neg (lt_irrefl _), List.getLast?_eq_some_getLast (by intro h; rw [h] at hl; simp at hl; omega)]
      trivial
    · intro p hp
      have := indexedDists_lt point k _ p hp
      rw [List.length_drop] at this
      omega
    · intro i hi
      obtain ⟨p, hp, rfl⟩ := List.mem_map.mp hi
      exact hr.2 p hp

theorem bumpKey_ne (l : ℕ) : ∀ m : List (ℕ × ℕ), bumpKey l m ≠ []
  | [] => by simp [bumpKey]
  | (k, c) :: rest => by
    unfold bumpKey
    split
    · simp
    · split <;> simp

theorem freq_ne {labels : List ℕ} (h : labels ≠ []) : freq labels ≠ [] := by
  unfold freq
  rw [← List.dropLast_append_getLast h, List.foldl_append]
  exact bumpKey_ne _ _

/-- **C87 (nearest neighbours, prediction).** A classifier trained on at least `k ≥ 1` labelled rows predicts without crashing,
unless `k ≥ 2` and a query has no proper distance to one of the first `k` rows. -/
theorem C87_knn_predict (data : Mat F) (target : List ℕ) (k : ℕ) (ht : target.length = data.rows.length) (h1 : 1 ≤ k)
    (hk : k ≤ data.rows.length) (X : Mat F)
    (hX : k = 1 ∨ ∀ point ∈ X.rows, ∀ row ∈ data.rows.take k, Scalar.isNaN (knnDist point row) = false) :
    Safe (fun r => r.length = X.rows.length) (knnPredict bruteSearcher ⟨k, some data, some target⟩ X) := by
  unfold knnPredict
  refine (Safe.mapM (Q := fun _ => True) fun point hp => ?_).mono fun r hr => hr.1
  refine Safe.bind ((C87_brute_force data point h1 hk).mpr (hX.imp id fun h => h point hp)) fun r hr => ?_
  dsimp only
  unfold knnVote
  refine Safe.bind (Safe.mapM (Q := fun _ => True) fun i hi => (Safe.getAt (by rw [ht]; exact hr.2.2 i hi)).mono fun _ _ => trivial) fun res hres => ?_
  have hne : freq res ≠ [] := freq_ne (by intro h; rw [h] at hres; have := hres.1; simp at this; omega)
  refine Safe.bind (Safe.argmaxBy (by simpa using hne)) fun a ha => (Safe.getAt (by simpa using ha)).mono fun _ _ => trivial

/-! ### Neural networks -/

theorem removeLoop_safe (cols N : ℕ) : ∀ (is : List ℕ) (v : List F) (del : ℕ), v.length = N → (∀ i ∈ is, i < N) →
    Safe (fun r => r.1.length = N ∧ r.2 = del + is.countP (fun i => decide (i % cols = 0))) (removeLoop cols is v del)
  | [], v, del, hv, _ => ⟨hv, by simp⟩
  | i :: is, v, del, hv, hi => by
    have hi' : ∀ i ∈ is, i < N := fun j hj => hi j (List.mem_cons_of_mem _ hj)
    have h0 := hi i List.mem_cons_self
    unfold removeLoop
    split
    · rename_i h
      refine (removeLoop_safe cols N is v (del + 1) hv hi').mono fun r hr => ⟨hr.1, ?_⟩
      rw [hr.2, List.countP_cons_of_pos (by simpa using h)]
      omega
    · rename_i h
      have hc : (i :: is).countP (fun i => decide (i % cols = 0)) = is.countP (fun i => decide (i % cols = 0)) :=
        List.countP_cons_of_neg (by simpa using h)
      rw [hc]
      split
      · exact Safe.bind (Safe.getAt (by rw [hv]; exact h0)) fun x _ => Safe.bind (Safe.setAt (by omega)) fun v' hv' =>
          removeLoop_safe cols N is v' del (by rw [hv']; simpa using hv) hi'
      · exact removeLoop_safe cols N is v del hv hi'

theorem countP_multiples (c : ℕ) : ∀ n, (List.range (n * (c + 1))).countP (fun i => decide (i % (c + 1) = 0)) = n
  | 0 => by simp
  | n + 1 => by
    rw [Nat.succ_mul, List.range_add, List.countP_append, countP_multiples c n, List.countP_map]
    congr 1
    rw [List.range_succ_eq_map, List.countP_cons_of_pos (by simp), List.countP_map]
    have : (List.range c).countP (((fun i => decide (i % (c + 1) = 0)) ∘ fun x => n * (c + 1) + x) ∘ Nat.succ) = 0 := by
      rw [List.countP_eq_zero]
      intro j hj
      rw [List.mem_range] at hj
      simp only [Function.comp_apply, decide_eq_true_eq]
      rw [Nat.mul_comm, Nat.mul_add_mod, Nat.mod_eq_of_lt (by omega)]
      omega
    rw [this]

theorem removeFirstCol_safe {M : Mat F} {n c : ℕ} (hM : HasShape M n (c + 1)) : Safe (fun R => HasShape R n c) (removeFirstCol M) := by
  have hl := HasShape.dataLength hM
  unfold removeFirstCol
  refine Safe.bind (removeLoop_safe M.cols M.data.length _ M.data 0 rfl (by intro i hi; exact List.mem_range.mp hi)) fun r hr => ?_
  rw [hM.2.1, hl, Nat.zero_add, countP_multiples] at hr
  rw [hM.1, hM.2.1, Nat.add_sub_cancel]
  apply Safe.new
  rw [hl, hr.2]
  have e : n * (c + 1) = n * c + n := Nat.mul_succ n c
  split
  · rw [List.length_take, hr.1]; omega
  · rw [hr.1]; omega

/-- The shape of a layer's weights. -/
theorem sliceAt_safe {w : List F} {start : ℕ} {l : NetLayer F} (h : start + l.numParams ≤ w.length) :
    ∃ P, sliceAt w start l.paramShape = ok P ∧ HasShape P l.paramShape.1 l.paramShape.2 := by
  refine ⟨_, if_pos h, chunk_length _ _ _, rfl, chunk_row_length _ _ _ ?_⟩
  rw [List.length_drop]
  have : l.numParams = l.paramShape.1 * l.paramShape.2 := rfl
  omega

theorem linesUp_snoc {l : NetLayer F} : ∀ {ls : List (NetLayer F)} {c d : ℕ}, LinesUp (ls ++ [l]) c d ↔ ∃ m, LinesUp ls c m ∧ layerFits l m ∧ d = layerOut l m
  | [], c, d => by
    rw [List.nil_append, LinesUp_cons]
    constructor
    · rintro ⟨h1, h2⟩
      cases h2
      exact ⟨c, .nil c, h1, rfl⟩
    · rintro ⟨m, h1, h2, rfl⟩
      cases h1
      exact ⟨h2, .nil _⟩
  | a :: ls, c, d => by
    rw [List.cons_append, LinesUp_cons, linesUp_snoc]
    constructor
    · rintro ⟨h1, m, h2, h3⟩
      exact ⟨m, LinesUp_cons.mpr ⟨h1, h2⟩, h3⟩
    · rintro ⟨m, h1, h2⟩
      exact ⟨(LinesUp_cons.mp h1).1, m, (LinesUp_cons.mp h1).2, h2⟩

/-- What the forward pass keeps for a list of layers. -/
def Kept (n c : ℕ) (ls : List (NetLayer F)) (acts ps : List (Mat F)) : Prop :=
  acts.length = ls.length ∧ ps.length = ls.length ∧ ∀ pre l, pre ++ [l] <+: ls → ∀ m, LinesUp pre c m →
    (∃ A, acts[pre.length]? = some A ∧ HasShape A n (layerOut l m)) ∧ ∃ P, ps[pre.length]? = some P ∧ HasShape P l.paramShape.1 l.paramShape.2

theorem linesUp_unique {ls : List (NetLayer F)} {c d d' : ℕ} (h : LinesUp ls c d) (h' : LinesUp ls c d') : d = d' := by
  induction h with
  | nil c => cases h'; rfl
  | linear bias h rest ih => cases h' with | linear _ _ r => exact ih r
  | activ A rest ih => cases h' with | activ _ r => exact ih r

theorem Kept.input {n c m : ℕ} {ls : List (NetLayer F)} {acts ps : List (Mat F)} {X : Mat F} (hX : HasShape X n c) (h : Kept n c ls acts ps)
    (hl : LinesUp ls c m) : HasShape (acts.getLast?.getD X) n m := by
  rcases List.eq_nil_or_concat ls with rfl | ⟨pre, l, rfl⟩
  · cases hl
    have : acts = [] := List.length_eq_zero_iff.mp h.1
    rw [this]; exact hX
  · rw [List.concat_eq_append] at h hl
    obtain ⟨m', h1, h2, rfl⟩ := linesUp_snoc.mp hl
    obtain ⟨⟨A, hA, hs⟩, -⟩ := h.2.2 pre l (List.prefix_rfl) m' h1
    have : acts.getLast? = some A := by
      rw [List.getLast?_eq_getElem?, h.1]
      simpa using hA
    rw [this]; exact hs

theorem Kept.snoc {n c m : ℕ} {ls : List (NetLayer F)} {acts ps : List (Mat F)} (h : Kept n c ls acts ps) (hl : LinesUp ls c m) {l : NetLayer F}
    {A P : Mat F} (hA : HasShape A n (layerOut l m)) (hP : HasShape P l.paramShape.1 l.paramShape.2) :
    Kept n c (ls ++ [l]) (acts ++ [A]) (ps ++ [P]) := by
  refine ⟨by simp [h.1], by simp [h.2.1], fun pre l' hpre m' hm' => ?_⟩
  rcases List.prefix_concat_iff.mp (by simpa using hpre : pre ++ [l'] <+: ls ++ [l]) with heq | hp
  · have h2 := List.append_inj' heq rfl
    obtain ⟨rfl, h3⟩ := h2
    injection h3 with h3 _
    subst h3
    rw [linesUp_unique hm' hl]
    refine ⟨⟨A, ?_, hA⟩, P, ?_, hP⟩
    · rw [← h.1]; simp
    · rw [← h.2.1]; simp
  · have hlt : pre.length < ls.length := by
      have := hp.length_le
      simp at this
      omega
    obtain ⟨⟨B, hB, hBs⟩, Q, hQ, hQs⟩ := h.2.2 pre l' hp m' hm'
    refine ⟨⟨B, ?_, hBs⟩, Q, ?_, hQs⟩
    · rw [List.getElem?_append_left (by rw [h.1]; exact hlt)]; exact hB
    · rw [List.getElem?_append_left (by rw [h.2.1]; exact hlt)]; exact hQ

theorem netForward_safe {w : List F} {X : Mat F} {n c : ℕ} (hX : HasShape X n c) : ∀ (rest done : List (NetLayer F)) (acts ps : List (Mat F)) (m d : ℕ),
    LinesUp done c m → LinesUp rest m d → Kept n c done acts ps → totalParams done + totalParams rest ≤ w.length →
    ∃ acts' ps', netForward w X rest (totalParams done) acts ps = ok (totalParams (done ++ rest), acts', ps') ∧ Kept n c (done ++ rest) acts' ps'
  | [], done, acts, ps, m, d, _, _, hk, _ => ⟨acts, ps, by simp [netForward], by simpa using hk⟩
  | l :: rest, done, acts, ps, m, d, hd, hr, hk, hw => by
    rw [totalParams_cons] at hw
    obtain ⟨h1, h2⟩ := LinesUp_cons.mp hr
    obtain ⟨P, hP, hPs⟩ := sliceAt_safe (w := w) (start := totalParams done) (l := l) (by omega)
    have hin := Kept.input hX hk hd
    have hfw := forward_ok hin hP h1
    have hout : HasShape (⟨layerOut l m, (acts.getLast?.getD X).rows.map (layerRow l (w.drop (totalParams done)))⟩ : Mat F) n (layerOut l m) :=
      map_shape hin _ fun x hx => layerRow_length hx
    have hsn : totalParams (done ++ [l]) = totalParams done + l.numParams := by
      rw [totalParams_append, totalParams_cons, totalParams_nil, Nat.add_zero]
    obtain ⟨acts', ps', e, hk'⟩ := netForward_safe (w := w) hX rest (done ++ [l]) _ _ (layerOut l m) d (linesUp_snoc.mpr ⟨m, hd, h1, rfl⟩) h2
      (Kept.snoc hk hd hout hPs) (by rw [hsn]; omega)
    refine ⟨acts', ps', ?_, by simpa using hk'⟩
    rw [netForward, hP]
    show (l.forward (acts.getLast?.getD X) P).unwrap >>= _ = _
    rw [hfw]
    show netForward w X rest (totalParams done + l.numParams) _ _ = _
    rw [← hsn, e]
    simp

theorem backParams_safe {l : NetLayer F} {n c : ℕ} {X G : Mat F} (hX : HasShape X n c) (hG : HasShape G n (layerOut l c)) (hfit : layerFits l c) :
    Safe (fun M => M.data.length = l.numParams) (l.backParams G X) := by
  cases l with
  | linear k o bias =>
    have hfit' : (if bias then c + 1 else c) = k := hfit
    have hG' : HasShape G n o := hG
    unfold NetLayer.backParams
    cases bias with
    | true =>
      simp only [if_true] at hfit' ⊢
      subst hfit'
      exact Safe.bind (Safe.withOnes hX) fun x hx => (Safe.mul (HasShape.transpose hx) hG').mono fun M hM => HasShape.dataLength hM
    | false =>
      simp only [if_false, Bool.false_eq_true] at hfit' ⊢
      subst hfit'
      exact (Safe.mul (HasShape.transpose hX) hG').mono fun M hM => HasShape.dataLength hM
  | activ A => exact (Safe.new (n := 0) (c := 0) rfl).mono fun M hM => HasShape.dataLength hM

theorem backInput_safe {l : NetLayer F} {n c : ℕ} {O G P : Mat F} (hO : HasShape O n (layerOut l c)) (hG : HasShape G n (layerOut l c))
    (hP : HasShape P l.paramShape.1 l.paramShape.2) (hfit : layerFits l c) : Safe (fun M => HasShape M n c) (l.backInput G O P) := by
  cases l with
  | linear k o bias =>
    have hfit' : (if bias then c + 1 else c) = k := hfit
    have hG' : HasShape G n o := hG
    have hP' : HasShape P k o := hP
    unfold NetLayer.backInput
    refine Safe.bind (Safe.mul hG' (HasShape.transpose hP')) fun g hg => ?_
    cases bias with
    | true =>
      simp only [if_true] at hfit' ⊢
      subst hfit'
      exact removeFirstCol_safe hg
    | false =>
      simp only [if_false, Bool.false_eq_true] at hfit' ⊢
      subst hfit'
      exact hg
  | activ A =>
    have hO' : HasShape O n c := hO
    have hG' : HasShape G n c := hG
    unfold NetLayer.backInput
    rw [hO'.1, hO'.2.1]
    apply Safe.new
    rw [List.length_zipWith, HasShape.dataLength hO', HasShape.dataLength hG', Nat.min_self]

omit [Scalar F] in
theorem copyInto_safe {g : List (Option F)} {start n : ℕ} {src : List F} (h : start + n ≤ g.length) (hs : src.length = n)
    (hg : ∀ x ∈ g.drop (start + n), x.isSome) :
    Safe (fun g' => g'.length = g.length ∧ ∀ x ∈ g'.drop start, x.isSome) (copyInto g start n src) := by
  unfold copyInto
  rw [if_pos ⟨h, hs⟩]
  refine ⟨by simp [hs]; omega, ?_⟩
  intro x hx
  rw [List.append_assoc, List.drop_append_of_le_length (by simp; omega), List.drop_take_self, List.nil_append] at hx
  rcases List.mem_append.mp hx with h | h
  · obtain ⟨y, _, rfl⟩ := List.mem_map.mp h; rfl
  · exact hg x h

theorem netBackward_safe {X : Mat F} {n c : ℕ} (hX : HasShape X n c) {layers : List (NetLayer F)} {acts ps : List (Mat F)} (hk : Kept n c layers acts ps) :
    ∀ (k : ℕ) (done : List (NetLayer F)) (d : ℕ) (G : Mat F) (g : List (Option F)), done.length = k → done <+: layers → LinesUp done c d → HasShape G n d →
      totalParams done ≤ g.length → (∀ x ∈ g.drop (totalParams done), x.isSome) →
      Safe (fun g' => g'.length = g.length ∧ ∀ x ∈ g', x.isSome) (netBackward X acts ps done.zipIdx.reverse (totalParams done) G g)
  | 0, done, d, G, g, h0, _, _, _, _, hg => by
    obtain rfl := List.length_eq_zero_iff.mp h0
    exact ⟨rfl, by simpa [totalParams_nil] using hg⟩
  | k + 1, done, d, G, g, h0, hpre, hl, hG, hN, hg => by
    rcases List.eq_nil_or_concat done with rfl | ⟨pre, l, rfl⟩
    · simp at h0
    rw [List.concat_eq_append] at *
    obtain ⟨m, h1, hfit, rfl⟩ := linesUp_snoc.mp hl
    obtain ⟨⟨A, hA, hAs⟩, P, hP, hPs⟩ := hk.2.2 pre l hpre m h1
    have hsn : totalParams (pre ++ [l]) = totalParams pre + l.numParams := by
      rw [totalParams_append, totalParams_cons, totalParams_nil, Nat.add_zero]
    have hz : (pre ++ [l]).zipIdx.reverse = (l, pre.length) :: pre.zipIdx.reverse := by
      rw [List.zipIdx_append, List.reverse_append]
      simp
    have hpre' : pre <+: layers := (List.prefix_append pre [l]).trans hpre
    have hkp : Safe (fun M => HasShape M n m) (layerInput X acts pre.length) := by
      unfold layerInput
      rcases List.eq_nil_or_concat pre with rfl | ⟨pre', l', rfl⟩
      · cases h1
        exact hX
      · rw [List.concat_eq_append] at *
        obtain ⟨m', h2, _, rfl⟩ := linesUp_snoc.mp h1
        obtain ⟨⟨B, hB, hBs⟩, -⟩ := hk.2.2 pre' l' hpre' m' h2
        rw [if_neg (by simp)]
        have : (pre' ++ [l']).length - 1 = pre'.length := by simp
        rw [this]
        unfold getAt
        rw [hB]
        exact hBs
    rw [hz, netBackward, hsn, Nat.add_sub_cancel]
    refine Safe.bind hkp fun act hact => ?_
    unfold getAt
    rw [hA, hP]
    show Safe _ (l.backParams G act >>= _)
    refine Safe.bind (backParams_safe hact hG hfit) fun gp hgp =>
      Safe.bind (copyInto_safe (by rw [← hsn]; exact hN) hgp (by rw [← hsn]; exact hg)) fun g' hg' =>
        Safe.bind (backInput_safe hAs hG hPs hfit) fun G' hG' => ?_
    refine (netBackward_safe hX hk k pre m G' g' (by simp at h0; omega) hpre' h1 hG' (by rw [hg'.1]; omega) hg'.2).mono fun r hr =>
      ⟨by rw [hr.1, hg'.1], hr.2⟩

omit [Scalar F] in
theorem allInit_safe : ∀ g : List (Option F), (∀ x ∈ g, x.isSome) → Safe (fun r => r.length = g.length) (allInit g)
  | [], _ => rfl
  | none :: g, h => by simpa using h none List.mem_cons_self
  | some x :: g, h => Safe.bind (allInit_safe g fun y hy => h y (List.mem_cons_of_mem _ hy)) fun r hr => by
    show (x :: r).length = (some x :: g).length
    simp [hr]

theorem criterion_safe (c : Criterion F) {O T : Mat F} {n d : ℕ} (hO : HasShape O n d) (hT : HasShape T n d) :
    Safe (fun M => HasShape M n d) (c.costGrad O T) ∧ Safe (fun _ => True) (c.cost O T) := by
  unfold Criterion.costGrad Criterion.cost
  cases c.kind with
  | bce =>
    refine ⟨Safe.bind (Safe.zip hO hT) fun _ h1 => Safe.bind (Safe.zip hO (HasShape.map hO _)) fun _ h2 => Safe.zip h1 h2, ?_⟩
    exact Safe.bind (Safe.zip hT (HasShape.map hO _)) fun _ h1 =>
      Safe.bind (Safe.zip (HasShape.map hT _) (HasShape.map (HasShape.map hO _) _)) fun _ h2 => Safe.bind (Safe.zip h1 h2) fun _ _ => trivial
  | mse =>
    exact ⟨Safe.zip hO hT, Safe.bind (Safe.zip hO hT) fun _ h1 => Safe.bind (Safe.zip h1 h1) fun _ _ => trivial⟩

/-- **C87 (neural networks, gradients).** The gradient of a network whose layers line up can be computed on every batch of rows
of the right widths. -/
theorem C87_nnet_gradient (net : BaseNet F) {c d : ℕ} (hne : net.layers ≠ []) (hl : LinesUp net.layers c d) :
    SafeDataGrad (totalParams net.layers) c d net.computeGrad := by
  intro w n X T hw hX hT
  unfold BaseNet.computeGrad
  obtain ⟨acts, ps, hf, hk⟩ := netForward_safe (w := w) hX net.layers [] [] [] c d (.nil c) hl
    ⟨rfl, rfl, by intro pre l h; have := h.length_le; simp at this⟩ (by rw [totalParams_nil, hw]; omega)
  rw [totalParams_nil, List.nil_append] at hf
  rw [List.nil_append] at hk
  rw [hf]
  have hout := Kept.input hX hk hl
  have hane : acts ≠ [] := by
    intro h
    have := hk.1
    rw [h] at this
    exact hne (List.length_eq_zero_iff.mp this.symm)
  rw [List.getLast?_eq_some_getLast hane] at hout
  show Safe _ (ofOption acts.getLast? >>= _)
  rw [List.getLast?_eq_some_getLast hane]
  show Safe _ (net.criterion.costGrad _ _ >>= _)
  have hc := criterion_safe net.criterion hout hT
  refine Safe.bind hc.1 fun G hG => ?_
  dsimp only
  refine Safe.bind (netBackward_safe hX hk net.layers.length net.layers d G _ rfl List.prefix_rfl hl hG (by simp [hw]) (by simp [hw])) fun g hg =>
    Safe.bind hc.2 fun cost _ => Safe.bind (allInit_safe g hg.2) fun g' hg' => ?_
  have hgl : g'.length = totalParams net.layers := by rw [hg', hg.1]; simpa using hw
  have hM : HasShape (⟨1, w.map fun w => [w]⟩ : Mat F) w.length 1 := by
    refine ⟨by simp, rfl, ?_⟩
    intro r hr
    obtain ⟨x, _, rfl⟩ := List.mem_map.mp hr
    rfl
  split
  · refine Safe.bind (P := fun R => HasShape R w.length 1) ?_ fun R hR => ?_
    · unfold regGrad
      cases net.criterion.reg with
      | l1 x => exact HasShape.map hM _
      | l2 x => exact HasShape.map hM _
      | elasticNet x y => exact Safe.zip (HasShape.map hM _) (HasShape.map hM _)
      | none => rw [hM.1]; exact zeros_shape _ _
    · show (inPlaceBin _ _ _).length = _
      rw [inPlaceBin_length]; exact hgl
  · exact hgl

/-- **C87 (neural networks, training).** A network whose layers line up is trained without crashing by every optimiser that does
not crash on such models. -/
theorem C87_nnet_train (opt : ComputeGrad F → List F → Mat F → Mat F → Outcome (List F)) (ho : SafeDataOpt opt) (net : BaseNet F) {X T : Mat F}
    {n c d : ℕ} (hne : net.layers ≠ []) (hl : LinesUp net.layers c d) (hw : net.weights.length = totalParams net.layers) (hX : HasShape X n c)
    (hT : HasShape T n d) : Safe (fun net' => net'.layers = net.layers ∧ net'.weights.length = totalParams net.layers) (net.train opt X T) :=
  Safe.bind (ho _ n c d _ _ X T hw hX hT (C87_nnet_gradient net hne hl)) fun _ hw' => ⟨rfl, hw'⟩

/-- **C87 (neural networks, prediction).** -/
theorem C87_nnet_predict (net : BaseNet F) {X : Mat F} {n c d : ℕ} (hl : LinesUp net.layers c d)
    (hw : net.weights.length = totalParams net.layers) (hX : HasShape X n c) : Safe (fun M => HasShape M n d) (net.forwardProp X) :=
  Safe.of_eq (forwardProp_ok hX hl hw) (map_shape hX _ fun x hx => netRow_length hl _ x hx)

/-- A network without layers cannot be trained: its gradient panics. -/
theorem C87_nnet_no_layers (net : BaseNet F) (h : net.layers = []) (w : List F) (X T : Mat F) : net.computeGrad w X T = Outcome.panic := by
  unfold BaseNet.computeGrad
  rw [h]
  rfl

/-! ### Transformers -/

/-- **C87 (transformers).** Fitting and applying a transformer never crashes, whatever the shapes. -/
theorem C87_transformers (X Z : Mat F) :
    (∀ f : MinMaxFitter F, Safe (fun _ => True) (minmaxFit f X)) ∧ (∀ f : StandardizerFitter F, Safe (fun _ => True) (standardizerFit f X)) ∧
    (∀ t : MinMaxScaler F, Safe (fun _ => True) (minmaxTransform t Z) ∧ Safe (fun _ => True) (minmaxInv t Z)) ∧
    (∀ t : Standardizer F, Safe (fun _ => True) (standardizerTransform t Z) ∧ Safe (fun _ => True) (standardizerInv t Z)) ∧
    ∀ norm : List F → F, Safe (fun _ => True) (normalizerTransform norm Z) := by
  have hrow : ∀ (r : List F) (mms : List (F × F)), Safe (fun _ => True) (minmaxRow r mms) := by
    intro r
    induction r with
    | nil => intro mms; trivial
    | cons x r ih =>
      intro mms
      cases mms with
      | nil => trivial
      | cons mm mms =>
        unfold minmaxRow
        split
        · trivial
        · exact Safe.bind (ih mms) fun _ _ => trivial
  have hrows : ∀ (rs : List (List F)) (mms : List (F × F)), Safe (fun _ => True) (minmaxRows rs mms) := by
    intro rs
    induction rs with
    | nil => intro mms; trivial
    | cons r rs ih => intro mms; exact Safe.bind (hrow r mms) fun _ _ => ih _
  refine ⟨fun f => ?_, fun f => ?_, fun t => ⟨?_, ?_⟩, fun t => ⟨?_, ?_⟩, fun norm => ?_⟩
  · unfold minmaxFit
    refine Safe.bind (hrows _ _) fun mms _ => Safe.bind (Safe.mapM (Q := fun _ => True) fun mm _ => ?_) fun _ _ => trivial
    unfold minmaxScale
    dsimp only
    split <;> trivial
  · unfold standardizerFit Mat.varianceRow
    split
    · trivial
    · dsimp only
      split
      · split <;> trivial
      · trivial
      · rename_i h; split at h <;> cases h
      · rename_i h; split at h <;> cases h
  · unfold minmaxTransform; split <;> trivial
  · unfold minmaxInv; split <;> trivial
  · unfold standardizerTransform; split <;> trivial
  · unfold standardizerInv; split <;> trivial
  · unfold normalizerTransform
    refine Safe.bind (P := fun _ => True) ?_ fun _ _ => trivial
    generalize Z.rows.zip (Z.rows.map norm) = l
    induction l with
    | nil => trivial
    | cons p l ih =>
      obtain ⟨row, d⟩ := p
      unfold normalizeLoop
      split
      · trivial
      · exact Safe.bind ih fun _ _ => trivial

/-! ### Principal components -/

/-- The decomposition returns right singular vectors of the documented (thin) shape, or fails with an error. -/
def SafeSvd (svd : Mat F → Outcome (Mat F × Mat F × Mat F)) : Prop :=
  ∀ (A : Mat F) (n c : ℕ), HasShape A n c → Safe (fun r => HasShape r.2.2 c (min n c)) (svd A)

theorem centering_safe {X : Mat F} {n c : ℕ} (hX : HasShape X n c) {m : List F} (hm : m.length = c) :
    Safe (fun M => HasShape M n c) (centering X m) := by
  unfold centering
  rw [if_neg (by rw [hX.2.1, hm]; simp)]
  refine ⟨by simp [hX.1], hX.2.1, ?_⟩
  intro r hr
  obtain ⟨s, hs, rfl⟩ := List.mem_map.mp hr
  simp [hX.2.2 s hs, hm]

/-- A trained model that can project rows of width `c`. -/
def PcaReady (m : Pca F) (c : ℕ) : Prop :=
  m.nFeatures = some c ∧ (m.center = true → ∃ v, m.centers = some v ∧ v.length = c) ∧
    ∃ K q, m.components = some K ∧ if m.inv then HasShape K q c else HasShape K c q

/-- **C87 (principal components, training).** Training a model that was not trained before, without a restriction of the number of
components on data with fewer rows than columns, panics only if the singular value decomposition fails on the data or, for a model that
centres, on the data less its column means. -/
theorem C87_pca_train (svd : Mat F → Outcome (Mat F × Mat F × Mat F)) (hs : SafeSvd svd) (m : Pca F) (hm : m.inv = false)
    {X : Mat F} {n c : ℕ} (hX : HasShape X n c) (hp : c ≤ n ∨ m.n = none) :
    SafeUnless (∃ D e, (if m.center then centering X X.meanRow else ok X) = ok D ∧ svd D = err e)
      (fun m' => PcaReady m' c) (m.train svd X) := by
  unfold Pca.train
  by_cases htm : tooManyComponents m.n X.cols = true
  · rw [if_pos htm]
    exact .inl trivial
  rw [if_neg htm]
  refine .bind (P := fun p : Mat F × Option (List F) => HasShape p.1 n c ∧ (m.center = true → ∃ v, p.2 = some v ∧ v.length = c)) (.inl ?_) fun p ep hp' => ?_
  · unfold Pca.prepare
    split
    · have hl : X.meanRow.length = c := by rw [meanRow_length, hX.2.1]
      exact Safe.bind (centering_safe hX hl) fun D hD => ⟨hD, fun _ => ⟨_, rfl, hl⟩⟩
    · rename_i h
      exact ⟨hX, fun h' => absurd h' h⟩
  · obtain ⟨D, cs⟩ := p
    dsimp only
    refine .bind (.expect (hs D n c hp'.1) fun e he => ⟨D, e, ?_, he⟩) fun r _ hr => .inl ?_
    · unfold Pca.prepare at ep
      split at ep
      · rename_i hc
        rw [if_pos hc]
        dsimp only at ep
        cases hx : centering X X.meanRow with
        | ok D' => rw [hx] at ep; injection ep with ep; injection ep with ep; rw [ep]
        | err e => rw [hx] at ep; cases ep
        | panic => rw [hx] at ep; cases ep
        | ub => rw [hx] at ep; cases ep
      · rename_i hc
        rw [if_neg hc]
        injection ep with ep
        injection ep with ep
        rw [ep]
    obtain ⟨B, U, V⟩ := r
    dsimp only at hr ⊢
    rw [hX.1, hX.2.1]
    rw [hX.2.1] at htm
    by_cases hw : n < c
    · have hn : m.n = none := hp.resolve_left (by omega)
      rw [hn]
      simp only [hw, decide_true, if_true]
      exact ⟨rfl, hp'.2, _, min n c, rfl, by simpa using HasShape.transpose hr⟩
    · simp only [hw, decide_false, Bool.false_eq_true, if_false]
      have hmin : min n c = c := by omega
      rw [hmin] at hr
      cases hn : m.n with
      | none => exact ⟨rfl, hp'.2, V, c, rfl, by rw [hm]; simpa using hr⟩
      | some q =>
        rw [hn] at htm
        simp only [tooManyComponents, decide_eq_true_eq, not_lt] at htm
        simp only [selectComponents, firstCols]
        rw [if_pos (by rw [hr.2.1]; exact htm)]
        refine ⟨rfl, hp'.2, _, q, rfl, ?_⟩
        rw [hm]
        refine ⟨by simp [hr.1], rfl, ?_⟩
        intro row hrow
        obtain ⟨s, hs', rfl⟩ := List.mem_map.mp hrow
        simp [hr.2.2 s hs', htm]

/-- **C87 (principal components, prediction).** A trained model projects data of any width without crashing. -/
theorem C87_pca_predict (m : Pca F) {X : Mat F} {n c c' : ℕ} (hm : PcaReady m c) (hX : HasShape X n c') :
    Safe (fun M => M.rows.length = n) (m.predict X) := by
  obtain ⟨h1, h2, K, q, h3, h4⟩ := hm
  unfold Pca.predict
  rw [h1, h3]
  dsimp only
  split
  · trivial
  rename_i hw
  rw [not_not, hX.2.1] at hw
  subst hw
  have hproj : ∀ D, HasShape D n c → Safe (fun M => M.rows.length = n) (m.project K D) := by
    intro D hD
    unfold Pca.project
    split
    · rename_i hi
      rw [hi] at h4
      exact (Safe.mul hD (HasShape.transpose h4)).mono fun M hM => hM.1
    · rename_i hi
      rw [Bool.not_eq_true] at hi
      rw [hi] at h4
      exact (Safe.mul hD h4).mono fun M hM => hM.1
  split
  · rename_i hc
    obtain ⟨v, hv, hvl⟩ := h2 hc
    rw [hv]
    exact Safe.bind (centering_safe hX hvl) fun D hD => hproj D hD
  · exact hproj X hX

/-! ### Gaussian mixtures -/

/-- A mixture of `k` components for rows of width `d`. -/
def GmmReady (m : Gmm F) (k d : ℕ) : Prop :=
  m.compCount = k ∧ m.mixWeights.length = k ∧ (∃ M, m.means = some M ∧ HasShape M k d) ∧
    ∃ cs, m.covars = some cs ∧ cs.length = k ∧ ∀ A ∈ cs, HasShape A d d

/-- The factorisation of square matrices of size `d`, and the inverse it offers, may fail with an error but do not crash. -/
def SafeLup (d : ℕ) (lup : Mat F → Outcome (F × Outcome (Mat F))) : Prop :=
  ∀ A, HasShape A d d → Safe (fun r => Safe (fun B => HasShape B d d) r.2) (lup A)

/-- The factorisation fails on one of the covariances of the mixture. -/
def Spec.NoFactor (lup : Mat F → Outcome (F × Outcome (Mat F))) (m : Gmm F) : Prop :=
  ∃ cs A e, m.covars = some cs ∧ A ∈ cs ∧ lup A = err e

theorem fromDiag_shape (v : List F) : HasShape (fromDiag v) v.length v.length := by
  refine ⟨by simp [fromDiag], rfl, ?_⟩
  intro r hr
  obtain ⟨i, _, rfl⟩ := List.mem_map.mp hr
  simp

theorem eyeMat_shape (n : ℕ) : HasShape (eyeMat n : Mat F) n n := by
  have := fromDiag_shape (List.replicate n (Scalar.one : F))
  rw [List.length_replicate] at this
  exact this

theorem scatterMat_shape {X : Mat F} {n d : ℕ} (hX : HasShape X n d) : HasShape (scatterMat X) d d := by
  refine ⟨by simp [scatterMat, hX.2.1], hX.2.1, ?_⟩
  intro r hr
  obtain ⟨i, _, rfl⟩ := List.mem_map.mp hr
  simp [hX.2.1]

theorem rowMat_shape {r : List F} {d : ℕ} (h : r.length = d) : HasShape (rowMat r) 1 d := by
  refine ⟨rfl, h, ?_⟩
  intro s hs
  rw [rowMat, List.mem_singleton] at hs
  rw [hs, h]

theorem memberships_safe {lup : Mat F → Outcome (F × Outcome (Mat F))} {m : Gmm F} {k d n : ℕ} (hl : SafeLup d lup) (hm : GmmReady m k d) {X : Mat F}
    (hX : HasShape X n d) : SafeUnless (NoFactor lup m) (fun r => HasShape r.1 n k) (m.memberships lup X) := by
  obtain ⟨h1, h2, ⟨M, h3, hM⟩, cs, h4, h5, h6⟩ := hm
  unfold Gmm.memberships
  rw [h3, h4, h1]
  refine .bind (.mapM (Q := fun p : F × Mat F => HasShape p.2 d d) fun A hA => ?_) fun parts _ hparts => .inl ?_
  · unfold covParts
    exact .bind (.expect (hl A (h6 A hA)) fun e he => ⟨cs, A, e, h4, hA, he⟩) fun r _ hr => .inl (Safe.bind (Safe.fromLinalg hr) fun B hB => hB)
  · have hpl : parts.length = k := by rw [hparts.1]; exact h5
    refine Safe.bind (Safe.mapM (Q := fun p : List F × F => p.1.length = k) fun x hx => ?_) fun rs hrs => ?_
    · unfold memberRow compPdfs
      refine Safe.bind (Safe.mapM (Q := fun _ => True) fun j hj => ?_) fun pdfs hp => ?_
      · rw [List.mem_range] at hj
        refine Safe.bind (Safe.getAt (by rw [hM.1]; exact hj)) fun mu hmu => Safe.bind (Safe.getAt (by rw [hpl]; exact hj)) fun p hp => ?_
        unfold compPdf
        refine Safe.bind (Safe.vecZip (hX.2.2 x hx) (hM.2.2 mu hmu)) fun diff hd => Safe.bind (Safe.mul (rowMat_shape hd) (hparts.2 p hp)) fun a ha =>
          Safe.bind (Safe.mul ha (HasShape.transpose (rowMat_shape hd))) fun b hb => ?_
        have hbl := HasShape.dataLength (HasShape.map hb fun x => x *. (Scalar.ofRat (-1 / 2)))
        exact Safe.bind (Safe.getAt (by show 0 < (Mat.data (b.map _)).length; rw [hbl]; omega)) fun _ _ => trivial
      · rw [List.length_range] at hp
        refine Safe.bind (Safe.mapM (Q := fun _ => True) fun i hi => ?_) fun row hrow => ?_
        · rw [List.mem_range, hp.1] at hi
          exact Safe.bind (Safe.getAt (by rw [h2]; exact hi)) fun _ _ => Safe.bind (Safe.getAt (by rw [hp.1]; exact hi)) fun _ _ => trivial
        · show row.length = k
          rw [hrow.1, List.length_range, hp.1]
    · refine ⟨by simp [hrs.1, hX.1], rfl, ?_⟩
      intro r hr
      obtain ⟨p, hp, rfl⟩ := List.mem_map.mp hr
      exact hrs.2 p hp

theorem gmmUpdate_safe {m : Gmm F} {k d n : ℕ} (hk : m.compCount = k) {X W : Mat F} (hX : HasShape X n d) (hW : HasShape W n k) :
    Safe (fun m' => GmmReady m' k d) (m.update X W) := by
  unfold Gmm.update
  dsimp only
  have hsl : W.sumRows.length = k := by rw [sumRows_length, hW.2.1]
  refine Safe.bind (Safe.mul (HasShape.transpose hW) hX) fun prod hp => ?_
  have hnm : HasShape (⟨prod.cols, List.zipWith (fun r w => r.map fun x => x /. w) prod.rows W.sumRows⟩ : Mat F) k d := by
    refine ⟨by simp [hp.1, hsl], hp.2.1, ?_⟩
    intro r hr
    obtain ⟨i, hi, rfl⟩ := List.mem_iff_getElem.mp hr
    rw [List.getElem_zipWith, List.length_map]
    exact hp.2.2 _ (List.getElem_mem _)
  rw [hk]
  refine Safe.bind (Safe.mapM (Q := fun A : Mat F => HasShape A d d) fun j hj => ?_) fun covs hc => ?_
  · rw [List.mem_range] at hj
    unfold newCov
    refine Safe.bind (Safe.getAt (by rw [hnm.1]; exact hj)) fun mu hmu => Safe.bind (P := fun A => HasShape A d d) ?_ fun cov hcov =>
      Safe.bind (P := fun A => HasShape A d d) ?_ fun cov' hcov' => Safe.bind (Safe.getAt (by rw [hsl]; exact hj)) fun s _ => HasShape.map hcov' _
    · unfold covSum
      refine Safe.foldlM (by rw [hX.2.1]; exact zeros_shape d d) fun acc i hi hacc => ?_
      rw [List.mem_range, hW.1] at hi
      refine Safe.bind (Safe.getAt (by rw [hX.1]; exact hi)) fun x hx => Safe.bind (Safe.vecZip (hX.2.2 x hx) (hnm.2.2 mu hmu)) fun diff hd =>
        Safe.bind (Safe.getAt (by rw [hW.1]; exact hi)) fun wr hwr => Safe.bind (Safe.getAt (by rw [hW.2.2 wr hwr]; exact hj)) fun w _ =>
          Safe.bind (P := fun A => HasShape A d d) ?_ fun C hC => Safe.zip hacc hC
      unfold computeCov
      split
      · exact Safe.bind (Safe.vecZip hd hd) fun sq hsq => HasShape.map (by have := fromDiag_shape sq; rw [hsq] at this; exact this) _
      · exact Safe.bind (Safe.mul (HasShape.transpose (rowMat_shape hd)) (rowMat_shape hd)) fun p hp => HasShape.map hp _
    · unfold addReg
      split
      · exact Safe.zip hcov (HasShape.map (by rw [hcov.2.1]; exact eyeMat_shape d) _)
      · exact hcov
  · exact ⟨rfl, by simp [hsl], ⟨_, rfl, hnm⟩, covs, rfl, by simpa using hc.1, hc.2⟩

/-- **C87 (Gaussian mixtures, training).** Training with at least as many rows as components panics only if the factorisation fails on a
covariance of the mixture as it is after some number of passes less than the number asked for. -/
theorem C87_gmm_train (lup : Mat F → Outcome (F × Outcome (Mat F))) (draws : ℕ → ℕ) (m : Gmm F) {X : Mat F} {n d : ℕ} (hl : SafeLup d lup)
    (hm : m.mixWeights.length = m.compCount) (hX : HasShape X n d) (hk : m.compCount ≤ n) :
    SafeUnless (∃ m0 i m', m.init draws X = ok m0 ∧ i < m.maxIters ∧ m0.emLoop lup X i = ok m' ∧ NoFactor lup m')
      (fun m' => GmmReady m' m.compCount d) (m.train lup draws X) := by
  unfold Gmm.train
  refine .bind (P := fun m' => GmmReady m' m.compCount d) (.inl ?_) fun m0 e0 h0 => ?_
  · unfold Gmm.init
    split
    swap
    · trivial
    refine Safe.bind (P := fun A => HasShape A d d) ?_ fun cov hcov => ?_
    · unfold Gmm.initCov
      split
      · refine Safe.bind (Safe.fromLinalg (P := fun v => v.length = d) ?_) fun v hv =>
          HasShape.map (by have := fromDiag_shape v; rw [hv] at this; exact this) _
        unfold Mat.varianceRow
        split
        · trivial
        · show (List.map _ _).length = d
          simp [hX.2.1]
      · exact HasShape.map (scatterMat_shape hX) _
      · exact Safe.zip (HasShape.map (scatterMat_shape hX) _) (HasShape.map (by rw [hX.2.1]; exact eyeMat_shape d) _)
    · have hr : m.compCount ≤ (List.range X.rows.length).length := by rw [List.length_range, hX.1]; exact hk
      obtain ⟨S, hS, hSl, hSs⟩ := reservoirSample_subperm draws (List.range X.rows.length) m.compCount hr
      rw [hS]
      refine Safe.bind (P := fun S' => S' = S) rfl fun S' hS' => ?_
      subst hS'
      refine Safe.bind (Safe.selectRows hX (idx := S') fun i hi => ?_) fun M hM => ?_
      · have := hSs.subset hi
        rw [List.mem_range, hX.1] at this
        exact this
      · rw [hSl] at hM
        refine ⟨rfl, hm, ⟨M, rfl, hM⟩, _, rfl, by simp, ?_⟩
        intro A hA
        rw [(List.mem_replicate.mp hA).2]
        exact hcov
  · have loop : ∀ (iters : ℕ) (m0 : Gmm F), GmmReady m0 m.compCount d →
        SafeUnless (∃ i m', i < iters ∧ m0.emLoop lup X i = ok m' ∧ NoFactor lup m') (fun m' => GmmReady m' m.compCount d) (m0.emLoop lup X iters) := by
      intro iters
      induction iters with
      | zero => intro m0 h0; exact .inl h0
      | succ iters ih =>
        intro m0 h0
        rw [Gmm.emLoop]
        refine .bind (P := fun o => ∀ m', o = some m' → GmmReady m' m.compCount d) ?_ fun o eo ho => ?_
        · unfold Gmm.emStep
          refine .bind ((memberships_safe hl h0 hX).weaken fun h => ⟨0, m0, Nat.succ_pos _, rfl, h⟩) fun r _ hr => .inl ?_
          dsimp only
          split
          · exact fun m' h => by cases h
          · refine Safe.bind (gmmUpdate_safe (m := { m0 with logLik := r.2 }) h0.1 hX hr) fun m' hm' => ?_
            intro m'' e
            injection e with e
            subst e
            exact hm'
        · cases o with
          | none => exact .inl h0
          | some m' =>
            refine (ih m' (ho m' rfl)).weaken ?_
            rintro ⟨i, m'', hi, hl', hn⟩
            refine ⟨i + 1, m'', Nat.succ_lt_succ hi, ?_, hn⟩
            rw [Gmm.emLoop, eo]
            exact hl'
    exact (loop _ m0 h0).weaken fun ⟨i, m', hi, hl', hn⟩ => ⟨m0, i, m', e0, hi, hl', hn⟩

/-- **C87 (Gaussian mixtures, prediction).** Prediction panics only if the factorisation fails on a covariance of the mixture. -/
theorem C87_gmm_predict (lup : Mat F → Outcome (F × Outcome (Mat F))) (m : Gmm F) {X : Mat F} {n k d : ℕ} (hl : SafeLup d lup)
    (hm : GmmReady m k d) (hX : HasShape X n d) : SafeUnless (NoFactor lup m) (fun M => HasShape M n k) (m.predict lup X) := by
  have hms := memberships_safe hl hm hX
  obtain ⟨h1, h2, ⟨M, h3, hM⟩, cs, h4, h5, h6⟩ := hm
  unfold Gmm.predict
  rw [h3, h4]
  exact .bind hms fun r _ hr => .inl hr

end RM
