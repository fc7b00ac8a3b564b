import Verif.Props.MissingStoch
import Verif.Props.MissingScore
import Verif.Props.NoPanicMore
import Verif.Proofs.NoErr
import Verif.Proofs.Backprop

/-! C148 for neural networks: a missing number (NaN) in a training sample. -/

namespace RM
open Outcome Scalar Spec

/-- Every entry is NaN. -/
def AllNan (M : Mat XR) : Prop := ∀ r ∈ M.rows, ∀ x ∈ r, x = XR.nan

/-- Every entry of row `i` is NaN. -/
def RowNan (i : ℕ) (M : Mat XR) : Prop := ∀ r, M.rows[i]? = some r → ∀ x ∈ r, x = XR.nan

theorem AllNan.data {M : Mat XR} (h : AllNan M) : ∀ x ∈ M.data, x = XR.nan := by
  intro x hx
  obtain ⟨r, hr, hx⟩ := List.mem_flatten.1 hx
  exact h r hr x hx

theorem Spec.Safe.with {α : Type} {P Q : α → Prop} {o : Outcome α} (h : Safe P o) (hq : ∀ a, o = ok a → P a → Q a) : Safe (fun a => P a ∧ Q a) o := by
  cases o with
  | ok a => exact ⟨h, hq a rfl h⟩
  | err e => trivial
  | panic => exact h
  | ub => exact h

theorem flatten_entry {c j : ℕ} (hj : j < c) : ∀ (rows : List (List XR)) (i : ℕ), (∀ r ∈ rows, r.length = c) → i < rows.length →
    ∃ r, rows[i]? = some r ∧ rows.flatten[i * c + j]? = r[j]?
  | [], i, _, hi => by simp at hi
  | r :: rows, 0, h, _ => by
    refine ⟨r, rfl, ?_⟩
    rw [List.flatten_cons, Nat.zero_mul, Nat.zero_add, List.getElem?_append_left (by rw [h r List.mem_cons_self]; exact hj)]
  | r :: rows, i + 1, h, hi => by
    obtain ⟨q, hq, e⟩ := flatten_entry hj rows i (fun r hr => h r (List.mem_cons_of_mem _ hr)) (by simpa using hi)
    refine ⟨q, by simpa using hq, ?_⟩
    have hl := h r List.mem_cons_self
    rw [List.flatten_cons, List.getElem?_append_right (by rw [hl, Nat.succ_mul]; omega), ← e, hl]
    congr 1
    rw [Nat.succ_mul]
    omega

theorem RowNan.data {M : Mat XR} {n c i j : ℕ} (hM : HasShape M n c) (hi : i < n) (hj : j < c) (h : RowNan i M) : M.data[i * c + j]? = some XR.nan := by
  obtain ⟨r, hr, e⟩ := flatten_entry hj M.rows i hM.2.2 (by rw [hM.1]; exact hi)
  have hl : j < r.length := by rw [hM.2.2 r (List.mem_of_getElem? hr)]; exact hj
  unfold Mat.data
  rw [e, List.getElem?_eq_getElem hl, h r hr _ (List.getElem_mem hl)]

theorem rowNan_of_data {M : Mat XR} {n c i : ℕ} (hM : HasShape M n c) (hi : i < n) (h : ∀ j < c, M.data[i * c + j]? = some XR.nan) : RowNan i M := by
  intro r hr x hx
  obtain ⟨j, hj, rfl⟩ := List.mem_iff_getElem.1 hx
  have hj' : j < c := by rw [← hM.2.2 r (List.mem_of_getElem? hr)]; exact hj
  obtain ⟨q, hq, e⟩ := flatten_entry hj' M.rows i hM.2.2 (by rw [hM.1]; exact hi)
  rw [hr] at hq
  injection hq with hq
  subst hq
  have := h j hj'
  unfold Mat.data at this
  rw [e, List.getElem?_eq_getElem hj] at this
  exact Option.some.inj this

theorem new_data {r c : ℕ} {d : List XR} {M : Mat XR} (h : Mat.new r c d = ok M) : M.data = d := by
  unfold Mat.new at h
  split at h
  · rename_i hl
    injection h with h
    subst h
    unfold Mat.data
    rw [chunk_flatten_take, List.take_of_length_le (by rw [hl])]
  · cases h

theorem mul_rowNan {G P M : Mat XR} {n k m i : ℕ} (hG : HasShape G n k) (hP : HasShape P k m) (hk : 0 < k) (hn : RowNan i G) (h : G.mul P = ok M) :
    RowNan i M := by
  unfold Mat.mul at h
  rw [if_pos (by rw [hG.2.1, hP.1])] at h
  injection h with h
  subst h
  intro q hq x hx
  simp only [List.getElem?_map, Option.map_eq_some_iff] at hq
  obtain ⟨r, hr, rfl⟩ := hq
  obtain ⟨j, hj, rfl⟩ := List.mem_map.1 hx
  have hl : r.length = k := hG.2.2 r (List.mem_of_getElem? hr)
  have hc : (colOf P.rows j).length = k := by
    rw [← hP.1]
    exact transposeRows_length P.cols P.rows (by rw [hP.2.1]; exact hP.2.2) _ (List.mem_map.2 ⟨j, hj, rfl⟩)
  refine dot_nan_mem ?_ (by rw [hl, hc])
  have h0 : 0 < r.length := by omega
  rw [← hn r hr _ (List.getElem_mem h0)]
  exact List.getElem_mem h0

theorem mul_allNan {Z G M : Mat XR} {n k m i : ℕ} (hZ : HasShape Z k n) (hG : HasShape G n m) (hi : i < n) (hn : RowNan i G) (h : Z.mul G = ok M) :
    AllNan M := by
  unfold Mat.mul at h
  rw [if_pos (by rw [hZ.2.1, hG.1])] at h
  injection h with h
  subst h
  intro q hq x hx
  obtain ⟨r, hr, rfl⟩ := List.mem_map.1 hq
  obtain ⟨j, hj, rfl⟩ := List.mem_map.1 hx
  have hl : r.length = n := hZ.2.2 r hr
  have hc : (colOf G.rows j).length = n := by
    rw [← hG.1]
    exact transposeRows_length G.cols G.rows (by rw [hG.2.1]; exact hG.2.2) _ (List.mem_map.2 ⟨j, hj, rfl⟩)
  refine dot_nan_mem_right ?_ (by rw [hl, hc])
  have hi' : i < G.rows.length := by rw [hG.1]; exact hi
  have hj' : j < G.rows[i].length := by rw [hG.2.2 _ (List.getElem_mem hi'), ← hG.2.1]; exact List.mem_range.1 hj
  refine List.mem_filterMap.2 ⟨G.rows[i], List.getElem_mem hi', ?_⟩
  rw [List.getElem?_eq_getElem hj', hn _ (List.getElem?_eq_getElem hi') _ (List.getElem_mem hj')]

theorem removeLoop_ent (c : ℕ) (data : List XR) : ∀ (k i : ℕ) (v : List XR), i + k = data.length → v.length = data.length →
    v.drop i = data.drop i → (∀ p, p < i - (i + c) / (c + 1) → v[p]? = data[p + p / c + 1]?) →
    ∃ v' : List XR, removeLoop (c + 1) (List.range' i k) v ((i + c) / (c + 1)) = ok (v', (data.length + c) / (c + 1)) ∧ v'.length = data.length ∧
      ∀ p, p < data.length - (data.length + c) / (c + 1) → v'[p]? = data[p + p / c + 1]?
  | 0, i, v, hik, hl, hd, hp => by
    have : i = data.length := by omega
    subst this
    exact ⟨v, rfl, hl, hp⟩
  | k + 1, i, v, hik, hl, hd, hp => by
    rw [List.range'_succ, removeLoop]
    have hq : i = (c + 1) * (i / (c + 1)) + i % (c + 1) := (Nat.div_add_mod i (c + 1)).symm
    have hs : i % (c + 1) < c + 1 := Nat.mod_lt _ (by omega)
    generalize i / (c + 1) = q at hq
    generalize hsg : i % (c + 1) = s at hq hs
    have hd' : v.drop (i + 1) = data.drop (i + 1) := by
      rw [← List.drop_drop, ← List.drop_drop, hd]
    by_cases h0 : s = 0
    · subst h0
      rw [if_pos rfl]
      have e1 : (i + c) / (c + 1) = q := by
        rw [hq, Nat.add_zero]
        exact div_block _ _ _ (by omega)
      have e2 : (i + 1 + c) / (c + 1) = q + 1 := by
        rw [show i + 1 + c = (c + 1) * (q + 1) + 0 by rw [hq]; ring]
        exact div_block _ _ _ (by omega)
      have := removeLoop_ent c data k (i + 1) v (by omega) hl hd' (by
        intro p hp'
        apply hp
        rw [e1]; rw [e2] at hp'; omega)
      rw [e2] at this
      rw [e1]
      exact this
    · rw [if_neg (by omega)]
      obtain ⟨s, rfl⟩ : ∃ s', s = s' + 1 := ⟨s - 1, by omega⟩
      have e1 : (i + c) / (c + 1) = q + 1 := by
        rw [show i + c = (c + 1) * (q + 1) + s by rw [hq]; ring]
        exact div_block _ _ _ (by omega)
      have e2 : (i + 1 + c) / (c + 1) = q + 1 := by
        rw [show i + 1 + c = (c + 1) * (q + 1) + (s + 1) by rw [hq]; ring]
        exact div_block _ _ _ (by omega)
      rw [e1, if_pos (by omega)]
      have hi : i < v.length := by omega
      have hvi : v[i]? = data[i]? := by
        have := congrArg (fun l : List XR => l[0]?) hd
        simpa using this
      have hge : q + 1 ≤ i := by rw [hq, Nat.add_mul, Nat.one_mul]; omega
      simp only [getAt, List.getElem?_eq_getElem hi, ofOption_some, ok_bind, setAt, if_pos (show i - (q + 1) < v.length by omega)]
      have := removeLoop_ent c data k (i + 1) (v.set (i - (q + 1)) v[i]) (by omega) (by simp [hl])
        (by rw [List.drop_set_of_lt (by omega), hd']) (by
        intro p hp'
        rw [e2] at hp'
        by_cases hpi : p = i - (q + 1)
        · have hpq : p = c * q + s := by rw [hpi, hq, Nat.add_mul, Nat.one_mul]; omega
          have hdiv : p / c = q := by
            rw [hpq]
            apply Nat.div_eq_of_lt_le
            · rw [Nat.mul_comm]; omega
            · rw [Nat.succ_mul, Nat.mul_comm]; omega
          rw [← hpi, List.getElem?_set_self (by omega), hdiv]
          rw [show p + q + 1 = i by omega, ← hvi, List.getElem?_eq_getElem hi]
        · rw [List.getElem?_set_ne (by omega)]
          apply hp
          rw [e1]; omega)
      rw [e2] at this
      exact this

theorem removeFirstCol_rowNan {M R : Mat XR} {n c i : ℕ} (hM : HasShape M n (c + 1)) (hR : HasShape R n c) (hi : i < n) (hn : RowNan i M)
    (h : removeFirstCol M = ok R) : RowNan i R := by
  have hlen := HasShape.dataLength hM
  obtain ⟨v, hv, hvl, hvp⟩ := removeLoop_ent c M.data M.data.length 0 M.data (by omega) rfl rfl (by intro p hp; simp at hp)
  have hdel : (M.data.length + c) / (c + 1) = n := by
    rw [hlen]
    apply Nat.div_eq_of_lt_le
    · omega
    · rw [Nat.succ_mul]; omega
  rw [hdel] at hv hvp
  have h0 : (0 + c) / (c + 1) = 0 := by rw [Nat.zero_add]; exact Nat.div_eq_of_lt (by omega)
  rw [h0, ← List.range_eq_range'] at hv
  unfold removeFirstCol at h
  rw [hM.2.1, hv, ok_bind] at h
  simp only [if_pos (show 0 < n by omega)] at h
  have hsub : M.data.length - n = n * c := by rw [hlen, Nat.mul_add]; omega
  refine rowNan_of_data hR hi fun j hj => ?_
  have hp : i * c + j < n * c := by
    calc i * c + j < i * c + c := by omega
      _ = (i + 1) * c := by rw [Nat.succ_mul]
      _ ≤ n * c := Nat.mul_le_mul_right c hi
  have hdiv : (i * c + j) / c = i := by
    apply Nat.div_eq_of_lt_le
    · omega
    · rw [Nat.succ_mul]; omega
  rw [new_data h, List.getElem?_take_of_lt (by rw [hsub]; exact hp), hvp _ (by rw [hsub]; exact hp), hdiv,
    ← RowNan.data hM hi (Nat.succ_lt_succ hj) hn]
  congr 1
  rw [Nat.mul_add]; omega

theorem zip_rowNan {f : XR → XR → XR} (h1 : ∀ a, f XR.nan a = XR.nan) {A B Z : Mat XR} {i : ℕ} (hA : RowNan i A) (h : Mat.zip f A B = ok Z) : RowNan i Z := by
  unfold Mat.zip at h
  split at h
  · injection h with h
    subst h
    intro q hq x hx
    obtain ⟨a, b, ha, hb, rfl⟩ := List.getElem?_zipWith_eq_some.1 hq
    obtain ⟨j, hj, rfl⟩ := List.mem_iff_getElem.1 hx
    simp only [List.getElem_zipWith]
    rw [hA a ha _ (List.getElem_mem _), h1]
  · cases h

theorem backParams_nan {l : NetLayer XR} {n c i : ℕ} {X G : Mat XR} (h0 : i < n) (hX : HasShape X n c) (hG : HasShape G n (layerOut l c)) (hfit : layerFits l c)
    (hn : RowNan i G) : Safe (fun M => M.data.length = l.numParams ∧ ∀ x ∈ M.data, x = XR.nan) (l.backParams G X) := by
  cases l with
  | linear k o bias =>
    have hfit' : (if bias then c + 1 else c) = k := hfit
    have hG' : HasShape G n o := hG
    unfold NetLayer.backParams
    cases bias with
    | true =>
      simp only [if_true] at hfit' ⊢
      subst hfit'
      exact Safe.bind (Safe.withOnes hX) fun x hx => ((Safe.mul (HasShape.transpose hx) hG').with fun M hM _ =>
        mul_allNan (HasShape.transpose hx) hG' h0 hn hM).mono fun M hM => ⟨HasShape.dataLength hM.1, hM.2.data⟩
    | false =>
      simp only [if_false, Bool.false_eq_true] at hfit' ⊢
      subst hfit'
      exact ((Safe.mul (HasShape.transpose hX) hG').with fun M hM _ =>
        mul_allNan (HasShape.transpose hX) hG' h0 hn hM).mono fun M hM => ⟨HasShape.dataLength hM.1, hM.2.data⟩
  | activ A =>
    exact ((Safe.new (n := 0) (c := 0) rfl).with fun M hM _ => new_data hM).mono fun M hM => ⟨HasShape.dataLength hM.1, by rw [hM.2]; simp⟩

theorem backInput_nan {l : NetLayer XR} {n c i : ℕ} {O G P : Mat XR} (hi : i < n) (hO : HasShape O n (layerOut l c)) (hG : HasShape G n (layerOut l c))
    (hP : HasShape P l.paramShape.1 l.paramShape.2) (hfit : layerFits l c) (ho : ∀ k o b, l = .linear k o b → 0 < o) (hn : RowNan i G) :
    Safe (fun M => HasShape M n c ∧ RowNan i M) (l.backInput G O P) := by
  refine (backInput_safe hO hG hP hfit).with fun M hM hMs => ?_
  cases l with
  | linear k o bias =>
    have hG' : HasShape G n o := hG
    have hP' : HasShape P k o := hP
    have hfit' : (if bias then c + 1 else c) = k := hfit
    unfold NetLayer.backInput at hM
    cases hm : G.mul P.transpose with
    | ok g =>
      have hg := mul_rowNan hG' (HasShape.transpose hP') (ho k o bias rfl) hn hm
      have hgs : HasShape g n k := by
        have := Safe.mul hG' (HasShape.transpose hP')
        rw [hm] at this
        exact this
      dsimp only at hM
      rw [hm, ok_bind] at hM
      split at hM
      · rename_i hb
        rw [if_pos hb] at hfit'
        subst hfit'
        exact removeFirstCol_rowNan hgs hMs hi hg hM
      · injection hM with hM
        subst hM
        exact hg
    | err e => rw [hm] at hM; cases hM
    | panic => rw [hm] at hM; cases hM
    | ub => rw [hm] at hM; cases hM
  | activ A =>
    have hO' : HasShape O n c := hO
    have hG' : HasShape G n c := hG
    unfold NetLayer.backInput at hM
    refine rowNan_of_data hMs hi fun j hj => ?_
    rw [new_data hM]
    have hp : i * c + j < n * c := by
      calc i * c + j < i * c + c := by omega
        _ = (i + 1) * c := by rw [Nat.succ_mul]
        _ ≤ n * c := Nat.mul_le_mul_right c hi
    have hp' : i * c + j < O.data.length := by rw [HasShape.dataLength hO']; exact hp
    rw [List.getElem?_zipWith_eq_some]
    exact ⟨_, _, List.getElem?_eq_getElem hp', RowNan.data hG' hi hj hn, mv_mul_nan _⟩

theorem copyInto_nan {g : List (Option XR)} {start n : ℕ} {src : List XR} (h : start + n ≤ g.length) (hs : src.length = n) (hsn : ∀ x ∈ src, x = XR.nan)
    (hg : ∀ x ∈ g.drop (start + n), x = some XR.nan) :
    Safe (fun g' => g'.length = g.length ∧ ∀ x ∈ g'.drop start, x = some XR.nan) (copyInto g start n src) := by
  unfold copyInto
  rw [if_pos ⟨h, hs⟩]
  refine ⟨by simp [hs]; omega, ?_⟩
  intro x hx
  rw [List.append_assoc, List.drop_append_of_le_length (by simp; omega), List.drop_take_self, List.nil_append] at hx
  rcases List.mem_append.mp hx with h | h
  · obtain ⟨y, hy, rfl⟩ := List.mem_map.mp h; rw [hsn y hy]
  · exact hg x h

theorem netBackward_nan {X : Mat XR} {n c j : ℕ} (h00 : j < n) (hX : HasShape X n c) {layers : List (NetLayer XR)} (hnl : NanLayers layers) {acts ps : List (Mat XR)}
    (hk : Kept n c layers acts ps) :
    ∀ (k : ℕ) (done : List (NetLayer XR)) (d : ℕ) (G : Mat XR) (g : List (Option XR)), done.length = k → done <+: layers → LinesUp done c d → HasShape G n d →
      RowNan j G → totalParams done ≤ g.length → (∀ x ∈ g.drop (totalParams done), x = some XR.nan) →
      Safe (fun g' => g'.length = g.length ∧ ∀ x ∈ g', x = some XR.nan) (netBackward X acts ps done.zipIdx.reverse (totalParams done) G g)
  | 0, done, d, G, g, h0, _, _, _, _, _, hg => by
    obtain rfl := List.length_eq_zero_iff.mp h0
    exact ⟨rfl, by simpa [totalParams_nil] using hg⟩
  | k + 1, done, d, G, g, h0, hpre, hl, hG, hGn, hN, hg => by
    rcases List.eq_nil_or_concat done with rfl | ⟨pre, l, rfl⟩
    · simp at h0
    rw [List.concat_eq_append] at *
    obtain ⟨m, h1, hfit, rfl⟩ := linesUp_snoc.mp hl
    obtain ⟨⟨A, hA, hAs⟩, P, hP, hPs⟩ := hk.2.2 pre l hpre m h1
    have hlin : ∀ k o b, l = .linear k o b → 0 < o := by
      rintro k o b rfl
      exact hnl (.linear k o b) (hpre.subset (by simp))
    have hsn : totalParams (pre ++ [l]) = totalParams pre + l.numParams := by
      rw [totalParams_append, totalParams_cons, totalParams_nil, Nat.add_zero]
    have hz : (pre ++ [l]).zipIdx.reverse = (l, pre.length) :: pre.zipIdx.reverse := by
      rw [List.zipIdx_append, List.reverse_append]
      simp
    have hpre' : pre <+: layers := (List.prefix_append pre [l]).trans hpre
    have hkp : Safe (fun M => HasShape M n m) (layerInput X acts pre.length) := by
      unfold layerInput
      rcases List.eq_nil_or_concat pre with rfl | ⟨pre', l', rfl⟩
      · cases h1
        exact hX
      · rw [List.concat_eq_append] at *
        obtain ⟨m', h2, _, rfl⟩ := linesUp_snoc.mp h1
        obtain ⟨⟨B, hB, hBs⟩, -⟩ := hk.2.2 pre' l' hpre' m' h2
        rw [if_neg (by simp)]
        have : (pre' ++ [l']).length - 1 = pre'.length := by simp
        rw [this]
        unfold getAt
        rw [hB]
        exact hBs
    rw [hz, netBackward, hsn, Nat.add_sub_cancel]
    refine Safe.bind hkp fun act hact => ?_
    unfold getAt
    rw [hA, hP]
    show Safe _ (l.backParams G act >>= _)
    refine Safe.bind (backParams_nan h00 hact hG hfit hGn) fun gp hgp =>
      Safe.bind (copyInto_nan (by rw [← hsn]; exact hN) hgp.1 hgp.2 (by rw [← hsn]; exact hg)) fun g' hg' =>
        Safe.bind (backInput_nan h00 hAs hG hPs hfit hlin hGn) fun G' hG' => ?_
    refine (netBackward_nan h00 hX hnl hk k pre m G' g' (by simp at h0; omega) hpre' h1 hG'.1 hG'.2 (by rw [hg'.1]; omega) hg'.2).mono fun r hr =>
      ⟨by rw [hr.1, hg'.1], hr.2⟩

/-- The last activation kept by the forward loop is the output of the network. -/
theorem netForward_last {w : List XR} {X : Mat XR} {n : ℕ} : ∀ (rest : List (NetLayer XR)) (start m d : ℕ) (acts ps : List (Mat XR)) (i : ℕ)
    (acts' ps' : List (Mat XR)), HasShape (acts.getLast?.getD X) n m → LinesUp rest m d → start + totalParams rest ≤ w.length →
    netForward w X rest start acts ps = ok (i, acts', ps') →
      acts'.getLast?.getD X = ⟨d, (acts.getLast?.getD X).rows.map (netRow rest (w.drop start))⟩
  | [], start, m, d, acts, ps, i, acts', ps', hs, hl, _, h => by
    cases hl
    simp only [netForward, Outcome.ok.injEq, Prod.mk.injEq] at h
    rw [← h.2.1]
    simp only [netRow, List.map_id']
    rw [← hs.2.1]
  | l :: rest, start, m, d, acts, ps, i, acts', ps', hs, hl, hw, h => by
    rw [totalParams_cons] at hw
    obtain ⟨h1, h2⟩ := LinesUp_cons.mp hl
    obtain ⟨P, hP, hPs⟩ := sliceAt_safe (w := w) (start := start) (l := l) (by omega)
    have hfw := forward_ok hs hP h1
    rw [netForward, hP] at h
    change (l.forward (acts.getLast?.getD X) P).unwrap >>= _ = _ at h
    rw [hfw] at h
    change netForward w X rest (start + l.numParams) _ _ = _ at h
    have := netForward_last rest (start + l.numParams) (layerOut l m) d _ _ i acts' ps' (by simpa using map_shape hs _ fun x hx => layerRow_length hx) h2 (by omega) h
    rw [this]
    simp only [List.getLast?_append, List.getLast?_singleton, Option.some_or, Option.getD_some, List.map_map]
    congr 1
    apply List.map_congr_left
    intro r _
    rw [Function.comp_apply, netRow_cons, List.drop_drop]

theorem noErr_removeLoop (cols : ℕ) : ∀ (is : List ℕ) (v : List XR) (del : ℕ), NoErr (removeLoop cols is v del)
  | [], _, _ => .ok _
  | i :: is, v, del => by
    unfold removeLoop
    exact .ite (noErr_removeLoop cols is _ _) (.ite ((noErr_getAt _ _).bind fun _ _ => NoErr.bind (.ite (.ok _) .panic) fun _ _ => noErr_removeLoop cols is _ _)
      (noErr_removeLoop cols is _ _))

theorem noErr_backParams (l : NetLayer XR) (G X : Mat XR) : NoErr (l.backParams G X) := by
  cases l with
  | linear k o b => exact .ite (NoErr.bind (.ite (.ok _) .panic) fun _ _ => noErr_mul _ _) (noErr_mul _ _)
  | activ A => exact noErr_new _ _ _

theorem noErr_backInput (l : NetLayer XR) (G O P : Mat XR) : NoErr (l.backInput G O P) := by
  cases l with
  | linear k o b => exact (noErr_mul _ _).bind fun _ _ => .ite ((noErr_removeLoop _ _ _ _).bind fun _ _ => noErr_new _ _ _) (.ok _)
  | activ A => exact noErr_new _ _ _

theorem noErr_netBackward (X : Mat XR) (acts ps : List (Mat XR)) : ∀ (ls : List (NetLayer XR × ℕ)) (i : ℕ) (G : Mat XR) (g : List (Option XR)),
    NoErr (netBackward X acts ps ls i G g)
  | [], _, _, _ => .ok _
  | (l, i) :: ls, _, G, g => by
    unfold netBackward
    exact NoErr.bind (.ite (.ok _) (noErr_getAt _ _)) fun _ _ => (noErr_getAt _ _).bind fun _ _ => (noErr_getAt _ _).bind fun _ _ =>
      (noErr_backParams _ _ _).bind fun _ _ => NoErr.bind (.ite (.ok _) .panic) fun _ _ => (noErr_backInput _ _ _ _).bind fun _ _ =>
        noErr_netBackward X acts ps ls _ _ _

theorem noErr_netForward (w : List XR) (X : Mat XR) : ∀ (ls : List (NetLayer XR)) (i : ℕ) (acts ps : List (Mat XR)), NoErr (netForward w X ls i acts ps)
  | [], _, _, _ => .ok _
  | l :: ls, i, acts, ps => by
    unfold netForward
    refine NoErr.bind (.ite (.ok _) .ub) fun _ _ => NoErr.bind ?_ fun _ _ => noErr_netForward w X ls _ _ _
    generalize l.forward _ _ = o
    cases o
    · exact .ok _
    · exact .panic
    · exact .panic
    · exact .ub

theorem noErr_allInit : ∀ g : List (Option XR), NoErr (allInit g)
  | [] => .ok _
  | none :: _ => .ub
  | some _ :: g => (noErr_allInit g).bind fun _ _ => .ok _

theorem noErr_computeGrad (net : BaseNet XR) (w : List XR) (X T : Mat XR) : NoErr (net.computeGrad w X T) := by
  unfold BaseNet.computeGrad
  refine (noErr_netForward _ _ _ _ _ _).bind fun fw _ => NoErr.bind ?_ fun o _ => NoErr.bind ?_ fun G _ => (noErr_netBackward _ _ _ _ _ _ _).bind fun g _ =>
    NoErr.bind ?_ fun c _ => (noErr_allInit _).bind fun g _ => .ite (NoErr.bind ?_ fun _ _ => .ok _) (.ok _)
  · cases fw.2.1.getLast?
    · exact .panic
    · exact .ok _
  · unfold Criterion.costGrad
    cases net.criterion.kind with
    | bce => exact (noErr_zip _ _ _).bind fun _ _ => (noErr_zip _ _ _).bind fun _ _ => noErr_zip _ _ _
    | mse => exact noErr_zip _ _ _
  · unfold Criterion.cost
    cases net.criterion.kind with
    | bce => exact (noErr_zip _ _ _).bind fun _ _ => (noErr_zip _ _ _).bind fun _ _ => (noErr_zip _ _ _).bind fun _ _ => .ok _
    | mse => exact (noErr_zip _ _ _).bind fun _ _ => (noErr_zip _ _ _).bind fun _ _ => .ok _
  · unfold regGrad
    cases net.criterion.reg with
    | l1 x => exact .ok _
    | l2 x => exact .ok _
    | elasticNet x y => exact noErr_zip _ _ _
    | none => exact .ok _

theorem allInit_nan : ∀ g : List (Option XR), (∀ x ∈ g, x = some XR.nan) → Safe (fun r => r = List.replicate g.length XR.nan) (allInit g)
  | [], _ => rfl
  | none :: g, h => by simpa using h none List.mem_cons_self
  | some x :: g, h => Safe.bind (allInit_nan g fun y hy => h y (List.mem_cons_of_mem _ hy)) fun r hr => by
    have hx := h (some x) List.mem_cons_self
    injection hx with hx
    show x :: r = _
    rw [hx, hr]
    rfl

theorem costGrad_nan (k : Criterion XR) {O T : Mat XR} {n d i : ℕ} (hO : HasShape O n d) (hT : HasShape T n d) (hn : RowNan i O) :
    Safe (fun M => HasShape M n d ∧ RowNan i M) (k.costGrad O T) := by
  unfold Criterion.costGrad
  cases k.kind with
  | bce =>
    exact Safe.bind ((Safe.zip hO hT).with fun M hM _ => zip_rowNan xr_nan_sub hn hM) fun _ h1 =>
      Safe.bind (Safe.zip hO (HasShape.map hO _)) fun _ h2 => (Safe.zip h1.1 h2).with fun M hM _ => zip_rowNan xr_nan_div h1.2 hM
  | mse => exact (Safe.zip hO hT).with fun M hM _ => zip_rowNan xr_nan_sub hn hM

theorem inPlaceAdd_nan (n : ℕ) (v : List XR) : inPlaceBin Scalar.add (List.replicate n XR.nan) v = List.replicate n XR.nan := by
  rw [List.eq_replicate_iff]
  refine ⟨by rw [inPlaceBin_length]; simp, ?_⟩
  intro x hx
  rcases List.mem_append.1 hx with hx | hx
  · obtain ⟨i, hi, rfl⟩ := List.mem_iff_getElem.1 hx
    simp only [List.getElem_zipWith, List.getElem_replicate]
    exact xr_nan_add _
  · exact List.eq_of_mem_replicate (List.mem_of_mem_drop hx)

/-- With a NaN in one of the samples, a network with a linear layer has a cost of NaN and a gradient of NaNs. -/
theorem computeGrad_nan (net : BaseNet XR) (hn : NanLayers net.layers) (hlin : ∃ k o b, NetLayer.linear k o b ∈ net.layers) {n c d : ℕ} (hl : LinesUp net.layers c d)
    (w : List XR) (hw : w.length = totalParams net.layers) {X T : Mat XR} (hX : HasShape X n c) (hT : HasShape T n d) (x : List XR) (hx : x ∈ X.rows)
    (hxn : XR.nan ∈ x) : Safe (fun p => p = (XR.nan, List.replicate w.length XR.nan)) (net.computeGrad w X T) := by
  obtain ⟨i, hi, rfl⟩ := List.mem_iff_getElem.1 hx
  have hne : net.layers ≠ [] := by
    rintro h
    obtain ⟨k, o, b, h'⟩ := hlin
    rw [h] at h'
    simp at h'
  unfold BaseNet.computeGrad
  obtain ⟨acts, ps, hf, hk⟩ := netForward_safe (w := w) hX net.layers [] [] [] c d (.nil c) hl
    ⟨rfl, rfl, by intro pre l h; have := h.length_le; simp at this⟩ (by rw [totalParams_nil, hw]; omega)
  rw [totalParams_nil, List.nil_append] at hf
  rw [List.nil_append] at hk
  have hlast := netForward_last net.layers 0 c d [] [] _ _ _ (by simpa using hX) hl (by omega) hf
  rw [hf]
  have hout := Kept.input hX hk hl
  have hane : acts ≠ [] := by
    intro h
    have := hk.1
    rw [h] at this
    exact hne (List.length_eq_zero_iff.mp this.symm)
  rw [List.getLast?_eq_some_getLast hane] at hout hlast
  have hxl := hX.2.2 _ (List.getElem_mem hi)
  have hrow := netRow_nan hl hn w X.rows[i] hxl hxn
  simp only [Option.getD_some, List.getLast?_nil, Option.getD_none, List.drop_zero] at hlast
  have hall : RowNan i (acts.getLast hane) := by
    rw [hlast]
    intro r hr
    simp only [List.getElem?_map, List.getElem?_eq_getElem hi, Option.map_some, Option.some.injEq] at hr
    subst hr
    exact hrow.2 (Or.inr hlin)
  have hhas : HasNan (acts.getLast hane) := by
    rw [hlast]
    exact ⟨_, List.mem_map_of_mem (List.getElem_mem hi), hrow.1⟩
  have hcost : net.criterion.cost (acts.getLast hane) T = ok XR.nan := by
    simp only [Option.getD_some] at hout
    have := C149_costs (acts.getLast hane) T (by intro r hr; rw [hout.2.1]; exact hout.2.2 r hr) (by intro r hr; rw [hT.2.1]; exact hT.2.2 r hr)
      (by rw [hout.2.1, hT.2.1]) (by rw [hout.1, hT.1]) (.inl hhas)
    unfold Criterion.cost
    cases net.criterion.kind with
    | bce => exact this.2.2
    | mse => exact this.1
  show Safe _ (ofOption acts.getLast? >>= _)
  rw [List.getLast?_eq_some_getLast hane]
  show Safe _ (net.criterion.costGrad _ _ >>= _)
  refine Safe.bind (costGrad_nan net.criterion hout hT hall) fun G hG => ?_
  dsimp only
  refine Safe.bind (netBackward_nan (by rw [← hX.1]; exact hi) hX hn hk net.layers.length net.layers d G _ rfl List.prefix_rfl hl hG.1 hG.2 (by simp [hw]) (by simp [hw])) fun g hg =>
    ?_
  rw [hcost, ok_bind]
  refine Safe.bind (allInit_nan g hg.2) fun g' hg' => ?_
  have hgl : g' = List.replicate w.length XR.nan := by rw [hg', hg.1]; simp
  subst hgl
  have hM : HasShape (⟨1, w.map fun w => [w]⟩ : Mat XR) w.length 1 := by
    refine ⟨by simp, rfl, ?_⟩
    intro r hr
    obtain ⟨x, _, rfl⟩ := List.mem_map.mp hr
    rfl
  split
  · refine Safe.bind (P := fun _ => True) ?_ fun R _ => Prod.ext (xr_nan_add _) (inPlaceAdd_nan _ _)
    unfold regGrad
    cases net.criterion.reg with
    | l1 x => trivial
    | l2 x => trivial
    | elasticNet x y => exact (Safe.zip (HasShape.map hM _) (HasShape.map hM _)).mono fun _ _ => trivial
    | none => trivial
  · rfl

/-- The gradient of a network with a linear layer is of the kind `C148_stochastic_violation` is about. -/
theorem network_nanGradient (net : BaseNet XR) (hn : NanLayers net.layers) (hlin : ∃ k o b, NetLayer.linear k o b ∈ net.layers) {X T : Mat XR}
    (hl : LinesUp net.layers X.cols T.cols) (hX : X.WF) (hT : T.WF) : NanGradient net.computeGrad (totalParams net.layers) X T := by
  intro w hw x hx y hy
  have hne : net.layers ≠ [] := by
    rintro h
    obtain ⟨k, o, b, h'⟩ := hlin
    rw [h] at h'
    simp at h'
  have hX1 : HasShape (⟨X.cols, [x]⟩ : Mat XR) 1 X.cols := ⟨rfl, rfl, by simpa using hX x hx⟩
  have hT1 : HasShape (⟨T.cols, [y]⟩ : Mat XR) 1 T.cols := ⟨rfl, rfl, by simpa using hT y hy⟩
  have hs := C87_nnet_gradient net hne hl w 1 ⟨X.cols, [x]⟩ ⟨T.cols, [y]⟩ hw hX1 hT1
  have he := noErr_computeGrad net w ⟨X.cols, [x]⟩ ⟨T.cols, [y]⟩
  have hg := computeGrad_nan net hn hlin hl w hw hX1 hT1 x (by simp)
  cases h : net.computeGrad w ⟨X.cols, [x]⟩ ⟨T.cols, [y]⟩ with
  | ok p =>
    rw [h] at hs hg
    exact ⟨p.1, p.2, rfl, hs, fun hxn => by rw [← hw]; exact congrArg Prod.snd (hg hxn)⟩
  | err e => exact absurd h (he e)
  | panic => rw [h] at hs; exact hs.elim
  | ub => rw [h] at hs; exact hs.elim

theorem network_gd_nan (net : BaseNet XR) (hn : NanLayers net.layers) (hlin : ∃ k o b, NetLayer.linear k o b ∈ net.layers)
    (hw : net.weights.length = totalParams net.layers) {X T : Mat XR} (hl : LinesUp net.layers X.cols T.cols) (hX : X.WF) (hT : T.WF)
    (hr : X.rows.length = T.rows.length) (x : List XR) (hx : x ∈ X.rows) (hxn : XR.nan ∈ x) (o : GradientDesc XR) (ho : 0 < o.iters) :
    (o.optimize (fun w => net.computeGrad w X T) net.weights).out = ok (List.replicate (totalParams net.layers) XR.nan) := by
  refine gdLoop_nan (n := totalParams net.layers) _ (fun w hw => ?_) _ _ _ hw (fun h => absurd h ho.ne')
  have he := noErr_computeGrad net w X T
  have hg := computeGrad_nan net hn hlin hl w hw (shape_of_wf hX) (by rw [hr]; exact shape_of_wf hT) x hx hxn
  cases h : net.computeGrad w X T with
  | ok p => rw [h] at hg; rw [← hw]; exact congrArg ok hg
  | err e => exact absurd h (he e)
  | panic => rw [h] at hg; exact hg.elim
  | ub => rw [h] at hg; exact hg.elim

/-- A network of NaN weights gives NaN. -/
theorem netRow_nanWeights {ls : List (NetLayer XR)} {c d : ℕ} (h : LinesUp ls c d) : 0 < c → NanLayers ls → ∀ (N : ℕ) (x : List XR), totalParams ls ≤ N → x.length = c →
    ((∀ v ∈ x, v = XR.nan) ∨ ∃ k o b, NetLayer.linear k o b ∈ ls) → ∀ v ∈ netRow ls (List.replicate N XR.nan) x, v = XR.nan := by
  induction h with
  | nil c =>
    rintro _ _ N x _ _ (h | ⟨_, _, _, h⟩)
    · exact h
    · simp at h
  | @linear ls k o c d bias h rest ih =>
    intro hc hn N x hN hl _
    rw [totalParams_cons] at hN
    have hN' : k * o ≤ N := le_trans (Nat.le_add_right _ _) hN
    have ho : 0 < o := hn (.linear k o bias) List.mem_cons_self
    have hk : 0 < k := by cases bias <;> simp at h <;> omega
    rw [netRow, List.drop_replicate]
    refine ih ho (fun l hl => hn l (List.mem_cons_of_mem _ hl)) _ _ (Nat.le_sub_of_add_le' hN) (by simp) (Or.inl ?_)
    intro v hv
    obtain ⟨j, hj, rfl⟩ := List.mem_map.1 hv
    refine dot_nan_mem_right (List.mem_map.2 ⟨0, List.mem_range.2 hk, ?_⟩) (by cases bias <;> simp at h ⊢ <;> omega)
    have hj' : j < o := List.mem_range.1 hj
    have : j < N := lt_of_lt_of_le hj' (le_trans (Nat.le_mul_of_pos_left o hk) hN')
    simp [List.getD_eq_getElem?_getD, this]
  | @activ ls c d A rest ih =>
    intro hc hn N x hN hl hx
    have hA : A.func XR.nan = XR.nan := hn (.activ A) List.mem_cons_self
    rw [totalParams_cons] at hN
    rw [netRow]
    refine ih hc (fun l hl => hn l (List.mem_cons_of_mem _ hl)) N _ (by omega) (by simpa using hl) ?_
    rcases hx with h | ⟨k, o, b, h⟩
    · left
      intro v hv
      obtain ⟨u, hu, rfl⟩ := List.mem_map.1 hv
      rw [h u hu, hA]
    · right
      rcases List.mem_cons.1 h with h | h
      · cases h
      · exact ⟨k, o, b, h⟩

/-- C148 fails for neural networks, visibly: one NaN in the samples, and after training by gradient descent or a stochastic optimiser every output for every row is NaN. -/
theorem C148_network_violation (net : BaseNet XR) (hn : NanLayers net.layers) (hlin : ∃ k o b, NetLayer.linear k o b ∈ net.layers)
    (hw : net.weights.length = totalParams net.layers) {X T : Mat XR} (hl : LinesUp net.layers X.cols T.cols) (hX : X.WF) (hT : T.WF)
    (hr : X.rows.length = T.rows.length) (x : List XR) (hx : x ∈ X.rows) (hxn : XR.nan ∈ x) (r : ℕ → ℕ → ℕ)
    (opt : ComputeGrad XR → List XR → Mat XR → Mat XR → Outcome (List XR))
    (ho : (∃ o : GradientDesc XR, 0 < o.iters ∧ opt = fun g w X T => (o.optimize (fun w => g w X T) w).out) ∨
      (∃ o : StochasticGD XR, 0 < o.iters ∧ opt = fun g w X T => (o.optimize g r w X T).out) ∨
      (∃ o : AdaGrad XR, 0 < o.iters ∧ opt = fun g w X T => (o.optimize g r w X T).out) ∨
      ∃ o : RMSProp XR, 0 < o.iters ∧ opt = fun g w X T => (o.optimize g r w X T).out) :
    ∃ net', net.train opt X T = ok net' ∧ net'.weights = List.replicate (totalParams net.layers) XR.nan ∧
      ∀ Z : Mat XR, Z.WF → Z.cols = X.cols → net'.forwardProp Z = ok ⟨T.cols, Z.rows.map fun _ => List.replicate T.cols XR.nan⟩ := by
  obtain ⟨h1, h2, h3⟩ := C148_stochastic_violation (network_nanGradient net hn hlin hl hX hT) hr x hx hxn r net.weights hw
  have hopt : opt net.computeGrad net.weights X T = ok (List.replicate (totalParams net.layers) XR.nan) := by
    rcases ho with ⟨o, ho, rfl⟩ | ⟨o, ho, rfl⟩ | ⟨o, ho, rfl⟩ | ⟨o, ho, rfl⟩
    · exact network_gd_nan net hn hlin hw hl hX hT hr x hx hxn o ho
    · exact h1 o ho
    · exact h2 o ho
    · exact h3 o ho
  refine ⟨⟨net.layers, List.replicate (totalParams net.layers) XR.nan, net.criterion⟩, by simp only [BaseNet.train, hopt, ok_bind], rfl, ?_⟩
  intro Z hZ hc
  have hZs : HasShape Z Z.rows.length X.cols := ⟨rfl, hc, by rw [← hc]; exact hZ⟩
  rw [forwardProp_ok (net := ⟨net.layers, List.replicate (totalParams net.layers) XR.nan, net.criterion⟩) hZs hl (by simp)]
  congr 2
  apply List.map_congr_left
  intro z hz
  have hpos : 0 < X.cols := by rw [← hX x hx]; exact List.length_pos_of_mem hxn
  rw [List.eq_replicate_iff]
  exact ⟨netRow_length hl _ _ (hZs.2.2 z hz), netRow_nanWeights hl hpos hn _ _ le_rfl (hZs.2.2 z hz) (Or.inr hlin)⟩

/-- A layer with a bias and a sigmoid, two samples of which the second has a NaN, stochastic gradient descent, any shuffles. -/
example (r : ℕ → ℕ → ℕ) : ∃ net', (⟨[.new 2 1, .activ sigmoid], [.fin 1, .fin 1, .fin 1], ⟨.bce, .none⟩⟩ : BaseNet XR).train
      (fun g w X T => ((StochasticGD.default : StochasticGD XR).optimize g r w X T).out) ⟨2, [[.fin 1, .fin 2], [.fin 1, .nan]]⟩ ⟨1, [[.fin 0], [.fin 1]]⟩ = ok net' ∧
    net'.forwardProp ⟨2, [[.fin 1, .fin 2]]⟩ = ok ⟨1, [[.nan]]⟩ := by
  obtain ⟨net', h1, -, h3⟩ := C148_network_violation (⟨[.new 2 1, .activ sigmoid], [.fin 1, .fin 1, .fin 1], ⟨.bce, .none⟩⟩ : BaseNet XR)
    (by intro l hl; simp at hl; rcases hl with rfl | rfl; exacts [one_pos, C147_activations.1]) ⟨3, 1, true, by simp [NetLayer.new]⟩ rfl
    (X := ⟨2, [[.fin 1, .fin 2], [.fin 1, .nan]]⟩) (T := ⟨1, [[.fin 0], [.fin 1]]⟩) (.linear true rfl (.activ _ (.nil _)))
    (by intro r hr; simp at hr; rcases hr with rfl | rfl <;> rfl) (by intro r hr; simp at hr; rcases hr with rfl | rfl <;> rfl) rfl [.fin 1, .nan] (by simp)
    (by simp) r _ (.inr (.inl ⟨StochasticGD.default, by norm_num [StochasticGD.default], rfl⟩))
  exact ⟨net', h1, h3 ⟨2, [[.fin 1, .fin 2]]⟩ (by intro r hr; simp at hr; subst hr; rfl) rfl⟩

end RM
