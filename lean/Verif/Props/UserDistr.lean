import Verif.Spec.UserDistr
import Verif.Proofs.NaiveBayesTrain

/-!
# C129: naive Bayes distributions of the user's own
-/

namespace RM
open Outcome Scalar Spec
variable {D F : Type} [Scalar F]

omit [Scalar F] in
theorem user_fit_eq (B : NBDistr D F) (X : Mat F) : ∀ (data : List (List ℕ)) (i : ℕ) (d : D), B.toUser.fit X i data d = nbFit B X i data d
  | [], _, _ => rfl
  | c :: cs, i, d => by
    rw [UserDistr.fit, nbFit]
    split
    · exact user_fit_eq B X cs (i + 1) d
    · cases X.selectRows c with
      | ok rows =>
        simp only [NBDistr.toUser]
        cases B.update d rows i with
        | ok d' => exact user_fit_eq B X cs (i + 1) d'
        | _ => rfl
      | _ => rfl

/-- The distributions of the crate are a special case. -/
theorem C129_builtin (B : NBDistr D F) (m : NaiveBayes D F) (X T Y : Mat F) :
    B.toUser.train m X T = nbTrain B m X T ∧ B.toUser.predict m Y = nbPredict B m Y := by
  refine ⟨?_, by
    have e : B.toUser.logProbs m Y = nbLogProbs B m Y := by
      unfold UserDistr.logProbs nbLogProbs
      cases m.distr <;> cases m.classPrior <;> rfl
    unfold UserDistr.predict nbPredict
    rw [e]
    cases m.clusterCount <;> rfl⟩
  unfold UserDistr.train nbTrain
  simp only [user_fit_eq]
  generalize nbScan 0 T.rows _ _ = s
  obtain ⟨counts, o⟩ := s
  cases o with
  | ok data =>
    simp only
    generalize hf : nbFit B X 0 data _ = r
    have e : B.toUser.fromParams = B.fromParams := rfl
    rw [e] at hf
    rw [hf]
    obtain ⟨d, o⟩ := r
    cases o <;> rfl
  | _ => rfl

/-! ### Training -/

theorem user_fit_calls (B : UserDistr D ℝ) (X T : Mat ℝ) (hc : ∀ t ∈ T.rows, classOf t ≠ none) (hn : X.rows.length = T.rows.length) :
    ∀ (k i : ℕ) (d : D), B.fit X i ((List.range' i k).map fun j => members j 0 (classesOf T.rows)) d =
      makeCalls B.update d (((List.range' i k).filter fun c => decide (0 < classSize T.rows c)).map fun c => (⟨X.cols, classSamples X.rows T.rows c⟩, c))
  | 0, _, _ => rfl
  | k + 1, i, d => by
    rw [List.range'_succ, List.map_cons, UserDistr.fit]
    have hiff : members i 0 (classesOf T.rows) ≠ [] ↔ 0 < classSize T.rows i := by
      rw [← classSamples_ne_nil hc hn, ← classSamples_length hn, List.length_pos_iff]
    by_cases h : 0 < classSize T.rows i
    · have hne := hiff.mpr h
      rw [if_neg (by simpa using hne), selectRows_class hc hn, List.filter_cons_of_pos (by simpa using h), List.map_cons, makeCalls]
      dsimp only
      generalize B.update d _ i = u
      obtain ⟨d', o⟩ := u
      cases o with
      | ok u => exact user_fit_calls B X T hc hn k (i + 1) d'
      | _ => rfl
    · have he : members i 0 (classesOf T.rows) = [] := by
        by_contra hne
        exact h (hiff.mp hne)
      rw [he, if_pos List.isEmpty_nil, List.filter_cons_of_neg (by simpa using h)]
      exact user_fit_calls B X T hc hn k (i + 1) d

/-- What training does with a distribution of the user's own: it makes a new one for the number of classes and features of the
data, calls `update_params` once for every class that occurs, in ascending order, with the samples of that class, and stops at
the first call that fails or panics. If all return, the priors become the shares of the classes; otherwise the new distribution
stays, as that call left it, beside the priors and the number of classes of before. -/
theorem C129_train (B : UserDistr D ℝ) (m : NaiveBayes D ℝ) (X T : Mat ℝ) (hT : T.WF) (hn : X.rows.length = T.rows.length)
    (hc : ∀ t ∈ T.rows, ∃ c, classOf t = some c) (d : D) (r : Outcome Unit)
    (h : makeCalls B.update (B.fromParams T.cols X.cols) (updateCalls X T) = (d, r)) :
    B.train m X T = if r = ok () then (⟨some d, some T.cols, some (shares X T), sizes T⟩, ok ())
      else (⟨some d, m.clusterCount, m.classPrior, sizes T⟩, r) := by
  have hc' : ∀ t ∈ T.rows, classOf t ≠ none := fun t ht => by obtain ⟨c, e⟩ := hc t ht; rw [e]; simp
  unfold UserDistr.train
  simp only
  rw [nbScan_ok T.rows 0 T.cols _ _ (by simp) hT hc', classData_eq, foldl_modify_replicate]
  have hcnt : (fun j => (classesOf T.rows).count j) = fun c => classSize T.rows c := by
    funext c; exact count_classesOf _ _
  rw [hcnt]
  simp only
  have hpri : ((List.range T.cols).map fun c => classSize T.rows c).map (fun c => (Scalar.ofNat c : ℝ) /. Scalar.ofNat X.rows.length) = shares X T := by
    rw [List.map_map]; rfl
  rw [hpri, List.range_eq_range', user_fit_calls B X T hc' hn, ← List.range_eq_range']
  unfold updateCalls at h
  rw [h]
  cases r with
  | ok u => cases u; rw [if_pos rfl]; rfl
  | _ => rfl

/-- A target row that names no class is reported before the distribution sees any sample. -/
theorem C129_bad_target (B : UserDistr D ℝ) (m : NaiveBayes D ℝ) (X T : Mat ℝ) (hT : T.WF) (h : ∃ t ∈ T.rows, classOf t = none) :
    (B.train m X T).2 = err .InvalidState ∧ (B.train m X T).1.distr = some (B.fromParams T.cols X.cols) ∧
      (B.train m X T).1.classPrior = m.classPrior ∧ (B.train m X T).1.clusterCount = m.clusterCount := by
  obtain ⟨counts', hs⟩ := nbScan_err T.rows 0 T.cols (List.replicate T.cols 0) (List.replicate T.cols []) (by simp) hT h
  unfold UserDistr.train
  simp only
  rw [hs]
  exact ⟨rfl, rfl, rfl, rfl⟩

/-! ### Prediction -/

/-- The distribution without its `update_params`, which predictions do not use. -/
def UserDistr.still (B : UserDistr D F) : NBDistr D F := ⟨B.fromParams, fun d _ _ => ok d, B.jointLogLik⟩

theorem user_predict_eq (B : UserDistr D F) (m : NaiveBayes D F) (Y : Mat F) : B.predict m Y = nbPredict B.still m Y := by
  have e : B.logProbs m Y = nbLogProbs B.still m Y := by
    unfold UserDistr.logProbs nbLogProbs
    cases m.distr <;> cases m.classPrior <;> rfl
  unfold UserDistr.predict nbPredict
  rw [e]
  cases m.clusterCount <;> rfl

/-- Predictions of a trained model are one-hot rows that mark the first class of largest joint log likelihood, if the
distribution gives one row for each input and one number for each class. -/
theorem C129_predict (B : UserDistr D ℝ) (m : NaiveBayes D ℝ) (d : D) (p : List ℝ) (k : ℕ) (hk : 0 < k) (hd : m.distr = some d)
    (hp : m.classPrior = some p) (hm : m.clusterCount = some k) (Y L : Mat ℝ) (hL : B.jointLogLik d Y p = ok L)
    (hr : L.rows.length = Y.rows.length) (hc : L.cols = k) (hw : L.WF) :
    ∃ P, B.predict m Y = ok P ∧ P.cols = k ∧ List.Forall₂ (fun lik row => ∃ i, IsFirstMax lik i ∧ IsOneHot k i row) L.rows P.rows := by
  rw [user_predict_eq]
  exact nbPredict_real B.still m Y L hk hm (by unfold nbLogProbs; rw [hd, hp]; exact hL) ⟨hc, hr, hw⟩

/-- So a distribution whose numbers are the logarithms of prior times likelihood gets the class of largest posterior
probability: no class has a larger product. -/
theorem C129_posterior (B : UserDistr D ℝ) (m : NaiveBayes D ℝ) (d : D) (p : List ℝ) (k : ℕ) (hk : 0 < k) (hd : m.distr = some d)
    (hp : m.classPrior = some p) (hm : m.clusterCount = some k) (Y : Mat ℝ) (f : List ℝ → ℕ → ℝ) (hf : ∀ x c, 0 < f x c)
    (hpos : ∀ c < k, 0 < p.getD c 0)
    (hL : B.jointLogLik d Y p = ok ⟨k, Y.rows.map fun x => (List.range k).map fun c => Real.log (p.getD c 0 * f x c)⟩) :
    ∃ P, B.predict m Y = ok P ∧ List.Forall₂ (fun x row => ∃ i, IsOneHot k i row ∧ ∀ c < k, p.getD c 0 * f x c ≤ p.getD i 0 * f x i) Y.rows P.rows := by
  obtain ⟨P, hP, -, h⟩ := C129_predict B m d p k hk hd hp hm Y _ hL (by simp) rfl (by
    intro r hr
    simp only [List.mem_map] at hr
    obtain ⟨x, -, rfl⟩ := hr
    simp)
  refine ⟨P, hP, ?_⟩
  rw [List.forall₂_map_left_iff] at h
  refine h.imp ?_
  rintro x row ⟨i, ⟨v, h1, h2, -⟩, h3⟩
  refine ⟨i, h3, ?_⟩
  intro c hc
  have hi := h3.2.1
  have hv : Real.log (p.getD i 0 * f x i) = v := by
    simpa [hi] using h1
  have := h2 (Real.log (p.getD c 0 * f x c)) (List.mem_map.mpr ⟨c, List.mem_range.mpr hc, rfl⟩)
  rw [← hv] at this
  exact (Real.log_le_log_iff (mul_pos (hpos c hc) (hf x c)) (mul_pos (hpos i hi) (hf x i))).mp this

/-- A distribution that does not give one row for each input never gets a prediction out: with at least one class, `predict`
does not return. -/
theorem C129_rows_checked (B : UserDistr D F) (m : NaiveBayes D F) (d : D) (p : List F) (k : ℕ) (hk : 0 < k) (hd : m.distr = some d)
    (hp : m.classPrior = some p) (hm : m.clusterCount = some k) (Y L P : Mat F) (hL : B.jointLogLik d Y p = ok L)
    (hr : L.rows.length ≠ Y.rows.length) : B.predict m Y ≠ ok P := by
  intro h
  unfold UserDistr.predict UserDistr.logProbs at h
  rw [hd, hp] at h
  simp only [hL, ok_bind, hm] at h
  obtain ⟨cls, hcls, h⟩ := bind_eq_ok.mp h
  obtain ⟨rows, hrows, h⟩ := bind_eq_ok.mp h
  have h1 := mapM_length hcls
  have h3 : ∀ (cls : List ℕ) (rows : List (List F)), (cls.mapM fun c => setAt (List.replicate k (Scalar.zero : F)) c Scalar.one) = ok rows →
      rows.flatten.length = cls.length * k := by
    intro cls
    induction cls with
    | nil => intro rows h; cases h; simp
    | cons c cs ih =>
      intro rows h
      rw [List.mapM_cons] at h
      obtain ⟨b, hb, h⟩ := bind_eq_ok.mp h
      obtain ⟨bs, hbs, h⟩ := bind_eq_ok.mp h
      cases h
      have hbl : b.length = k := by
        unfold setAt at hb
        split at hb
        · cases hb; simp
        · cases hb
      rw [List.flatten_cons, List.length_append, hbl, ih bs hbs, List.length_cons, Nat.succ_mul, Nat.add_comm]
  have h4 := h3 _ _ hrows
  unfold Mat.new at h
  split at h
  · rename_i he
    rw [h4, h1] at he
    exact hr (Nat.eq_of_mul_eq_mul_right hk he)
  · cases h

/-! ### A distribution of the user's own -/

/-- It remembers the classes and numbers of samples it was updated with, and refuses classes of one sample. -/
def tally : UserDistr (List (ℕ × ℕ)) ℝ where
  fromParams := fun _ _ => []
  update := fun d M c => if M.rows.length = 1 then (d ++ [(c, 0)], err .InvalidData) else (d ++ [(c, M.rows.length)], ok ())
  jointLogLik := fun _ Y p => ok ⟨p.length, Y.rows.map fun _ => p⟩

theorem classOf_first (l : List ℝ) : classOf (1 :: l) = some 0 := by simp [classOf, List.findIdx?_cons]
theorem classOf_third : classOf [0, 0, 1] = some 2 := by simp [classOf, List.findIdx?_cons]

/-- Three samples of class 0 and two of class 2, out of three classes: two calls. -/
example (m : NaiveBayes (List (ℕ × ℕ)) ℝ) :
    tally.train m ⟨1, [[1], [2], [3], [4], [5]]⟩ ⟨3, [[1, 0, 0], [0, 0, 1], [1, 0, 0], [0, 0, 1], [1, 0, 0]]⟩ =
      (⟨some [(0, 3), (2, 2)], some 3, some [3 / 5, 0 / 5, 2 / 5], [3, 0, 2]⟩, ok ()) := by
  have h := C129_train tally m ⟨1, [[1], [2], [3], [4], [5]]⟩ ⟨3, [[1, 0, 0], [0, 0, 1], [1, 0, 0], [0, 0, 1], [1, 0, 0]]⟩
    (by intro r hr; fin_cases hr <;> rfl) rfl (by
      intro t ht
      fin_cases ht
      · exact ⟨0, classOf_first _⟩
      · exact ⟨2, classOf_third⟩
      · exact ⟨0, classOf_first _⟩
      · exact ⟨2, classOf_third⟩
      · exact ⟨0, classOf_first _⟩) [(0, 3), (2, 2)] (ok ()) (by
      simp [updateCalls, makeCalls, classSize, classSamples, List.range_succ, classOf_first, classOf_third, tally])
  rw [h, if_pos rfl]
  simp [shares, sizes, classSize, classOf_first, classOf_third, List.range_succ]

/-- A class of one sample: the call fails, and the distribution keeps what the failing call did to it. -/
example (m : NaiveBayes (List (ℕ × ℕ)) ℝ) :
    tally.train m ⟨1, [[1], [2]]⟩ ⟨3, [[1, 0, 0], [0, 0, 1]]⟩ = (⟨some [(0, 0)], m.clusterCount, m.classPrior, [1, 0, 1]⟩, err .InvalidData) := by
  have h := C129_train tally m ⟨1, [[1], [2]]⟩ ⟨3, [[1, 0, 0], [0, 0, 1]]⟩ (by intro r hr; fin_cases hr <;> rfl) rfl (by
      intro t ht
      fin_cases ht
      · exact ⟨0, classOf_first _⟩
      · exact ⟨2, classOf_third⟩) [(0, 0)] (err .InvalidData) (by
      simp [updateCalls, makeCalls, classSize, classSamples, List.range_succ, classOf_first, classOf_third, tally])
  rw [h, if_neg (fun h => nomatch h)]
  simp [sizes, classSize, classOf_first, classOf_third, List.range_succ]

end RM
