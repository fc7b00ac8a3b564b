import Verif.Model.CrossValidation

/-! Specification of k-fold cross validation. -/

namespace RM.Spec
open Outcome

/-- `folds` is a legal k-fold division of the samples `0..n-1`. -/
structure IsKFold (n k : ℕ) (folds : List Partition) : Prop where
  /-- there are `k` folds -/
  length : folds.length = k
  /-- every sample is tested exactly once over all folds -/
  tests : (folds.flatMap Partition.test).Perm (List.range n)
  /-- within a fold, training and test samples are complementary: each sample is in exactly one of them, once -/
  complementary : ∀ p ∈ folds, (p.train ++ p.test).Perm (List.range n)
  /-- the first `n mod k` folds test `⌊n/k⌋+1` samples, the others `⌊n/k⌋` -/
  sizes : ∀ i (h : i < folds.length), folds[i].test.length = n / k + if i < n % k then 1 else 0

/-- `rows` are the rows of `data` with the listed indices, in order. -/
def RowsAt {X : Type} (data : List X) (idx : List ℕ) (rows : List X) : Prop :=
  List.Forall₂ (fun i row => data[i]? = some row) idx rows

/-- What a cross validation over the given folds may do with a model in state `s`: per fold, train on the training rows,
predict the test rows, score against the test targets; stop at the first call that does not succeed and report it. -/
inductive Runs {σ X Y S : Type} (M : SupModel σ X Y) (inputs : List X) (targets : List Y)
    (score : List Y → List Y → Outcome S) : List Partition → σ → σ → Outcome (List S) → Prop
  | done (s : σ) : Runs M inputs targets score [] s s (ok [])
  | fold {p : Partition} {ps : List Partition} {s s' s'' : σ} {xs : List X} {ys : List Y} {tx : List X} {ty out : List Y}
      {c : S} {res : Outcome (List S)}
      (hx : RowsAt inputs p.train xs) (hy : RowsAt targets p.train ys)
      (htx : RowsAt inputs p.test tx) (hty : RowsAt targets p.test ty)
      (htrain : M.train s xs ys = (s', ok ()))
      (hpred : M.predict s' tx = ok out) (hscore : score out ty = ok c)
      (rest : Runs M inputs targets score ps s' s'' res) :
      Runs M inputs targets score (p :: ps) s s'' (do let cs ← res; pure (c :: cs))
  | trainStops {p : Partition} {ps : List Partition} {s s' : σ} {xs : List X} {ys : List Y} {bad : Outcome Unit}
      {res : Outcome (List S)}
      (hx : RowsAt inputs p.train xs) (hy : RowsAt targets p.train ys)
      (htrain : M.train s xs ys = (s', bad)) (hbad : bad ≠ ok ()) (hres : res = (do bad; ok [])) :
      Runs M inputs targets score (p :: ps) s s' res
  | testStops {p : Partition} {ps : List Partition} {s s' : σ} {xs : List X} {ys : List Y} {tx : List X} {ty : List Y}
      {bad : Outcome S} {res : Outcome (List S)}
      (hx : RowsAt inputs p.train xs) (hy : RowsAt targets p.train ys)
      (htx : RowsAt inputs p.test tx) (hty : RowsAt targets p.test ty)
      (htrain : M.train s xs ys = (s', ok ()))
      (hbad : (do let out ← M.predict s' tx; score out ty) = bad) (hne : ∀ c, bad ≠ ok c) (hres : res = (do let _ ← bad; ok [])) :
      Runs M inputs targets score (p :: ps) s s' res

end RM.Spec
