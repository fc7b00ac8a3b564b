import Verif.Model.NNet

/-! Specification vocabulary: feed-forward networks. -/

namespace RM.Spec
open RM
variable {F : Type}

/-- The layers, in order, can be applied to rows of width `c` and give rows of width `d`: a linear layer with `k` rows of
weights takes inputs of width `k` (or `k - 1`, when the first row holds the biases), an activation keeps the width. -/
inductive LinesUp : List (NetLayer F) → ℕ → ℕ → Prop
  | nil (c : ℕ) : LinesUp [] c c
  | linear {ls : List (NetLayer F)} {k o c d : ℕ} (bias : Bool) (h : (if bias then c + 1 else c) = k) (rest : LinesUp ls o d) :
      LinesUp (.linear k o bias :: ls) c d
  | activ {ls : List (NetLayer F)} {c d : ℕ} (A : Activ F) (rest : LinesUp ls c d) : LinesUp (.activ A :: ls) c d

/-- What the network does to one row, reading the weights of layer after layer, row by row, from one list: a linear layer
gives for its output `j` the sum over `k` of (input `k`, preceded by a 1 if there is a bias) times (weight `k, j`); an
activation layer applies its function to every entry. -/
def netRow [Scalar F] : List (NetLayer F) → List F → List F → List F
  | [], _, x => x
  | .linear k o bias :: ls, w, x =>
    netRow ls (w.drop (k * o)) ((List.range o).map fun j =>
      dot (if bias then Scalar.one :: x else x) ((List.range k).map fun i => w.getD (i * o + j) Scalar.zero))
  | .activ A :: ls, w, x => netRow ls w (x.map A.func)

/-- The number of weights of the network. -/
def totalParams (ls : List (NetLayer F)) : ℕ :=
  (ls.map fun l => match l with
    | .linear k o _ => k * o
    | .activ _ => 0).sum

end RM.Spec
