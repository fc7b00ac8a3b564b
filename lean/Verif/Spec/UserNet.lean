import Mathlib.Analysis.Calculus.Deriv.Basic
import Verif.Model.UserNet
import Verif.Spec.Calculus

/-! Specification vocabulary: what a layer and a criterion of the user's own owe the network. Derivatives are taken along
curves: a function whose value along every curve through a point is differentiable, with a derivative given by the same
vector, has that vector as its gradient. -/

namespace RM.Spec
open RM Outcome Scalar

/-- A curve of `r` by `c` matrices near time 0 whose entries have the derivatives `Z'` at time 0. -/
def MatCurve (Z : ℝ → Mat ℝ) (r c : ℕ) (Z' : ℕ → ℕ → ℝ) : Prop :=
  (∀ᶠ t in nhds 0, HasShape (Z t) r c) ∧ ∀ i < r, ∀ j < c, HasDerivAt (fun t => ent (Z t) i j) (Z' i j) 0

/-- A curve of lists of length `m` near time 0 whose entries have the derivatives `W'` at time 0. -/
def ListCurve (W : ℝ → List ℝ) (m : ℕ) (W' : ℕ → ℝ) : Prop :=
  (∀ᶠ t in nhds 0, (W t).length = m) ∧ ∀ k < m, HasDerivAt (fun t => (W t).getD k 0) (W' k) 0

/-- The sum over all entries of `A` times `Z'`. -/
noncomputable def pairing (r c : ℕ) (A Z' : ℕ → ℕ → ℝ) : ℝ := ∑ i ∈ Finset.range r, ∑ j ∈ Finset.range c, A i j * Z' i j

/-- What a layer owes the network at the input `Z₀` (`n` by `c`) and the parameters `P₀`: around there `forward` succeeds and
gives `n` by `d` matrices, is differentiable, and the two backward functions turn the gradient `G` in the layer's output into
the gradients in its input and in its parameters (row by row), which is to say: whatever the change of input and parameters,
`G` times the change of the output is the input gradient times the change of the input plus the parameter gradient times the
change of the parameters. -/
def LayerContract (l : UserLayer ℝ) (n c d : ℕ) (Z₀ P₀ : Mat ℝ) : Prop :=
  ∀ Z P Z' P', MatCurve Z n c Z' → MatCurve P l.paramShape.1 l.paramShape.2 P' → Z 0 = Z₀ → P 0 = P₀ →
    ∃ Y Y', (∀ᶠ t in nhds 0, l.forward (Z t) (P t) = ok (Y t)) ∧ MatCurve Y n d Y' ∧
      ∀ G, HasShape G n d → ∃ A B, l.backInput G Z₀ (Y 0) P₀ = ok A ∧ HasShape A n c ∧
        l.backParams G Z₀ (Y 0) P₀ = ok B ∧ B.data.length = l.paramShape.1 * l.paramShape.2 ∧
        pairing n d (ent G) Y' = pairing n c (ent A) Z' +
          pairing l.paramShape.1 l.paramShape.2 (fun i j => B.data.getD (i * l.paramShape.2 + j) 0) P'

/-- The parameters a layer of that shape gets when the weights from `start` on are its own: row by row. -/
def paramsAt (w : List ℝ) (start : ℕ) (shape : ℕ × ℕ) : Mat ℝ :=
  ⟨shape.2, (List.range shape.1).map fun i => (List.range shape.2).map fun j => w.getD (start + i * shape.2 + j) 0⟩

/-- The layers meet their contracts on their way through the network: `start` is the place of the first one's parameters in
the weights `w`, `Z` its input, `Y` the output of the last. The number of parameters a layer reports is that of its shape. -/
inductive NetContract (w : List ℝ) (n : ℕ) : List (UserLayer ℝ) → ℕ → ℕ → Mat ℝ → ℕ → Mat ℝ → Prop
  | nil {start c : ℕ} {Z : Mat ℝ} : HasShape Z n c → NetContract w n [] start c Z c Z
  | cons {l : UserLayer ℝ} {ls : List (UserLayer ℝ)} {start c m d : ℕ} {Z V Y : Mat ℝ} :
      l.numParams = l.paramShape.1 * l.paramShape.2 → HasShape Z n c →
      LayerContract l n c m Z (paramsAt w start l.paramShape) → l.forward Z (paramsAt w start l.paramShape) = ok V →
      NetContract w n ls (start + l.numParams) m V d Y → NetContract w n (l :: ls) start c Z d Y

/-- What a criterion owes the network at the output `Y₀` (`n` by `d`): around there `cost` succeeds and is differentiable and
`cost_grad` is `a` times its gradient. (The crate's criteria have `a = n`, see C42.) -/
def CriterionContract (C : UserCriterion ℝ) (a : ℝ) (n d : ℕ) (T Y₀ : Mat ℝ) : Prop :=
  ∀ Y Y', MatCurve Y n d Y' → Y 0 = Y₀ → ∃ v v' G, (∀ᶠ t in nhds 0, C.cost (Y t) T = ok (v t)) ∧ HasDerivAt v v' 0 ∧
    C.costGrad Y₀ T = ok G ∧ HasShape G n d ∧ a * v' = pairing n d (ent G) Y'

/-- What a criterion with a regularisation owes the network at the weights `w₀`: `reg_cost_grad` gives `b` times the gradient of
`reg_cost`, both of them as functions of the column of all weights. -/
def PenaltyContract (C : UserCriterion ℝ) (b : ℝ) (w₀ : List ℝ) : Prop :=
  ∀ W W', ListCurve W w₀.length W' → W 0 = w₀ → ∃ ρ ρ' R, (∀ᶠ t in nhds 0, C.regCost ⟨1, (W t).map fun x => [x]⟩ = ok (ρ t)) ∧
    HasDerivAt ρ ρ' 0 ∧ C.regGrad ⟨1, w₀.map fun x => [x]⟩ = ok R ∧ R.data.length = w₀.length ∧
    b * ρ' = ∑ k ∈ Finset.range w₀.length, R.data.getD k 0 * W' k

/-- The cost of the network's predictions as a function of the weights. -/
noncomputable def userCost (net : UserNet ℝ) (X T : Mat ℝ) (w : List ℝ) : Outcome ℝ := do
  let Y ← (⟨net.layers, w, net.criterion⟩ : UserNet ℝ).forwardProp X
  net.criterion.cost Y T

/-- The layer's parameters are as many as its shape says, whichever of its methods is asked. -/
def CountsAgree {F : Type} (l : UserLayer F) : Prop :=
  l.numParams = l.paramShape.1 * l.paramShape.2 ∧ ∀ r, (l.defaultParams r).length = l.numParams

/-- No method of the layer has undefined behaviour of its own (no safe code has). -/
def LayerSafe {F : Type} (l : UserLayer F) : Prop :=
  (∀ Z P, l.forward Z P ≠ ub) ∧ (∀ G Z Y P, l.backInput G Z Y P ≠ ub) ∧ ∀ G Z Y P, l.backParams G Z Y P ≠ ub

/-- No method of the criterion has undefined behaviour of its own. -/
def CriterionSafe {F : Type} (C : UserCriterion F) : Prop :=
  (∀ Y T, C.cost Y T ≠ ub) ∧ (∀ Y T, C.costGrad Y T ≠ ub) ∧ (∀ w, C.regCost w ≠ ub) ∧ ∀ w, C.regGrad w ≠ ub

end RM.Spec
