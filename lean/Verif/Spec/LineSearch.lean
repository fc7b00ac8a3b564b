import Mathlib.Data.Real.Basic

/-! Specification vocabulary for conjugate gradient descent. -/

namespace RM.Spec

/-- Scalar product of real lists. -/
def rdot (u v : List ℝ) : ℝ := (List.zipWith (fun x y => x * y) u v).sum

/-- The point `x + z s`. -/
def moveAlong (x s : List ℝ) (z : ℝ) : List ℝ := List.zipWith (fun a b => a + b) x (s.map fun t => t * z)

/-- The direction after a move: that of Polak and Ribière, from the direction `s` of the move, the gradient `g` before it and the gradient
`g'` after it; straight down if the cost rises along that direction. -/
noncomputable def nextDir (s g g' : List ℝ) : List ℝ :=
  let t := List.zipWith (fun a b => a - b) (s.map fun u => u * rdot (List.zipWith (fun a b => a - b) g' g) g' / rdot g g) g'
  if 0 < rdot g' t then g'.map fun u => -u else t

/-- `CGPath f df ρ σ k failed p s x z`: with `k` line searches left the present point `x` leads to the result `z`. The next search is
along `s`. `failed` tells whether the search before failed. `p` is the point whose gradient gives the slope along `s`: `x` itself, or,
after a failed search from `x`, the last point that search has tried.
An accepted move goes down, by at least the share `ρ` of what the slope promises, to a point where the slope along the direction has
become flatter by the factor `σ` (the strong Wolfe conditions). -/
inductive CGPath (f : List ℝ → ℝ) (df : List ℝ → List ℝ) (ρ σ : ℝ) : ℕ → Bool → List ℝ → List ℝ → List ℝ → List ℝ → Prop
  | done (b p s x) : CGPath f df ρ σ 0 b p s x x
  | accept {k b p x y z s w} (hy : y = moveAlong x s w) (hw : 0 ≤ w) (hd : rdot (df p) s < 0) (hf : f y ≤ f x + w * ρ * rdot (df p) s)
      (h1 : σ * rdot (df p) s < rdot (df y) s) (h2 : rdot (df y) s ≤ -(σ * rdot (df p) s))
      (rest : CGPath f df ρ σ k false y (nextDir s (df p) (df y)) y z) : CGPath f df ρ σ (k + 1) b p s x z
  | retry {k p q x z s w} (hq : q = moveAlong x s w) (hw : 0 ≤ w) (rest : CGPath f df ρ σ k true q ((df q).map fun u => -u) x z) :
      CGPath f df ρ σ (k + 1) false p s x z
  | giveUp (k p s x) : CGPath f df ρ σ (k + 1) true p s x x

end RM.Spec
