import Verif.Model.Fmincg

/-! Model of src/learning/optim/fmincg.rs for all values of `iters` and `max`: the casts to `i32` wrap around. -/

namespace RM
open Outcome Scalar
variable {F : Type} [Scalar F]

/-- The size of `i32::MIN`. -/
@[irreducible] def i32Half : ℕ := 2 ^ 31

/-- `n as i32` for an unsigned `n`: wraps around. -/
def asI32 (n : ℕ) : ℤ :=
  if n % (2 * i32Half) < i32Half then (n % (2 * i32Half) : ℕ) else (n % (2 * i32Half) : ℕ) - 2 * i32Half

/-- The line search, src/learning/optim/fmincg.rs lines 139-228, with the counter `m` an `i32`. The argument `k` is `m - i32::MIN`, so
`m > 0` is `k > i32Half`. Decrementing `i32::MIN` panics (debug builds; release builds wrap around). Returns the final state, `success` and
the final `k`. -/
def lineSearchWide (o : ConjugateGD F) (g : List F → Outcome (F × List F)) (f1 d1 : F) (s : List F) :
    (k : ℕ) → LineState F → Logged (List F) (LineState F × Bool × ℕ)
  | k, st =>
    if wolfeFails o f1 d1 st then
      if k ≤ i32Half then pure (st, false, k)
      else do
        let z2 := interpolate o f1 st
        let x ← Logged.lift (stepAlong st.x s z2)
        let r ← Logged.call x (g x)
        match k with
        | 0 => Logged.lift panic
        | k + 1 => lineSearchWide o g f1 d1 s k ⟨x, r.1, r.2, dot r.2 s, st.f3, st.d3, st.z1 +. z2, st.z3 -. z2, st.z1⟩
    else if o.sig *. d1 <. st.d2 then pure (st, true, k)
    else if k = i32Half then pure (st, false, k)
    else do
      let z2 := extrapolate o st
      let x ← Logged.lift (stepAlong st.x s z2)
      let r ← Logged.call x (g x)
      match k with
      | 0 => Logged.lift panic
      | k + 1 => lineSearchWide o g f1 d1 s k ⟨x, r.1, r.2, dot r.2 s, st.f2, st.d2, st.z1 +. z2, Scalar.neg z2, st.limit⟩

/-- The initial value of `m`, src/learning/optim/fmincg.rs lines 130-134. An overflow panics (debug builds). -/
def searchLimit (o : ConjugateGD F) (length : ℤ) (i : ℕ) : Outcome ℤ :=
  if 0 < length then ok (asI32 o.max)
  else if (i32Half : ℤ) ≤ -length - asI32 i then panic
  else ok (min (asI32 o.max) (-length - asI32 i))

/-- The main loop, src/learning/optim/fmincg.rs lines 109-269, for any `length` but 0 and `i32::MIN`. `i` counts line searches if `length`
is positive and evaluations if it is negative: in either case it has gone up by one when the search starts (lines 110-112, 122-124).
The fuel is not in the code: running out of it gives `none`. -/
def cgLoopWide (o : ConjugateGD F) (g : List F → Outcome (F × List F)) (length : ℤ) :
    (fuel : ℕ) → (i : ℕ) → CGState F → Logged (List F) (Option (List F))
  | 0, _, _ => pure none
  | fuel + 1, i, c =>
    if asI32 i < |length| then do
      let x ← Logged.lift (stepAlong c.x c.s c.z1)
      let r ← Logged.call x (g x)
      let m ← Logged.lift (searchLimit o length (i + 1))
      let k := (m + i32Half).toNat
      let res ← lineSearchWide o g c.f1 c.d1 c.s k
        ⟨x, r.1, r.2, dot r.2 c.s, c.f1, c.d1, c.z1, Scalar.neg c.z1, Scalar.neg Scalar.one⟩
      let i' := if length < 0 then i + 1 + (k - res.2.2) else i + 1
      if res.2.1 then do
        let c' ← Logged.lift (cgSuccess o c res.1)
        cgLoopWide o g length fuel i' c'
      else if c.lsFailed || |length| < asI32 i' then pure (some c.x)
      else cgLoopWide o g length fuel i' (cgRestart c res.1)
    else pure (some c.x)

/-- `ConjugateGD::optimize`, src/learning/optim/fmincg.rs lines 84-271, for all values of `iters` and `max`. `length.abs()` panics for
`i32::MIN` (debug builds). -/
def ConjugateGD.optimizeWide (fuel : ℕ) (o : ConjugateGD F) (g : List F → Outcome (F × List F)) (start : List F) :
    Logged (List F) (Option (List F)) := do
  let r ← Logged.call start (g start)
  let s := vecNeg r.2
  let d1 := Scalar.neg (dot s s)
  if asI32 o.iters = -(i32Half : ℤ) then Logged.lift panic
  else cgLoopWide o g (asI32 o.iters) fuel 0 ⟨start, r.1, r.2, s, d1, Scalar.one /. (Scalar.one -. d1), false⟩

end RM
