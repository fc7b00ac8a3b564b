import Verif.Model.Optim

/-! Model of src/learning/optim/fmincg.rs. -/

namespace RM
open Outcome Scalar
variable {F : Type} [Scalar F]

/-- `ConjugateGD`, src/learning/optim/fmincg.rs lines 41-58. The code casts `iters` and `max` to `i32`; the model takes
them as natural numbers, i.e. it covers values below 2^31 (larger values wrap in the casts: `Model/FmincgWide`). For these values `length >= 0`,
so the branches for negative `length` (lines 122-124, 133, 175-177, 223-225) are dead and left out. -/
structure ConjugateGD (F : Type) where
  rho : F
  sig : F
  int : F
  ext : F
  max : ℕ
  ratio : F
  iters : ℕ

/-- `ConjugateGD::default`, src/learning/optim/fmincg.rs lines 70-82. -/
def ConjugateGD.default : ConjugateGD F :=
  ⟨Scalar.ofRat (1 / 100), Scalar.ofRat (1 / 2), Scalar.ofRat (1 / 10), Scalar.ofRat 3, 20, Scalar.ofRat 100, 100⟩

/-- The variables of the line search that change, src/learning/optim/fmincg.rs lines 115-137: `x`, `f2`, `df2`, `d2`, `f3`,
`d3`, `z1`, `z3`, `limit`. -/
structure LineState (F : Type) where
  x : List F
  f2 : F
  df2 : List F
  d2 : F
  f3 : F
  d3 : F
  z1 : F
  z3 : F
  limit : F

/-- `x += &s * z`, used in lines 115, 167 and 216: panics on different lengths. -/
def stepAlong (x s : List F) (z : F) : Outcome (List F) := vecZip Scalar.add x (vecScale s z)

/-- The condition on line 142 and line 183: the point is too high or too steep. -/
def wolfeFails (o : ConjugateGD F) (f1 d1 : F) (st : LineState F) : Bool :=
  (f1 +. st.z1 *. o.rho *. d1 <. st.f2) || (Scalar.neg o.sig *. d1 <. st.d2)

/-- `a` on lines 149 and 192. -/
def cubicA (st : LineState F) : F :=
  (Scalar.ofNat 6 *. (st.f2 -. st.f3)) /. st.z3 +. Scalar.ofNat 3 *. (st.d2 +. st.d3)

/-- `b` on lines 150 and 193. -/
def cubicB (st : LineState F) : F :=
  Scalar.ofNat 3 *. (st.f3 -. st.f2) -. st.z3 *. (Scalar.ofNat 2 *. st.d2 +. st.d3)

/-- `b * b - a * d2 * z3 * z3`, lines 151 and 194. -/
def cubicDisc (st : LineState F) : F :=
  cubicB st *. cubicB st -. cubicA st *. st.d2 *. st.z3 *. st.z3

/-- The interpolation step, src/learning/optim/fmincg.rs lines 146-164: the value of `z2`. -/
def interpolate (o : ConjugateGD F) (f1 : F) (st : LineState F) : F :=
  let z2 := if f1 <. st.f2 then
      st.z3 -. (Scalar.ofRat (1 / 2) *. st.d3 *. st.z3 *. st.z3) /. (st.d3 *. st.z3 +. st.f2 -. st.f3)
    else (Scalar.sqrt (cubicDisc st) -. cubicB st) /. cubicA st
  let z2 := if !Scalar.isFinite z2 then st.z3 /. Scalar.ofNat 2 else z2
  if z2 <=. o.int *. st.z3 then
    if z2 <=. (Scalar.one -. o.int) *. st.z3 then (Scalar.one -. o.int) *. st.z3 else z2
  else if o.int *. st.z3 <=. (Scalar.one -. o.int) *. st.z3 then (Scalar.one -. o.int) *. st.z3
  else o.int *. st.z3

/-- The extrapolation step, src/learning/optim/fmincg.rs lines 192-210: the value of `z2`. -/
def extrapolate (o : ConjugateGD F) (st : LineState F) : F :=
  let z2 := (Scalar.neg st.d2 *. st.z3 *. st.z3) /. (cubicB st +. Scalar.sqrt (cubicDisc st))
  if !Scalar.isFinite z2 || z2 <. Scalar.zero then
    if st.limit <. Scalar.ofRat (-1 / 2) then st.z1 *. (o.ext -. Scalar.one)
    else (st.limit -. st.z1) /. Scalar.ofNat 2
  else if Scalar.ofRat (-1 / 2) <. st.limit && st.limit <. z2 +. st.z1 then (st.limit -. st.z1) /. Scalar.ofNat 2
  else if st.limit <. Scalar.ofRat (-1 / 2) && st.z1 *. o.ext <. z2 +. st.z1 then st.z1 *. (o.ext -. Scalar.one)
  else if z2 <. Scalar.neg st.z3 *. o.int then Scalar.neg st.z3 *. o.int
  else if Scalar.ofRat (-1 / 2) <. st.limit && z2 <. (st.limit -. st.z1) *. (Scalar.one -. o.int) then
    (st.limit -. st.z1) *. (Scalar.one -. o.int)
  else z2

/-- The line search, src/learning/optim/fmincg.rs lines 139-228. The two nested loops are flattened: every turn of either
loop decrements `m` (lines 173 and 222), and after a turn of either loop the next test is the one of line 142. Returns the
final state and `success`. `g` is `compute_grad` on the fixed data. -/
def lineSearch (o : ConjugateGD F) (g : List F → Outcome (F × List F)) (f1 d1 : F) (s : List F) :
    (m : ℕ) → LineState F → Logged (List F) (LineState F × Bool)
  | m, st =>
    if wolfeFails o f1 d1 st then
      match m with
      | 0 => pure (st, false)
      | m + 1 => do
        let z2 := interpolate o f1 st
        let x ← Logged.lift (stepAlong st.x s z2)
        let r ← Logged.call x (g x)
        lineSearch o g f1 d1 s m ⟨x, r.1, r.2, dot r.2 s, st.f3, st.d3, st.z1 +. z2, st.z3 -. z2, st.z1⟩
    else if o.sig *. d1 <. st.d2 then pure (st, true)
    else
      match m with
      | 0 => pure (st, false)
      | m + 1 => do
        let z2 := extrapolate o st
        let x ← Logged.lift (stepAlong st.x s z2)
        let r ← Logged.call x (g x)
        lineSearch o g f1 d1 s m ⟨x, r.1, r.2, dot r.2 s, st.f2, st.d2, st.z1 +. z2, Scalar.neg z2, st.limit⟩

/-- The loop-carried variables of `optimize`, src/learning/optim/fmincg.rs lines 91-107. -/
structure CGState (F : Type) where
  x : List F
  f1 : F
  df1 : List F
  s : List F
  d1 : F
  z1 : F
  lsFailed : Bool

/-- `-v`. -/
def vecNeg (v : List F) : List F := v.map Scalar.neg

/-- The update after a successful line search, src/learning/optim/fmincg.rs lines 231-251. -/
def cgSuccess (o : ConjugateGD F) (c : CGState F) (st : LineState F) : Outcome (CGState F) := do
  let diff ← vecZip Scalar.sub st.df2 c.df1
  let scaled := (vecScale c.s (dot diff st.df2)).map fun x => x /. dot c.df1 c.df1
  let s ← vecZip Scalar.sub scaled st.df2
  let df1 := st.df2
  let d2 := dot df1 s
  let s' := if Scalar.zero <. d2 then vecNeg df1 else s
  let d2' := if Scalar.zero <. d2 then Scalar.neg (dot (vecNeg df1) (vecNeg df1)) else d2
  let ratio := c.d1 /. (d2' -. Scalar.ofRat (1 / 2 ^ 1022))
  let z1 := if o.ratio <. ratio then st.z1 *. o.ratio else st.z1 *. ratio
  ok ⟨st.x, st.f2, df1, s', d2', z1, false⟩

/-- The state after the first failed line search, src/learning/optim/fmincg.rs lines 253-266. -/
def cgRestart (c : CGState F) (st : LineState F) : CGState F :=
  let s := vecNeg st.df2
  let d1 := Scalar.neg (dot s s)
  ⟨c.x, c.f1, st.df2, s, d1, Scalar.one /. (Scalar.one -. d1), true⟩

/-- The main loop, src/learning/optim/fmincg.rs lines 109-269 (`i > length.abs()` on line 256 is never true). -/
def cgLoop (o : ConjugateGD F) (g : List F → Outcome (F × List F)) : (n : ℕ) → CGState F → Logged (List F) (List F)
  | 0, c => pure c.x
  | n + 1, c => do
    let x ← Logged.lift (stepAlong c.x c.s c.z1)
    let r ← Logged.call x (g x)
    let res ← lineSearch o g c.f1 c.d1 c.s o.max
      ⟨x, r.1, r.2, dot r.2 c.s, c.f1, c.d1, c.z1, Scalar.neg c.z1, Scalar.neg Scalar.one⟩
    if res.2 then do
      let c' ← Logged.lift (cgSuccess o c res.1)
      cgLoop o g n c'
    else if c.lsFailed then pure c.x
    else cgLoop o g n (cgRestart c res.1)

/-- `ConjugateGD::optimize`, src/learning/optim/fmincg.rs lines 84-271. -/
def ConjugateGD.optimize (o : ConjugateGD F) (g : List F → Outcome (F × List F)) (start : List F) :
    Logged (List F) (List F) := do
  let r ← Logged.call start (g start)
  let s := vecNeg r.2
  let d1 := Scalar.neg (dot s s)
  cgLoop o g o.iters ⟨start, r.1, r.2, s, d1, Scalar.one /. (Scalar.one -. d1), false⟩

end RM
