import Verif.Base.Linalg

/-! Model of src/stats/dist/exponential.rs, src/stats/dist/gaussian.rs and the constants of src/stats/dist/mod.rs. -/

namespace RM
open Outcome Scalar
variable {F : Type} [Scalar F]

/-- `Exponential`, src/stats/dist/exponential.rs lines 14-16; `new` (lines 32-34) stores any rate. -/
structure ExpDist (F : Type) where
  lambda : F

/-- `Exponential::pdf`, src/stats/dist/exponential.rs lines 57-60. -/
def ExpDist.pdf (d : ExpDist F) (x : F) : Outcome F := do
  assert (Scalar.zero <=. x)
  ok (Scalar.exp (Scalar.neg x *. d.lambda) *. d.lambda)

/-- `Exponential::logpdf`, src/stats/dist/exponential.rs lines 78-82. -/
def ExpDist.logpdf (d : ExpDist F) (x : F) : Outcome F := do
  assert (Scalar.zero <=. x)
  ok (Scalar.ln d.lambda -. x *. d.lambda)

/-- `Exponential::cdf`, src/stats/dist/exponential.rs lines 99-102. -/
def ExpDist.cdf (d : ExpDist F) (x : F) : Outcome F := do
  assert (Scalar.zero <=. x)
  ok (Scalar.one -. Scalar.exp (Scalar.neg x *. d.lambda))

/-- `Exponential::ind_sample`, src/stats/dist/exponential.rs lines 111-116; `n` is the draw of `Exp1`. -/
def ExpDist.sample (d : ExpDist F) (n : F) : F := n /. d.lambda

/-- `Gaussian`, src/stats/dist/gaussian.rs lines 22-27. -/
structure GaussDist (F : Type) where
  mean : F
  variance : F
  stdDev : F

/-- `Gaussian::new`, src/stats/dist/gaussian.rs lines 48-54. -/
def GaussDist.new (mean variance : F) : GaussDist F := ⟨mean, variance, Scalar.sqrt variance⟩

/-- `Gaussian::from_std_dev`, src/stats/dist/gaussian.rs lines 58-64. -/
def GaussDist.fromStdDev (mean stdDev : F) : GaussDist F := ⟨mean, stdDev *. stdDev, stdDev⟩

/-- `consts::SQRT_2_PI`, src/stats/dist/mod.rs line 13 (the decimal literal, before rounding to a float). -/
def sqrt2Pi : F := Scalar.ofRat 2.50662827463100050241576528481104525

/-- `consts::LN_2_PI`, src/stats/dist/mod.rs line 15 (the decimal literal, before rounding to a float). -/
def ln2Pi : F := Scalar.ofRat 1.83787706640934548356065947281123527

/-- `f64::signum`: 1 for +0 and positive numbers, -1 for -0 and negative numbers, NaN for NaN. -/
def signum (x : F) : F := if Scalar.isNaN x then x else if Scalar.signNeg x then Scalar.neg Scalar.one else Scalar.one

/-- `Gaussian::pdf`, src/stats/dist/gaussian.rs lines 88-91. -/
def GaussDist.pdf (d : GaussDist F) (x : F) : F :=
  Scalar.exp ((Scalar.neg (x -. d.mean) *. (x -. d.mean)) /. (Scalar.ofNat 2 *. d.variance)) /. (sqrt2Pi *. d.stdDev)

/-- `Gaussian::logpdf`, src/stats/dist/gaussian.rs lines 109-112. -/
def GaussDist.logpdf (d : GaussDist F) (x : F) : F :=
  (Scalar.neg (Scalar.ln d.stdDev) -. ln2Pi /. Scalar.ofNat 2) -. ((x -. d.mean) *. (x -. d.mean)) /. (Scalar.ofNat 2 *. d.variance)

/-- `Gaussian::cdf`, src/stats/dist/gaussian.rs lines 140-147; `FRAC_2_PI` is `2/π`. -/
def GaussDist.cdf [ScalarPi F] (d : GaussDist F) (x : F) : F :=
  Scalar.ofRat (1 / 2) *. (Scalar.one +. signum (x -. d.mean) *.
    Scalar.sqrt (Scalar.one -. Scalar.exp (((Scalar.neg (Scalar.ofNat 2 /. ScalarPi.pi) *. (x -. d.mean)) *. (x -. d.mean)) /. d.variance)))

/-- `Gaussian::ind_sample`, src/stats/dist/gaussian.rs lines 156-161; `n` is the draw of `StandardNormal`. -/
def GaussDist.sample (d : GaussDist F) (n : F) : F := d.mean +. d.stdDev *. n

end RM
