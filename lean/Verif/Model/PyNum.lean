import Verif.Model.Float

/-!
# Python's numbers: ints, Fractions and floats

Floats are IEEE 754 doubles with an unbounded range of exponents (53 significant bits, round to nearest, ties to even): there is no
overflow (infinities, NaN) and no underflow (subnormal numbers).
-/

namespace Abc

/-- `2 ^ e` for an integer `e`. -/
def pow2 : ℤ → ℚ
  | .ofNat n => ((2 ^ n : ℕ) : ℚ)
  | .negSucc n => 1 / ((2 ^ (n + 1) : ℕ) : ℚ)

/-- The exponent `e` with `2 ^ e ≤ |q| < 2 ^ (e + 1)` for `q ≠ 0`. -/
def expo (q : ℚ) : ℤ :=
  let e : ℤ := (Nat.log2 q.num.natAbs : ℤ) - (Nat.log2 q.den : ℤ)
  if pow2 e ≤ |q| then e else e - 1

/-- The nearest integer; of two nearest integers the even one. -/
def roundEven (x : ℚ) : ℤ :=
  let f := ⌊x⌋
  if x - f < 1 / 2 then f
  else if 1 / 2 < x - f then f + 1
  else if f % 2 = 0 then f else f + 1

/-- The nearest number with 53 significant bits. -/
def rnd (q : ℚ) : ℚ :=
  if q = 0 then 0 else roundEven (q / pow2 (expo q - 52)) * pow2 (expo q - 52)

/-- A Python number. -/
inductive PyNum
  /-- an `int` -/
  | int (z : ℤ)
  /-- a `Fraction` -/
  | frac (q : ℚ)
  /-- the `float` nearest to `q` -/
  | float (q : ℚ)
deriving DecidableEq

namespace PyNum

/-- The value of a number. -/
def val : PyNum → ℚ
  | int z => z
  | frac q => q
  | float q => rnd q

/-- The value of `float(x)`. -/
def toFloat : PyNum → ℚ
  | int z => rnd z
  | frac q => rnd q
  | float q => rnd q

/-- `x + y`, `x - y`, `x * y`: exact for ints and Fractions; if one of the operands is a float, the other one is converted first. -/
def arith (op : ℚ → ℚ → ℚ) (opInt : ℤ → ℤ → ℤ) : PyNum → PyNum → PyNum
  | int a, int b => int (opInt a b)
  | int a, frac b => frac (op a b)
  | frac a, int b => frac (op a b)
  | frac a, frac b => frac (op a b)
  | x, y => float (op x.toFloat y.toFloat)

/-- `x / y`: a correctly rounded float for two ints, exact if Fractions are involved, otherwise float division. -/
def div : PyNum → PyNum → PyNum
  | int a, int b => float (a / b)
  | int a, frac b => frac (a / b)
  | frac a, int b => frac (a / b)
  | frac a, frac b => frac (a / b)
  | x, y => float (x.toFloat / y.toFloat)

/-- `-x`. -/
def neg : PyNum → PyNum
  | int a => int (-a)
  | frac a => frac (-a)
  | float a => float (-(rnd a))

/-- The literal `1e-12` (misc.py:10, 17). -/
def tol : ℚ := rnd (1 / 10 ^ 12)

/-- `math.isclose(x, y, rel_tol=1e-12, abs_tol=1e-12)` (misc.py:426-439; CPython, mathmodule.c: `math_isclose_impl`). -/
def isclose (x y : PyNum) : Bool :=
  let a := x.toFloat
  let b := y.toFloat
  let diff := |rnd (b - a)|
  decide (a = b) || decide (diff ≤ |rnd (tol * b)|) || decide (diff ≤ |rnd (tol * a)|) || decide (diff ≤ tol)

/-- `Fraction(n, x)`. -/
def fraction (n : ℕ) : PyNum → Except Err PyNum
  | int b => if b = 0 then .error .zeroDivisionError else .ok (frac (n / b))
  | frac b => if b = 0 then .error .zeroDivisionError else .ok (frac (n / b))
  | float _ => .error .typeError

/-- The built-in `sum` up to Python 3.11: a running total that starts with the int 0.  (Since Python 3.12 `sum` adds floats with a
compensation of the rounding errors.) -/
def runningSum (l : List PyNum) : PyNum := l.foldl (arith (· + ·) (· + ·)) (int 0)

end PyNum

/-- Python's arithmetic; `weight` tells how the weights of voters are stored (int, Fraction or float), `sum` is the built-in
function. -/
def pyArith (weight : ℚ → PyNum) (sum : List PyNum → PyNum) : Arith PyNum where
  val := PyNum.val
  int := PyNum.int
  weight := weight
  add := PyNum.arith (· + ·) (· + ·)
  sub := PyNum.arith (· - ·) (· - ·)
  mul := PyNum.arith (· * ·) (· * ·)
  div := PyNum.div
  neg := PyNum.neg
  sum := sum
  isclose := PyNum.isclose
  fraction := PyNum.fraction

end Abc
