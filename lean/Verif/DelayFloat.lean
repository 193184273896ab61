import Verif.Delay

/-!
# The restart delay, in floating point

`Verif.Delay` models dependency/engine.go:413-430 with exact arithmetic. Here every operation on float64 values is followed by
a rounding, and results may be infinite, as in IEEE 754: `rd` rounds a real result to a float64, `pow` is `math.Pow`. A
float64 is a rational number, or `none` for +Inf. (NaN and -Inf do not come up: the delay is positive and the factor is not
negative.) What is assumed of `rd` and `pow` is only how far off they may be, see `Verif.Props.FloatOk`.
-/

namespace Verif.Delay

/-- The floating point unit and the math library. -/
structure Fpu where
  /-- a result, rounded; +Inf if it is too large -/
  rd : ℚ → Option ℚ
  /-- math.Pow -/
  pow : ℚ → ℤ → Option ℚ
  /-- float64 → int64 conversion outside the int64 range -/
  conv : Option ℚ → Int := fun _ => -2 ^ 63

namespace Fpu

/-- `a * b` -/
def mul (u : Fpu) : Option ℚ → Option ℚ → Option ℚ
  | some a, some b => u.rd (a * b)
  | _, _ => none

/-- `a + b` -/
def add (u : Fpu) : Option ℚ → Option ℚ → Option ℚ
  | some a, some b => u.rd (a + b)
  | _, _ => none

/-- `a > b` -/
def gt : Option ℚ → Option ℚ → Bool
  | some a, some b => decide (a > b)
  | none, some _ => true
  | _, none => false

/-- `time.Duration(f)` -/
def toDuration (u : Fpu) : Option ℚ → Int
  | some q => if -2 ^ 63 - 1 < q ∧ q < 2 ^ 63 then trunc q else u.conv (some q)
  | none => u.conv none

/-- dependency/engine.go:416-426: the delay before fuzzing. -/
def preFuzz (u : Fpu) (c : Config) (delay : Int) (recent : Nat) : Int :=
  if c.backoffFactor > 0 then
    let maxDelay := u.rd c.maxDelay
    let floatDelay := u.mul (u.rd delay) (u.pow c.backoffFactor ((recent : ℤ) - 1))
    if c.maxDelay > 0 ∧ gt floatDelay maxDelay = true then c.maxDelay else u.toDuration floatDelay
  else delay

/-- dependency/engine.go:428: `rand.Float64()*0.2 + 0.9`. The constants are rounded by the compiler. -/
def fuzz (u : Fpu) (r : ℚ) : Option ℚ := u.add (u.mul (some r) (u.rd (2/10))) (u.rd (9/10))

/-- dependency/engine.go:415-430: the delay actually used. `r` is the result of `rand.Float64()`. -/
def effDelay (u : Fpu) (c : Config) (delay : Int) (recent : Nat) (r : ℚ) : Int :=
  if delay > 0 then roundMs (u.toDuration (u.mul (u.rd (u.preFuzz c delay recent)) (u.fuzz r))) else delay

end Fpu

end Verif.Delay
