import Mathlib.Data.Rat.Floor
import Mathlib.Algebra.Order.Field.Power

/-!
# The restart delay

Models dependency/engine.go:413-430 (inside `requestStart`) and `time.Duration.Round`.

Simplification: Go's float64 is modelled by exact rational numbers, so floating point rounding errors (relative
error 2^-53 per operation) are not modelled. `time.Duration` is an int64 of nanoseconds, modelled by `Int`;
the conversion of a float64 outside the int64 range is implementation-defined in Go and is a parameter
(`conv`).
-/

namespace Verif.Delay

/-- The part of EngineConfig that matters here (dependency/engine.go:53-79). -/
structure Config where
  /-- EngineConfig.BackoffFactor -/
  backoffFactor : ℚ := 0
  /-- EngineConfig.MaxDelay, in nanoseconds -/
  maxDelay : Int := 0
  /-- float64 → int64 conversion outside the int64 range -/
  conv : ℚ → Int := fun _ => -2 ^ 63

/-- float64 → int64 truncates towards zero. -/
def trunc (q : ℚ) : Int := if 0 ≤ q then q.floor else q.ceil

/-- `time.Duration(f)` for a float64 `f`. -/
def toDuration (conv : ℚ → Int) (q : ℚ) : Int :=
  if -2 ^ 63 - 1 < q ∧ q < 2 ^ 63 then trunc q else conv q

/-- time.Millisecond -/
def ms : Int := 1000000
/-- Largest time.Duration. -/
def maxDuration : Int := 2 ^ 63 - 1
/-- Smallest time.Duration. -/
def minDuration : Int := -2 ^ 63

/-- `d.Round(time.Millisecond)` (Go standard library, time/time.go): to the nearest multiple, halfway values
away from zero, saturating at the ends of the int64 range. -/
def roundMs (d : Int) : Int :=
  if d < 0 then
    let r := (-d) % ms
    if r + r < ms then d + r
    else if minDuration ≤ d - ms + r then d - ms + r else minDuration
  else
    let r := d % ms
    if r + r < ms then d - r
    else if d + ms - r ≤ maxDuration then d + ms - r else maxDuration

/-- dependency/engine.go:416-426: the delay before fuzzing. `recent` is `info.recentErrors`. -/
def preFuzz (c : Config) (delay : Int) (recent : Nat) : Int :=
  if c.backoffFactor > 0 then
    let floatDelay := (delay : ℚ) * c.backoffFactor ^ ((recent : ℤ) - 1)
    if c.maxDelay > 0 ∧ floatDelay > (c.maxDelay : ℚ) then c.maxDelay
    else toDuration c.conv floatDelay
  else delay

/-- dependency/engine.go:415-430: the delay actually used. `fuzz` is the result of `rand.Float64()`. -/
def effDelay (c : Config) (delay : Int) (recent : Nat) (fuzz : ℚ) : Int :=
  if delay > 0 then
    roundMs (toDuration c.conv ((preFuzz c delay recent : ℚ) * (fuzz * (2/10) + 9/10)))
  else delay

end Verif.Delay
