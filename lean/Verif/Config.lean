import Mathlib.Data.Rat.Defs
import Mathlib.Algebra.Order.Field.Rat

/-!
# Configuration checks

* dependency/engine.go:37-89 EngineConfig, 92-125 Validate
* runner.go:139-186 RunnerParams, 189-194 Validate, and the defaults of NewRunner (206-235)

Only what is checked is modelled: of a func or an interface, whether it is nil.
-/

namespace Verif.Config

/-- A float64, as far as comparison with 0 and 1 goes: a number, an infinity, or NaN. -/
inductive Float64
  | num (q : ℚ)
  | posInf
  | negInf
  | nan
deriving DecidableEq

/-- Go's `x != 0`. -/
def Float64.ne0 : Float64 → Bool
  | .num q => q ≠ 0
  | _ => true

/-- Go's `x < 1`; false for NaN. -/
def Float64.lt1 : Float64 → Bool
  | .num q => q < 1
  | .posInf => false
  | .negInf => true
  | .nan => false

/-- dependency/engine.go:37-89. `false` is nil; durations in nanoseconds. -/
structure EngineConfig where
  isFatal : Bool := true
  worstError : Bool := true
  errorDelay : Int := 0
  bounceDelay : Int := 0
  backoffFactor : Float64 := .num 0
  backoffResetTime : Int := 0
  maxDelay : Int := 0
  clock : Bool := true
  metrics : Bool := true
  logger : Bool := true

/-- The fields that Validate looks at. -/
inductive Field
  | isFatal | worstError | errorDelay | bounceDelay | backoffFactor | backoffResetTime | maxDelay | clock | metrics | logger
deriving DecidableEq, Repr

/-- dependency/engine.go:92-125 Validate: the field complained about. -/
def EngineConfig.validate (c : EngineConfig) : Option Field :=
  if !c.isFatal then some .isFatal
  else if !c.worstError then some .worstError
  else if c.errorDelay < 0 then some .errorDelay
  else if c.bounceDelay < 0 then some .bounceDelay
  else if c.backoffFactor.ne0 && c.backoffFactor.lt1 then some .backoffFactor
  else if c.backoffResetTime < 0 then some .backoffResetTime
  else if c.maxDelay < 0 then some .maxDelay
  else if !c.clock then some .clock
  else if !c.metrics then some .metrics
  else if !c.logger then some .logger
  else none

/-- runner.go:139-186. `none` is nil. -/
structure RunnerParams (E C L : Type) where
  name : String
  isFatal : Option (E → Bool) := none
  shouldRestart : Option (E → Bool) := none
  moreImportant : Option (E → E → Bool) := none
  restartDelay : Int := 0
  clock : Option C := none
  logger : Option L := none

/-- runner.go:189-194 Validate: true if it returns nil. -/
def RunnerParams.validate {E C L : Type} (p : RunnerParams E C L) : Bool := p.name ≠ ""

/-- runner.go:21 DefaultRestartDelay, 3 s. -/
def defaultRestartDelay : Int := 3 * 10 ^ 9

/-- What the runner works with (runner.go:212-235). -/
structure RunnerSetup (E C L : Type) where
  isFatal : E → Bool
  shouldRestart : E → Bool
  moreImportant : E → E → Bool
  restartDelay : Int
  clock : C
  logger : L

/-- runner.go:206-235 NewRunner, up to making the runner. -/
def newRunner {E C L : Type} (wallClock : C) (noop : L) (p : RunnerParams E C L) : Option (RunnerSetup E C L) :=
  if p.validate then
    some { isFatal := p.isFatal.getD (fun _ => true)
           shouldRestart := p.shouldRestart.getD (fun _ => true)
           moreImportant := p.moreImportant.getD (fun _ _ => true)
           restartDelay := if p.restartDelay = 0 then defaultRestartDelay else p.restartDelay
           clock := p.clock.getD wallClock
           logger := p.logger.getD noop }
  else none

end Verif.Config
