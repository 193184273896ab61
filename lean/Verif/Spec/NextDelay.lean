import Verif.Spec.History

/-!
# The delay with which a manifold is started next, by what has happened to it
-/

namespace Verif.Spec
open Verif.Engine

/-- An error that makes the engine start the manifold again after ErrorDelay: not one of those with a meaning of their own. -/
def ownFailure (f : Option Err) : Bool := match f with
  | none => false
  | some r => decide (.aborted ∉ r.tree ∧ .missing ∉ r.tree ∧ .bounce ∉ r.tree ∧ .uninstall ∉ r.tree)

/-- The base delay of the next attempt of a manifold: none if it was just installed; ErrorDelay if its latest attempt failed
and had not been told to stop; BounceDelay otherwise. -/
def baseH (errorDelay bounceDelay : Int) : List Ev → Name → Int
  | [], _ => bounceDelay
  | e :: h, n => match e with
    | .installed m _ => if n = m then 0 else baseH errorDelay bounceDelay h n
    | .ended m _ _ _ f told _ =>
      if n = m then (if told = false ∧ ownFailure f = true then errorDelay else bounceDelay)
      else baseH errorDelay bounceDelay h n
    | _ => baseH errorDelay bounceDelay h n

/-! ## With the times of the events -/

/-- When the worker of the open attempt was registered. -/
def startedT : List (Ev × Int) → Name → Option Int
  | [], _ => none
  | (e, t) :: h, n => match e with
    | .registered m _ _ _ => if n = m then some t else startedT h n
    | .ended m _ _ _ _ _ _ => if n = m then none else startedT h n
    | _ => startedT h n

/-- The number of consecutive failures of a manifold, by the times at which things happened: a clean exit makes it 0; a missing
dependency, an aborted start, or a failure of a worker at least `reset` after it was registered make it 1; any other failure
adds 1. -/
def recentT (reset : Int) : List (Ev × Int) → Name → Nat
  | [], _ => 0
  | (e, t) :: h, n => match e with
    | .installed m _ => if n = m then 0 else recentT reset h n
    | .uninstalled m => if n = m then 0 else recentT reset h n
    | .ended m _ _ raw _ _ _ => if n = m then
        (match raw with
          | none => 0
          | some r =>
            if .aborted ∈ r.tree ∨ .missing ∈ r.tree then 1
            else if ∃ t0 ∈ startedT h n, reset ≤ t - t0 then 1
            else recentT reset h n + 1)
        else recentT reset h n
    | _ => recentT reset h n

end Verif.Spec
