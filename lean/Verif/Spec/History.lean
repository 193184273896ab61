import Verif.Engine.Model
import Verif.Spec.AtEvery

/-!
# Specification: what an engine's history says

Functions of the history of observable events (newest first). They use no part of the engine model except the
types of events.
-/

namespace Verif.Spec
open Verif.Engine

/-- The manifold installed under a name. -/
def manH : List Ev → Name → Option Manifold
  | [], _ => none
  | e :: h, n => match e with
    | .installed m x => if n = m then some x else manH h n
    | .uninstalled m => if n = m then none else manH h n
    | _ => manH h n

/-- The attempt of a manifold that has begun and not ended. -/
def openH : List Ev → Name → Option Nat
  | [], _ => none
  | e :: h, n => match e with
    | .begin m g _ _ _ => if n = m then some g else openH h n
    | .ended m _ _ _ _ _ _ => if n = m then none else openH h n
    | _ => openH h n

/-- The number and the inputs given to the latest attempt of a manifold. -/
def lastBegin : List Ev → Name → Option (Nat × Snapshot)
  | [], _ => none
  | e :: h, n => match e with
    | .begin m g _ _ sn => if n = m then some (g, sn) else lastBegin h n
    | _ => lastBegin h n

/-- The worker the engine has for a manifold: registered and not lost. -/
def workerH : List Ev → Name → Option WRef
  | [], _ => none
  | e :: h, n => match e with
    | .registered m _ w _ => if n = m then some w else workerH h n
    | .ended m _ _ _ _ _ _ => if n = m then none else workerH h n
    | _ => workerH h n

/-- How far the open attempt of a manifold has come. -/
inductive Phase
  /-- no open attempt -/
  | idle
  /-- the Start func has not been called -/
  | delayed
  /-- inside the Start func -/
  | inStart
  /-- the Start func returned a worker -/
  | ok (w : WRef)
  /-- the Start func returned an error -/
  | failed (e : Err)
deriving DecidableEq, Repr

/-- How far the open attempt of a manifold has come. -/
def phaseH : List Ev → Name → Phase
  | [], _ => .idle
  | e :: h, n => match e with
    | .begin m _ _ _ _ => if n = m then .delayed else phaseH h n
    | .startCall m _ _ => if n = m then .inStart else phaseH h n
    | .startOk m _ w => if n = m then .ok w else phaseH h n
    | .startErr m _ e => if n = m then .failed e else phaseH h n
    | .ended m _ _ _ _ _ _ => if n = m then .idle else phaseH h n
    | _ => phaseH h n

/-- Whether the worker produced by a manifold's Start func has been Kill()ed since. -/
def killedH : List Ev → Name → Bool
  | [], _ => false
  | e :: h, n => match e with
    | .startOk m _ _ => if n = m then false else killedH h n
    | .killW w => if phaseH h n = .ok w then true else killedH h n
    | _ => killedH h n

/-- The workers registered for a manifold since it was installed. -/
def countH : List Ev → Name → Nat
  | [], _ => 0
  | e :: h, n => match e with
    | .installed m _ => if n = m then 0 else countH h n
    | .uninstalled m => if n = m then 0 else countH h n
    | .registered m _ _ _ => if n = m then countH h n + 1 else countH h n
    | _ => countH h n

/-- The error with which the latest attempt ended; nil while an attempt is open. -/
def errH : List Ev → Name → Option Err
  | [], _ => none
  | e :: h, n => match e with
    | .installed m _ => if n = m then none else errH h n
    | .uninstalled m => if n = m then none else errH h n
    | .begin m _ _ _ _ => if n = m then none else errH h n
    | .ended m _ _ _ f _ _ => if n = m then f else errH h n
    | _ => errH h n

/-- When the open attempt's worker was registered; 0 if it was not. -/
def startedH : List Ev → Name → Int
  | [], _ => 0
  | e :: h, n => match e with
    | .registered m _ _ t => if n = m then t else startedH h n
    | .ended m _ _ _ _ _ _ => if n = m then 0 else startedH h n
    | _ => startedH h n

/-- The number of consecutive failures of a manifold: a clean exit resets it to 0; a missing dependency, an
aborted start, or a failure of a worker that had run at least BackoffResetTime resets it to 1; any other failure
adds 1. -/
def recentH (reset : Int) : List Ev → Name → Nat
  | [], _ => 0
  | e :: h, n => match e with
    | .installed m _ => if n = m then 0 else recentH reset h n
    | .uninstalled m => if n = m then 0 else recentH reset h n
    | .ended m _ now raw _ _ _ => if n = m then
        (match raw with
          | none => 0
          | some r =>
            if .aborted ∈ r.tree ∨ .missing ∈ r.tree then 1
            else if startedH h n ≠ 0 ∧ reset ≤ now - startedH h n then 1
            else recentH reset h n + 1)
        else recentH reset h n
    | _ => recentH reset h n

/-- The combination of the fatal errors so far. -/
def worstH (isFatal : Option Err → Bool) (worst : Option Err → Option Err → Option Err) : List Ev → Option Err
  | [] => none
  | e :: h => match e with
    | .ended _ _ _ _ f _ _ => if isFatal f then worst f (worstH isFatal worst h) else worstH isFatal worst h
    | _ => worstH isFatal worst h

/-- `x` is installed and declares `i` as an input. -/
def Declares (h : List Ev) (x i : Name) : Prop := ∃ m, manH h x = some m ∧ i ∈ m.inputs

instance (h : List Ev) (x i : Name) : Decidable (Declares h x i) := by
  unfold Declares
  cases hm : manH h x with
  | none => exact isFalse (by rintro ⟨m, h, _⟩; cases h)
  | some m => exact decidable_of_iff (i ∈ m.inputs) ⟨fun h => ⟨m, rfl, h⟩, by rintro ⟨m', h, hi⟩; cases h; exact hi⟩

/-- The event is a change of the worker of `i`: it was registered, or lost. -/
def changes (i : Name) : Ev → Bool
  | .registered m _ _ _ => i = m
  | .ended m _ _ _ _ _ lost => i = m ∧ lost ≠ none
  | _ => false

/-- The manifold's latest attempt ended with nil, a missing dependency or an abort, it had not been told to stop,
and since then none of its inputs has changed. -/
def waitsH : List Ev → Name → Bool
  | [], _ => false
  | e :: h, n => match e with
    | .installed m _ => if n = m then false else waitsH h n
    | .registered i _ _ _ => if Declares h n i then false else waitsH h n
    | .ended m _ _ _ f told lost =>
      if n = m then !told && (match f with
        | none => true
        | some r => decide (.missing ∈ r.tree ∨ .aborted ∈ r.tree))
      else if lost ≠ none ∧ Declares h n m then false else waitsH h n
    | _ => waitsH h n

/-- The inputs given to the latest attempt of `n` are what the engine has now: the same workers, for the
running ones the Output func of the manifold, and nothing but the declared inputs. -/
def UpToDate (h : List Ev) (n : Name) : Prop :=
  ∃ m g sn, manH h n = some m ∧ lastBegin h n = some (g, sn) ∧
    (∀ i ∈ m.inputs, sn.workers.get? i = some (workerH h i) ∧
      (workerH h i ≠ none → ∃ mi, manH h i = some mi ∧ sn.outputs.get? i = some mi.output)) ∧
    ∀ i, i ∉ m.inputs → sn.workers.get? i = none

/-- The latest attempt of `n` was given a worker (or none) for some input that is not what the engine has now. -/
def Stale (h : List Ev) (n : Name) : Prop :=
  ∃ m g sn i, manH h n = some m ∧ lastBegin h n = some (g, sn) ∧ i ∈ m.inputs ∧
    sn.workers.get? i ≠ some (workerH h i)

/-- Why the engine tells an attempt to stop, or calls Kill of a worker. -/
def Caused : Ev → List Ev → Prop := fun e h => match e with
  | .cancelled g => .kill ∈ h ∨ ∃ n m, openH h n = some g ∧ manH h n = some m ∧ (m.inputs.Nodup → Stale h n)
  | .killW w => .kill ∈ h ∨ ∃ n g, openH h n = some g ∧ phaseH h n = .ok w ∧ .cancelled g ∈ h
  | _ => True

/-- What the tables given to an attempt of `n` contain: for each declared input its worker and its Output func. -/
def SnapshotOf (h : List Ev) (n : Name) (sn : Snapshot) : Prop :=
  ∃ m, manH h n = some m ∧
    (∀ i, i ∈ m.inputs → sn.workers.get? i = some (workerH h i) ∧
      sn.outputs.get? i = some ((manH h i).bind Manifold.output)) ∧
    (∀ i, i ∉ m.inputs → sn.workers.get? i = none ∧ sn.outputs.get? i = none)

/-- Events that are recorded by goroutines other than the engine's loop, and those whose kind may be. -/
def foreign : Ev → Bool
  | .startCall _ _ _ | .get _ _ _ _ | .startOk _ _ _ | .startErr _ _ _ | .finished _ _ | .kill | .killW _
  | .installFailed _ _ => true
  | _ => false

/-- The history up to the last event that is the loop's own. -/
def own (h : List Ev) : List Ev := h.dropWhile foreign

end Verif.Spec
