import Verif.Spec.Catacomb

/-!
# Exactly which histories a catacomb can have

`EvOk` says when each event may happen. `Possible` adds what is needed for the converse: a history is one of a catacomb if and
only if `Possible` holds of every event of it.
-/

namespace Verif.CSpec
open Verif.Catacomb (Ev Plan PlanErr InvErr WorkRes Src Caller)

/-- Calls of Invoke so far. They are numbered in order, as are those of Add and the pairs of goroutines. -/
def invokes : List Ev → Nat
  | [] => 0
  | .callInvoke .. :: h => invokes h + 1
  | _ :: h => invokes h

def addCalls : List Ev → Nat
  | [] => 0
  | .callAdd .. :: h => addCalls h + 1
  | _ :: h => addCalls h

def trackings : List Ev → Nat
  | [] => 0
  | .tracked .. :: h => trackings h + 1
  | _ :: h => trackings h

/-- The number of Init workers Kill()ed by a failing Invoke call. -/
def killsI (i : Nat) : List Ev → Nat
  | [] => 0
  | .killI i' _ :: h => if i = i' then killsI i h + 1 else killsI i h
  | _ :: h => killsI i h

/-- The workers of a plan. -/
def workersOf (p : Plan) : List Nat := p.init.filterMap id

/-- The error can be passed to Kill without a panic. -/
def Killable (own : Nat) (e : Option Err) (h : List Ev) : Prop := e ≠ some .tombStillAlive ∧ (OwnDying own e → Dying h)

/-- The Invoke call that got past the used check has dealt with all its workers. -/
def InitDone (h : List Ev) : Prop :=
  ∃ i p, .claimed i ∈ h ∧ .callInvoke i p ∈ h ∧ ∀ j w, p.init[j]? = some (some w) → ∃ k, .tracked k w (.init i j) ∈ h

/-- What else is needed for an event to happen. -/
def Extra (own : Nat) : Ev → List Ev → Prop
  | .callInvoke i _, h => i = invokes h
  | .callAdd c _, h => c = addCalls h
  /- Workers of Init are dealt with in order. -/
  | .tracked k _ src, h => k = trackings h ∧ ∀ i j, src = .init i j → ∀ j', j' < j → ∃ k' w', .tracked k' w' (.init i j') ∈ h
  /- A failing Invoke call stops the workers in order, one after the other. -/
  | .killI i w, h => (∃ p, .callInvoke i p ∈ h ∧ (workersOf p)[killsI i h]? = some w) ∧
      ∀ w', .killI i w' ∈ h → (finishedH h w').isSome = true
  | .invokeRet i (some _), h => (∃ p, .callInvoke i p ∈ h ∧ (workersOf p).length = killsI i h) ∧
      ∀ w', .killI i w' ∈ h → (finishedH h w').isSome = true
  /- Add succeeds only if Invoke had been called before, and the listen goroutine is there and has nothing else to do. -/
  | .addRet c none, h => (∃ post pre w, h = post ++ .callAdd c w :: pre ∧ ∃ i, .claimed i ∈ pre) ∧ InitDone h ∧
      ∀ c', .addRet c' none ∈ h → ∃ k w, .tracked k w (.add c') ∈ h
  | .workerKill _ e, h => Killable own (some e) h
  | .workKill e, h => Killable own e h
  | .killPanics (.waiter k) _, h => ∀ e, .workerKill k e ∉ h
  | .killPanics .work _, h => ∀ e, .workKill e ∉ h
  | _, _ => True

/-- When each event can happen. A panic is the last thing that does. -/
def Possible (own : Nat) (e : Ev) (h : List Ev) : Prop :=
  EvOk own e h ∧ Extra own e h ∧ ∀ who x, .killPanics who x ∉ h

end Verif.CSpec
