import Verif.Catacomb.Model
import Verif.Spec.AtEvery

/-!
# Specification vocabulary for the catacomb

Functions and predicates of the history alone (newest event first).
-/

namespace Verif.CSpec
open Verif.Catacomb (Ev Plan PlanErr InvErr WorkRes Src Caller)

/-- The catacombs whose ErrDying occurs in an error, in the order in which errors.As looks at them. -/
def dyings (e : Err) : List Nat := e.tree.filterMap (fun | .catDying c => some c | _ => none)

/-- The error says no more than that this catacomb is dying. -/
def OwnDying (own : Nat) : Option Err → Prop
  | some e => (dyings e).head? = some own
  | none => False

/-- What an error passed to Kill counts as. -/
def effective (own : Nat) : Option Err → Option Err
  | none => none
  | some e =>
    if e = .tombDying then some .badKillTombDying
    else match (dyings e).head? with
      | none => some e
      | some c => if c = own then none else some .badKillOther

/-- The error passed, if the event is a Kill call that returns. -/
def killOf : Ev → Option (Option Err)
  | .kill e => some e
  | .workKill e => some e
  | .workerKill _ e => some (some e)
  | _ => none

/-- The catacomb has been Kill()ed. -/
def Dying (h : List Ev) : Prop := ∃ e ∈ h, (killOf e).isSome = true

/-- The first error, in the order of the Kill calls. -/
def firstError (own : Nat) : List Ev → Option Err
  | [] => none
  | e :: h => match firstError own h with
    | some x => some x
    | none => match killOf e with
      | some k => effective own k
      | none => none

/-- The result of a worker, if it has finished. -/
def finishedH : List Ev → Nat → Option (Option Err)
  | [], _ => none
  | e :: h, w => match e with
    | .finished w' r => if w = w' then some r else finishedH h w
    | _ => finishedH h w

/-- A plan as the documentation asks for. -/
def Valid (p : Plan) : Prop := p.name = true ∧ p.site = true ∧ p.work = true ∧ none ∉ p.init

/-- What the work goroutine passes to Kill. -/
def WorkErr (r : WorkRes) (e : Option Err) : Prop := r = .ret e ∨ ∃ v, r = .panic v ∧ e = some (.panicked v)

/-- What is wrong with a plan: the first of the four things that is. -/
def Fault (p : Plan) : PlanErr → Prop
  | .emptyName => p.name = false
  | .nilSite => p.name = true ∧ p.site = false
  | .nilWork => p.name = true ∧ p.site = true ∧ p.work = false
  | .nilInit i => p.name = true ∧ p.site = true ∧ p.work = true ∧ p.init[i]? = some none ∧ ∀ j, j < i → p.init[j]? ≠ some none

/-- The error an Invoke call fails with. -/
def ErrFits (p : Plan) : InvErr → Prop
  | .used => Valid p
  | .invalid x => Fault p x

/-- Why an Invoke call may fail. -/
def Refused (h : List Ev) (i : Nat) (p : Plan) : Prop := ¬ Valid p ∨ ∃ j, j ≠ i ∧ .claimed j ∈ h

/-- When each event may happen, in terms of what happened before. -/
def EvOk (own : Nat) : Ev → List Ev → Prop
  | .callInvoke i _, h => ∀ p, .callInvoke i p ∉ h
  | .claimed i, h => (∃ p, .callInvoke i p ∈ h ∧ Valid p) ∧ ∀ j, .claimed j ∉ h
  | .invokeRet i none, h => .claimed i ∈ h ∧ .workCall ∈ h ∧ ∀ r, .invokeRet i r ∉ h
  | .invokeRet i (some e), h => (∀ r, .invokeRet i r ∉ h) ∧ ∃ p, .callInvoke i p ∈ h ∧ Refused h i p ∧
      ErrFits p e ∧ .claimed i ∉ h ∧
      ∀ w, some w ∈ p.init → .killI i w ∈ h ∧ (finishedH h w).isSome = true
  | .killI i w, h => (∀ r, .invokeRet i r ∉ h) ∧ ∃ p, .callInvoke i p ∈ h ∧ some w ∈ p.init ∧ Refused h i p ∧ .claimed i ∉ h
  | .callAdd c _, h => ∀ w, .callAdd c w ∉ h
  | .killA c w, h => .callAdd c w ∈ h ∧ Dying h ∧ (∀ r, .addRet c r ∉ h) ∧ .killA c w ∉ h
  | .addRet c none, h => (∃ w, .callAdd c w ∈ h ∧ .killA c w ∉ h) ∧ .dead ∉ h ∧ ∀ r, .addRet c r ∉ h
  | .addRet c (some e), h => (∀ r, .addRet c r ∉ h) ∧ ∃ w, .callAdd c w ∈ h ∧ .killA c w ∈ h ∧
      ((∃ x, finishedH h w = some (some x) ∧ e = .wrap 0 x) ∨ (finishedH h w = some none ∧ e = .catDying own))
  | .tracked k w src, h => (∀ w' src', .tracked k w' src' ∉ h) ∧ (∀ k' w', .tracked k' w' src ∉ h) ∧ .dead ∉ h ∧
      match src with
      | .init i j => .claimed i ∈ h ∧ .workCall ∉ h ∧ ∃ p, .callInvoke i p ∈ h ∧ p.init[j]? = some (some w)
      | .add c => .callAdd c w ∈ h ∧ .addRet c none ∈ h
  | .killT k w, h => (∃ src, .tracked k w src ∈ h) ∧ Dying h ∧ .killT k w ∉ h ∧ .dead ∉ h
  | .workerKill k e, h => (∃ w src, .tracked k w src ∈ h ∧ finishedH h w = some (some e)) ∧ (∀ e', .workerKill k e' ∉ h) ∧
      .dead ∉ h
  | .workCall, h => .workCall ∉ h ∧ ∃ i p, .claimed i ∈ h ∧ .callInvoke i p ∈ h ∧
      ∀ j w, p.init[j]? = some (some w) → ∃ k, .tracked k w (.init i j) ∈ h
  | .workRet _, h => .workCall ∈ h ∧ ∀ r, .workRet r ∉ h
  | .workKill e, h => (∃ r, .workRet r ∈ h ∧ WorkErr r e) ∧ ∀ e', .workKill e' ∉ h
  | .kill e, h => e ≠ some .tombStillAlive ∧ (OwnDying own e → Dying h)
  | .killPanics who e, h => (e = some .tombStillAlive ∨ (OwnDying own e ∧ ¬ Dying h)) ∧
      match who with
      | .waiter k => ∃ w src x, .tracked k w src ∈ h ∧ e = some x ∧ finishedH h w = some e
      | .work => ∃ r, .workRet r ∈ h ∧ WorkErr r e
      | .client => True
  | .errDying e, h => (Dying h ∧ e = .catDying own) ∨ (¬ Dying h ∧ e = .badStillAlive)
  | .dead, h => .dead ∉ h ∧ (∃ e, .workKill e ∈ h) ∧
      (∀ c, .addRet c none ∈ h → ∃ k w, .callAdd c w ∈ h ∧ .tracked k w (.add c) ∈ h) ∧
      ∀ k w src, .tracked k w src ∈ h → ∃ r, finishedH h w = some r ∧ ∀ e, r = some e → .workerKill k e ∈ h
  | .waitRet r, h => .dead ∈ h ∧ r = firstError own h
  | .finished w _, h => finishedH h w = none

/-- The catacomb has handed out its ErrDying: from ErrDying, or inside what an Add call returned. -/
def Issued (own : Nat) (h : List Ev) : Prop :=
  .errDying (.catDying own) ∈ h ∨ ∃ c x, .addRet c (some x) ∈ h ∧ own ∈ dyings x

/-- An error that user code passes to the catacomb: to Kill, as result of the work func, or as result of a worker. -/
def supplied : Ev → Option Err
  | .kill e => e
  | .killPanics .client e => e
  | .workRet (.ret e) => e
  | .finished _ e => e
  | _ => none

/-- User code never uses tomb.ErrStillAlive as an error, and uses this catacomb's ErrDying only after having got it from it. -/
def Proper (own : Nat) (h : List Ev) : Prop :=
  Spec.AtEvery (fun ev h => ∀ e, supplied ev = some e → e ≠ .tombStillAlive ∧ (own ∈ dyings e → Issued own h)) h

/-! ## Infinite executions: `h k` is the history after `k` steps -/

/-- Every tracked worker that is Kill()ed finishes. -/
def KilledFinish (h : Nat → List Ev) : Prop := ∀ k g w, .killT g w ∈ h k → ∃ k', (finishedH (h k') w).isSome = true

end Verif.CSpec
