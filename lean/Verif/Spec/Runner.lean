import Verif.Runner.Model
import Verif.Spec.AtEvery
import Verif.Spec.Fair

/-!
# Specification: what a runner's history says

Functions of the history of observable events (newest first). They use no part of the runner model except the types of
events.
-/

namespace Verif.RSpec
open Verif.Runner

/-- The registration of an id: some number while the id is known to the runner. -/
def knownH : List Ev → Name → Option Nat
  | [], _ => none
  | e :: h, n => match e with
    | .accepted _ m r _ => if n = m then some r else knownH h n
    | .removed m _ => if n = m then none else knownH h n
    | _ => knownH h n

/-- The StartFunc the id was last registered with. -/
def sfH : List Ev → Name → Option Nat
  | [], _ => none
  | e :: h, n => match e with
    | .accepted _ m _ sf => if n = m then some sf else sfH h n
    | _ => sfH h n

/-- The worker the runner has for an id. -/
def instH : List Ev → Name → Option Nat
  | [], _ => none
  | e :: h, n => match e with
    | .accepted _ m _ _ => if n = m then none else instH h n
    | .removed m _ => if n = m then none else instH h n
    | .learned m _ w => if n = m then some w else instH h n
    | .killW m _ => if n = m then none else instH h n
    | _ => instH h n

/-- Whether the id has been told to stop since it was last registered. -/
def toldH : List Ev → Name → Bool
  | [], _ => false
  | e :: h, n => match e with
    | .accepted _ m _ _ => if n = m then false else toldH h n
    | .told m => if n = m then true else toldH h n
    | _ => toldH h n

/-- The attempt of an id that has begun and whose end has not been processed. -/
def openH : List Ev → Name → Option Nat
  | [], _ => none
  | e :: h, n => match e with
    | .begin m g _ _ => if n = m then some g else openH h n
    | .ended m _ _ => if n = m then none else openH h n
    | _ => openH h n

/-- How far an attempt has got. -/
inductive Phase
  /-- the StartFunc has not been called -/
  | pending
  /-- the StartFunc has been called and has not returned -/
  | calling
  /-- the StartFunc returned this worker -/
  | running (w : Nat)
  /-- the StartFunc returned this error -/
  | failed (e : Err)
  /-- the runner has processed its end -/
  | over
deriving DecidableEq

/-- The phase of the attempt with a number; `none` if there is no such attempt. -/
def phaseH : List Ev → Nat → Option Phase
  | [], _ => none
  | e :: h, k => match e with
    | .begin _ g _ _ => if k = g then some .pending else phaseH h k
    | .startCall _ g _ => if k = g then some .calling else phaseH h k
    | .startOk _ g w => if k = g then some (.running w) else phaseH h k
    | .startErr _ g e => if k = g then some (.failed e) else phaseH h k
    | .ended _ g _ => if k = g then some .over else phaseH h k
    | _ => phaseH h k

/-- The result of a worker that has finished. -/
def finishedH : List Ev → Nat → Option (Option Err)
  | [], _ => none
  | e :: h, k => match e with
    | .finished w r => if k = w then some r else finishedH h k
    | _ => finishedH h k

/-- The runner is shutting down. -/
def shutH (h : List Ev) : Prop := Ev.shutdown ∈ h

/-- The fatal errors workers ended with, newest first. -/
def fatals (isFatal : Err → Bool) : List Ev → List Err
  | [] => []
  | e :: h => match e with
    | .ended _ _ (some err) => if isFatal err then err :: fatals isFatal h else fatals isFatal h
    | _ => fatals isFatal h

/-- The error to return: among the fatal errors (newest first), keeping the earlier of two unless the later one is
more important. -/
def pick (moreImportant : Err → Err → Bool) : List Err → Option Err
  | [] => none
  | e :: l => match pick moreImportant l with
    | none => some e
    | some f => some (if moreImportant e f then e else f)

/-- Whether StopWorker has been handled for the id, known then, since it was last registered. -/
def stopReqH : List Ev → Name → Bool
  | [], _ => false
  | e :: h, n => match e with
    | .accepted _ m _ _ => if n = m then false else stopReqH h n
    | .stopHandled m => if n = m then (knownH h n).isSome else stopReqH h n
    | _ => stopReqH h n

/-- A registration number has been used. -/
def UsedRid (h : List Ev) (rid : Nat) : Prop := ∃ cid id sf, Ev.accepted cid id rid sf ∈ h

/-- How an attempt may end: it was given up during its delay because the runner was killed; its StartFunc failed; or
its worker finished. -/
def EndsWith (h : List Ev) (g : Nat) (e : Option Err) : Prop :=
  (phaseH h g = some .pending ∧ e = none ∧ Ev.kill ∈ h) ∨
  (∃ err, phaseH h g = some (.failed err) ∧ e = some err) ∨
  (∃ w, phaseH h g = some (.running w) ∧ finishedH h w = some e)

/-- An error after which a worker is to be run again. -/
def Restartable (p : Params) (e : Option Err) : Prop :=
  ∃ err, e = some err ∧ p.isFatal err = false ∧ p.shouldRestart err = true

/-- What has happened when an event happens. -/
def EvOk (p : Params) : Ev → List Ev → Prop
  | .accepted _ id rid _, h =>
    knownH h id = none ∧ instH h id = none ∧ openH h id = none ∧ ¬ shutH h ∧ ¬ UsedRid h rid
  | .refused _ id, h => (knownH h id).isSome = true ∧ ¬ shutH h
  | .ignored _ _, h => shutH h ∧ .exit ∉ h
  | .stopHandled _, h => .exit ∉ h
  | .begin id g d sf, h =>
    (knownH h id).isSome = true ∧ openH h id = none ∧ toldH h id = false ∧ ¬ shutH h ∧ phaseH h g = none ∧
    sfH h id = some sf ∧
    ((∃ cid rid, h.head? = some (.accepted cid id rid sf) ∧ d = 0) ∨
     (∃ g' e, h.head? = some (.ended id g' e) ∧ Restartable p e ∧ d = p.restartDelay))
  | .startCall id g sf, h => openH h id = some g ∧ phaseH h g = some .pending ∧ sfH h id = some sf
  | .startOk id g _, h => openH h id = some g ∧ phaseH h g = some .calling
  | .startErr id g _, h => openH h id = some g ∧ phaseH h g = some .calling
  | .learned id g w, h => openH h id = some g ∧ phaseH h g = some (.running w)
  | .told id, h =>
    (knownH h id).isSome = true ∧ (shutH h ∨ toldH h id = true ∨ h.head? = some (.stopHandled id))
  | .killW id w, h => h.head? = some (.told id) ∧ instH h id = some w
  | .finished w _, h => finishedH h w = none
  | .ended id g e, h => (knownH h id).isSome = true ∧ openH h id = some g ∧ EndsWith h g e
  | .removed id rid, h =>
    knownH h id = some rid ∧ openH h id = none ∧ ∃ g e, h.head? = some (.ended id g e)
  | .shutdown, h => Ev.kill ∈ h ∨
    ¬ shutH h ∧ ∃ id rid g err tl, h = .removed id rid :: .ended id g (some err) :: tl ∧ p.isFatal err = true
  | .exit, h => shutH h ∧ ∀ id, knownH h id = none ∧ openH h id = none
  | .report lines, h =>
    (lines.map Line.id).Nodup ∧ (∀ id, id ∈ lines.map Line.id ↔ (knownH h id).isSome = true) ∧
    ∀ l ∈ lines, l.status = (if (instH h l.id).isSome then .started else .stopped) ∧
      l.nested = (instH h l.id).isSome
  | .names l, h => l.Nodup ∧ ∀ id, id ∈ l ↔ (knownH h id).isSome = true
  | _, _ => True

/-- What happens right after an event (`post` is newest first): the runner's reactions. -/
def After (p : Params) : Ev → List Ev → List Ev → Prop
  | .accepted _ id _ sf, _, post => ∃ l g, post = l ++ [.begin id g 0 sf]
  | .learned id _ w, h, post =>
    toldH h id = true ∨ shutH h → ∃ l, post = l ++ [.killW id w, .told id]
  | .stopHandled id, h, post =>
    (knownH h id).isSome = true → ∃ l, post = l ++ [.told id]
  | .told id, h, post => ∀ w, instH h id = some w → ∃ l, post = l ++ [.killW id w]
  | .ended id _ e, h, post =>
    (Restartable p e ∧ toldH h id = false → ∃ l g' sf, sfH h id = some sf ∧
      post = l ++ [.begin id g' p.restartDelay sf]) ∧
    (¬ (Restartable p e ∧ toldH h id = false) → ∃ l rid, knownH h id = some rid ∧ post = l ++ [.removed id rid]) ∧
    (∀ err, e = some err → p.isFatal err = true → ¬ shutH h → ∃ l rid, post = l ++ [.shutdown, .removed id rid])
  | _, _, _ => True

/-! ## Client calls -/

/-- A call a client made. -/
inductive Call
  | start (id : Name) (sf : Nat)
  | stop (id : Name)
  | worker (id : Name)
  | remove (id : Name)
deriving DecidableEq, Repr

/-- The call with a number. -/
def callH : List Ev → Nat → Option Call
  | [], _ => none
  | e :: h, k => match e with
    | .callStart c id sf => if k = c then some (.start id sf) else callH h k
    | .callStop c id => if k = c then some (.stop id) else callH h k
    | .callWorker c id => if k = c then some (.worker id) else callH h k
    | .callRemove c id => if k = c then some (.remove id) else callH h k
    | _ => callH h k

/-- `P` was the case at some moment since the call was made. -/
def During (h : List Ev) (cid : Nat) (P : List Ev → Prop) : Prop :=
  ∃ mid pre, h = mid ++ pre ∧ (callH pre cid).isSome = true ∧ P pre

/-- What a StartWorker call may return. -/
def StartRet (h : List Ev) (cid : Nat) (id : Name) (sf : Nat) (r : Ret) : Prop :=
  (r = .ok ∧ During h cid (fun h' => (∃ rid, h'.head? = some (.accepted cid id rid sf)) ∨ h'.head? = some (.ignored cid id))) ∨
  (r = .err (.alreadyExists id) ∧ During h cid (fun h' => h'.head? = some (.refused cid id))) ∨
  (r = .err .runnerDead ∧ (.cancelled cid ∈ h ∨ .exit ∈ h))

/-- What both Worker and StopAndRemoveWorker may return: NotFound if the id was unknown at some moment of the call and the
runner has not been killed, ErrDead if the runner was dying, and ErrAborted if the call was aborted. -/
def LookupErr (h : List Ev) (cid : Nat) (id : Name) (r : Ret) : Prop :=
  (r = .err (.notFound id) ∧ During h cid (fun h' => knownH h' id = none) ∧ .kill ∉ h) ∨
  (r = .err .runnerDead ∧ (.kill ∈ h ∨ .exit ∈ h)) ∨
  (r = .err .runnerAborted ∧ .cancelled cid ∈ h)

/-- Why a call may be given a worker: the runner has not been killed, or there was a moment of the call at which the
worker was known but not running, so that the call was waiting for it. -/
def MayHave (h : List Ev) (cid : Nat) (id : Name) : Prop :=
  .kill ∉ h ∨ During h cid (fun h' => (knownH h' id).isSome = true ∧ instH h' id = none)

/-- What a StopAndRemoveWorker call that returns the worker's result has seen. -/
def Removed (h : List Ev) (cid : Nat) (id : Name) (e : Option Err) : Prop :=
  ∃ w rid, During h cid (fun h' => instH h' id = some w ∧ knownH h' id = some rid) ∧
    .clientKillW cid w ∈ h ∧ finishedH h w = some e ∧ .removed id rid ∈ h ∧ During h cid (fun h' => MayHave h' cid id)

/-- The StopAndRemoveWorker call `cid` has returned the result of the worker it found, which belonged to the registration
`rid`. -/
def GotResult (h : List Ev) (cid : Nat) (id : Name) (rid : Nat) : Prop :=
  ∃ post pre w e, h = post ++ .ret cid (.result e) :: pre ∧ callH pre cid = some (.remove id) ∧
    During pre cid (fun h' => instH h' id = some w ∧ knownH h' id = some rid) ∧ .clientKillW cid w ∈ pre ∧ finishedH pre w = some e

/-- What a call may return. -/
def CallRet (h : List Ev) (cid : Nat) (r : Ret) : Call → Prop
  | .start id sf => StartRet h cid id sf r
  | .stop _ => (r = .ok ∧ During h cid (fun h' => .exit ∉ h')) ∨ (r = .err .runnerDead ∧ .exit ∈ h)
  | .worker id => (∃ w, r = .worker w ∧ During h cid (fun h' => instH h' id = some w) ∧ MayHave h cid id) ∨
    LookupErr h cid id r
  | .remove id => (∃ e, r = .result e ∧ Removed h cid id e) ∨ LookupErr h cid id r

/-- A call returns once, and what it may return. -/
def RetOk : Ev → List Ev → Prop
  | .ret cid r, h => (∀ r', .ret cid r' ∉ h) ∧ ∃ call, callH h cid = some call ∧ CallRet h cid r call
  | _, _ => True

/-- The runner has not decided about the request of the call. -/
def Undecided (h : List Ev) (cid : Nat) : Prop :=
  (∀ id rid sf, .accepted cid id rid sf ∉ h) ∧ (∀ id, .refused cid id ∉ h) ∧ ∀ id, .ignored cid id ∉ h

/-- The call is a StartWorker call that has not returned, and whose request has not been decided about. -/
def Asks (h : List Ev) (cid : Nat) (id : Name) (sf : Nat) : Prop :=
  callH h cid = some (.start id sf) ∧ (∀ r, .ret cid r ∉ h) ∧ Undecided h cid

/-- The StartWorker call an attempt was scheduled for, if it is the first one of its registration; `none` for a
restart. -/
def parentH : List Ev → Nat → Option Nat
  | [], _ => none
  | e :: h, k => match e with
    | .begin _ g _ _ => if k = g then (match h.head? with
        | some (.accepted cid _ _ _) => some cid
        | _ => none) else parentH h k
    | _ => parentH h k

/-- The context given to the StartFunc of an attempt is done: the runner was killed, or the context given to StartWorker
is done and the attempt is the first one. -/
def CtxDone (h : List Ev) (g : Nat) : Prop :=
  .kill ∈ h ∨ ∃ cid, parentH h g = some cid ∧ .cancelled cid ∈ h

/-- Decisions about requests, and what contexts say. -/
def ReqOk : Ev → List Ev → Prop
  | .accepted cid id _ sf, h => Asks h cid id sf
  | .refused cid id, h => ∃ sf, Asks h cid id sf
  | .ignored cid id, h => ∃ sf, Asks h cid id sf
  | .ctx g b, h => (phaseH h g = some .calling ∨ ∃ w, phaseH h g = some (.running w)) ∧ (b = true ↔ CtxDone h g)
  | _, _ => True

/-! ## Infinite executions

`h k` is what has happened after `k` steps. -/

/-- Every StartFunc that is called returns. -/
def StartsReturn (h : Nat → List Ev) : Prop :=
  ∀ k g, phaseH (h k) g = some .calling → ∃ k', k ≤ k' ∧ phaseH (h k') g ≠ some .calling

/-- Every worker the runner Kill()s finishes. -/
def KilledFinish (h : Nat → List Ev) : Prop :=
  ∀ k id w, .killW id w ∈ h k → ∃ k' e, k ≤ k' ∧ finishedH (h k') w = some e

/-- What a call waits for that never returns. -/
def WaitsFor (h : Nat → List Ev) (cid : Nat) : Prop :=
  -- a worker for its id: again and again the id is registered and has no instance
  (∃ id, (∀ k, .cancelled cid ∉ h k) ∧ (∀ k, .kill ∉ h k) ∧ (∀ k, .exit ∉ h k) ∧
    (∃ k, callH (h k) cid = some (.worker id) ∨ callH (h k) cid = some (.remove id)) ∧
    Verif.Spec.InfOften (fun k => (knownH (h k) id).isSome = true ∧ instH (h k) id = none)) ∨
  -- the end of the worker it has killed
  (∃ id w, (∃ k, callH (h k) cid = some (.remove id)) ∧ (∃ k, .clientKillW cid w ∈ h k) ∧ ∀ k, finishedH (h k) w = none) ∨
  -- the removal of the registration, which never happens or of which another call is told
  (∃ id rid, (∀ k, .cancelled cid ∉ h k) ∧ (∃ k, callH (h k) cid = some (.remove id)) ∧
    ∃ n, ∀ k, n ≤ k → knownH (h k) id = some rid ∨ ∃ cid', cid' ≠ cid ∧ GotResult (h k) cid' id rid)

end Verif.RSpec
