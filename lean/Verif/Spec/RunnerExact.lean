import Verif.Spec.Runner

/-!
# Exactly which histories a runner can have

The specification of `Spec/Runner.lean` says when each event may happen and what must follow. Here both are put together, with
the order in which the run goroutine does things, so that the converse holds too: every sequence of events that is allowed is
the history of an execution.
-/

namespace Verif.RSpec
open Verif.Runner

/-- Client calls so far. They are numbered in order, as are registrations and attempts. -/
def calls : List Ev → Nat
  | [] => 0
  | e :: h => match e with
    | .callStart .. | .callStop .. | .callWorker .. | .callRemove .. => calls h + 1
    | _ => calls h

def acceptances : List Ev → Nat
  | [] => 0
  | e :: h => match e with
    | .accepted .. => acceptances h + 1
    | _ => acceptances h

def begins : List Ev → Nat
  | [] => 0
  | e :: h => match e with
    | .begin .. => begins h + 1
    | _ => begins h

/-- The worker is to be run again after this result. -/
def again (p : Params) : Option Err → Bool
  | some err => !p.isFatal err && p.shouldRestart err
  | none => false

def fatal (p : Params) : Option Err → Bool
  | some err => p.isFatal err
  | none => false

/-- Kill()ing the worker of an id. -/
def killing (h : List Ev) (id : Name) : List Ev :=
  match instH h id with
  | some w => [.killW id w]
  | none => []

/-- What the run goroutine does at once on account of an event, in order. -/
def caused (p : Params) : Ev → List Ev → List Ev
  | .accepted _ id _ sf, h => [.begin id (begins h) 0 sf]
  | .learned id _ w, h => if toldH h id = true ∨ .shutdown ∈ h then [.told id, .killW id w] else []
  | .stopHandled id, h => if (knownH h id).isSome then .told id :: killing h id else []
  | .told id, h => killing h id
  | .ended id _ e, h =>
    if again p e = true ∧ toldH h id = false then
      match sfH h id with
      | some sf => [.begin id (begins h) p.restartDelay sf]
      | none => []
    else
      match knownH h id with
      | some rid => .removed id rid :: if fatal p e = true ∧ .shutdown ∉ h then [.shutdown] else []
      | none => []
  | _, _ => []

/-- What comes next, whatever else happens. -/
def dueH (p : Params) : List Ev → List Ev
  | [] => []
  | e :: h => match dueH p h with
    | [] => caused p e h
    | _ :: l => l

/-- What the run goroutine is in the middle of. -/
inductive Busy
  /-- nothing -/
  | free
  /-- answering a StartWorker call -/
  | reply (cid : Nat) (r : Ret)
  /-- it has taken the request of a StopWorker call -/
  | stop (id : Name)
  /-- telling all workers to stop: these it has told -/
  | tell (told : List Name)
  /-- it has returned -/
  | exited
deriving DecidableEq

def busyH : List Ev → Busy
  | [] => .free
  | e :: h => match e with
    | .accepted cid _ _ _ | .ignored cid _ => .reply cid .ok
    | .refused cid id => .reply cid (.err (.alreadyExists id))
    | .ret cid r => match busyH h with
      | .reply cid' r' => if cid = cid' then .free else .reply cid' r'
      | b => match callH h cid, r with
        | some (.stop id), .ok => .stop id
        | _, _ => b
    | .stopHandled _ | .learned .. | .ended .. => .free
    | .shutdown => .tell []
    | .told id => match busyH h with
      | .tell l => .tell (id :: l)
      | b => b
    | .exit => .exited
    | _ => busyH h

/-- It is in the middle of nothing. -/
def Idle (h : List Ev) : Prop :=
  busyH h = .free ∨ ∃ l, busyH h = .tell l ∧ ∀ id, (knownH h id).isSome = true → id ∈ l

/-- It can take a request or a message: it is in the middle of nothing, and has not to return. -/
def Ready (h : List Ev) : Prop := Idle h ∧ ¬ (.shutdown ∈ h ∧ ∀ id, knownH h id = none)

/-- It is between two workers that it tells to stop, and holds the mutex. -/
def Locked (h : List Ev) : Prop :=
  ∃ l, busyH h = .tell l ∧ l ≠ [] ∧ ∃ id, (knownH h id).isSome = true ∧ id ∉ l

/-- Shutdown has not been started by Kill. -/
def armH (p : Params) : List Ev → Bool
  | [] => true
  | e :: h => match e with
    | .shutdown => armH p h && !(dueH p h).isEmpty
    | _ => armH p h

/-- The attempt is a delayed one. -/
def Delayed (h : List Ev) (g : Nat) : Prop := ∃ id d sf, .begin id g d sf ∈ h ∧ 0 < d

/-- What a report says about when a worker was started: nothing if it was at time zero. -/
def stamp (t : Int) : Option Int := if t = 0 then none else some t

/-- The runner becomes dead when it returns: not if its error is one that a tomb does not take. -/
def dies (p : Params) (h : List Ev) : Bool :=
  match pick p.moreImportant (fatals p.isFatal h) with
  | some .tombStillAlive => false
  | some .tombDying => h.contains .kill
  | _ => true

/-- The runner is dead. -/
def deadH (p : Params) : List Ev → Bool
  | [] => false
  | e :: h => match e with
    | .exit => dies p h
    | _ => deadH p h

/-- The runner is dying. -/
def dyingH (p : Params) (h : List Ev) : Bool := h.contains .kill || deadH p h

/-! ## Looking up workers -/

/-- What the history does not tell: when registrations were made, and which registration a StopAndRemoveWorker call has found. -/
structure Choice where
  time : Nat → Int
  reg : Nat → Nat

/-- The mutex is free, and nothing is in the middle of being changed. -/
def CanLook (p : Params) (h : List Ev) : Prop := dueH p h = [] ∧ ¬ Locked h

/-- The call may have looked when `P` was the case. -/
def Sees (p : Params) (h : List Ev) (cid : Nat) (P : List Ev → Prop) : Prop := During h cid (fun h' => CanLook p h' ∧ P h')

/-- The id is registered, and its worker is available. -/
def HasW (h : List Ev) (id : Name) (w rid : Nat) : Prop := instH h id = some w ∧ knownH h id = some rid

/-- The call may have found that it had to wait. -/
def Waits (p : Params) (h : List Ev) (cid : Nat) (id : Name) : Prop :=
  Sees p h cid (fun h' => (knownH h' id).isSome = true ∧ instH h' id = none)

/-- The call may have got the worker, to do something with it: dying is only checked if there was no need to wait. -/
def Gets (p : Params) (h : List Ev) (cid : Nat) (id : Name) (w rid : Nat) : Prop :=
  Sees p h cid (fun h' => HasW h' id w rid ∧ (dyingH p h' = false ∨ Waits p h' cid id))

/-- The call has not got a worker to stop. -/
def NoKill (h : List Ev) (cid : Nat) : Prop := ∀ w, .clientKillW cid w ∉ h

/-- Somebody else has been told that the registration is gone: only one is. -/
def Taken (T : Choice) (h : List Ev) (rid : Nat) : Prop :=
  ∃ cid w e, .clientKillW cid w ∈ h ∧ .ret cid (.result e) ∈ h ∧ T.reg cid = rid

/-- What a lookup can return instead of a worker. -/
def NoWorker (p : Params) (h : List Ev) (cid : Nat) (id : Name) (r : Ret) : Prop :=
  (r = .err (.notFound id) ∧ dyingH p h = false ∧ Sees p h cid (fun h' => knownH h' id = none)) ∨
  (r = .err .runnerDead ∧ dyingH p h = true ∧ Sees p h cid (fun _ => True)) ∨
  (r = .err .runnerAborted ∧ .cancelled cid ∈ h ∧ Waits p h cid id)

/-- What a call can return. -/
def Answer (p : Params) (T : Choice) (h : List Ev) (cid : Nat) (r : Ret) : Call → Prop
  | .start _ _ => busyH h = .reply cid r ∨ (Undecided h cid ∧ r = .err .runnerDead ∧ (.cancelled cid ∈ h ∨ deadH p h = true))
  | .stop _ => (r = .ok ∧ Ready h) ∨ (r = .err .runnerDead ∧ deadH p h = true)
  | .worker id => NoWorker p h cid id r ∨ ∃ w rid, r = .worker w ∧
    ((dyingH p h = false ∧ Sees p h cid (fun h' => HasW h' id w rid)) ∨ Sees p h cid (fun h' => HasW h' id w rid ∧ Waits p h' cid id))
  | .remove id => (NoKill h cid ∧ NoWorker p h cid id r) ∨ ∃ w e, .clientKillW cid w ∈ h ∧ finishedH h w = some e ∧
    ((r = .err .runnerAborted ∧ .cancelled cid ∈ h) ∨ (r = .result e ∧ .removed id (T.reg cid) ∈ h ∧ ¬ Taken T h (T.reg cid)))

/-- When an event can happen by itself. -/
def Can (p : Params) (T : Choice) : Ev → List Ev → Prop
  | .accepted cid id rid sf, h => Ready h ∧ Asks h cid id sf ∧ knownH h id = none ∧ .shutdown ∉ h ∧ rid = acceptances h
  | .refused cid id, h => Ready h ∧ (∃ sf, Asks h cid id sf) ∧ (knownH h id).isSome = true ∧ .shutdown ∉ h
  | .ignored cid id, h => Ready h ∧ (∃ sf, Asks h cid id sf) ∧ .shutdown ∈ h
  | .begin .., _ | .removed .., _ | .killW .., _ => False
  | .startCall id g sf, h => openH h id = some g ∧ phaseH h g = some .pending ∧ sfH h id = some sf
  | .startOk id g _, h | .startErr id g _, h => openH h id = some g ∧ phaseH h g = some .calling
  | .learned id g w, h => Ready h ∧ openH h id = some g ∧ phaseH h g = some (.running w) ∧ .learned id g w ∉ h
  | .stopHandled id, h => busyH h = .stop id
  | .told id, h => ∃ l, busyH h = .tell l ∧ id ∉ l ∧ (knownH h id).isSome = true
  | .finished w _, h => finishedH h w = none
  | .ended id g e, h => Ready h ∧ openH h id = some g ∧
    ((phaseH h g = some .pending ∧ Delayed h g ∧ .kill ∈ h ∧ e = none) ∨
     (∃ err, phaseH h g = some (.failed err) ∧ e = some err) ∨
     (∃ w, phaseH h g = some (.running w) ∧ .learned id g w ∈ h ∧ finishedH h w = some e))
  | .shutdown, h => Ready h ∧ .kill ∈ h ∧ armH p h = true
  | .exit, h => Idle h ∧ .shutdown ∈ h ∧ ∀ id, knownH h id = none
  | .callStart cid _ _, h | .callStop cid _, h | .callWorker cid _, h | .callRemove cid _, h => cid = calls h
  | .cancelled cid, h => (callH h cid).isSome = true
  | .ret cid r, h => (∀ r', .ret cid r' ∉ h) ∧ ∃ call, callH h cid = some call ∧ Answer p T h cid r call
  | .ctx g b, h => (phaseH h g = some .calling ∨ ∃ w, phaseH h g = some (.running w)) ∧ (b = true ↔ CtxDone h g)
  | .report lines, h => ¬ Locked h ∧ (lines.map Line.id).Nodup ∧ (∀ id, id ∈ lines.map Line.id ↔ (knownH h id).isSome = true) ∧
    ∀ l ∈ lines, l.status = (if (instH h l.id).isSome then .started else .stopped) ∧ l.nested = (instH h l.id).isSome ∧
      ∃ rid, knownH h l.id = some rid ∧ l.lastStart = stamp (T.time rid)
  | .names l, h => ¬ Locked h ∧ l.Nodup ∧ ∀ id, id ∈ l ↔ (knownH h id).isSome = true
  | .clientKillW cid w, h => ∃ id, callH h cid = some (.remove id) ∧ (∀ r, .ret cid r ∉ h) ∧ NoKill h cid ∧ Gets p h cid id w (T.reg cid)
  | .kill, _ => True

/-- When each event can happen: what is due does, at once. -/
def Possible (p : Params) (T : Choice) (e : Ev) (h : List Ev) : Prop :=
  match dueH p h with
  | [] => Can p T e h
  | d :: _ => e = d

/-- The history of a runner between two steps: nothing is due. -/
def History (p : Params) (T : Choice) (h : List Ev) : Prop := Spec.AtEvery (Possible p T) h ∧ dueH p h = []

end Verif.RSpec
