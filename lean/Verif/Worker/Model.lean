import Verif.Base

/-!
# worker.go (Stop, Dead) and workertest/check.go

One arbitrary worker, and any number of concurrent calls of Stop, Dead and the Check functions with it. The environment
decides when and with what the worker finishes, and when a timeout fires. What is assumed of the worker is the contract of
the Worker interface: Wait blocks until it has finished and then returns its result.

Every call has a main goroutine and possibly one more, which is in `w.Wait()`.
-/

namespace Verif.Worker

/-- The `Dead() <-chan struct{}` method of the worker: not there, returning nil, or returning a channel. -/
inductive OwnDead
  | absent
  | nil
  | chan
deriving DecidableEq, Repr

/-- The functions. -/
inductive Kind
  /-- worker.go:23-26 -/
  | stop
  /-- worker.go:37-52 -/
  | dead
  /-- workertest/check.go:34-44 -/
  | checkAlive
  /-- workertest/check.go:49-61 -/
  | checkKilled
  /-- workertest/check.go:66-69 -/
  | checkKill
  /-- workertest/check.go:81-84 -/
  | cleanKill
  /-- workertest/check.go:96-101 -/
  | dirtyKill
  /-- workertest/check.go:114-119, with a worker that is not nil: there is nothing to do otherwise -/
  | nilOrKill
deriving DecidableEq, Repr

/-- Kill is called first. -/
def Kind.kills : Kind → Bool
  | .stop | .checkKill | .cleanKill | .dirtyKill | .nilOrKill => true
  | _ => false

/-- There is a `select` between the worker's result and a timeout. -/
def Kind.selects : Kind → Bool
  | .checkAlive | .checkKilled | .checkKill | .cleanKill | .dirtyKill | .nilOrKill => true
  | _ => false

inductive Ev
  | called (c : Nat) (k : Kind)
  /-- Call `c` calls w.Kill(). -/
  | kill (c : Nat)
  /-- The worker finishes. -/
  | finished (r : Option Err)
  /-- A timeout of call `c` fires. -/
  | timeout (c : Nat)
  /-- Call `c`, of CheckNilOrKill, marks the test as failed because there is a worker. -/
  | notNil (c : Nat)
  /-- Call `c` marks the test as failed because of what has become of the worker. -/
  | failed (c : Nat)
  /-- Stop returns. -/
  | stopRet (c : Nat) (r : Option Err)
  /-- Dead calls the worker's own Dead method, if there is one. -/
  | ownDead (c : Nat) (d : OwnDead)
  /-- Dead returns the worker's own channel, or one of its own making. -/
  | deadRet (c : Nat) (own : Bool)
  /-- … which gets closed. -/
  | closed (c : Nat)
  /-- A Check function returns; `none` if it got no result from the worker in time. -/
  | checkRet (c : Nat) (r : Option (Option Err))
deriving DecidableEq, Repr

/-- Where the main goroutine of a call is. -/
inductive Pc
  | start
  /-- has called Kill, if it does -/
  | killed
  /-- in w.Wait(), for Stop -/
  | wait
  /-- in the select -/
  | select
  | returned
deriving DecidableEq, Repr

/-- Where the other goroutine is. -/
inductive GPc
  | none
  | wait
  /-- Wait has returned; about to send on the buffered channel, or to close the channel -/
  | got (r : Option Err)
  | done
deriving DecidableEq, Repr

structure Call where
  kind : Kind
  pc : Pc := .start
  g : GPc := .none
  /-- the channel `wait` (capacity 1) -/
  buf : Option (Option Err) := Option.none
  /-- time.After has fired -/
  timer : Bool := false
deriving DecidableEq, Repr

structure State where
  fin : Option (Option Err) := none
  calls : List Call := []
  hist : List Ev := []
deriving DecidableEq, Repr

def init : State := {}

def State.emit (s : State) (e : Ev) : State := { s with hist := e :: s.hist }
def State.set (s : State) (c : Nat) (x : Call) : State := { s with calls := s.calls.set c x }

inductive Op
  | call (k : Kind)
  | finish (r : Option Err)
  | timeout (c : Nat)
  /-- w.Kill(), where there is one -/
  | kill (c : Nat)
  /-- go to Wait (Stop); start the goroutine; Dead returns, having called the worker's own Dead method with result `d` -/
  | go (c : Nat) (d : OwnDead)
  /-- w.Wait() returns in the other goroutine -/
  | gWait (c : Nat)
  /-- … which sends or closes -/
  | gSend (c : Nat)
  /-- w.Wait() returns in Stop -/
  | stopRet (c : Nat)
  /-- the select takes the result -/
  | recv (c : Nat)
  /-- the select takes the timeout -/
  | late (c : Nat)
deriving DecidableEq, Repr

/-- What a Check function does with a result (workertest/check.go:41-42, 55-56, 83, 98-100): mark the test as failed or not. -/
def Kind.fails : Kind → Option Err → Bool
  | .checkAlive, _ => true
  | .cleanKill, r | .nilOrKill, r => r.isSome
  | _, _ => false

/-- What it does after a timeout (workertest/check.go:40, 57-59). CleanKill would fail the test a second time. -/
def Kind.failsLate : Kind → Bool
  | .checkAlive => false
  | _ => true

def stepCall (s : State) (c : Nat) (x : Call) : Op → Option State
  | .timeout _ => if x.kind.selects ∧ x.pc = .select then some (s.set c { x with timer := true } |>.emit (.timeout c)) else none
  | .kill _ => match x.pc with
    | .start =>
      if x.kind = .nilOrKill then some (s.set c { x with pc := .killed } |>.emit (.notNil c) |>.emit (.kill c))
      else if x.kind.kills then some (s.set c { x with pc := .killed } |>.emit (.kill c))
      else some (s.set c { x with pc := .killed })
    | _ => none
  | .go _ d => match x.pc with
    | .killed => match x.kind with
      | .stop => some (s.set c { x with pc := .wait })
      | .dead =>
        if d = .chan then some (s.set c { x with pc := .returned } |>.emit (.ownDead c d) |>.emit (.deadRet c true))
        else some (s.set c { x with pc := .returned, g := .wait } |>.emit (.ownDead c d) |>.emit (.deadRet c false))
      | _ => some (s.set c { x with pc := .select, g := .wait })
    | _ => none
  | .gWait _ => match x.g, s.fin with
    | .wait, some r => some (s.set c { x with g := .got r })
    | _, _ => none
  | .gSend _ => match x.g with
    | .got r =>
      if x.kind = .dead then some (s.set c { x with g := .done } |>.emit (.closed c))
      else if x.buf = none then some (s.set c { x with g := .done, buf := some r })
      else none
    | _ => none
  | .stopRet _ => match x.pc, s.fin with
    | .wait, some r => some (s.set c { x with pc := .returned } |>.emit (.stopRet c r))
    | _, _ => none
  | .recv _ => match x.pc, x.buf with
    | .select, some r =>
      let s1 := s.set c { x with pc := .returned, buf := none }
      let s2 := if x.kind.fails r then s1.emit (.failed c) else s1
      some (s2.emit (.checkRet c (some r)))
    | _, _ => none
  | .late _ =>
    if x.pc = .select ∧ x.timer = true then
      let s1 := s.set c { x with pc := .returned }
      let s2 := if x.kind.failsLate then s1.emit (.failed c) else s1
      some (s2.emit (.checkRet c none))
    else none
  | _ => none

def Op.id? : Op → Option Nat
  | .call _ | .finish _ => none
  | .timeout c | .kill c | .go c _ | .gWait c | .gSend c | .stopRet c | .recv c | .late c => some c

def step (s : State) (op : Op) : Option State :=
  match op.id? with
  | some c => s.calls[c]?.bind (fun x => stepCall s c x op)
  | none => match op with
    | .call k => some ({ s with calls := s.calls ++ [Call.mk k .start .none none false] }.emit (.called s.calls.length k))
    | .finish r => if s.fin = none then some ({ s with fin := some r }.emit (.finished r)) else none
    | _ => none

inductive Reach : State → Prop
  | init : Reach Worker.init
  | step {s s' : State} (op : Op) : Reach s → step s op = some s' → Reach s'

end Verif.Worker
