import Verif.Tomb

/-!
# Model of catacomb/catacomb.go

One `Catacomb` (with identity `own`), any number of concurrent `Invoke` calls with it as `Site`, any number of concurrent
`Add`, `Kill`, `ErrDying` and `Wait` calls, its listen goroutine, its work goroutine, and for each worker added the two
goroutines of `add`. Each `Op` is one atomic step; the steps of different goroutines interleave arbitrarily.

What is atomic: a call of `tomb.Kill` (under the tomb's mutex), a channel rendezvous, a channel close, one WaitGroup
operation, the compare-and-swap of `dirty` with the `make` after it. Receiving from a closed channel, or returning from
`Wait` of a finished worker, is merged with the statement after it: both are stable, so doing them later makes no
difference.

Workers are numbered and arbitrary: `finish w e` lets worker `w` end with result `e` at any moment. The same worker may be
added several times.

Simplified: pprof labels and contexts are left out. A panic in one of the catacomb's calls ends the execution (in Go it
ends the process unless the caller recovers).
-/

namespace Verif.Catacomb

/-- sync.WaitGroup: the counter and the number of goroutines asleep in Wait. -/
structure Wg where
  n : Nat := 0
  waiters : Nat := 0
deriving DecidableEq, Repr

/-- WaitGroup.Add(d), d > 0. `none` is the panic "Add called concurrently with Wait". -/
def Wg.add (g : Wg) (d : Nat) : Option Wg :=
  if g.waiters ≠ 0 ∧ g.n = 0 then none else some { g with n := g.n + d }

/-- WaitGroup.Done(). `none` is the panic "negative WaitGroup counter". -/
def Wg.done (g : Wg) : Option Wg :=
  if g.n = 0 then none
  else if g.n = 1 then some { n := 0, waiters := 0 }
  else some { g with n := g.n - 1 }

/-- catacomb.go:37-51 Plan. `Name` and `Work` matter only through whether they are empty; `site` is false for a nil
Site. A nil element of Init is `none`. -/
structure Plan where
  name : Bool := true
  site : Bool := true
  work : Bool := true
  init : List (Option Nat) := []
deriving DecidableEq, Repr

/-- What Plan.Validate complains about. -/
inductive PlanErr
  | emptyName
  | nilSite
  | nilWork
  | nilInit (i : Nat)
deriving DecidableEq, Repr

/-- The loop of catacomb.go:66-70, from index `i` on. -/
def nilInit (i : Nat) : List (Option Nat) → Option PlanErr
  | [] => none
  | none :: _ => some (.nilInit i)
  | some _ :: ws => nilInit (i + 1) ws

/-- catacomb.go:56-72 Plan.Validate. -/
def Plan.validate (p : Plan) : Option PlanErr :=
  if !p.name then some .emptyName
  else if !p.site then some .nilSite
  else if !p.work then some .nilWork
  else nilInit 0 p.init

/-- What Invoke returns. -/
inductive InvErr
  | invalid (e : PlanErr)
  /-- catacomb.go:93 -/
  | used
deriving DecidableEq, Repr

/-- How the work func ends. -/
inductive WorkRes
  | ret (e : Option Err)
  | panic (v : Nat)
  | goexit
deriving DecidableEq, Repr

/-- What runSafely returns, if it does (catacomb.go:318-326). With Go 1.21 `recover` never returns nil after a panic. -/
def WorkRes.safely : WorkRes → Option (Option Err)
  | .ret e => some e
  | .panic v => some (some (.panicked v))
  | .goexit => none

/-- Where a tracked worker came from: an element of Init of an Invoke call, or an Add call. -/
inductive Src
  | init (i j : Nat)
  | add (c : Nat)
deriving DecidableEq, Repr

/-- Who calls Kill: the waiter goroutine of a tracked worker, the work goroutine, or anybody else. -/
inductive Caller
  | waiter (k : Nat)
  | work
  | client
deriving DecidableEq, Repr

/-- Events, for specifications. -/
inductive Ev
  /-- Invoke is called. -/
  | callInvoke (i : Nat) (p : Plan)
  /-- … gets past the used check. -/
  | claimed (i : Nat)
  /-- … returns. -/
  | invokeRet (i : Nat) (e : Option InvErr)
  /-- … Kill()s an Init worker because it is failing. -/
  | killI (i w : Nat)
  /-- Add is called. -/
  | callAdd (c w : Nat)
  /-- … Kill()s its worker. -/
  | killA (c w : Nat)
  /-- … returns. -/
  | addRet (c : Nat) (e : Option Err)
  /-- The two goroutines for worker `w` are started, as number `k`. -/
  | tracked (k w : Nat) (src : Src)
  /-- The killer goroutine Kill()s its worker. -/
  | killT (k w : Nat)
  /-- The waiter goroutine calls Kill with its worker's error. -/
  | workerKill (k : Nat) (e : Err)
  /-- The work func is called. -/
  | workCall
  /-- … ends. -/
  | workRet (r : WorkRes)
  /-- The work goroutine calls Kill with the result. -/
  | workKill (e : Option Err)
  /-- Somebody else calls Kill. -/
  | kill (e : Option Err)
  /-- One of these three calls of Kill panics instead. -/
  | killPanics (by_ : Caller) (e : Option Err)
  /-- ErrDying is called and returns. -/
  | errDying (e : Err)
  /-- The Dead channel is closed. -/
  | dead
  /-- Wait returns. -/
  | waitRet (e : Option Err)
  /-- A worker finishes. -/
  | finished (w : Nat) (e : Option Err)
deriving DecidableEq, Repr

/-- Where the waiter goroutine of `add` is (catacomb.go:187-193). -/
inductive WPc
  /-- in w.Wait -/
  | wait
  /-- about to call Kill -/
  | kill (e : Err)
  /-- about to close workerDone -/
  | close
  /-- about to call wg.Done -/
  | exit
  | done
deriving DecidableEq, Repr

/-- Where the killer goroutine of `add` is (catacomb.go:194-202). -/
inductive KPc
  | select
  /-- in w.Wait of worker.Stop -/
  | stop
  | done
deriving DecidableEq, Repr

/-- The two goroutines of one call of `add`. -/
structure Track where
  w : Nat
  waiter : WPc := .wait
  killer : KPc := .select
deriving DecidableEq, Repr

/-- Where an Add call is (catacomb.go:163-176). -/
inductive APc
  | select
  /-- in w.Wait of worker.Stop -/
  | stop
  | returned (e : Option Err)
deriving DecidableEq, Repr

/-- An Add call. `chan` says whether `catacomb.adds` had been made when the select was entered. -/
structure AddCall where
  w : Nat
  chan : Bool
  pc : APc := .select
deriving DecidableEq, Repr

/-- Where an Invoke call is (catacomb.go:81-134). -/
inductive IPc
  | start
  /-- in the loop over Init, with these workers left, starting with number `j` -/
  | adding (j : Nat) (ws : List (Option Nat))
  /-- about to start the work goroutine -/
  | go
  /-- about to return nil -/
  | ok
  /-- in stopWorkers, with these left -/
  | failing (e : InvErr) (ws : List (Option Nat))
  /-- in w.Wait of worker.Stop -/
  | failWait (e : InvErr) (w : Nat) (ws : List (Option Nat))
  | returned (e : Option InvErr)
deriving DecidableEq, Repr

structure InvCall where
  plan : Plan
  pc : IPc := .start
deriving DecidableEq, Repr

/-- Where the listen goroutine is (catacomb.go:107-117). -/
inductive LPc
  | none
  | select
  /-- about to call add with the worker of Add call `c` -/
  | adding (c w : Nat)
  | done
deriving DecidableEq, Repr

/-- Where the work goroutine is (catacomb.go:127-131). -/
inductive GPc
  | none
  /-- in the work func -/
  | running
  /-- about to call Kill with the result of runSafely -/
  | kill (e : Option Err)
  /-- about to call wg.Wait -/
  | wait
  /-- asleep in wg.Wait -/
  | asleep
  /-- woken up, still inside wg.Wait -/
  | woken
  /-- about to return to tomb -/
  | ret
  | done
deriving DecidableEq, Repr

structure State where
  tomb : Tomb := {}
  wg : Wg := {}
  /-- The Invoke call that set `dirty`; `dirty` is 1 iff there is one. -/
  owner : Option Nat := none
  listener : LPc := .none
  work : GPc := .none
  /-- The work func has called runtime.Goexit. -/
  goexit : Bool := false
  tracks : List Track := []
  adds : List AddCall := []
  invs : List InvCall := []
  /-- The results of finished workers. -/
  fin : AMap (Option Err) := .empty
  /-- A WaitGroup operation has panicked. -/
  wgPanic : Bool := false
  hist : List Ev := []
deriving DecidableEq, Repr

def init : State := {}

/-- Something has panicked. -/
def State.crashed (s : State) : Bool := s.tomb.panicked || s.wgPanic

/-- The Dying channel is closed. -/
def State.dying (s : State) : Bool := s.tomb.dying

def State.emit (s : State) (e : Ev) : State := { s with hist := e :: s.hist }
def State.setTrack (s : State) (k : Nat) (t : Track) : State := { s with tracks := s.tracks.set k t }
def State.setAdd (s : State) (c : Nat) (a : AddCall) : State := { s with adds := s.adds.set c a }
def State.setInv (s : State) (i : Nat) (v : InvCall) : State := { s with invs := s.invs.set i v }

/-- catacomb.go:252-263: what Kill passes on to the tomb. -/
def killArg (own : Nat) (err : Option Err) : Option Err :=
  let err := if err = some .tombDying then some .badKillTombDying else err
  match err with
  | none => none
  | some e => match e.asDying with
    | some c => if own ≠ c then some .badKillOther else some .tombDying
    | none => some e

/-- catacomb.go:252-270 Kill(err), called by `who`; `next` is the state in which the caller has moved on, which it does not
do if the tomb panics. -/
def kill (own : Nat) (s next : State) (err : Option Err) (who : Caller) (ev : Ev) : State :=
  let t := s.tomb.kill (killArg own err)
  if t.panicked then { s with tomb := t, hist := .killPanics who err :: s.hist }
  else { next with tomb := t, hist := ev :: next.hist }

/-- catacomb.go:276-283 ErrDying. -/
def errDying (own : Nat) (s : State) : Err := if s.dying then .catDying own else .badStillAlive

/-- github.com/juju/errors.Trace of a non-nil error. -/
def trace (e : Err) : Err := .wrap 0 e

/-- wg.Add(d). -/
def wgAdd (s : State) (d : Nat) : State :=
  match s.wg.add d with
  | some g => { s with wg := g }
  | none => { s with wgPanic := true }

/-- wg.Done(). The last one wakes the work goroutine if it is asleep in Wait. -/
def wgDone (s : State) : State :=
  match s.wg.done with
  | some g => { s with wg := g, work := if s.wg.waiters ≠ 0 ∧ g.waiters = 0 ∧ s.work = .asleep then .woken else s.work }
  | none => { s with wgPanic := true }

/-- catacomb.go:181-203 add. -/
def add (s : State) (w : Nat) (src : Src) : State :=
  let s1 := wgAdd s 2
  { s1 with tracks := s1.tracks ++ [Track.mk w .wait .select], hist := .tracked s1.tracks.length w src :: s1.hist }

inductive Op
  /-- Somebody calls Invoke. -/
  | callInvoke (p : Plan)
  /-- catacomb.go:88-95 -/
  | iBegin (i : Nat)
  /-- catacomb.go:100 -/
  | iAdd (i : Nat)
  /-- catacomb.go:106-117: the loop is over; start the listen goroutine -/
  | iListen (i : Nat)
  /-- catacomb.go:127 -/
  | iGo (i : Nat)
  /-- catacomb.go:133 -/
  | iOk (i : Nat)
  /-- catacomb.go:142-143: skip a nil worker, or Kill it -/
  | iKill (i : Nat)
  /-- worker.Stop's Wait returns -/
  | iWaitRet (i : Nat)
  /-- the deferred func is over -/
  | iFail (i : Nat)
  /-- Somebody calls Add. -/
  | callAdd (w : Nat)
  /-- catacomb.go:165-166: the Dying arm; Kill the worker -/
  | aDying (c : Nat)
  /-- catacomb.go:170: the worker is received by the listen goroutine -/
  | aSend (c : Nat)
  /-- catacomb.go:166-169 -/
  | aWaitRet (c : Nat)
  /-- catacomb.go:111-112 -/
  | lDying
  /-- catacomb.go:114 -/
  | lAdd
  /-- catacomb.go:190 -/
  | tWaitRet (k : Nat)
  /-- catacomb.go:191 -/
  | tKill (k : Nat)
  /-- catacomb.go:189 -/
  | tClose (k : Nat)
  /-- catacomb.go:188 -/
  | tExit (k : Nat)
  /-- catacomb.go:197-198: the Dying arm; Kill the worker -/
  | kDying (k : Nat)
  /-- catacomb.go:198, 195 -/
  | kWaitRet (k : Nat)
  /-- catacomb.go:199, 195 -/
  | kClosed (k : Nat)
  /-- The work func ends (catacomb.go:129). -/
  | workRet (r : WorkRes)
  /-- catacomb.go:129 -/
  | workKill
  /-- catacomb.go:128 -/
  | wgWait
  /-- wg.Wait returns after having slept -/
  | wgWake
  /-- catacomb.go:130: the func given to tomb.Go has returned (or its goroutine has ended) -/
  | workEnd
  /-- Somebody calls Kill. -/
  | killCall (e : Option Err)
  /-- Somebody calls ErrDying. -/
  | callErrDying
  /-- Somebody's Wait returns. -/
  | waitCall
  /-- A worker finishes. -/
  | finish (w : Nat) (e : Option Err)
deriving DecidableEq, Repr

/-- The steps of Invoke calls. -/
def stepInv (s : State) (i : Nat) (v : InvCall) : Op → Option State
  | .iBegin _ => match v.pc with
    | .start => match v.plan.validate with
      | some e => some (s.setInv i { v with pc := .failing (.invalid e) v.plan.init })
      | none => match s.owner with
        | some _ => some (s.setInv i { v with pc := .failing .used v.plan.init })
        | none => some ({ s with owner := some i }.setInv i { v with pc := .adding 0 v.plan.init } |>.emit (.claimed i))
    | _ => none
  | .iAdd _ => match v.pc with
    | .adding j (some w :: ws) => some ((add s w (.init i j)).setInv i { v with pc := .adding (j + 1) ws })
    | _ => none
  | .iListen _ => match v.pc with
    | .adding _ [] => some ({ wgAdd s 1 with listener := .select }.setInv i { v with pc := .go })
    | _ => none
  | .iGo _ => match v.pc with
    | .go => some ({ s with work := .running, tomb := s.tomb.go }.setInv i { v with pc := .ok } |>.emit .workCall)
    | _ => none
  | .iOk _ => match v.pc with
    | .ok => some (s.setInv i { v with pc := .returned none } |>.emit (.invokeRet i none))
    | _ => none
  | .iKill _ => match v.pc with
    | .failing e (none :: ws) => some (s.setInv i { v with pc := .failing e ws })
    | .failing e (some w :: ws) => some (s.setInv i { v with pc := .failWait e w ws } |>.emit (.killI i w))
    | _ => none
  | .iWaitRet _ => match v.pc with
    | .failWait e w ws => if (s.fin.get? w).isSome then some (s.setInv i { v with pc := .failing e ws }) else none
    | _ => none
  | .iFail _ => match v.pc with
    | .failing e [] => some (s.setInv i { v with pc := .returned (some e) } |>.emit (.invokeRet i (some e)))
    | _ => none
  | _ => none

/-- The steps of Add calls. -/
def stepAdd (own : Nat) (s : State) (c : Nat) (a : AddCall) : Op → Option State
  | .aDying _ => match a.pc with
    | .select => if s.dying then some (s.setAdd c { a with pc := .stop } |>.emit (.killA c a.w)) else none
    | _ => none
  | .aSend _ => match a.pc with
    | .select =>
      if a.chan ∧ s.listener = .select then
        some ({ s with listener := .adding c a.w }.setAdd c { a with pc := .returned none } |>.emit (.addRet c none))
      else none
    | _ => none
  | .aWaitRet _ => match a.pc with
    | .stop => match s.fin.get? a.w with
      | some (some e) => some (s.setAdd c { a with pc := .returned (some (trace e)) } |>.emit (.addRet c (some (trace e))))
      | some none =>
        some (s.setAdd c { a with pc := .returned (some (errDying own s)) } |>.emit (.addRet c (some (errDying own s))))
      | none => none
    | _ => none
  | _ => none

/-- The steps of the goroutines of `add`. -/
def stepTrack (own : Nat) (s : State) (k : Nat) (t : Track) : Op → Option State
  | .tWaitRet _ => match t.waiter with
    | .wait => match s.fin.get? t.w with
      | some (some e) => some (s.setTrack k { t with waiter := .kill e })
      | some none => some (s.setTrack k { t with waiter := .close })
      | none => none
    | _ => none
  | .tKill _ => match t.waiter with
    | .kill e => some (kill own s (s.setTrack k { t with waiter := .close }) (some e) (.waiter k) (.workerKill k e))
    | _ => none
  | .tClose _ => match t.waiter with
    | .close => some (s.setTrack k { t with waiter := .exit })
    | _ => none
  | .tExit _ => match t.waiter with
    | .exit => some (wgDone (s.setTrack k { t with waiter := .done }))
    | _ => none
  | .kDying _ => match t.killer with
    | .select => if s.dying then some (s.setTrack k { t with killer := .stop } |>.emit (.killT k t.w)) else none
    | _ => none
  | .kWaitRet _ => match t.killer with
    | .stop => if (s.fin.get? t.w).isSome then some (wgDone (s.setTrack k { t with killer := .done })) else none
    | _ => none
  | .kClosed _ => match t.killer with
    | .select =>
      if t.waiter = .exit ∨ t.waiter = .done then some (wgDone (s.setTrack k { t with killer := .done })) else none
    | _ => none
  | _ => none

/-- The other steps. -/
def stepMain (own : Nat) (s : State) : Op → Option State
  | .callInvoke p => some ({ s with invs := s.invs ++ [InvCall.mk p .start] }.emit (.callInvoke s.invs.length p))
  | .callAdd w =>
    some ({ s with adds := s.adds ++ [AddCall.mk w s.owner.isSome .select] }.emit (.callAdd s.adds.length w))
  | .lDying => match s.listener with
    | .select => if s.dying then some (wgDone { s with listener := .done }) else none
    | _ => none
  | .lAdd => match s.listener with
    | .adding c w => some (add { s with listener := .select } w (.add c))
    | _ => none
  | .workRet r => match s.work with
    | .running => match r.safely with
      | some e => some ({ s with work := .kill e }.emit (.workRet r))
      | none => some ({ s with work := .wait, goexit := true }.emit (.workRet r))
    | _ => none
  | .workKill => match s.work with
    | .kill e => some (kill own s { s with work := .wait } e .work (.workKill e))
    | _ => none
  | .wgWait => match s.work with
    | .wait =>
      if s.wg.n = 0 then some { s with work := .ret }
      else some { s with work := .asleep, wg := { s.wg with waiters := s.wg.waiters + 1 } }
    | _ => none
  | .wgWake => match s.work with
    | .woken => if s.wg = {} then some { s with work := .ret } else some { s with wgPanic := true }
    | _ => none
  | .workEnd => match s.work with
    | .ret =>
      if s.goexit then some { s with work := .done }
      else some ({ s with work := .done, tomb := s.tomb.finish none }.emit .dead)
    | _ => none
  | .killCall e => some (kill own s s e .client (.kill e))
  | .callErrDying => some (s.emit (.errDying (errDying own s)))
  | .waitCall => match s.tomb.wait with
    | some r => some (s.emit (.waitRet r))
    | none => none
  | .finish w e =>
    if s.fin.get? w = none then some ({ s with fin := s.fin.set w e }.emit (.finished w e)) else none
  | _ => none

/-- The Invoke call, Add call or tracked worker an operation belongs to. -/
def Op.inv? : Op → Option Nat
  | .iBegin i | .iAdd i | .iListen i | .iGo i | .iOk i | .iKill i | .iWaitRet i | .iFail i => some i
  | _ => none
def Op.add? : Op → Option Nat
  | .aDying c | .aSend c | .aWaitRet c => some c
  | _ => none
def Op.track? : Op → Option Nat
  | .tWaitRet k | .tKill k | .tClose k | .tExit k | .kDying k | .kWaitRet k | .kClosed k => some k
  | _ => none

def step (own : Nat) (s : State) (op : Op) : Option State :=
  if s.crashed then none else
  match op.inv?, op.add?, op.track? with
  | some i, _, _ => s.invs[i]?.bind (fun v => stepInv s i v op)
  | _, some c, _ => s.adds[c]?.bind (fun a => stepAdd own s c a op)
  | _, _, some k => s.tracks[k]?.bind (fun t => stepTrack own s k t op)
  | _, _, _ => stepMain own s op

/-- Everything that can happen. -/
inductive Reach (own : Nat) : State → Prop
  | init : Reach own Catacomb.init
  | step {s s' : State} (op : Op) : Reach own s → step own s op = some s' → Reach own s'

end Verif.Catacomb
