import Verif.Tomb

/-!
# Model of runner.go

One `Runner` with its `run` goroutine, its `runWorker` goroutines, and any number of concurrent client calls. Each
`Op` is one atomic step; the steps of different goroutines interleave arbitrarily.

What is atomic: the body of a critical section under `runner.mu` (every access to `runner.workers` that another
goroutine could see is inside one; C85) except killAll's, a channel rendezvous, and runs of statements that only touch variables of their
own goroutine. `runner.mu` itself is modelled: it is held by a `workerInfo` helper goroutine between the caller's
first look at the table and its `Cond.Wait`, and by the loop while it kills one worker after the other in killAll; every other critical section has to wait for that.

Simplified: the logger, pprof labels, `notifyStarted` (test only) and the content of nested reports are left out; a
StartFunc that panics crashes the process in Go and is not modelled; StartFuncs do not return (nil, nil); workers do
not call back into the runner from Kill or Report; a worker is not the runner itself.
-/

namespace Verif.Runner

/-- runner.go:145-186 RunnerParams, without Name, Clock and Logger; `none` is a nil func. -/
structure RawParams where
  isFatal : Option (Err → Bool) := none
  shouldRestart : Option (Err → Bool) := none
  moreImportant : Option (Err → Err → Bool) := none
  restartDelay : Int := 0

/-- The parameters after NewRunner has filled in the defaults. -/
structure Params where
  isFatal : Err → Bool
  shouldRestart : Err → Bool
  moreImportant : Err → Err → Bool
  restartDelay : Int

/-- runner.go:21 DefaultRestartDelay, in nanoseconds. -/
def defaultRestartDelay : Int := 3000000000

/-- runner.go:211-228: NewRunner's defaults. -/
def applyDefaults (p : RawParams) : Params where
  isFatal := p.isFatal.getD (fun _ => true)
  shouldRestart := p.shouldRestart.getD (fun _ => true)
  moreImportant := p.moreImportant.getD (fun _ _ => true)
  restartDelay := if p.restartDelay = 0 then defaultRestartDelay else p.restartDelay

/-- runner.go:73-103 workerInfo. `rid` identifies the registration and its `done` channel; `start` is the StartFunc,
`none` being nil; workers are numbered. -/
structure WInfo where
  rid : Nat
  worker : Option Nat := none
  start : Option Nat := none
  restartDelay : Int := 0
  stopping : Bool := false
  started : Int := 0
deriving DecidableEq, Repr

/-- The values of KeyState. -/
inductive Status | stopping | stopped | started
deriving DecidableEq, Repr

/-- runner.go:105-113 status. -/
def WInfo.status (i : WInfo) : Status :=
  if i.stopping && i.worker.isSome then .stopping
  else if i.worker.isNone then .stopped
  else .started

/-- runner.go:681-683: `started.IsZero()` hides the time. -/
def WInfo.lastStart (i : WInfo) : Option Int := if i.started = (0 : Int) then none else some i.started

/-- Where a `runWorker` goroutine (runner.go:620-665) is. -/
inductive Pc
  /-- the select of 625-630 -/
  | delaying
  /-- about to call the StartFunc, 656 -/
  | ready
  /-- inside the StartFunc -/
  | starting
  /-- sending on startedc, 660 -/
  | sendStarted (w : Nat)
  /-- in worker.Wait(), 661 -/
  | waiting (w : Nat)
  /-- sending on donec, 627, 654 or 664 -/
  | sendDone (e : Option Err)
  /-- donec was received: the goroutine is gone; kept until the loop has processed the message -/
  | gone (e : Option Err)
deriving DecidableEq, Repr

/-- A `runWorker` goroutine: its arguments and where it is. `ctx` is the parent of its context: the context of the
StartWorker call with that number (runner.go:492), or `none` for context.Background() (554). -/
structure G where
  gid : Nat
  id : Name
  delay : Int
  sf : Nat
  ctx : Option Nat
  pc : Pc
deriving DecidableEq, Repr

/-- A message the loop has received (runner.go:115-130). The goroutine numbers are not part of the Go messages; they
only label events. -/
inductive Msg
  | start (cid : Nat) (id : Name) (sf : Nat)
  | stop (id : Name)
  | started (gid : Nat) (id : Name) (w : Nat)
  | done (gid : Nat) (id : Name) (e : Option Err)
deriving DecidableEq, Repr

/-- Where the `run` goroutine (runner.go:427-460) is. -/
inductive LoopPc
  /-- 430-432 -/
  | top
  /-- 433 -/
  | select
  /-- 442, 446, 450 or 456: handling a message -/
  | act (m : Msg)
  /-- 437 or 532: about to run killAll -/
  | killAll
  /-- in killAll, 587-589, holding mu, with the ids still to be visited -/
  | killing (rest : List Name)
  /-- 442: sending the reply of StartWorker -/
  | reply (cid : Nat) (r : Option Err)
  /-- 458 -/
  | bcast
  /-- returned -/
  | exited
deriving DecidableEq, Repr

/-- The run goroutine holds runner.mu. Other critical sections of it are one step. -/
def LoopPc.locked : LoopPc → Bool
  | .killing _ => true
  | _ => false

/-- The run goroutine is about to run killAll, or in it. -/
@[simp] def LoopPc.busy : LoopPc → Bool
  | .killAll | .killing _ => true
  | _ => false

/-- What `getWorker` (runner.go:350-358) finds, if the caller need not wait. -/
inductive Found
  | worker (w : Nat) (rid : Nat)
  | notFound
deriving DecidableEq, Repr

/-- Where the helper goroutine of `workerInfo` (runner.go:382-398) is. -/
inductive HPc
  /-- 385-388, holding mu -/
  | check
  /-- 391, holding mu, about to enter Cond.Wait -/
  | enter
  /-- asleep in Cond.Wait -/
  | sleep
  /-- woken in Cond.Wait, waiting for mu -/
  | woken
  /-- returned -/
  | done
deriving DecidableEq, Repr

/-- The helper with its `stopped` and `wc` channels. -/
structure Helper where
  id : Name
  pc : HPc := .check
  stopped : Bool := false
  wc : Option Found := none
deriving DecidableEq, Repr

/-- What a client call returned. -/
inductive Ret
  /-- nil -/
  | ok
  /-- an error of the runner -/
  | err (e : Err)
  /-- a worker and nil -/
  | worker (w : Nat)
  /-- StopAndRemoveWorker: the worker's result -/
  | result (e : Option Err)
deriving DecidableEq, Repr

/-- Where a client call is. -/
inductive CPc
  /-- StartWorker's select, runner.go:260-269 -/
  | startSend (id : Name) (sf : Nat)
  /-- 266 -/
  | startReply
  /-- StopWorker's select, 278-282 -/
  | stopSend (id : Name)
  /-- workerInfo: about to lock mu, 346 -/
  | lock (id : Name)
  /-- 368-373, with the result -/
  | immediate (id : Name) (r : Found)
  /-- 399-416 -/
  | waiting (id : Name)
  /-- 401-412, with the result from the helper -/
  | gotWc (id : Name) (r : Found)
  /-- 422: about to close `stopped` -/
  | closing (id : Name)
  /-- 423: about to broadcast -/
  | bcasting (id : Name)
  /-- StopAndRemoveWorker: about to call w.Kill() inside Stop, 296 -/
  | removeKill (w : Nat) (rid : Nat)
  /-- in w.Wait() inside Stop, 296 -/
  | removeWait (w : Nat) (rid : Nat)
  /-- 298-303 -/
  | removeSelect (w : Nat) (rid : Nat) (e : Option Err)
  | returned (r : Ret)
deriving DecidableEq, Repr

/-- A client call. `remove` tells StopAndRemoveWorker from Worker; `cancelled` says that its context is done or its
abort channel closed. -/
structure Client where
  cid : Nat
  remove : Bool := false
  pc : CPc
  cancelled : Bool := false
  helper : Option Helper := none
deriving DecidableEq, Repr

/-- One line of Runner.Report (runner.go:672-696). -/
structure Line where
  id : Name
  status : Status
  lastStart : Option Int
  /-- whether the worker's own report is included -/
  nested : Bool
deriving DecidableEq, Repr

/-- Observable events, recorded newest first. -/
inductive Ev
  /-- the StartWorker request of a call was accepted: the id is now registered, as registration `rid` -/
  | accepted (cid : Nat) (id : Name) (rid : Nat) (sf : Nat)
  /-- the StartWorker request of a call was refused because the id is registered -/
  | refused (cid : Nat) (id : Name)
  /-- the StartWorker request of a call was ignored because the runner is shutting down -/
  | ignored (cid : Nat) (id : Name)
  /-- a start attempt was scheduled (a runWorker goroutine), after the given delay -/
  | begin (id : Name) (gid : Nat) (delay : Int) (sf : Nat)
  /-- the StartFunc was called -/
  | startCall (id : Name) (gid : Nat) (sf : Nat)
  /-- the StartFunc returned a worker -/
  | startOk (id : Name) (gid : Nat) (w : Nat)
  /-- the StartFunc returned an error or called Goexit -/
  | startErr (id : Name) (gid : Nat) (e : Err)
  /-- the loop learned of the worker -/
  | learned (id : Name) (gid : Nat) (w : Nat)
  /-- a StopWorker request was handled -/
  | stopHandled (id : Name)
  /-- the registration was told to stop -/
  | told (id : Name)
  /-- the runner called `w.Kill()` for the id -/
  | killW (id : Name) (w : Nat)
  /-- StopAndRemoveWorker called `w.Kill()` -/
  | clientKillW (cid : Nat) (w : Nat)
  /-- the worker finished: its Wait returns `e` from now on -/
  | finished (w : Nat) (e : Option Err)
  /-- the runner processed the end of an attempt -/
  | ended (id : Name) (gid : Nat) (e : Option Err)
  /-- the registration was removed -/
  | removed (id : Name) (rid : Nat)
  /-- the runner started shutting down -/
  | shutdown
  /-- Runner.Kill -/
  | kill
  /-- the run goroutine returned -/
  | exit
  /-- client calls: StartWorker, StopWorker, Worker, StopAndRemoveWorker -/
  | callStart (cid : Nat) (id : Name) (sf : Nat)
  | callStop (cid : Nat) (id : Name)
  | callWorker (cid : Nat) (id : Name)
  | callRemove (cid : Nat) (id : Name)
  /-- the context or abort channel of a call was closed -/
  | cancelled (cid : Nat)
  /-- the call returned -/
  | ret (cid : Nat) (r : Ret)
  /-- the StartFunc or the worker of an attempt looked whether its context is done -/
  | ctx (gid : Nat) (done : Bool)
  | report (lines : List Line)
  | names (l : List Name)
deriving DecidableEq, Repr

/-- The runner (runner.go:31-70), its goroutines, the environment's workers that have finished, and the history.
`dyingArm` says that the local variable `tombDying` is not nil; `tokens` are the `done` channels with a value in their
buffer; `crashed` records a nil dereference, or a send that would block the loop forever while it holds mu. -/
structure Tab where
  tomb : Tomb := { alive := 1 }
  isDying : Bool := false
  finalError : Option Err := none
  workers : AMap WInfo := .empty
  pc : LoopPc := .top
  dyingArm : Bool := true
  gs : List G := []
  nextG : Nat := 0
  nextR : Nat := 0
  tokens : List Nat := []
  finished : AMap (Option Err) := .empty
  crashed : Bool := false
  hist : List Ev := []
deriving DecidableEq, Repr

/-- All of it: the runner, runner.mu and the client calls. `mu` is the call whose helper goroutine holds runner.mu, if
one does; the run goroutine may hold it too (`LoopPc.locked`). -/
structure State where
  tab : Tab := {}
  mu : Option Nat := none
  clients : List Client := []
  nextC : Nat := 0
deriving DecidableEq, Repr

/-- runner.go:206-247 NewRunner (after validation). -/
def init : State := {}

namespace Tab

def log (t : Tab) (e : Ev) : Tab := { t with hist := e :: t.hist }

/-- runner.tomb.Dying() is closed. -/
def dying (t : Tab) : Bool := t.tomb.dying

def getG (t : Tab) (gid : Nat) : Option G := t.gs.find? (fun g => g.gid = gid)

/-- Move a goroutine. -/
def gto (t : Tab) (gid : Nat) (p : Pc) : Tab :=
  { t with gs := t.gs.map (fun g => if g.gid = gid then { g with pc := p } else g) }

/-- The loop is at `p` next. -/
def goTo (t : Tab) (p : LoopPc) : Tab := { t with pc := p }

def setInfo (t : Tab) (id : Name) (i : WInfo) : Tab := { t with workers := t.workers.set id i }

end Tab

open Tab

/-- runner.go:603-617 killWorkerLocked. -/
def killLocked (t : Tab) (id : Name) : Tab :=
  match t.workers.get? id with
  | none => t
  | some info =>
    let t1 := (t.setInfo id { info with stopping := true, start := none, worker := none }).log (.told id)
    match info.worker with
    | some w => t1.log (.killW id w)
    | none => t1

/-- runner.go:493, 555: `go runner.runWorker(...)`; a goroutine with no delay goes straight to the StartFunc (621). -/
def spawn (t : Tab) (id : Name) (delay : Int) (sf : Nat) (ctx : Option Nat) : Tab :=
  { t with
    gs := { gid := t.nextG, id := id, delay := delay, sf := sf, ctx := ctx,
            pc := if 0 < delay then .delaying else .ready } :: t.gs
    nextG := t.nextG + 1
    hist := .begin id t.nextG delay sf :: t.hist }

/-- runner.go:563-568 removeWorker. The send blocks if the buffered channel already holds a value. -/
def removeWorker (t : Tab) (id : Name) (rid : Nat) : Tab :=
  { t with
    workers := t.workers.erase id
    crashed := t.crashed || t.tokens.contains rid
    tokens := rid :: t.tokens
    hist := .removed id rid :: t.hist }

/-- runner.go:484-490: the new entry. -/
def register (p : Params) (t : Tab) (cid : Nat) (id : Name) (sf : Nat) (now : Int) : Tab :=
  { t with
    workers := t.workers.set id
      { rid := t.nextR, start := some sf, restartDelay := p.restartDelay, started := now }
    nextR := t.nextR + 1
    hist := .accepted cid id t.nextR sf :: t.hist }

/-- runner.go:464-496 startWorker, from where it is known that the request is accepted. -/
def acceptStart (p : Params) (t : Tab) (cid : Nat) (id : Name) (sf : Nat) (now : Int) : Tab :=
  spawn (register p t cid id sf now) id 0 sf (some cid)

/-- runner.go:571-581 setWorker. -/
def setWorker (t : Tab) (gid : Nat) (id : Name) (w : Nat) : Tab :=
  match t.workers.get? id with
  | none => { t with crashed := true }
  | some info =>
    let t1 := (t.setInfo id { info with worker := some w }).log (.learned id gid w)
    if t.isDying || info.stopping then killLocked t1 id else t1

/-- runner.go:526-528: the fatal error to return. -/
def noteFatal (p : Params) (t : Tab) (e : Err) : Tab :=
  { t with finalError := match t.finalError with
    | none => some e
    | some f => if p.moreImportant e f then some e else some f }

/-- The goroutine whose message has been processed is gone. -/
def dropG (t : Tab) (gid : Nat) : Tab := { t with gs := t.gs.filter (fun g => g.gid != gid) }

/-- What workerDone decides to do. -/
inductive Fate
  /-- remove the entry -/
  | remove
  /-- remove the entry, and shut down because of the error -/
  | fatal (e : Err)
  /-- run it again -/
  | restart (sf : Nat)
deriving DecidableEq, Repr

/-- runner.go:546-555: the end of workerDone. -/
def lastFate (info : WInfo) : Fate :=
  match info.start with
  | none => .remove
  | some sf => .restart sf

/-- runner.go:510-555: the decisions of workerDone. -/
def fate (p : Params) (info : WInfo) (e : Option Err) : Fate :=
  if !info.stopping && e.isNone then .remove
  else match e with
    | some err =>
      if p.isFatal err then .fatal err
      else if !p.shouldRestart err then .remove
      else lastFate info
    | none => lastFate info

/-- runner.go:530-532: the rest of handling a fatal error. -/
def beginShutdown (t : Tab) : Tab :=
  if t.isDying then t.goTo .bcast else ({ t with isDying := true }.log .shutdown).goTo .killAll

/-- runner.go:507-558 workerDone; the loop then goes to `killAll` or `bcast`. -/
def workerDone (p : Params) (t0 : Tab) (gid : Nat) (id : Name) (e : Option Err) : Tab :=
  match t0.workers.get? id with
  | none => { t0 with crashed := true }
  | some info =>
    let t := (dropG t0 gid).log (.ended id gid e)
    match fate p info e with
    | .remove => (removeWorker t id info.rid).goTo .bcast
    | .fatal err => beginShutdown (removeWorker (noteFatal p t err) id info.rid)
    | .restart sf =>
      (spawn (t.setInfo id { info with restartDelay := p.restartDelay }) id info.restartDelay sf none).goTo .bcast

/-- Whether handling the message needs runner.mu: refusing or ignoring a start request does not (465-472), nor does
restarting a worker (554-557). -/
def needsMu (p : Params) (t : Tab) : Msg → Bool
  | .start _ id _ => !t.isDying && (t.workers.get? id).isNone
  | .done _ id e => match t.workers.get? id with
    | some info => match fate p info e with
      | .restart _ => false
      | _ => true
    | none => true
  | _ => true

/-- runner.go:440-457: handling a message. -/
def act (p : Params) (t : Tab) (now : Int) : Msg → Tab
  | .start cid id sf =>
    if t.isDying then (t.log (.ignored cid id)).goTo (.reply cid none)
    else if (t.workers.get? id).isSome then (t.log (.refused cid id)).goTo (.reply cid (some (.alreadyExists id)))
    else (acceptStart p t cid id sf now).goTo (.reply cid none)
  | .stop id => (killLocked (t.log (.stopHandled id)) id).goTo .bcast
  | .started gid id w => (setWorker t gid id w).goTo .bcast
  | .done gid id e => workerDone p t gid id e

/-- runner.go:350-358 getWorker; `none` if the caller has to wait. -/
def getWorker (t : Tab) (id : Name) : Option Found :=
  match t.workers.get? id with
  | none => some .notFound
  | some info => match info.worker with
    | some w => some (.worker w info.rid)
    | none => none

/-- runner.go:676-691: the line of Report for an entry. -/
def lineOf (id : Name) (info : WInfo) : Line :=
  { id := id, status := info.status, lastStart := info.lastStart, nested := info.worker.isSome }

/-- runner.go:672-696 Report; `order` is the iteration order of the map. -/
def reportLines (t : Tab) (order : List Name) : List Line :=
  order.filterMap (fun id => (t.workers.get? id).map (lineOf id))

namespace State

def log (s : State) (e : Ev) : State := { s with tab := s.tab.log e }

def withTab (s : State) (t : Tab) : State := { s with tab := t }

def mapC (s : State) (cid : Nat) (f : Client → Client) : State :=
  { s with clients := s.clients.map (fun c => if c.cid = cid then f c else c) }

def getC (s : State) (cid : Nat) : Option Client := s.clients.find? (fun c => c.cid = cid)

/-- Move a client call. -/
def cto (s : State) (cid : Nat) (p : CPc) : State := s.mapC cid (fun c => { c with pc := p })

/-- Change the helper of a client call. -/
def mapH (s : State) (cid : Nat) (f : Helper → Helper) : State :=
  s.mapC cid (fun c => { c with helper := c.helper.map f })

/-- Return from a client call. -/
def return_ (s : State) (cid : Nat) (r : Ret) : State := (s.cto cid (.returned r)).log (.ret cid r)

def setMu (s : State) (m : Option Nat) : State := { s with mu := m }

/-- Nobody holds runner.mu. -/
def muFree (s : State) : Bool := s.mu.isNone && !s.tab.pc.locked

end State

/-- sync.Cond.Broadcast: a sleeping helper is woken. -/
def Helper.wake (h : Helper) : Helper := if h.pc = .sleep then { h with pc := .woken } else h

/-- sync.Cond.Broadcast: every sleeping helper is woken. -/
def broadcast (s : State) : State :=
  { s with clients := s.clients.map (fun c => { c with helper := c.helper.map Helper.wake }) }

/-- What workerInfo's caller does with its result (runner.go:292-296, 327-328). -/
def afterInfo (s : State) (c : Client) (id : Name) (r : Found) : State :=
  match r with
  | .notFound => s.return_ c.cid (.err (.notFound id))
  | .worker w rid => if c.remove then s.cto c.cid (.removeKill w rid) else s.return_ c.cid (.worker w)

/-- The steps. -/
inductive Op
  /-- Runner.Kill, runner.go:312-315 -/
  | kill
  /-- clients call StartWorker, StopWorker, Worker and StopAndRemoveWorker -/
  | callStart (id : Name) (sf : Nat)
  | callStop (id : Name)
  | callWorker (id : Name)
  | callRemove (id : Name)
  /-- the call's context is done or its abort channel closed -/
  | cancel (cid : Nat)
  /-- Report and WorkerNames, runner.go:672-696, 334-343; `order` is the iteration order of the map -/
  | report (order : List Name)
  | names (order : List Name)
  /-- 430-432 -/
  | loopTop
  /-- 434-438 -/
  | recvDying
  /-- 440 -/
  | recvStart (cid : Nat)
  /-- 444 -/
  | recvStop (cid : Nat)
  /-- 448 -/
  | recvStarted (gid : Nat)
  /-- 454 -/
  | recvDone (gid : Nat)
  /-- handling the message; `now` is the time -/
  | act (now : Int)
  /-- 584-587: killAll begins; `order` is the iteration order of the map -/
  | killAll (order : List Name)
  /-- 588: the next id of the map, or 587, 586: there is none and mu is unlocked -/
  | killNext
  /-- 442, 266: the reply is received -/
  | reply
  /-- 458 -/
  | bcast
  /-- 626-628: the tomb is dying during the delay -/
  | gDying (gid : Nat)
  /-- 629: the delay has elapsed -/
  | gTimer (gid : Nat)
  /-- 656: the StartFunc is called -/
  | gCall (gid : Nat)
  /-- the StartFunc returns a worker, returns an error, or calls Goexit -/
  | gStartOk (gid : Nat) (w : Nat)
  | gStartErr (gid : Nat) (e : Err)
  | gGoexit (gid : Nat)
  /-- the StartFunc, or the worker it returned, looks at its context -/
  | gCtx (gid : Nat)
  /-- 661: worker.Wait() returns -/
  | gWaitRet (gid : Nat)
  /-- StartWorker and StopWorker: the context is done or the runner dead -/
  | cDead (cid : Nat)
  /-- workerInfo: lock mu and look -/
  | cLock (cid : Nat)
  /-- 368-373 -/
  | cImmediate (cid : Nat)
  /-- 400: receive from the helper -/
  | cRecv (cid : Nat)
  /-- 401-412 -/
  | cGotWc (cid : Nat)
  /-- 413-414 -/
  | cDying (cid : Nat)
  /-- 415: aborted -/
  | cAbort (cid : Nat)
  /-- 422 -/
  | cClose (cid : Nat)
  /-- 423-424 -/
  | cBcast (cid : Nat)
  /-- 296: Kill and Wait inside Stop -/
  | cKill (cid : Nat)
  | cWaitRet (cid : Nat)
  /-- 299 -/
  | cRemoveAbort (cid : Nat)
  /-- 300-301 -/
  | cRemoved (cid : Nat)
  /-- the helper: 385-388 -/
  | hCheck (cid : Nat)
  /-- 391: enter Cond.Wait, releasing mu -/
  | hEnter (cid : Nat)
  /-- 391-394: leave Cond.Wait with mu, look, and go on -/
  | hWake (cid : Nat)
  /-- the worker finishes -/
  | finish (w : Nat) (e : Option Err)
deriving DecidableEq, Repr

/-- runner.go:492, 554: whether the context of an attempt (a child of the runner's tomb) is done. -/
def ctxDone (s : State) (g : G) : Bool :=
  s.tab.dying || s.clients.any (fun c => g.ctx = some c.cid && c.cancelled)

/-- The StartFunc has been called and what it started has not ended. -/
def Pc.inUser : Pc → Bool
  | .starting | .sendStarted _ | .waiting _ => true
  | _ => false

/-- A new client call. -/
def newClient (s : State) (c : Client) (e : Ev) : State :=
  { s with tab := s.tab.log e, clients := { c with cid := s.nextC } :: s.clients, nextC := s.nextC + 1 }

/-- A step of the loop or of a runWorker goroutine that only the table part takes part in. -/
def tabStep (p : Params) (s : State) : Op → Option Tab
  | .kill => some ({ s.tab with tomb := s.tab.tomb.kill none }.log .kill)
  | .loopTop =>
    if s.tab.pc = .top then
      if s.tab.isDying && s.tab.workers.keys.isEmpty then
        some (({ s.tab with tomb := s.tab.tomb.finish s.tab.finalError }.log .exit).goTo .exited)
      else some (s.tab.goTo .select)
    else none
  | .recvDying =>
    if s.tab.pc = .select ∧ s.tab.dyingArm = true ∧ s.tab.dying = true then
      some (({ s.tab with isDying := true, dyingArm := false }.log .shutdown).goTo .killAll)
    else none
  | .recvStarted gid =>
    if s.tab.pc = .select then
      match s.tab.getG gid with
      | some g => match g.pc with
        | .sendStarted w => some ((s.tab.gto gid (.waiting w)).goTo (.act (.started gid g.id w)))
        | _ => none
      | none => none
    else none
  | .recvDone gid =>
    if s.tab.pc = .select then
      match s.tab.getG gid with
      | some g => match g.pc with
        | .sendDone e => some ((s.tab.gto gid (.gone e)).goTo (.act (.done gid g.id e)))
        | _ => none
      | none => none
    else none
  | .act now =>
    match s.tab.pc with
    | .act m => if needsMu p s.tab m = false ∨ s.mu = none then some (act p s.tab now m) else none
    | _ => none
  | .killAll order =>
    if s.tab.pc = .killAll ∧ s.mu = none ∧ isRangeOrder s.tab.workers order = true then
      some (s.tab.goTo (.killing order))
    else none
  | .killNext =>
    match s.tab.pc with
    | .killing [] => some (s.tab.goTo .bcast)
    | .killing (id :: rest) => some ((killLocked s.tab id).goTo (.killing rest))
    | _ => none
  | .gDying gid =>
    match s.tab.getG gid with
    | some g => if g.pc = .delaying ∧ s.tab.dying = true then some (s.tab.gto gid (.sendDone none)) else none
    | none => none
  | .gTimer gid =>
    match s.tab.getG gid with
    | some g => if g.pc = .delaying then some (s.tab.gto gid .ready) else none
    | none => none
  | .gCall gid =>
    match s.tab.getG gid with
    | some g => if g.pc = .ready then some ((s.tab.gto gid .starting).log (.startCall g.id gid g.sf)) else none
    | none => none
  | .gStartOk gid w =>
    match s.tab.getG gid with
    | some g =>
      if g.pc = .starting then some ((s.tab.gto gid (.sendStarted w)).log (.startOk g.id gid w)) else none
    | none => none
  | .gStartErr gid e =>
    match s.tab.getG gid with
    | some g =>
      if g.pc = .starting then some ((s.tab.gto gid (.sendDone (some e))).log (.startErr g.id gid e)) else none
    | none => none
  | .gGoexit gid =>
    match s.tab.getG gid with
    | some g =>
      if g.pc = .starting then some ((s.tab.gto gid (.sendDone (some .goexit))).log (.startErr g.id gid .goexit))
      else none
    | none => none
  | .gWaitRet gid =>
    match s.tab.getG gid with
    | some g => match g.pc with
      | .waiting w => match s.tab.finished.get? w with
        | some e => some (s.tab.gto gid (.sendDone e))
        | none => none
      | _ => none
    | none => none
  | .gCtx gid =>
    match s.tab.getG gid with
    | some g => if g.pc.inUser then some (s.tab.log (.ctx gid (ctxDone s g))) else none
    | none => none
  | .finish w e =>
    if (s.tab.finished.get? w).isNone then
      some ({ s.tab with finished := s.tab.finished.set w e }.log (.finished w e))
    else none
  | .report order =>
    if s.muFree = true ∧ isRangeOrder s.tab.workers order = true then some (s.tab.log (.report (reportLines s.tab order)))
    else none
  | .names order =>
    if s.muFree = true ∧ isRangeOrder s.tab.workers order = true then some (s.tab.log (.names order)) else none
  | _ => none

/-- A step of a client call, with the call as it is now. -/
def clientStep (s : State) (c : Client) : Op → Option State
  | .cancel cid => some ((s.mapC cid (fun c => { c with cancelled := true })).log (.cancelled cid))
  | .recvStart cid =>
    if s.tab.pc = .select then
      match c.pc with
      | .startSend id sf =>
        some ((s.cto cid .startReply).withTab (s.tab.goTo (.act (.start cid id sf))))
      | _ => none
    else none
  | .recvStop cid =>
    if s.tab.pc = .select then
      match c.pc with
      | .stopSend id =>
        some ((s.cto cid (.returned .ok)).withTab ((s.tab.log (.ret cid .ok)).goTo (.act (.stop id))))
      | _ => none
    else none
  | .cDead cid =>
    match c.pc with
    | .startSend _ _ =>
      if c.cancelled = true ∨ s.tab.tomb.dead = true then some (s.return_ cid (.err .runnerDead)) else none
    | .stopSend _ => if s.tab.tomb.dead = true then some (s.return_ cid (.err .runnerDead)) else none
    | _ => none
  | .cLock cid =>
    match c.pc with
    | .lock id =>
      if s.muFree then
        match getWorker s.tab id with
        | some r => some (s.cto cid (.immediate id r))
        | none =>
          some ((s.mapC cid (fun c => { c with pc := .waiting id, helper := some { id := id } })).setMu (some cid))
      else none
    | _ => none
  | .cImmediate cid =>
    match c.pc with
    | .immediate id r => some (if s.tab.dying then s.return_ cid (.err .runnerDead) else afterInfo s c id r)
    | _ => none
  | .cRecv cid =>
    match c.pc, c.helper.bind Helper.wc with
    | .waiting id, some r =>
      some (s.mapC cid (fun c =>
        { c with pc := .gotWc id r, helper := c.helper.map (fun h => { h with wc := none }) }))
    | _, _ => none
  | .cGotWc cid =>
    match c.pc with
    | .gotWc id r =>
      some (if r = .notFound ∧ s.tab.dying = true then s.return_ cid (.err .runnerDead) else afterInfo s c id r)
    | _ => none
  | .cDying cid =>
    match c.pc with
    | .waiting _ => if s.tab.dying then some (s.return_ cid (.err .runnerDead)) else none
    | _ => none
  | .cAbort cid =>
    match c.pc with
    | .waiting id => if c.cancelled then some (s.cto cid (.closing id)) else none
    | _ => none
  | .cClose cid =>
    match c.pc with
    | .closing id =>
      some (s.mapC cid (fun c =>
        { c with pc := .bcasting id, helper := c.helper.map (fun h => { h with stopped := true }) }))
    | _ => none
  | .cBcast cid =>
    match c.pc with
    | .bcasting _ => some ((broadcast s).return_ cid (.err .runnerAborted))
    | _ => none
  | .cKill cid =>
    match c.pc with
    | .removeKill w rid => some ((s.cto cid (.removeWait w rid)).log (.clientKillW cid w))
    | _ => none
  | .cWaitRet cid =>
    match c.pc with
    | .removeWait w rid => match s.tab.finished.get? w with
      | some e => some (s.cto cid (.removeSelect w rid e))
      | none => none
    | _ => none
  | .cRemoveAbort cid =>
    match c.pc with
    | .removeSelect _ _ _ => if c.cancelled then some (s.return_ cid (.err .runnerAborted)) else none
    | _ => none
  | .cRemoved cid =>
    match c.pc with
    | .removeSelect _ rid e =>
      if s.tab.tokens.contains rid then
        some ((s.cto cid (.returned (.result e))).withTab
          ({ s.tab with tokens := s.tab.tokens.erase rid }.log (.ret cid (.result e))))
      else none
    | _ => none
  | .hCheck cid =>
    match c.helper with
    | some h =>
      if h.pc = .check then
        if h.stopped then some ((s.mapH cid (fun h => { h with pc := .done })).setMu none)
        else some (s.mapH cid (fun h => { h with pc := .enter }))
      else none
    | none => none
  | .hEnter cid =>
    match c.helper with
    | some h =>
      if h.pc = .enter then some ((s.mapH cid (fun h => { h with pc := .sleep })).setMu none) else none
    | none => none
  | .hWake cid =>
    match c.helper with
    | some h =>
      if h.pc = .woken ∧ s.muFree = true then
        match getWorker s.tab h.id with
        | some r => some (s.mapH cid (fun h => { h with pc := .done, wc := some r }))
        | none => some ((s.mapH cid (fun h => { h with pc := .check })).setMu (some cid))
      else none
    | none => none
  | _ => none

/-- The client call an operation belongs to. -/
def Op.cid? : Op → Option Nat
  | .cancel c | .recvStart c | .recvStop c | .cDead c | .cLock c | .cImmediate c | .cRecv c | .cGotWc c | .cDying c
  | .cAbort c | .cClose c | .cBcast c | .cKill c | .cWaitRet c | .cRemoveAbort c | .cRemoved c | .hCheck c
  | .hEnter c | .hWake c => some c
  | _ => none

/-- One step; `none` means the operation is not enabled. -/
def step (p : Params) (s : State) (op : Op) : Option State :=
  match op with
  | .callStart id sf =>
    some (newClient s { cid := 0, pc := .startSend id sf } (.callStart s.nextC id sf))
  | .callStop id => some (newClient s { cid := 0, pc := .stopSend id } (.callStop s.nextC id))
  | .callWorker id => some (newClient s { cid := 0, pc := .lock id } (.callWorker s.nextC id))
  | .callRemove id => some (newClient s { cid := 0, pc := .lock id, remove := true } (.callRemove s.nextC id))
  | .reply =>
    match s.tab.pc with
    | .reply cid none =>
      some ((s.cto cid (.returned .ok)).withTab ((s.tab.log (.ret cid .ok)).goTo .bcast))
    | .reply cid (some e) =>
      some ((s.cto cid (.returned (.err e))).withTab ((s.tab.log (.ret cid (.err e))).goTo .bcast))
    | _ => none
  | .bcast => if s.tab.pc = .bcast then some ((broadcast s).withTab (s.tab.goTo .top)) else none
  | op =>
    match op.cid? with
    | some cid => match s.getC cid with
      | some c => clientStep s c op
      | none => none
    | none => (tabStep p s op).map s.withTab

/-- runner.go:307-309 Wait: `none` while it would block. -/
def waitResult (s : State) : Option (Option Err) := s.tab.tomb.wait

/-- Reachable states: every finite execution from a new runner. -/
inductive Reach (p : Params) : State → Prop
  | init : Reach p init
  | step {s s' : State} (op : Op) : Reach p s → step p s op = some s' → Reach p s'

end Verif.Runner
