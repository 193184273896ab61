import Verif.Tomb
import Verif.Validate

/-!
# dependency.Engine as a transition system

Models dependency/engine.go, dependency/snapshot.go and the engine's view of `SelfManifold`
(dependency/util.go:81-105).

Granularity. The loop goroutine (engine.go:201-227) is the only one that touches `manifolds`, `dependents`,
`current` and `worstError`, so one arm of its select is one step. The only asynchronous influence on an arm is
a `Kill` landing between two of its `isDying()` checks: every arm takes a parameter `pend` which says before
which of the arm's `isDying` checks such a Kill lands (`none`: no Kill lands during the arm). Each `runWorker`
goroutine moves in separate steps between the points where it blocks.

Simplifications.
* `Start`, workers, clock and randomness are the environment: their results are parameters of the operations.
  A Start func returns a worker or an error (as the documentation of Manifold.Start demands), so the results
  (nil, nil) and (w, err) are not modelled. A worker object is a number; nothing stops the environment from
  returning the same worker twice. The engine itself is the worker `self`.
* `IsFatal`, `WorstError`, `Filter`, `Output` are arbitrary pure functions.
* The access log (snapshot.go:33-35, 49-53) is left out: the engine stores it but never reads it. `Verif.Snapshot` has it.
* Logging is left out.
-/

namespace Verif.Engine

/-- A worker value as the engine sees it: the engine itself (`worker == engine`) or some other object. -/
inductive WRef
  | self
  | obj (n : Nat)
deriving DecidableEq, Repr

/-- dependency/interface.go Manifold. `output` and `filter` name functions given by `Config`; `none` is Go's
nil. The Start func is not a field: its results are chosen by the environment. -/
structure Manifold where
  inputs : List Name := []
  output : Option Nat := none
  filter : Option Nat := none
deriving DecidableEq, Repr

/-- dependency/engine.go:39-90 EngineConfig, plus the meaning of the function names used in `Manifold`. Nil is
`none`. Durations are integers (nanoseconds). -/
structure Config where
  /-- IsFatal; it may be called with nil. -/
  isFatal : Option Err → Bool
  /-- WorstError(err0, err1) -/
  worstError : Option Err → Option Err → Option Err
  /-- Filter, nil if absent -/
  filter : Option (Option Err → Option Err) := none
  errorDelay : Int := 0
  bounceDelay : Int := 0
  backoffResetTime : Int := 0
  /-- engine.go:413-430: the delay used for a base delay, a number of recent errors and a random number. See
  `Verif.Delay.effDelay`. -/
  delayFn : Int → Nat → Rat → Int := fun base _ _ => base
  /-- Output funcs: `outFn id worker out` is the error returned. -/
  outFn : Nat → WRef → Nat → Option Err := fun _ _ _ => none
  /-- manifold Filter funcs -/
  filterFn : Nat → Option Err → Option Err := fun _ e => e

/-- dependency/engine.go:786-798 workerInfo. `cancel` is the context's CancelFunc, represented by the number of
the attempt whose context it cancels. The zero time is 0. -/
structure Info where
  starting : Bool := false
  stopping : Bool := false
  cancel : Option Nat := none
  worker : Option WRef := none
  err : Option Err := none
  startedTime : Int := 0
  startCount : Nat := 0
  startAttempts : Nat := 0
  recentErrors : Nat := 0
deriving DecidableEq, Repr

/-- dependency/engine.go:801-809 -/
def Info.stopped (i : Info) : Bool :=
  if i.worker.isSome then false else if i.starting then false else true

/-- Values of `KeyState` in a report. -/
inductive WState | starting | stopping | started | stopped
deriving DecidableEq, Repr

/-- dependency/engine.go:812-822 -/
def Info.state (i : Info) : WState :=
  if i.starting then .starting else if i.stopping then .stopping
  else if i.worker.isSome then .started else .stopped

/-- dependency/snapshot.go:17-39: the two tables taken when the attempt is scheduled. A key is present iff it
is a declared input. -/
structure Snapshot where
  workers : AMap (Option WRef) := .empty
  outputs : AMap (Option Nat) := .empty
deriving DecidableEq, Repr

/-- Where a `runWorker` goroutine (dependency/engine.go:512-574) is. -/
inductive Pc
  /-- the select of 522-528 -/
  | delaying
  /-- inside the manifold's Start func, 530 -/
  | starting
  /-- the select of 543-555, with the new worker -/
  | registering (w : WRef)
  /-- `<-engine.tomb.Dying()`, 561 -/
  | selfWait
  /-- `worker.Wait()`, 565 -/
  | waiting (w : Nat)
  /-- sending the stoppedTicket, 569-573 -/
  | sendStopped (e : Option Err)
deriving DecidableEq, Repr

/-- One `runWorker` goroutine with its snapshot and context. `cancelled` means that the context's CancelFunc has
been called. `base`, `recent` are the inputs of the delay computation (engine.go:413-430). -/
structure G where
  gid : Nat
  name : Name
  base : Int
  recent : Nat
  snap : Snapshot
  cancelled : Bool := false
  pc : Pc := .delaying
deriving DecidableEq, Repr

/-- One line of a report (dependency/engine.go:295-319, without nested reports). -/
structure ReportLine where
  name : Name
  state : WState
  inputs : List Name
  startCount : Nat
  err : Option Err
  lastStart : Option Int
  /-- whether the worker's own Report is included -/
  nested : Bool
deriving DecidableEq, Repr

/-- Observable events, recorded newest first. -/
inductive Ev
  /-- an Install handled by the loop returned nil -/
  | installed (n : Name) (m : Manifold)
  /-- an Install returned an error -/
  | installFailed (n : Name) (e : Err)
  /-- a start attempt was scheduled (the goroutine of engine.go:432), with the given base delay and the given
  workers for its inputs -/
  | begin (n : Name) (gid : Nat) (base : Int) (recent : Nat) (snap : Snapshot)
  /-- the manifold's Start func was called, after waiting `delay` -/
  | startCall (n : Name) (gid : Nat) (delay : Int)
  /-- Getter.Get inside (or after) a Start func returned `r` -/
  | get (gid : Nat) (res : Name) (out : Option Nat) (r : Option Err)
  /-- the Start func returned a worker -/
  | startOk (n : Name) (gid : Nat) (w : WRef)
  /-- the Start func returned an error -/
  | startErr (n : Name) (gid : Nat) (e : Err)
  /-- the worker was registered: Metrics.RecordStart(n), at time `now` -/
  | registered (n : Name) (gid : Nat) (w : WRef) (now : Int)
  /-- `w.Kill()` was called by the engine -/
  | killW (w : WRef)
  /-- the context of an attempt was cancelled -/
  | cancelled (gid : Nat)
  /-- the worker finished: its Wait returns `e` from now on -/
  | finished (w : Nat) (e : Option Err)
  /-- the engine processed the end of an attempt at time `now`: raw error, filtered error, whether it had been
  told to stop, and the registered worker it lost, if any -/
  | ended (n : Name) (gid : Nat) (now : Int) (raw filtered : Option Err) (wasStopping : Bool) (lost : Option WRef)
  /-- the manifold was removed -/
  | uninstalled (n : Name)
  /-- tomb.Kill(nil): a client's Kill, Kill of the self worker, or a fatal error -/
  | kill
  /-- the loop handled a Report call -/
  | report (dying : Bool) (err : Option Err) (lines : List ReportLine)
  /-- the loop returned; the engine is dead -/
  | exit
deriving DecidableEq, Repr

/-- The engine (dependency/engine.go:156-191), the local variable `oneShotDying` (202; true while non-nil), the
goroutines, the environment's workers that have finished, and the history. -/
structure State where
  tomb : Tomb := { alive := 1 }
  worst : Option Err := none
  manifolds : AMap Manifold := .empty
  dependents : AMap (List Name) := .empty
  current : AMap Info := .empty
  gs : List G := []
  nextG : Nat := 0
  oneShot : Bool := true
  pend : Option Nat := none
  finished : AMap (Option Err) := .empty
  hist : List Ev := []
deriving DecidableEq, Repr

/-- dependency/engine.go:132-152 NewEngine (after validation): the loop goroutine is running. -/
def init : State := {}

namespace State

/-- The tomb's Dying channel is closed. -/
def dying (s : State) : Bool := s.tomb.dying

/-- `engine.current[name]`: the zero workerInfo if absent. -/
def cur (s : State) (n : Name) : Info := (s.current.get? n).getD {}

/-- `engine.manifolds[name]`: the zero Manifold if absent. -/
def man (s : State) (n : Name) : Manifold := (s.manifolds.get? n).getD {}

/-- `engine.current[name] = info` -/
def setCur (s : State) (n : Name) (i : Info) : State := { s with current := s.current.set n i }

/-- Record an event. -/
def log (s : State) (e : Ev) : State := { s with hist := e :: s.hist }

/-- Change the goroutine `gid`. -/
def mapG (s : State) (gid : Nat) (f : G → G) : State :=
  { s with gs := s.gs.map (fun g => if g.gid = gid then f g else g) }

/-- The goroutine `gid`. -/
def getG (s : State) (gid : Nat) : Option G := s.gs.find? (fun g => g.gid = gid)

/-- `engine.tomb.Kill(nil)` -/
def killNil (s : State) : State := { s with tomb := s.tomb.kill none, hist := .kill :: s.hist }

/-- `engine.tomb.Kill(err)` with one of the engine's internal errors. -/
def killInternal (s : State) (which : Nat) (n : Name) : State :=
  { s with tomb := s.tomb.kill (some (.internal which n)) }

/-- `w.Kill()`; killing the engine itself is engine.go:230-232. -/
def killWorker (s : State) (w : WRef) : State :=
  match w with
  | .obj n => s.log (.killW (.obj n))
  | .self => (s.log (.killW .self)).killNil

/-- Evaluating `isDying()` (engine.go:749-756) is a point at which a pending asynchronous Kill may land: this
applies it. The value of the check is then `dying` of the new state. -/
def tick (s : State) : State :=
  match s.pend with
  | none => s
  | some 0 => { s with pend := none }.killNil
  | some (k + 1) => { s with pend := some k }

end State

open State

/-- dependency/engine.go:445-503 snapshot. For a name declared twice the second entry overwrites the first with
the same value. -/
def takeSnapshot (s : State) (inputs : List Name) : Snapshot :=
  inputs.foldl (fun sn i =>
    { workers := sn.workers.set i (s.cur i).worker, outputs := sn.outputs.set i (s.man i).output }) {}

/-- dependency/engine.go:399-432, the part of requestStart after the checks. -/
def launch (s : State) (n : Name) (delay : Int) : State :=
  let info := s.cur n
  let info' := { info with
    starting := true, startAttempts := info.startAttempts + 1, err := none, cancel := some s.nextG }
  let s1 := s.setCur n info'
  let snap := takeSnapshot s1 (s.man n).inputs
  { s1 with
    gs := { gid := s.nextG, name := n, base := delay, recent := info.recentErrors, snap := snap } :: s1.gs
    nextG := s.nextG + 1
    hist := .begin n s.nextG delay info.recentErrors snap :: s1.hist }

/-- dependency/engine.go:379-433 requestStart. -/
def requestStart (s : State) (n : Name) (delay : Int) : State :=
  let s1 := if (s.manifolds.get? n).isNone then s.killInternal 384 n else s
  let s2 := if (s1.cur n).stopped then s1 else s1.killInternal 390 n
  let s3 := s2.tick
  if s3.dying then s3 else launch s3 n delay

/-- dependency/engine.go:736-740: set stopping and cancel the context. The worker is killed (741-743) before the
info is copied back (744); as the loop goroutine does both and killing does not read the info, the order does
not matter and the model writes the info first. -/
def markStopping (s : State) (n : Name) : State :=
  let info := s.cur n
  let s1 := match info.cancel with
    | some gid => (s.mapG gid (fun g => { g with cancelled := true })).log (.cancelled gid)
    | none => s
  s1.setCur n { info with stopping := true, cancel := none }

/-- dependency/engine.go:727-745 requestStop. -/
def requestStop (s : State) (n : Name) : State :=
  let info := s.cur n
  if info.stopping || info.stopped then s
  else match info.worker with
    | some w => (markStopping s n).killWorker w
    | none => markStopping s n

/-- dependency/engine.go:773-782 bounceDependents, over the given list. -/
def bounceList (cfg : Config) : State → List Name → State
  | s, [] => s
  | s, d :: ds =>
    bounceList cfg (if (s.cur d).stopped then requestStart s d cfg.bounceDelay else requestStop s d) ds

/-- dependency/engine.go:773-782 bounceDependents. The Go range expression is evaluated once. -/
def bounceDependents (cfg : Config) (s : State) (n : Name) : State :=
  bounceList cfg s ((s.dependents.get? n).getD [])

/-- dependency/engine.go:344-346 -/
def addDependents (deps : AMap (List Name)) (n : Name) : List Name → AMap (List Name)
  | [] => deps
  | i :: is => addDependents (deps.set i (((deps.get? i).getD []) ++ [n])) n is

/-- The table of inputs that Validate sees (util.go:34-37). -/
def inputsTable (ms : AMap Manifold) : AMap (List Name) :=
  ⟨ms.entries.map (fun p => (p.1, p.2.inputs))⟩

/-- dependency/engine.go:369-375 checkAcyclic. `order` is the iteration order in Validate. -/
def checkAcyclic (s : State) (n : Name) (m : Manifold) (order : List Name) : Option Err :=
  Validate.validate (inputsTable (s.manifolds.set n m)) order

/-- dependency/engine.go:343-347 -/
def record (s : State) (n : Name) (m : Manifold) : State :=
  { s with
    manifolds := s.manifolds.set n m
    dependents := addDependents s.dependents n m.inputs
    current := s.current.set n {}
    hist := .installed n m :: s.hist }

/-- dependency/engine.go:335-350 gotInstall. The `installed` event stands for the nil result. -/
def gotInstall (s : State) (n : Name) (m : Manifold) (order : List Name) : State :=
  if (s.manifolds.get? n).isSome then s.log (.installFailed n (.alreadyInstalled n))
  else match checkAcyclic s n m order with
    | some e => s.log (.installFailed n (.wrap 0 e))
    | none => requestStart (record s n m) n 0

/-- dependency/engine.go:358-362: the new dependents of every name. `vals d` is what `depSet.Values()` returned
for `d`, in Go's unspecified order. -/
def dropDependent (deps : AMap (List Name)) (vals : Name → List Name) : AMap (List Name) :=
  ⟨deps.entries.map (fun p => (p.1, vals p.1))⟩

/-- `vals` is a possible outcome of the set operations of engine.go:359-361: for every key, the dependents
without `n`, each once, in some order. -/
def validVals (deps : AMap (List Name)) (n : Name) (vals : Name → List Name) : Bool :=
  deps.entries.all (fun p =>
    decide (vals p.1).Nodup
    && (vals p.1).all (fun d => ((deps.get? p.1).getD []).contains d && d != n)
    && ((deps.get? p.1).getD []).all (fun d => d == n || (vals p.1).contains d))

/-- dependency/engine.go:353-365 uninstall. -/
def uninstall (s : State) (n : Name) (vals : Name → List Name) : State :=
  { s with
    dependents := dropDependent s.dependents vals
    current := s.current.erase n
    manifolds := s.manifolds.erase n
    hist := .uninstalled n :: s.hist }

/-- dependency/engine.go:589-602: the default case of gotStarted, before bouncing. -/
def register (s : State) (n : Name) (gid : Nat) (w : WRef) (now : Int) : State :=
  let info := s.cur n
  (s.setCur n { info with
    worker := some w, starting := false, startCount := info.startCount + 1, startAttempts := 0,
    startedTime := now }).log (.registered n gid w now)

/-- dependency/engine.go:578-607 gotStarted. `gid` is not part of the ticket; it only labels events. -/
def gotStarted (cfg : Config) (s : State) (n : Name) (gid : Nat) (w : WRef) (now : Int) : State :=
  let info := s.cur n
  if info.worker.isSome then (s.killInternal 584 n).killWorker w
  else if info.stopping then s.killWorker w
  else
    let s1 := s.tick
    if s1.dying then s1.killWorker w
    else bounceDependents cfg (register s1 n gid w now) n

/-- dependency/engine.go:619-651: the new error count. -/
def newRecent (cfg : Config) (info : Info) (err : Option Err) (now : Int) : Nat :=
  if err = none then 0
  else if errIs err .aborted then 1
  else if errIs err .missing then 1
  else if info.startedTime = 0 ∨ now - info.startedTime < cfg.backoffResetTime then info.recentErrors + 1
  else 1

/-- dependency/engine.go:623-629: the new number of start attempts. -/
def newAttempts (info : Info) (err : Option Err) : Nat :=
  if err ≠ none ∧ errIs err .aborted then 0 else info.startAttempts

/-- dependency/engine.go:653-655 -/
def applyFilter (cfg : Config) (m : Manifold) (err : Option Err) : Option Err :=
  match m.filter with
  | some f => cfg.filterFn f err
  | none => err

/-- dependency/engine.go:657-662 -/
def noteFatal (cfg : Config) (s : State) (n : Name) (err : Option Err) : State :=
  if (s.cur n).stopped then s.killInternal 658 n
  else if cfg.isFatal err then { s with worst := cfg.worstError err s.worst }.killNil
  else s

/-- dependency/engine.go:665-672 -/
def resetInfo (s : State) (n : Name) (i : Info) : State := s.setCur n i

/-- dependency/engine.go:680-716: what to do next with the manifold itself. -/
def reactToStop (cfg : Config) (s : State) (n : Name) (stopping : Bool) (err : Option Err)
    (vals : Name → List Name) : State :=
  if stopping then requestStart s n cfg.bounceDelay
  else if err = none ∨ errIs err .aborted then s
  else if errIs err .missing then s
  else if errIs err .bounce then requestStart s n cfg.bounceDelay
  else if errIs err .uninstall then uninstall s n vals
  else requestStart s n cfg.errorDelay

/-- dependency/engine.go:615-723 gotStopped. -/
def gotStopped (cfg : Config) (s : State) (n : Name) (gid : Nat) (raw : Option Err) (now : Int)
    (vals : Name → List Name) : State :=
  let info := s.cur n
  let err := applyFilter cfg (s.man n) raw
  let s1 := noteFatal cfg (s.log (.ended n gid now raw err info.stopping info.worker)) n err
  let s2 := resetInfo s1 n
    { err := err, startAttempts := newAttempts info raw, startCount := info.startCount,
      recentErrors := newRecent cfg info raw now }
  let s3 := s2.tick
  if s3.dying then s3
  else
    let s4 := reactToStop cfg s3 n info.stopping err vals
    if info.worker.isSome then bounceDependents cfg s4 n else s4

/-- dependency/engine.go:761-768 allOthersStopped. -/
def allOthersStopped (s : State) : Bool :=
  s.current.keys.all (fun n => (s.cur n).stopped || (s.cur n).worker == some .self)

/-- dependency/engine.go:221-225: the check after each arm; leaving the loop ends the tomb's only goroutine. -/
def endArm (s : State) : State :=
  let s1 := s.tick
  let s2 := { s1 with pend := none }
  if s2.dying && allOthersStopped s2 then
    { s2 with tomb := s2.tomb.finish (some .tombDying), hist := .exit :: s2.hist }
  else s2

/-- dependency/engine.go:205-209: the oneShotDying arm; `order` is the iteration order of the map. -/
def dyingArm (s : State) (order : List Name) : State :=
  order.foldl requestStop { s with oneShot := false }

/-- dependency/engine.go:295-319 manifoldsReport. -/
def reportLines (s : State) : List ReportLine :=
  s.current.keys.map (fun n =>
    { name := n, state := (s.cur n).state, inputs := (s.man n).inputs, startCount := (s.cur n).startCount,
      err := (s.cur n).err,
      lastStart := if (s.cur n).startedTime = 0 then none else some (s.cur n).startedTime,
      nested := (s.cur n).worker.isSome && (s.cur n).worker != some .self })

/-- dependency/engine.go:271-290 liveReport, as an event. -/
def liveReport (s : State) : State :=
  let s1 := s.tick
  if s1.dying then
    s1.log (.report true (match s1.tomb.reason with
      | some (some e) => some e
      | _ => s1.worst) (reportLines s1))
  else s1.log (.report false none (reportLines s1))

/-- dependency/snapshot.go:64-80 rawAccess. `out = none` is a nil out parameter. -/
def rawAccess (cfg : Config) (sn : Snapshot) (res : Name) (out : Option Nat) : Option Err :=
  match sn.workers.get? res with
  | none => some (.wrap 1 .missing)
  | some none => some (.wrap 2 .missing)
  | some (some w) =>
    match out with
    | none => none
    | some o =>
      match (sn.outputs.get? res).getD none with
      | none => some (.wrap 3 .missing)
      | some f => cfg.outFn f w o

/-- Whether the snapshot has expired: `expire` is deferred in startAfterDelay (engine.go:520), so it runs when
the Start func has returned or the attempt was aborted. -/
def Pc.expired : Pc → Bool
  | .delaying | .starting => false
  | _ => true

/-- dependency/snapshot.go:42-56 Get. -/
def getResult (cfg : Config) (g : G) (res : Name) (out : Option Nat) : Option Err :=
  if g.pc.expired then some .expired else rawAccess cfg g.snap res out

/-- After a worker was offered to the loop (engine.go:556-565). -/
def afterOffer : WRef → Pc
  | .self => .selfWait
  | .obj n => .waiting n

/-- The steps of the system. -/
inductive Op
  /-- a client calls Kill -/
  | kill
  /-- the oneShotDying arm -/
  | armDying (order : List Name) (pend : Option Nat)
  /-- the report arm -/
  | armReport (pend : Option Nat)
  /-- the install arm -/
  | armInstall (n : Name) (m : Manifold) (order : List Name) (pend : Option Nat)
  /-- an Install call takes the Dying branch (engine.go:325-326) -/
  | installRefused (n : Name)
  /-- the started arm, receiving from goroutine gid -/
  | armStarted (gid : Nat) (now : Int) (pend : Option Nat)
  /-- the stopped arm, receiving from goroutine gid -/
  | armStopped (gid : Nat) (now : Int) (vals : Name → List Name) (pend : Option Nat)
  /-- engine.go:523-526: the attempt is aborted -/
  | gAbort (gid : Nat)
  /-- engine.go:527: the delay has elapsed -/
  | gTimer (gid : Nat) (fuzz : Rat)
  /-- the Start func (or code it leaked the Getter to) calls Get -/
  | gGet (gid : Nat) (res : Name) (out : Option Nat)
  /-- the Start func returns a worker -/
  | gStartOk (gid : Nat) (w : WRef)
  /-- the Start func returns an error -/
  | gStartErr (gid : Nat) (e : Err)
  /-- engine.go:544-548 -/
  | gRegisterDying (gid : Nat)
  /-- engine.go:561-562 -/
  | gSelfDone (gid : Nat)
  /-- engine.go:565 -/
  | gWaitRet (gid : Nat)
  /-- worker object `w` finishes with result `e` -/
  | finish (w : Nat) (e : Option Err)

/-- The result that the goroutine sends for an error of the Start func (engine.go:535-542). -/
def startError (e : Err) : Option Err := if e.is .aborted then some .aborted else some e

/-- One step; `none` means the operation is not enabled. -/
def step (cfg : Config) (s : State) : Op → Option State
  | .kill => some s.killNil
  | .armDying order pend =>
    if s.tomb.dead = false ∧ s.oneShot = true ∧ s.dying = true ∧ isRangeOrder s.current order = true then
      some (endArm (dyingArm { s with pend := pend } order))
    else none
  | .armReport pend =>
    if s.tomb.dead = false then some (endArm (liveReport { s with pend := pend })) else none
  | .armInstall n m order pend =>
    if s.tomb.dead = false ∧ isRangeOrder (s.manifolds.set n m) order = true then
      some (endArm (gotInstall { s with pend := pend } n m order))
    else none
  | .installRefused n =>
    if s.dying then some (s.log (.installFailed n .shuttingDown)) else none
  | .armStarted gid now pend =>
    if s.tomb.dead then none else
    match s.getG gid with
    | none => none
    | some g => match g.pc with
      | .registering w =>
        some (endArm (gotStarted cfg
          { s.mapG gid (fun g => { g with pc := afterOffer w }) with pend := pend } g.name gid w now))
      | _ => none
  | .armStopped gid now vals pend =>
    if s.tomb.dead = true ∨ validVals s.dependents ((s.getG gid).map (·.name) |>.getD 0) vals = false then none
    else match s.getG gid with
    | none => none
    | some g => match g.pc with
      | .sendStopped e =>
        some (endArm (gotStopped cfg
          { s with gs := s.gs.filter (fun g => g.gid != gid), pend := pend } g.name gid e now vals))
      | _ => none
  | .gAbort gid =>
    match s.getG gid with
    | some g =>
      if g.pc = .delaying ∧ (s.dying = true ∨ g.cancelled = true) then
        some (s.mapG gid (fun g => { g with pc := .sendStopped (some .aborted) }))
      else none
    | none => none
  | .gTimer gid fuzz =>
    match s.getG gid with
    | some g =>
      if g.pc = .delaying ∧ 0 ≤ fuzz ∧ fuzz < 1 then
        some ((s.mapG gid (fun g => { g with pc := .starting })).log
          (.startCall g.name gid (cfg.delayFn g.base g.recent fuzz)))
      else none
    | none => none
  | .gGet gid res out =>
    match s.getG gid with
    | some g =>
      if g.pc = .delaying then none else some (s.log (.get gid res out (getResult cfg g res out)))
    | none => none
  | .gStartOk gid w =>
    match s.getG gid with
    | some g =>
      if g.pc = .starting then
        some ((s.mapG gid (fun g => { g with pc := .registering w })).log (.startOk g.name gid w))
      else none
    | none => none
  | .gStartErr gid e =>
    match s.getG gid with
    | some g =>
      if g.pc = .starting then
        some ((s.mapG gid (fun g => { g with pc := .sendStopped (startError e) })).log
          (.startErr g.name gid e))
      else none
    | none => none
  | .gRegisterDying gid =>
    match s.getG gid with
    | some g => match g.pc with
      | .registering w =>
        if s.dying then
          some ((s.mapG gid (fun g => { g with pc := afterOffer w })).killWorker w)
        else none
      | _ => none
    | none => none
  | .gSelfDone gid =>
    match s.getG gid with
    | some g =>
      if g.pc = .selfWait ∧ s.dying = true then
        some (s.mapG gid (fun g => { g with pc := .sendStopped (some .tombDying) }))
      else none
    | none => none
  | .gWaitRet gid =>
    match s.getG gid with
    | some g => match g.pc with
      | .waiting w => match s.finished.get? w with
        | some e => some (s.mapG gid (fun g => { g with pc := .sendStopped e }))
        | none => none
      | _ => none
    | none => none
  | .finish w e =>
    if (s.finished.get? w).isNone then
      some ({ s with finished := s.finished.set w e }.log (.finished w e))
    else none

/-- dependency/engine.go:235-244 Wait: `none` while it would block. -/
def waitResult (cfg : Config) (s : State) : Option (Option Err) :=
  match s.tomb.wait with
  | none => none
  | some (some e) => some (some e)
  | some none => some (match cfg.filter with
    | some f => f s.worst
    | none => s.worst)

/-- Reachable states: every finite execution from a new engine. -/
inductive Reach (cfg : Config) : State → Prop
  | init : Reach cfg init
  | step {s s' : State} (op : Op) : Reach cfg s → step cfg s op = some s' → Reach cfg s'

end Verif.Engine
