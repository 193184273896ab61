import Verif.Runner.Model
import Verif.Catacomb.Observe
import Verif.Engine.Fine

/-!
# A program of runners, catacombs and engines

Runners, catacombs and engines are workers themselves and run each other. Here any number of them, and of other workers (`leaf`), make one
program, with one scheduler: in each step one of them takes a step of its own model. Two things tie them together.

* A step in which a worker's Kill method is called (runner.go:296, 612; catacomb/catacomb.go:143, 166, 198; dependency/engine.go:548, 588,
  742) is a step of that worker too: it is killed in it.
* Wait of a worker (runner.go:296, 661; catacomb/catacomb.go:143, 166, 190, 198; dependency/engine.go:565) returns what the worker's Wait
  method returns at that moment, and only if it has ended: the step `finish` of the parent's model, and the event `finished`.

Simplified: a worker may take steps before the start func that makes it has returned. That makes more executions possible, so what is said
about all executions remains true. A leaf ends with any result at any time.
-/

namespace Verif.System

/-- What a worker is. -/
inductive Kind
  | runner (p : Runner.Params)
  | catacomb (own : Nat)
  | engine (cfg : Engine.Config)
  | leaf

/-- A worker in some state. -/
inductive Comp
  | runner (p : Runner.Params) (s : Runner.State)
  | catacomb (own : Nat) (s : Catacomb.State)
  | engine (cfg : Engine.Config) (f : Engine.Fine)
  /-- any other worker: whether it has been Kill()ed, and what it has ended with -/
  | leaf (killed : Bool) (res : Option (Option Err))

/-- A step of a worker. -/
inductive Op
  | runner (op : Runner.Op)
  | catacomb (op : Catacomb.Op)
  | engine (op : Engine.FOp)
  | leafKill
  | leafEnd (e : Option Err)

/-- A new worker. -/
def Kind.new : Kind → Comp
  | .runner p => .runner p Runner.init
  | .catacomb own => .catacomb own Catacomb.init
  | .engine cfg => .engine cfg {}
  | .leaf => .leaf false none

namespace Comp

def step : Comp → Op → Option Comp
  | .runner p s, .runner op => (Runner.step p s op).map (.runner p)
  | .catacomb own s, .catacomb op => (Catacomb.step own s op).map (.catacomb own)
  | .engine cfg f, .engine op => (Engine.fstep cfg f op).map (.engine cfg)
  | .leaf _ res, .leafKill => some (.leaf true res)
  | .leaf killed none, .leafEnd e => some (.leaf killed (some e))
  | _, _ => none

/-- Its Kill method is called: runner.go:312-315, catacomb/catacomb.go:252-270 with nil, dependency/engine.go:230-232. -/
def killOp : Comp → Op
  | .runner _ _ => .runner .kill
  | .catacomb _ _ => .catacomb (.killCall none)
  | .engine _ _ => .engine (.env .kill)
  | .leaf _ _ => .leafKill

def kill (c : Comp) : Comp := (c.step c.killOp).getD c

/-- What its Wait method returns; `none` while it would block: runner.go:307-309, catacomb/catacomb.go:218-220,
dependency/engine.go:235-244. -/
def result : Comp → Option (Option Err)
  | .runner _ s => Runner.waitResult s
  | .catacomb _ s => Catacomb.waitNow s
  | .engine cfg f => Engine.waitResult cfg f.s
  | .leaf _ res => res

/-- It has panicked (an engine never does, C81). -/
def crashed : Comp → Bool
  | .runner _ s => s.tab.tomb.panicked
  | .catacomb _ s => s.crashed
  | _ => false

/-- What has happened to it, for each kind. -/
def rhist : Comp → List Runner.Ev
  | .runner _ s => s.tab.hist
  | _ => []

def chist : Comp → List Catacomb.Ev
  | .catacomb _ s => s.hist
  | _ => []

def ehist : Comp → List Engine.Ev
  | .engine _ f => f.s.hist
  | _ => []

end Comp

def rkillOf : Runner.Ev → Option Nat
  | .killW _ w | .clientKillW _ w => some w
  | _ => none

def ckillOf : Catacomb.Ev → Option Nat
  | .killT _ w | .killA _ w | .killI _ w => some w
  | _ => none

def ekillOf : Engine.Ev → Option Nat
  | .killW (.obj w) => some w
  | _ => none

/-- The workers whose Kill method it has called, newest first. -/
def Comp.kills : Comp → List Nat
  | .runner _ s => s.tab.hist.filterMap rkillOf
  | .catacomb _ s => s.hist.filterMap ckillOf
  | .engine _ f => f.s.hist.filterMap ekillOf
  | .leaf _ _ => []

/-- Those it has called in a step from `c` to `c'`. -/
def newKills (c c' : Comp) : List Nat := c'.kills.take (c'.kills.length - c.kills.length)

def rendOf : Runner.Ev → Option (Nat × Option Err)
  | .finished w e => some (w, e)
  | _ => none

def cendOf : Catacomb.Ev → Option (Nat × Option Err)
  | .finished w e => some (w, e)
  | _ => none

def eendOf : Engine.Ev → Option (Nat × Option Err)
  | .finished w e => some (w, e)
  | _ => none

/-- What Wait of its workers has returned, newest first. -/
def Comp.ends : Comp → List (Nat × Option Err)
  | .runner _ s => s.tab.hist.filterMap rendOf
  | .catacomb _ s => s.hist.filterMap cendOf
  | .engine _ f => f.s.hist.filterMap eendOf
  | .leaf _ _ => []

/-- What it has returned in a step from `c` to `c'`. -/
def newEnds (c c' : Comp) : List (Nat × Option Err) := c'.ends.take (c'.ends.length - c.ends.length)

/-- Who the workers of a program are, and which worker of each of them is which. Nobody is their own worker. -/
structure Wiring (I : Type) where
  kind : I → Kind
  child : I → Nat → I
  ne : ∀ i w, child i w ≠ i

variable {I : Type} [DecidableEq I]

/-- What a step of `i` that leads it to `c` does to everybody. -/
def Wiring.after (W : Wiring I) (S : I → Comp) (i : I) (c : Comp) : I → Comp := fun j =>
  if j = i then c else if (newKills (S i) c).any (fun w => decide (W.child i w = j)) then (S j).kill else S j

/-- Wait returns what the worker's Wait method returns at this moment. -/
def Wiring.waits (W : Wiring I) (S : I → Comp) (i : I) (c : Comp) : Bool :=
  (newEnds (S i) c).all (fun x => decide ((S (W.child i x.1)).result = some x.2))

/-- `i` takes a step. -/
def Wiring.step (W : Wiring I) (S : I → Comp) (i : I) (op : Op) : Option (I → Comp) :=
  ((S i).step op).bind (fun c => if W.waits S i c then some (W.after S i c) else none)

/-- Nobody has panicked: a panic ends the program. -/
def Up (S : I → Comp) : Prop := ∀ i, (S i).crashed = false

/-- A new program. -/
def Wiring.new (W : Wiring I) : I → Comp := fun i => (W.kind i).new

/-- Everything that can happen. -/
inductive Reach (W : Wiring I) : (I → Comp) → Prop
  | init : Reach W W.new
  | step {S S' : I → Comp} (i : I) (op : Op) : Reach W S → Up S → W.step S i op = some S' → Reach W S'

end Verif.System
