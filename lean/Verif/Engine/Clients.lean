import Verif.Engine.FineFair
import Verif.Engine.Timed
import Verif.Engine.Race

/-!
# Calls on an engine

`Engine/Fine` has one step for the receipt of a ticket, and nothing for the goroutine that sent it. Here Install, Report and Wait
are calls of any number of client goroutines: a call begins, its ticket is received by the loop (or it finds the engine dying, or
dead), the loop works on it piece by piece, and the result is handed over on an unbuffered channel (engine.go:212, 215, 252,
329): the loop goes on only when the caller has received it.

The calls are numbered in the order in which they begin. The log has the events of the engine, and the begin and the return of each
call, in one order.
-/

namespace Verif.Engine
open State Verif.Spec

/-- A call. -/
inductive Req
  /-- dependency/engine.go:322-331 Install -/
  | install (n : Name) (m : Manifold)
  /-- dependency/engine.go:247-267 Report -/
  | report
  /-- dependency/engine.go:235-244 Wait -/
  | wait
deriving DecidableEq, Repr

/-- What a call returns. -/
inductive Res
  /-- Install: nil -/
  | ok
  /-- Install: an error -/
  | err (e : Err)
  /-- Report: by the loop (engine.go:271-290), with state `started` or `stopping` -/
  | live (dying : Bool) (err : Option Err) (lines : List ReportLine)
  /-- Report: after the end (engine.go:253-266), with state `stopped` -/
  | stopped (err : Option Err) (lines : List ReportLine)
  /-- Wait -/
  | waited (err : Option Err)
deriving DecidableEq, Repr

/-- What happens. -/
inductive CEv
  /-- an event of the engine -/
  | eng (e : Ev)
  /-- call number `c` begins -/
  | call (c : Nat) (q : Req)
  /-- call number `c` returns -/
  | ret (c : Nat) (r : Res)
deriving DecidableEq, Repr

/-- How far a call has come. -/
inductive CPc
  /-- at the select of engine.go:249 or 324, or inside tomb.Wait (236) -/
  | asking
  /-- its ticket has been received; at engine.go:252 or 329 -/
  | served
  | returned
deriving DecidableEq, Repr

/-- A call and how far it has come. -/
structure Call where
  req : Req
  pc : CPc := .asking
deriving DecidableEq, Repr

/-- The engine and its clients. -/
structure Clients where
  f : Fine := {}
  calls : List Call := []
  /-- the call whose ticket the loop has in its hands, and what it is going to send to it -/
  serving : Option (Nat × Option Res) := none
  log : List CEv := []

/-- What has happened between two states of the engine. -/
def news (a b : State) : List CEv := (b.hist.take (b.hist.length - a.hist.length)).map .eng

/-- The engine moves. -/
def Clients.move (s : Clients) (f' : Fine) : Clients := { s with f := f', log := news s.f.s f'.s ++ s.log }

/-- Call `c` goes on. -/
def Clients.setPc (s : Clients) (c : Nat) (p : CPc) : Clients :=
  { s with calls := s.calls.modify c (fun x => { x with pc := p }) }

/-- Call `c` returns. -/
def Clients.answer (s : Clients) (c : Nat) (r : Res) : Clients :=
  { s.setPc c .returned with log := .ret c r :: s.log }

/-- What gotInstall returns (engine.go:335-348). -/
def installAnswer (s : State) (n : Name) (m : Manifold) (order : List Name) : Res :=
  if (s.manifolds.get? n).isSome then .err (.alreadyInstalled n)
  else match checkAcyclic s n m order with
    | some e => .err (.wrap 0 e)
    | none => .ok

/-- What liveReport returns (engine.go:271-290). -/
def liveAnswer (s : State) : Option Res :=
  match (liveReport s).hist with
  | .report d e l :: _ => some (.live d e l)
  | _ => none

/-- The loop is at `ticket.result <- …` (engine.go:212, 215): nothing is left to do of the arm but the check after it. -/
def Clients.handing (s : Clients) : Option (Nat × Res) :=
  match s.serving, s.f.todo with
  | some (c, some r), [.check] => some (c, r)
  | _, _ => none

/-- What the loop is going to send once it has done the next piece of its work: the report, when that is made. -/
def Clients.noted (s : Clients) : Option (Nat × Option Res) :=
  match s.serving, s.f.todo with
  | some (c, none), .report :: _ => some (c, liveAnswer s.f.s)
  | x, _ => x

/-- The steps. -/
inductive COp
  /-- a client calls -/
  | call (q : Req)
  /-- a goroutine of the engine other than the loop's, the environment, or the loop receiving something that is not a call -/
  | other (op : FOp)
  /-- the loop does the next piece of its work -/
  | work
  /-- the loop receives the ticket of call `c` -/
  | take (c : Nat) (order : List Name)
  /-- the loop hands the result over, and the call returns it -/
  | reply
  /-- Install `c` finds the engine dying (engine.go:325) -/
  | refuse (c : Nat)
  /-- Report (engine.go:253-266) or Wait (236-243) `c` finds the engine dead -/
  | atEnd (c : Nat)

/-- Whether a step of the engine is one of those that belong to a call, or of the loop's work. -/
def FOp.ofCall : FOp → Bool
  | .install _ _ _ | .report | .work | .env (.installRefused _) => true
  | _ => false

/-- One step; `none` means that it is not possible. -/
def cstep (cfg : Config) (s : Clients) : COp → Option Clients
  | .call q => some { s with calls := s.calls ++ [⟨q, .asking⟩], log := .call s.calls.length q :: s.log }
  | .other op => if op.ofCall then none else (fstep cfg s.f op).map s.move
  | .work => if s.handing.isSome then none
    else (fstep cfg s.f .work).map (fun f' => { s.move f' with serving := s.noted })
  | .take c order => match s.calls[c]? with
    | some ⟨.install n m, .asking⟩ => (fstep cfg s.f (.install n m order)).map (fun f' =>
        { (s.move f').setPc c .served with serving := some (c, some (installAnswer s.f.s n m order)) })
    | some ⟨.report, .asking⟩ => (fstep cfg s.f .report).map (fun f' =>
        { (s.move f').setPc c .served with serving := some (c, none) })
    | _ => none
  | .reply => s.handing.map (fun x => { s with serving := none }.answer x.1 x.2)
  | .refuse c => match s.calls[c]? with
    | some ⟨.install n _, .asking⟩ => (fstep cfg s.f (.env (.installRefused n))).map (fun f' =>
        (s.move f').answer c (.err .shuttingDown))
    | _ => none
  | .atEnd c => match s.calls[c]? with
    | some ⟨.report, .asking⟩ => (deadReport cfg s.f.s).map (fun x => s.answer c (.stopped x.1 x.2))
    | some ⟨.wait, .asking⟩ => (waitResult cfg s.f.s).map (fun e => s.answer c (.waited e))
    | _ => none

/-- Every finite execution of a new engine and its clients. -/
inductive CReach (cfg : Config) : Clients → Prop
  | init : CReach cfg {}
  | step {s s' : Clients} (op : COp) : CReach cfg s → cstep cfg s op = some s' → CReach cfg s'

end Verif.Engine
