import Verif.Engine.Model

/-!
One snapshot (dependency/snapshot.go) and the goroutines that use it, access by access: the `runWorker` goroutine that it
was made for (dependency/engine.go:512-574), which runs the Start func, and any other goroutines to which the Start func
has passed the Getter.

In `Verif.Engine` a call of Get is one step, the Start func returns and the snapshot expires in one step, and the access
log is left out. Here a call of Get is a sequence of steps, and so is the end of the Start func.

Simplified: slices are values, so the array that several versions of the log may share is not modelled. Go's `append`
never changes what an earlier version of the log holds unless two appends start from the same version, which is a race in
this model already.
-/

namespace Verif.Snapshot
open Verif.Engine (Config Snapshot rawAccess)

/-- dependency/snapshot.go:83-93. -/
structure Access where
  res : Name
  out : Option Nat
  err : Option Err
deriving DecidableEq, Repr

/-- Where a goroutine is in Get (dependency/snapshot.go:42-56). -/
inductive Call
  /-- not in Get -/
  | idle
  /-- before the select, 44 -/
  | begun (res : Name) (out : Option Nat)
  /-- in the default branch, 48 -/
  | checked (res : Name) (out : Option Nat)
  /-- before `s.accessLog` is read, 49 -/
  | accessed (a : Access)
  /-- before `s.accessLog` is written, 49 -/
  | loaded (a : Access) (old : List Access)
deriving DecidableEq, Repr

/-- Where the `runWorker` goroutine is (dependency/engine.go:512-574). -/
inductive Pc
  /-- the select of 522-528 -/
  | delaying
  /-- in the Start func, 530 -/
  | inStart
  /-- before the deferred expire, 520; `ok` says whether there is a worker -/
  | returned (ok : Bool)
  /-- before `snapshot.accessLog` is read, 552 (`true`) or 572 (`false`) -/
  | logging (first : Bool)
  /-- from the select of 543 to the end of 565 -/
  | waiting
  /-- 574 -/
  | done
deriving DecidableEq, Repr

/-- What happens. Goroutine 0 is the `runWorker` goroutine. -/
inductive Ev
  /-- the Start func is called -/
  | start
  /-- goroutine `t` calls Get -/
  | call (t : Nat) (res : Name) (out : Option Nat)
  /-- goroutine `t` reads the log -/
  | load (t : Nat)
  /-- goroutine `t` writes the log -/
  | store (t : Nat)
  /-- Get returns `r` to goroutine `t` -/
  | answer (t : Nat) (res : Name) (out : Option Nat) (r : Option Err)
  /-- the Start func has returned, or is not going to be called -/
  | returned
  /-- the snapshot expires -/
  | expired
  /-- the log in the startedTicket -/
  | started (l : List Access)
  /-- the log in the stoppedTicket -/
  | stopped (l : List Access)
deriving DecidableEq, Repr

structure State where
  pc : Pc := .delaying
  /-- the Start func has been called, so that others may have the Getter -/
  given : Bool := false
  /-- the channel `expired` is closed -/
  expired : Bool := false
  /-- `accessLog` -/
  log : List Access := []
  calls : Nat → Call := fun _ => .idle
  hist : List Ev := []

def State.setCall (s : State) (t : Nat) (c : Call) : State := { s with calls := fun u => if u = t then c else s.calls u }
def State.note (s : State) (e : Ev) : State := { s with hist := e :: s.hist }

inductive Op
  | timer
  | abort
  | call (t : Nat) (res : Name) (out : Option Nat)
  | check (t : Nat)
  | access (t : Nat)
  | load (t : Nat)
  | store (t : Nat)
  | ret (ok : Bool)
  | expire
  | log
  | waitRet
deriving DecidableEq, Repr

/-- One step; `none` means that it is not possible. -/
def step (cfg : Config) (sn : Snapshot) (s : State) : Op → Option State
  -- engine.go:527, 530
  | .timer => if s.pc = .delaying then some ({ s with pc := .inStart, given := true }.note .start) else none
  -- engine.go:523-526
  | .abort => if s.pc = .delaying then some ({ s with pc := .returned false }.note .returned) else none
  -- snapshot.go:42
  | .call t res out =>
    if s.given = true ∧ s.calls t = .idle ∧ (t = 0 → s.pc = .inStart) then
      some ((s.setCall t (.begun res out)).note (.call t res out))
    else none
  -- snapshot.go:44-47
  | .check t => match s.calls t with
    | .begun res out =>
      if s.expired then some ((s.setCall t .idle).note (.answer t res out (some .expired)))
      else some (s.setCall t (.checked res out))
    | _ => none
  -- snapshot.go:48
  | .access t => match s.calls t with
    | .checked res out => some (s.setCall t (.accessed ⟨res, out, rawAccess cfg sn res out⟩))
    | _ => none
  -- snapshot.go:49-53
  | .load t => match s.calls t with
    | .accessed a => some ((s.setCall t (.loaded a s.log)).note (.load t))
    | _ => none
  -- snapshot.go:49-54
  | .store t => match s.calls t with
    | .loaded a old =>
      some ((({ s with log := old ++ [a] }.setCall t .idle).note (.store t)).note (.answer t a.res a.out a.err))
    | _ => none
  -- engine.go:530
  | .ret ok => if s.pc = .inStart ∧ s.calls 0 = .idle then some ({ s with pc := .returned ok }.note .returned) else none
  -- engine.go:520, snapshot.go:59-61
  | .expire => match s.pc with
    | .returned ok => some ({ s with pc := .logging ok, expired := true }.note .expired)
    | _ => none
  -- engine.go:549-553, 569-573
  | .log => match s.pc with
    | .logging true => some ({ s with pc := .waiting }.note (.started s.log))
    | .logging false => some ({ s with pc := .done }.note (.stopped s.log))
    | _ => none
  -- engine.go:557-565
  | .waitRet => if s.pc = .waiting then some { s with pc := .logging false } else none

/-- Every finite execution. -/
inductive Reach (cfg : Config) (sn : Snapshot) : State → Prop
  | init : Reach cfg sn {}
  | step {s s' : State} (op : Op) : Reach cfg sn s → step cfg sn s op = some s' → Reach cfg sn s'

/-- How a goroutine's next step uses the log: `true` is a write. -/
def State.next (s : State) (t : Nat) : Option Bool := match s.calls t with
  | .accessed _ => some false
  | .loaded _ _ => some true
  | _ => if t = 0 then (match s.pc with
    | .logging _ => some false
    | _ => none) else none

/-- A data race: two goroutines are about to use the log, and one of them writes it. -/
def Racy (s : State) : Prop := ∃ t u, t ≠ u ∧ s.next t = some true ∧ s.next u ≠ none

end Verif.Snapshot
