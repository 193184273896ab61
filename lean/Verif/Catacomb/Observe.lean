import Verif.Catacomb.HistInv

/-!
# catacomb.go: Err, Context

What can be asked of a catacomb at any time. `tomb.Context` (gopkg.in/tomb.v2, trusted): a cancellable child of the parent is
made and kept, cancelled at once if the tomb is dying already; the call of tomb.Kill that makes the tomb dying cancels all that
have been made; asking again with the same parent may give the same context. Cancelling a context cancels its children
(package context). A nil parent is a background context (parent 0 if nobody cancels it).
-/

namespace Verif.Catacomb
open Verif.Spec

/-- catacomb.go:222-226 Err. -/
def err (s : State) : Option Err :=
  match s.tomb.reason with
  | none => some .tombStillAlive
  | some r => r

/-- catacomb.go:218-220 Wait, as one look: `none` while it blocks. -/
def waitNow (s : State) : Option (Option Err) := s.tomb.wait

/-- A catacomb with the contexts made by it: for each its parent and whether it is cancelled. -/
structure OState where
  cat : State
  /-- Cancelled parents. -/
  parents : List Nat := []
  ctxs : List (Nat × Bool) := []

inductive OOp
  /-- Anything the catacomb does. -/
  | cat (op : Op)
  /-- Somebody cancels a parent. -/
  | cancel (p : Nat)
  /-- catacomb.go:228-241 Context(parent), making a new one -/
  | context (p : Nat)

/-- Whether the step made the tomb dying, in which case tomb.Kill cancels the contexts. -/
def becomesDying (s s' : State) : Bool := s'.tomb.dying && !s.tomb.dying

def ostep (own : Nat) (o : OState) : OOp → Option OState
  | .cat op => (Catacomb.step own o.cat op).map fun s' =>
      { o with cat := s', ctxs := if becomesDying o.cat s' then o.ctxs.map (fun c => (c.1, true)) else o.ctxs }
  | .cancel p => some { o with parents := p :: o.parents, ctxs := o.ctxs.map (fun c => if c.1 = p then (c.1, true) else c) }
  | .context p => some { o with ctxs := o.ctxs ++ [(p, o.cat.tomb.dying || decide (p ∈ o.parents))] }

inductive OReach (own : Nat) : OState → Prop
  | init : OReach own { cat := Catacomb.init }
  | step {o o' : OState} (op : OOp) : OReach own o → ostep own o op = some o' → OReach own o'

theorem OReach.reach {own : Nat} {o : OState} (h : OReach own o) : Reach own o.cat := by
  induction h with
  | init => exact .init
  | step op _ hs ih =>
    cases op with
    | cat op =>
      simp only [ostep, Option.map_eq_some_iff] at hs
      obtain ⟨s', h1, rfl⟩ := hs
      exact .step op ih h1
    | cancel p => simp only [ostep, Option.some.injEq] at hs; subst hs; exact ih
    | context p => simp only [ostep, Option.some.injEq] at hs; subst hs; exact ih

end Verif.Catacomb
