import Verif.Engine.Clients
import Verif.Spec.EngineExact

/-!
# Specification: calls on an engine

What the log of an engine and its clients looks like (newest first). Only the types of events, calls and results are those of the
model.
-/

namespace Verif.Spec
open Verif.Engine

/-- What happened in the engine. -/
def engOf (h : List CEv) : List Ev := h.filterMap (fun
  | .eng e => some e
  | _ => none)

/-- Answers given by the loop. -/
def loopAnswer : Ev → Bool
  | .installed .. | .report .. => true
  | .installFailed _ e => decide (e ≠ .shuttingDown)
  | _ => false

/-- Results given by the loop. -/
def byLoop : Res → Bool
  | .ok | .live .. => true
  | .err e => decide (e ≠ .shuttingDown)
  | _ => false

/-- The answer of the loop that its caller has not yet received: what the engine has done since, the answer, and the log before
it. -/
def pendingH : List CEv → Option (List Ev × Ev × List CEv)
  | [] => none
  | .eng e :: h => if loopAnswer e then some ([], e, h) else (pendingH h).map (fun p => (e :: p.1, p.2))
  | .ret _ r :: h => if byLoop r then none else pendingH h
  | .call _ _ :: h => pendingH h

/-- Call `c` asks for `q` and has not returned. -/
def Open (h : List CEv) (c : Nat) (q : Req) : Prop := .call c q ∈ h ∧ ∀ r, .ret c r ∉ h

/-- The answer is one to such a call. -/
def Wants : Req → Ev → Prop
  | .install n m, .installed n' m' => n' = n ∧ m' = m
  | .install n _, .installFailed n' _ => n' = n
  | .report, .report .. => True
  | _, _ => False

/-- The answer `a` of the loop, given when `y` was the log, is right for a call of `q`, and means that the call returns `r`. -/
def Right (cfg : Config) (y : List CEv) : Req → Ev → Res → Prop
  | .install n m, .installed n' m', .ok =>
      n' = n ∧ m' = m ∧ manH (engOf y) n = none ∧ ¬ CyclicH (.installed n m :: engOf y)
  | .install n m, .installFailed n' e, .err e' => n' = n ∧ e' = e ∧
      ((e = .alreadyInstalled n ∧ manH (engOf y) n ≠ none) ∨
       (e = .wrap 0 .cycle ∧ manH (engOf y) n = none ∧ CyclicH (.installed n m :: engOf y)))
  | .report, .report d e l, .live d' e' l' => d' = d ∧ e' = e ∧ l' = l ∧ .report d e l = reportH cfg (engOf y)
  | _, _, _ => False

/-- What has to have been done for an answer before the call returns: a manifold that was installed has been started, unless the
engine is dying. -/
def Seen (h : List CEv) (x : List Ev) : Ev → Prop
  | .installed n _ => .kill ∈ engOf h ∨ ∃ g b r sn, .begin n g b r sn ∈ x
  | _ => True

/-- A call of `q` may return `r`. -/
def Returns (cfg : Config) (h : List CEv) (c : Nat) (q : Req) (r : Res) : Prop :=
  match q, r with
  | .install _ _, .err .shuttingDown => .kill ∈ engOf h
  | .report, .stopped e l => .exit ∈ engOf h ∧
      e = (cfg.filter.getD id) (worstH cfg.isFatal cfg.worstError (engOf h)) ∧ l = (orderH (engOf h)).map (lineH (engOf h))
  | .wait, .waited e => .exit ∈ engOf h ∧ e = (cfg.filter.getD id) (worstH cfg.isFatal cfg.worstError (engOf h))
  | q, r => ∃ x a y, pendingH h = some (x, a, y) ∧ .call c q ∈ y ∧ Right cfg y q a r ∧ Seen h x a

/-- While an answer of the loop has not been received, the loop does nothing but begin the first attempt of a manifold just
installed. -/
def Waits (e : Ev) (x : List Ev) (a : Ev) : Prop := loopAnswer e = false ∧ (foreign e = true ∨
  ∃ n m g r sn, a = .installed n m ∧ e = .begin n g 0 r sn ∧ ∀ g' b' r' sn', .begin n g' b' r' sn' ∉ x)

/-- What may happen in the log. -/
def LogOk (cfg : Config) : CEv → List CEv → Prop
  | .call c _, h => (∀ q, .call c q ∉ h) ∧ ∀ r, .ret c r ∉ h
  | .eng e, h => (answers e = true → ∃ c q, Open h c q ∧ Wants q e) ∧ ∀ x a y, pendingH h = some (x, a, y) → Waits e x a
  | .ret c r, h => ∃ q, Open h c q ∧ Returns cfg h c q r

/-- What kind of answer of the loop an event is: a manifold installed (0), an Install that failed (1), a report (2). -/
def evKind : Ev → Option Nat
  | .installed .. => some 0
  | .installFailed _ e => if e = .shuttingDown then none else some 1
  | .report .. => some 2
  | _ => none

/-- What kind of answer of the loop a result is: nil (0), an error (1), a report (2). -/
def resKind : Res → Option Nat
  | .ok => some 0
  | .err e => if e = .shuttingDown then none else some 1
  | .live .. => some 2
  | _ => none

/-- How many answers of a kind the loop has given. -/
def givenH (κ : Nat) (h : List CEv) : Nat := h.countP (fun
  | .eng e => evKind e == some κ
  | _ => false)

/-- How many calls have returned with an answer of a kind. -/
def gotH (κ : Nat) (h : List CEv) : Nat := h.countP (fun
  | .ret _ r => resKind r == some κ
  | _ => false)

/-- Whether an answer of a kind is being handed over. -/
def underwayH (κ : Nat) (h : List CEv) : Nat := match pendingH h with
  | some (_, a, _) => if evKind a = some κ then 1 else 0
  | none => 0

/-- How often a call has returned. -/
def returnsH (c : Nat) (h : List CEv) : Nat := h.countP (fun
  | .ret d _ => d == c
  | _ => false)

end Verif.Spec
