import Verif.Catacomb.Fair
import Verif.Stutter

/-!
# Infinite executions of a catacomb with pauses

If the catacomb does nothing from some point on, calls of ErrDying make an infinite execution of it. A panic ends the program, and with it
the execution.
-/

namespace Verif.Catacomb
open State Verif.Spec Verif.Schedule

variable {own : Nat}

def ctrans (own : Nat) (s : State) (op : Op) (s' : State) : Prop := step own s op = some s'

/-- An infinite execution of a catacomb with pauses. -/
abbrev Pauses (own : Nat) := SRun (ctrans own) init

/-- What has happened in the first `k` steps. -/
def pausesHist (r : Pauses own) (k : Nat) : List Ev := (r.st k).hist

/-- The steps of the catacomb's goroutines and of calls in progress. -/
def ckind (op : Op) : Option Op := if op.internal then some op else none

/-- A call of ErrDying. -/
def Filler (own : Nat) (a : State) (op : Op) (b : State) : Prop := op = .callErrDying ∧ ctrans own a op b

theorem Filler.form {a b : State} {op : Op} (h : Filler own a op b) : b = a.emit (.errDying (errDying own a)) := by
  obtain ⟨rfl, hs⟩ := h
  simp only [ctrans, step] at hs
  split at hs
  · cases hs
  · simp only [Op.inv?, Op.add?, Op.track?, stepMain, Option.some.injEq] at hs
    exact hs.symm

theorem Filler.exists {a : State} (hc : a.crashed = false) : ∃ op b, Filler own a op b := by
  refine ⟨.callErrDying, a.emit (.errDying (errDying own a)), rfl, ?_⟩
  simp [ctrans, step, hc, Op.inv?, Op.add?, Op.track?, stepMain]

/-- This makes nothing possible for the catacomb. -/
theorem emit_can {a : State} {e : Ev} {op : Op} (hs : (step own (a.emit e) op).isSome = true) : (step own a op).isSome = true := by
  simp only [step] at hs ⊢
  have hc : (a.emit e).crashed = a.crashed := rfl
  rw [hc] at hs
  split at hs
  · cases hs
  rename_i h; rw [if_neg h]
  have h1 : (a.emit e).invs = a.invs := rfl
  have h2 : (a.emit e).adds = a.adds := rfl
  have h3 : (a.emit e).tracks = a.tracks := rfl
  have h4 : (a.emit e).fin = a.fin := rfl
  have h5 : (a.emit e).dying = a.dying := rfl
  have h6 : (a.emit e).listener = a.listener := rfl
  have h7 : (a.emit e).work = a.work := rfl
  have h8 : (a.emit e).owner = a.owner := rfl
  have h9 : (a.emit e).wg = a.wg := rfl
  have h10 : (a.emit e).tomb = a.tomb := rfl
  have h11 : (a.emit e).goexit = a.goexit := rfl
  revert hs h1 h2 h3 h4 h5 h6 h7 h8 h9 h10 h11
  generalize a.emit e = b
  intro hs h1 h2 h3 h4 h5 h6 h7 h8 h9 h10 h11
  rw [h1, h2, h3] at hs
  split at hs
  · rename_i i _
    cases hv : a.invs[i]? with
    | none => rw [hv] at hs; cases hs
    | some v =>
      rw [hv] at hs
      simp only [Option.bind_some] at hs ⊢
      revert hs
      cases op <;> simp only [stepInv, h4, h8] <;> (repeat' split) <;> simp_all
  · rename_i c _ _
    cases hv : a.adds[c]? with
    | none => rw [hv] at hs; cases hs
    | some v =>
      rw [hv] at hs
      simp only [Option.bind_some] at hs ⊢
      revert hs
      cases op <;> simp only [stepAdd, h4, h5, h6] <;> (repeat' split) <;> simp_all
  · rename_i k _ _ _
    cases hv : a.tracks[k]? with
    | none => rw [hv] at hs; cases hs
    | some v =>
      rw [hv] at hs
      simp only [Option.bind_some] at hs ⊢
      revert hs
      cases op <;> simp only [stepTrack, h4, h5] <;> (repeat' split) <;> simp_all
  · revert hs
    cases op <;> simp only [stepMain, h4, h5, h6, h7, h9, h10, h11] <;> (repeat' split) <;> simp_all

end Verif.Catacomb
