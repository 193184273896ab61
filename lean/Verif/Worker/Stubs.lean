import Verif.Tomb

/-!
# workertest/workers.go

The three stub workers, with any number of concurrent Kill, ReallyKill and Wait calls. A panic ends the execution.
-/

namespace Verif.Stubs

inductive Kind
  /-- workers.go:17-39 -/
  | error
  /-- workers.go:43-57 -/
  | dead
  /-- workers.go:62-88 -/
  | forever
deriving DecidableEq, Repr

inductive Ev
  | kill
  | reallyKill
  | waitRet (r : Option Err)
deriving DecidableEq, Repr

structure State where
  kind : Kind
  err : Option Err
  tomb : Tomb
  hist : List Ev := []
deriving DecidableEq, Repr

/-- The constructors. NewErrorWorker and NewForeverWorker start a goroutine (workers.go:19-22, 64-67). -/
def init (k : Kind) (e : Option Err) : State :=
  { kind := k, err := e, tomb := if k = .dead then {} else ({} : Tomb).go }

inductive Op
  | kill
  | reallyKill
  /-- The goroutine sees that the tomb is dying and returns nil. -/
  | goroutine
  | wait
deriving DecidableEq, Repr

def step (s : State) (op : Op) : Option State :=
  if s.tomb.panicked then none else
  match op with
  | .kill => match s.kind with
    | .error => some { s with tomb := s.tomb.kill s.err, hist := .kill :: s.hist }
    | _ => some { s with hist := .kill :: s.hist }
  | .reallyKill => match s.kind with
    | .forever => some { s with tomb := s.tomb.kill s.err, hist := .reallyKill :: s.hist }
    | _ => none
  | .goroutine => if s.tomb.alive ≠ 0 ∧ s.tomb.dying then some { s with tomb := s.tomb.finish none } else none
  | .wait => match s.kind with
    | .dead => some { s with hist := .waitRet s.err :: s.hist }
    | _ => match s.tomb.wait with
      | some r => some { s with hist := .waitRet r :: s.hist }
      | none => none

inductive Reach (k : Kind) (e : Option Err) : State → Prop
  | init : Reach k e (Stubs.init k e)
  | step {s s' : State} (op : Op) : Reach k e s → step s op = some s' → Reach k e s'

/-- The call that is meant to end the worker. -/
def ends : Kind → Ev
  | .forever => .reallyKill
  | _ => .kill

structure Inv (k : Kind) (e : Option Err) (s : State) : Prop where
  kind : s.kind = k
  err : s.err = e
  dead : k = .dead → s.tomb = {}
  panic : s.tomb.panicked = true → e = some .tombStillAlive ∨ e = some .tombDying
  reason : ∀ r, s.tomb.reason = some r → r = e
  dying : k ≠ .dead → s.tomb.panicked = false → (s.tomb.dying = true ↔ ends k ∈ s.hist)
  alive : k ≠ .dead → s.tomb.alive = if s.tomb.dead then 0 else 1
  deadDying : s.tomb.dead = true → s.tomb.dying = true

theorem kill_inv {t : Tomb} {e : Option Err} (hr : ∀ r, t.reason = some r → r = e) (hp : t.panicked = false) :
    ((t.kill e).panicked = true → e = some .tombStillAlive ∨ e = some .tombDying) ∧
    (∀ r, (t.kill e).reason = some r → r = e) ∧
    ((t.kill e).panicked = false → (t.kill e).dying = true) := by
  have np : ∀ {q : Prop}, t.panicked = true → q := fun h => by rw [hp] at h; cases h
  unfold Tomb.kill
  split
  · rename_i h; exact ⟨fun _ => Or.inl h, hr, nofun⟩
  · split
    · rename_i h
      split
      · exact ⟨fun _ => Or.inr h, hr, nofun⟩
      · rename_i h1
        refine ⟨np, hr, fun _ => ?_⟩
        cases h3 : t.reason with
        | none => exact absurd h3 h1
        | some r => simp [Tomb.dying, h3]
    · split
      · exact ⟨np, fun r h => (by cases h; rfl), fun _ => rfl⟩
      · exact ⟨np, fun r h => (by cases h; rfl), fun _ => rfl⟩
      · rename_i x h1
        exact ⟨np, hr, fun _ => by simp [Tomb.dying, h1]⟩

theorem Reach.inv {k : Kind} {e : Option Err} {s : State} (hr : Reach k e s) : Inv k e s := by
  induction hr with
  | init =>
    refine ⟨rfl, rfl, ?_, ?_, ?_, ?_, ?_, ?_⟩
    · intro h; simp [Stubs.init, h]
    · cases k <;> simp [Stubs.init, Tomb.go]
    · cases k <;> simp [Stubs.init, Tomb.go]
    · cases k <;> simp [Stubs.init, Tomb.go, Tomb.dying]
    · cases k <;> simp [Stubs.init, Tomb.go]
    · cases k <;> simp [Stubs.init, Tomb.go]
  | @step s s' op hr hs hI =>
    unfold Stubs.step at hs
    split at hs
    · cases hs
    · rename_i hp
      have hp : s.tomb.panicked = false := Bool.eq_false_iff.2 hp
      have hk := kill_inv (t := s.tomb) (e := e) hI.reason hp
      cases op with
      | kill =>
        simp only at hs
        split at hs
        · rename_i h
          have h' : k = .error := hI.kind ▸ h
          subst h'
          rw [hI.err] at hs
          cases hs
          exact ⟨hI.kind, rfl, nofun, hk.1, hk.2.1, fun _ h2 => ⟨fun _ => List.mem_cons_self, fun _ => hk.2.2 h2⟩,
            fun h2 => by simpa using hI.alive h2, fun h2 => by
              simp only [Tomb.kill_dead] at h2
              have := hI.deadDying h2
              rcases hp2 : (s.tomb.kill e).panicked with _ | _
              · exact hk.2.2 hp2
              · rcases hk.1 hp2 with he | he <;> subst he <;> simp only [Tomb.kill, if_true] at *
                · exact this
                · split
                  · exact this
                  · split <;> exact this⟩
        · rename_i h
          cases hs
          refine ⟨hI.kind, hI.err, hI.dead, hI.panic, hI.reason, fun h1 h2 => ?_, hI.alive, hI.deadDying⟩
          rw [hI.dying h1 h2]
          have : k = .forever := by
            have := hI.kind
            cases k with
            | error => exact absurd this h
            | dead => exact absurd rfl h1
            | forever => rfl
          subst this
          exact ⟨List.mem_cons_of_mem _, fun h => (List.mem_cons.1 h).resolve_left nofun⟩
      | reallyKill =>
        simp only at hs
        split at hs
        · rename_i h
          have h' : k = .forever := hI.kind ▸ h
          subst h'
          rw [hI.err] at hs
          cases hs
          exact ⟨hI.kind, rfl, nofun, hk.1, hk.2.1, fun _ h2 => ⟨fun _ => List.mem_cons_self, fun _ => hk.2.2 h2⟩,
            fun h2 => by simpa using hI.alive h2, fun h2 => by
              simp only [Tomb.kill_dead] at h2
              have := hI.deadDying h2
              rcases hp2 : (s.tomb.kill e).panicked with _ | _
              · exact hk.2.2 hp2
              · rcases hk.1 hp2 with he | he <;> subst he <;> simp only [Tomb.kill, if_true] at *
                · exact this
                · split
                  · exact this
                  · split <;> exact this⟩
        · cases hs
      | goroutine =>
        simp only at hs
        split at hs
        · rename_i h
          obtain ⟨ha, hd⟩ := h
          have hk' : k ≠ .dead := by
            intro h; rw [hI.dead h] at ha; exact ha rfl
          have hal := hI.alive hk'
          have hnd : s.tomb.dead = false := by
            cases hdd : s.tomb.dead with
            | false => rfl
            | true => rw [hdd] at hal; exact absurd hal ha
          rw [hnd] at hal
          simp only [Bool.false_eq_true, if_false] at hal
          cases hs
          have hf : s.tomb.finish none = { s.tomb with alive := 0, dead := true } := by
            cases hrr : s.tomb.reason with
            | none => simp [Tomb.dying, hrr] at hd
            | some x => cases x <;> simp [Tomb.finish, Tomb.kill, hal, hrr, hp]
          rw [hf]
          exact ⟨hI.kind, hI.err, fun h => absurd h hk', fun h => (by
            have h : s.tomb.panicked = true := h
            rw [hp] at h; cases h), hI.reason, hI.dying, fun _ => (by simp), fun _ => hd⟩
        · cases hs
      | wait =>
        simp only at hs
        have key : ∀ r, Inv k e { s with hist := .waitRet r :: s.hist } := fun r =>
          ⟨hI.kind, hI.err, hI.dead, hI.panic, hI.reason, fun h1 h2 => by
            rw [hI.dying h1 h2]
            exact ⟨List.mem_cons_of_mem _, fun h => (List.mem_cons.1 h).resolve_left (by cases k <;> nofun)⟩, hI.alive, hI.deadDying⟩
        split at hs
        · cases hs; exact key _
        · split at hs
          · cases hs; exact key _
          · cases hs

end Verif.Stubs
