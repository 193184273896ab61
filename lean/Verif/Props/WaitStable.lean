import Verif.Props.RunnerKilling
import Verif.Props.RunnerHist
import Verif.Props.EngineStopped
import Verif.Props.Misc

/-!
# C93: Wait always gives the same answer

Every caller of Wait on a runner or an engine gets the same error, however late it calls and whatever else is called in
between. (A catacomb's Wait does so too unless somebody calls Kill with an error after it has returned nil: C11.) Also, what becomes of
the stub workers whose error is one of the two the tomb refuses.
-/

namespace Verif.Props

section Runner
open Verif.RSpec Verif.Runner
variable {p : Params}

/-- Once the loop has returned, only Kill touches the tomb (runner.go:321, Kill). -/
theorem exited_tomb {s s' : State} {op : Op} (hp : s.tab.pc = .exited) (hs : step p s op = some s') :
    s'.tab.tomb = s.tab.tomb ∨ s'.tab.tomb = s.tab.tomb.kill none := by
  have hi : ∀ c id r, (afterInfo s c id r).tab.tomb = s.tab.tomb := by
    intro c id r; unfold afterInfo; split
    · rfl
    · split <;> rfl
  cases op
  all_goals
    simp only [Runner.step, Op.cid?, tabStep, clientStep, newClient, hp] at hs
    (repeat' split at hs) <;> first
      | (cases hs; done)
      | (simp at hs; done)
      | contradiction
      | (cases hs; exact .inl rfl)
      | (cases hs; exact .inl (hi ..))
      | (cases hs; exact .inr rfl)

/-- C93, the runner: whatever happens after Wait could return, it returns the same. -/
theorem C93_runner {ok cnt : Op → Bool} {n : Nat} {s s' : State} (hr : Reach p s) (hx : Exec p ok cnt n s s') {r : Option Err}
    (hw : Runner.waitResult s = some r) : Runner.waitResult s' = some r := by
  induction hx with
  | nil => exact hw
  | @one _ a _ _ op _ hs _ ih =>
    refine ih (.step op hr hs) ?_
    have hd : a.tab.pc = .exited := by
      by_contra hn
      rw [Runner.waitResult, Tomb.wait, not_dead hr hn] at hw
      cases hw
    rcases exited_tomb hd hs with h | h
    · rw [Runner.waitResult, h]; exact hw
    · rw [Runner.waitResult, h, Tomb.kill_none_of_dying]
      · exact hw
      · simp only [Runner.waitResult, Tomb.wait] at hw
        split at hw
        · rw [Tomb.dying, hw]; rfl
        · cases hw

/-- Two workers have ended with fatal errors and the loop has returned; then somebody calls Kill and StartWorker. -/
example : let s := RDemo.after RDemo.prm (RDemo.opsFatal 91 95)
    Reach RDemo.prm s ∧ Runner.waitResult s = some (some (.user 95)) ∧ ∃ s1 s2, step RDemo.prm s .kill = some s1 ∧
      step RDemo.prm s1 (.callStart 9 5) = some s2 ∧ Runner.waitResult s2 = some (some (.user 95)) :=
  ⟨RDemo.after_reach _ _, by decide +kernel, _, _, rfl, rfl, by decide +kernel⟩

end Runner

section Engine
open Verif.Engine
variable {cfg : Config}

/-- C93, the engine. -/
theorem C93_engine {f f' : Fine} (hr : FReach cfg f) (h : FRun cfg f f') {r : Option Err} (hw : Engine.waitResult cfg f.s = some r) :
    Engine.waitResult cfg f'.s = some r := by
  have h1 : deadReport cfg f.s = some (r, reportLines f.s) := by rw [deadReport, hw]; rfl
  have h2 := C87_same hr h h1
  rw [deadReport] at h2
  cases h3 : Engine.waitResult cfg f'.s with
  | none => rw [h3] at h2; cases h2
  | some q => rw [h3] at h2; simp only [Option.map_some, Option.some.injEq, Prod.mk.injEq] at h2; rw [h2.1]

example : FReach Demo.cfg (FDemo.after Demo.cfg FDemo.opsDown) ∧
    Engine.waitResult Demo.cfg (FDemo.after Demo.cfg FDemo.opsDown).s = some none ∧
    (fstep Demo.cfg (FDemo.after Demo.cfg FDemo.opsDown) (.env .kill)).isSome = true :=
  ⟨FDemo.after_reach _ _, by decide +kernel, by decide +kernel⟩

end Engine

section Stubs
open Verif.Stubs

/-- The call that is meant to end the worker, as a step. -/
def endsOp : Kind → Op
  | .forever => .reallyKill
  | _ => .kill

/-- C93, the stub workers: every Wait returns the error the worker was made with. -/
theorem C93_stub {k : Kind} {e : Option Err} {s : State} (hr : Stubs.Reach k e s) {r : Option Err} (h : .waitRet r ∈ s.hist) : r = e := by
  induction hr with
  | init => simp [Stubs.init] at h
  | @step s s' op hr hs ih =>
    by_cases ho : op = .wait
    · subst ho
      rw [(C62_wait hr hs).1] at h
      rcases List.mem_cons.1 h with h | h
      · cases h; rfl
      · exact ih h
    · refine ih ?_
      unfold Stubs.step at hs
      split at hs
      · cases hs
      · cases op <;> simp only at hs
        · split at hs <;> (cases hs; simpa using h)
        · split at hs <;> first | (cases hs; simpa using h) | cases hs
        · split at hs <;> first | (cases hs; exact h) | cases hs
        · exact absurd rfl ho

/-- C93: made with one of the two errors that tomb refuses, a stub never ends: Wait does not return, and the call that should
end it panics. -/
theorem C93_refused {k : Kind} {e : Option Err} {s : State} (hr : Stubs.Reach k e s) (hk : k ≠ .dead)
    (he : e = some .tombStillAlive ∨ e = some .tombDying) :
    Stubs.step s .wait = none ∧ ∀ s', Stubs.step s (endsOp k) = some s' → s'.tomb.panicked = true ∧ ∀ op, Stubs.step s' op = none := by
  have key : s.tomb.reason = none := by
    induction hr with
    | init => simp [Stubs.init, hk, Tomb.go]
    | @step s s' op hr hs ih =>
      have hI := hr.inv
      have hkill : (s.tomb.kill e).reason = none := by
        rcases he with rfl | rfl
        · simp [Tomb.kill, ih]
        · simp [Tomb.kill, ih]
      unfold Stubs.step at hs
      split at hs
      · cases hs
      · cases op <;> simp only [Tomb.dying, Tomb.wait, ih, Option.isSome_none, Bool.false_eq_true, and_false, if_false, ite_self] at hs
        · split at hs <;> cases hs
          · rw [← hI.err] at hkill; exact hkill
          · exact ih
        · split at hs <;> cases hs
          rw [← hI.err] at hkill; exact hkill
        · cases hs
        · split at hs <;> cases hs
          exact ih
  have hI := hr.inv
  have hpan : (s.tomb.kill s.err).panicked = true := by
    rw [hI.err]; rcases he with rfl | rfl <;> simp [Tomb.kill, key]
  refine ⟨?_, ?_⟩
  · unfold Stubs.step
    split
    · rfl
    · simp only [hI.kind, Tomb.wait, key, ite_self]
  · intro s' hs
    have : s'.tomb.panicked = true := by
      unfold Stubs.step at hs
      split at hs
      · cases hs
      · cases k
        · simp only [endsOp, hI.kind] at hs; cases hs; exact hpan
        · exact absurd rfl hk
        · simp only [endsOp, hI.kind] at hs; cases hs; exact hpan
    exact ⟨this, fun op => by unfold Stubs.step; rw [if_pos this]⟩

example : ∃ s s', Stubs.Reach .error (some .tombDying) s ∧ Stubs.step s (endsOp .error) = some s' ∧ s'.tomb.panicked = true :=
  ⟨_, _, .init, rfl, rfl⟩
example : ∃ s1 s2 s3 s4, Stubs.step (Stubs.init .forever (some (.user 3))) .kill = some s1 ∧ Stubs.step s1 .reallyKill = some s2 ∧
    Stubs.step s2 .goroutine = some s3 ∧ Stubs.step s3 .wait = some s4 ∧ s4.hist = [.waitRet (some (.user 3)), .reallyKill, .kill] :=
  ⟨_, _, _, _, rfl, rfl, rfl, rfl, rfl⟩

end Stubs
end Verif.Props
