import Verif.Props.EngineStopped

/-!
# The engine while a worker's Kill or Report runs in its loop (C91)

The loop goroutine itself calls the workers' Kill (engine.go:585, 592, 597, 742) and, when it answers a Report call, their own
Report (312-316). Each may take any time. In `Engine/Fine` the call is made at the end of a piece of the loop's work, and it
is over when the loop does the next piece.
-/

namespace Verif.Props
open Verif.Spec Verif.Engine

variable {cfg : Config} {f f' : Fine}

/-- An execution that satisfies `ok` at every step. -/
inductive FExec (cfg : Config) (ok : FOp → Bool) : Fine → Fine → Prop
  | nil (f : Fine) : FExec cfg ok f f
  | one {f f1 f2 : Fine} (o : FOp) : ok o = true → fstep cfg f o = some f1 → FExec cfg ok f1 f2 → FExec cfg ok f f2

/-- What only the loop goroutine does. An Install call that is refused because the engine is shutting down is not among these. -/
def needsLoop : Ev → Bool
  | .installed .. | .begin .. | .registered .. | .cancelled _ | .ended .. | .uninstalled _ | .report .. | .exit => true
  | .installFailed _ e => e != .shuttingDown
  | _ => false

/-- The loop calls a worker's Kill, or asks the workers for their reports. -/
def callsOut : Ev → Bool
  | .killW _ | .report .. => true
  | _ => false

/-- Every operation but the return to the loop goroutine. -/
def notWork : FOp → Bool
  | .work => false
  | _ => true

theorem env_free {s s' : State} {op : Op} (he : op.isEnv = true) (h : step cfg s op = some s') :
    ∃ es, s'.hist = es ++ s.hist ∧ ∀ e ∈ es, needsLoop e = false ∧ ∀ w, e = .killW w → s.dying = true := by
  have none {s' : State} (h : s'.hist = s.hist) : ∃ es, s'.hist = es ++ s.hist ∧ ∀ e ∈ es, needsLoop e = false ∧ ∀ w, e = .killW w → s.dying = true :=
    ⟨[], h, by simp⟩
  have one {s' : State} (e : Ev) (h : s'.hist = e :: s.hist) (h1 : needsLoop e = false) (h2 : ∀ w, e ≠ .killW w) :
      ∃ es, s'.hist = es ++ s.hist ∧ ∀ e ∈ es, needsLoop e = false ∧ ∀ w, e = .killW w → s.dying = true :=
    ⟨[e], h, by intro x hx; cases List.mem_singleton.1 hx; exact ⟨h1, fun w hw => absurd hw (h2 w)⟩⟩
  cases op with
  | armDying | armReport | armInstall | armStarted | armStopped => cases he
  | kill => simp only [step, Option.some.injEq] at h; subst h; exact one .kill rfl rfl nofun
  | gRegisterDying gid =>
    simp only [step] at h
    split at h
    · split at h
      · rename_i w hpc
        split at h
        · rename_i hd
          simp only [Option.some.injEq] at h; subst h
          cases w with
          | self => exact ⟨[.kill, .killW .self], rfl, by
              intro e he
              rcases List.mem_cons.1 he with rfl | he
              · exact ⟨rfl, fun _ _ => hd⟩
              · cases List.mem_singleton.1 he; exact ⟨rfl, fun _ _ => hd⟩⟩
          | obj k => exact ⟨[.killW (.obj k)], rfl, by intro e he; cases List.mem_singleton.1 he; exact ⟨rfl, fun _ _ => hd⟩⟩
        · cases h
      · cases h
    · cases h
  | installRefused | gAbort | gTimer | gGet | gStartOk | gStartErr | gSelfDone | gWaitRet | finish =>
    simp only [step] at h
    repeat' split at h
    all_goals first
      | (simp only [Option.some.injEq] at h; subst h
         first | exact none rfl | exact one _ rfl rfl nofun)
      | cases h

/-- C91: while the loop goroutine is in the middle of something, whatever else happens: no manifold is installed (and no
Install call answered, except that it is refused once the engine has been killed), no start attempt is made, no worker
registered, no attempt told to stop and none known to have ended, no manifold uninstalled; no Report call is answered, and the
engine does not end. No worker's Kill is called, except, once the engine has been killed, by the goroutine that has
just started the worker. -/
theorem C91_still (hr : FReach cfg f) (hb : f.todo ≠ []) (hx : FExec cfg notWork f f') :
    f'.todo = f.todo ∧ f'.s.tomb.dead = false ∧ .exit ∉ f'.s.hist ∧
    ∃ es, f'.s.hist = es ++ f.s.hist ∧ ∀ e ∈ es, needsLoop e = false ∧ ∀ w, e = .killW w → .kill ∈ f'.s.hist := by
  induction hx with
  | nil f =>
    obtain ⟨D, hl⟩ := freach_link hr
    have hd := hl.2.2.1 hb
    refine ⟨rfl, hd, fun h => ?_, [], rfl, by simp⟩
    obtain ⟨c, i⟩ := ex_hinv hl.1
    rw [i.dead.2 h] at hd; cases hd
  | @one f f1 f2 o ho hs _ ih =>
    have hr1 := FReach.step o hr hs
    cases o with
    | work => cases ho
    | env op =>
      simp only [fstep] at hs
      split at hs
      · rename_i he
        obtain ⟨s', h1, rfl⟩ := Option.map_eq_some_iff.1 hs
        obtain ⟨a, b, c, fs, h2, h3⟩ := ih hr1 hb
        obtain ⟨es, h4, h5⟩ := env_free he h1
        refine ⟨a, b, c, fs ++ es, by rw [h2, List.append_assoc]; exact congrArg _ h4, fun e he => ?_⟩
        rcases List.mem_append.1 he with he | he
        · exact h3 e he
        · refine ⟨(h5 e he).1, fun w hw => ?_⟩
          obtain ⟨D, hl⟩ := freach_link hr
          obtain ⟨_, i⟩ := ex_hinv hl.1
          have := i.dying.1 ((h5 e he).2 w hw)
          rw [h2]; show _ ∈ fs ++ s'.hist
          rw [h4]; simp [this]
      · cases hs
    | dying | report | install | started | stopped =>
      all_goals (simp only [fstep] at hs; rw [if_neg (by simp [hb])] at hs; cases hs)

theorem ready_check {s : State} {D : Debt} {l : List Task} (h : Ready cfg s D l) : l = [] ∨ ∃ l', l = l' ++ [.check] := by
  cases h with
  | idle => exact .inl rfl
  | bounces ds => exact .inr ⟨_, rfl⟩
  | bounceAll n => exact .inr ⟨[_], rfl⟩
  | start n d b => exact .inr ⟨_ :: _, rfl⟩
  | remove n vals b => exact .inr ⟨_ :: _, rfl⟩
  | react n told err vals b => exact .inr ⟨[_], rfl⟩
  | stops ns => exact .inr ⟨ns.map .stop ++ [.clearOneShot], by simp⟩
  | report => exact .inr ⟨[_], rfl⟩

theorem endArm_events (s : State) : ∃ es, (endArm s).hist = es ++ s.hist ∧ ∀ e ∈ es, callsOut e = false := by
  have ht : ∃ es, s.tick.hist = es ++ s.hist ∧ ∀ e ∈ es, callsOut e = false := by
    unfold State.tick
    split
    · exact ⟨[], rfl, by simp⟩
    · exact ⟨[.kill], rfl, by simp [callsOut]⟩
    · exact ⟨[], rfl, by simp⟩
  obtain ⟨es, h1, h2⟩ := ht
  simp only [endArm]
  split
  · exact ⟨.exit :: es, by show _ :: s.tick.hist = _; rw [h1]; rfl, by
      intro e he
      rcases List.mem_cons.1 he with rfl | he
      · rfl
      · exact h2 e he⟩
  · exact ⟨es, h1, h2⟩

/-- C91: and when the loop goroutine has called a worker's Kill, or taken the state that it is going to report, it is in the
middle of something. -/
theorem C91_busy (hr : FReach cfg f) {op : FOp} (ho : ∀ o, op ≠ .env o) (hs : fstep cfg f op = some f') {es : List Ev}
    (hh : f'.s.hist = es ++ f.s.hist) {e : Ev} (he : e ∈ es) (hc : callsOut e = true) : f'.todo ≠ [] := by
  intro h0
  cases op with
  | env o => exact ho o rfl
  | work =>
    simp only [fstep] at hs
    split at hs
    · cases hs
    · rename_i t ts ht
      cases hs
      have hts : ts = [] := (List.append_eq_nil_iff.1 h0).2
      subst hts
      obtain ⟨D, hl⟩ := freach_link hr
      rcases ready_check hl.2.2.2 with h | ⟨l', h⟩
      · rw [ht] at h; cases h
      · rw [ht] at h
        have : t = .check := by
          cases l' with
          | nil => exact (List.cons.inj h).1
          | cons a l' => have := (List.cons.inj h).2; simp at this
        subst this
        obtain ⟨fs, h1, h2⟩ := endArm_events f.s
        have : fs = es := List.append_cancel_right (h1.symm.trans hh)
        subst this
        rw [h2 e he] at hc; cases hc
  | dying order =>
    simp only [fstep] at hs
    split at hs <;> cases hs
    simp at h0
  | report =>
    simp only [fstep] at hs
    split at hs <;> cases hs
    cases h0
  | install n m order =>
    simp only [fstep] at hs
    split at hs <;> cases hs
    simp only [beginInstall] at h0
    split at h0
    · cases h0
    · split at h0 <;> cases h0
  | started gid now =>
    simp only [fstep] at hs
    repeat' split at hs
    all_goals cases hs
    simp only [beginStarted] at h0
    repeat' split at h0
    all_goals cases h0
  | stopped gid now vals =>
    simp only [fstep] at hs
    repeat' split at hs
    all_goals cases hs
    cases h0

/-- Manifold 0 is running as 10, 1 (which uses it) as 11. 10 fails, and the loop has called 11's Kill. -/
def opsInKill : List FOp := FDemo.opsUp ++ [ .env (.finish 10 (some (.user 1))), .env (.gWaitRet 0), .stopped 0 100 Demo.vals01,
  .work, .work, .work, .work ]

/-- Meanwhile the engine is killed, Install is called (perhaps by the Kill of 11) and refused, and 11 finishes. -/
def opsDuring : List FOp := [ .env .kill, .env (.installRefused 5), .env (.finish 11 none), .env (.gWaitRet 2) ]

theorem fexec_run {ok : FOp → Bool} {ops : List FOp} : ∀ {f f' : Fine}, FDemo.run cfg f ops = some f' → (∀ o ∈ ops, ok o = true) →
    FExec cfg ok f f' := by
  induction ops with
  | nil => intro f f' h _; cases h; exact .nil _
  | cons o ops ih =>
    intro f f' h ha
    simp only [FDemo.run] at h
    split at h
    · rename_i h1
      exact .one o (ha _ List.mem_cons_self) h1 (ih h fun o ho => ha o (List.mem_cons_of_mem _ ho))
    · cases h

example : ((FDemo.after Demo.cfg opsInKill).s.hist.head? = some (.killW (.obj 11)) ∧ (FDemo.after Demo.cfg opsInKill).todo ≠ []) ∧
    (∃ f', FDemo.run Demo.cfg (FDemo.after Demo.cfg opsInKill) opsDuring = some f' ∧
      FExec Demo.cfg notWork (FDemo.after Demo.cfg opsInKill) f') ∧
    (FDemo.after Demo.cfg (opsInKill ++ opsDuring)).s.hist = [.finished 11 none, .installFailed 5 .shuttingDown, .kill] ++
      (FDemo.after Demo.cfg opsInKill).s.hist := by
  refine ⟨⟨by decide +kernel, fun h => ?_⟩, ?_, by decide +kernel⟩
  · have h1 : (FDemo.after Demo.cfg opsInKill).todo.length = 1 := by decide +kernel
    rw [h] at h1; cases h1
  · have h1 : (FDemo.run Demo.cfg (FDemo.after Demo.cfg opsInKill) opsDuring).isSome = true := by decide +kernel
    obtain ⟨f', h2⟩ := Option.isSome_iff_exists.1 h1
    refine ⟨f', h2, fexec_run h2 ?_⟩
    intro o ho
    simp only [opsDuring, List.mem_cons, List.not_mem_nil, or_false] at ho
    rcases ho with rfl | rfl | rfl | rfl <;> rfl

/-- The same in a worker's Report. -/
def opsInReport : List FOp := FDemo.opsUp ++ [ .report, .work ]

example : ∃ ls, (FDemo.after Demo.cfg opsInReport).s.hist = .report false none ls :: (FDemo.after Demo.cfg FDemo.opsUp).s.hist ∧
    (FDemo.after Demo.cfg opsInReport).todo.length = 1 := ⟨_, rfl, rfl⟩

end Verif.Props
