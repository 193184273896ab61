import Mathlib.Tactic.ByContra
import Verif.Props.EngineFine
import Verif.Engine.Race

/-!
# Engine: the loop's variables and no data races (C86); the report of a stopped engine (C87)
-/

namespace Verif.Props
open Verif.Spec Verif.Engine

variable {cfg : Config} {f f' : Fine}

/-- The same with other values of the loop's variables. -/
def FOwn (f : Fine) (C : AMap Info) (M : AMap Manifold) (D : AMap (List Name)) (w : Option Err) (o : Bool) : Fine :=
  { f with s := f.s.own C M D w o }

/-- The step reads or writes one of `current`, `manifolds`, `dependents`, `worstError` and `oneShotDying`: with some other values
of these it would not do the same to everything else. -/
def FTouches (cfg : Config) (f : Fine) (op : FOp) : Prop :=
  ∃ C M D w o, fstep cfg (FOwn f C M D w o) op ≠ (fstep cfg f op).map (fun f' => FOwn f' C M D w o)

/-! ## C86 -/

/-- C86: a step that uses the loop's variables is one of the loop goroutine. -/
theorem C86_private {op : FOp} (h : FTouches cfg f op) : ∀ e, op ≠ .env e := by
  rintro e rfl
  obtain ⟨C, M, D, w, o, h⟩ := h
  apply h
  simp only [fstep]
  split
  · rename_i he
    show (step cfg (f.s.own C M D w o) e).map _ = _
    rw [step_own he, Option.map_map, Option.map_map]; rfl
  · rfl

/-- C86: so is a step that changes one of them. -/
theorem C86_writer {op : FOp} (hs : fstep cfg f op = some f') (h : f'.s.current ≠ f.s.current ∨ f'.s.manifolds ≠ f.s.manifolds ∨
    f'.s.dependents ≠ f.s.dependents ∨ f'.s.worst ≠ f.s.worst ∨ f'.s.oneShot ≠ f.s.oneShot) : ∀ e, op ≠ .env e := by
  rintro e rfl
  simp only [fstep] at hs
  split at hs
  · rename_i he
    obtain ⟨s', h1, rfl⟩ := Option.map_eq_some_iff.1 hs
    have h2 := step_own (cfg := cfg) (s := f.s) he f.s.current f.s.manifolds f.s.dependents f.s.worst f.s.oneShot
    have h3 : f.s.own f.s.current f.s.manifolds f.s.dependents f.s.worst f.s.oneShot = f.s := rfl
    rw [h3, h1] at h2
    have h4 : s' = s'.own f.s.current f.s.manifolds f.s.dependents f.s.worst f.s.oneShot := Option.some.inj h2
    rcases h with h | h | h | h | h
    · exact h ((congrArg (fun s : State => s.current) h4 :) )
    · exact h ((congrArg (fun s : State => s.manifolds) h4 :) )
    · exact h ((congrArg (fun s : State => s.dependents) h4 :) )
    · exact h ((congrArg (fun s : State => s.worst) h4 :) )
    · exact h ((congrArg (fun s : State => s.oneShot) h4 :) )
  · cases hs

/-- C86: once the engine is dead the loop goroutine does nothing any more, so that Wait and Report may use its variables. -/
theorem C86_dead (hr : FReach cfg f) (hd : f.s.tomb.dead = true) {op : FOp} (hs : fstep cfg f op = some f') :
    ∃ e, op = .env e := by
  obtain ⟨D, hl⟩ := freach_link hr
  have h0 : f.todo = [] := by
    by_contra hn
    rw [hl.2.2.1 hn] at hd; cases hd
  cases op with
  | env e => exact ⟨e, rfl⟩
  | work => simp [fstep, h0] at hs
  | dying order => simp [fstep, hd] at hs
  | report => simp [fstep, hd] at hs
  | install n m order => simp [fstep, hd] at hs
  | started gid now => simp [fstep, hd] at hs
  | stopped gid now vals => simp [fstep, hd] at hs

/-- The loop uses its variables: here for a new manifold. -/
example : FTouches Demo.cfg {} (.install 0 { inputs := [] } [0]) := by
  refine ⟨.empty, .set .empty 0 {}, .empty, none, true, ?_⟩
  intro h
  have h2 := congrArg (fun x : Option Fine => x.map (fun f => f.s.hist)) h
  revert h2
  decide +kernel

/-! ## C87 -/

/-- What is expected of a line of a report made after the engine stopped: as for any report, and the manifold is stopped, unless
its worker is the engine itself. -/
def StoppedLine (h : List Ev) (l : ReportLine) : Prop :=
  (∃ m, manH h l.name = some m ∧ l.inputs = m.inputs) ∧ l.startCount = countH h l.name ∧ l.err = errH h l.name ∧
  l.nested = false ∧ (l.state = .stopped ∧ l.lastStart = none ∨ workerH h l.name = some .self)

/-- C87: Report falls back to the variables exactly when the engine has exited. -/
theorem C87_when (hr : FReach cfg f) : (deadReport cfg f.s).isSome = true ↔ .exit ∈ f.s.hist := by
  unfold deadReport
  rw [Option.isSome_map, C81_wait_result hr]
  split <;> simp_all

theorem not_started {h : List Ev} {n : Name} (hw : workerH h n = none) : startedH h n = 0 := by
  induction h with
  | nil => rfl
  | cons e h ih =>
    cases e <;> simp only [workerH, startedH] at hw ⊢ <;> first | exact ih hw | skip
    all_goals split at hw
    all_goals first
      | cases hw; done
      | (rename_i he; rw [if_pos he])
      | (rename_i he; rw [if_neg he]; exact ih hw)

/-- C87: the report of a stopped engine has the error that Wait returns, and one line for each manifold that was installed when it
stopped. No manifold is reported as running except the engine itself, and no other worker is asked for its report. -/
theorem C87_report (hr : FReach cfg f) {e : Option Err} {lines : List ReportLine} (h : deadReport cfg f.s = some (e, lines)) :
    e = (cfg.filter.getD id) (worstH cfg.isFatal cfg.worstError f.s.hist) ∧ (lines.map ReportLine.name).Nodup ∧
    (∀ n, n ∈ lines.map ReportLine.name ↔ manH f.s.hist n ≠ none) ∧ ∀ l ∈ lines, StoppedLine f.s.hist l := by
  have hx := (C87_when hr).1 (by rw [h]; rfl)
  obtain ⟨D, hl⟩ := freach_link hr
  obtain ⟨c, i⟩ := ex_hinv hl.1
  unfold deadReport at h
  rw [C81_wait_result hr, if_pos hx] at h
  simp only [Option.map_some, Option.some.injEq, Prod.mk.injEq] at h
  obtain ⟨rfl, rfl⟩ := h
  have hs := lines_ok c i (ex_binv hl.1) true none
  refine ⟨rfl, hs.1, hs.2.1, ?_⟩
  intro l hm
  obtain ⟨h1, h2, h3, h4, h7, h5⟩ := hs.2.2 l hm
  have h6 : l.state = .stopped ∧ l.lastStart = none ∨ workerH f.s.hist l.name = some .self := by
    rcases (c.dead (i.dead.2 hx)).2 l.name with hst | hw
    · left
      obtain ⟨ha, hb⟩ := (stopped_iff _).1 hst
      refine ⟨?_, by rw [h7, not_started (by rw [← i.worker]; exact ha), if_pos rfl]⟩
      rw [h2, ← state_eq c i]
      simp [Info.state, ha, hb, c.idle l.name hst]
    · right; rw [← i.worker]; exact hw
  refine ⟨h1, h3, h4, ?_, h6⟩
  by_contra hn
  obtain ⟨k, hk⟩ := h5.1 (by simpa using hn)
  rcases h6 with ⟨h6, -⟩ | h6
  · rw [h2] at h6
    unfold stateH at h6
    split at h6
    · rename_i ho
      rcases (c.dead (i.dead.2 hx)).2 l.name with hst | hw
      · obtain ⟨ha, hb⟩ := (stopped_iff _).1 hst
        rw [i.worker, hk] at ha; cases ha
      · rw [i.worker, hk] at hw; cases hw
    · rw [hk] at h6
      simp only [reduceCtorEq, if_false] at h6
      split at h6 <;> cases h6
  · rw [hk] at h6; cases h6

/-- An execution goes on. -/
inductive FRun (cfg : Config) : Fine → Fine → Prop
  | refl (f : Fine) : FRun cfg f f
  | tail {f f1 f2 : Fine} {op : FOp} : FRun cfg f f1 → fstep cfg f1 op = some f2 → FRun cfg f f2

theorem FRun.reach (h : FRun cfg f f') (hr : FReach cfg f) : FReach cfg f' := by
  induction h with
  | refl => exact hr
  | tail _ hs ih => exact .step _ ih hs

/-- C87: whoever calls Report later gets the same, and so does whoever calls Wait. -/
theorem C87_same (hr : FReach cfg f) (h : FRun cfg f f') {r : Option Err × List ReportLine} (hd : deadReport cfg f.s = some r) :
    deadReport cfg f'.s = some r := by
  induction h with
  | refl => exact hd
  | @tail f1 f2 op h1 hs ih =>
    have hr1 := h1.reach hr
    have hx := (C87_when hr1).1 (by rw [ih]; rfl)
    obtain ⟨D, hl⟩ := freach_link hr1
    have hdead := (ex_hinv hl.1).2.dead.2 hx
    obtain ⟨e, rfl⟩ := C86_dead hr1 hdead hs
    have hsame : ∀ {P : Prop}, (f2.s.current ≠ f1.s.current ∨ f2.s.manifolds ≠ f1.s.manifolds ∨ f2.s.dependents ≠ f1.s.dependents ∨
        f2.s.worst ≠ f1.s.worst ∨ f2.s.oneShot ≠ f1.s.oneShot) → P := fun h => absurd rfl (C86_writer hs h e)
    have hc : f2.s.current = f1.s.current := by by_contra hn; exact hsame (.inl hn)
    have hm : f2.s.manifolds = f1.s.manifolds := by by_contra hn; exact hsame (.inr (.inl hn))
    have hw : f2.s.worst = f1.s.worst := by by_contra hn; exact hsame (.inr (.inr (.inr (.inl hn))))
    have hlines : reportLines f2.s = reportLines f1.s := by
      unfold reportLines State.cur State.man; rw [hc, hm]
    obtain ⟨D2, hl2⟩ := freach_link (.step _ hr1 hs)
    have hx2 : .exit ∈ f2.s.hist := by
      refine (ex_hinv hl2.1).2.dead.1 ?_
      simp only [fstep] at hs
      split at hs
      · rename_i he
        obtain ⟨s', h3, rfl⟩ := Option.map_eq_some_iff.1 hs
        rw [(env_frame he h3).dead]; exact hdead
      · cases hs
    rw [← ih]
    unfold deadReport
    have hwait : waitResult cfg f2.s = waitResult cfg f1.s := by
      rw [C81_wait_result hr1, C81_wait_result (.step _ hr1 hs), if_pos hx, if_pos hx2, ← (ex_hinv hl.1).2.worst,
        ← (ex_hinv hl2.1).2.worst, hw]
    rw [hwait, hlines]

/-- The engine has stopped; its two manifolds are reported as stopped, and stay so although a worker that nobody waits for finishes. -/
example : FReach Demo.cfg (FDemo.after Demo.cfg FDemo.opsDown) ∧
    deadReport Demo.cfg (FDemo.after Demo.cfg FDemo.opsDown).s =
      some (none, [⟨0, .stopped, [], 1, some .aborted, none, false⟩, ⟨1, .stopped, [0], 1, none, none, false⟩]) ∧
    (fstep Demo.cfg (FDemo.after Demo.cfg FDemo.opsDown) (.env (.finish 99 none))).isSome = true :=
  ⟨FDemo.after_reach _ _, by decide +kernel, by decide +kernel⟩

end Verif.Props
