import Verif.Engine.FineAll
import Verif.Engine.Cause
import Verif.Props.EngineHist

/-!
# C81: the engine's guarantees do not depend on the arms of its loop being atomic

`FReach cfg f`: `f` can be reached by an engine whose loop goroutine does its work piece by piece, while Start funcs are
called and return, workers finish, Kill lands and so on between any two pieces (Verif/Engine/Fine.lean).
-/

namespace Verif.Props
open Verif.Engine Verif.Spec

namespace FDemo

/-- Run a list of operations; `none` if one is not enabled. -/
def run (cfg : Config) : Fine → List FOp → Option Fine
  | f, [] => some f
  | f, op :: ops => match fstep cfg f op with
    | some f' => run cfg f' ops
    | none => none

theorem run_reach {cfg : Config} : ∀ (ops : List FOp) {f f' : Fine}, FReach cfg f → run cfg f ops = some f' →
    FReach cfg f' := by
  intro ops
  induction ops with
  | nil => intro f f' hr h; simp only [run, Option.some.injEq] at h; exact h ▸ hr
  | cons op ops ih =>
    intro f f' hr h
    simp only [run] at h
    split at h
    · rename_i f1 h1; exact ih (hr.step op h1) h
    · cases h

/-- The state after the operations, if they are enabled. -/
def after (cfg : Config) (ops : List FOp) : Fine := (run cfg {} ops).getD {}

theorem after_reach (cfg : Config) (ops : List FOp) : FReach cfg (after cfg ops) := by
  unfold after
  cases h : run cfg {} ops with
  | none => exact .init
  | some f => exact run_reach ops .init h

/-- Manifold 1 uses manifold 0. When 0's worker has been registered, and before the loop gets to tell 1 about it, the
Start func of 1 is called, asks for 0 and returns. -/
def opsStale : List FOp :=
  [ .install 0 {} [0], .work, .work, .install 1 { inputs := [0] } [1, 0], .work, .work,
    .env (.gTimer 0 0), .env (.gStartOk 0 (.obj 10)), .started 0 5,
    .env (.gTimer 1 0), .env (.gGet 1 0 none), .env (.gStartErr 1 .missing) ]

/-- Then the loop goes on: it tells 1 to stop, and 1 is started again, this time with 0's worker. -/
def opsUp : List FOp := opsStale ++ [ .work, .work, .work, .stopped 1 6 Demo.noVals, .work, .work, .work,
  .env (.gTimer 2 0), .env (.gGet 2 0 none), .env (.gStartOk 2 (.obj 11)), .started 2 8, .work, .work ]

/-- Then 0's worker fails and 1 has to be told; half way through, the engine is killed and 1's worker finishes. -/
def opsHalf : List FOp := opsUp ++ [ .env (.finish 10 (some (.user 1))), .env (.gWaitRet 0), .stopped 0 100 Demo.vals01,
  .work, .work, .work, .env .kill, .env (.finish 11 none), .env (.gWaitRet 2) ]

/-- The loop tells 1, handles dying and exits. -/
def opsDown : List FOp := opsHalf ++ [ .work, .work, .dying [1, 0], .work, .env (.gAbort 3), .work, .work, .work,
  .stopped 2 101 Demo.noVals, .work, .work, .stopped 3 102 Demo.vals01, .work, .work ]

/-- A manifold asks to be uninstalled; before the loop has removed it, the engine is killed. -/
def opsUninstall : List FOp :=
  [ .install 0 {} [0], .work, .work, .env (.gTimer 0 0), .env (.gStartErr 0 .uninstall), .stopped 0 3 Demo.noVals, .work,
    .env .kill, .work ]

example : (run Demo.cfg {} opsDown).isSome = true := by decide +kernel
example : (run Demo.cfg {} opsUninstall).isSome = true := by decide +kernel

end FDemo

section
variable {cfg : Config} {f : Fine}

/-- C81: every execution of the engine with atomic arms is one of this engine, with the same history. -/
theorem C81_contains {s : State} (hr : Reach cfg s) : FReach cfg ⟨s, []⟩ := (fine_of_reach hr).2

-- and this engine has more: here a Start func is called between a registration and the cancellation it causes
example : FReach Demo.cfg (FDemo.after Demo.cfg FDemo.opsUp) ∧
    (((FDemo.after Demo.cfg FDemo.opsUp).s.hist.reverse.drop 6).take 5).map (fun e => match e with
      | .registered n _ _ _ => (0, n) | .startCall n _ _ => (1, n) | .get g _ _ _ => (2, g) | .startErr n _ _ => (3, n)
      | .cancelled g => (4, g) | _ => (9, 0)) = [(0, 0), (1, 1), (2, 1), (3, 1), (4, 1)] :=
  ⟨FDemo.after_reach _ _, by decide +kernel⟩

/-- C81, as C30: one attempt at a time for each manifold. -/
theorem C81_one_at_a_time (hr : FReach cfg f) : AtEvery OneAtATime f.s.hist := by
  obtain ⟨D, hl⟩ := freach_link hr; exact ex_one_at_a_time hl.1

/-- C81, as C30: an attempt ends with what its Start func or its worker returned. -/
theorem C81_ends_properly (hr : FReach cfg f) : AtEvery (EndsProperly cfg) f.s.hist := by
  obtain ⟨D, hl⟩ := freach_link hr; exact ex_ends_properly hl.1

/-- C81, as C31: the engine's internal consistency checks never fail, and its tomb is never misused. -/
theorem C81_no_internal_error (hr : FReach cfg f) :
    f.s.tomb.panicked = false ∧ ∀ e, f.s.tomb.reason ≠ some (some e) := by
  obtain ⟨D, hl⟩ := freach_link hr; exact ex_no_internal_error hl.1

example : FReach Demo.cfg (FDemo.after Demo.cfg FDemo.opsDown) ∧
    .exit ∈ (FDemo.after Demo.cfg FDemo.opsDown).s.hist ∧
    (FDemo.after Demo.cfg FDemo.opsDown).s.hist.filterMap (fun e => match e with
      | .begin n g _ _ _ => some (n, g) | _ => none) = [(0, 3), (1, 2), (1, 1), (0, 0)] :=
  ⟨FDemo.after_reach _ _, by decide +kernel, by decide +kernel⟩

/-- C81, as C38: what Wait returns. -/
theorem C81_wait_result (hr : FReach cfg f) :
    waitResult cfg f.s = if .exit ∈ f.s.hist then
      some ((cfg.filter.getD id) (worstH cfg.isFatal cfg.worstError f.s.hist)) else none := by
  obtain ⟨D, hl⟩ := freach_link hr; exact ex_wait_result hl.1

/-- C81, as C38: a fatal error kills the engine. -/
theorem C81_fatal_kills (hr : FReach cfg f) {n : Name} {g : Nat} {now : Int} {raw e : Option Err} {told : Bool}
    {lost : Option WRef} (he : .ended n g now raw e told lost ∈ f.s.hist) (hf : cfg.isFatal e = true) :
    .kill ∈ f.s.hist := by
  obtain ⟨D, hl⟩ := freach_link hr; exact ex_fatal_kills hl.1 he hf

example : FReach Demo.cfg (FDemo.after Demo.cfg [.install 0 {} [0], .work, .work, .env (.gTimer 0 0),
      .env (.gStartErr 0 (.user 99)), .stopped 0 4 Demo.noVals]) ∧
    .ended 0 0 4 (some (.user 99)) (some (.user 99)) false none ∈
      (FDemo.after Demo.cfg [.install 0 {} [0], .work, .work, .env (.gTimer 0 0),
        .env (.gStartErr 0 (.user 99)), .stopped 0 4 Demo.noVals]).s.hist ∧
    Demo.cfg.isFatal (some (.user 99)) = true :=
  ⟨FDemo.after_reach _ _, by decide +kernel, by decide +kernel⟩

/-- C81, as C35: the installed manifolds never form a cycle. -/
theorem C81_acyclic (hr : FReach cfg f) : ¬ Cyclic f.s.hist := by
  obtain ⟨D, hl⟩ := freach_link hr; exact ex_acyclic hl.1

/-- C81, as C40: no attempt is begun for a manifold whose last attempt ended with nil, ErrAborted or ErrMissing unless
something has happened to one of its inputs since. -/
theorem C81_waits (hr : FReach cfg f) : AtEvery (fun e h => match e with
    | .begin n _ _ _ _ => waitsH h n = false
    | _ => True) f.s.hist := by
  obtain ⟨D, hl⟩ := freach_link hr; exact ex_waits hl.1

/-- C81, as C39: nothing is begun or registered after Kill. -/
theorem C81_nothing_started (hr : FReach cfg f) : AtEvery (fun e h => match e with
    | .begin _ _ _ _ _ => .kill ∉ h
    | .registered _ _ _ _ => .kill ∉ h
    | _ => True) f.s.hist := by
  obtain ⟨D, hl⟩ := freach_link hr; exact ex_nothing_started hl.1

/-- C81, as C37: when the loop exits, every worker it ever had has ended, the engine itself excepted. -/
theorem C81_clean_exit (hr : FReach cfg f) : AtEvery CleanExit f.s.hist := by
  obtain ⟨D, hl⟩ := freach_link hr; exact ex_clean_exit hl.1

/-- C81, as C45: what is in the snapshot given to an attempt. -/
theorem C81_snapshot (hr : FReach cfg f) : AtEvery SnapEvent f.s.hist := by
  obtain ⟨D, hl⟩ := freach_link hr; exact ex_snapshot hl.1

/-- C81, as C45: what Get returns. -/
theorem C81_get (hr : FReach cfg f) : AtEvery (GetEvent cfg) f.s.hist := by
  obtain ⟨D, hl⟩ := freach_link hr; exact ex_get hl.1

-- asked before the loop tells it to stop, the attempt of 1 still does not see 0's worker; the next one does
example : FReach Demo.cfg (FDemo.after Demo.cfg FDemo.opsUp) ∧
    .get 1 0 none (some (.wrap 2 .missing)) ∈ (FDemo.after Demo.cfg FDemo.opsUp).s.hist ∧
    .get 2 0 none none ∈ (FDemo.after Demo.cfg FDemo.opsUp).s.hist :=
  ⟨FDemo.after_reach _ _, by decide +kernel, by decide +kernel⟩

/-- C81, as C47: what Report says about the manifolds. -/
theorem C81_reports (hr : FReach cfg f) : AtEvery ReportSpec f.s.hist := by
  obtain ⟨D, hl⟩ := freach_link hr; exact ex_reports hl.1

/-- C81, as C31: what Report says about the engine's error. -/
theorem C81_report_error (hr : FReach cfg f) : AtEvery (fun e h => match e with
    | .report dying err _ => (dying = true ↔ .kill ∈ h) ∧
        err = if .kill ∈ h then worstH cfg.isFatal cfg.worstError h else none
    | _ => True) f.s.hist := by
  obtain ⟨D, hl⟩ := freach_link hr; exact ex_report_error hl.1

example : FReach Demo.cfg (FDemo.after Demo.cfg (FDemo.opsUp ++ [.report, .env .kill, .work])) ∧
    Demo.has (FDemo.after Demo.cfg (FDemo.opsUp ++ [.report, .env .kill, .work])).s (fun e => match e with
      | .report true none ls => ls.length == 2 | _ => false) = true :=
  ⟨FDemo.after_reach _ _, by decide +kernel⟩

/-- C81, as C54: the number of recent errors an attempt is begun with. -/
theorem C81_recent_errors (hr : FReach cfg f) : AtEvery (fun e h => match e with
    | .begin n _ _ recent _ => recent = recentH cfg.backoffResetTime h n
    | _ => True) f.s.hist := by
  obtain ⟨D, hl⟩ := freach_link hr; exact ex_recent_errors hl.1

/-- C81, as C54: the delay before the Start func is called. -/
theorem C81_delay_used (hr : FReach cfg f) : AtEvery (fun e h => match e with
    | .startCall n g d => ∃ base recent sn fuzz, .begin n g base recent sn ∈ h ∧ 0 ≤ fuzz ∧ fuzz < 1 ∧
        d = cfg.delayFn base recent fuzz
    | _ => True) f.s.hist := by
  obtain ⟨D, hl⟩ := freach_link hr; exact ex_delay_used hl.1

/-- C81, as C74: the base delay of a new attempt. What counts is the last event of the loop; others may have come after
it. -/
theorem C81_base_delay (hr : FReach cfg f) : AtEvery (fun e h => DelayFits cfg e (own h)) f.s.hist := by
  obtain ⟨D, hl⟩ := freach_link hr; exact ex_base_delay hl.1

example : FReach Demo.cfg (FDemo.after Demo.cfg FDemo.opsDown) ∧
    (FDemo.after Demo.cfg FDemo.opsDown).s.hist.filterMap (fun e => match e with
      | .begin n _ d r _ => some (n, d, r) | _ => none) = [(0, 3, 1), (1, 1, 1), (1, 0, 0), (0, 0, 0)] :=
  ⟨FDemo.after_reach _ _, by decide +kernel⟩

/-- C81, as C42: a manifold is removed only because an attempt of it, not told to stop, has ended with ErrUninstall, and
that was the last thing the loop did; nothing is begun for a manifold that is not installed. -/
theorem C81_uninstall (hr : FReach cfg f) : AtEvery (fun e h => match e with
    | .uninstalled n => manH h n ≠ none ∧ openH h n = none ∧ ∃ g now raw r lost rest,
        own h = .ended n g now raw (some r) false lost :: rest ∧ .uninstall ∈ r.tree ∧
        .aborted ∉ r.tree ∧ .missing ∉ r.tree ∧ .bounce ∉ r.tree
    | .begin n _ _ _ _ => manH h n ≠ none
    | _ => True) f.s.hist := by
  obtain ⟨D, hl⟩ := freach_link hr; exact ex_uninstall_only hl.1

-- with the loop interrupted, a manifold can be removed after Kill
example : FReach Demo.cfg (FDemo.after Demo.cfg FDemo.opsUninstall) ∧
    ∃ rest, (FDemo.after Demo.cfg FDemo.opsUninstall).s.hist = .uninstalled 0 :: .kill :: rest :=
  ⟨FDemo.after_reach _ _, (FDemo.after Demo.cfg FDemo.opsUninstall).s.hist.drop 2, by decide +kernel⟩

/-- C81, as C66: nothing is told to stop, and no worker is killed, without a reason. -/
theorem C81_caused (hr : FReach cfg f) : AtEvery Caused f.s.hist := by
  obtain ⟨D, hl⟩ := freach_link hr; exact ex_caused hl.1

/-- C81, as C32: once the loop has handled dying, every open attempt has been told to stop. -/
theorem C81_told (hr : FReach cfg f) (hos : f.s.oneShot = false) {n : Name} {g : Nat}
    (ho : openH f.s.hist n = some g) : .cancelled g ∈ f.s.hist := by
  obtain ⟨D, hl⟩ := freach_link hr; exact ex_dying_handled hl.1 hos ho

/-- C81, as C44: and every worker the engine has was killed. -/
theorem C81_killed (hr : FReach cfg f) (hos : f.s.oneShot = false) {n : Name} {w : WRef}
    (hw : workerH f.s.hist n = some w) : killedH f.s.hist n = true := by
  obtain ⟨D, hl⟩ := freach_link hr; exact ex_killed hl.1 hos hw

example : FReach Demo.cfg (FDemo.after Demo.cfg (FDemo.opsUp ++ [.env .kill, .dying [1, 0], .work, .work, .work])) ∧
    (FDemo.after Demo.cfg (FDemo.opsUp ++ [.env .kill, .dying [1, 0], .work, .work, .work])).s.oneShot = false ∧
    openH (FDemo.after Demo.cfg (FDemo.opsUp ++ [.env .kill, .dying [1, 0], .work, .work, .work])).s.hist 1 = some 2 ∧
    workerH (FDemo.after Demo.cfg (FDemo.opsUp ++ [.env .kill, .dying [1, 0], .work, .work, .work])).s.hist 1 =
      some (.obj 11) :=
  ⟨FDemo.after_reach _ _, by decide +kernel, by decide +kernel, by decide +kernel⟩

/-! ## What the loop still has to do -/

/-- The loop goroutine still has to deal with manifold `n`: it has noted `n` itself, or an input of `n`. -/
def Noted (f : Fine) (n : Name) : Prop :=
  ∃ t ∈ f.todo, match t with
    | .start x _ | .remove x _ | .bounce x => x = n
    | .bounceAll x => Declares f.s.hist n x
    | .react x _ _ _ lost => x = n ∨ (lost = true ∧ Declares f.s.hist n x)
    | _ => False

theorem debt_noted {D : Debt} (hl : Link cfg f D) {n : Name} (h : D n) : Noted f n := by
  obtain ⟨s, todo⟩ := f
  obtain ⟨hx, -, -, hr⟩ := hl
  simp only at hx hr
  have i := (ex_hinv hx).2
  have hdep : ∀ x, Dep s x n → Declares s.hist n x := fun x h => (i.dep x n).1 h
  cases hr with
  | idle h0 => exact absurd h (h0 n)
  | bounces ds h1 =>
    exact ⟨.bounce n, List.mem_append_left _ (List.mem_map_of_mem (h1 n h)), rfl⟩
  | bounceAll x h1 => exact ⟨.bounceAll x, by simp, hdep x (h1 n h)⟩
  | start x d b _ _ _ _ h1 =>
    rcases h1 n h with rfl | ⟨rfl, h2⟩
    · exact ⟨.start n d, by simp, rfl⟩
    · exact ⟨.bounceAll x, by simp, hdep x h2⟩
  | remove x vals b _ _ _ _ _ h1 =>
    rcases h1 n h with rfl | ⟨rfl, h2⟩
    · exact ⟨.remove n vals, by simp, rfl⟩
    · exact ⟨.bounceAll x, by simp, hdep x h2⟩
  | react x told err vals b _ _ _ _ _ hD =>
    refine ⟨.react x told err vals b, by simp, ?_⟩
    rcases (hD n).1 h with ⟨h1, h2⟩ | ⟨h1, _⟩
    · exact Or.inr ⟨h1, hdep x h2⟩
    · exact Or.inl h1.symm
  | stops ns _ h0 => exact absurd h (h0 n)
  | report h0 => exact absurd h (h0 n)

/-- C81, as C32: at any moment, an attempt that has not been told to stop was given exactly the workers its inputs have
now, or the loop has noted to deal with it in this very arm. -/
theorem C81_inputs (hr : FReach cfg f) {n : Name} {g : Nat} (ho : openH f.s.hist n = some g)
    (hc : .cancelled g ∉ f.s.hist) (hk : .kill ∉ f.s.hist) : Noted f n ∨ UpToDate f.s.hist n := by
  obtain ⟨D, hl⟩ := freach_link hr
  exact (ex_inputs_current hl.1 ho hc hk).imp (debt_noted hl) id

/-- C81, as C33: and a manifold without an attempt has nothing to be started for, or the loop has noted it. -/
theorem C81_stopped (hr : FReach cfg f) {n : Name} (hi : manH f.s.hist n ≠ none) (ho : openH f.s.hist n = none)
    (hk : .kill ∉ f.s.hist) : Noted f n ∨ UpToDate f.s.hist n := by
  obtain ⟨D, hl⟩ := freach_link hr
  exact (ex_stopped_not_stale hl.1 hi ho hk).imp (debt_noted hl) id

/-- C81, as C32: whenever the loop is at its select, every attempt not told to stop was given exactly the workers its
inputs have. -/
theorem C81_inputs_at_rest (hr : FReach cfg f) (h0 : f.todo = []) {n : Name} {g : Nat}
    (ho : openH f.s.hist n = some g) (hc : .cancelled g ∉ f.s.hist) (hk : .kill ∉ f.s.hist) : UpToDate f.s.hist n := by
  refine (C81_inputs hr ho hc hk).resolve_left ?_
  rintro ⟨t, ht, _⟩
  rw [h0] at ht; cases ht

-- the first alternative does occur: the attempt of 1 was begun without 0's worker, which is there now
example : FReach Demo.cfg (FDemo.after Demo.cfg FDemo.opsStale) ∧
    openH (FDemo.after Demo.cfg FDemo.opsStale).s.hist 1 = some 1 ∧
    .cancelled 1 ∉ (FDemo.after Demo.cfg FDemo.opsStale).s.hist ∧
    .kill ∉ (FDemo.after Demo.cfg FDemo.opsStale).s.hist ∧
    workerH (FDemo.after Demo.cfg FDemo.opsStale).s.hist 0 = some (.obj 10) :=
  ⟨FDemo.after_reach _ _, by decide +kernel, by decide +kernel, by decide +kernel, by decide +kernel⟩

-- and here the loop is at rest and both manifolds have attempts
example : FReach Demo.cfg (FDemo.after Demo.cfg FDemo.opsUp) ∧
    (FDemo.after Demo.cfg FDemo.opsUp).todo.isEmpty = true ∧
    openH (FDemo.after Demo.cfg FDemo.opsUp).s.hist 1 = some 2 ∧
    .cancelled 2 ∉ (FDemo.after Demo.cfg FDemo.opsUp).s.hist ∧
    .kill ∉ (FDemo.after Demo.cfg FDemo.opsUp).s.hist :=
  ⟨FDemo.after_reach _ _, by decide +kernel, by decide +kernel, by decide +kernel, by decide +kernel⟩

/-! ## The loop always gets back to its select -/

/-- The loop goroutine works on its own. -/
inductive Works (cfg : Config) : Fine → Fine → Prop
  | refl (f : Fine) : Works cfg f f
  | head {f f1 f2 : Fine} : fstep cfg f .work = some f1 → Works cfg f1 f2 → Works cfg f f2

/-- Tasks that do not make new ones. -/
def Task.single : Task → Bool
  | .bounceAll _ | .react _ _ _ _ _ => false
  | _ => true

theorem works_single : ∀ (ts : List Task) (s : State), ts.all Task.single = true → ∃ s', Works cfg ⟨s, ts⟩ ⟨s', []⟩ := by
  intro ts
  induction ts with
  | nil => intro s _; exact ⟨s, .refl _⟩
  | cons t ts ih =>
    intro s h
    rw [List.all_cons, Bool.and_eq_true] at h
    obtain ⟨s', h'⟩ := ih (exec cfg s t).1 h.2
    refine ⟨s', .head (f1 := ⟨(exec cfg s t).1, ts⟩) ?_ h'⟩
    cases t <;> first | rfl | cases h.1

theorem works_bounceAll (n : Name) (s : State) : ∃ s', Works cfg ⟨s, [.bounceAll n, .check]⟩ ⟨s', []⟩ := by
  obtain ⟨s', h⟩ := works_single (cfg := cfg) (((s.dependents.get? n).getD []).map .bounce ++ [.check]) s (by
    simp [List.all_append, Task.single, List.all_map, Function.comp_def])
  exact ⟨s', .head rfl h⟩

theorem works_rest (n : Name) (b : Bool) (s : State) :
    ∃ s', Works cfg ⟨s, (if b then [.bounceAll n] else []) ++ [.check]⟩ ⟨s', []⟩ := by
  cases b with
  | true => exact works_bounceAll n s
  | false => exact works_single _ _ rfl

/-- C81: whatever has happened in the middle of an arm, the loop goroutine, left to itself, gets back to its select (or
exits); none of the pieces of its work waits for anybody. -/
theorem C81_arm_ends (hr : FReach cfg f) : ∃ s', Works cfg f ⟨s', []⟩ := by
  obtain ⟨D, hl⟩ := freach_link hr
  obtain ⟨s, todo⟩ := f
  obtain ⟨-, -, -, hr⟩ := hl
  simp only at hr
  cases hr with
  | idle => exact ⟨s, .refl _⟩
  | bounces ds => exact works_single _ _ (by simp [List.all_append, Task.single, List.all_map, Function.comp_def])
  | bounceAll n => exact works_bounceAll n s
  | start n d b =>
    obtain ⟨s', h⟩ := works_rest (cfg := cfg) n b (requestStart s n d)
    exact ⟨s', .head rfl h⟩
  | remove n vals b =>
    obtain ⟨s', h⟩ := works_rest (cfg := cfg) n b (uninstall s n vals)
    exact ⟨s', .head rfl h⟩
  | react n told err vals b =>
    by_cases hd : s.dying = true
    · obtain ⟨s', h⟩ := works_rest (cfg := cfg) n false s
      refine ⟨s', .head ?_ h⟩
      simp only [fstep, exec, hd, if_true, List.nil_append]; rfl
    · have e : fstep cfg ⟨s, [.react n told err vals b, .check]⟩ .work =
          some ⟨s, reactTasks cfg n told err vals ++ ((if b then [.bounceAll n] else []) ++ [.check])⟩ := by
        simp only [fstep, exec, hd, Bool.false_eq_true, if_false, List.append_assoc]
      rcases reactTasks_cases cfg n told err vals with ⟨_, h⟩ | ⟨_, _, h⟩ | ⟨_, _, h⟩
      · rw [h] at e
        obtain ⟨s', h⟩ := works_rest (cfg := cfg) n b (requestStart s n _)
        exact ⟨s', .head e (.head rfl h)⟩
      · rw [h] at e
        obtain ⟨s', h⟩ := works_rest (cfg := cfg) n b (uninstall s n vals)
        exact ⟨s', .head e (.head rfl h)⟩
      · rw [h] at e
        obtain ⟨s', h⟩ := works_rest (cfg := cfg) n b s
        exact ⟨s', .head e h⟩
  | stops ns => exact works_single _ _ (by simp [List.all_append, Task.single, List.all_map, Function.comp_def])
  | report => exact works_single _ _ rfl

example : FReach Demo.cfg (FDemo.after Demo.cfg FDemo.opsHalf) ∧
    (FDemo.after Demo.cfg FDemo.opsHalf).todo.isEmpty = false ∧
    .kill ∈ (FDemo.after Demo.cfg FDemo.opsHalf).s.hist :=
  ⟨FDemo.after_reach _ _, by decide +kernel, by decide +kernel⟩

end
end Verif.Props
