import Verif.Engine.More
import Verif.Props.EngineDemo

/-!
# Engine properties that speak about every event of every execution

`Reach cfg s` ranges over every finite execution of an engine with an arbitrary config; `s.hist` is its history,
newest event first. `AtEvery P h` says that `P e before` holds of every event `e`, `before` being what happened
before it. The properties are written with the functions of Verif/Spec/History.lean only.

The executions in the examples beside the theorems come from Verif/Props/EngineDemo.lean.
-/

namespace Verif.Props
open Verif.Spec Verif.Engine

variable {cfg : Config} {s : State}

/-! ## C30: at most one worker per manifold -/

/-- C30, for one event: an attempt begins only when the manifold has no open attempt, its number is new, and every
worker any Start func of the manifold ever produced has finished. Everything else that happens to a manifold
happens to its open attempt, in order: Start is called once, returns once, its worker is registered at most once. -/
def OneAtATime : Ev → List Ev → Prop := fun e h => match e with
  | .begin n g _ _ _ => openH h n = none ∧ (∀ n' b r sn, .begin n' g b r sn ∉ h) ∧
      ∀ g' k, .startOk n g' (.obj k) ∈ h → ∃ e, .finished k e ∈ h
  | .startCall n g _ => openH h n = some g ∧ phaseH h n = .delayed
  | .startOk n g _ => openH h n = some g ∧ phaseH h n = .inStart
  | .startErr n g _ => openH h n = some g ∧ phaseH h n = .inStart
  | .registered n g w _ => openH h n = some g ∧ phaseH h n = .ok w ∧ workerH h n = none
  | .ended n g _ _ _ _ _ => openH h n = some g
  | _ => True

theorem ex_one_at_a_time {v : List Ev → List Ev} {D : Debt} (hx : Ex v cfg s D) : AtEvery OneAtATime s.hist := by
  refine ex_atEvery' (I := fun s _ => Accounted s.hist) (by intro n g k h; simp [init] at h) ?_ ?_ ?_ hx
  · intro s D s' D' c i a m
    exact accounted_step m c i a
  · rintro e h (rfl | ⟨w, rfl⟩ | ⟨g, rfl⟩) <;> trivial
  · intro s D e c i a he
    cases he with
    | begin n delay hd hi hs hD hb =>
      have ho := i.noOpen c hs
      refine ⟨ho, ?_, ?_⟩
      · intro n' b r sn hm
        exact absurd (i.ltBegin _ _ _ _ _ hm) (Nat.lt_irrefl _)
      · intro g' k hm
        rcases a n g' k hm with h | ⟨h, _⟩
        · exact h
        · rw [ho] at h; cases h
    | startCall g hg hpc fuzz hf =>
      have hp := i.pc g hg
      rw [PcOk, hpc] at hp
      exact ⟨i.openG g hg, hp⟩
    | startOk g hg hpc w =>
      have hp := i.pc g hg
      rw [PcOk, hpc] at hp
      exact ⟨i.openG g hg, hp⟩
    | startErr g hg hpc e =>
      have hp := i.pc g hg
      rw [PcOk, hpc] at hp
      exact ⟨i.openG g hg, hp⟩
    | registered g hg w now hpc hd hst =>
      have hp := i.pc g hg
      rw [PcOk, hpc] at hp
      refine ⟨i.openG g hg, hp, ?_⟩
      rw [← i.worker]
      cases hw : (s.cur g.name).worker with
      | none => rfl
      | some w' =>
        obtain ⟨_, h | ⟨e, h⟩⟩ := (c.rel g hg).worker w' hw
        · rw [hpc] at h; cases w' <;> cases h
        · rw [hpc] at h; cases h
    | ended g hg raw now hpc hdead hD => exact i.openG g hg
    | report => trivial
    | installed | installFailed | uninstalled | get | finished | exit => trivial

/-- C30. -/
theorem C30_one_at_a_time (hr : Reach cfg s) : AtEvery OneAtATime s.hist :=
  ex_one_at_a_time (reach_ex hr)

-- an execution in which manifold 0 has three attempts and two workers
example : Reach Demo.cfg (Demo.after Demo.cfg Demo.opsDown) ∧
    Demo.has (Demo.after Demo.cfg Demo.opsDown) (fun e => match e with | .begin 0 3 _ _ _ => true | _ => false) = true ∧
    Demo.has (Demo.after Demo.cfg Demo.opsDown) (fun e => match e with | .startOk 0 _ _ => true | _ => false) = true ∧
    Demo.has (Demo.after Demo.cfg Demo.opsDown) (fun e => match e with | .registered 1 2 _ _ => true | _ => false) = true ∧
    Demo.has (Demo.after Demo.cfg Demo.opsDown) (fun e => match e with | .exit => true | _ => false) = true :=
  ⟨Demo.after_reach _ _, by decide +kernel, by decide +kernel, by decide +kernel, by decide +kernel⟩

/-- C74, for one event: which delay a new attempt is given. Directly after a manifold was installed the only attempt that
can begin is its own, and it is not delayed. Directly after the end of an attempt of the same manifold, the delay is
ErrorDelay if the attempt was not told to stop and its error does not wrap ErrBounce, else BounceDelay. In all other cases
the attempt is there because an input has changed, and its delay is BounceDelay. -/
def DelayFits (cfg : Config) : Ev → List Ev → Prop := fun e h => match e, h with
  | .begin n _ d _ _, .installed x _ :: _ => x = n ∧ d = 0
  | .begin n _ d _ _, .ended x _ _ _ f told _ :: _ =>
      ((x = n ∧ told = false ∧ ∀ r, f = some r → .bounce ∉ r.tree) → d = cfg.errorDelay) ∧
      (¬ (x = n ∧ told = false ∧ ∀ r, f = some r → .bounce ∉ r.tree) → d = cfg.bounceDelay)
  | .begin _ _ d _ _, _ => d = cfg.bounceDelay
  | _, _ => True

theorem ex_base_delay {v : List Ev → List Ev} {D : Debt} (hx : Ex v cfg s D) :
    AtEvery (fun e h => DelayFits cfg e (v h)) s.hist := by
  refine ex_atEvery0 ?_ ?_ hx
  · rintro e h (rfl | ⟨w, rfl⟩ | ⟨g, rfl⟩) <;> trivial
  · intro s D e c i he
    show DelayFits cfg e (v s.hist)
    cases he with
    | begin n delay hd hi hs hD hb =>
      unfold LaunchBase at hb
      unfold DelayFits
      split at hb
      · rename_i h; rw [h]; exact hb
      · rename_i x _ _ _ f told _ _ h
        rw [h]
        have hf : errIs f .bounce = false ↔ ∀ r, f = some r → .bounce ∉ r.tree := by
          cases f with
          | none => simp [errIs]
          | some r =>
            rw [← Bool.not_eq_true, errIs_iff]
            simp
        exact ⟨fun h => hb.trans (if_pos ⟨h.1, h.2.1, hf.2 h.2.2⟩),
          fun h => hb.trans (if_neg (fun k => h ⟨k.1, k.2.1, hf.1 k.2.2⟩))⟩
      · rename_i h1 h2
        split
        · rename_i he hh
          exact absurd hh (h1 _ _ _)
        · rename_i he hh
          exact absurd hh (h2 _ _ _ _ _ _ _ _)
        · rename_i he _ _
          cases he; exact hb
        · trivial
    | report => trivial
    | startCall | startOk | startErr | registered | installed | installFailed | uninstalled | get
    | finished | exit | ended => trivial

/-- C74. -/
theorem C74_base_delay (hr : Reach cfg s) : AtEvery (DelayFits cfg) s.hist := ex_base_delay (reach_ex hr)

-- all three delays in one execution
example : Reach Demo.cfg (Demo.after Demo.cfg (Demo.opsUp ++ [.finish 10 (some (.user 1)), .gWaitRet 0,
      .armStopped 0 100 Demo.vals01 none])) ∧
    (Demo.after Demo.cfg (Demo.opsUp ++ [.finish 10 (some (.user 1)), .gWaitRet 0,
      .armStopped 0 100 Demo.vals01 none])).hist.filterMap (fun e => match e with | .begin n _ d _ _ => some (n, d) | _ => none) =
      [(0, Demo.cfg.errorDelay), (1, Demo.cfg.bounceDelay), (1, 0), (0, 0)] ∧ Demo.cfg.errorDelay = 3 ∧
    Demo.cfg.bounceDelay = 1 :=
  ⟨Demo.after_reach _ _, by decide +kernel, by decide +kernel, by decide +kernel⟩

/-- How an attempt may end, for one event: the filtered error is the manifold's Filter applied to the raw one; the
attempt counts as told to stop iff its context was cancelled; the worker lost is the registered one; and the raw
error is an abort before Start was called (only if told to stop or the engine is dying), the error of the Start
func (any error wrapping an abort becomes the abort), what the worker's Wait returned, or tomb.ErrDying for the
self manifold. -/
def EndsProperly (cfg : Config) : Ev → List Ev → Prop := fun e h => match e with
  | .ended n g _ raw f told lost =>
      (∃ m, manH h n = some m ∧ f = match m.filter with
        | some φ => cfg.filterFn φ raw
        | none => raw) ∧
      (told = true ↔ .cancelled g ∈ h) ∧ lost = workerH h n ∧
      match phaseH h n with
      | .delayed => raw = some .aborted ∧ (told = true ∨ .kill ∈ h)
      | .failed e0 => raw = if .aborted ∈ e0.tree then some .aborted else some e0
      | .ok (.obj k) => .finished k raw ∈ h
      | .ok .self => raw = some .tombDying ∧ .kill ∈ h
      | _ => False
  | _ => True

theorem ex_ends_properly {v : List Ev → List Ev} {D : Debt} (hx : Ex v cfg s D) : AtEvery (EndsProperly cfg) s.hist := by
  refine ex_atEvery0 ?_ ?_ hx
  · rintro e h (rfl | ⟨w, rfl⟩ | ⟨g, rfl⟩) <;> trivial
  · intro s D e c i he
    cases he with
    | ended g hg raw now hpc hdead hD =>
      refine ⟨?_, i.told c hg, i.worker _, ?_⟩
      · obtain ⟨m, hm⟩ := Option.isSome_iff_exists.1 (c.g_installed hg)
        refine ⟨m, by rw [← i.man]; exact hm, ?_⟩
        unfold applyFilter State.man
        rw [hm]; rfl
      · have hp := i.pc g hg
        rw [PcOk, hpc] at hp
        rcases hp with ⟨h1, h2⟩ | ⟨e0, h1, h2⟩ | ⟨k, h1, h2⟩ | ⟨h1, h2, h3⟩ <;> rw [h1]
        · exact ⟨h2.1, h2.2.imp_left (i.told c hg).2⟩
        · simp only [h2, startError]
          by_cases ha : Err.aborted ∈ e0.tree
          · rw [if_pos ha, if_pos ((Err.is_iff_mem_tree _ _).2 ha)]
          · rw [if_neg ha, if_neg (fun h => ha ((Err.is_iff_mem_tree _ _).1 h))]
        · exact h2
        · exact ⟨h2, h3⟩
    | report => trivial
    | begin | startCall | startOk | startErr | registered | installed | installFailed | uninstalled | get
    | finished | exit => trivial

/-- C30, the other half: every attempt ends as described. -/
theorem C30_ends_properly (hr : Reach cfg s) : AtEvery (EndsProperly cfg) s.hist :=
  ex_ends_properly (reach_ex hr)

example : Reach Demo.cfg (Demo.after Demo.cfg Demo.opsDown) ∧
    .ended 2 4 0 none none true none ∉ (Demo.after Demo.cfg Demo.opsDown).hist ∧
    Demo.has (Demo.after Demo.cfg Demo.opsDown) (fun e => match e with | .ended 0 0 100 (some (.user 1)) _ false (some (.obj 10)) => true | _ => false) = true ∧
    Demo.has (Demo.after Demo.cfg Demo.opsDown) (fun e => match e with | .ended 1 2 101 none none true (some (.obj 11)) => true | _ => false) = true ∧
    Demo.has (Demo.after Demo.cfg Demo.opsDown) (fun e => match e with | .ended 1 4 _ (some (.wrap 0 .missing)) _ false none => true | _ => false) = true :=
  ⟨Demo.after_reach _ _, by decide +kernel, by decide +kernel, by decide +kernel, by decide +kernel⟩

/-! ## C31 and C38: what Wait returns -/

theorem ex_no_internal_error {v : List Ev → List Ev} {D : Debt} (hx : Ex v cfg s D) :
    s.tomb.panicked = false ∧ ∀ e, s.tomb.reason ≠ some (some e) := by
  have c := (ex_hinv hx).1
  refine ⟨c.noPanic, fun e he => ?_⟩
  rcases c.nilReason with h | h <;> rw [h] at he <;> cases he

/-- C31. No internal error is ever recorded in the engine's tomb, and no tomb call panics. -/
theorem C31_no_internal_error (hr : Reach cfg s) :
    s.tomb.panicked = false ∧ ∀ e, s.tomb.reason ≠ some (some e) :=
  ex_no_internal_error (reach_ex hr)

example : Reach Demo.cfg (Demo.after Demo.cfg Demo.opsSelf) ∧
    (Demo.after Demo.cfg Demo.opsSelf).tomb.dead = true ∧
    (Demo.after Demo.cfg Demo.opsSelf).tomb.reason = some none :=
  ⟨Demo.after_reach _ _, by decide +kernel, by decide +kernel⟩

theorem ex_report_error {v : List Ev → List Ev} {D : Debt} (hx : Ex v cfg s D) : AtEvery (fun e h => match e with
    | .report dying err _ => (dying = true ↔ .kill ∈ h) ∧
        err = if .kill ∈ h then worstH cfg.isFatal cfg.worstError h else none
    | _ => True) s.hist := by
  refine ex_atEvery0 ?_ ?_ hx
  · rintro e h (rfl | ⟨w, rfl⟩ | ⟨g, rfl⟩) <;> trivial
  · intro s D e c i he
    cases he with
    | report =>
      refine ⟨i.dying, ?_⟩
      by_cases hk : .kill ∈ s.hist
      · rw [if_pos hk, if_pos (i.dying.2 hk)]; exact i.worst
      · rw [if_neg hk, if_neg (fun h => hk (i.dying.1 h))]
    | begin | startCall | startOk | startErr | registered | installed | installFailed | uninstalled | get
    | finished | exit | ended => trivial

/-- C31: the error shown by a Report is one the workers caused. -/
theorem C31_report_error (hr : Reach cfg s) : AtEvery (fun e h => match e with
    | .report dying err _ => (dying = true ↔ .kill ∈ h) ∧
        err = if .kill ∈ h then worstH cfg.isFatal cfg.worstError h else none
    | _ => True) s.hist :=
  ex_report_error (reach_ex hr)

example : Reach Demo.cfg (Demo.after Demo.cfg Demo.opsUp) ∧
    Demo.has (Demo.after Demo.cfg Demo.opsUp) (fun e => match e with | .report false none [_, _] => true | _ => false) = true :=
  ⟨Demo.after_reach _ _, by decide +kernel⟩

theorem ex_wait_result {v : List Ev → List Ev} {D : Debt} (hx : Ex v cfg s D) :
    waitResult cfg s = if .exit ∈ s.hist then
      some ((cfg.filter.getD id) (worstH cfg.isFatal cfg.worstError s.hist)) else none := by
  obtain ⟨c, i⟩ := ex_hinv hx
  unfold waitResult Tomb.wait
  by_cases he : .exit ∈ s.hist
  · have hd := i.dead.2 he
    have hr' : s.tomb.reason = some none := by
      rcases c.nilReason with h | h
      · have := (c.dead hd).1
        simp only [State.dying, Tomb.dying, h, Option.isSome_none] at this
        cases this
      · exact h
    rw [if_pos he, hd, hr', ← i.worst]
    cases cfg.filter <;> rfl
  · have hd : s.tomb.dead = false := by
      cases h : s.tomb.dead with
      | false => rfl
      | true => exact absurd (i.dead.1 h) he
    rw [if_neg he, hd]; rfl

/-- C38. Wait blocks until the engine has exited, then returns Filter of the combination of the fatal errors. -/
theorem C38_wait_result (hr : Reach cfg s) :
    waitResult cfg s = if .exit ∈ s.hist then
      some ((cfg.filter.getD id) (worstH cfg.isFatal cfg.worstError s.hist)) else none :=
  ex_wait_result (reach_ex hr)

example : Reach Demo.cfg (Demo.after Demo.cfg Demo.opsFatal) ∧
    waitResult Demo.cfg (Demo.after Demo.cfg Demo.opsFatal) = some (some (.user 99)) :=
  ⟨Demo.after_reach _ _, by decide +kernel⟩

example : Reach Demo.cfg (Demo.after Demo.cfg Demo.opsUp) ∧
    waitResult Demo.cfg (Demo.after Demo.cfg Demo.opsUp) = none :=
  ⟨Demo.after_reach _ _, by decide +kernel⟩

theorem ex_fatal_kills {v : List Ev → List Ev} {D : Debt} (hx : Ex v cfg s D) {n : Name} {g : Nat} {now : Int} {raw f : Option Err} {told : Bool}
    {lost : Option WRef} (he : .ended n g now raw f told lost ∈ s.hist) (hf : cfg.isFatal f = true) :
    .kill ∈ s.hist := by
  revert he
  refine ex_induct2 (P := fun s _ => .ended n g now raw f told lost ∈ s.hist → .kill ∈ s.hist)
    (by intro h; simp [init] at h) ?_ hx
  intro s D s' D' c i ih m he
  cases m with
  | stop g' hg raw' now' hpc hdead hD =>
    rw [stopState_eq cfg s g' raw' now' (c.rel g' hg).notStopped] at he ⊢
    simp only at he ⊢
    split
    · exact List.mem_cons_self
    · rename_i hnf
      rw [if_neg hnf] at he
      rcases List.mem_cons.1 he with he | he
      · simp only [Ev.ended.injEq] at he
        obtain ⟨_, _, _, _, h5, _, _⟩ := he
        rw [← h5] at hnf; exact absurd hf hnf
      · exact List.mem_cons_of_mem _ (ih he)
  | reqStop n' hs hst =>
    obtain ⟨g', hg, hgn, h⟩ := requestStop_form c hs hst
    rcases h with ⟨_, e⟩ | ⟨k, _, e⟩ | ⟨_, e⟩ <;> rw [e] at he ⊢ <;>
      simp only [killNil_hist, log_hist, setCur_hist, mapG_hist, List.mem_cons, reduceCtorEq, false_or, true_or] at he ⊢ <;>
      exact ih he
  | refuse g' hg w hpc h =>
    cases w with
    | self => exact List.mem_cons_self
    | obj k =>
      exact List.mem_cons_of_mem _ (ih ((List.mem_cons.1 he).resolve_left (by simp)))
  | kill => exact List.mem_cons_self
  | setPend | discharge | gAbort | gSelfDone | gWaitRet | oneShot => exact ih he
  | neutral e h =>
    rcases h with ⟨_, _, rfl⟩ | rfl <;>
      exact List.mem_cons_of_mem _ (ih ((List.mem_cons.1 he).resolve_left (by simp [reportEv])))
  | launch | record | register | uninstall | gTimer | gGet | gStartOk | gStartErr | finish | exit =>
    exact List.mem_cons_of_mem _ (ih ((List.mem_cons.1 he).resolve_left (by simp)))

/-- C38: a fatal error kills the engine. -/
theorem C38_fatal_kills (hr : Reach cfg s) {n : Name} {g : Nat} {now : Int} {raw f : Option Err} {told : Bool}
    {lost : Option WRef} (he : .ended n g now raw f told lost ∈ s.hist) (hf : cfg.isFatal f = true) :
    .kill ∈ s.hist :=
  ex_fatal_kills (reach_ex hr) he hf

example : Reach Demo.cfg (Demo.after Demo.cfg Demo.opsFatal) ∧
    Demo.has (Demo.after Demo.cfg Demo.opsFatal) (fun e => match e with | .ended 0 0 4 (some (.user 99)) (some (.user 99)) false none => true | _ => false) = true ∧
    Demo.cfg.isFatal (some (.user 99)) = true :=
  ⟨Demo.after_reach _ _, by decide +kernel, by decide +kernel⟩

/-! ## C35 and C51: the graph -/

/-- The graph of the installed manifolds has a cycle. -/
def Cyclic (h : List Ev) : Prop := ∃ n, Relation.TransGen (Declares h) n n

theorem hasCycle_iff (ms : AMap Manifold) (h : List Ev) (hm : ∀ n, ms.get? n = manH h n) :
    HasCycle (inputsTable ms) ↔ Cyclic h := by
  have he : ∀ a b, DependsOn (inputsTable ms) a b ↔ Declares h a b := by
    intro a b
    unfold DependsOn Declares
    rw [inputsTable_get, ← hm]
    simp
  have hfun : DependsOn (inputsTable ms) = Declares h := by
    funext a b; exact propext (he a b)
  unfold HasCycle Cyclic
  rw [hfun]

theorem ex_acyclic {v : List Ev → List Ev} {D : Debt} (hx : Ex v cfg s D) : ¬ Cyclic s.hist := by
  obtain ⟨c, i⟩ := ex_hinv hx
  rw [← hasCycle_iff s.manifolds s.hist i.man]; exact c.acyclic

/-- C35. -/
theorem C35_acyclic (hr : Reach cfg s) : ¬ Cyclic s.hist :=
  ex_acyclic (reach_ex hr)

example : Reach Demo.cfg (Demo.after Demo.cfg Demo.opsUp) ∧
    Declares (Demo.after Demo.cfg Demo.opsUp).hist 1 0 :=
  ⟨Demo.after_reach _ _, by decide +kernel⟩

-- and a cycle is something an Install can ask for
example : Cyclic [.installed 1 { inputs := [0] }, .installed 0 { inputs := [1] }] :=
  ⟨0, .tail (b := 1) (.single ⟨{ inputs := [1] }, rfl, by decide⟩) ⟨{ inputs := [0] }, rfl, by decide⟩⟩

theorem ex_dependents {v : List Ev → List Ev} {D : Debt} (hx : Ex v cfg s D) (n x : Name) :
    x ∈ (s.dependents.get? n).getD [] ↔ Declares s.hist x n := by
  obtain ⟨c, i⟩ := ex_hinv hx
  rw [c.deps, i.dep]

/-- C51. The list that `bounceDependents` goes through holds exactly the installed manifolds that declare the
changed one. -/
theorem C51_dependents (hr : Reach cfg s) (n x : Name) :
    x ∈ (s.dependents.get? n).getD [] ↔ Declares s.hist x n :=
  ex_dependents (reach_ex hr) n x

example : Reach Demo.cfg (Demo.after Demo.cfg Demo.opsUp) ∧
    1 ∈ ((Demo.after Demo.cfg Demo.opsUp).dependents.get? 0).getD [] :=
  ⟨Demo.after_reach _ _, by decide +kernel⟩

/-! ## C32, C33, C40: inputs -/

theorem ex_inputs_current {v : List Ev → List Ev} {D : Debt} (hx : Ex v cfg s D) {n : Name} {g : Nat} (ho : openH s.hist n = some g)
    (hc : .cancelled g ∉ s.hist) (hk : .kill ∉ s.hist) : D n ∨ UpToDate s.hist n := by
  obtain ⟨c, i⟩ := ex_hinv hx
  obtain ⟨G, hG, rfl, rfl⟩ := i.openN n g ho
  rcases (ex_finv hx).fresh with h | h
  · exact absurd (i.dying.1 h) hk
  · rcases h G.name (c.g_installed hG) with h | h | h
    · exact Or.inl h
    · exact absurd ((i.told c hG).1 h) hc
    · exact Or.inr h

/-- C32. While the engine is not dying, a live attempt or worker that has not been told to stop was given exactly
the workers the engine has now for its inputs. -/
theorem C32_inputs_current (hr : Reach cfg s) {n : Name} {g : Nat} (ho : openH s.hist n = some g)
    (hc : .cancelled g ∉ s.hist) (hk : .kill ∉ s.hist) : UpToDate s.hist n :=
  (ex_inputs_current (reach_ex hr) ho hc hk).resolve_left id

example : Reach Demo.cfg (Demo.after Demo.cfg Demo.opsUp) ∧
    openH (Demo.after Demo.cfg Demo.opsUp).hist 1 = some 2 ∧
    .cancelled 2 ∉ (Demo.after Demo.cfg Demo.opsUp).hist ∧
    .kill ∉ (Demo.after Demo.cfg Demo.opsUp).hist ∧
    workerH (Demo.after Demo.cfg Demo.opsUp).hist 0 = some (.obj 10) :=
  ⟨Demo.after_reach _ _, by decide +kernel, by decide +kernel, by decide +kernel, by decide +kernel⟩

theorem ex_dying_handled {v : List Ev → List Ev} {D : Debt} (hx : Ex v cfg s D) (hos : s.oneShot = false) {n : Name} {g : Nat}
    (ho : openH s.hist n = some g) : .cancelled g ∈ s.hist := by
  obtain ⟨c, i⟩ := ex_hinv hx
  obtain ⟨G, hG, rfl, rfl⟩ := i.openN n g ho
  rcases (ex_oinv hx hos).2 G.name with h | h
  · rw [(c.rel G hG).notStopped] at h; cases h
  · exact (i.told c hG).1 h

/-- C32, after dying has been handled (engine.go:205-209): nothing is left that was not told to stop, so in
particular nothing that was not told to stop has stale inputs. -/
theorem C32_dying_handled (hr : Reach cfg s) (hos : s.oneShot = false) {n : Name} {g : Nat}
    (ho : openH s.hist n = some g) : .cancelled g ∈ s.hist :=
  ex_dying_handled (reach_ex hr) hos ho

example : Reach Demo.cfg (Demo.after Demo.cfg Demo.opsKilled) ∧
    (Demo.after Demo.cfg Demo.opsKilled).oneShot = false ∧
    openH (Demo.after Demo.cfg Demo.opsKilled).hist 1 = some 2 :=
  ⟨Demo.after_reach _ _, by decide +kernel, by decide +kernel⟩

theorem ex_stopped_not_stale {v : List Ev → List Ev} {D : Debt} (hx : Ex v cfg s D) {n : Name} (hi : manH s.hist n ≠ none)
    (ho : openH s.hist n = none) (hk : .kill ∉ s.hist) : D n ∨ UpToDate s.hist n := by
  obtain ⟨c, i⟩ := ex_hinv hx
  rcases (ex_finv hx).fresh with h | h
  · exact absurd (i.dying.1 h) hk
  · have hi' : (s.manifolds.get? n).isSome = true := by rw [i.man]; exact Option.isSome_iff_ne_none.2 hi
    rcases h n hi' with h | h | h
    · exact Or.inl h
    · exfalso
      have hns : (s.cur n).stopped = false := by
        cases hs : (s.cur n).stopped with
        | false => rfl
        | true => rw [c.idle n hs] at h; cases h
      obtain ⟨G, hG, rfl⟩ := c.live n hns
      rw [i.openG G hG] at ho; cases ho
    · exact Or.inr h

/-- C33. While the engine is not dying, an installed manifold without open attempt had its latest attempt made
with exactly the present workers of its inputs. -/
theorem C33_stopped_not_stale (hr : Reach cfg s) {n : Name} (hi : manH s.hist n ≠ none)
    (ho : openH s.hist n = none) (hk : .kill ∉ s.hist) : UpToDate s.hist n :=
  (ex_stopped_not_stale (reach_ex hr) hi ho hk).resolve_left id

example : Reach Demo.cfg (Demo.after Demo.cfg (Demo.opsDown.take 24)) ∧
    (Demo.run Demo.cfg init (Demo.opsDown.take 24)).isSome = true ∧
    manH (Demo.after Demo.cfg (Demo.opsDown.take 24)).hist 1 ≠ none ∧
    openH (Demo.after Demo.cfg (Demo.opsDown.take 24)).hist 1 = none ∧
    .kill ∉ (Demo.after Demo.cfg (Demo.opsDown.take 24)).hist ∧
    openH (Demo.after Demo.cfg (Demo.opsDown.take 24)).hist 0 = some 3 :=
  ⟨Demo.after_reach _ _, by decide +kernel, by decide +kernel, by decide +kernel, by decide +kernel, by decide +kernel⟩

theorem ex_waits {v : List Ev → List Ev} {D : Debt} (hx : Ex v cfg s D) : AtEvery (fun e h => match e with
    | .begin n _ _ _ _ => waitsH h n = false
    | _ => True) s.hist := by
  refine ex_atEvery' (I := FInv) FInv.init (fun _ _ _ _ c i f m => micro_finv m c i f) ?_ ?_ hx
  · rintro e h (rfl | ⟨w, rfl⟩ | ⟨g, rfl⟩) <;> trivial
  · intro s D e c i f he
    cases he with
    | begin n delay hd hi hs hD hb => exact f.noWait n hD
    | report => trivial
    | startCall | startOk | startErr | registered | installed | installFailed | uninstalled | get
    | finished | exit | ended => trivial

/-- C40. An attempt never begins while the manifold waits for a change of its inputs. -/
theorem C40_waits (hr : Reach cfg s) : AtEvery (fun e h => match e with
    | .begin n _ _ _ _ => waitsH h n = false
    | _ => True) s.hist :=
  ex_waits (reach_ex hr)

-- a manifold that waits for its input, and one that did and was started again
example : Reach Demo.cfg (Demo.after Demo.cfg (Demo.opsDown.take 24)) ∧
    waitsH (Demo.after Demo.cfg (Demo.opsDown.take 24)).hist 1 = true :=
  ⟨Demo.after_reach _ _, by decide +kernel⟩

example : Reach Demo.cfg (Demo.after Demo.cfg Demo.opsUp) ∧
    waitsH (Demo.after Demo.cfg Demo.opsUp).hist 1 = false :=
  ⟨Demo.after_reach _ _, by decide +kernel⟩

/-! ## C37, C39: dying and death -/

theorem ex_nothing_started {v : List Ev → List Ev} {D : Debt} (hx : Ex v cfg s D) : AtEvery (fun e h => match e with
    | .begin _ _ _ _ _ => .kill ∉ h
    | .registered _ _ _ _ => .kill ∉ h
    | _ => True) s.hist := by
  refine ex_atEvery0 ?_ ?_ hx
  · rintro e h (rfl | ⟨w, rfl⟩ | ⟨g, rfl⟩) <;> trivial
  · intro s D e c i he
    cases he with
    | begin n delay hd hi hs hD hb => intro hk; rw [i.dying.2 hk] at hd; cases hd
    | registered g hg w now hpc hd hst => intro hk; rw [i.dying.2 hk] at hd; cases hd
    | report => trivial
    | startCall | startOk | startErr | installed | installFailed | uninstalled | get
    | finished | exit | ended => trivial

/-- C39. Nothing is begun or registered after a Kill or a fatal error. -/
theorem C39_nothing_started (hr : Reach cfg s) : AtEvery (fun e h => match e with
    | .begin _ _ _ _ _ => .kill ∉ h
    | .registered _ _ _ _ => .kill ∉ h
    | _ => True) s.hist :=
  ex_nothing_started (reach_ex hr)

example : Reach Demo.cfg (Demo.after Demo.cfg Demo.opsDown) ∧
    .kill ∈ (Demo.after Demo.cfg Demo.opsDown).hist ∧
    Demo.has (Demo.after Demo.cfg Demo.opsDown) (fun e => match e with | .begin 1 4 _ _ _ => true | _ => false) = true :=
  ⟨Demo.after_reach _ _, by decide +kernel, by decide +kernel⟩

/-- C37, for one event: when the engine exits, only attempts whose registered worker is the engine itself are
open and every other worker ever produced has finished; afterwards no attempt does anything. -/
def CleanExit : Ev → List Ev → Prop := fun e h => match e with
  | .exit => .kill ∈ h ∧ (∀ n g, openH h n = some g → workerH h n = some .self) ∧
      ∀ n g k, .startOk n g (.obj k) ∈ h → ∃ e, .finished k e ∈ h
  | .begin _ _ _ _ _ | .startCall _ _ _ | .startOk _ _ _ | .startErr _ _ _ | .registered _ _ _ _
  | .ended _ _ _ _ _ _ _ | .installed _ _ | .uninstalled _ => .exit ∉ h
  | _ => True

theorem dead_self {cfg : Config} {s : State} (c : Core s) (i : HInv cfg s) (wp : WPhase s.hist)
    (hd : s.tomb.dead = true) {g : G} (hg : g ∈ s.gs) : phaseH s.hist g.name = .ok .self := by
  rcases (c.dead hd).2 g.name with h | h
  · rw [(c.rel g hg).notStopped] at h; cases h
  · exact wp _ _ (by rw [← i.worker]; exact h)

theorem ex_clean_exit {v : List Ev → List Ev} {D : Debt} (hx : Ex v cfg s D) : AtEvery CleanExit s.hist := by
  refine ex_atEvery' (I := fun s _ => WPhase s.hist ∧ Accounted s.hist)
    ⟨by intro n w h; simp [init, workerH] at h, by intro n g k h; simp [init] at h⟩ ?_ ?_ ?_ hx
  · intro s D s' D' c i a m
    exact ⟨wphase_step m c i a.1, accounted_step m c i a.2⟩
  · rintro e h (rfl | ⟨w, rfl⟩ | ⟨g, rfl⟩) <;> trivial
  · intro s D e c i ⟨wp, a⟩ he
    have nodead : ∀ g ∈ s.gs, phaseH s.hist g.name ≠ .ok .self → .exit ∉ s.hist :=
      fun g hg hp hx => hp (dead_self c i wp (i.dead.2 hx) hg)
    have alive : s.tomb.dead = false → .exit ∉ s.hist := by
      intro h hx; rw [i.dead.2 hx] at h; cases h
    cases he with
    | begin n delay hd hi hs hD hb =>
      intro hx
      rw [(c.dead (i.dead.2 hx)).1] at hd; cases hd
    | registered g hg w now hpc hd hst =>
      intro hx
      rw [(c.dead (i.dead.2 hx)).1] at hd; cases hd
    | startCall g hg hpc fuzz hf =>
      have hp := i.pc g hg
      rw [PcOk, hpc] at hp
      exact nodead g hg (by rw [hp]; simp)
    | startOk g hg hpc w =>
      have hp := i.pc g hg
      rw [PcOk, hpc] at hp
      exact nodead g hg (by rw [hp]; simp)
    | startErr g hg hpc e =>
      have hp := i.pc g hg
      rw [PcOk, hpc] at hp
      exact nodead g hg (by rw [hp]; simp)
    | ended g hg raw now hpc hdead hD => exact alive hdead
    | installed n m hn ha hdead => exact alive hdead
    | uninstalled n hs hi hdead hev => exact alive hdead
    | exit hd hdead ha =>
      have key : ∀ g ∈ s.gs, (s.cur g.name).worker = some .self := by
        intro g hg
        have hin : g.name ∈ s.current.keys := by
          rw [AMap.mem_keys_iff, ← c.keys]; exact c.g_installed hg
        have := List.all_eq_true.1 ha g.name hin
        simp only [(c.rel g hg).notStopped, Bool.false_or, beq_iff_eq] at this
        exact this
      refine ⟨i.dying.1 hd, ?_, ?_⟩
      · intro n gid ho
        obtain ⟨g, hg, rfl, rfl⟩ := i.openN n gid ho
        rw [← i.worker]; exact key g hg
      · intro n gid k hm
        rcases a n gid k hm with h | ⟨h1, h2⟩
        · exact h
        · obtain ⟨g, hg, rfl, rfl⟩ := i.openN n gid h1
          have := wp g.name .self (by rw [← i.worker]; exact key g hg)
          rw [h2] at this; cases this
    | report => trivial
    | installFailed | get | finished => trivial

/-- C37. -/
theorem C37_clean_exit (hr : Reach cfg s) : AtEvery CleanExit s.hist :=
  ex_clean_exit (reach_ex hr)

example : Reach Demo.cfg (Demo.after Demo.cfg Demo.opsDown) ∧
    .exit ∈ (Demo.after Demo.cfg Demo.opsDown).hist ∧
    Demo.has (Demo.after Demo.cfg Demo.opsDown) (fun e => match e with | .startOk 1 2 (.obj 11) => true | _ => false) = true :=
  ⟨Demo.after_reach _ _, by decide +kernel, by decide +kernel⟩

/-! ## C42: uninstalling -/

/-- C42, for one event: a manifold is removed only when an attempt of it, not told to stop, has just ended with
ErrUninstall; and nothing is begun for a manifold that is not installed. -/
def UninstallSpec : Ev → List Ev → Prop := fun e h => match e with
  | .uninstalled n => manH h n ≠ none ∧ openH h n = none ∧ ∃ g now raw r lost rest,
      h = .ended n g now raw (some r) false lost :: rest ∧ .uninstall ∈ r.tree ∧
      .aborted ∉ r.tree ∧ .missing ∉ r.tree ∧ .bounce ∉ r.tree
  | .begin n _ _ _ _ => manH h n ≠ none
  | _ => True

theorem ex_uninstall_only {v : List Ev → List Ev} {D : Debt} (hx : Ex v cfg s D) : AtEvery (fun e h => match e with
    | .uninstalled n => manH h n ≠ none ∧ openH h n = none ∧ ∃ g now raw r lost rest,
        v h = .ended n g now raw (some r) false lost :: rest ∧ .uninstall ∈ r.tree ∧
        .aborted ∉ r.tree ∧ .missing ∉ r.tree ∧ .bounce ∉ r.tree
    | .begin n _ _ _ _ => manH h n ≠ none
    | _ => True) s.hist := by
  refine ex_atEvery0 ?_ ?_ hx
  · rintro e h (rfl | ⟨w, rfl⟩ | ⟨g, rfl⟩) <;> trivial
  · intro s D e c i he
    cases he with
    | begin n delay hd hi hs hD hb =>
      show manH s.hist n ≠ none
      rw [← i.man]; exact Option.isSome_iff_ne_none.1 hi
    | uninstalled n hs hi hdead hev =>
      refine ⟨by rw [← i.man]; exact Option.isSome_iff_ne_none.1 hi, i.noOpen c hs, ?_⟩
      obtain ⟨gid, now, raw, f, lost, rest, h1, h2, h3, h4, h5, h6⟩ := hev
      cases f with
      | none => simp [errIs] at h6
      | some r =>
        have neg : ∀ t, errIs (some r) t = false → t ∉ r.tree := by
          intro t ht hm; rw [(errIs_iff r t).2 hm] at ht; cases ht
        exact ⟨gid, now, raw, r, lost, rest, h1, (errIs_iff r _).1 h6, neg _ h3, neg _ h4, neg _ h5⟩
    | report => trivial
    | startCall | startOk | startErr | registered | installed | installFailed | get
    | finished | exit | ended => trivial

/-- C42, the only-if half. -/
theorem C42_uninstall_only (hr : Reach cfg s) : AtEvery UninstallSpec s.hist := ex_uninstall_only (reach_ex hr)

example : Reach Demo.cfg (Demo.after Demo.cfg Demo.opsUninstall) ∧
    .uninstalled 0 ∈ (Demo.after Demo.cfg Demo.opsUninstall).hist ∧
    manH (Demo.after Demo.cfg Demo.opsUninstall).hist 0 = none ∧
    manH (Demo.after Demo.cfg Demo.opsUninstall).hist 1 ≠ none :=
  ⟨Demo.after_reach _ _, by decide +kernel, by decide +kernel, by decide +kernel⟩

/-! ## C45: Get -/

/-- What Get must return, given what was installed and running (history `pre`) when the attempt of `n` was
scheduled. -/
def GetSpec (cfg : Config) (pre : List Ev) (n res : Name) (out : Option Nat) (r : Option Err) : Prop :=
  if Declares pre n res then
    match workerH pre res with
    | none => ∃ e, r = some e ∧ .missing ∈ e.tree
    | some w => match out with
      | none => r = none
      | some o => match (manH pre res).bind Manifold.output with
        | none => ∃ e, r = some e ∧ .missing ∈ e.tree
        | some f => r = cfg.outFn f w o
  else ∃ e, r = some e ∧ .missing ∈ e.tree

/-- C45, for one event. While the Start func of attempt `g` is running, Get answers according to the moment the
attempt was scheduled; after Start has returned it fails. -/
def GetEvent (cfg : Config) : Ev → List Ev → Prop := fun e h => match e with
  | .get g res out r => ∃ n post b rc sn pre, h = post ++ .begin n g b rc sn :: pre ∧
      if phaseH h n = .inStart then GetSpec cfg pre n res out r else r = some .expired
  | _ => True

/-- C45, the snapshot, for one event: when an attempt is scheduled, it is given exactly the workers and Output
funcs of the declared inputs at that moment. -/
def SnapEvent : Ev → List Ev → Prop := fun e h => match e with
  | .begin n _ _ _ sn => SnapshotOf h n sn
  | _ => True

theorem snapshot_step {s' : State} {D D' : Debt} (m : Micro v cfg s D s' D') (c : Core s) (i : HInv cfg s)
    (a : AtEvery SnapEvent s.hist) : AtEvery SnapEvent s'.hist := by
  refine micro_histInv (J := AtEvery SnapEvent) (fun e h hq ha => ⟨?_, ha⟩) (fun s D e c i he ha => ⟨?_, ha⟩) m c i a
  · revert e h
    rintro e h (rfl | ⟨w, rfl⟩ | ⟨g, rfl⟩) <;> intros <;> trivial
  · cases he with
    | begin n delay hd hi hs hD hb =>
      obtain ⟨m, hm⟩ := Option.isSome_iff_exists.1 hi
      have hman : s.man n = m := by unfold State.man; rw [hm]; rfl
      refine ⟨m, by rw [← i.man]; exact hm, ?_, ?_⟩
      all_goals
        intro j hj
        obtain ⟨t1, t2⟩ := takeSnapshot_spec (s.setCur n { s.cur n with
          starting := true, startAttempts := (s.cur n).startAttempts + 1, err := none,
          cancel := some s.nextG }) (s.man n).inputs
        unfold launchSnap
        rw [t1, t2, hman]
      · rw [if_pos hj, if_pos hj, setCur_man]
        refine ⟨?_, ?_⟩
        · rw [← i.worker, setCur_cur]
          split
          · rename_i hjx; rw [hjx]
          · rfl
        · unfold State.man
          rw [i.man]
          cases manH s.hist j <;> rfl
      · rw [if_neg hj, if_neg hj]; exact ⟨rfl, rfl⟩
    | report => trivial
    | startCall | startOk | startErr | registered | installed | installFailed | uninstalled | get
    | finished | exit | ended => trivial

theorem ex_snapshot {v : List Ev → List Ev} {D : Debt} (hx : Ex v cfg s D) : AtEvery SnapEvent s.hist :=
  ex_induct2 (P := fun s _ => AtEvery SnapEvent s.hist) trivial
    (fun _ _ _ _ c i a m => snapshot_step m c i a) hx

/-- C45, the snapshot. -/
theorem C45_snapshot (hr : Reach cfg s) : AtEvery SnapEvent s.hist :=
  ex_snapshot (reach_ex hr)

example : Reach Demo.cfg (Demo.after Demo.cfg Demo.opsUp) ∧
    Demo.has (Demo.after Demo.cfg Demo.opsUp) (fun e => match e with | .begin 1 2 _ _ ⟨⟨[(0, some (.obj 10))]⟩, _⟩ => true | _ => false) = true :=
  ⟨Demo.after_reach _ _, by decide +kernel⟩

theorem rawAccess_spec {pre : List Ev} {n : Name} {sn : Snapshot} (hs : SnapshotOf pre n sn) (res : Name)
    (out : Option Nat) : GetSpec cfg pre n res out (rawAccess cfg sn res out) := by
  obtain ⟨m, hm, h1, h2⟩ := hs
  have hmiss : ∀ t, ∃ e, some (Err.wrap t .missing) = some e ∧ .missing ∈ e.tree :=
    fun t => ⟨_, rfl, by simp [Err.tree]⟩
  unfold GetSpec rawAccess
  by_cases hd : Declares pre n res
  · rw [if_pos hd]
    obtain ⟨m', hm', hin⟩ := hd
    rw [hm] at hm'; cases hm'
    obtain ⟨a, b⟩ := h1 res hin
    rw [a, b]
    cases hw : workerH pre res with
    | none => exact hmiss 2
    | some w =>
      cases out with
      | none => rfl
      | some o =>
        simp only [Option.getD_some]
        cases (manH pre res).bind Manifold.output with
        | none => exact hmiss 3
        | some f => rfl
  · rw [if_neg hd]
    have hin : res ∉ m.inputs := fun h => hd ⟨m, hm, h⟩
    rw [(h2 res hin).1]
    exact hmiss 1

theorem ex_get {v : List Ev → List Ev} {D : Debt} (hx : Ex v cfg s D) : AtEvery (GetEvent cfg) s.hist := by
  refine ex_atEvery' (I := fun s _ => BInv s ∧ AtEvery SnapEvent s.hist) ⟨BInv.init, trivial⟩ ?_ ?_ ?_ hx
  · intro s D s' D' c i ⟨b, a⟩ m
    exact ⟨micro_binv m c b, snapshot_step m c i a⟩
  · rintro e h (rfl | ⟨w, rfl⟩ | ⟨g, rfl⟩) <;> trivial
  · intro s D e c i ⟨b, a⟩ he
    cases he with
    | get g hg hpc res out =>
      obtain ⟨post, pre, hsplit⟩ := List.append_of_mem (b.2 g hg)
      refine ⟨g.name, post, g.base, g.recent, g.snap, pre, hsplit, ?_⟩
      rw [hsplit] at a
      have hsn : SnapshotOf pre g.name g.snap := a.split
      have hp := i.pc g hg
      unfold PcOk at hp
      unfold getResult
      split at hp <;> rename_i hpc'
      · exact absurd hpc' hpc
      · rw [if_pos hp, hpc']; exact rawAccess_spec hsn res out
      all_goals
        rw [hpc', if_neg]
        · rfl
        · first
          | (rw [hp]; simp; done)
          | (rcases hp with ⟨h1, _⟩ | ⟨_, h1, _⟩ | ⟨_, h1, _⟩ | ⟨h1, _⟩ <;> rw [h1] <;> simp)
    | report => trivial
    | startCall | startOk | startErr | registered | installed | installFailed | uninstalled | begin
    | finished | exit | ended => trivial

/-- C45. -/
theorem C45_get (hr : Reach cfg s) : AtEvery (GetEvent cfg) s.hist :=
  ex_get (reach_ex hr)

example : Reach Demo.cfg (Demo.after Demo.cfg Demo.opsUp) ∧
    Demo.has (Demo.after Demo.cfg Demo.opsUp) (fun e => match e with | .get 2 0 (some 10) none => true | _ => false) = true ∧
    Demo.has (Demo.after Demo.cfg Demo.opsUp) (fun e => match e with | .get 2 5 none (some (.wrap 1 .missing)) => true | _ => false) = true ∧
    Demo.has (Demo.after Demo.cfg Demo.opsUp) (fun e => match e with | .get 2 0 none (some .expired) => true | _ => false) = true :=
  ⟨Demo.after_reach _ _, by decide +kernel, by decide +kernel, by decide +kernel⟩

/-! ## C46, C47: reports -/

/-- The state a manifold is in according to the history. -/
def stateH (h : List Ev) (n : Name) : WState :=
  match openH h n with
  | none => .stopped
  | some g => if workerH h n = none then .starting else if .cancelled g ∈ h then .stopping else .started

/-- C46 and C47, for one event: a report has exactly one line for each installed manifold, with its inputs, its
state, its number of starts, its last error and the time at which its worker, if it has one, was registered (unless
that was Go's zero time); the worker's own report is included iff there is a worker other
than the engine. -/
def ReportSpec : Ev → List Ev → Prop := fun e h => match e with
  | .report _ _ lines => (lines.map ReportLine.name).Nodup ∧
      (∀ n, n ∈ lines.map ReportLine.name ↔ manH h n ≠ none) ∧
      ∀ l ∈ lines, (∃ m, manH h l.name = some m ∧ l.inputs = m.inputs) ∧ l.state = stateH h l.name ∧
        l.startCount = countH h l.name ∧ l.err = errH h l.name ∧
        l.lastStart = (if startedH h l.name = 0 then none else some (startedH h l.name)) ∧
        (l.nested = true ↔ ∃ k, workerH h l.name = some (.obj k))
  | _ => True

theorem state_eq {cfg : Config} {s : State} (c : Core s) (i : HInv cfg s) (n : Name) :
    (s.cur n).state = stateH s.hist n := by
  unfold stateH
  cases ho : openH s.hist n with
  | none =>
    have hs : (s.cur n).stopped = true := by
      cases hs : (s.cur n).stopped with
      | true => rfl
      | false =>
        obtain ⟨g, hg, rfl⟩ := c.live n hs
        rw [i.openG g hg] at ho; cases ho
    obtain ⟨h1, h2⟩ := (stopped_iff _).1 hs
    simp [Info.state, h1, h2, c.idle n hs]
  | some gid =>
    obtain ⟨g, hg, rfl, rfl⟩ := i.openN n gid ho
    simp only
    rw [← i.worker]
    cases hw : (s.cur g.name).worker with
    | none =>
      have := (not_stopped_iff _).1 (c.rel g hg).notStopped
      rw [hw] at this
      simp [Info.state, this.resolve_left (by simp)]
    | some w =>
      have h1 := ((c.rel g hg).worker w hw).1
      simp only [Info.state, h1, hw, Bool.false_eq_true, if_false, Option.isSome_some, if_true, reduceCtorEq]
      by_cases hc : (s.cur g.name).stopping = true
      · rw [if_pos hc, if_pos ((i.told c hg).1 hc)]
      · rw [if_neg hc, if_neg (fun h => hc ((i.told c hg).2 h))]

theorem lines_ok {cfg : Config} {s : State} (c : Core s) (i : HInv cfg s) (b : BInv s) (x : Bool) (e : Option Err) :
    ReportSpec (.report x e (reportLines s)) s.hist := by
  have hnames : (reportLines s).map ReportLine.name = s.current.keys := by
    unfold reportLines; rw [List.map_map]; exact List.map_id _
  refine ⟨by rw [hnames]; exact b.1, ?_, ?_⟩
  · intro n
    rw [hnames, AMap.mem_keys_iff, ← c.keys, ← i.man]
    exact Option.isSome_iff_ne_none
  · intro l hl
    obtain ⟨n, hn, rfl⟩ := List.mem_map.1 hl
    rw [AMap.mem_keys_iff, ← c.keys] at hn
    obtain ⟨m, hm⟩ := Option.isSome_iff_exists.1 hn
    refine ⟨⟨m, by rw [← i.man]; exact hm, ?_⟩, state_eq c i n, i.count n, i.err n, by rw [← i.started], ?_⟩
    · show (s.man n).inputs = m.inputs
      unfold State.man; rw [hm]; rfl
    · show ((s.cur n).worker.isSome && (s.cur n).worker != some .self) = true ↔ _
      rw [i.worker]
      cases workerH s.hist n with
      | none => simp
      | some w => cases w <;> simp

theorem ex_reports {v : List Ev → List Ev} {D : Debt} (hx : Ex v cfg s D) : AtEvery ReportSpec s.hist := by
  refine ex_atEvery' (I := fun s _ => BInv s) BInv.init (fun _ _ _ _ c _ b m => micro_binv m c b) ?_ ?_ hx
  · rintro e h (rfl | ⟨w, rfl⟩ | ⟨g, rfl⟩) <;> trivial
  · intro s D e c i b he
    cases he with
    | report => exact lines_ok c i b _ _
    | begin | startCall | startOk | startErr | registered | installed | installFailed | uninstalled | get
    | finished | exit | ended => trivial

/-- C46, C47. -/
theorem C47_reports (hr : Reach cfg s) : AtEvery ReportSpec s.hist :=
  ex_reports (reach_ex hr)

example : Reach Demo.cfg (Demo.after Demo.cfg Demo.opsUp) ∧
    Demo.has (Demo.after Demo.cfg Demo.opsUp) (fun e => match e with | .report _ _ [⟨_, .started, _, 1, none, some _, true⟩, ⟨_, .started, _, 1, none, some _, true⟩] => true | _ => false) = true :=
  ⟨Demo.after_reach _ _, by decide +kernel⟩

/-- C46 on its own: the start count in a report is the number of workers registered since the last install. -/
theorem C46_start_count (hr : Reach cfg s) : AtEvery (fun e h => match e with
    | .report _ _ lines => ∀ l ∈ lines, l.startCount = countH h l.name
    | _ => True) s.hist := by
  have := C47_reports hr
  revert this
  generalize s.hist = h
  induction h with
  | nil => intro _; trivial
  | cons e h ih =>
    intro ha
    refine ⟨?_, ih ha.2⟩
    cases e <;> first | trivial | exact fun l hl => (ha.1.2.2 l hl).2.2.1

/-! ## C44: kills -/

theorem ex_killed {v : List Ev → List Ev} {D : Debt} (hx : Ex v cfg s D) (hos : s.oneShot = false) {n : Name} {w : WRef}
    (hw : workerH s.hist n = some w) : killedH s.hist n = true := by
  obtain ⟨c, i⟩ := ex_hinv hx
  have hns : (s.cur n).stopped = false := by
    rw [not_stopped_iff]; left; rw [i.worker, hw]; simp
  obtain ⟨g, hg, rfl⟩ := c.live n hns
  have hp := ex_wphase hx _ _ hw
  rcases ex_kinv hx g hg w hp with h | h | ⟨_, h⟩
  · exact h
  · exfalso
    obtain ⟨_, h' | ⟨e, h'⟩⟩ := (c.rel g hg).worker w (by rw [i.worker]; exact hw)
    · rw [h] at h'; cases w <;> cases h'
    · rw [h] at h'; cases h'
  · exfalso
    rcases (ex_oinv hx hos).2 g.name with h' | h'
    · rw [hns] at h'; cases h'
    · rw [(c.rel g hg).cancelled, h'] at h; cases h

/-- C44. Once the loop has handled dying: every registered worker has been Kill()ed, and so has every worker that
was produced by a Start func, except in the instant between its Start func returning and its being offered to the
loop (then it is Kill()ed on arrival, see `C44_killed_on_arrival`). -/
theorem C44_killed (hr : Reach cfg s) (hos : s.oneShot = false) {n : Name} {w : WRef}
    (hw : workerH s.hist n = some w) : killedH s.hist n = true :=
  ex_killed (reach_ex hr) hos hw

example : Reach Demo.cfg (Demo.after Demo.cfg Demo.opsKilled) ∧
    (Demo.after Demo.cfg Demo.opsKilled).oneShot = false ∧
    workerH (Demo.after Demo.cfg Demo.opsKilled).hist 1 = some (.obj 11) :=
  ⟨Demo.after_reach _ _, by decide +kernel, by decide +kernel⟩

theorem ex_killed_on_arrival {v : List Ev → List Ev} {D : Debt} (hx : Ex v cfg s D) {g : G} (hg : g ∈ s.gs) {w : WRef}
    (hp : phaseH s.hist g.name = .ok w) (hpc : g.pc ≠ .registering w)
    (ht : .cancelled g.gid ∈ s.hist ∨ workerH s.hist g.name = none) : killedH s.hist g.name = true := by
  obtain ⟨c, i⟩ := ex_hinv hx
  rcases ex_kinv hx g hg w hp with h | h | ⟨h1, h2⟩
  · exact h
  · exact absurd h hpc
  · rcases ht with h | h
    · rw [(i.canc g hg).2 h] at h2; cases h2
    · rw [h] at h1; cases h1

/-- C44: an attempt that was told to stop, or any attempt of a dying engine whose worker has been offered, has had
its worker Kill()ed. `g.pc ≠ registering` says that the worker has been offered to the loop. -/
theorem C44_killed_on_arrival (hr : Reach cfg s) {g : G} (hg : g ∈ s.gs) {w : WRef}
    (hp : phaseH s.hist g.name = .ok w) (hpc : g.pc ≠ .registering w)
    (ht : .cancelled g.gid ∈ s.hist ∨ workerH s.hist g.name = none) : killedH s.hist g.name = true :=
  ex_killed_on_arrival (reach_ex hr) hg hp hpc ht

-- produced after the Kill, never registered
example : Reach Demo.cfg (Demo.after Demo.cfg Demo.opsLate) ∧
    ∃ g ∈ (Demo.after Demo.cfg Demo.opsLate).gs, phaseH (Demo.after Demo.cfg Demo.opsLate).hist g.name = .ok (.obj 10) ∧ g.pc ≠ .registering (.obj 10) ∧
      workerH (Demo.after Demo.cfg Demo.opsLate).hist g.name = none :=
  ⟨Demo.after_reach _ _, by decide +kernel⟩

/-! ## C54: the error count -/

theorem ex_recent_errors {v : List Ev → List Ev} {D : Debt} (hx : Ex v cfg s D) : AtEvery (fun e h => match e with
    | .begin n _ _ recent _ => recent = recentH cfg.backoffResetTime h n
    | _ => True) s.hist := by
  refine ex_atEvery0 ?_ ?_ hx
  · rintro e h (rfl | ⟨w, rfl⟩ | ⟨g, rfl⟩) <;> trivial
  · intro s D e c i he
    cases he with
    | begin n delay hd hi hs hD hb => exact i.recent n
    | report => trivial
    | startCall | startOk | startErr | registered | installed | installFailed | uninstalled | get
    | finished | exit | ended => trivial

/-- C54. The number of recent errors used for the delay of an attempt is the number of consecutive failures. -/
theorem C54_recent_errors (hr : Reach cfg s) : AtEvery (fun e h => match e with
    | .begin n _ _ recent _ => recent = recentH cfg.backoffResetTime h n
    | _ => True) s.hist :=
  ex_recent_errors (reach_ex hr)

example : Reach Demo.cfg (Demo.after Demo.cfg Demo.opsTwice) ∧
    Demo.has (Demo.after Demo.cfg Demo.opsTwice) (fun e => match e with | .begin 0 2 3 2 _ => true | _ => false) = true :=
  ⟨Demo.after_reach _ _, by decide +kernel⟩

theorem ex_delay_used {v : List Ev → List Ev} {D : Debt} (hx : Ex v cfg s D) : AtEvery (fun e h => match e with
    | .startCall n g d => ∃ base recent sn fuzz, .begin n g base recent sn ∈ h ∧ 0 ≤ fuzz ∧ fuzz < 1 ∧
        d = cfg.delayFn base recent fuzz
    | _ => True) s.hist := by
  refine ex_atEvery' (I := fun s _ => BInv s) BInv.init (fun _ _ _ _ c _ b m => micro_binv m c b) ?_ ?_ hx
  · rintro e h (rfl | ⟨w, rfl⟩ | ⟨g, rfl⟩) <;> trivial
  · intro s D e c i b he
    cases he with
    | startCall g hg hpc fuzz hf => exact ⟨_, _, _, fuzz, b.2 g hg, hf.1, hf.2, rfl⟩
    | report => trivial
    | begin | startOk | startErr | registered | installed | installFailed | uninstalled | get
    | finished | exit | ended => trivial

/-- C54: the delay before Start is called is the delay function applied to the base delay and the error count with
which the attempt was scheduled. -/
theorem C54_delay_used (hr : Reach cfg s) : AtEvery (fun e h => match e with
    | .startCall n g d => ∃ base recent sn fuzz, .begin n g base recent sn ∈ h ∧ 0 ≤ fuzz ∧ fuzz < 1 ∧
        d = cfg.delayFn base recent fuzz
    | _ => True) s.hist :=
  ex_delay_used (reach_ex hr)

example : Reach Demo.cfg (Demo.after Demo.cfg Demo.opsTwice) ∧
    Demo.has (Demo.after Demo.cfg Demo.opsTwice) (fun e => match e with | .startCall 0 2 _ => true | _ => false) = true :=
  ⟨Demo.after_reach _ _, by decide +kernel⟩

end Verif.Props
