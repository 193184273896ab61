import Verif.Engine.ExactArm

/-!
Every history that the specification allows is one of an engine: how to get there. Goroutines are slow here: an attempt
does not notice that it has to give up, and that its worker has finished, until it matters.
-/

namespace Verif.Engine
open State Verif.Spec

variable {cfg : Config} {s t : State} {rf : Name → Bool} {D : Debt}

theorem _root_.Verif.Spec.Ext.eq {h h' : List Ev} (x : Ext cfg h h') (hu : urgent cfg h = none) : h' = h := by
  cases x with
  | refl => rfl
  | step h1 => rw [h1] at hu; cases hu

theorem _root_.Verif.Spec.Ext.forced {h h' : List Ev} {e : Ev} (x : Ext cfg h h') (hu : urgent cfg h = some e) : Ext cfg (e :: h) h' := by
  cases x with
  | refl h1 => rw [h1] at hu; cases hu
  | step h1 hx => rw [h1] at hu; injection hu with hu; subst hu; exact hx

theorem _root_.Verif.Spec.Ext.killWorker (w : WRef) : Ext cfg (.killW w :: s.hist) (s.killWorker w).hist := by
  cases w with
  | obj k => exact .refl rfl
  | self => exact .step rfl (.refl rfl)

/-- An attempt that reports has a reason to do so that can be seen. -/
def Slow (h : List Ev) (g : G) : Prop :=
  ∀ e, g.pc = .sendStopped e → (∃ e0, phaseH h g.name = .failed e0) ∨
    (phaseH h g.name = .delayed ∧ ∃ res out a, .get g.gid res out a ∈ h)

/-- All attempts but one are slow. -/
def SlowBut (s : State) (gid : Nat) : Prop := ∀ g ∈ s.gs, g.gid ≠ gid → Slow s.hist g

def AllSlow (s : State) : Prop := ∀ g ∈ s.gs, Slow s.hist g

theorem Slow.mono {h h' : List Ev} {g g' : G} (x : Slow h g) (hn : g'.name = g.name) (hi : g'.gid = g.gid) (hpc : g'.pc = g.pc)
    (hp : phaseH h' g.name = phaseH h g.name) (hs : ∀ e ∈ h, e ∈ h') : Slow h' g' := by
  intro e he
  rw [hn, hi, hp]
  rw [hpc] at he
  exact (x e he).imp id (fun ⟨h1, res, out, a, h2⟩ => ⟨h1, res, out, a, hs _ h2⟩)

theorem AllSlow.same (x : AllSlow s) (h1 : t.gs = s.gs) (h2 : ∀ n, phaseH t.hist n = phaseH s.hist n)
    (h3 : ∀ e ∈ s.hist, e ∈ t.hist) : AllSlow t := by
  intro g hg
  rw [h1] at hg
  exact (x g hg).mono rfl rfl rfl (h2 _) h3

theorem SlowBut.of_pc (x : AllSlow s) (c : Core s) {g : G} (hg : g ∈ s.gs) (p : Pc)
    (h1 : t.gs = (s.mapG g.gid (fun g => { g with pc := p })).gs)
    (h2 : ∀ n, n ≠ g.name → phaseH t.hist n = phaseH s.hist n) (h3 : ∀ e ∈ s.hist, e ∈ t.hist) : SlowBut t g.gid := by
  intro y hy hne
  rw [h1] at hy
  obtain ⟨z, hz, rfl⟩ := List.mem_map.1 hy
  by_cases e : z.gid = g.gid
  · rw [if_pos e] at hne; exact absurd e hne
  · rw [if_neg e]
    exact (x z hz).mono rfl rfl rfl (h2 _ (fun he => e (congrArg G.gid (c.name_inj hz hg he)))) h3

theorem AllSlow.pc (x : AllSlow s) (c : Core s) {g : G} (hg : g ∈ s.gs) (p : Pc)
    (h1 : t.gs = (s.mapG g.gid (fun g => { g with pc := p })).gs)
    (h2 : ∀ n, n ≠ g.name → phaseH t.hist n = phaseH s.hist n) (h3 : ∀ e ∈ s.hist, e ∈ t.hist)
    (h4 : Slow t.hist { g with pc := p }) : AllSlow t := by
  intro y hy
  by_cases e : y.gid = g.gid
  · rw [h1] at hy
    obtain ⟨z, hz, rfl⟩ := List.mem_map.1 hy
    by_cases e' : z.gid = g.gid
    · have := c.gid_inj hz hg e'
      subst this
      rw [if_pos rfl]; exact h4
    · rw [if_neg e'] at e; exact absurd e e'
  · exact SlowBut.of_pc x c hg p h1 h2 h3 y hy e

theorem slow_pc {h : List Ev} {g : G} {p : Pc} (hp : ∀ e, p ≠ .sendStopped e) : Slow h { g with pc := p } :=
  fun e he => absurd he (hp e)

theorem afterOffer_ne (w : WRef) (e : Option Err) : afterOffer w ≠ .sendStopped e := by cases w <;> nofun

/-! ## The loop does not wait when everything is stopped -/

/-- When the loop is back at its select and the engine has been told to stop everything, something is not stopped. -/
def Waits (f : Fine) : Prop := f.s.oneShot = false → f.todo = [] → f.s.tomb.dead = false → allOthersStopped f.s = false

theorem allOthersStopped_frame (fr : Frame s t) : allOthersStopped t = allOthersStopped s := by
  unfold allOthersStopped
  rw [fr.current]
  simp only [fr.cur]

theorem env_oneShot {op : Op} (he : op.isEnv = true) (h : step cfg s op = some t) : t.oneShot = s.oneShot := by
  cases op with
  | armDying | armReport | armInstall | armStarted | armStopped => cases he
  | gRegisterDying gid =>
    simp only [step] at h
    split at h
    · split at h
      · rename_i w hpc
        split at h
        · simp only [Option.some.injEq] at h; subst h
          cases w <;> rfl
        · cases h
      · cases h
    · cases h
  | kill | installRefused | gAbort | gTimer | gGet | gStartOk | gStartErr | gSelfDone | gWaitRet | finish =>
    simp only [step] at h
    repeat' split at h
    all_goals first
      | (simp only [Option.some.injEq] at h; subst h; rfl)
      | cases h

theorem freach_waits {f : Fine} (hr : FReach cfg f) : Waits f := by
  induction hr with
  | init => intro h; cases h
  | @step f f' op hr h ih =>
    obtain ⟨D, hx, hp, hdead, hrd⟩ := freach_link hr
    obtain ⟨c, i⟩ := ex_hinv hx
    cases op with
    | env op =>
      simp only [fstep] at h
      split at h
      · rename_i he
        rw [Option.map_eq_some_iff] at h
        obtain ⟨s', hs, rfl⟩ := h
        have fr := env_frame he hs
        intro h1 h2 h3
        rw [allOthersStopped_frame fr]
        refine ih ?_ h2 ?_
        · rw [← env_oneShot he hs]; exact h1
        · rw [← fr.dead]; exact h3
      · cases h
    | work =>
      obtain ⟨s, todo⟩ := f
      cases todo with
      | nil => cases h
      | cons tk ts =>
        simp only [fstep, Option.some.injEq] at h; subst h
        intro h1 h2 h3
        obtain ⟨_, h2⟩ := List.append_eq_nil_iff.1 h2
        have h2 : ts = [] := h2
        subst h2
        generalize e : [tk] = todo at hrd
        have htk : tk = .check := by
          cases hrd with
          | idle => cases e
          | bounces ds =>
            cases ds with
            | nil => injection e
            | cons d ds => simp at e
          | start n d b => cases b <;> simp at e
          | remove n vals b => cases b <;> simp at e
          | bounceAll | react | report => simp at e
          | stops ns => cases ns <;> simp at e
        subst htk
        have hd : s.tomb.dead = false := hdead (by simp)
        have hp : s.pend = none := hp
        have o := ex_oinv hx
        have hall : ¬ (s.dying = true ∧ allOthersStopped s = true) := by
          intro hc
          have : (endArm s).tomb.dead = false := h3
          rw [endArm_cases hp, if_pos hc] at this
          have hh := (micro_hinv (Micro.exit (v := own) s noDebt hc.1 hd hc.2) c i).dead.2 (List.mem_cons_self ..)
          have hh : (s.tomb.finish (some .tombDying)).dead = true := hh
          rw [hh] at this; cases this
        have h1 : (endArm s).oneShot = false := h1
        show allOthersStopped (endArm s) = false
        rw [endArm_cases hp, if_neg hall] at h1 ⊢
        cases ha : allOthersStopped s with
        | false => rfl
        | true => exact absurd ⟨(o h1).1, ha⟩ hall
    | dying order =>
      simp only [fstep] at h
      split at h
      · simp only [Option.some.injEq] at h; subst h
        intro _ h2; simp at h2
      · cases h
    | report =>
      simp only [fstep] at h
      split at h
      · simp only [Option.some.injEq] at h; subst h
        intro _ h2; simp at h2
      · cases h
    | install n m order =>
      simp only [fstep] at h
      split at h
      · simp only [Option.some.injEq] at h; subst h
        intro _ h2
        have h2 : (beginInstall f.s n m order).2 = [] := h2
        unfold beginInstall at h2
        repeat' split at h2
        all_goals cases h2
      · cases h
    | started gid now =>
      simp only [fstep] at h
      split at h
      · split at h
        · cases h
        · split at h
          · simp only [Option.some.injEq] at h; subst h
            intro _ h2
            simp only [beginStarted] at h2
            repeat' split at h2
            all_goals cases h2
          · cases h
      · cases h
    | stopped gid now vals =>
      simp only [fstep] at h
      split at h
      · split at h
        · cases h
        · split at h
          · simp only [Option.some.injEq] at h; subst h
            intro _ h2
            simp [beginStopped] at h2
          · cases h
      · cases h

/-! ## The state to be in -/

/-- Whether the loop receives something that is not a call. -/
def FOp.isArm : FOp → Bool
  | .dying _ | .started .. | .stopped .. => true
  | _ => false

/-- The states `R` are reached by an engine, and are not left by what others do and what the loop does in the middle of an arm. -/
structure Moves (cfg : Config) (R : Fine → Prop) : Prop where
  reach : ∀ {f}, R f → FReach cfg f
  work : ∀ {s : State} {tk : Task} {ts : List Task}, R ⟨s, tk :: ts⟩ → tk ≠ .report → ts ≠ [] →
    R ⟨(exec cfg s tk).1, (exec cfg s tk).2 ++ ts⟩
  env : ∀ {s s' : State} {ts : List Task} {op : Op}, R ⟨s, ts⟩ → op.isEnv = true → (∀ n, op ≠ .installRefused n) →
    Engine.step cfg s op = some s' → R ⟨s', ts⟩

/-- Nor are they by the loop's check after an arm, and by its receiving something that is not a call. -/
structure Loose (cfg : Config) (R : Fine → Prop) : Prop extends Moves cfg R where
  check : ∀ {s : State}, R ⟨s, [.check]⟩ → R ⟨endArm s, []⟩
  arm : ∀ {f f' : Fine} {op : FOp}, R f → op.isArm = true → fstep cfg f op = some f' → R f'

theorem FReach.moves : Loose cfg (FReach cfg) where
  reach := id
  work h _ _ := .step .work h rfl
  env {_ _ _ op} h he _ hs := .step (.env op) h (by simp only [fstep, he, if_true, hs, Option.map_some])
  check h := .step .work h rfl
  arm {_ _ op} h _ hs := .step op h hs

/-- A state of the engine fits a history. -/
structure Fit (cfg : Config) (f : Fine) (L : Hidden) : Prop where
  half : Half cfg [] {} f.s L
  loop : LoopRel cfg f.s f.todo L.loop
  slow : AllSlow f.s
  idle : L.loop = .idle → f.todo = []

theorem Fit.sim {f : Fine} {L : Hidden} (k : Fit cfg f L) : Sim cfg f L := ⟨k.half.2.2.1, k.half.2.2.2, k.loop⟩

/-- A state of the engine for a history. -/
structure Canon (cfg : Config) (R : Fine → Prop) (f : Fine) (L : Hidden) : Prop where
  reach : R f
  fit : Fit cfg f L

variable {R : Fine → Prop}

theorem Canon.sim {f : Fine} {L : Hidden} (k : Canon cfg R f L) : Sim cfg f L := k.fit.sim

/-- The next task is the next duty. -/
inductive Head (m : AMap (List Name)) : Task → List Task → Duty → List Duty → Prop
  | start {ts l} (n b) (h : Owed m ts l) : Head m (.start n b) ts (.start n b) l
  | remove {ts l} (n vals) (h : Owed (dropDependent m vals) ts l) :
      Head m (.remove n vals) ts (.remove n (depsOf (dropDependent m vals))) l
  | bounce {ts l} (n) (h : Owed m ts l) : Head m (.bounce n) ts (.tell n) l
  | stop {ts l} (n) (h : Owed m ts l) : Head m (.stop n) ts (.tell n) l

/-- The loop does what nobody sees until it comes to its next duty. -/
theorem advance (M : Moves cfg R) {d : Duty} {l : List Duty} : ∀ {ts : List Task} {s : State}, R ⟨s, ts⟩ → Owed s.dependents ts (d :: l) →
    ∃ o tk ts', R ⟨{ s with oneShot := o }, tk :: ts'⟩ ∧ Head s.dependents tk ts' d l := by
  intro ts
  induction ts with
  | nil => intro s _ h; exact absurd rfl h.ne_nil
  | cons tk ts ih =>
    intro s hr h
    generalize e : d :: l = dl at h
    cases h with
    | done => cases e
    | start n b h => injection e with e1 e2; subst e1 e2; exact ⟨s.oneShot, _, _, hr, .start n b h⟩
    | remove n vals h => injection e with e1 e2; subst e1 e2; exact ⟨s.oneShot, _, _, hr, .remove n vals h⟩
    | bounce n h => injection e with e1 e2; subst e1 e2; exact ⟨s.oneShot, _, _, hr, .bounce n h⟩
    | stop n h => injection e with e1 e2; subst e1 e2; exact ⟨s.oneShot, _, _, hr, .stop n h⟩
    | bounceAll n h =>
      have hw : R ⟨s, (depsOf s.dependents n).map .bounce ++ ts⟩ := M.work hr nofun h.ne_nil
      cases hd : depsOf s.dependents n with
      | nil =>
        rw [hd] at hw e
        have e : d :: l = _ := e
        rw [List.map_nil, List.nil_append] at e
        subst e
        exact ih hw h
      | cons x xs =>
        rw [hd] at hw e
        injection e with e1 e2
        subst e1 e2
        exact ⟨s.oneShot, _, _, hw, .bounce x (owed_bounces h xs)⟩
    | clear h =>
      subst e
      exact ih (s := { s with oneShot := false }) (M.work hr nofun h.ne_nil) h

theorem advance_nil (M : Moves cfg R) : ∀ {ts : List Task} {s : State}, R ⟨s, ts⟩ → Owed s.dependents ts [] →
    ∃ o, R ⟨{ s with oneShot := o }, [.check]⟩ := by
  intro ts
  induction ts with
  | nil => intro s _ h; exact absurd rfl h.ne_nil
  | cons tk ts ih =>
    intro s hr h
    generalize e : ([] : List Duty) = dl at h
    cases h with
    | done => exact ⟨s.oneShot, hr⟩
    | start | remove | bounce | stop => cases e
    | bounceAll n h =>
      have hw : R ⟨s, (depsOf s.dependents n).map .bounce ++ ts⟩ := M.work hr nofun h.ne_nil
      obtain ⟨e1, e2⟩ := List.append_eq_nil_iff.1 e.symm
      rw [List.map_eq_nil_iff] at e1
      subst e2
      rw [e1] at hw
      exact ih hw h
    | clear h =>
      subst e
      exact ih (s := { s with oneShot := false }) (M.work hr nofun h.ne_nil) h

theorem LoopRel.of_busy {ts : List Task} {lp : Loop} {l : List Duty} (h : LoopRel cfg s ts lp) (e : lp = .busy l) :
    s.tomb.dead = false ∧ Owed s.dependents ts l := by
  cases h with
  | busy hd ho => injection e with e; subst e; exact ⟨hd, ho⟩
  | idle | report | check | stops | look | gone => cases e

/-- The loop does nothing about a manifold that has been told. -/
theorem tell_noop (c : Core s) (i : HInv cfg s) (hp : s.pend = none) {n : Name} (ht : Told s.hist n)
    (hk : openH s.hist n = none → .kill ∈ s.hist) (hi : (s.manifolds.get? n).isSome = true) :
    (if (s.cur n).stopped then requestStart s n cfg.bounceDelay else requestStop s n) = s := by
  by_cases hs : (s.cur n).stopped = true
  · rw [if_pos hs, requestStart_eq hi hs, tick_none hp, if_pos (i.dying.2 (hk (i.noOpen c hs)))]
  · rw [if_neg hs]
    have hst := ((told_iff c i n).1 ht).resolve_left hs
    unfold requestStop; simp [hst]

theorem stop_noop (c : Core s) (i : HInv cfg s) {n : Name} (ht : Told s.hist n) : requestStop s n = s := by
  unfold requestStop
  rcases (told_iff c i n).1 ht with h | h <;> simp [h]

/-- What nobody sees. -/
theorem canon_silent (M : Moves cfg R) {f : Fine} {L : Hidden} {l : Loop} (k : Canon cfg R f L) (hs : Silent f.s.hist L.loop l)
    (ho' : l = .idle → Loose cfg R) : ∃ f', Canon cfg R f' { L with loop := l } ∧ f'.s.hist = f.s.hist := by
  obtain ⟨hr, hf, sl, slow, hidle⟩ := k
  have hf' := hf.silent hs
  obtain ⟨s, todo⟩ := f
  generalize hL : L.loop = lp at hs sl
  simp only at hf hf' sl slow hs
  cases hs with
  | look l hk =>
    cases sl with
    | look n told err vals lost hd =>
      obtain ⟨D, hx, hp, _, _⟩ := freach_link (M.reach hr)
      obtain ⟨c, i⟩ := ex_hinv hx
      have hdy : s.dying = false := (not_dying (s := s) i).2 hk
      have hw := M.work hr nofun (by simp)
      simp only [exec, hdy, Bool.false_eq_true, if_false] at hw
      refine ⟨_, ⟨hw, hf', ?_, slow, nofun⟩, rfl⟩
      refine .busy hd ?_
      rw [List.append_assoc]
      exact reactTasks_duties cfg s.dependents n told err vals lost
  | drop l hk =>
    cases sl with
    | look n told err vals lost hd =>
      obtain ⟨D, hx, hp, _, _⟩ := freach_link (M.reach hr)
      obtain ⟨c, i⟩ := ex_hinv hx
      have hdy : s.dying = true := i.dying.2 hk
      have hw := M.work hr nofun (by simp)
      simp only [exec, hdy, if_true] at hw
      exact ⟨_, ⟨hw, hf', .busy hd (.done _), slow, nofun⟩, rfl⟩
  | start n b l hk =>
    obtain ⟨hd, ho⟩ := sl.of_busy rfl
    obtain ⟨o, tk, ts', hr', hh⟩ := advance M hr ho
    obtain ⟨D, hx, hp, _, hrd⟩ := freach_link (M.reach hr')
    obtain ⟨c, i⟩ := ex_hinv hx
    cases hh with
    | start _ _ h =>
      obtain ⟨hi, hst⟩ := ready_start hrd
      have hw := M.work hr' nofun h.ne_nil
      simp only [exec] at hw
      rw [requestStart_eq hi hst, tick_none hp, if_pos (i.dying.2 hk)] at hw
      exact ⟨_, ⟨hw, hf', .busy hd h, slow, nofun⟩, rfl⟩
  | tell n l ht hk =>
    obtain ⟨hd, ho⟩ := sl.of_busy rfl
    obtain ⟨o, tk, ts', hr', hh⟩ := advance M hr ho
    obtain ⟨D, hx, hp, _, hrd⟩ := freach_link (M.reach hr')
    obtain ⟨c, i⟩ := ex_hinv hx
    cases hh with
    | bounce _ h =>
      have hw := M.work hr' nofun h.ne_nil
      simp only [exec] at hw
      rw [tell_noop c i hp ht hk (ready_bounce hrd)] at hw
      exact ⟨_, ⟨hw, hf', .busy hd h, slow, nofun⟩, rfl⟩
    | stop _ h =>
      have hw := M.work hr' nofun h.ne_nil
      simp only [exec] at hw
      rw [stop_noop c i ht] at hw
      exact ⟨_, ⟨hw, hf', .busy hd h, slow, nofun⟩, rfl⟩
  | ready hn =>
    obtain ⟨hd, ho⟩ := sl.of_busy rfl
    obtain ⟨o, hr'⟩ := advance_nil M hr ho
    obtain ⟨D, hx, hp, _, hrd⟩ := freach_link (M.reach hr')
    obtain ⟨c, i⟩ := ex_hinv hx
    have hw := (ho' rfl).check hr'
    rw [endArm_cases hp, if_neg (fun hc => hn ⟨i.dying.1 hc.1, (allStopped_iff c i).2 hc.2⟩)] at hw
    exact ⟨_, ⟨hw, hf', .idle hd, slow, fun _ => rfl⟩, rfl⟩

end Verif.Engine
