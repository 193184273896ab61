import Verif.Engine.Fine
import Verif.Spec.NextDelay

/-!
# Engine: the base delay of every attempt, from the history of its manifold alone

The loop starts a manifold that was just installed, or whose attempt has just failed, before it does anything else; so when
it gets to bounce a manifold that has stopped, the manifold is one that was waiting.
-/

namespace Verif.Engine
open State Verif.Spec

/-- `s'` has got only events with `P` since `s`. -/
def More (P : Ev → Bool) (s s' : State) : Prop := ∃ es, s'.hist = es ++ s.hist ∧ ∀ e ∈ es, P e = true

theorem More.of {P : Ev → Bool} {s s' : State} (h : s'.hist = s.hist) : More P s s' := ⟨[], h, nofun⟩

theorem More.one {P : Ev → Bool} {s s' : State} (e : Ev) (h : s'.hist = e :: s.hist) (hd : P e = true) : More P s s' :=
  ⟨[e], h, by intro x hx; cases List.mem_singleton.1 hx; exact hd⟩

theorem More.trans {P : Ev → Bool} {a b c : State} (h1 : More P a b) (h2 : More P b c) : More P a c := by
  obtain ⟨es, h1, d1⟩ := h1
  obtain ⟨fs, h2, d2⟩ := h2
  refine ⟨fs ++ es, by rw [h2, h1, List.append_assoc], fun e he => ?_⟩
  rcases List.mem_append.1 he with he | he
  · exact d2 e he
  · exact d1 e he

theorem More.mono {P Q : Ev → Bool} {a b : State} (h : ∀ e, P e = true → Q e = true) (h1 : More P a b) : More Q a b := by
  obtain ⟨es, h1, d1⟩ := h1
  exact ⟨es, h1, fun e he => h e (d1 e he)⟩

/-- What other goroutines add to the history. -/
theorem env_more {cfg : Config} {s s' : State} {op : Op} (he : op.isEnv = true) (h : step cfg s op = some s') :
    More foreign s s' := by
  cases op with
  | armDying | armReport | armInstall | armStarted | armStopped => cases he
  | kill => simp only [step, Option.some.injEq] at h; subst h; exact .one .kill rfl rfl
  | gRegisterDying gid =>
    simp only [step] at h
    split at h
    · split at h
      · rename_i w hpc
        split at h
        · simp only [Option.some.injEq] at h; subst h
          cases w with
          | self => exact More.trans (b := (s.mapG gid (fun g => { g with pc := afterOffer .self })).log (.killW .self)) (.one _ rfl rfl) (.one .kill rfl rfl)
          | obj k => exact .one _ rfl rfl
        · cases h
      · cases h
    · cases h
  | installRefused | gAbort | gTimer | gGet | gStartOk | gStartErr | gSelfDone | gWaitRet | finish =>
    simp only [step] at h
    repeat' split at h
    all_goals first
      | (simp only [Option.some.injEq] at h; subst h
         first | exact .of rfl | exact .one _ rfl rfl)
      | cases h

/-- Not an event that changes how a manifold is started next. -/
def still : Ev → Bool
  | .begin .. | .installed .. | .ended .. => false
  | _ => true

theorem still_of_foreign (e : Ev) (h : foreign e = true) : still e = true := by
  cases e <;> first | rfl | cases h

theorem more_killWorker (s : State) (w : WRef) : More still s (s.killWorker w) := by
  cases w with
  | self => exact More.trans (b := s.log (.killW .self)) (.one _ rfl rfl) (.one .kill rfl rfl)
  | obj k => exact .one _ rfl rfl

theorem more_requestStop (s : State) (n : Name) : More still s (requestStop s n) := by
  have hm : More still s (markStopping s n) := by
    unfold markStopping
    simp only
    split
    · exact .one _ rfl rfl
    · exact .of rfl
  unfold requestStop
  simp only
  split
  · exact .of rfl
  · split
    · exact hm.trans (more_killWorker _ _)
    · exact hm

/-- The manifold is not due to be started, except when an input changes. -/
def Calm (cfg : Config) (h : List Ev) (n : Name) : Prop :=
  openH h n = none → manH h n ≠ none → baseH cfg.errorDelay cfg.bounceDelay h n = cfg.bounceDelay

/-- Of which manifold the loop deals with first, with which delay. -/
def first (cfg : Config) : List Task → Option (Name × Int)
  | .start x d :: _ => some (x, d)
  | .react x told err _ _ :: _ => some (x, if told = false ∧ ownFailure err = true then cfg.errorDelay else cfg.bounceDelay)
  | _ => none

/-- The attempts begun so far had the right delay, and the loop deals with what is to be started before anything else. -/
structure Sched (cfg : Config) (f : Fine) : Prop where
  hist : AtEvery (fun e h => match e with
    | .begin n _ d _ _ => d = baseH cfg.errorDelay cfg.bounceDelay h n
    | _ => True) f.s.hist
  head : ∀ x d, first cfg f.todo = some (x, d) → d = baseH cfg.errorDelay cfg.bounceDelay f.s.hist x
  wait : ∀ n, Calm cfg f.s.hist n ∨ .kill ∈ f.s.hist ∨ ∃ d, first cfg f.todo = some (n, d)

theorem still_base {cfg : Config} {es h : List Ev} (hs : ∀ e ∈ es, still e = true) (n : Name) :
    baseH cfg.errorDelay cfg.bounceDelay (es ++ h) n = baseH cfg.errorDelay cfg.bounceDelay h n := by
  induction es with
  | nil => rfl
  | cons e es ih =>
    have h1 := hs e (.head _)
    have h2 := ih (fun x hx => hs x (.tail _ hx))
    cases e <;> first | exact h2 | cases h1

theorem calm_cons {cfg : Config} {e : Ev} {h : List Ev} {n : Name} (h1 : ∀ m, e ≠ .installed n m)
    (h2 : ∀ g t raw f told lost, e ≠ .ended n g t raw f told lost) (hc : Calm cfg h n) : Calm cfg (e :: h) n := by
  unfold Calm at *
  cases e with
  | begin m g b r sn =>
    simp only [openH, manH, baseH]
    split
    · nofun
    · exact hc
  | installed m x =>
    have : n ≠ m := fun h => h1 x (by rw [h])
    simpa only [openH, manH, baseH, if_neg this] using hc
  | uninstalled m =>
    simp only [openH, manH, baseH]
    split
    · intro _ h; exact absurd rfl h
    · exact hc
  | ended m g t raw f told lost =>
    have : n ≠ m := fun h => h2 g t raw f told lost (by rw [h])
    simpa only [openH, manH, baseH, if_neg this] using hc
  | _ => exact hc

theorem calm_still {cfg : Config} {es h : List Ev} {n : Name} (hs : ∀ e ∈ es, still e = true) (hc : Calm cfg h n) :
    Calm cfg (es ++ h) n := by
  induction es with
  | nil => exact hc
  | cons e es ih =>
    have h1 := hs e (.head _)
    refine calm_cons ?_ ?_ (ih (fun x hx => hs x (.tail _ hx)))
    · rintro m rfl; cases h1
    · rintro g t raw f told lost rfl; cases h1

theorem atNew_still {cfg : Config} {es h : List Ev} (hs : ∀ e ∈ es, still e = true) : AtNew (fun e h => match e with
    | .begin n _ d _ _ => d = baseH cfg.errorDelay cfg.bounceDelay h n
    | _ => True) es h := by
  induction es with
  | nil => trivial
  | cons e es ih =>
    have h1 := hs e (.head _)
    refine ⟨?_, ih (fun x hx => hs x (.tail _ hx))⟩
    cases e <;> first | trivial | cases h1

/-- A step that changes nothing for any manifold, and leaves the head of the queue or had none. -/
theorem Sched.still {cfg : Config} {f f' : Fine} (h : Sched cfg f) (hm : More still f.s f'.s)
    (ht : first cfg f'.todo = first cfg f.todo) : Sched cfg f' := by
  obtain ⟨es, he, hs⟩ := hm
  refine ⟨?_, ?_, ?_⟩
  · rw [he]; exact AtEvery.append (atNew_still hs) h.hist
  · intro x d hx
    rw [ht] at hx
    rw [he, still_base hs]; exact h.head x d hx
  · intro n
    rcases h.wait n with h | h | h
    · left; rw [he]; exact calm_still hs h
    · right; left; rw [he]; exact List.mem_append_right _ h
    · right; right; rw [ht]; exact h

/-- An attempt of `n` is begun with the right delay, or not at all. -/
theorem Sched.start {cfg : Config} {s s' : State} {todo todo' : List Task} {n : Name} {d : Int} (h : Sched cfg ⟨s, todo⟩)
    (hs : (s.dying = true ∧ s' = s) ∨ s' = launch s n d) (hk : s.dying = true → .kill ∈ s.hist)
    (hd : d = baseH cfg.errorDelay cfg.bounceDelay s.hist n)
    (h1 : ∀ m, m ≠ n → ¬ ∃ d, first cfg todo = some (m, d)) (h2 : first cfg todo' = none) : Sched cfg ⟨s', todo'⟩ := by
  rcases hs with ⟨hy, rfl⟩ | rfl
  · exact ⟨h.hist, (by intro x d hx; rw [h2] at hx; cases hx), fun m => Or.inr (Or.inl (hk hy))⟩
  · refine ⟨⟨hd, h.hist⟩, (by intro x d hx; rw [h2] at hx; cases hx), fun m => ?_⟩
    show Calm cfg (_ :: s.hist) m ∨ _ ∈ _ :: s.hist ∨ _
    by_cases hm : m = n
    · subst hm
      left
      intro ho
      simp [openH] at ho
    · rcases h.wait m with h | h | h
      · left; exact calm_cons (by nofun) (by nofun) h
      · exact Or.inr (Or.inl (.tail _ h))
      · exact absurd h (h1 m hm)

theorem errIs_ownFailure {r : Err} : ownFailure (some r) = true ↔ errIs (some r) .aborted = false ∧ errIs (some r) .missing = false ∧
    errIs (some r) .bounce = false ∧ errIs (some r) .uninstall = false := by
  have h : ∀ x, errIs (some r) x = false ↔ x ∉ r.tree := by
    intro x
    rw [← Bool.not_eq_true, errIs_iff]
  unfold ownFailure
  simp only [decide_eq_true_eq, h]

/-- What the loop does about an attempt that has ended, as far as starting goes. -/
theorem first_react (cfg : Config) (n : Name) (told : Bool) (err : Option Err) (vals : Name → List Name) (b : Bool) (rest : List Task)
    (hr : rest = (if b then [.bounceAll n] else []) ++ [.check]) :
    first cfg (reactTasks cfg n told err vals ++ rest) =
      some (n, if told = false ∧ ownFailure err = true then cfg.errorDelay else cfg.bounceDelay) ∨
    first cfg (reactTasks cfg n told err vals ++ rest) = none ∧
      (if told = false ∧ ownFailure err = true then cfg.errorDelay else cfg.bounceDelay) = cfg.bounceDelay := by
  have hrest : first cfg rest = none := by subst hr; cases b <;> rfl
  unfold reactTasks
  cases told with
  | true => left; simp [first]
  | false =>
    cases err with
    | none => right; exact ⟨by simpa using hrest, by simp [ownFailure]⟩
    | some r =>
      have ho := errIs_ownFailure (r := r)
      cases h1 : errIs (some r) .aborted
      · cases h2 : errIs (some r) .missing
        · cases h3 : errIs (some r) .bounce
          · cases h4 : errIs (some r) .uninstall
            · left
              rw [h1, h2, h3, h4] at ho
              have := ho.2 ⟨rfl, rfl, rfl, rfl⟩
              simp [first, this]
            · right
              rw [h1, h2, h3, h4] at ho
              have : ¬ ownFailure (some r) = true := fun h => by have := ho.1 h; simp at this
              simp [first, this]
          · left
            rw [h1, h2, h3] at ho
            have : ¬ ownFailure (some r) = true := fun h => by have := ho.1 h; simp at this
            simp [first, this]
        · right
          rw [h1, h2] at ho
          have : ¬ ownFailure (some r) = true := fun h => by have := ho.1 h; simp at this
          simpa [this] using hrest
      · right
        rw [h1] at ho
        have : ¬ ownFailure (some r) = true := fun h => by have := ho.1 h; simp at this
        simpa [this] using hrest

theorem sched_work {cfg : Config} {s : State} {D : Debt} {t : Task} {ts : List Task} (hl : Link cfg ⟨s, t :: ts⟩ D)
    (h : Sched cfg ⟨s, t :: ts⟩) : Sched cfg ⟨(exec cfg s t).1, (exec cfg s t).2 ++ ts⟩ := by
  obtain ⟨hx, hp, _, hr⟩ := hl
  simp only at hx hp hr
  have i := (ex_hinv hx).2
  have hk := i.dying.1
  have hrs : ∀ {n : Name} {d : Int}, (s.manifolds.get? n).isSome = true → (s.cur n).stopped = true →
      (s.dying = true ∧ requestStart s n d = s) ∨ requestStart s n d = launch s n d := by
    intro n d hi hs
    rw [requestStart_eq hi hs, tick_none hp]
    split
    · rename_i hd; exact Or.inl ⟨hd, rfl⟩
    · exact Or.inr rfl
  generalize htt : t :: ts = todo at h hr
  cases hr with
  | idle _ => cases htt
  | bounces ds hD0 hi hD hu hb =>
    cases ds with
    | nil =>
      cases htt
      refine h.still (f' := ⟨endArm s, []⟩) ?_ rfl
      show More _ s (endArm s)
      unfold endArm
      rw [tick_none hp]
      simp only
      split
      · exact .one .exit rfl rfl
      · exact .of rfl
    | cons x ds =>
      cases htt
      have hf : first cfg (ds.map Task.bounce ++ [.check]) = none := by cases ds <;> rfl
      have hf0 : first cfg ((x :: ds).map Task.bounce ++ [.check]) = none := rfl
      by_cases hs : (s.cur x).stopped = true
      · have e1 : exec cfg s (.bounce x) = (requestStart s x cfg.bounceDelay, []) := by simp only [exec, if_pos hs]
        rw [e1]
        have hix := hi x (by simp)
        rcases h.wait x with hw | hw | ⟨d, hw⟩
        · have ho : openH s.hist x = none := i.noOpen (ex_hinv hx).1 hs
          have hm : manH s.hist x ≠ none := by
            rw [← i.man]; intro h0; rw [h0] at hix; cases hix
          refine Sched.start h (hrs hix hs) hk (hw ho hm).symm ?_ hf
          rintro m _ ⟨d, hd⟩
          rw [hf0] at hd; cases hd
        · have hd : s.dying = true := i.dying.2 hw
          rcases hrs (d := cfg.bounceDelay) hix hs with ⟨_, e⟩ | e
          · rw [e]; exact h.still (f' := ⟨s, _⟩) (.of rfl) (by rw [hf0]; exact hf)
          · exfalso
            have e2 := requestStart_eq hix hs cfg.bounceDelay
            rw [tick_none hp, if_pos hd] at e2
            rw [e2] at e
            have : (launch s x cfg.bounceDelay).hist.length = s.hist.length := by rw [← e]
            simp [launch] at this
        · rw [hf0] at hw; cases hw
      · have e1 : exec cfg s (.bounce x) = (requestStop s x, []) := by simp only [exec, if_neg hs]
        rw [e1]
        exact h.still (f' := ⟨_, _⟩) (more_requestStop s x) (by rw [hf0]; exact hf)
  | bounceAll n _ _ _ =>
    cases htt
    refine h.still (f' := ⟨s, _⟩) (.of rfl) ?_
    show first cfg (((s.dependents.get? n).getD []).map Task.bounce ++ [.check]) = none
    cases (s.dependents.get? n).getD [] <;> rfl
  | start n d b hi hs hn hlb hD0 hD hb =>
    cases htt
    refine Sched.start h (hrs hi hs) hk (h.head n d rfl) ?_ ?_
    · rintro m hm ⟨d', hd⟩
      cases hd; exact hm rfl
    · cases b <;> rfl
  | remove n vals b hi hs ht hv hev hD0 hD =>
    cases htt
    exact h.still (f' := ⟨_, _⟩) (.one _ rfl rfl) (by cases b <;> rfl)
  | react n told err vals b hi hs ht hv hev hD =>
    cases htt
    have hhead := h.head n _ rfl
    simp only [exec]
    split
    · rename_i hd
      refine ⟨h.hist, (by intro x d hx; cases hx), fun m => Or.inr (Or.inl (hk hd))⟩
    · dsimp only
      rw [List.append_assoc]
      rcases first_react cfg n told err vals b _ rfl with hf | ⟨hf, hb⟩
      · refine h.still (f' := ⟨s, _⟩) (.of rfl) ?_
        show first cfg _ = _
        exact hf
      · refine ⟨h.hist, (by intro x d hx; rw [hf] at hx; cases hx), fun m => ?_⟩
        rcases h.wait m with hw | hw | ⟨d, hw⟩
        · exact Or.inl hw
        · exact Or.inr (Or.inl hw)
        · cases hw
          left
          intro _ _
          exact hhead.symm.trans hb
  | stops ns hd h0 ha =>
    cases ns with
    | nil =>
      cases htt
      exact h.still (f' := ⟨_, _⟩) (.of rfl) rfl
    | cons x ns =>
      cases htt
      refine h.still (f' := ⟨_, _⟩) (more_requestStop s x) ?_
      show first cfg (ns.map Task.stop ++ [.clearOneShot, .check]) = none
      cases ns <;> rfl
  | report h0 =>
    cases htt
    refine h.still (f' := ⟨liveReport s, _⟩) ?_ rfl
    unfold liveReport
    rw [tick_none hp]
    simp only
    split <;> exact .one _ rfl rfl

theorem sched_step {cfg : Config} {f f' : Fine} {D : Debt} {op : FOp} (hl : Link cfg f D) (h : Sched cfg f)
    (hs : fstep cfg f op = some f') : Sched cfg f' := by
  have idle : ∀ {n : Name}, f.todo.isEmpty = true → Calm cfg f.s.hist n ∨ .kill ∈ f.s.hist := by
    intro n ht
    rcases h.wait n with hw | hw | ⟨d, hw⟩
    · exact Or.inl hw
    · exact Or.inr hw
    · rw [List.isEmpty_iff.1 ht] at hw; cases hw
  have fnil : f.todo.isEmpty = true → first cfg f.todo = none := by
    intro ht; rw [List.isEmpty_iff.1 ht]; rfl
  cases op with
  | env op =>
    simp only [fstep] at hs
    split at hs
    · rename_i he
      obtain ⟨s', h1, rfl⟩ := Option.map_eq_some_iff.1 hs
      exact h.still ((env_more he h1).mono still_of_foreign) rfl
    · cases hs
  | work =>
    simp only [fstep] at hs
    split at hs
    · cases hs
    · rename_i t ts ht
      cases hs
      obtain ⟨s, todo⟩ := f
      simp only at ht
      subst ht
      exact sched_work hl h
  | dying order =>
    simp only [fstep] at hs
    split at hs
    · rename_i hc
      cases hs
      refine h.still (f' := ⟨_, _⟩) (.of rfl) ?_
      rw [fnil hc.1]
      cases order <;> rfl
    · cases hs
  | report =>
    simp only [fstep] at hs
    split at hs
    · rename_i hc
      cases hs
      exact h.still (f' := ⟨_, _⟩) (.of rfl) (by rw [fnil hc.1]; rfl)
    · cases hs
  | install n m order =>
    simp only [fstep] at hs
    split at hs
    · rename_i hc
      cases hs
      unfold beginInstall
      split
      · exact h.still (f' := ⟨_, _⟩) (.one _ rfl rfl) (by rw [fnil hc.1]; rfl)
      · split
        · exact h.still (f' := ⟨_, _⟩) (.one _ rfl rfl) (by rw [fnil hc.1]; rfl)
        · refine ⟨⟨trivial, h.hist⟩, ?_, ?_⟩
          · intro x d hx
            cases hx
            show (0 : Int) = baseH _ _ (.installed n m :: f.s.hist) n
            simp [baseH]
          · intro x
            by_cases hxn : x = n
            · exact Or.inr (Or.inr ⟨0, by rw [hxn]; rfl⟩)
            · rcases idle (n := x) hc.1 with hw | hw
              · left
                exact calm_cons (by rintro m' h; cases h; exact hxn rfl) (by nofun) hw
              · exact Or.inr (Or.inl (.tail _ hw))
    · cases hs
  | started gid now =>
    simp only [fstep] at hs
    split at hs
    · rename_i hc
      split at hs
      · cases hs
      · rename_i g hg
        split at hs
        · rename_i w hpc
          cases hs
          unfold beginStarted
          simp only
          split
          · exact h.still (f' := ⟨_, _⟩) (More.trans (b := ((f.s.mapG gid _).killInternal 584 g.name)) (.of rfl) (more_killWorker _ _))
              (by rw [fnil hc.1]; rfl)
          · split
            · exact h.still (f' := ⟨_, _⟩) (More.trans (b := f.s.mapG gid _) (.of rfl) (more_killWorker _ _)) (by rw [fnil hc.1]; rfl)
            · split
              · exact h.still (f' := ⟨_, _⟩) (More.trans (b := f.s.mapG gid _) (.of rfl) (more_killWorker _ _)) (by rw [fnil hc.1]; rfl)
              · exact h.still (f' := ⟨_, _⟩) (.one (.registered g.name gid w now) rfl rfl) (by rw [fnil hc.1]; rfl)
        · cases hs
    · cases hs
  | stopped gid now vals =>
    simp only [fstep] at hs
    split at hs
    · rename_i hc
      split at hs
      · cases hs
      · rename_i g hg
        split at hs
        · rename_i e hpc
          cases hs
          have key : ∀ (s' : State) (es : List Ev) (err lost told vals'), s'.hist = es ++ .ended g.name gid now e err told lost :: f.s.hist →
              (∀ x ∈ es, still x = true) → ∀ b, Sched cfg ⟨s', [.react g.name told err vals' b, .check]⟩ := by
            intro s' es err lost told vals' hh hst b
            have hb : baseH cfg.errorDelay cfg.bounceDelay s'.hist g.name =
                if told = false ∧ ownFailure err = true then cfg.errorDelay else cfg.bounceDelay := by
              rw [hh, still_base hst]; simp [baseH]
            refine ⟨?_, ?_, ?_⟩
            · simp only
              rw [hh]
              exact AtEvery.append (atNew_still hst) ⟨trivial, h.hist⟩
            · intro x d hx
              cases hx
              exact hb.symm
            · intro x
              simp only
              by_cases hxn : x = g.name
              · exact Or.inr (Or.inr ⟨_, by rw [hxn]; rfl⟩)
              · rcases idle (n := x) hc.1 with hw | hw
                · left
                  rw [hh]
                  exact calm_still hst (calm_cons (by nofun) (by rintro _ _ _ _ _ _ h; cases h; exact hxn rfl) hw)
                · right; left; rw [hh]; exact List.mem_append_right _ (.tail _ hw)
          unfold beginStopped
          simp only
          unfold noteFatal
          split
          · exact key _ [] _ _ _ _ rfl nofun _
          · split
            · exact key _ [.kill] _ _ _ _ rfl (by intro x hx; cases List.mem_singleton.1 hx; rfl) _
            · exact key _ [] _ _ _ _ rfl nofun _
        · cases hs
    · cases hs

theorem freach_sched {cfg : Config} {f : Fine} (hr : FReach cfg f) : Sched cfg f := by
  induction hr with
  | init => exact ⟨trivial, nofun, fun n => Or.inl (fun _ h => absurd rfl h)⟩
  | step op hr h ih => obtain ⟨D, hl⟩ := freach_link hr; exact sched_step hl ih h

end Verif.Engine
