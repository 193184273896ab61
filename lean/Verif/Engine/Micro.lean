import Verif.Engine.Core

/-!
Every step of the engine is a sequence of small steps ("micro steps"), each of which keeps the core invariant.

A micro step also tracks a *debt*: the set of manifolds which the loop still has to start or stop before the
current arm is over. `register` and `stop` incur debt, `launch` and being told to stop pay it. This is a proof
device only; the theorems speak about `step`.
-/

namespace Verif.Engine
open State Verif.Spec

/-- Manifolds still to be started or stopped in this arm. -/
abbrev Debt := Name → Prop

/-- No debt. -/
def noDebt : Debt := fun _ => False

/-- Whether gotStopped wants a new attempt (engine.go:680-716). -/
def NeedsRestart (stopping : Bool) (err : Option Err) : Prop :=
  stopping = true ∨ (err ≠ none ∧ errIs err .aborted = false ∧ errIs err .missing = false ∧
    (errIs err .bounce = true ∨ errIs err .uninstall = false))

/-- Whether gotStopped removes the manifold (engine.go:696-698). -/
def WantsUninstall (stopping : Bool) (err : Option Err) : Prop :=
  stopping = false ∧ errIs err .aborted = false ∧ errIs err .missing = false ∧
    errIs err .bounce = false ∧ errIs err .uninstall = true

/-- The manifold's info after lines 652-664. -/
def resetTo (cfg : Config) (s : State) (g : G) (raw : Option Err) (now : Int) : Info :=
  { err := applyFilter cfg (s.man g.name) raw
    startAttempts := newAttempts (s.cur g.name) raw
    startCount := (s.cur g.name).startCount
    recentErrors := newRecent cfg (s.cur g.name) raw now }

/-- The state after lines 615-672. -/
def stopState (cfg : Config) (s : State) (g : G) (raw : Option Err) (now : Int) : State :=
  let info := s.cur g.name
  let err := applyFilter cfg (s.man g.name) raw
  resetInfo (noteFatal cfg
      ({ s with gs := s.gs.filter (fun x => x.gid != g.gid) }.log
        (.ended g.name g.gid now raw err info.stopping info.worker)) g.name err) g.name
    (resetTo cfg s g raw now)

/-- Listed more than once among the dependents of some input. -/
def Dup (s : State) (n : Name) : Prop := ∃ i, 2 ≤ ((s.dependents.get? i).getD []).count n

/-- The event of a Report call handled in state `s` (when the engine's tomb has no error of its own). -/
def reportEv (s : State) : Ev := .report s.dying (if s.dying then s.worst else none) (reportLines s)

/-- The base delay of a new attempt, by what has just happened (engine.go:367, 689, 700, 712, 748, 757): none for a
manifold just installed, ErrorDelay for one whose attempt has just failed by itself and without ErrBounce, BounceDelay
otherwise. -/
def LaunchBase (cfg : Config) (h : List Ev) (n : Name) (d : Int) : Prop :=
  match h with
  | .installed x _ :: _ => x = n ∧ d = 0
  | .ended x _ _ _ f told _ :: _ =>
    d = if x = n ∧ told = false ∧ errIs f .bounce = false then cfg.errorDelay else cfg.bounceDelay
  | _ => d = cfg.bounceDelay

/-- The micro steps. `v` says how the history is looked at when it matters what happened last: in executions where the
arms of the loop are atomic this is the history itself. -/
inductive Micro (v : List Ev → List Ev) (cfg : Config) : State → Debt → State → Debt → Prop
  | setPend (s : State) (D : Debt) (p : Option Nat) : Micro v cfg s D { s with pend := p } D
  | kill (s : State) (D : Debt) : Micro v cfg s D s.killNil D
  | discharge (s : State) (D D' : Debt) (h1 : ∀ n, D' n → D n)
      (h2 : ∀ n, D n → D' n ∨ s.dying = true ∨ (s.cur n).stopping = true) : Micro v cfg s D s D'
  | launch (s : State) (D : Debt) (n : Name) (delay : Int) (hd : s.dying = false)
      (hi : (s.manifolds.get? n).isSome = true) (hs : (s.cur n).stopped = true) (hD : D n)
      (hb : LaunchBase cfg (v s.hist) n delay) :
      Micro v cfg s D (launch s n delay) (fun x => D x ∧ x ≠ n)
  | reqStop (s : State) (D : Debt) (n : Name) (hs : (s.cur n).stopped = false)
      (hst : (s.cur n).stopping = false) (hD : D n ∨ Dup s n ∨ s.dying = true) :
      Micro v cfg s D (requestStop s n) D
  | record (s : State) (D : Debt) (n : Name) (m : Manifold) (hn : s.manifolds.get? n = none)
      (ha : ¬ HasCycle (inputsTable (s.manifolds.set n m))) (hdead : s.tomb.dead = false) (hD : ∀ x, ¬ D x) :
      Micro v cfg s D (record s n m) (fun x => D x ∨ x = n)
  | neutral (s : State) (D : Debt) (e : Ev) (h : (∃ n x, e = .installFailed n x) ∨ e = reportEv s) :
      Micro v cfg s D (s.log e) D
  | register (s : State) (D : Debt) (g : G) (hg : g ∈ s.gs) (w : WRef) (now : Int)
      (hpc : g.pc = .registering w) (hd : s.dying = false) (hst : (s.cur g.name).stopping = false)
      (hD : ∀ x, ¬ D x) :
      Micro v cfg s D (register (s.mapG g.gid (fun g => { g with pc := afterOffer w })) g.name g.gid w now)
        (fun x => D x ∨ Dep s g.name x)
  | refuse (s : State) (D : Debt) (g : G) (hg : g ∈ s.gs) (w : WRef) (hpc : g.pc = .registering w)
      (h : (s.cur g.name).stopping = true ∨ s.dying = true) :
      Micro v cfg s D ((s.mapG g.gid (fun g => { g with pc := afterOffer w })).killWorker w) D
  | stop (s : State) (D : Debt) (g : G) (hg : g ∈ s.gs) (raw : Option Err) (now : Int)
      (hpc : g.pc = .sendStopped raw) (hdead : s.tomb.dead = false) (hD : ∀ x, ¬ D x) :
      Micro v cfg s D (stopState cfg s g raw now) (fun x => D x ∨
        ((s.cur g.name).worker ≠ none ∧ Dep s g.name x) ∨
        (x = g.name ∧ (NeedsRestart (s.cur g.name).stopping (applyFilter cfg (s.man g.name) raw) ∨
          WantsUninstall (s.cur g.name).stopping (applyFilter cfg (s.man g.name) raw))))
  | uninstall (s : State) (D : Debt) (n : Name) (vals : Name → List Name) (hs : (s.cur n).stopped = true)
      (hi : (s.manifolds.get? n).isSome = true)
      (hv : validVals s.dependents n vals = true) (hdead : s.tomb.dead = false)
      (ht : (s.cur n).startedTime = 0)
      (hev : ∃ gid now raw f lost rest, v s.hist = .ended n gid now raw f false lost :: rest ∧
        WantsUninstall false f) :
      Micro v cfg s D (uninstall s n vals) (fun x => D x ∧ x ≠ n)
  | gAbort (s : State) (D : Debt) (g : G) (hg : g ∈ s.gs) (hpc : g.pc = .delaying)
      (h : s.dying = true ∨ g.cancelled = true) :
      Micro v cfg s D (s.mapG g.gid (fun g => { g with pc := .sendStopped (some .aborted) })) D
  | gTimer (s : State) (D : Debt) (g : G) (hg : g ∈ s.gs) (hpc : g.pc = .delaying) (fuzz : Rat)
      (hf : 0 ≤ fuzz ∧ fuzz < 1) :
      Micro v cfg s D ((s.mapG g.gid (fun g => { g with pc := .starting })).log
        (.startCall g.name g.gid (cfg.delayFn g.base g.recent fuzz))) D
  | gGet (s : State) (D : Debt) (g : G) (hg : g ∈ s.gs) (hpc : g.pc ≠ .delaying) (res : Name)
      (out : Option Nat) : Micro v cfg s D (s.log (.get g.gid res out (getResult cfg g res out))) D
  | gStartOk (s : State) (D : Debt) (g : G) (hg : g ∈ s.gs) (hpc : g.pc = .starting) (w : WRef) :
      Micro v cfg s D ((s.mapG g.gid (fun g => { g with pc := .registering w })).log (.startOk g.name g.gid w)) D
  | gStartErr (s : State) (D : Debt) (g : G) (hg : g ∈ s.gs) (hpc : g.pc = .starting) (e : Err) :
      Micro v cfg s D ((s.mapG g.gid (fun g => { g with pc := .sendStopped (startError e) })).log
        (.startErr g.name g.gid e)) D
  | gSelfDone (s : State) (D : Debt) (g : G) (hg : g ∈ s.gs) (hpc : g.pc = .selfWait) (hd : s.dying = true) :
      Micro v cfg s D (s.mapG g.gid (fun g => { g with pc := .sendStopped (some .tombDying) })) D
  | gWaitRet (s : State) (D : Debt) (g : G) (hg : g ∈ s.gs) (w : Nat) (hpc : g.pc = .waiting w)
      (e : Option Err) (he : s.finished.get? w = some e) :
      Micro v cfg s D (s.mapG g.gid (fun g => { g with pc := .sendStopped e })) D
  | finish (s : State) (D : Debt) (w : Nat) (e : Option Err) (h : s.finished.get? w = none) :
      Micro v cfg s D ({ s with finished := s.finished.set w e }.log (.finished w e)) D
  | oneShot (s : State) (D : Debt) (hd : s.dying = true)
      (h : ∀ n, (s.cur n).stopped = true ∨ (s.cur n).stopping = true) :
      Micro v cfg s D { s with oneShot := false } D
  | exit (s : State) (D : Debt) (hd : s.dying = true) (hdead : s.tomb.dead = false)
      (ha : allOthersStopped s = true) :
      Micro v cfg s D { s with tomb := s.tomb.finish (some .tombDying), hist := .exit :: s.hist } D

/-- Sequences of micro steps. -/
inductive Chain (v : List Ev → List Ev) (cfg : Config) : State → Debt → State → Debt → Prop
  | refl (s : State) (D : Debt) : Chain v cfg s D s D
  | tail {s D s1 D1 s2 D2} : Chain v cfg s D s1 D1 → Micro v cfg s1 D1 s2 D2 → Chain v cfg s D s2 D2

theorem Chain.single {cfg s D s' D'} (h : Micro v cfg s D s' D') : Chain v cfg s D s' D' := .tail (.refl _ _) h

theorem Chain.trans {cfg s D s1 D1 s2 D2} (h : Chain v cfg s D s1 D1) (h' : Chain v cfg s1 D1 s2 D2) :
    Chain v cfg s D s2 D2 := by
  induction h' with
  | refl => exact h
  | tail _ m ih => exact .tail ih m

theorem resetStopped (a : Option Err) (b c d : Nat) :
    ({ err := a, startAttempts := b, startCount := c, recentErrors := d } : Info).stopped = true := rfl

theorem stopState_eq (cfg : Config) (s : State) (g : G) (raw : Option Err) (now : Int)
    (hns : (s.cur g.name).stopped = false) :
    stopState cfg s g raw now =
      let info := s.cur g.name
      let err := applyFilter cfg (s.man g.name) raw
      let s0 := (({ s with gs := s.gs.filter (fun x => x.gid != g.gid) }.setCur g.name
          (resetTo cfg s g raw now)).log
        (.ended g.name g.gid now raw err info.stopping info.worker))
      if cfg.isFatal err then { s0 with worst := cfg.worstError err s0.worst }.killNil else s0 := by
  unfold stopState noteFatal resetInfo
  have h : (State.cur ({ s with gs := s.gs.filter (fun x => x.gid != g.gid) }.log
        (.ended g.name g.gid now raw (applyFilter cfg (s.man g.name) raw) (s.cur g.name).stopping
          (s.cur g.name).worker)) g.name).stopped = false := hns
  simp only [h, Bool.false_eq_true, if_false]
  split <;> rfl

theorem micro_core {cfg s D s' D'} (h : Micro v cfg s D s' D') (c : Core s) : Core s' := by
  cases h with
  | setPend p => exact c.congr rfl rfl rfl rfl rfl rfl
  | kill => exact c.killNil
  | discharge => exact c
  | launch n delay hd hi hs => exact c.launch' n delay hd hi hs
  | reqStop n => exact c.requestStop' n
  | record n m hn ha hdead hD => exact c.record' n m hn ha hdead
  | neutral e => exact c.log e
  | register g hg w now hpc hd hst => exact c.register' g hg w now hpc hd hst
  | refuse g hg w hpc h =>
    refine (c.setPc g.gid (afterOffer w) ?_).killWorker w
    intro x hx hxg
    have := c.gid_inj hx hg hxg
    subst this
    refine ⟨fun _ _ _ => h, ?_⟩
    intro w' hw'
    rcases ((c.rel x hx).worker w' hw').2 with hp | ⟨e, hp⟩
    · rw [hpc] at hp; cases w' <;> simp [afterOffer] at hp
    · rw [hpc] at hp; cases hp
  | stop g hg raw now hpc hdead hD =>
    rw [stopState_eq cfg s g raw now (c.rel g hg).notStopped]
    simp only
    have c1 := (c.stop g hg (resetTo cfg s g raw now) rfl rfl hdead).log
      (.ended g.name g.gid now raw (applyFilter cfg (s.man g.name) raw) (s.cur g.name).stopping (s.cur g.name).worker)
    split
    · exact Core.killNil (c1.congr rfl rfl rfl rfl rfl rfl)
    · exact c1
  | uninstall n vals hs hi hv hdead ht hev => exact c.uninstall' n vals hs hv hdead
  | gAbort g hg hpc h =>
    refine c.setPc g.gid _ ?_
    intro x hx hxg
    exact ⟨fun _ w h => by cases w <;> simp [afterOffer] at h, fun _ _ => Or.inr ⟨_, rfl⟩⟩
  | gTimer g hg hpc fuzz hf =>
    refine (c.setPc g.gid _ ?_).log _
    intro x hx hxg
    have := c.gid_inj hx hg hxg
    subst this
    refine ⟨fun _ w h => by cases w <;> simp [afterOffer] at h, ?_⟩
    intro w' hw'
    rcases ((c.rel x hx).worker w' hw').2 with hp | ⟨e, hp⟩
    · rw [hpc] at hp; cases w' <;> simp [afterOffer] at hp
    · rw [hpc] at hp; cases hp
  | gGet g hg hpc res out => exact c.log _
  | gStartOk g hg hpc w =>
    refine (c.setPc g.gid _ ?_).log _
    intro x hx hxg
    have := c.gid_inj hx hg hxg
    subst this
    refine ⟨fun _ w h => by cases w <;> simp [afterOffer] at h, ?_⟩
    intro w' hw'
    rcases ((c.rel x hx).worker w' hw').2 with hp | ⟨e, hp⟩
    · rw [hpc] at hp; cases w' <;> simp [afterOffer] at hp
    · rw [hpc] at hp; cases hp
  | gStartErr g hg hpc e =>
    refine (c.setPc g.gid _ ?_).log _
    intro x hx hxg
    exact ⟨fun _ w h => by cases w <;> simp [afterOffer] at h, fun _ _ => Or.inr ⟨_, rfl⟩⟩
  | gSelfDone g hg hpc hd =>
    refine c.setPc g.gid _ ?_
    intro x hx hxg
    exact ⟨fun _ w h => by cases w <;> simp [afterOffer] at h, fun _ _ => Or.inr ⟨_, rfl⟩⟩
  | gWaitRet g hg w hpc e he =>
    refine c.setPc g.gid _ ?_
    intro x hx hxg
    exact ⟨fun _ w h => by cases w <;> simp [afterOffer] at h, fun _ _ => Or.inr ⟨_, rfl⟩⟩
  | finish w e h => exact c.congr rfl rfl rfl rfl rfl rfl
  | oneShot hd h => exact c.congr rfl rfl rfl rfl rfl rfl
  | exit hd hdead ha => exact c.exit hd hdead ha

theorem chain_core {cfg s D s' D'} (h : Chain v cfg s D s' D') (c : Core s) : Core s' := by
  induction h with
  | refl => exact c
  | tail _ m ih => exact micro_core m ih

/-! ## Decomposition of the arms -/

theorem tick_cases (s : State) : s.tick = s ∨ (∃ p, s.tick = { s with pend := p }) ∨
    s.tick = { s with pend := none }.killNil := by
  unfold State.tick
  split
  · exact Or.inl rfl
  · exact Or.inr (Or.inr rfl)
  · exact Or.inr (Or.inl ⟨_, rfl⟩)

section tick
variable (s : State)
@[simp] theorem tick_worst : s.tick.worst = s.worst := by unfold State.tick; split <;> rfl
@[simp] theorem tick_manifolds : s.tick.manifolds = s.manifolds := by unfold State.tick; split <;> rfl
@[simp] theorem tick_dependents : s.tick.dependents = s.dependents := by unfold State.tick; split <;> rfl
@[simp] theorem tick_current : s.tick.current = s.current := by unfold State.tick; split <;> rfl
@[simp] theorem tick_gs : s.tick.gs = s.gs := by unfold State.tick; split <;> rfl
@[simp] theorem tick_nextG : s.tick.nextG = s.nextG := by unfold State.tick; split <;> rfl
@[simp] theorem tick_oneShot : s.tick.oneShot = s.oneShot := by unfold State.tick; split <;> rfl
@[simp] theorem tick_finished : s.tick.finished = s.finished := by unfold State.tick; split <;> rfl
@[simp] theorem tick_cur (n : Name) : s.tick.cur n = s.cur n := by unfold State.tick; split <;> rfl
@[simp] theorem tick_man (n : Name) : s.tick.man n = s.man n := by unfold State.tick; split <;> rfl
@[simp] theorem tick_dead : s.tick.tomb.dead = s.tomb.dead := by
  unfold State.tick; split
  · rfl
  · exact Tomb.kill_dead _ _
  · rfl
theorem tick_dying_mono (h : s.dying = true) : s.tick.dying = true := by
  unfold State.tick; split
  · exact h
  · exact killNil_dying _
  · exact h
end tick

theorem chain_tick (cfg : Config) (s : State) (D : Debt) : Chain v cfg s D s.tick D := by
  rcases tick_cases s with h | ⟨p, h⟩ | h <;> rw [h]
  · exact .refl _ _
  · exact .single (.setPend s D p)
  · exact .tail (.single (.setPend s D none)) (.kill _ _)

theorem requestStart_eq {s : State} {n : Name} (hi : (s.manifolds.get? n).isSome = true)
    (hs : (s.cur n).stopped = true) (delay : Int) :
    requestStart s n delay = if s.tick.dying then s.tick else launch s.tick n delay := by
  unfold requestStart
  have : (s.manifolds.get? n).isNone = false := by
    cases h : s.manifolds.get? n <;> simp_all
  simp only [this, Bool.false_eq_true, if_false, hs, if_true]

theorem chain_requestStart {cfg : Config} {s : State} {D : Debt} {n : Name} (delay : Int)
    (hi : (s.manifolds.get? n).isSome = true) (hs : (s.cur n).stopped = true) (hD : D n ∨ s.dying = true)
    (hb : LaunchBase cfg (v s.hist) n delay) :
    Chain v cfg s D (requestStart s n delay) (fun x => D x ∧ x ≠ n) := by
  rw [requestStart_eq hi hs]
  split
  · rename_i hd
    refine .tail (chain_tick cfg s D) (.discharge _ _ _ (fun x h => h.1) (fun x h => ?_))
    exact Or.inr (Or.inl hd)
  · rename_i hd
    have hd : s.tick.dying = false := by simpa using hd
    have hD' : D n := by
      rcases hD with h | h
      · exact h
      · rw [tick_dying_mono s h] at hd; cases hd
    refine .tail (chain_tick cfg s D) (.launch _ _ n delay hd ?_ ?_ hD' ?_)
    · rw [tick_manifolds]; exact hi
    · rw [tick_cur]; exact hs
    · rcases tick_cases s with h | ⟨p, h⟩ | h
      · rw [h]; exact hb
      · rw [h]; exact hb
      · rw [h, killNil_dying] at hd; cases hd

theorem launch_cur (s : State) (n : Name) (delay : Int) (m : Name) :
    (launch s n delay).cur m = if m = n then
      { s.cur n with
        starting := true, startAttempts := (s.cur n).startAttempts + 1, err := none,
        cancel := some s.nextG } else s.cur m := setCur_cur s n _ m

theorem launch_cur_ne (s : State) (n : Name) (delay : Int) {m : Name} (h : m ≠ n) :
    (launch s n delay).cur m = s.cur m := by rw [launch_cur, if_neg h]

theorem requestStart_notStopped {s : State} {n : Name} (hi : (s.manifolds.get? n).isSome = true)
    (hs : (s.cur n).stopped = true) (delay : Int) :
    (requestStart s n delay).dying = true ∨ ((requestStart s n delay).cur n).stopped = false := by
  rw [requestStart_eq hi hs]
  split
  · left; assumption
  · right; rw [launch_cur, if_pos rfl]; simp [Info.stopped]

theorem requestStart_cur_ne {s : State} {n : Name} (hi : (s.manifolds.get? n).isSome = true)
    (hs : (s.cur n).stopped = true) (delay : Int) {m : Name} (h : m ≠ n) :
    (requestStart s n delay).cur m = s.cur m := by
  rw [requestStart_eq hi hs]
  split
  · exact tick_cur _ _
  · rw [launch_cur_ne _ _ _ h, tick_cur]

theorem requestStart_manifolds (s : State) (n : Name) (delay : Int) :
    (requestStart s n delay).manifolds = s.manifolds := by
  unfold requestStart launch State.killInternal
  simp only
  repeat' split
  all_goals simp

theorem requestStart_dying_mono {s : State} {n : Name} (delay : Int) (hi : (s.manifolds.get? n).isSome = true)
    (hs : (s.cur n).stopped = true) (h : s.dying = true) : (requestStart s n delay).dying = true := by
  rw [requestStart_eq hi hs, if_pos (tick_dying_mono s h)]
  exact tick_dying_mono s h

theorem requestStart_dead {s : State} {n : Name} (delay : Int) (hi : (s.manifolds.get? n).isSome = true)
    (hs : (s.cur n).stopped = true) : (requestStart s n delay).tomb.dead = s.tomb.dead := by
  rw [requestStart_eq hi hs]
  split
  · exact tick_dead s
  · exact tick_dead s

section
variable (s : State) (n : Name)
@[simp] theorem markStopping_tomb : (markStopping s n).tomb = s.tomb := by
  unfold markStopping; simp only; split <;> rfl
@[simp] theorem markStopping_dying : (markStopping s n).dying = s.dying := by
  unfold State.dying; rw [markStopping_tomb]
@[simp] theorem markStopping_manifolds : (markStopping s n).manifolds = s.manifolds := by
  unfold markStopping; simp only; split <;> rfl
@[simp] theorem markStopping_dependents : (markStopping s n).dependents = s.dependents := by
  unfold markStopping; simp only; split <;> rfl
@[simp] theorem markStopping_oneShot : (markStopping s n).oneShot = s.oneShot := by
  unfold markStopping; simp only; split <;> rfl
@[simp] theorem markStopping_worst : (markStopping s n).worst = s.worst := by
  unfold markStopping; simp only; split <;> rfl
@[simp] theorem markStopping_nextG : (markStopping s n).nextG = s.nextG := by
  unfold markStopping; simp only; split <;> rfl
@[simp] theorem markStopping_finished : (markStopping s n).finished = s.finished := by
  unfold markStopping; simp only; split <;> rfl
theorem markStopping_cur (m : Name) : (markStopping s n).cur m =
    if m = n then { s.cur n with stopping := true, cancel := none } else s.cur m := by
  unfold markStopping; simp only; split <;> rw [setCur_cur] <;> rfl
end

/-- requestStop, by cases. -/
theorem requestStop_cases (s : State) (n : Name) :
    (((s.cur n).stopping = true ∨ (s.cur n).stopped = true) ∧ requestStop s n = s) ∨
    ((s.cur n).stopping = false ∧ (s.cur n).stopped = false ∧
      ((∃ w, (s.cur n).worker = some w ∧ requestStop s n = (markStopping s n).killWorker w) ∨
        ((s.cur n).worker = none ∧ requestStop s n = markStopping s n))) := by
  unfold requestStop
  by_cases h : (s.cur n).stopping = true ∨ (s.cur n).stopped = true
  · have h' : ((s.cur n).stopping || (s.cur n).stopped) = true := by simpa using h
    left; simp only [h', if_true]; exact ⟨h, trivial⟩
  · have h' : ((s.cur n).stopping || (s.cur n).stopped) = false := by simpa using h
    simp only [not_or, Bool.not_eq_true] at h
    right
    refine ⟨h.1, h.2, ?_⟩
    simp only [h', Bool.false_eq_true, if_false]
    cases (s.cur n).worker with
    | none => right; exact ⟨rfl, rfl⟩
    | some w => left; exact ⟨w, rfl, rfl⟩

theorem requestStop_cur (s : State) (n m : Name) : (requestStop s n).cur m =
    if m = n ∧ (s.cur n).stopping = false ∧ (s.cur n).stopped = false
    then { s.cur n with stopping := true, cancel := none } else s.cur m := by
  rcases requestStop_cases s n with ⟨h, e⟩ | ⟨h1, h2, ⟨w, hw, e⟩ | ⟨hw, e⟩⟩
  · rw [e, if_neg]
    rintro ⟨_, h1, h2⟩
    rcases h with h | h <;> simp_all
  · rw [e, killWorker_cur, markStopping_cur]; simp [h1, h2]
  · rw [e, markStopping_cur]; simp [h1, h2]

theorem requestStop_stopped (s : State) (n m : Name) :
    ((requestStop s n).cur m).stopped = (s.cur m).stopped := by
  rw [requestStop_cur]
  split
  · rename_i h; rw [h.1]; rfl
  · rfl

theorem requestStop_worker (s : State) (n m : Name) :
    ((requestStop s n).cur m).worker = (s.cur m).worker := by
  rw [requestStop_cur]
  split
  · rename_i h; rw [h.1]
  · rfl

theorem requestStop_stopping_mono (s : State) (n m : Name) (h : (s.cur m).stopping = true) :
    ((requestStop s n).cur m).stopping = true := by
  rw [requestStop_cur]
  split
  · rfl
  · exact h

theorem requestStop_done (s : State) (n : Name) :
    ((requestStop s n).cur n).stopped = true ∨ ((requestStop s n).cur n).stopping = true := by
  rcases requestStop_cases s n with ⟨h, e⟩ | ⟨h1, h2, _⟩
  · rw [e]; exact h.symm
  · right; rw [requestStop_cur, if_pos ⟨rfl, h1, h2⟩]

theorem requestStop_manifolds (s : State) (n : Name) : (requestStop s n).manifolds = s.manifolds := by
  rcases requestStop_cases s n with ⟨h, e⟩ | ⟨h1, h2, ⟨w, hw, e⟩ | ⟨hw, e⟩⟩ <;> rw [e] <;> simp

theorem requestStop_dependents (s : State) (n : Name) : (requestStop s n).dependents = s.dependents := by
  rcases requestStop_cases s n with ⟨h, e⟩ | ⟨h1, h2, ⟨w, hw, e⟩ | ⟨hw, e⟩⟩ <;> rw [e] <;> simp

theorem killWorker_dead (s : State) (w : WRef) : (s.killWorker w).tomb.dead = s.tomb.dead := by
  cases w with
  | obj n => rfl
  | self => exact Tomb.kill_dead _ _

theorem requestStop_dead (s : State) (n : Name) : (requestStop s n).tomb.dead = s.tomb.dead := by
  rcases requestStop_cases s n with ⟨h, e⟩ | ⟨h1, h2, ⟨w, hw, e⟩ | ⟨hw, e⟩⟩ <;> rw [e]
  · rw [killWorker_dead, markStopping_tomb]
  · rw [markStopping_tomb]

theorem requestStop_dying_mono {s : State} (n : Name) (h : s.dying = true) :
    (requestStop s n).dying = true := by
  rcases requestStop_cases s n with ⟨_, e⟩ | ⟨h1, h2, ⟨w, hw, e⟩ | ⟨hw, e⟩⟩ <;> rw [e]
  · exact h
  · exact killWorker_dying_mono w (by rw [markStopping_dying]; exact h)
  · rw [markStopping_dying]; exact h

theorem chain_requestStop (cfg : Config) (s : State) (D : Debt) (n : Name)
    (hD : D n ∨ Dup s n ∨ s.dying = true) : Chain v cfg s D (requestStop s n) D := by
  rcases requestStop_cases s n with ⟨_, e⟩ | ⟨h1, h2, _⟩
  · rw [e]; exact .refl _ _
  · exact .single (.reqStop s D n h2 h1 hD)

theorem chain_requestStop_pay {cfg : Config} {s : State} {D : Debt} {n : Name}
    (hs : (s.cur n).stopped = false) (hD : D n ∨ Dup s n ∨ s.dying = true) :
    Chain v cfg s D (requestStop s n) (fun x => D x ∧ x ≠ n) := by
  refine .tail (chain_requestStop cfg s D n hD) (.discharge _ _ _ (fun x h => h.1) (fun x h => ?_))
  by_cases hx : x = n
  · subst hx
    rcases requestStop_done s x with h' | h'
    · rw [requestStop_stopped, hs] at h'; cases h'
    · exact Or.inr (Or.inr h')
  · exact Or.inl ⟨h, hx⟩

theorem bounceList_facts (cfg : Config) : ∀ (ds : List Name) (s : State),
    (∀ d ∈ ds, (s.manifolds.get? d).isSome = true) →
    (bounceList cfg s ds).tomb.dead = s.tomb.dead ∧ (bounceList cfg s ds).manifolds = s.manifolds ∧
    (s.dying = true → (bounceList cfg s ds).dying = true) := by
  intro ds
  induction ds with
  | nil => intro s _; exact ⟨rfl, rfl, id⟩
  | cons d ds ih =>
    intro s hi
    unfold bounceList
    have hd := hi d (by simp)
    by_cases hs : (s.cur d).stopped = true
    · rw [if_pos hs]
      obtain ⟨h1, h2, h3⟩ := ih (requestStart s d cfg.bounceDelay)
        (fun x hx => by rw [requestStart_manifolds]; exact hi x (by simp [hx]))
      exact ⟨by rw [h1, requestStart_dead _ hd hs], by rw [h2, requestStart_manifolds],
        fun h => h3 (requestStart_dying_mono _ hd hs h)⟩
    · rw [if_neg hs]
      obtain ⟨h1, h2, h3⟩ := ih (requestStop s d)
        (fun x hx => by rw [requestStop_manifolds]; exact hi x (by simp [hx]))
      exact ⟨by rw [h1, requestStop_dead], by rw [h2, requestStop_manifolds],
        fun h => h3 (requestStop_dying_mono _ h)⟩

theorem requestStart_deps (s : State) (n : Name) (delay : Int) :
    (requestStart s n delay).dependents = s.dependents := by
  unfold requestStart launch State.killInternal
  simp only
  repeat' split
  all_goals simp

theorem requestStart_dup {s : State} {n : Name} {delay : Int} {x : Name} (h : Dup s x) :
    Dup (requestStart s n delay) x := by
  unfold Dup at *
  rw [requestStart_deps]; exact h

theorem requestStop_dup {s : State} {n x : Name} (h : Dup s x) : Dup (requestStop s n) x := by
  unfold Dup at *
  rw [requestStop_dependents]; exact h

theorem requestStart_base {cfg : Config} {s : State} {n x : Name} {d : Int}
    (h : LaunchBase cfg s.hist x cfg.bounceDelay) : LaunchBase cfg (requestStart s n d).hist x cfg.bounceDelay := by
  unfold requestStart launch State.killInternal State.tick
  simp only
  repeat' split
  all_goals first | exact h | exact rfl

theorem requestStop_base {cfg : Config} {s : State} {n x : Name}
    (h : LaunchBase cfg s.hist x cfg.bounceDelay) : LaunchBase cfg (requestStop s n).hist x cfg.bounceDelay := by
  have hm : LaunchBase cfg (markStopping s n).hist x cfg.bounceDelay := by
    unfold markStopping
    simp only
    split
    · exact rfl
    · exact h
  rcases requestStop_cases s n with ⟨_, e⟩ | ⟨_, _, ⟨w, _, e⟩ | ⟨_, e⟩⟩ <;> rw [e]
  · exact h
  · cases w <;> exact rfl
  · exact hm

theorem chain_bounceList (cfg : Config) : ∀ (ds : List Name) (s : State) (D : Debt),
    (∀ d ∈ ds, (s.manifolds.get? d).isSome = true) →
    (∀ d ∈ ds, D d ∨ ((s.cur d).stopped = false ∧ Dup s d) ∨ s.dying = true) → (∀ d, 2 ≤ ds.count d → Dup s d) →
    (∀ d ∈ ds, LaunchBase cfg s.hist d cfg.bounceDelay) →
    Chain id cfg s D (bounceList cfg s ds) (fun x => D x ∧ x ∉ ds) := by
  intro ds
  induction ds with
  | nil =>
    intro s D _ _ _ _
    exact .single (.discharge _ _ _ (fun x h => h.1) (fun x h => Or.inl ⟨h, by simp⟩))
  | cons d ds ih =>
    intro s D hi hD hu hb
    have hid := hi d (by simp)
    have hu' : ∀ x, 2 ≤ ds.count x → Dup s x := fun x hx => hu x (Nat.le_trans hx (List.count_le_count_cons))
    have hdd : d ∈ ds → Dup s d := fun h => hu d (by
      have := List.count_pos_iff.2 h
      rw [List.count_cons_self]; omega)
    unfold bounceList
    have fin : ∀ s1, Chain id cfg s D s1 (fun x => D x ∧ x ≠ d) →
        Chain id cfg s1 (fun x => D x ∧ x ≠ d) (bounceList cfg s1 ds) (fun x => (D x ∧ x ≠ d) ∧ x ∉ ds) →
        Chain id cfg s D (bounceList cfg s1 ds) (fun x => D x ∧ x ∉ d :: ds) := by
      intro s1 h1 h2
      refine .tail (h1.trans h2) (.discharge _ _ _ ?_ ?_)
      · rintro x ⟨hx, hn⟩; simp at hn; exact ⟨⟨hx, hn.1⟩, hn.2⟩
      · rintro x ⟨⟨hx, hn⟩, hm⟩; exact Or.inl ⟨hx, by simp [hn, hm]⟩
    by_cases hs : (s.cur d).stopped = true
    · rw [if_pos hs]
      have hDd : D d ∨ s.dying = true := by
        rcases hD d (by simp) with h | h | h
        · exact Or.inl h
        · rw [hs] at h; cases h.1
        · exact Or.inr h
      refine fin _ (chain_requestStart cfg.bounceDelay hid hs hDd (hb d (by simp))) (ih _ _ ?_ ?_ ?_ ?_)
      · intro x hx; rw [requestStart_manifolds]; exact hi x (by simp [hx])
      · intro x hx
        by_cases hxd : x = d
        · subst hxd
          rcases requestStart_notStopped hid hs cfg.bounceDelay with h | h
          · exact Or.inr (Or.inr h)
          · exact Or.inr (Or.inl ⟨h, requestStart_dup (hdd hx)⟩)
        · rw [requestStart_cur_ne hid hs _ hxd]
          rcases hD x (by simp [hx]) with h | h | h
          · exact Or.inl ⟨h, hxd⟩
          · exact Or.inr (Or.inl ⟨h.1, requestStart_dup h.2⟩)
          · exact Or.inr (Or.inr (requestStart_dying_mono _ hid hs h))
      · exact fun x hx => requestStart_dup (hu' x hx)
      · exact fun x hx => requestStart_base (hb x (by simp [hx]))
    · rw [if_neg hs]
      have hs' : (s.cur d).stopped = false := by simpa using hs
      refine fin _ (chain_requestStop_pay hs' ?_) (ih _ _ ?_ ?_ ?_ ?_)
      · rcases hD d (by simp) with h | h | h
        · exact Or.inl h
        · exact Or.inr (Or.inl h.2)
        · exact Or.inr (Or.inr h)
      · intro x hx; rw [requestStop_manifolds]; exact hi x (by simp [hx])
      · intro x hx
        rw [requestStop_stopped]
        by_cases hxd : x = d
        · subst hxd; exact Or.inr (Or.inl ⟨hs', requestStop_dup (hdd hx)⟩)
        · rcases hD x (by simp [hx]) with h | h | h
          · exact Or.inl ⟨h, hxd⟩
          · exact Or.inr (Or.inl ⟨h.1, requestStop_dup h.2⟩)
          · exact Or.inr (Or.inr (requestStop_dying_mono _ h))
      · exact fun x hx => requestStop_dup (hu' x hx)
      · exact fun x hx => requestStop_base (hb x (by simp [hx]))

theorem Core.dep_installed {s : State} {i x : Name} (h : Dep s i x) :
    (s.manifolds.get? x).isSome = true := by
  obtain ⟨m, hm, _⟩ := h; rw [hm]; rfl

theorem chain_bounceDependents {cfg : Config} {s : State} {D : Debt} {n : Name} (c : Core s)
    (hD : ∀ x, Dep s n x → D x) (hb : ∀ x, Dep s n x → LaunchBase cfg s.hist x cfg.bounceDelay) :
    Chain id cfg s D (bounceDependents cfg s n) (fun x => D x ∧ ¬ Dep s n x) := by
  have := chain_bounceList cfg ((s.dependents.get? n).getD []) s D
    (fun d hd => Core.dep_installed ((c.deps n d).1 hd))
    (fun d hd => Or.inl (hD d ((c.deps n d).1 hd))) (fun d hd => ⟨n, hd⟩)
    (fun d hd => hb d ((c.deps n d).1 hd))
  refine .tail this (.discharge _ _ _ ?_ ?_)
  · rintro x ⟨h1, h2⟩; exact ⟨h1, fun h => h2 ((c.deps n x).1 h)⟩
  · rintro x ⟨h1, h2⟩; exact Or.inl ⟨h1, fun h => h2 ((c.deps n x).2 h)⟩

theorem bounceDependents_dead {cfg : Config} {s : State} {n : Name} (c : Core s) :
    (bounceDependents cfg s n).tomb.dead = s.tomb.dead :=
  (bounceList_facts cfg _ s (fun d hd => Core.dep_installed ((c.deps n d).1 hd))).1

theorem Chain.clear {cfg s D s' D'} (h : Chain v cfg s D s' D')
    (h2 : ∀ n, D' n → s'.dying = true ∨ (s'.cur n).stopping = true) : Chain v cfg s D s' noDebt :=
  .tail h (.discharge _ _ _ (fun _ h => h.elim) (fun n hn => Or.inr (h2 n hn)))

theorem chain_endArm {cfg : Config} {s : State} (hdead : s.tomb.dead = false) :
    Chain v cfg s noDebt (endArm s) noDebt := by
  unfold endArm
  have h1 : Chain v cfg s noDebt { s.tick with pend := none } noDebt :=
    .tail (chain_tick cfg s noDebt) (.setPend _ _ none)
  simp only
  split
  · rename_i h
    simp only [Bool.and_eq_true] at h
    exact .tail h1 (.exit _ _ h.1 (by simpa using hdead) h.2)
  · exact h1

theorem chain_gotInstall {cfg : Config} {s : State} (c : Core s) (hdead : s.tomb.dead = false) (n : Name)
    (m : Manifold) (order : List Name) (ho : IsRangeOrder (s.manifolds.set n m) order) :
    Chain id cfg s noDebt (gotInstall s n m order) noDebt ∧ (gotInstall s n m order).tomb.dead = false := by
  unfold gotInstall
  cases hn : s.manifolds.get? n with
  | some m' =>
    simp only [Option.isSome_some, if_true]
    exact ⟨.single (.neutral _ _ _ (Or.inl ⟨_, _, rfl⟩)), hdead⟩
  | none =>
    simp only [Option.isSome_none, Bool.false_eq_true, if_false]
    unfold checkAcyclic
    rcases Validate.validate_cases (inputs := inputsTable (s.manifolds.set n m)) order
      (fun k hk => by rw [inputsTable_keys] at hk; exact (ho.2 k).2 hk) with ⟨h1, h2⟩ | ⟨h1, h2⟩
    · rw [h1]
      simp only
      have hi : ((record s n m).manifolds.get? n).isSome = true := by
        show ((s.manifolds.set n m).get? n).isSome = true
        simp
      have hs : ((record s n m).cur n).stopped = true := by
        show (((s.current.set n {}).get? n).getD {}).stopped = true
        simp
      have hch := Chain.trans (.single (.record s noDebt n m hn h2 hdead (fun _ h => h)))
        (chain_requestStart (v := id) (cfg := cfg) 0 hi hs (Or.inl (Or.inr rfl)) ⟨rfl, rfl⟩)
      refine ⟨hch.clear ?_, ?_⟩
      · rintro x ⟨h | h, hne⟩
        · exact h.elim
        · exact absurd h hne
      · rw [requestStart_dead _ hi hs]; exact hdead
    · rw [h1]
      exact ⟨.single (.neutral _ _ _ (Or.inl ⟨_, _, rfl⟩)), hdead⟩

theorem tick_mapG (s : State) (gid : Nat) (f : G → G) : (s.mapG gid f).tick = s.tick.mapG gid f := by
  have hp : (s.mapG gid f).pend = s.pend := rfl
  unfold State.tick
  rw [hp]
  cases h : s.pend with
  | none => rfl
  | some k => cases k <;> rfl

theorem gotStarted_eq (cfg : Config) (s : State) (n : Name) (gid : Nat) (w : WRef) (now : Int)
    (hnw : (s.cur n).worker = none) : gotStarted cfg s n gid w now =
      if (s.cur n).stopping = true then s.killWorker w
      else if s.tick.dying = true then s.tick.killWorker w
      else bounceDependents cfg (register s.tick n gid w now) n := by
  unfold gotStarted
  simp only [hnw, Option.isSome_none, Bool.false_eq_true, if_false]

theorem chain_gotStarted {cfg : Config} {s : State} (c : Core s) (hdead : s.tomb.dead = false) (g : G)
    (hg : g ∈ s.gs) (w : WRef) (now : Int) (hpc : g.pc = .registering w) :
    Chain id cfg s noDebt (gotStarted cfg (s.mapG g.gid (fun g => { g with pc := afterOffer w })) g.name g.gid w now)
      noDebt ∧
    (gotStarted cfg (s.mapG g.gid (fun g => { g with pc := afterOffer w })) g.name g.gid w now).tomb.dead
      = false := by
  have hnw : (s.cur g.name).worker = none := by
    cases hw : (s.cur g.name).worker with
    | none => rfl
    | some w' =>
      rcases ((c.rel g hg).worker w' hw).2 with hp | ⟨e, hp⟩
      · rw [hpc] at hp; cases w' <;> simp [afterOffer] at hp
      · rw [hpc] at hp; cases hp
  rw [gotStarted_eq cfg (s.mapG g.gid (fun g => { g with pc := afterOffer w })) g.name g.gid w now hnw]
  by_cases hst : ((s.mapG g.gid (fun g => { g with pc := afterOffer w })).cur g.name).stopping = true
  · rw [if_pos hst]
    exact ⟨.single (.refuse s noDebt g hg w hpc (Or.inl hst)), by rw [killWorker_dead]; exact hdead⟩
  · rw [if_neg hst]
    have hst : (s.cur g.name).stopping = false := by simpa using hst
    have htick : (s.mapG g.gid (fun g => { g with pc := afterOffer w })).tick =
        s.tick.mapG g.gid (fun g => { g with pc := afterOffer w }) := by
      exact tick_mapG _ _ _
    rw [htick]
    have c1 : Core s.tick := chain_core (chain_tick (v := id) cfg s noDebt) c
    have hg1 : g ∈ s.tick.gs := by simpa using hg
    have hst1 : (s.tick.cur g.name).stopping = false := by simpa using hst
    by_cases hd : (s.tick.mapG g.gid (fun g => { g with pc := afterOffer w })).dying = true
    · rw [if_pos hd]
      exact ⟨.tail (chain_tick cfg s noDebt) (.refuse _ noDebt g hg1 w hpc (Or.inr hd)),
        by rw [killWorker_dead, mapG_tomb, tick_dead]; exact hdead⟩
    · rw [if_neg hd]
      have hd : s.tick.dying = false := by simpa using hd
      have m := Micro.register (v := id) (cfg := cfg) s.tick noDebt g hg1 w now hpc hd hst1 (fun _ h => h)
      have c2 := micro_core m c1
      refine ⟨?_, ?_⟩
      · refine Chain.clear (.trans (.tail (chain_tick cfg s noDebt) m) (chain_bounceDependents c2 ?_ (fun _ _ => rfl))) ?_
        · intro x hx; right; exact hx
        · rintro x ⟨h | h, hne⟩
          · exact h.elim
          · exact absurd h hne
      · rw [bounceDependents_dead c2]
        show s.tick.tomb.dead = false
        rw [tick_dead]; exact hdead

theorem reactToStop_uninstall_or (cfg : Config) (s : State) (n : Name) (stopping : Bool) (err : Option Err)
    (vals : Name → List Name) :
    (NeedsRestart stopping err ∧ reactToStop cfg s n stopping err vals = requestStart s n
      (if stopping = false ∧ errIs err .bounce = false then cfg.errorDelay else cfg.bounceDelay)) ∨
    (¬ NeedsRestart stopping err ∧ WantsUninstall stopping err ∧
      reactToStop cfg s n stopping err vals = uninstall s n vals) ∨
    (¬ NeedsRestart stopping err ∧ ¬ WantsUninstall stopping err ∧
      reactToStop cfg s n stopping err vals = s) := by
  unfold reactToStop NeedsRestart WantsUninstall
  cases stopping with
  | true => left; exact ⟨Or.inl rfl, by simp⟩
  | false =>
    cases err with
    | none => right; right; simp [errIs]
    | some e =>
      cases h1 : errIs (some e) .aborted
      · cases h2 : errIs (some e) .missing
        · cases h3 : errIs (some e) .bounce
          · cases h4 : errIs (some e) .uninstall
            · left; exact ⟨Or.inr ⟨by simp, rfl, rfl, Or.inr rfl⟩, by simp [h1, h2, h3, h4]⟩
            · right; left; simp
          · left; exact ⟨Or.inr ⟨by simp, rfl, rfl, Or.inl rfl⟩, by simp [h1, h2, h3]⟩
        · right; right; simp
      · right; right; simp

theorem stopState_facts (cfg : Config) {s : State} (g : G) (raw : Option Err) (now : Int)
    (hns : (s.cur g.name).stopped = false) :
    (stopState cfg s g raw now).manifolds = s.manifolds ∧
    (stopState cfg s g raw now).dependents = s.dependents ∧
    (stopState cfg s g raw now).tomb.dead = s.tomb.dead ∧
    (stopState cfg s g raw now).gs = s.gs.filter (fun x => x.gid != g.gid) ∧
    (∀ m, (stopState cfg s g raw now).cur m = if m = g.name then resetTo cfg s g raw now else s.cur m) := by
  rw [stopState_eq cfg s g raw now hns]
  simp only
  split
  · refine ⟨rfl, rfl, ?_, rfl, fun m => ?_⟩
    · exact Tomb.kill_dead _ _
    · rw [killNil_cur]; exact setCur_cur _ _ _ _
  · exact ⟨rfl, rfl, rfl, rfl, fun m => setCur_cur _ _ _ _⟩

theorem stopState_hist (cfg : Config) {s : State} (g : G) (raw : Option Err) (now : Int)
    (hns : (s.cur g.name).stopped = false) :
    (stopState cfg s g raw now).tick.dying = true ∨ (stopState cfg s g raw now).tick.hist =
      .ended g.name g.gid now raw (applyFilter cfg (s.man g.name) raw) (s.cur g.name).stopping
        (s.cur g.name).worker :: s.hist := by
  rw [stopState_eq cfg s g raw now hns]
  simp only
  split
  · left; exact tick_dying_mono _ (killNil_dying _)
  · rcases tick_cases ((({ s with gs := s.gs.filter (fun x => x.gid != g.gid) }.setCur g.name
          (resetTo cfg s g raw now)).log
        (.ended g.name g.gid now raw (applyFilter cfg (s.man g.name) raw) (s.cur g.name).stopping
          (s.cur g.name).worker))) with h | ⟨p, h⟩ | h
    · right; rw [h]; rfl
    · right; rw [h]; rfl
    · left; rw [h]; exact killNil_dying _

theorem Core.not_self_dep {s : State} (c : Core s) (n : Name) : ¬ Dep s n n := by
  rintro ⟨m, hm, hn⟩
  exact c.acyclic ⟨n, .single ⟨m.inputs, by rw [inputsTable_get, hm]; rfl, hn⟩⟩

theorem chain_gotStopped {cfg : Config} {s : State} (c : Core s) (hdead : s.tomb.dead = false) (g : G)
    (hg : g ∈ s.gs) (raw : Option Err) (now : Int) (hpc : g.pc = .sendStopped raw) (vals : Name → List Name)
    (hv : validVals s.dependents g.name vals = true) :
    Chain id cfg s noDebt (gotStopped cfg { s with gs := s.gs.filter (fun x => x.gid != g.gid) } g.name g.gid raw now
      vals) noDebt ∧
    (gotStopped cfg { s with gs := s.gs.filter (fun x => x.gid != g.gid) } g.name g.gid raw now vals).tomb.dead
      = false := by
  have hns := (c.rel g hg).notStopped
  have m := Micro.stop (v := id) (cfg := cfg) s noDebt g hg raw now hpc hdead (fun _ h => h)
  have c1 := micro_core m c
  obtain ⟨f1, f2, f3, f4, f5⟩ := stopState_facts cfg g raw now hns
  have f6 := stopState_hist cfg g raw now hns
  have heq : gotStopped cfg { s with gs := s.gs.filter (fun x => x.gid != g.gid) } g.name g.gid raw now vals =
      if (stopState cfg s g raw now).tick.dying then (stopState cfg s g raw now).tick
      else if (s.cur g.name).worker.isSome then
          bounceDependents cfg (reactToStop cfg (stopState cfg s g raw now).tick g.name (s.cur g.name).stopping
            (applyFilter cfg (s.man g.name) raw) vals) g.name
        else reactToStop cfg (stopState cfg s g raw now).tick g.name (s.cur g.name).stopping
            (applyFilter cfg (s.man g.name) raw) vals := rfl
  rw [heq]
  generalize stopState cfg s g raw now = s1 at *
  have ht := chain_tick (v := id) cfg s1
  have c2 : Core s1.tick := chain_core (ht noDebt) c1
  have hdead2 : s1.tick.tomb.dead = false := by rw [tick_dead, f3]; exact hdead
  split
  · rename_i hd
    exact ⟨Chain.clear (.trans (.single m) (ht _)) (fun _ _ => Or.inl hd), hdead2⟩
  rename_i hd
  have hi : (s1.tick.manifolds.get? g.name).isSome = true := by
    rw [tick_manifolds, f1]; exact c.g_installed hg
  have hs : (s1.tick.cur g.name).stopped = true := by
    rw [tick_cur, f5, if_pos rfl]; rfl
  have ht0 : (s1.tick.cur g.name).startedTime = 0 := by
    rw [tick_cur, f5, if_pos rfl]; rfl
  have hv2 : validVals s1.tick.dependents g.name vals = true := by rw [tick_dependents, f2]; exact hv
  generalize applyFilter cfg (s.man g.name) raw = err at *
  have hdep2 : ∀ x, Dep s1.tick g.name x ↔ Dep s g.name x := by
    intro x; unfold Dep; rw [tick_manifolds, f1]
  have f6' := f6.resolve_left hd
  have hbase : ∀ x, Dep s g.name x → LaunchBase cfg s1.tick.hist x cfg.bounceDelay := by
    intro x hx
    rw [f6']
    show cfg.bounceDelay = if _ then _ else _
    rw [if_neg]
    rintro ⟨rfl, _⟩
    exact c.not_self_dep _ hx
  -- the reaction pays the manifold's own debt
  have hreact : Chain id cfg s1.tick (fun x => noDebt x ∨ ((s.cur g.name).worker ≠ none ∧ Dep s g.name x) ∨
        (x = g.name ∧ (NeedsRestart (s.cur g.name).stopping err ∨ WantsUninstall (s.cur g.name).stopping err)))
      (reactToStop cfg s1.tick g.name (s.cur g.name).stopping err vals)
      (fun x => (s.cur g.name).worker ≠ none ∧ Dep s g.name x) ∧
      (reactToStop cfg s1.tick g.name (s.cur g.name).stopping err vals).tomb.dead = false ∧
      (∀ x, Dep s g.name x → LaunchBase cfg (reactToStop cfg s1.tick g.name (s.cur g.name).stopping err vals).hist x
        cfg.bounceDelay) ∧
      ∀ x, Dep (reactToStop cfg s1.tick g.name (s.cur g.name).stopping err vals) g.name x ↔ Dep s g.name x := by
    rcases reactToStop_uninstall_or cfg s1.tick g.name (s.cur g.name).stopping err vals with
      ⟨hnr, e⟩ | ⟨hnr, hwu, e⟩ | ⟨hnr, hnu, e⟩
    · rw [e]
      refine ⟨.tail (chain_requestStart _ hi hs (Or.inl (Or.inr (Or.inr ⟨rfl, Or.inl hnr⟩))) ?_) (.discharge _ _ _ ?_ ?_),
        ?_, fun x hx => requestStart_base (hbase x hx), ?_⟩
      · rw [f6']; simp [LaunchBase]
      · rintro x ⟨h1, h2⟩
        refine ⟨Or.inr (Or.inl ⟨h1, h2⟩), ?_⟩
        rintro rfl; exact c.not_self_dep _ h2
      · rintro x ⟨h | h | h, hne⟩
        · exact h.elim
        · exact Or.inl h
        · exact absurd h.1 hne
      · rw [requestStart_dead _ hi hs]; exact hdead2
      · intro x; rw [← hdep2]; unfold Dep; rw [requestStart_manifolds]
    · rw [e]
      refine ⟨.tail (.single (.uninstall _ _ g.name vals hs hi hv2 hdead2 ht0 ?_)) (.discharge _ _ _
          (fun x h => ⟨Or.inr (Or.inl h), by rintro rfl; exact c.not_self_dep _ h.2⟩) ?_),
        hdead2, fun _ _ => rfl, ?_⟩
      · rw [f6']
        have h0 : (s.cur g.name).stopping = false := hwu.1
        rw [h0] at hwu ⊢
        exact ⟨_, _, _, _, _, _, rfl, hwu⟩
      · rintro x ⟨h | h | h, hne⟩
        · exact h.elim
        · exact Or.inl h
        · exact absurd h.1 hne
      intro x; rw [← hdep2]; unfold Dep
      show (∃ m, (s1.tick.manifolds.erase g.name).get? x = some m ∧ _) ↔ _
      rw [AMap.get?_erase]
      by_cases hx : x = g.name
      · subst hx
        simp only [if_true, reduceCtorEq, false_and, exists_false, false_iff]
        intro h
        exact c.not_self_dep g.name ((hdep2 g.name).1 h)
      · simp [hx]
    · rw [e]
      refine ⟨.single (.discharge _ _ _ (fun x h => Or.inr (Or.inl h)) ?_), hdead2, hbase, hdep2⟩
      rintro x (h | h | h)
      · exact h.elim
      · exact Or.inl h
      · exact absurd h.2 (not_or.2 ⟨hnr, hnu⟩)
  obtain ⟨r1, r2, r4, r3⟩ := hreact
  have hch := Chain.trans (Chain.trans (.single m) (ht _)) r1
  have c3 := chain_core hch c
  generalize reactToStop cfg s1.tick g.name (s.cur g.name).stopping err vals = s2 at *
  split
  · rename_i hw
    refine ⟨Chain.clear (.trans hch (chain_bounceDependents c3 ?_ (fun x hx => r4 x ((r3 x).1 hx)))) ?_, ?_⟩
    · intro x hx
      refine ⟨?_, (r3 x).1 hx⟩
      intro h0; rw [h0] at hw; cases hw
    · rintro x ⟨⟨_, h1⟩, h2⟩; exact absurd ((r3 x).2 h1) h2
    · rw [bounceDependents_dead c3]; exact r2
  · rename_i hw
    refine ⟨Chain.clear hch ?_, r2⟩
    rintro x ⟨h1, _⟩
    exfalso
    cases h0 : (s.cur g.name).worker with
    | none => exact h1 h0
    | some w => rw [h0] at hw; simp at hw

theorem requestStop_oneShot (s : State) (b : Bool) (n : Name) :
    requestStop { s with oneShot := b } n = { requestStop s n with oneShot := b } := by
  have h0 : State.cur { s with oneShot := b } n = s.cur n := rfl
  have h1 : markStopping { s with oneShot := b } n = { markStopping s n with oneShot := b } := by
    unfold markStopping
    simp only [h0]
    cases (s.cur n).cancel <;> rfl
  unfold requestStop
  simp only [h0, h1]
  split
  · rfl
  · cases (s.cur n).worker with
    | none => rfl
    | some w => cases w <;> rfl

theorem foldl_requestStop_oneShot (b : Bool) : ∀ (order : List Name) (s : State),
    order.foldl requestStop { s with oneShot := b } = { order.foldl requestStop s with oneShot := b } := by
  intro order
  induction order with
  | nil => intro s; rfl
  | cons n order ih => intro s; rw [List.foldl_cons, List.foldl_cons, requestStop_oneShot, ih]

theorem foldl_requestStop_facts : ∀ (order : List Name) (s : State),
    (∀ m, ((order.foldl requestStop s).cur m).stopped = (s.cur m).stopped) ∧
    (∀ m, (s.cur m).stopping = true → ((order.foldl requestStop s).cur m).stopping = true) ∧
    (∀ m ∈ order, (s.cur m).stopped = true ∨ ((order.foldl requestStop s).cur m).stopping = true) ∧
    (order.foldl requestStop s).tomb.dead = s.tomb.dead ∧
    (s.dying = true → (order.foldl requestStop s).dying = true) := by
  intro order
  induction order with
  | nil => intro s; simp
  | cons n order ih =>
    intro s
    rw [List.foldl_cons]
    obtain ⟨h1, h2, h3, h4, h5⟩ := ih (requestStop s n)
    refine ⟨fun m => by rw [h1, requestStop_stopped], fun m hm => h2 m (requestStop_stopping_mono s n m hm), ?_,
      by rw [h4, requestStop_dead], fun h => h5 (requestStop_dying_mono n h)⟩
    intro m hm
    rcases List.mem_cons.1 hm with rfl | hm
    · rcases requestStop_done s m with h | h
      · left; rw [← requestStop_stopped s m m]; exact h
      · right; exact h2 m h
    · have := h3 m hm
      rwa [requestStop_stopped] at this

theorem chain_foldl_requestStop (cfg : Config) (D : Debt) : ∀ (order : List Name) (s : State),
    s.dying = true → Chain v cfg s D (order.foldl requestStop s) D := by
  intro order
  induction order with
  | nil => intro s _; exact .refl _ _
  | cons n order ih =>
    intro s hd
    rw [List.foldl_cons]
    exact (chain_requestStop cfg s D n (Or.inr (Or.inr hd))).trans (ih _ (requestStop_dying_mono n hd))

theorem chain_dyingArm {cfg : Config} {s : State} (hd : s.dying = true) (hdead : s.tomb.dead = false)
    (order : List Name) (ho : IsRangeOrder s.current order) :
    Chain id cfg s noDebt (dyingArm s order) noDebt ∧ (dyingArm s order).tomb.dead = false := by
  unfold dyingArm
  rw [foldl_requestStop_oneShot]
  obtain ⟨h1, h2, h3, h4, h5⟩ := foldl_requestStop_facts order s
  refine ⟨.tail (chain_foldl_requestStop cfg noDebt order s hd) (.oneShot _ _ (h5 hd) ?_), by rw [h4]; exact hdead⟩
  intro n
  rw [h1]
  cases hc : s.current.get? n with
  | none => left; unfold State.cur; rw [hc]; rfl
  | some i => exact h3 n ((ho.2 n).2 (AMap.mem_keys_of_get? hc))

theorem liveReport_eq {s : State} (c : Core s.tick) : liveReport s = s.tick.log (reportEv s.tick) := by
  unfold liveReport reportEv
  by_cases hd : s.tick.dying = true
  · simp only [hd, if_true]
    rcases c.nilReason with h | h
    · simp [State.dying, Tomb.dying, h] at hd
    · simp only [h]
  · have hd : s.tick.dying = false := by simpa using hd
    simp only [hd, Bool.false_eq_true, if_false]

theorem chain_liveReport {cfg : Config} {s : State} (c : Core s) :
    Chain v cfg s noDebt (liveReport s) noDebt ∧ (liveReport s).tomb.dead = s.tomb.dead := by
  rw [liveReport_eq (chain_core (chain_tick (v := v) cfg s noDebt) c)]
  exact ⟨.tail (chain_tick cfg s noDebt) (.neutral _ _ _ (Or.inr rfl)), by simp⟩

/-- The steps of the other goroutines and of the environment: everything but the arms of the loop. -/
def Op.isEnv : Op → Bool
  | .armDying _ _ | .armReport _ | .armInstall _ _ _ _ | .armStarted _ _ _ | .armStopped _ _ _ _ => false
  | _ => true

/-- A step of another goroutine or of the environment is one micro step, whatever the loop still has to do. -/
theorem env_micro {v : List Ev → List Ev} {cfg : Config} {s s' : State} {op : Op} (he : op.isEnv = true)
    (h : step cfg s op = some s') (D : Debt) : Micro v cfg s D s' D := by
  cases op with
  | armDying => cases he
  | armReport => cases he
  | armInstall => cases he
  | armStarted => cases he
  | armStopped => cases he
  | kill => simp only [step, Option.some.injEq] at h; subst h; exact .kill _ _
  | installRefused n =>
    simp only [step] at h
    split at h
    · simp only [Option.some.injEq] at h; subst h; exact .neutral _ _ _ (Or.inl ⟨_, _, rfl⟩)
    · cases h
  | gAbort gid =>
    simp only [step] at h
    split at h
    · rename_i g hget
      obtain ⟨hg, hgid⟩ := getG_some s gid hget
      subst hgid
      split at h
      · rename_i hc
        simp only [Option.some.injEq] at h; subst h
        exact (.gAbort s _ g hg hc.1 hc.2)
      · cases h
    · cases h
  | gTimer gid fuzz =>
    simp only [step] at h
    split at h
    · rename_i g hget
      obtain ⟨hg, hgid⟩ := getG_some s gid hget
      subst hgid
      split at h
      · rename_i hc
        simp only [Option.some.injEq] at h; subst h
        exact (.gTimer s _ g hg hc.1 fuzz hc.2)
      · cases h
    · cases h
  | gGet gid res out =>
    simp only [step] at h
    split at h
    · rename_i g hget
      obtain ⟨hg, hgid⟩ := getG_some s gid hget
      subst hgid
      split at h
      · cases h
      · rename_i hc
        simp only [Option.some.injEq] at h; subst h
        exact (.gGet s _ g hg hc res out)
    · cases h
  | gStartOk gid w =>
    simp only [step] at h
    split at h
    · rename_i g hget
      obtain ⟨hg, hgid⟩ := getG_some s gid hget
      subst hgid
      split at h
      · rename_i hc
        simp only [Option.some.injEq] at h; subst h
        exact (.gStartOk s _ g hg hc w)
      · cases h
    · cases h
  | gStartErr gid e =>
    simp only [step] at h
    split at h
    · rename_i g hget
      obtain ⟨hg, hgid⟩ := getG_some s gid hget
      subst hgid
      split at h
      · rename_i hc
        simp only [Option.some.injEq] at h; subst h
        exact (.gStartErr s _ g hg hc e)
      · cases h
    · cases h
  | gRegisterDying gid =>
    simp only [step] at h
    split at h
    · rename_i g hget
      obtain ⟨hg, hgid⟩ := getG_some s gid hget
      subst hgid
      split at h
      · rename_i w hpc
        split at h
        · rename_i hd
          simp only [Option.some.injEq] at h; subst h
          exact (.refuse s _ g hg w hpc (Or.inr hd))
        · cases h
      · cases h
    · cases h
  | gSelfDone gid =>
    simp only [step] at h
    split at h
    · rename_i g hget
      obtain ⟨hg, hgid⟩ := getG_some s gid hget
      subst hgid
      split at h
      · rename_i hc
        simp only [Option.some.injEq] at h; subst h
        exact (.gSelfDone s _ g hg hc.1 hc.2)
      · cases h
    · cases h
  | gWaitRet gid =>
    simp only [step] at h
    split at h
    · rename_i g hget
      obtain ⟨hg, hgid⟩ := getG_some s gid hget
      subst hgid
      split at h
      · rename_i w hpc
        split at h
        · rename_i e he
          simp only [Option.some.injEq] at h; subst h
          exact (.gWaitRet s _ g hg w hpc e he)
        · cases h
      · cases h
    · cases h
  | finish w e =>
    simp only [step] at h
    split at h
    · rename_i hc
      simp only [Option.some.injEq] at h; subst h
      exact (.finish s _ w e (by simpa using hc))
    · cases h

/-- Every step is a sequence of micro steps, without debt at either end. -/
theorem step_chain {cfg : Config} {s s' : State} {op : Op} (c : Core s) (h : step cfg s op = some s') :
    Chain id cfg s noDebt s' noDebt := by
  have setp : ∀ p, Chain id cfg s noDebt { s with pend := p } noDebt := fun p => .single (.setPend s noDebt p)
  have cp : ∀ p, Core { s with pend := p } := fun p => c.congr rfl rfl rfl rfl rfl rfl
  cases op with
  | kill => exact .single (env_micro rfl h _)
  | armDying order pend =>
    simp only [step] at h
    split at h
    · rename_i hc
      simp only [Option.some.injEq] at h; subst h
      obtain ⟨h1, h2⟩ := chain_dyingArm (cfg := cfg) (s := { s with pend := pend }) hc.2.2.1 hc.1 order
        ((isRangeOrder_iff _ _).1 hc.2.2.2)
      exact ((setp pend).trans h1).trans (chain_endArm h2)
    · cases h
  | armReport pend =>
    simp only [step] at h
    split at h
    · rename_i hc
      simp only [Option.some.injEq] at h; subst h
      obtain ⟨h1, h2⟩ := chain_liveReport (cfg := cfg) (s := { s with pend := pend }) (cp pend)
      exact ((setp pend).trans h1).trans (chain_endArm (by rw [h2]; exact hc))
    · cases h
  | armInstall n m order pend =>
    simp only [step] at h
    split at h
    · rename_i hc
      simp only [Option.some.injEq] at h; subst h
      obtain ⟨h1, h2⟩ := chain_gotInstall (cfg := cfg) (s := { s with pend := pend }) (cp pend) hc.1 n m order
        ((isRangeOrder_iff _ _).1 hc.2)
      exact ((setp pend).trans h1).trans (chain_endArm h2)
    · cases h
  | installRefused n => exact .single (env_micro rfl h _)
  | armStarted gid now pend =>
    simp only [step] at h
    split at h
    · cases h
    rename_i hdead
    split at h
    · cases h
    rename_i g hget
    obtain ⟨hg, hgid⟩ := getG_some s gid hget
    subst hgid
    split at h
    · rename_i w hpc
      simp only [Option.some.injEq] at h; subst h
      obtain ⟨h1, h2⟩ := chain_gotStarted (cfg := cfg) (s := { s with pend := pend }) (cp pend)
        (by simpa using hdead) g hg w now hpc
      exact ((setp pend).trans h1).trans (chain_endArm h2)
    · cases h
  | armStopped gid now vals pend =>
    simp only [step] at h
    split at h
    · cases h
    rename_i hdv
    split at h
    · cases h
    rename_i g hget
    obtain ⟨hg, hgid⟩ := getG_some s gid hget
    subst hgid
    rw [hget] at hdv
    simp only [Option.map_some, Option.getD_some, not_or, Bool.not_eq_true, Bool.not_eq_false] at hdv
    split at h
    · rename_i e hpc
      simp only [Option.some.injEq] at h; subst h
      obtain ⟨h1, h2⟩ := chain_gotStopped (cfg := cfg) (s := { s with pend := pend }) (cp pend)
        hdv.1 g hg e now hpc vals hdv.2
      exact ((setp pend).trans h1).trans (chain_endArm h2)
    · cases h
  | gAbort => exact .single (env_micro rfl h _)
  | gTimer => exact .single (env_micro rfl h _)
  | gGet => exact .single (env_micro rfl h _)
  | gStartOk => exact .single (env_micro rfl h _)
  | gStartErr => exact .single (env_micro rfl h _)
  | gRegisterDying => exact .single (env_micro rfl h _)
  | gSelfDone => exact .single (env_micro rfl h _)
  | gWaitRet => exact .single (env_micro rfl h _)
  | finish => exact .single (env_micro rfl h _)

/-- The states of an execution, with the debt at that moment. -/
abbrev Ex (v : List Ev → List Ev) (cfg : Config) (s : State) (D : Debt) : Prop := Chain v cfg init noDebt s D

/-- The induction principle used by the engine theorems: a property of states and debts that holds initially and is kept
by every micro step from a state satisfying the core invariant holds throughout every execution. -/
theorem ex_induct {v : List Ev → List Ev} {cfg : Config} {P : State → Debt → Prop} (h0 : P init noDebt)
    (hm : ∀ s D s' D', Core s → P s D → Micro v cfg s D s' D' → P s' D') {s : State} {D : Debt} (h : Ex v cfg s D) :
    Core s ∧ P s D := by
  have key : ∀ {s D s' D'}, Chain v cfg s D s' D' → Core s → P s D → P s' D' := by
    intro s D s' D' hch cc hpp
    induction hch with
    | refl => exact hpp
    | tail hch' m ih => exact hm _ _ _ _ (chain_core hch' cc) ih m
  exact ⟨chain_core h Core.init, key h Core.init h0⟩

/-- Every reachable state is the state of an execution with atomic arms, without debt. -/
theorem reach_ex {cfg : Config} {s : State} (hr : Reach cfg s) : Ex id cfg s noDebt := by
  induction hr with
  | init => exact .refl _ _
  | step op _ hstep ih => exact ih.trans (step_chain (chain_core ih Core.init) hstep)

theorem reach_induct {cfg : Config} {P : State → Debt → Prop} (h0 : P init noDebt)
    (hm : ∀ s D s' D', Core s → P s D → Micro id cfg s D s' D' → P s' D') {s : State} (hr : Reach cfg s) :
    Core s ∧ P s noDebt := ex_induct h0 hm (reach_ex hr)

theorem reach_core {cfg : Config} {s : State} (hr : Reach cfg s) : Core s := chain_core (reach_ex hr) Core.init

end Verif.Engine
