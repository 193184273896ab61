import Verif.Engine.HistInv

/-!
Which events a micro step records, and what is known about the state when it does.
-/

namespace Verif.Engine
open State Verif.Spec

/-- The snapshot that `launch` takes. -/
def launchSnap (s : State) (n : Name) : Snapshot :=
  takeSnapshot (s.setCur n { s.cur n with
    starting := true, startAttempts := (s.cur n).startAttempts + 1, err := none, cancel := some s.nextG })
    (s.man n).inputs

/-- The events other than `kill`, `killW` and `cancelled` that a micro step may record in state `s`. -/
inductive Emit (v : List Ev → List Ev) (cfg : Config) (s : State) (D : Debt) : Ev → Prop
  | begin (n : Name) (delay : Int) (hd : s.dying = false) (hi : (s.manifolds.get? n).isSome = true)
      (hs : (s.cur n).stopped = true) (hD : D n) (hb : LaunchBase cfg (v s.hist) n delay) :
      Emit v cfg s D (.begin n s.nextG delay (s.cur n).recentErrors (launchSnap s n))
  | installed (n : Name) (m : Manifold) (hn : s.manifolds.get? n = none)
      (ha : ¬ HasCycle (inputsTable (s.manifolds.set n m))) (hdead : s.tomb.dead = false) :
      Emit v cfg s D (.installed n m)
  | installFailed (n : Name) (e : Err) : Emit v cfg s D (.installFailed n e)
  | report : Emit v cfg s D (reportEv s)
  | registered (g : G) (hg : g ∈ s.gs) (w : WRef) (now : Int)
      (hpc : g.pc = .registering w) (hd : s.dying = false) (hst : (s.cur g.name).stopping = false) :
      Emit v cfg s D (.registered g.name g.gid w now)
  | ended (g : G) (hg : g ∈ s.gs) (raw : Option Err) (now : Int)
      (hpc : g.pc = .sendStopped raw) (hdead : s.tomb.dead = false) (hD : ∀ x, ¬ D x) :
      Emit v cfg s D (.ended g.name g.gid now raw (applyFilter cfg (s.man g.name) raw) (s.cur g.name).stopping
        (s.cur g.name).worker)
  | uninstalled (n : Name) (hs : (s.cur n).stopped = true) (hi : (s.manifolds.get? n).isSome = true)
      (hdead : s.tomb.dead = false)
      (hev : ∃ gid now raw f lost rest, v s.hist = .ended n gid now raw f false lost :: rest ∧
        WantsUninstall false f) : Emit v cfg s D (.uninstalled n)
  | startCall (g : G) (hg : g ∈ s.gs) (hpc : g.pc = .delaying) (fuzz : Rat) (hf : 0 ≤ fuzz ∧ fuzz < 1) :
      Emit v cfg s D (.startCall g.name g.gid (cfg.delayFn g.base g.recent fuzz))
  | get (g : G) (hg : g ∈ s.gs) (hpc : g.pc ≠ .delaying) (res : Name) (out : Option Nat) :
      Emit v cfg s D (.get g.gid res out (getResult cfg g res out))
  | startOk (g : G) (hg : g ∈ s.gs) (hpc : g.pc = .starting) (w : WRef) :
      Emit v cfg s D (.startOk g.name g.gid w)
  | startErr (g : G) (hg : g ∈ s.gs) (hpc : g.pc = .starting) (e : Err) :
      Emit v cfg s D (.startErr g.name g.gid e)
  | finished (w : Nat) (e : Option Err) (h : s.finished.get? w = none) : Emit v cfg s D (.finished w e)
  | exit (hd : s.dying = true) (hdead : s.tomb.dead = false) (ha : allOthersStopped s = true) :
      Emit v cfg s D .exit

/-- Events about which nothing is claimed in general. -/
def Quiet (e : Ev) : Prop := e = .kill ∨ (∃ w, e = .killW w) ∨ (∃ g, e = .cancelled g)

/-- What a micro step adds to the history: nothing, only quiet events, or one event followed by quiet ones. -/
theorem micro_hist {cfg s D s' D'} (m : Micro v cfg s D s' D') (c : Core s) :
    ∃ q, (∀ e ∈ q, Quiet e) ∧ (s'.hist = q ++ s.hist ∨ ∃ e, Emit v cfg s D e ∧ s'.hist = q ++ e :: s.hist) := by
  have hkw : ∀ (s0 : State) (w : WRef), ∃ q, (∀ e ∈ q, Quiet e) ∧ (s0.killWorker w).hist = q ++ s0.hist := by
    intro s0 w
    cases w with
    | self => exact ⟨[.kill, .killW .self], by simp [Quiet], rfl⟩
    | obj k => exact ⟨[.killW (.obj k)], by simp [Quiet], rfl⟩
  cases m with
  | setPend p => exact ⟨[], by simp, Or.inl rfl⟩
  | kill => exact ⟨[.kill], by simp [Quiet], Or.inl rfl⟩
  | discharge => exact ⟨[], by simp, Or.inl rfl⟩
  | launch n delay hd hi hs hD hb => exact ⟨[], by simp, Or.inr ⟨_, .begin n delay hd hi hs hD hb, rfl⟩⟩
  | reqStop n hs hst =>
    obtain ⟨g, hg, hgn, h⟩ := requestStop_form c hs hst
    rcases h with ⟨_, e⟩ | ⟨k, _, e⟩ | ⟨_, e⟩ <;> rw [e]
    · exact ⟨[.cancelled g.gid], by simp [Quiet], Or.inl rfl⟩
    · exact ⟨[.killW (.obj k), .cancelled g.gid], by simp [Quiet], Or.inl rfl⟩
    · exact ⟨[.kill, .killW .self, .cancelled g.gid], by simp [Quiet], Or.inl rfl⟩
  | record n m hn ha hdead hD => exact ⟨[], by simp, Or.inr ⟨_, .installed n m hn ha hdead, rfl⟩⟩
  | neutral e he =>
    rcases he with ⟨n, x, rfl⟩ | rfl
    · exact ⟨[], by simp, Or.inr ⟨_, .installFailed n x, rfl⟩⟩
    · exact ⟨[], by simp, Or.inr ⟨_, .report, rfl⟩⟩
  | register g hg w now hpc hd hst =>
    exact ⟨[], by simp, Or.inr ⟨_, .registered g hg w now hpc hd hst, rfl⟩⟩
  | refuse g hg w hpc h =>
    obtain ⟨q, hq, e⟩ := hkw (s.mapG g.gid (fun g => { g with pc := afterOffer w })) w
    exact ⟨q, hq, Or.inl e⟩
  | stop g hg raw now hpc hdead hD =>
    rw [stopState_eq cfg s g raw now (c.rel g hg).notStopped]
    simp only
    split
    · exact ⟨[.kill], by simp [Quiet], Or.inr ⟨_, .ended g hg raw now hpc hdead hD, rfl⟩⟩
    · exact ⟨[], by simp, Or.inr ⟨_, .ended g hg raw now hpc hdead hD, rfl⟩⟩
  | uninstall n vals hs hi hv hdead ht hev =>
    exact ⟨[], by simp, Or.inr ⟨_, .uninstalled n hs hi hdead hev, rfl⟩⟩
  | gAbort g hg hpc h => exact ⟨[], by simp, Or.inl rfl⟩
  | gTimer g hg hpc fuzz hf => exact ⟨[], by simp, Or.inr ⟨_, .startCall g hg hpc fuzz hf, rfl⟩⟩
  | gGet g hg hpc res out => exact ⟨[], by simp, Or.inr ⟨_, .get g hg hpc res out, rfl⟩⟩
  | gStartOk g hg hpc w => exact ⟨[], by simp, Or.inr ⟨_, .startOk g hg hpc w, rfl⟩⟩
  | gStartErr g hg hpc e => exact ⟨[], by simp, Or.inr ⟨_, .startErr g hg hpc e, rfl⟩⟩
  | gSelfDone g hg hpc hd => exact ⟨[], by simp, Or.inl rfl⟩
  | gWaitRet g hg w hpc e he => exact ⟨[], by simp, Or.inl rfl⟩
  | finish w e h => exact ⟨[], by simp, Or.inr ⟨_, .finished w e h, rfl⟩⟩
  | oneShot hd h => exact ⟨[], by simp, Or.inl rfl⟩
  | exit hd hdead ha => exact ⟨[], by simp, Or.inr ⟨_, .exit hd hdead ha, rfl⟩⟩


theorem atEvery_append_quiet {P : Ev → List Ev → Prop} (hq : ∀ e h, Quiet e → P e h) :
    ∀ (q h : List Ev), (∀ e ∈ q, Quiet e) → AtEvery P h → AtEvery P (q ++ h) := by
  intro q h
  induction q with
  | nil => intro _ ha; exact ha
  | cons e q ih =>
    intro hqs ha
    exact ⟨hq _ _ (hqs e (by simp)), ih (fun x hx => hqs x (by simp [hx])) ha⟩

/-- To prove something about every event of every history, look at each event when it is recorded; `I` is any
further invariant of micro steps. -/
theorem ex_atEvery' {v : List Ev → List Ev} {cfg : Config} {P : Ev → List Ev → Prop} {I : State → Debt → Prop}
    (hI0 : I init noDebt)
    (hIm : ∀ s D s' D', Core s → HInv cfg s → I s D → Micro v cfg s D s' D' → I s' D')
    (hq : ∀ e h, Quiet e → P e h)
    (hP : ∀ s D e, Core s → HInv cfg s → I s D → Emit v cfg s D e → P e s.hist) {s : State} {D : Debt}
    (h : Ex v cfg s D) : AtEvery P s.hist := by
  refine (ex_induct2 (P := fun s D => I s D ∧ AtEvery P s.hist) ⟨hI0, trivial⟩ ?_ h).2
  intro s D s' D' c i hp m
  refine ⟨hIm s D s' D' c i hp.1 m, ?_⟩
  obtain ⟨q, hqs, h | ⟨e, he, h⟩⟩ := micro_hist m c <;> rw [h]
  · exact atEvery_append_quiet hq q _ hqs hp.2
  · exact atEvery_append_quiet hq q _ hqs ⟨hP s D e c i hp.1 he, hp.2⟩

theorem ex_atEvery0 {v : List Ev → List Ev} {cfg : Config} {P : Ev → List Ev → Prop} (hq : ∀ e h, Quiet e → P e h)
    (hP : ∀ s D e, Core s → HInv cfg s → Emit v cfg s D e → P e s.hist) {s : State} {D : Debt} (h : Ex v cfg s D) :
    AtEvery P s.hist :=
  ex_atEvery' (I := fun _ _ => True) trivial (fun _ _ _ _ _ _ _ _ => trivial) hq
    (fun s D e c i _ he => hP s D e c i he) h

end Verif.Engine
