import Verif.Props.EngineHist

/-!
# Engine properties that speak about one step from any reachable state

`step cfg s op = some s'` is one step; its new events are the `delta` with `s'.hist = delta ++ s.hist`.
-/

namespace Verif.Props
open Verif.Spec Verif.Engine

variable {cfg : Config} {s s' : State}

/-! ## C34: a change reaches every dependent -/

/-- What holds after every micro step: each dependent of each changed manifold is still to be handled, or has been
started or told to stop. -/
def Reached (s0 : State) (s : State) (D : Debt) : Prop := ∃ delta, s.hist = delta ++ s0.hist ∧
  ∀ i x e, e ∈ delta → changes i e = true → Dep s i x → D x ∨ s.dying = true ∨
    (∃ g b r sn, .begin x g b r sn ∈ delta) ∨ (∃ g, openH s0.hist x = some g ∧ .cancelled g ∈ s.hist)

theorem Reached.keep {s0 s t : State} {D D' : Debt} (r : Reached s0 s D) {q : List Ev} (hh : t.hist = q ++ s.hist)
    (hdep : ∀ i x, Dep t i x → Dep s i x ∨ D' x) (hd : s.dying = true → t.dying = true)
    (hDD : ∀ x, D x → D' x ∨ t.dying = true ∨ (∃ g b r sn, .begin x g b r sn ∈ q) ∨
      (∃ g, openH s.hist x = some g ∧ .cancelled g ∈ t.hist))
    (hq : ∀ e ∈ q, ∀ i, changes i e = true → ∀ x, Dep t i x → D' x) : Reached s0 t D' := by
  obtain ⟨delta, hdl, hr⟩ := r
  refine ⟨q ++ delta, by rw [hh, hdl, List.append_assoc], ?_⟩
  intro i x e he hc hx
  rcases List.mem_append.1 he with he | he
  · exact Or.inl (hq e he i hc x hx)
  · rcases hdep i x hx with hx | hx
    · rcases hr i x e he hc hx with h | h | ⟨g, b, r, sn, h⟩ | ⟨g, h1, h2⟩
      · rcases hDD x h with h | h | ⟨g, b, r, sn, h⟩ | ⟨g, h1, h2⟩
        · exact Or.inl h
        · exact Or.inr (Or.inl h)
        · exact Or.inr (Or.inr (Or.inl ⟨g, b, r, sn, by simp [h]⟩))
        · rw [hdl] at h1
          rcases openH_append h1 with ⟨b, r, sn, h⟩ | h
          · exact Or.inr (Or.inr (Or.inl ⟨g, b, r, sn, by simp [h]⟩))
          · exact Or.inr (Or.inr (Or.inr ⟨g, h, h2⟩))
      · exact Or.inr (Or.inl (hd h))
      · exact Or.inr (Or.inr (Or.inl ⟨g, b, r, sn, by simp [h]⟩))
      · exact Or.inr (Or.inr (Or.inr ⟨g, h1, by rw [hh]; simp [h2]⟩))
    · exact Or.inl hx

theorem micro_reached {s0 t : State} {D D' : Debt} (m : Micro v cfg s D t D') (c : Core s) (i : HInv cfg s)
    (r : Reached s0 s D) : Reached s0 t D' := by
  have plain : ∀ {t : State} (q : List Ev), t.hist = q ++ s.hist → t.manifolds = s.manifolds →
      (s.dying = true → t.dying = true) → (∀ e ∈ q, ∀ i, changes i e = false) → Reached s0 t D := by
    intro t q h1 h2 h3 h4
    refine r.keep h1 (fun i x h => Or.inl ?_) h3 (fun x h => Or.inl h) ?_
    · unfold Dep at *; rw [h2] at h; exact h
    · intro e he i hc; rw [h4 e he i] at hc; cases hc
  have hkw : ∀ (s1 : State) (w : WRef), ∃ q, (∀ e ∈ q, ∀ i, changes i e = false) ∧
      (s1.killWorker w).hist = q ++ s1.hist := by
    intro s1 w
    cases w with
    | self => exact ⟨[.kill, .killW .self], by simp [changes], rfl⟩
    | obj k => exact ⟨[.killW (.obj k)], by simp [changes], rfl⟩
  cases m with
  | setPend p => exact plain [] rfl rfl id (by simp)
  | kill => exact plain [.kill] rfl rfl (fun _ => killNil_dying s) (by simp [changes])
  | discharge _ h1 h2 =>
    refine r.keep (q := []) rfl (fun i x h => Or.inl h) id ?_ (by simp)
    intro x hx
    rcases h2 x hx with h | h | h
    · exact Or.inl h
    · exact Or.inr (Or.inl h)
    · right; right; right
      have hns : (s.cur x).stopped = false := by
        cases hs : (s.cur x).stopped with
        | false => rfl
        | true => rw [c.idle x hs] at h; cases h
      obtain ⟨g, hg, rfl⟩ := c.live x hns
      exact ⟨g.gid, i.openG g hg, (i.told c hg).1 h⟩
  | launch n delay hd hi hs hD hb =>
    refine r.keep (q := [.begin n s.nextG delay (s.cur n).recentErrors (launchSnap s n)]) rfl
      (fun i x h => Or.inl h) id ?_ (by simp [changes])
    intro x hx
    by_cases hxn : x = n
    · subst hxn; right; right; left; exact ⟨_, _, _, _, by simp; exact ⟨rfl, rfl, rfl, rfl⟩⟩
    · exact Or.inl ⟨hx, hxn⟩
  | reqStop n hs hst =>
    obtain ⟨g, hg, hgn, h⟩ := requestStop_form c hs hst
    have hd := requestStop_dying_mono (s := s) n
    have hm := requestStop_manifolds s n
    rcases h with ⟨_, e⟩ | ⟨k, _, e⟩ | ⟨_, e⟩
    · exact plain [.cancelled g.gid] (by rw [e]; rfl) hm hd (by simp [changes])
    · exact plain [.killW (.obj k), .cancelled g.gid] (by rw [e]; rfl) hm hd (by simp [changes])
    · exact plain [.kill, .killW .self, .cancelled g.gid] (by rw [e]; rfl) hm hd (by simp [changes])
  | record n m hn ha hdead hD =>
    refine r.keep (q := [.installed n m]) rfl ?_ id (fun x hx => Or.inl (Or.inl hx)) (by simp [changes])
    rintro i x ⟨m', hm', hi⟩
    have hm' : (s.manifolds.set n m).get? x = some m' := hm'
    rw [AMap.get?_set] at hm'
    by_cases hxn : x = n
    · exact Or.inr (Or.inr hxn)
    · rw [if_neg hxn] at hm'; exact Or.inl ⟨m', hm', hi⟩
  | neutral e he =>
    rcases he with ⟨n, x, rfl⟩ | rfl
    · exact plain [.installFailed n x] rfl rfl id (by simp [changes])
    · exact plain [reportEv s] rfl rfl id (by simp [changes, reportEv])
  | register g hg w now hpc hd hst =>
    refine r.keep (q := [.registered g.name g.gid w now]) rfl (fun i x h => Or.inl h) id
      (fun x hx => Or.inl (Or.inl hx)) ?_
    intro e he i hc x hx
    simp only [List.mem_singleton] at he
    subst he
    simp only [changes, decide_eq_true_eq] at hc
    subst hc
    exact Or.inr hx
  | refuse g hg w hpc h =>
    obtain ⟨q, hq, e⟩ := hkw (s.mapG g.gid (fun g => { g with pc := afterOffer w })) w
    exact plain q e (by rw [killWorker_manifolds]; rfl) (fun h => killWorker_dying_mono w h) hq
  | stop g hg raw now hpc hdead hD =>
    have hns := (c.rel g hg).notStopped
    obtain ⟨f1, f2, f3, f4, f5⟩ := stopState_facts cfg g raw now hns
    have hhist : ∃ q, (q = [] ∨ q = [.kill]) ∧ (stopState cfg s g raw now).hist = (q ++
        [.ended g.name g.gid now raw (applyFilter cfg (s.man g.name) raw) (s.cur g.name).stopping
          (s.cur g.name).worker]) ++ s.hist := by
      rw [stopState_eq cfg s g raw now hns]
      simp only
      split
      · exact ⟨[.kill], Or.inr rfl, rfl⟩
      · exact ⟨[], Or.inl rfl, rfl⟩
    have hdm : s.dying = true → (stopState cfg s g raw now).dying = true := by
      intro h
      rw [stopState_eq cfg s g raw now hns]
      simp only
      split
      · exact killNil_dying _
      · exact h
    obtain ⟨q, hq, hh⟩ := hhist
    have hdep : ∀ i x, Dep (stopState cfg s g raw now) i x ↔ Dep s i x := by
      intro i x; unfold Dep; rw [f1]
    refine r.keep hh (fun i x h => Or.inl ((hdep i x).1 h)) hdm (fun x hx => absurd hx (hD x)) ?_
    intro e he i hc x hx
    rw [hdep] at hx
    have : e = .ended g.name g.gid now raw (applyFilter cfg (s.man g.name) raw) (s.cur g.name).stopping
          (s.cur g.name).worker := by
      rcases hq with rfl | rfl <;> simp at he
      · exact he
      · rcases he with rfl | he
        · simp [changes] at hc
        · exact he
    subst this
    simp only [changes, decide_eq_true_eq] at hc
    obtain ⟨rfl, hl⟩ := hc
    exact Or.inr (Or.inl ⟨hl, hx⟩)
  | uninstall n vals hs hi hv hdead ht hev =>
    obtain ⟨delta, hdl, hr⟩ := r
    refine ⟨.uninstalled n :: delta, by show _ :: s.hist = _; rw [hdl]; rfl, ?_⟩
    rintro i x e he hc ⟨m', hm', hi⟩
    have hm' : (s.manifolds.erase n).get? x = some m' := hm'
    rw [AMap.get?_erase] at hm'
    split at hm'
    · cases hm'
    rename_i hne
    rcases List.mem_cons.1 he with rfl | he
    · simp [changes] at hc
    rcases hr i x e he hc ⟨m', hm', hi⟩ with h | h | ⟨g, b, r, sn, h⟩ | ⟨g, h1, h2⟩
    · exact Or.inl ⟨h, hne⟩
    · exact Or.inr (Or.inl h)
    · exact Or.inr (Or.inr (Or.inl ⟨g, b, r, sn, by simp [h]⟩))
    · exact Or.inr (Or.inr (Or.inr ⟨g, h1, List.mem_cons_of_mem _ h2⟩))
  | gAbort g hg hpc h => exact plain [] rfl rfl id (by simp)
  | gTimer g hg hpc fuzz hf => exact plain [_] rfl rfl id (by simp [changes])
  | gGet g hg hpc res out => exact plain [_] rfl rfl id (by simp [changes])
  | gStartOk g hg hpc w => exact plain [_] rfl rfl id (by simp [changes])
  | gStartErr g hg hpc e => exact plain [_] rfl rfl id (by simp [changes])
  | gSelfDone g hg hpc hd => exact plain [] rfl rfl id (by simp)
  | gWaitRet g hg w hpc e he => exact plain [] rfl rfl id (by simp)
  | finish w e h => exact plain [_] rfl rfl id (by simp [changes])
  | oneShot hd h => exact plain [] rfl rfl id (by simp)
  | exit hd hdead ha =>
    refine plain [.exit] rfl rfl ?_ (by simp [changes])
    intro h
    show Tomb.dying _ = true
    rw [exit_tomb c hd hdead]; exact h

/-! One step changes the worker of at most one manifold, and the base delay of every attempt it begins of another is
BounceDelay. -/

/-- The events between `s` and `t` change no worker but that of `n`, and begin attempts of others with BounceDelay. -/
def Around (cfg : Config) (n : Name) (s t : State) : Prop := ∃ q, t.hist = q ++ s.hist ∧ ∀ e ∈ q,
  (∀ i, changes i e = true → i = n) ∧ ∀ x g b r sn, e = .begin x g b r sn → x = n ∨ b = cfg.bounceDelay

theorem Around.trans {n : Name} {a b c : State} (h : Around cfg n a b) (k : Around cfg n b c) : Around cfg n a c := by
  obtain ⟨p, h1, h2⟩ := h
  obtain ⟨q, k1, k2⟩ := k
  refine ⟨q ++ p, by rw [k1, h1, List.append_assoc], fun e he => ?_⟩
  rcases List.mem_append.1 he with he | he
  · exact k2 e he
  · exact h2 e he

theorem Around.none {n : Name} {a b : State} (h : b.hist = a.hist) : Around cfg n a b := ⟨[], h, by simp⟩

theorem Around.one {n : Name} {a b : State} (e : Ev) (h : b.hist = e :: a.hist) (h1 : ∀ i, changes i e = true → i = n)
    (h2 : ∀ x g b r sn, e = .begin x g b r sn → x = n ∨ b = cfg.bounceDelay) : Around cfg n a b :=
  ⟨[e], h, by simpa using ⟨h1, h2⟩⟩

theorem Around.mild {n : Name} {a b : State} (e : Ev) (h : b.hist = e :: a.hist)
    (h1 : ∀ i, changes i e = false) (h2 : ∀ x g b r sn, e ≠ .begin x g b r sn) : Around cfg n a b :=
  .one e h (fun i hi => by rw [h1 i] at hi; cases hi) (fun x g b r sn he => absurd he (h2 x g b r sn))

theorem around_tick (n : Name) (a : State) : Around cfg n a a.tick := by
  rcases tick_cases a with h | ⟨p, h⟩ | h <;> rw [h]
  · exact .none rfl
  · exact .none rfl
  · exact .mild .kill rfl (by simp [changes]) (by simp)

theorem around_killWorker (n : Name) (a : State) (w : WRef) : Around cfg n a (a.killWorker w) := by
  cases w with
  | obj k => exact .mild (.killW (.obj k)) rfl (by simp [changes]) (by simp)
  | self =>
    exact .trans (b := a.log (.killW .self)) (.mild (.killW .self) rfl (by simp [changes]) (by simp))
      (.mild .kill rfl (by simp [changes]) (by simp))

theorem around_requestStop (n : Name) (a : State) (d : Name) : Around cfg n a (requestStop a d) := by
  have hm : Around cfg n a (markStopping a d) := by
    unfold markStopping
    simp only
    split
    · exact .mild (.cancelled _) rfl (by simp [changes]) (by simp)
    · exact .none rfl
  rcases requestStop_cases a d with ⟨_, e⟩ | ⟨_, _, ⟨w, _, e⟩ | ⟨_, e⟩⟩ <;> rw [e]
  · exact .none rfl
  · exact hm.trans (around_killWorker n _ w)
  · exact hm

theorem around_requestStart {n : Name} (a : State) {d : Name} {b : Int} (h : d = n ∨ b = cfg.bounceDelay) :
    Around cfg n a (requestStart a d b) := by
  have hl : ∀ a' : State, Around cfg n a' (launch a' d b) := fun a' =>
    .one (.begin d a'.nextG b (a'.cur d).recentErrors (launchSnap a' d)) rfl (by simp [changes]) (by
      intro x g b' r sn he
      injection he with h1 _ h2
      subst h1 h2
      exact h)
  unfold requestStart State.killInternal
  simp only
  have ht : ∀ a' : State, a'.hist = a.hist → Around cfg n a a'.tick := fun a' e =>
    .trans (.none e) (around_tick n a')
  repeat' split
  all_goals first
    | exact ht _ rfl
    | exact .trans (b := State.tick _) (ht _ (by rfl)) (hl _)

theorem around_bounceList (n : Name) : ∀ (ds : List Name) (a : State), Around cfg n a (bounceList cfg a ds) := by
  intro ds
  induction ds with
  | nil => exact fun a => .none rfl
  | cons d ds ih =>
    intro a
    refine .trans ?_ (ih _)
    split
    · exact around_requestStart _ (Or.inr rfl)
    · exact around_requestStop n _ _

theorem around_endArm (n : Name) (a : State) : Around cfg n a (endArm a) := by
  refine (around_tick n a).trans ?_
  unfold endArm
  simp only
  split
  · exact .mild .exit rfl (by simp [changes]) (by simp)
  · exact .none rfl

theorem around_gotInstall (a : State) (n : Name) (m : Manifold) (order : List Name) :
    Around cfg n a (gotInstall a n m order) := by
  unfold gotInstall
  split
  · exact .mild (.installFailed n (.alreadyInstalled n)) rfl (by simp [changes]) (by simp)
  · split
    · rename_i e _
      exact .mild (.installFailed n (.wrap 0 e)) rfl (by simp [changes]) (by simp)
    · exact .trans (b := record a n m) (.mild (.installed n m) rfl (by simp [changes]) (by simp))
        (around_requestStart _ (Or.inl rfl))

theorem around_gotStarted (a : State) (n : Name) (gid : Nat) (w : WRef) (now : Int) :
    Around cfg n a (gotStarted cfg a n gid w now) := by
  unfold gotStarted
  simp only
  repeat' split
  · exact .trans (b := a.killInternal 584 n) (.none rfl) (around_killWorker n _ w)
  · exact around_killWorker n _ w
  · exact (around_tick n a).trans (around_killWorker n _ w)
  · refine (around_tick n a).trans (.trans (b := register a.tick n gid w now) ?_ (around_bounceList n _ _))
    exact .one (.registered n gid w now) rfl (by simp [changes]) (by simp)

theorem around_gotStopped (a : State) (n : Name) (gid : Nat) (raw : Option Err) (now : Int) (vals : Name → List Name) :
    Around cfg n a (gotStopped cfg a n gid raw now vals) := by
  have h1 : ∀ (b : State) f, Around cfg n b (noteFatal cfg b n f) := by
    intro b f
    unfold noteFatal State.killInternal
    split
    · exact .none rfl
    · split
      · exact .mild .kill rfl (by simp [changes]) (by simp)
      · exact .none rfl
  have h2 : ∀ (b : State) told f, Around cfg n b (reactToStop cfg b n told f vals) := by
    intro b told f
    unfold reactToStop
    repeat' split
    all_goals first
      | exact .none rfl
      | exact around_requestStart _ (Or.inl rfl)
      | exact .mild (.uninstalled n) rfl (by simp [changes]) (by simp)
  unfold gotStopped
  simp only
  have h3 : Around cfg n a (resetInfo (noteFatal cfg (a.log (.ended n gid now raw (applyFilter cfg (a.man n) raw)
      (a.cur n).stopping (a.cur n).worker)) n (applyFilter cfg (a.man n) raw)) n
      { err := applyFilter cfg (a.man n) raw, startAttempts := newAttempts (a.cur n) raw,
        startCount := (a.cur n).startCount, recentErrors := newRecent cfg (a.cur n) raw now }).tick :=
    .trans (.trans (.trans (.one (.ended n gid now raw (applyFilter cfg (a.man n) raw)
      (a.cur n).stopping (a.cur n).worker) rfl (by simp [changes]) (by simp)) (h1 _ _)) (.none rfl)) (around_tick n _)
  split
  · exact h3
  · split
    · exact .trans (h3.trans (h2 _ _ _)) (around_bounceList n _ _)
    · exact h3.trans (h2 _ _ _)

/-- Every step changes the worker of at most one manifold `n`, and begins attempts of others with BounceDelay. -/
theorem around_step {op : Op} (h : step cfg s op = some s') : ∃ n, Around cfg n s s' := by
  cases op with
  | armStarted gid now pend =>
    simp only [step] at h
    repeat' split at h
    all_goals first
      | (cases h; done)
      | (simp only [Option.some.injEq] at h
         subst h
         refine ⟨_, .trans (.trans ?_ (around_gotStarted _ _ _ _ _)) (around_endArm _ _)⟩
         exact .none rfl)
  | armStopped gid now vals pend =>
    simp only [step] at h
    repeat' split at h
    all_goals first
      | (cases h; done)
      | (simp only [Option.some.injEq] at h
         subst h
         refine ⟨_, .trans (.trans ?_ (around_gotStopped _ _ _ _ _ _)) (around_endArm _ _)⟩
         exact .none rfl)
  | armInstall n m order pend =>
    simp only [step] at h
    split at h
    · simp only [Option.some.injEq] at h
      subst h
      refine ⟨n, .trans (.trans ?_ (around_gotInstall _ _ _ _)) (around_endArm _ _)⟩
      exact .none rfl
    · cases h
  | armDying order pend =>
    simp only [step] at h
    split at h
    · rename_i hc
      cases h
      refine ⟨0, .trans (.trans (b := { s with pend := pend, oneShot := false }) (.none rfl) ?_) (around_endArm _ _)⟩
      clear hc
      unfold dyingArm
      generalize ({ ({ s with pend := pend } : State) with oneShot := false } : State) = a
      induction order generalizing a with
      | nil => exact .none rfl
      | cons d ds ih => exact .trans (around_requestStop 0 a d) (ih _)
    · cases h
  | armReport pend =>
    simp only [step] at h
    split at h
    · cases h
      refine ⟨0, .trans (.trans (b := { s with pend := pend }) (.none rfl) ?_) (around_endArm _ _)⟩
      unfold liveReport
      simp only
      split
      all_goals exact (around_tick 0 _).trans (.mild _ rfl (by simp [changes]) (by simp))
    · cases h
  | gRegisterDying gid =>
    simp only [step] at h
    repeat' split at h
    all_goals first
      | (cases h; done)
      | (cases h; exact ⟨0, .trans (.none rfl) (around_killWorker 0 _ _)⟩)
  | _ =>
    simp only [step] at h
    repeat' split at h
    all_goals first
      | (cases h; done)
      | (cases h; exact ⟨0, .none rfl⟩)
      | (cases h; exact ⟨0, .mild _ rfl (by simp [changes]) (by simp)⟩)

/-- C34. If a step registers or loses the worker of `i` and the engine is not dying, then in that step every
manifold `x` that declares `i` has an attempt scheduled, with BounceDelay, or the attempt it had before the step is told to stop: its
context is cancelled and its registered worker, if any, has been Kill()ed. (So a manifold without open attempt is
started.) -/
theorem C34_change_reaches_dependents (hr : Reach cfg s) {op : Op} (h : step cfg s op = some s')
    {delta : List Ev} (hd : s'.hist = delta ++ s.hist) {i x : Name} {e : Ev} (he : e ∈ delta)
    (hc : changes i e = true) (hx : Declares s'.hist x i) (hk : .kill ∉ s'.hist) :
    (∃ g r sn, .begin x g cfg.bounceDelay r sn ∈ delta) ∨
    (∃ g, openH s.hist x = some g ∧ .cancelled g ∈ s'.hist ∧
      (workerH s'.hist x ≠ none → killedH s'.hist x = true)) := by
  have fin : (∃ g b r sn, .begin x g b r sn ∈ delta) → ∃ g r sn, .begin x g cfg.bounceDelay r sn ∈ delta := by
    rintro ⟨g, b, r, sn, hb⟩
    obtain ⟨n, q, hq, ha⟩ := around_step h
    have hqd : q = delta := by rw [hd] at hq; exact List.append_cancel_right hq.symm
    subst hqd
    have hin := (ha e he).1 i hc
    rcases (ha _ hb).2 _ _ _ _ _ rfl with hxn | hbb
    · obtain ⟨c', iv'⟩ := reach_hinv (hr.step op h)
      rw [hxn, hin] at hx
      exact absurd ((iv'.dep n n).2 hx) (c'.not_self_dep n)
    · subst hbb; exact ⟨g, r, sn, hb⟩
  obtain ⟨c, iv⟩ := reach_hinv hr
  have hr' : Reach cfg s' := hr.step op h
  obtain ⟨c', iv'⟩ := reach_hinv hr'
  have := step_induct (P := Reached s) c iv h
    ⟨[], rfl, fun i x e he => by simp at he⟩ (fun _ _ _ _ c i r m => micro_reached m c i r)
  obtain ⟨delta', hd', hrch⟩ := this
  have hdd : delta' = delta := by rw [hd] at hd'; exact List.append_cancel_right hd'.symm
  subst hdd
  rcases hrch i x e he hc ((iv'.dep i x).2 hx) with h | h | h | ⟨g, h1, h2⟩
  · exact h.elim
  · exact absurd (iv'.dying.1 h) hk
  · exact Or.inl (fin h)
  · by_cases hb : ∃ g b r sn, Ev.begin x g b r sn ∈ delta'
    · exact Or.inl (fin hb)
    · right
      refine ⟨g, h1, h2, ?_⟩
      intro hw
      obtain ⟨w, hw⟩ := Option.ne_none_iff_exists'.1 hw
      have hns : (s'.cur x).stopped = false := by
        rw [not_stopped_iff]; left; rw [iv'.worker, hw]; simp
      obtain ⟨G, hG, rfl⟩ := c'.live x hns
      have hg : G.gid = g := by
        have h3 := iv'.openG G hG
        rw [hd] at h3
        rcases openH_append h3 with ⟨b, r, sn, h3⟩ | h3
        · exact absurd ⟨_, b, r, sn, h3⟩ hb
        · rw [h1] at h3; exact (Option.some.inj h3).symm
      subst hg
      have hp := reach_wphase hr' _ _ hw
      refine C44_killed_on_arrival hr' hG hp ?_ (Or.inl h2)
      intro hpc
      obtain ⟨_, h' | ⟨e, h'⟩⟩ := (c'.rel G hG).worker w (by rw [iv'.worker]; exact hw)
      · rw [hpc] at h'; cases w <;> cases h'
      · rw [hpc] at h'; cases h'

-- the loss of 0's worker stops 1's
example : ∃ s s', Reach Demo.cfg s ∧ step Demo.cfg s (.armStopped 0 100 Demo.vals01 none) = some s' ∧
    (∃ e ∈ s'.hist.take 5, changes 0 e = true) ∧
    Declares s'.hist 1 0 ∧
    .kill ∉ s'.hist ∧
    .cancelled 2 ∈ s'.hist ∧
    killedH s'.hist 1 = true :=
  ⟨(Demo.after Demo.cfg (Demo.opsUp ++ [.finish 10 (some (.user 1)), .gWaitRet 0])), (step Demo.cfg (Demo.after Demo.cfg (Demo.opsUp ++ [.finish 10 (some (.user 1)), .gWaitRet 0])) (.armStopped 0 100 Demo.vals01 none)).getD init,
    Demo.after_reach _ _, by decide +kernel, by decide +kernel, by decide +kernel, by decide +kernel, by decide +kernel, by decide +kernel⟩

/-! ## C36: Install -/

/-- The end of an arm records at most a Kill and the exit and changes nothing else. -/
theorem endArm_facts (s : State) : (endArm s).manifolds = s.manifolds ∧ (endArm s).current = s.current ∧
    (endArm s).gs = s.gs ∧ (endArm s).dependents = s.dependents ∧
    (∃ q, (∀ e ∈ q, e = .kill ∨ e = .exit) ∧ (endArm s).hist = q ++ s.hist) := by
  have ht : ∃ q, (∀ e ∈ q, e = Ev.kill ∨ e = .exit) ∧ s.tick.hist = q ++ s.hist := by
    rcases tick_cases s with h | ⟨p, h⟩ | h <;> rw [h]
    · exact ⟨[], by simp, rfl⟩
    · exact ⟨[], by simp, rfl⟩
    · exact ⟨[.kill], by simp, rfl⟩
  obtain ⟨q, hq, hh⟩ := ht
  unfold endArm
  simp only
  split
  · refine ⟨tick_manifolds s, tick_current s, tick_gs s, tick_dependents s, .exit :: q, ?_, ?_⟩
    · intro e he
      rcases List.mem_cons.1 he with rfl | he
      · exact Or.inr rfl
      · exact hq e he
    · show Ev.exit :: s.tick.hist = _
      rw [hh]; rfl
  · exact ⟨tick_manifolds s, tick_current s, tick_gs s, tick_dependents s, q, hq, hh⟩

theorem manH_append_quiet {q h : List Ev} (hq : ∀ e ∈ q, e = .kill ∨ e = .exit) (n : Name) :
    manH (q ++ h) n = manH h n := by
  induction q with
  | nil => rfl
  | cons e q ih =>
    have := ih (fun x hx => hq x (by simp [hx]))
    rcases hq e (by simp) with rfl | rfl <;> exact this

/-- Installing `m` as `n` is allowed: the name is free and the graph stays acyclic. -/
def MayInstall (h : List Ev) (n : Name) (m : Manifold) : Prop :=
  manH h n = none ∧ ¬ Cyclic (.installed n m :: h)

theorem mayInstall_iff (i : HInv cfg s) (n : Name) (m : Manifold) :
    ¬ HasCycle (inputsTable (s.manifolds.set n m)) ↔ ¬ Cyclic (.installed n m :: s.hist) := by
  rw [hasCycle_iff (s.manifolds.set n m) (.installed n m :: s.hist)]
  intro x
  rw [AMap.get?_set, i.man]
  rfl

/-- C36, success: an Install of an allowed manifold handled by the loop is accepted and, unless the engine is
dying, an attempt is scheduled without delay and with no recent errors. -/
theorem C36_install_accepted (hr : Reach cfg s) {n : Name} {m : Manifold} {order : List Name} {pend : Option Nat}
    (h : step cfg s (.armInstall n m order pend) = some s') (hm : MayInstall s.hist n m) :
    ∃ delta, s'.hist = delta ++ .installed n m :: s.hist ∧
      (.kill ∈ s'.hist ∨ ∃ g sn, .begin n g 0 0 sn ∈ delta) ∧
      ∀ x, manH s'.hist x = if x = n then some m else manH s.hist x := by
  obtain ⟨c, i⟩ := reach_hinv hr
  obtain ⟨c', i'⟩ := reach_hinv (hr.step _ h)
  simp only [step] at h
  split at h
  case isFalse => cases h
  rename_i hc
  simp only [Option.some.injEq] at h
  obtain ⟨hdead, ho⟩ := hc
  have hn : s.manifolds.get? n = none := by rw [i.man]; exact hm.1
  have ha := (mayInstall_iff i n m).2 hm.2
  have hv : checkAcyclic { s with pend := pend } n m order = none := by
    unfold checkAcyclic
    rcases Validate.validate_cases (inputs := inputsTable (s.manifolds.set n m)) order
      (fun k hk => by rw [inputsTable_keys] at hk; exact (((isRangeOrder_iff _ _).1 ho).2 k).2 hk) with
      ⟨h1, h2⟩ | ⟨h1, h2⟩
    · exact h1
    · exact absurd h2 ha
  have hg : gotInstall { s with pend := pend } n m order =
      requestStart (record { s with pend := pend } n m) n 0 := by
    unfold gotInstall
    rw [hv]
    have hn' : ({ s with pend := pend } : State).manifolds.get? n = none := hn
    rw [hn']; rfl
  rw [hg] at h
  have hi : ((record { s with pend := pend } n m).manifolds.get? n).isSome = true := by
    show ((s.manifolds.set n m).get? n).isSome = true
    simp
  have hs : (record { s with pend := pend } n m).cur n = {} := by
    show (((s.current.set n {}).get? n).getD {}) = {}
    simp
  rw [requestStart_eq hi (by rw [hs]; rfl)] at h
  generalize ht : (record { s with pend := pend } n m) = t at *
  have hth : t.hist = .installed n m :: s.hist := by rw [← ht]; rfl
  have htm : t.manifolds = s.manifolds.set n m := by rw [← ht]; rfl
  have hman : ∀ x, manH s'.hist x = if x = n then some m else manH s.hist x := by
    intro x
    rw [← i'.man, ← h, (endArm_facts _).1]
    have : (if t.tick.dying = true then t.tick else launch t.tick n 0).manifolds = t.tick.manifolds := by
      split <;> rfl
    rw [this, tick_manifolds, htm, AMap.get?_set, i.man]
  obtain ⟨_, _, _, _, q, hq, hh⟩ := endArm_facts (if t.tick.dying = true then t.tick else launch t.tick n 0)
  rw [h] at hh
  have htick : ∃ q', t.tick.hist = q' ++ t.hist := by
    rcases tick_cases t with h | ⟨p, h⟩ | h <;> rw [h]
    · exact ⟨[], rfl⟩
    · exact ⟨[], rfl⟩
    · exact ⟨[.kill], rfl⟩
  obtain ⟨q', hq'⟩ := htick
  by_cases hd : t.tick.dying = true
  · rw [if_pos hd] at hh h
    refine ⟨q ++ q', ?_, Or.inl ?_, hman⟩
    · rw [hh, hq', hth]; simp
    · have hk : Ev.kill ∈ t.tick.hist := by
        have hts : t.dying = s.dying := by rw [← ht]; rfl
        rcases tick_cases t with h | ⟨p, h⟩ | h
        · rw [h] at hd ⊢
          rw [hth]; exact List.mem_cons_of_mem _ (i.dying.1 (hts ▸ hd))
        · rw [h] at hd ⊢
          show Ev.kill ∈ t.hist
          rw [hth]; exact List.mem_cons_of_mem _ (i.dying.1 (hts ▸ hd))
        · rw [h]; exact List.mem_cons_self
      rw [hh]; exact List.mem_append_right _ hk
  · rw [if_neg hd] at hh h
    refine ⟨q ++ .begin n t.tick.nextG 0 (t.tick.cur n).recentErrors (launchSnap t.tick n) :: q', ?_, Or.inr ?_, hman⟩
    · rw [hh]
      show q ++ (.begin n t.tick.nextG 0 (t.tick.cur n).recentErrors (launchSnap t.tick n) :: t.tick.hist) = _
      rw [hq', hth]; simp
    · refine ⟨t.tick.nextG, launchSnap t.tick n, ?_⟩
      have : (t.tick.cur n).recentErrors = 0 := by rw [tick_cur, hs]
      rw [this]; simp

-- 2 is installed with inputs that are and are not installed
example : ∃ s s', Reach Demo.cfg s ∧ step Demo.cfg s (.armInstall 2 { inputs := [1, 7] } [0, 1, 2] none) = some s' ∧
    manH s.hist 2 = none ∧
    manH s'.hist 2 = some { inputs := [1, 7] } :=
  ⟨(Demo.after Demo.cfg Demo.opsUp), (step Demo.cfg (Demo.after Demo.cfg Demo.opsUp) (.armInstall 2 { inputs := [1, 7] } [0, 1, 2] none)).getD init,
    Demo.after_reach _ _, by decide +kernel, by decide +kernel, by decide +kernel⟩

/-- C36, failure: otherwise the Install is refused, because the name is taken if it is and else because of the cycle, and
nothing else changes. -/
theorem C36_install_refused (hr : Reach cfg s) {n : Name} {m : Manifold} {order : List Name} {pend : Option Nat}
    (h : step cfg s (.armInstall n m order pend) = some s') (hm : ¬ MayInstall s.hist n m) :
    ∃ q, (∀ x ∈ q, x = .kill ∨ x = .exit) ∧
      s'.hist = q ++ .installFailed n (if (manH s.hist n).isSome then .alreadyInstalled n else .wrap 0 .cycle) :: s.hist ∧
      s'.manifolds = s.manifolds ∧ s'.current = s.current ∧ s'.gs = s.gs ∧ s'.dependents = s.dependents := by
  obtain ⟨c, i⟩ := reach_hinv hr
  simp only [step] at h
  split at h
  case isFalse => cases h
  rename_i hc
  simp only [Option.some.injEq] at h
  obtain ⟨hdead, ho⟩ := hc
  have hg : gotInstall { s with pend := pend } n m order = ({ s with pend := pend } : State).log
      (.installFailed n (if (manH s.hist n).isSome then .alreadyInstalled n else .wrap 0 .cycle)) := by
    unfold gotInstall
    rw [← i.man]
    cases hn : s.manifolds.get? n with
    | some m' => simp only [hn, Option.isSome_some, if_true]
    | none =>
      have ha : HasCycle (inputsTable (s.manifolds.set n m)) := by
        refine Classical.byContradiction fun hcon => ?_
        exact hm ⟨by rw [← i.man]; exact hn, (mayInstall_iff i n m).1 hcon⟩
      have hv : checkAcyclic { s with pend := pend } n m order = some .cycle := by
        unfold checkAcyclic
        rcases Validate.validate_cases (inputs := inputsTable (s.manifolds.set n m)) order
          (fun k hk => by rw [inputsTable_keys] at hk; exact (((isRangeOrder_iff _ _).1 ho).2 k).2 hk) with
          ⟨h1, h2⟩ | ⟨h1, h2⟩
        · exact absurd ha h2
        · exact h1
      simp only [hn, Option.isSome_none, Bool.false_eq_true, if_false, hv]
  rw [hg] at h
  obtain ⟨f1, f2, f3, f4, q, hq, hh⟩ := endArm_facts (({ s with pend := pend } : State).log
    (.installFailed n (if (manH s.hist n).isSome then .alreadyInstalled n else .wrap 0 .cycle)))
  rw [h] at f1 f2 f3 f4 hh
  exact ⟨q, hq, hh, f1, f2, f3, f4⟩

-- the name is taken
example : ∃ s s', Reach Demo.cfg s ∧ step Demo.cfg s (.armInstall 1 {} [0, 1] none) = some s' ∧
    manH s.hist 1 ≠ none ∧
    .installFailed 1 (.alreadyInstalled 1) ∈ s'.hist :=
  ⟨(Demo.after Demo.cfg Demo.opsUp), (step Demo.cfg (Demo.after Demo.cfg Demo.opsUp) (.armInstall 1 {} [0, 1] none)).getD init,
    Demo.after_reach _ _, by decide +kernel, by decide +kernel, by decide +kernel⟩

-- a cycle through a manifold that is not installed yet
example : ∃ s s', Reach Demo.cfg s ∧ step Demo.cfg s (.armInstall 0 { inputs := [1] } [0, 1] none) = some s' ∧
    manH s.hist 0 = none ∧
    .installFailed 0 (.wrap 0 .cycle) ∈ s'.hist :=
  ⟨(Demo.after Demo.cfg Demo.opsUninstall), (step Demo.cfg (Demo.after Demo.cfg Demo.opsUninstall) (.armInstall 0 { inputs := [1] } [0, 1] none)).getD init,
    Demo.after_reach _ _, by decide +kernel, by decide +kernel, by decide +kernel⟩

/-- C36: an Install call can take the shutting-down branch only if the engine is dying, and then nothing changes. -/
theorem C36_install_dying (hr : Reach cfg s) {n : Name} (h : step cfg s (.installRefused n) = some s') :
    .kill ∈ s.hist ∧ s' = s.log (.installFailed n .shuttingDown) := by
  obtain ⟨c, i⟩ := reach_hinv hr
  simp only [step] at h
  split at h
  · rename_i hd
    exact ⟨i.dying.1 hd, (Option.some.inj h).symm⟩
  · cases h

-- the engine has been killed
example : ∃ s s', Reach Demo.cfg s ∧ step Demo.cfg s (.installRefused 5) = some s' ∧
    .kill ∈ s.hist :=
  ⟨(Demo.after Demo.cfg Demo.opsKilled), (step Demo.cfg (Demo.after Demo.cfg Demo.opsKilled) (.installRefused 5)).getD init,
    Demo.after_reach _ _, by decide +kernel, by decide +kernel⟩

/-! ## C41, C42: what follows the end of an attempt -/

/-- What is to happen after an attempt has ended. -/
inductive Reaction
  /-- a new attempt with the given kind of delay -/
  | bounce | retry
  /-- the manifold is removed -/
  | remove
  /-- nothing -/
  | wait
deriving DecidableEq, Repr

/-- The documented reaction to the (filtered) error of an attempt. -/
def reactionTo (told : Bool) (f : Option Err) : Reaction :=
  if told then .bounce else match f with
    | none => .wait
    | some r =>
      if .aborted ∈ r.tree ∨ .missing ∈ r.tree then .wait
      else if .bounce ∈ r.tree then .bounce
      else if .uninstall ∈ r.tree then .remove
      else .retry

theorem reactToStop_reaction (cfg : Config) (s : State) (n : Name) (told : Bool) (f : Option Err)
    (vals : Name → List Name) : reactToStop cfg s n told f vals = match reactionTo told f with
      | .bounce => requestStart s n cfg.bounceDelay
      | .retry => requestStart s n cfg.errorDelay
      | .remove => uninstall s n vals
      | .wait => s := by
  unfold reactToStop reactionTo
  cases told with
  | true => rfl
  | false =>
    cases f with
    | none => simp
    | some r =>
      have hi : ∀ t, errIs (some r) t = true ↔ t ∈ r.tree := fun t => errIs_iff r t
      simp only [Bool.false_eq_true, if_false, reduceCtorEq, false_or, hi]
      by_cases h1 : Err.aborted ∈ r.tree
      · simp [h1]
      · by_cases h2 : Err.missing ∈ r.tree
        · simp [h1, h2]
        · by_cases h3 : Err.bounce ∈ r.tree
          · simp [h1, h2, h3]
          · by_cases h4 : Err.uninstall ∈ r.tree
            · simp [h1, h2, h3, h4]
            · simp [h1, h2, h3, h4]

/-- `b` comes after `a`, with the same manifolds. -/
def Ext (a b : State) : Prop := b.manifolds = a.manifolds ∧ ∃ d, b.hist = d ++ a.hist

theorem Ext.refl (a : State) : Ext a a := ⟨rfl, [], rfl⟩

theorem Ext.trans {a b c : State} (h : Ext a b) (k : Ext b c) : Ext a c := by
  obtain ⟨h1, d, h2⟩ := h
  obtain ⟨k1, e, k2⟩ := k
  exact ⟨k1.trans h1, e ++ d, by rw [k2, h2, List.append_assoc]⟩

theorem Ext.mem {a b : State} (h : Ext a b) {e : Ev} (he : e ∈ a.hist) : e ∈ b.hist := by
  obtain ⟨_, d, h2⟩ := h
  rw [h2]; exact List.mem_append_right _ he

theorem ext_tick (a : State) : Ext a a.tick := by
  rcases tick_cases a with h | ⟨p, h⟩ | h <;> rw [h]
  · exact .refl a
  · exact ⟨rfl, [], rfl⟩
  · exact ⟨rfl, [.kill], rfl⟩

theorem ext_killWorker (a : State) (w : WRef) : Ext a (a.killWorker w) := by
  cases w with
  | obj k => exact ⟨rfl, [.killW (.obj k)], rfl⟩
  | self => exact ⟨rfl, [.kill, .killW .self], rfl⟩

theorem ext_requestStop (a : State) (n : Name) : Ext a (requestStop a n) := by
  have hm : Ext a (markStopping a n) := by
    unfold markStopping
    cases hc : (a.cur n).cancel with
    | none => exact ⟨by simp [hc], [], by simp [hc]⟩
    | some g => exact ⟨by simp [hc], [.cancelled g], by simp [hc, State.log]⟩
  rcases requestStop_cases a n with ⟨_, e⟩ | ⟨_, _, ⟨w, _, e⟩ | ⟨_, e⟩⟩ <;> rw [e]
  · exact .refl a
  · exact hm.trans (ext_killWorker _ w)
  · exact hm

theorem ext_requestStart (a : State) (n : Name) (d : Int) : Ext a (requestStart a n d) := by
  have hk : ∀ (b : State) l, Ext b (b.killInternal l n) := fun b l => ⟨rfl, [], rfl⟩
  have h1 : Ext a (if (a.manifolds.get? n).isNone then a.killInternal 384 n else a) := by
    split
    · exact hk _ _
    · exact .refl _
  unfold requestStart
  simp only
  generalize (if (a.manifolds.get? n).isNone then a.killInternal 384 n else a) = s1 at *
  have h2 : Ext s1 (if (s1.cur n).stopped then s1 else s1.killInternal 390 n) := by
    split
    · exact .refl _
    · exact hk _ _
  generalize (if (s1.cur n).stopped then s1 else s1.killInternal 390 n) = s2 at *
  have h3 := h1.trans (h2.trans (ext_tick s2))
  split
  · exact h3
  · exact h3.trans ⟨rfl, [_], rfl⟩

theorem ext_bounceList (cfg : Config) : ∀ (ds : List Name) (a : State), Ext a (bounceList cfg a ds) := by
  intro ds
  induction ds with
  | nil => exact .refl
  | cons d ds ih =>
    intro a
    refine Ext.trans ?_ (ih _)
    split
    · exact ext_requestStart _ _ _
    · exact ext_requestStop _ _

/-- A start request made while the engine is not dying begins an attempt, unless the engine is killed. -/
theorem requestStart_begins {a : State} {n : Name} (hi : (a.manifolds.get? n).isSome = true)
    (hs : (a.cur n).stopped = true) (d : Int) (hd : a.dying = false) :
    ∃ q, (requestStart a n d).hist = q ++ a.hist ∧
      (.kill ∈ (requestStart a n d).hist ∨ ∃ g r sn, .begin n g d r sn ∈ q) := by
  rw [requestStart_eq hi hs]
  rcases tick_cases a with h | ⟨p, h⟩ | h
  · rw [h, if_neg (by rw [hd]; simp)]
    exact ⟨[_], rfl, Or.inr ⟨_, _, _, List.mem_singleton.2 rfl⟩⟩
  · have hd' : ¬ (a.tick.dying = true) := by
      rw [h]; show ¬ a.dying = true; rw [hd]; simp
    rw [if_neg hd']
    rw [h]
    exact ⟨[_], rfl, Or.inr ⟨_, _, _, List.mem_singleton.2 rfl⟩⟩
  · have hd' : a.tick.dying = true := by rw [h]; exact killNil_dying _
    rw [if_pos hd', h]
    exact ⟨[.kill], rfl, Or.inl (by simp [State.killNil])⟩

/-- C41 and C42. When the loop receives the end of an attempt and the engine is not dying, what is documented
happens in that step: an attempt that was told to stop, or failed with ErrBounce, is followed by an attempt with
BounceDelay; ErrUninstall removes this manifold and no other; nil, ErrMissing and an abort change no manifold; and
any other error is followed by an attempt with ErrorDelay. -/
theorem C41_reaction (hr : Reach cfg s) {gid : Nat} {now : Int} {vals : Name → List Name} {pend : Option Nat}
    (h : step cfg s (.armStopped gid now vals pend) = some s') :
    ∃ n raw f told lost delta, s'.hist = delta ++ .ended n gid now raw f told lost :: s.hist ∧
      (.kill ∉ s'.hist → match reactionTo told f with
        | .bounce => (∃ g r sn, .begin n g cfg.bounceDelay r sn ∈ delta) ∧
            ∀ x, manH s'.hist x = manH s.hist x
        | .retry => (∃ g r sn, .begin n g cfg.errorDelay r sn ∈ delta) ∧
            ∀ x, manH s'.hist x = manH s.hist x
        | .remove => .uninstalled n ∈ delta ∧
            ∀ x, manH s'.hist x = if x = n then none else manH s.hist x
        | .wait => ∀ x, manH s'.hist x = manH s.hist x) := by
  obtain ⟨c, i⟩ := reach_hinv hr
  obtain ⟨c', i'⟩ := reach_hinv (hr.step _ h)
  simp only [step] at h
  split at h
  · cases h
  rename_i hc
  split at h
  · cases h
  rename_i g hgg
  split at h
  case h_2 => cases h
  rename_i raw hpc
  have hg : g ∈ s.gs := (getG_some _ _ hgg).1
  have hgid : g.gid = gid := (getG_some _ _ hgg).2
  simp only [Option.some.injEq] at h
  obtain ⟨_, _, _, _, q, hq, hh⟩ := endArm_facts (gotStopped cfg
    { s with gs := s.gs.filter (fun g => g.gid != gid), pend := pend } g.name gid raw now vals)
  have hman0 := (endArm_facts (gotStopped cfg
    { s with gs := s.gs.filter (fun g => g.gid != gid), pend := pend } g.name gid raw now vals)).1
  rw [h] at hh hman0
  subst hgid
  -- the state in which the pending kill has been chosen
  obtain ⟨u, hu⟩ : ∃ u : State, u = { s with pend := pend } := ⟨_, rfl⟩
  have hns : (u.cur g.name).stopped = false := by rw [hu]; exact (c.rel g hg).notStopped
  obtain ⟨f1, f2, f3, f4, f5⟩ := stopState_facts cfg g raw now hns
  have f6 := stopState_hist cfg g raw now hns
  have fx : ∃ d, (stopState cfg u g raw now).tick.hist = d ++ .ended g.name g.gid now raw
      (applyFilter cfg (u.man g.name) raw) (u.cur g.name).stopping (u.cur g.name).worker :: u.hist := by
    obtain ⟨_, d1, h1⟩ := ext_tick (stopState cfg u g raw now)
    rw [h1, stopState_eq cfg u g raw now hns]
    simp only
    split
    · exact ⟨d1 ++ [.kill], by simp [State.killNil, State.log, State.setCur]⟩
    · exact ⟨d1, rfl⟩
  have heq : gotStopped cfg { s with gs := s.gs.filter (fun x => x.gid != g.gid), pend := pend } g.name g.gid raw now
      vals =
      if (stopState cfg u g raw now).tick.dying then (stopState cfg u g raw now).tick
      else if (u.cur g.name).worker.isSome then
          bounceDependents cfg (reactToStop cfg (stopState cfg u g raw now).tick g.name (u.cur g.name).stopping
            (applyFilter cfg (u.man g.name) raw) vals) g.name
        else reactToStop cfg (stopState cfg u g raw now).tick g.name (u.cur g.name).stopping
            (applyFilter cfg (u.man g.name) raw) vals := by rw [hu]; rfl
  rw [heq] at hh hman0
  have hdk : (stopState cfg u g raw now).tick.dying = true → .kill ∈ (stopState cfg u g raw now).tick.hist := by
    have h1 : (stopState cfg u g raw now).dying = true → .kill ∈ (stopState cfg u g raw now).hist := by
      rw [stopState_eq cfg u g raw now hns]
      simp only
      split
      · intro _; exact List.mem_cons_self
      · intro hd
        refine List.mem_cons_of_mem _ ?_
        show Ev.kill ∈ u.hist
        rw [hu]; exact i.dying.1 (by rw [hu] at hd; exact hd)
    rcases tick_cases (stopState cfg u g raw now) with h | ⟨p, h⟩ | h <;> rw [h]
    · exact h1
    · exact h1
    · intro _; exact List.mem_cons_self
  have hum : u.manifolds = s.manifolds := by rw [hu]
  have huh : u.hist = s.hist := by rw [hu]
  have hui : (u.manifolds.get? g.name).isSome = true := by rw [hum]; exact c.g_installed hg
  refine ⟨g.name, raw, applyFilter cfg (u.man g.name) raw, (u.cur g.name).stopping, (u.cur g.name).worker, ?_⟩
  generalize stopState cfg u g raw now = s1 at *
  generalize applyFilter cfg (u.man g.name) raw = err at *
  generalize (u.cur g.name).stopping = told at *
  generalize (u.cur g.name).worker = lost at *
  obtain ⟨d0, fx⟩ := fx
  rw [huh] at fx
  by_cases hd : s1.tick.dying = true
  · rw [if_pos hd] at hh
    refine ⟨q ++ d0, by rw [hh, fx]; simp, fun hk => absurd ?_ hk⟩
    rw [hh]; exact List.mem_append_right _ (hdk hd)
  rw [if_neg hd] at hh hman0
  -- bouncing the dependents comes after the reaction
  obtain ⟨r, hr0⟩ : ∃ r, r = reactToStop cfg s1.tick g.name told err vals := ⟨_, rfl⟩
  rw [← hr0] at hh hman0
  have hext : Ext r (if lost.isSome = true then bounceDependents cfg r g.name else r) := by
    split
    · exact ext_bounceList _ _ _
    · exact .refl _
  generalize (if lost.isSome = true then bounceDependents cfg r g.name else r) = z at *
  obtain ⟨z1, dz, z2⟩ := hext
  have hmz : ∀ x, manH s'.hist x = r.manifolds.get? x := by
    intro x; rw [← i'.man, hman0, z1]
  have hmt : ∀ x, s1.tick.manifolds.get? x = manH s.hist x := by
    intro x; rw [tick_manifolds, f1, hum, i.man]
  have hti : (s1.tick.manifolds.get? g.name).isSome = true := by
    rw [tick_manifolds, f1]; exact hui
  have hts : (s1.tick.cur g.name).stopped = true := by
    rw [tick_cur, f5, if_pos rfl]; rfl
  rw [reactToStop_reaction] at hr0
  have hd' : s1.tick.dying = false := by simpa using hd
  have start : ∀ d, r = requestStart s1.tick g.name d → ∃ delta,
      s'.hist = delta ++ .ended g.name g.gid now raw err told lost :: s.hist ∧ (.kill ∉ s'.hist →
        (∃ k e sn, .begin g.name k d e sn ∈ delta) ∧ ∀ x, manH s'.hist x = manH s.hist x) := by
    intro d hr1
    obtain ⟨q', hq', hb⟩ := requestStart_begins hti hts d hd'
    rw [← hr1] at hq' hb
    refine ⟨q ++ dz ++ q' ++ d0, by rw [hh, z2, hq', fx]; simp, fun hk => ⟨?_, fun x => ?_⟩⟩
    · rcases hb with hb | ⟨k, e, sn, hb⟩
      · refine absurd ?_ hk
        rw [hh, z2]; simp [hb]
      · exact ⟨k, e, sn, by simp [hb]⟩
    · rw [hmz, hr1, requestStart_manifolds, hmt]
  cases hre : reactionTo told err with
  | bounce => rw [hre] at hr0; exact start _ hr0
  | retry => rw [hre] at hr0; exact start _ hr0
  | remove =>
    rw [hre] at hr0
    refine ⟨q ++ dz ++ .uninstalled g.name :: d0, by rw [hh, z2, hr0]; simp [uninstall, fx], fun _ => ⟨by simp, ?_⟩⟩
    intro x
    rw [hmz, hr0, ← hmt]
    show (s1.tick.manifolds.erase g.name).get? x = _
    rw [AMap.get?_erase]
  | wait =>
    rw [hre] at hr0
    refine ⟨q ++ dz ++ d0, by rw [hh, z2, hr0, fx]; simp, fun _ x => ?_⟩
    rw [hmz, hr0, hmt]

-- a failed worker is started again after ErrorDelay
example : ∃ s s', Reach Demo.cfg s ∧ step Demo.cfg s (.armStopped 0 4 Demo.noVals none) = some s' ∧
    Demo.has s' (fun e => match e with | .begin 0 1 3 1 _ => true | _ => false) = true ∧
    .kill ∉ s'.hist :=
  ⟨(Demo.after Demo.cfg (Demo.opsTwice.take 3)), (step Demo.cfg (Demo.after Demo.cfg (Demo.opsTwice.take 3)) (.armStopped 0 4 Demo.noVals none)).getD init,
    Demo.after_reach _ _, by decide +kernel, by decide +kernel, by decide +kernel⟩

-- ErrUninstall
example : ∃ s s', Reach Demo.cfg s ∧ step Demo.cfg s (.armStopped 0 9 Demo.vals01 none) = some s' ∧
    .uninstalled 0 ∈ s'.hist ∧
    .kill ∉ s'.hist :=
  ⟨(Demo.after Demo.cfg (Demo.opsUninstall.take 9)), (step Demo.cfg (Demo.after Demo.cfg (Demo.opsUninstall.take 9)) (.armStopped 0 9 Demo.vals01 none)).getD init,
    Demo.after_reach _ _, by decide +kernel, by decide +kernel, by decide +kernel⟩

-- a worker that was told to stop
example : ∃ s s', Reach Demo.cfg s ∧ step Demo.cfg s (.armStopped 2 101 Demo.noVals none) = some s' ∧
    Demo.has s' (fun e => match e with | .begin 1 4 1 _ _ => true | _ => false) = true ∧
    .kill ∉ s'.hist :=
  ⟨(Demo.after Demo.cfg (Demo.opsBounce.take 19)), (step Demo.cfg (Demo.after Demo.cfg (Demo.opsBounce.take 19)) (.armStopped 2 101 Demo.noVals none)).getD init,
    Demo.after_reach _ _, by decide +kernel, by decide +kernel, by decide +kernel⟩

example : reactionTo false (some (.wrap 1 .bounce)) = .bounce ∧ reactionTo false (some (.wrap 1 .missing)) = .wait ∧
    reactionTo false (some (.user 1)) = .retry ∧ reactionTo true none = .bounce ∧ reactionTo false none = .wait ∧
    reactionTo false (some .uninstall) = .remove := by decide

end Verif.Props
