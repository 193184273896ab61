import Verif.Engine.ExactRel

/-!
Every history of an engine is one that the specification allows.
-/

namespace Verif.Engine
open State Verif.Spec

variable {cfg : Config} {h0 : List Ev} {L0 : Hidden} {s t : State} {rf : Name → Bool}

/-- What may be seen of an engine from some time on: `After`, from there. -/
inductive From (cfg : Config) (h0 : List Ev) (L0 : Hidden) : List Ev → Hidden → Prop
  | new : From cfg h0 L0 h0 L0
  | event {h L e L'} (ha : From cfg h0 L0 h L) (hu : urgent cfg h = none) (hs : Happens cfg h L e L') :
      From cfg h0 L0 (e :: h) L'
  | forced {h L e} (ha : From cfg h0 L0 h L) (hu : urgent cfg h = some e) : From cfg h0 L0 (e :: h) L
  | silent {h L l} (ha : From cfg h0 L0 h L) (hu : urgent cfg h = none) (hs : Silent h L.loop l) :
      From cfg h0 L0 h { L with loop := l }

theorem From.after {h0 h : List Ev} {L0 L : Hidden} (ha : From cfg h0 L0 h L) (h1 : After cfg h0 L0) : After cfg h L := by
  induction ha with
  | new => exact h1
  | event _ hu hs ih => exact .event ih hu hs
  | forced _ hu ih => exact .forced ih hu
  | silent _ hu hs ih => exact .silent ih hu hs

theorem from_new {h : List Ev} {L : Hidden} (ha : After cfg h L) : From cfg [] {} h L := by
  induction ha with
  | new => exact .new
  | event _ hu hs ih => exact .event ih hu hs
  | forced _ hu ih => exact .forced ih hu
  | silent _ hu hs ih => exact .silent ih hu hs

theorem Refused.congr {h h' : List Ev} {w w' : Option WRef} {g g' : G} (hn : g'.name = g.name) (hpc : g'.pc = g.pc)
    (hph : phaseH h' g.name = phaseH h g.name) (hw : w' = w) : Refused h' w' g' ↔ Refused h w g := by
  unfold Refused; rw [hn, hpc, hph, hw]

theorem RefInv.same (r : RefInv s rf) (h1 : t.gs = s.gs) (h2 : ∀ n, (t.cur n).worker = (s.cur n).worker)
    (h3 : ∀ n, phaseH t.hist n = phaseH s.hist n) : RefInv t rf := by
  intro g hg
  rw [h1] at hg
  rw [r g hg]
  exact (Refused.congr rfl rfl (h3 _) (h2 _)).symm

theorem RefInv.pc {rf' : Name → Bool} (r : RefInv s rf) (c : Core s) {g : G} (hg : g ∈ s.gs) (p : Pc)
    (h1 : t.gs = (s.mapG g.gid (fun g => { g with pc := p })).gs)
    (h2 : ∀ n, n ≠ g.name → (t.cur n).worker = (s.cur n).worker)
    (h3 : ∀ n, n ≠ g.name → phaseH t.hist n = phaseH s.hist n) (h4 : ∀ n, n ≠ g.name → rf' n = rf n)
    (h5 : rf' g.name = true ↔ Refused t.hist (t.cur g.name).worker { g with pc := p }) : RefInv t rf' := by
  intro y hy
  rw [h1] at hy
  obtain ⟨x, hx, rfl⟩ := List.mem_map.1 hy
  by_cases e : x.gid = g.gid
  · have := c.gid_inj hx hg e
    subst this
    rw [if_pos rfl]; exact h5
  · rw [if_neg e]
    have hne : x.name ≠ g.name := fun he => e (congrArg G.gid (c.name_inj hx hg he))
    rw [h4 _ hne, r x hx]
    exact (Refused.congr rfl rfl (h3 _ hne) (h2 _ hne)).symm

theorem put_ne {α : Type} {f : Name → α} {n x : Name} {a : α} (h : x ≠ n) : put f n a x = f x := by
  unfold put; rw [if_neg h]

theorem put_self {α : Type} {f : Name → α} {n : Name} {a : α} : put f n a n = a := by unfold put; rw [if_pos rfl]

/-- The engine after Kill of a worker, and what follows at once. -/
theorem From.killWorker {L : Hidden} (w : WRef) (ha : From cfg h0 L0 (.killW w :: s.hist) L) :
    From cfg h0 L0 (s.killWorker w).hist L ∧ urgent cfg (s.killWorker w).hist = none := by
  cases w with
  | obj k => exact ⟨ha, rfl⟩
  | self => exact ⟨.forced ha rfl, rfl⟩

theorem killWorker_phase (w : WRef) (n : Name) : phaseH (s.killWorker w).hist n = phaseH s.hist n := by cases w <;> rfl

/-- The result of a step: a history that is allowed, and the relation. -/
def Good (cfg : Config) (h0 : List Ev) (L0 : Hidden) (f : Fine) : Prop :=
  ∃ L, From cfg h0 L0 f.s.hist L ∧ urgent cfg f.s.hist = none ∧ Sim cfg f L

/-- The same, the loop being where it was. -/
def GoodAt (cfg : Config) (h0 : List Ev) (L0 : Hidden) (f : Fine) (l : Loop) : Prop :=
  ∃ L, L.loop = l ∧ From cfg h0 L0 f.s.hist L ∧ urgent cfg f.s.hist = none ∧ Sim cfg f L

theorem GoodAt.good {f : Fine} {l : Loop} (h : GoodAt cfg h0 L0 f l) : Good cfg h0 L0 f :=
  let ⟨L, _, h⟩ := h; ⟨L, h⟩

theorem GoodAt.event {f : Fine} {h : List Ev} {L : Hidden} {e : Ev} (ha : From cfg h0 L0 h L) (hu : urgent cfg h = none)
    (hs : Happens cfg h L e L) (hh : f.s.hist = e :: h) (hn : urgent cfg (e :: h) = none) (sim : Sim cfg f L) :
    GoodAt cfg h0 L0 f L.loop :=
  ⟨L, rfl, by rw [hh]; exact .event ha hu hs, by rw [hh]; exact hn, sim⟩

/-- One more event, and nothing urgent. -/
theorem Good.event {f : Fine} {h : List Ev} {L L' : Hidden} {e : Ev} (ha : From cfg h0 L0 h L) (hu : urgent cfg h = none)
    (hs : Happens cfg h L e L') (hh : f.s.hist = e :: h) (hn : urgent cfg (e :: h) = none) (sim : Sim cfg f L') : Good cfg h0 L0 f :=
  ⟨L', by rw [hh]; exact .event ha hu hs, by rw [hh]; exact hn, sim⟩

theorem no_worker (c : Core s) {g : G} (hg : g ∈ s.gs) {w : WRef} (hpc : g.pc = .registering w) :
    (s.cur g.name).worker = none := by
  cases hw : (s.cur g.name).worker with
  | none => rfl
  | some w' =>
    rcases ((c.rel g hg).worker w' hw).2 with hp | ⟨e, hp⟩
    · rw [hpc] at hp; cases w' <;> simp [afterOffer] at hp
    · rw [hpc] at hp; cases hp

theorem pc_phase {g : G} (i : HInv cfg s) (hg : g ∈ s.gs) {P : Prop} {p : Pc} (hpc : g.pc = p)
    (h : PcOk s.hist { g with pc := p } → P) : P := h (by have := i.pc g hg; subst hpc; exact this)

theorem not_refused {g : G} (r : RefInv s rf) (hg : g ∈ s.gs) (hpc : g.pc = .delaying ∨ g.pc = .starting ∨
    ∃ w, g.pc = .registering w) : rf g.name = false := by
  cases h : rf g.name with
  | false => rfl
  | true =>
    have := (r g hg).1 h
    unfold Refused at this
    rcases hpc with hp | hp | ⟨w, hp⟩ <;> rw [hp] at this <;> exact this.2.elim

theorem refused_offered {h : List Ev} {w : WRef} {g : G} : Refused h none { g with pc := afterOffer w } := by
  cases w <;> exact ⟨rfl, trivial⟩

/-- What there is after a step of the loop, without what it does next. -/
def Half (cfg : Config) (h0 : List Ev) (L0 : Hidden) (s : State) (L : Hidden) : Prop :=
  From cfg h0 L0 s.hist L ∧ urgent cfg s.hist = none ∧ L.deps = depsOf s.dependents ∧ RefInv s L.refused

theorem Half.good {ts : List Task} {L : Hidden} (h : Half cfg h0 L0 s L) (hl : LoopRel cfg s ts L.loop) : Good cfg h0 L0 ⟨s, ts⟩ :=
  ⟨L, h.1, h.2.1, h.2.2.1, h.2.2.2, hl⟩

/-- A worker is refused. -/
theorem refuse_half {L : Hidden} (c : Core s) (i : HInv cfg s) (ha : From cfg h0 L0 s.hist L)
    (hu : urgent cfg s.hist = none) (sd : L.deps = depsOf s.dependents) (r : RefInv s L.refused) {g : G} (hg : g ∈ s.gs) {w : WRef}
    (hpc : g.pc = .registering w) (hc : .kill ∈ s.hist ∨ (.cancelled g.gid ∈ s.hist ∧ L.loop = .idle)) :
    Half cfg h0 L0 ((s.mapG g.gid (fun g => { g with pc := afterOffer w })).killWorker w) { L with refused := put L.refused g.name true } := by
  have hnw := no_worker c hg hpc
  have hh : Happens cfg s.hist L (.killW w) { L with refused := put L.refused g.name true } :=
    .refuse L g.name g.gid w (i.openG g hg) (pc_phase i hg hpc (fun h => h)) (by rw [← i.worker]; exact hnw)
      (not_refused r hg (Or.inr (Or.inr ⟨w, hpc⟩))) hc
  have h1 := From.killWorker (s := s.mapG g.gid (fun g => { g with pc := afterOffer w })) w (.event ha hu hh)
  refine ⟨h1.1, h1.2, ?_, ?_⟩
  · show L.deps = depsOf (((s.mapG g.gid (fun g => { g with pc := afterOffer w })).killWorker w)).dependents
    rw [(Frame.killWorker _ w).dependents]; exact sd
  · refine r.pc c hg (afterOffer w) (killWorker_gs _ w) ?_ ?_ (fun n hn => put_ne hn) ?_
    · intro n _; rw [killWorker_cur]; rfl
    · intro n _; rw [killWorker_phase]; rfl
    · show put L.refused g.name true g.name = true ↔ _
      rw [put_self, killWorker_cur]
      show _ ↔ Refused _ (s.cur g.name).worker _
      rw [hnw]
      exact ⟨fun _ => refused_offered, fun _ => rfl⟩

theorem refuse_good {todo : List Task} {L : Hidden} (c : Core s) (i : HInv cfg s) (ha : From cfg h0 L0 s.hist L)
    (hu : urgent cfg s.hist = none) (sd : L.deps = depsOf s.dependents) (r : RefInv s L.refused) {g : G} (hg : g ∈ s.gs) {w : WRef}
    (hpc : g.pc = .registering w) (hc : .kill ∈ s.hist ∨ (.cancelled g.gid ∈ s.hist ∧ L.loop = .idle))
    (hl : LoopRel cfg ((s.mapG g.gid (fun g => { g with pc := afterOffer w })).killWorker w) todo L.loop) :
    Good cfg h0 L0 ⟨(s.mapG g.gid (fun g => { g with pc := afterOffer w })).killWorker w, todo⟩ :=
  (refuse_half c i ha hu sd r hg hpc hc).good hl

/-- What others do refuses no worker. -/
theorem env_ref {s' : State} {op : Op} (c : Core s) (i : HInv cfg s) (r : RefInv s rf) (he : op.isEnv = true)
    (hne : ∀ gid, op ≠ .gRegisterDying gid) (h : step cfg s op = some s') : RefInv s' rf := by
  cases op with
  | armDying | armReport | armInstall | armStarted | armStopped => cases he
  | gRegisterDying gid => exact absurd rfl (hne gid)
  | kill =>
    simp only [step, Option.some.injEq] at h; subst h
    exact r.same rfl (fun _ => rfl) (fun _ => rfl)
  | installRefused n =>
    simp only [step] at h
    split at h
    · simp only [Option.some.injEq] at h; subst h
      exact r.same rfl (fun _ => rfl) (fun _ => rfl)
    · cases h
  | finish w e =>
    simp only [step] at h
    split at h
    · simp only [Option.some.injEq] at h; subst h
      exact r.same rfl (fun _ => rfl) (fun _ => rfl)
    · cases h
  | gAbort gid =>
    simp only [step] at h
    split at h
    · rename_i g hget
      obtain ⟨hg, hgid⟩ := getG_some s gid hget
      subst hgid
      split at h
      · rename_i hc
        simp only [Option.some.injEq] at h; subst h
        refine r.pc c hg _ rfl (fun n _ => rfl) (fun n _ => rfl) (fun n _ => rfl) ?_
        rw [not_refused r hg (Or.inl hc.1)]
        refine ⟨nofun, fun h => ?_⟩
        obtain ⟨_, w, hw⟩ := h
        have hw : phaseH s.hist g.name = .ok w := hw
        rw [pc_phase (P := phaseH s.hist g.name = .delayed) i hg hc.1 (fun h => h)] at hw; cases hw
      · cases h
    · cases h
  | gTimer gid fuzz =>
    simp only [step] at h
    split at h
    · rename_i g hget
      obtain ⟨hg, hgid⟩ := getG_some s gid hget
      subst hgid
      split at h
      · rename_i hc
        simp only [Option.some.injEq] at h; subst h
        refine r.pc c hg .starting rfl (fun n _ => rfl) ?_ (fun n _ => rfl) ?_
        · intro n hn
          show (if n = g.name then _ else _) = _
          rw [if_neg hn]; rfl
        · rw [not_refused r hg (Or.inl hc.1)]
          exact ⟨nofun, fun h => h.2.elim⟩
      · cases h
    · cases h
  | gGet gid res out =>
    simp only [step] at h
    split at h
    · split at h
      · cases h
      · simp only [Option.some.injEq] at h; subst h
        exact r.same rfl (fun _ => rfl) (fun _ => rfl)
    · cases h
  | gStartOk gid w =>
    simp only [step] at h
    split at h
    · rename_i g hget
      obtain ⟨hg, hgid⟩ := getG_some s gid hget
      subst hgid
      split at h
      · rename_i hc
        simp only [Option.some.injEq] at h; subst h
        refine r.pc c hg (.registering w) rfl (fun n _ => rfl) ?_ (fun n _ => rfl) ?_
        · intro n hn
          show (if n = g.name then _ else _) = _
          rw [if_neg hn]; rfl
        · rw [not_refused r hg (Or.inr (Or.inl hc))]
          exact ⟨nofun, fun h => h.2.elim⟩
      · cases h
    · cases h
  | gStartErr gid e =>
    simp only [step] at h
    split at h
    · rename_i g hget
      obtain ⟨hg, hgid⟩ := getG_some s gid hget
      subst hgid
      split at h
      · rename_i hc
        simp only [Option.some.injEq] at h; subst h
        refine r.pc c hg (.sendStopped (startError e)) rfl (fun n _ => rfl) ?_ (fun n _ => rfl) ?_
        · intro n hn
          show (if n = g.name then _ else _) = _
          rw [if_neg hn]; rfl
        · rw [not_refused r hg (Or.inr (Or.inl hc))]
          refine ⟨nofun, fun h => ?_⟩
          obtain ⟨_, w, hw⟩ := h
          have hw : (if g.name = g.name then Phase.failed e else _) = Phase.ok w := hw
          rw [if_pos rfl] at hw; cases hw
      · cases h
    · cases h
  | gSelfDone gid =>
    simp only [step] at h
    split at h
    · rename_i g hget
      obtain ⟨hg, hgid⟩ := getG_some s gid hget
      subst hgid
      split at h
      · rename_i hc
        simp only [Option.some.injEq] at h; subst h
        refine r.pc c hg _ rfl (fun n _ => rfl) (fun n _ => rfl) (fun n _ => rfl) ?_
        rw [r g hg]
        unfold Refused
        rw [hc.1]
        exact and_congr_right (fun _ => ⟨fun _ => ⟨_, pc_phase i hg hc.1 (fun h => h)⟩, fun _ => trivial⟩)
      · cases h
    · cases h
  | gWaitRet gid =>
    simp only [step] at h
    split at h
    · rename_i g hget
      obtain ⟨hg, hgid⟩ := getG_some s gid hget
      subst hgid
      split at h
      · rename_i w hpc
        split at h
        · simp only [Option.some.injEq] at h; subst h
          refine r.pc c hg _ rfl (fun n _ => rfl) (fun n _ => rfl) (fun n _ => rfl) ?_
          rw [r g hg]
          unfold Refused
          rw [hpc]
          exact and_congr_right (fun _ => ⟨fun _ => ⟨_, pc_phase i hg hpc (fun h => h)⟩, fun _ => trivial⟩)
        · cases h
      · cases h
    · cases h

theorem env_sim {s' : State} {todo : List Task} {L : Hidden} {op : Op} (c : Core s) (i : HInv cfg s)
    (sim : Sim cfg ⟨s, todo⟩ L) (he : op.isEnv = true) (hne : ∀ gid, op ≠ .gRegisterDying gid)
    (h : step cfg s op = some s') : Sim cfg ⟨s', todo⟩ L :=
  ⟨by rw [show depsOf (Fine.s ⟨s', todo⟩).dependents = depsOf s.dependents from congrArg depsOf (env_frame he h).dependents]; exact sim.deps,
    env_ref c i sim.ref he hne h, sim.loop.frame (env_frame he h)⟩

theorem env_good {s' : State} {todo : List Task} {L : Hidden} {op : Op} (c : Core s) (i : HInv cfg s) (x : XInv s)
    (ha : From cfg h0 L0 s.hist L) (hu : urgent cfg s.hist = none) (sim : Sim cfg ⟨s, todo⟩ L) (he : op.isEnv = true)
    (h : step cfg s op = some s') : GoodAt cfg h0 L0 ⟨s', todo⟩ L.loop := by
  by_cases hne : ∃ gid, op = .gRegisterDying gid
  · obtain ⟨gid, rfl⟩ := hne
    have hl := sim.loop.frame (env_frame he h)
    simp only [step] at h
    split at h
    · rename_i g hget
      obtain ⟨hg, hgid⟩ := getG_some s gid hget
      subst hgid
      split at h
      · rename_i w hpc
        split at h
        · rename_i hd
          simp only [Option.some.injEq] at h; subst h
          have hh := refuse_half c i ha hu sim.deps sim.ref hg hpc (Or.inl (i.dying.1 hd))
          exact ⟨{ L with refused := put L.refused g.name true }, rfl, hh.1, hh.2.1, hh.2.2.1, hh.2.2.2, hl⟩
        · cases h
      · cases h
    · cases h
  have sim' := env_sim c i sim he (fun gid e => hne ⟨gid, e⟩) h
  cases op with
  | armDying | armReport | armInstall | armStarted | armStopped => cases he
  | gRegisterDying gid => exact absurd ⟨gid, rfl⟩ hne
  | kill =>
    simp only [step, Option.some.injEq] at h; subst h
    exact .event ha hu (.kill L) rfl rfl sim'
  | installRefused n =>
    simp only [step] at h
    split at h
    · rename_i hd
      simp only [Option.some.injEq] at h; subst h
      exact .event ha hu (.refuseInstall L n (i.dying.1 hd)) rfl rfl sim'
    · cases h
  | finish w e =>
    simp only [step] at h
    split at h
    · rename_i hw
      simp only [Option.some.injEq] at h; subst h
      refine .event ha hu (.finished L w e (fun e' hm => ?_)) rfl rfl sim'
      rw [← i.fin] at hm
      rw [hm] at hw; cases hw
    · cases h
  | gAbort gid =>
    simp only [step] at h
    split at h
    · split at h
      · simp only [Option.some.injEq] at h; subst h
        exact ⟨L, rfl, ha, hu, sim'⟩
      · cases h
    · cases h
  | gTimer gid fuzz =>
    simp only [step] at h
    split at h
    · rename_i g hget
      obtain ⟨hg, hgid⟩ := getG_some s gid hget
      subst hgid
      split at h
      · rename_i hc
        simp only [Option.some.injEq] at h; subst h
        exact .event ha hu (.startCall L g.name g.gid g.base g.recent fuzz (i.openG g hg) (pc_phase i hg hc.1 (fun h => h))
          (x.delaying g hg hc.1) (x.base g hg) hc.2) rfl rfl sim'
      · cases h
    · cases h
  | gGet gid res out =>
    simp only [step] at h
    split at h
    · rename_i g hget
      obtain ⟨hg, hgid⟩ := getG_some s gid hget
      subst hgid
      split at h
      · cases h
      · rename_i hc
        simp only [Option.some.injEq] at h; subst h
        by_cases hs : g.pc = .starting
        · have e : getResult cfg g res out = answerH cfg g.snap res out := by
            unfold getResult; rw [hs]; exact answer_eq cfg _ _ _
          refine .event ha hu (.get L g.name g.gid g.snap res out (i.openG g hg) (pc_phase i hg hs (fun h => h)) (i.beg g hg)) ?_ rfl sim'
          rw [← e]; rfl
        · have e : getResult cfg g res out = some .expired := by
            unfold getResult Pc.expired
            cases hp : g.pc <;> simp_all
          refine .event ha hu (.getLate L g.name g.gid res out (i.openG g hg) ?_ ?_) (by rw [← e]; rfl) rfl sim'
          all_goals
            have hp := i.pc g hg
            unfold PcOk at hp
            intro hph
            rw [hph] at hp
            cases hpc : g.pc <;> simp_all
    · cases h
  | gStartOk gid w =>
    simp only [step] at h
    split at h
    · rename_i g hget
      obtain ⟨hg, hgid⟩ := getG_some s gid hget
      subst hgid
      split at h
      · rename_i hc
        simp only [Option.some.injEq] at h; subst h
        exact .event ha hu (.startOk L g.name g.gid w (i.openG g hg) (pc_phase i hg hc (fun h => h))) rfl rfl sim'
      · cases h
    · cases h
  | gStartErr gid e =>
    simp only [step] at h
    split at h
    · rename_i g hget
      obtain ⟨hg, hgid⟩ := getG_some s gid hget
      subst hgid
      split at h
      · rename_i hc
        simp only [Option.some.injEq] at h; subst h
        exact .event ha hu (.startErr L g.name g.gid e (i.openG g hg) (pc_phase i hg hc (fun h => h))) rfl rfl sim'
      · cases h
    · cases h
  | gSelfDone gid =>
    simp only [step] at h
    split at h
    · split at h
      · simp only [Option.some.injEq] at h; subst h
        exact ⟨L, rfl, ha, hu, sim'⟩
      · cases h
    · cases h
  | gWaitRet gid =>
    simp only [step] at h
    split at h
    · split at h
      · split at h
        · simp only [Option.some.injEq] at h; subst h
          exact ⟨L, rfl, ha, hu, sim'⟩
        · cases h
      · cases h
    · cases h

end Verif.Engine
