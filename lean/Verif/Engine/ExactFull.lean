import Verif.Engine.ExactBack

/-!
Every history that the specification allows is one of an engine.
-/

namespace Verif.Engine
open State Verif.Spec

variable {cfg : Config} {s t : State} {rf : Name → Bool} {D : Debt} {todo : List Task} {L L' : Hidden} {R : Fine → Prop}

theorem LoopRel.of_idle {ts : List Task} {lp : Loop} (h : LoopRel cfg s ts lp) (e : lp = .idle) : s.tomb.dead = false := by
  cases h with
  | idle hd | report hd | check hd | stops _ _ hd => exact hd
  | look | busy | gone => cases e

/-! ## Where the goroutines are -/

theorem pc_starting (i : HInv cfg s) {g : G} (hg : g ∈ s.gs) (hp : phaseH s.hist g.name = .inStart) : g.pc = .starting := by
  have := i.pc g hg
  unfold PcOk at this
  rw [hp] at this
  cases hpc : g.pc <;> simp_all

theorem pc_delaying (i : HInv cfg s) {g : G} (hg : g ∈ s.gs) (hsl : Slow s.hist g) (hp : phaseH s.hist g.name = .delayed)
    (hn : ∀ res out a, .get g.gid res out a ∉ s.hist) : g.pc = .delaying := by
  have := i.pc g hg
  unfold PcOk at this
  rw [hp] at this
  cases hpc : g.pc with
  | delaying => rfl
  | starting | registering | selfWait | waiting => rw [hpc] at this; cases this
  | sendStopped e =>
    rcases hsl e hpc with ⟨e0, h⟩ | ⟨_, res, out, a, h⟩
    · rw [hp] at h; cases h
    · exact absurd h (hn res out a)

theorem pc_registering (i : HInv cfg s) (r : RefInv s rf) {g : G} (hg : g ∈ s.gs) {w : WRef}
    (hp : phaseH s.hist g.name = .ok w) (hw : workerH s.hist g.name = none) (hr : rf g.name = false) :
    g.pc = .registering w := by
  have hnr : ¬ Refused s.hist (s.cur g.name).worker g := fun h => by rw [(r g hg).2 h] at hr; cases hr
  rw [i.worker, hw] at hnr
  have := i.pc g hg
  unfold PcOk at this
  unfold Refused at hnr
  rw [hp] at this
  cases hpc : g.pc with
  | delaying | starting => rw [hpc] at this; cases this
  | registering w' => rw [hpc] at this; injection this with this; rw [this]
  | selfWait | waiting => rw [hpc] at hnr; exact absurd ⟨rfl, trivial⟩ hnr
  | sendStopped e => rw [hpc] at hnr; exact absurd ⟨rfl, w, hp⟩ hnr

/-! ## What others do -/

/-- One step of others. -/
theorem canon_env (M : Moves cfg R) {op : Op} {e : Ev} (hr : R ⟨s, todo⟩) (sim : Sim cfg ⟨s, todo⟩ L) (ha : From cfg [] {} s.hist L)
    (hu : urgent cfg s.hist = none) (hidle : L.loop = .idle → todo = []) (he : op.isEnv = true)
    (hne : ∀ gid, op ≠ .gRegisterDying gid) (hni : ∀ n, op ≠ .installRefused n) (h : step cfg s op = some t) (hh : t.hist = e :: s.hist)
    (hn : urgent cfg (e :: s.hist) = none) (hs : Happens cfg s.hist L e L) (slow : AllSlow t) :
    ∃ f', Canon cfg R f' L ∧ Ext cfg (e :: s.hist) f'.s.hist := by
  obtain ⟨D, hx, _⟩ := freach_link (M.reach hr)
  obtain ⟨c, i⟩ := ex_hinv hx
  have sim' := env_sim c i sim he hne h
  exact ⟨_, ⟨M.env hr he hni h, ⟨by rw [hh]; exact .event ha hu hs, by rw [hh]; exact hn, sim'.deps, sim'.ref⟩, sim'.loop, slow,
    hidle⟩, by rw [hh]; exact .refl hn⟩

theorem mem_tail_of {h : List Ev} {e : Ev} : ∀ x ∈ h, x ∈ e :: h := fun _ hx => List.mem_cons_of_mem _ hx

theorem abort_step (c : Core s) (i : HInv cfg s) {g : G} (hg : g ∈ s.gs) (hpc : g.pc = .delaying)
    (hc : .cancelled g.gid ∈ s.hist ∨ .kill ∈ s.hist) :
    step cfg s (.gAbort g.gid) = some (s.mapG g.gid (fun g => { g with pc := .sendStopped (some .aborted) })) := by
  simp only [step, c.getG_eq hg]
  rw [if_pos ⟨hpc, hc.elim (fun h => Or.inr ((i.canc g hg).2 h)) (fun h => Or.inl (i.dying.2 h))⟩]

/-- An attempt that is over asks for a resource. -/
theorem canon_late (M : Moves cfg R) (hr : R ⟨s, todo⟩) (sim : Sim cfg ⟨s, todo⟩ L) (ha : From cfg [] {} s.hist L)
    (hu : urgent cfg s.hist = none) (hidle : L.loop = .idle → todo = []) {g : G} (hg : g ∈ s.gs) {res : Name} {out : Option Nat}
    (hpc : g.pc ≠ .delaying) (hp : g.pc ≠ .starting) (slow : SlowBut s g.gid)
    (hsl : Slow (.get g.gid res out (some .expired) :: s.hist) g)
    (hs : Happens cfg s.hist L (.get g.gid res out (some .expired)) L) :
    ∃ f', Canon cfg R f' L ∧ Ext cfg (.get g.gid res out (some .expired) :: s.hist) f'.s.hist := by
  obtain ⟨D, hx, _⟩ := freach_link (M.reach hr)
  obtain ⟨c, i⟩ := ex_hinv hx
  have c : Core s := c
  have e : getResult cfg g res out = some .expired := by
    unfold getResult Pc.expired
    cases hp' : g.pc <;> simp_all
  refine canon_env M (op := .gGet g.gid res out) hr sim ha hu hidle rfl nofun nofun
    (t := s.log (.get g.gid res out (some .expired))) ?_ rfl rfl hs ?_
  · simp only [step, c.getG_eq hg, if_neg hpc, e]
  · intro y hy
    have hy : y ∈ s.gs := hy
    by_cases e : y.gid = g.gid
    · rw [c.gid_inj hy hg e]; exact hsl
    · exact (slow y hy e).mono rfl rfl rfl rfl mem_tail_of

/-! ## How an attempt ends -/

/-- The attempt notices what it has to report. -/
theorem prep_end (M : Moves cfg R) (k : Canon cfg R ⟨s, todo⟩ L) {n : Name} {gid : Nat} {raw : Option Err} (ho : openH s.hist n = some gid)
    (he : EndsWith s.hist L n gid raw) :
    ∃ s1, R ⟨s1, todo⟩ ∧ Sim cfg ⟨s1, todo⟩ L ∧ s1.hist = s.hist ∧ s1.dependents = s.dependents ∧ SlowBut s1 gid ∧
      ∃ g ∈ s1.gs, g.gid = gid ∧ g.name = n ∧ g.pc = .sendStopped raw := by
  have sim := k.sim
  obtain ⟨hr, ⟨ha, hu, sd, r⟩, sl, slow, hidle⟩ := k
  obtain ⟨D, hx, _⟩ := freach_link (M.reach hr)
  obtain ⟨c, i⟩ := ex_hinv hx
  have c : Core s := c
  have i : HInv cfg s := i
  have r : RefInv s L.refused := r
  have slow : AllSlow s := slow
  obtain ⟨g, hg, rfl, rfl⟩ := i.openN n gid ho
  have stay : g.pc = .sendStopped raw → ∃ s1, R ⟨s1, todo⟩ ∧ Sim cfg ⟨s1, todo⟩ L ∧ s1.hist = s.hist ∧
      s1.dependents = s.dependents ∧ SlowBut s1 g.gid ∧
      ∃ x ∈ s1.gs, x.gid = g.gid ∧ x.name = g.name ∧ x.pc = .sendStopped raw :=
    fun h => ⟨s, hr, sim, rfl, rfl, fun y hy _ => slow y hy, g, hg, rfl, rfl, h⟩
  have move : ∀ op : Op, op.isEnv = true → (∀ gid, op ≠ .gRegisterDying gid) → (∀ n, op ≠ .installRefused n) →
      step cfg s op = some (s.mapG g.gid (fun g => { g with pc := .sendStopped raw })) →
      ∃ s1, R ⟨s1, todo⟩ ∧ Sim cfg ⟨s1, todo⟩ L ∧ s1.hist = s.hist ∧ s1.dependents = s.dependents ∧ SlowBut s1 g.gid ∧
        ∃ x ∈ s1.gs, x.gid = g.gid ∧ x.name = g.name ∧ x.pc = .sendStopped raw := by
    intro op he hne hni h
    refine ⟨_, M.env hr he hni h, env_sim c i sim he hne h, rfl, rfl, SlowBut.of_pc slow c hg _ rfl (fun _ _ => rfl) (fun _ h => h),
      { g with pc := .sendStopped raw }, ?_, rfl, rfl, rfl⟩
    exact List.mem_map.2 ⟨g, hg, by rw [if_pos rfl]⟩
  have hp := i.pc g hg
  unfold EndsWith at he
  unfold PcOk at hp
  have offered : ∀ w, phaseH s.hist g.name = .ok w → (workerH s.hist g.name ≠ none ∨ L.refused g.name = true) →
      g.pc = afterOffer w := by
    intro w hw h
    cases hpc : g.pc with
    | delaying | starting => rw [hpc, hw] at hp; cases hp
    | registering w' =>
      rcases h with h | h
      · rw [← i.worker, no_worker c hg hpc] at h; exact absurd rfl h
      · rw [not_refused r hg (Or.inr (Or.inr ⟨w', hpc⟩))] at h; cases h
    | selfWait => rw [hpc, hw] at hp; injection hp with hp; subst hp; rfl
    | waiting k => rw [hpc, hw] at hp; injection hp with hp; subst hp; rfl
    | sendStopped e =>
      rcases slow g hg e hpc with ⟨_, h⟩ | ⟨h, _⟩ <;> rw [hw] at h <;> cases h
  cases hph : phaseH s.hist g.name with
  | idle | inStart => rw [hph] at he; exact he.elim
  | delayed =>
    rw [hph] at he hp
    obtain ⟨rfl, hc⟩ := he
    cases hpc : g.pc with
    | delaying => exact move (.gAbort g.gid) rfl nofun nofun (abort_step c i hg hpc hc)
    | starting | registering | selfWait | waiting => rw [hpc] at hp; cases hp
    | sendStopped e =>
      rw [hpc] at hp
      rcases hp with ⟨_, h, _⟩ | ⟨_, h, _⟩ | ⟨_, h, _⟩ | ⟨h, _⟩
      · subst h; exact stay hpc
      all_goals cases h
  | failed e0 =>
    rw [hph] at he hp
    subst he
    refine stay ?_
    cases hpc : g.pc with
    | delaying | starting | registering | selfWait | waiting => rw [hpc] at hp; cases hp
    | sendStopped e =>
      rw [hpc] at hp
      rcases hp with ⟨h, _⟩ | ⟨_, h, h'⟩ | ⟨_, h, _⟩ | ⟨h, _⟩
      · cases h
      · injection h with h
        subst h
        rw [h', startError]
        by_cases ha : Err.aborted ∈ e0.tree
        · rw [if_pos ha, if_pos ((Err.is_iff_mem_tree _ _).2 ha)]
        · rw [if_neg ha, if_neg (fun h => ha ((Err.is_iff_mem_tree _ _).1 h))]
      · cases h
      · cases h
  | ok w =>
    rw [hph] at he
    cases w with
    | obj k =>
      obtain ⟨hf, h⟩ := he
      have hpc := offered _ hph h
      refine move (.gWaitRet g.gid) rfl nofun nofun ?_
      have hpc : g.pc = .waiting k := hpc
      simp only [step, c.getG_eq hg, hpc, (i.fin k raw).2 hf]
    | self =>
      obtain ⟨rfl, hk, h⟩ := he
      have hpc : g.pc = .selfWait := offered _ hph h
      refine move (.gSelfDone g.gid) rfl nofun nofun ?_
      simp only [step, c.getG_eq hg]
      rw [if_pos ⟨hpc, i.dying.2 hk⟩]

theorem valid_of_order {deps : AMap (List Name)} {n : Name} {order : Name → List Name}
    (hv : ∀ i, (order i).Nodup ∧ ∀ d, d ∈ order i ↔ d ∈ depsOf deps i ∧ d ≠ n) :
    validVals deps n order = true ∧ depsOf (dropDependent deps order) = order := by
  constructor
  · unfold validVals
    rw [List.all_eq_true]
    intro p _
    obtain ⟨h1, h2⟩ := hv p.1
    unfold depsOf at h2
    simp only [Bool.and_eq_true, decide_eq_true_eq, List.all_eq_true, Bool.or_eq_true, beq_iff_eq, bne_iff_ne,
      List.contains_iff_mem]
    refine ⟨⟨h1, fun d hd => (h2 d).1 hd⟩, fun d hd => ?_⟩
    by_cases e : d = n
    · exact Or.inl e
    · exact Or.inr ((h2 d).2 ⟨hd, e⟩)
  · funext i
    unfold depsOf
    rw [dropDependent_get]
    cases h : deps.get? i with
    | some l => rfl
    | none =>
      have : order i = [] := by
        refine List.eq_nil_iff_forall_not_mem.2 (fun d hd => ?_)
        have := (((hv i).2 d).1 hd).1
        unfold depsOf at this
        rw [h] at this
        cases this
      rw [this]; rfl

theorem canon_ended (M : Loose cfg R) (k : Canon cfg R ⟨s, todo⟩ L) {n : Name} {gid : Nat} {now : Int} {raw : Option Err} {m : Manifold}
    {order : Name → List Name} (hl : L.loop = .idle) (ho : openH s.hist n = some gid) (he : EndsWith s.hist L n gid raw)
    (hm : manH s.hist n = some m) (hv : ∀ i, (order i).Nodup ∧ ∀ d, d ∈ order i ↔ d ∈ L.deps i ∧ d ≠ n) :
    ∃ f', Canon cfg R f' { L with loop := .look (duties cfg L.deps order n (decide (.cancelled gid ∈ s.hist))
          (filterOf cfg m raw) (workerH s.hist n)) } ∧
      Ext cfg (.ended n gid now raw (filterOf cfg m raw) (decide (.cancelled gid ∈ s.hist)) (workerH s.hist n) :: s.hist)
        f'.s.hist := by
  have ht := k.fit.idle hl
  have ha := k.fit.half.1
  have hu := k.fit.half.2.1
  simp only at ht; subst ht
  obtain ⟨s1, hr, sim, e1, e2, slow, g, hg, rfl, rfl, hpc⟩ := prep_end M.toMoves k ho he
  have ha : From cfg [] {} s.hist L := ha
  rw [← e1] at ha hm ⊢
  replace hu : urgent cfg s1.hist = none := by rw [e1]; exact hu
  obtain ⟨D, hx, hp, hd, _⟩ := freach_link (M.reach hr)
  obtain ⟨c, i⟩ := ex_hinv hx
  have c : Core s1 := c
  have i : HInv cfg s1 := i
  have hdead : s1.tomb.dead = false := by
    exact sim.loop.of_idle hl
  rw [sim.deps] at hv
  obtain ⟨v1, v2⟩ := valid_of_order (deps := s1.dependents) hv
  have hst : (s1.cur g.name).stopping = decide (Ev.cancelled g.gid ∈ s1.hist) := by
    have := i.told c hg
    cases hh : (s1.cur g.name).stopping <;> simp_all
  obtain ⟨h1, h2, h3⟩ := half_ended c i (Half.refl ha hu sim) hl hg hpc now v1
  rw [v2, man_filter i hm, hst, i.worker] at h1
  have hstep : R ⟨stopState cfg s1 g raw now, [.react g.name (s1.cur g.name).stopping
      (applyFilter cfg (s1.man g.name) raw) order (s1.cur g.name).worker.isSome, .check]⟩ := by
    refine M.arm (op := .stopped g.gid now order) hr rfl ?_
    simp only [fstep, c.getG_eq hg, hpc]
    rw [if_pos ⟨rfl, hdead, v1⟩]
    rfl
  refine ⟨_, ⟨hstep, h1, ?_, ?_, nofun⟩, ?_⟩
  · have := LoopRel.look (cfg := cfg) (s := stopState cfg s1 g raw now) g.name (s1.cur g.name).stopping
      (applyFilter cfg (s1.man g.name) raw) order (s1.cur g.name).worker (h3.trans hdead)
    rw [h2, v2, ← show L.deps = depsOf s1.dependents from sim.deps] at this
    rw [← i.worker, ← hst, ← man_filter i hm]
    exact this
  · rw [stopState_eq cfg s1 g raw now (c.rel g hg).notStopped]
    intro y hy
    have hy : y ∈ s1.gs.filter (fun x => x.gid != g.gid) := by
      revert hy
      simp only
      split <;> exact id
    obtain ⟨hy, hne⟩ := List.mem_filter.1 hy
    have hgid : y.gid ≠ g.gid := by simpa using hne
    have hnm : y.name ≠ g.name := fun e => hgid (congrArg G.gid (c.name_inj hy hg e))
    refine (slow y hy hgid).mono rfl rfl rfl ?_ ?_
    · simp only
      split
      all_goals
        show (if y.name = g.name then _ else _) = _
        rw [if_neg hnm]; rfl
    · simp only
      split
      · exact fun x hx => List.mem_cons_of_mem _ (List.mem_cons_of_mem _ hx)
      · exact fun x hx => List.mem_cons_of_mem _ hx
  · rw [← i.worker, ← hst, ← man_filter i hm, stopState_eq cfg s1 g raw now (c.rel g hg).notStopped]
    simp only
    split
    · rename_i hf
      exact .step (e := .kill) (by simp [urgent, hf]) (.refl rfl)
    · rename_i hf
      exact .refl (by simp [urgent, hf])

/-! ## The loop at work -/

theorem stop_ext (c : Core s) (x : XInv s) (i : HInv cfg s) {g : G} (hg : g ∈ s.gs) (hst : (s.cur g.name).stopping = false) :
    Ext cfg (.cancelled g.gid :: s.hist) (requestStop s g.name).hist := by
  obtain ⟨g', hg', hn, hf⟩ := requestStop_form c (c.rel g hg).notStopped hst
  have := c.name_inj hg' hg hn
  subst this
  have hu := urgent_cancelled (cfg := cfg) x hg
  rw [← i.worker] at hu
  simp only at hf
  rcases hf with ⟨hw, e⟩ | ⟨k, hw, e⟩ | ⟨hw, e⟩ <;> rw [e] <;> rw [hw] at hu
  · exact .refl hu
  · exact .step hu (.refl rfl)
  · exact .step hu (.step rfl (.refl rfl))

theorem stop_slow (c : Core s) (x : AllSlow s) {n : Name} (hs : (s.cur n).stopped = false) (hst : (s.cur n).stopping = false) :
    AllSlow (requestStop s n) := by
  obtain ⟨g, hg, rfl, hf⟩ := requestStop_form c hs hst
  have key : ∀ t : State, t.gs = (s.mapG g.gid (fun g => { g with cancelled := true })).gs →
      (∀ n, phaseH t.hist n = phaseH s.hist n) → (∀ e ∈ s.hist, e ∈ t.hist) → AllSlow t := by
    intro t h1 h2 h3 y hy
    rw [h1] at hy
    obtain ⟨z, hz, rfl⟩ := List.mem_map.1 hy
    split
    · exact (x z hz).mono rfl rfl rfl (h2 _) h3
    · exact (x z hz).mono rfl rfl rfl (h2 _) h3
  simp only at hf
  rcases hf with ⟨hw, e⟩ | ⟨k, hw, e⟩ | ⟨hw, e⟩ <;> rw [e] <;> refine key _ rfl (fun _ => rfl) (fun e he => ?_)
  · exact .tail _ he
  · exact .tail _ (.tail _ he)
  · exact .tail _ (.tail _ (.tail _ he))

theorem launch_slow (c : Core s) (i : HInv cfg s) (x : XInv s) (sl : AllSlow s) {n : Name} {d : Int} {m : Manifold}
    (hm : manH s.hist n = some m) (hs : (s.cur n).stopped = true) : AllSlow (launch s n d) := by
  have e := launch_event i x hm d
  intro g hg
  rcases List.mem_cons.1 hg with rfl | hg
  · intro e he; cases he
  · have hne : g.name ≠ n := by
      rintro rfl
      have := (c.rel g hg).notStopped
      rw [hs] at this; cases this
    refine (sl g hg).mono rfl rfl rfl ?_ (by rw [e]; exact mem_tail_of)
    rw [e]
    show (if g.name = n then _ else _) = _
    rw [if_neg hne]

theorem not_told_stopping (c : Core s) (i : HInv cfg s) {n : Name} {gid : Nat} (ho : openH s.hist n = some gid)
    (hc : .cancelled gid ∉ s.hist) : (s.cur n).stopped = false ∧ (s.cur n).stopping = false := by
  constructor
  · cases h : (s.cur n).stopped with
    | false => rfl
    | true => rw [i.noOpen c h] at ho; cases ho
  · cases h : (s.cur n).stopping with
    | false => rfl
    | true =>
      obtain ⟨g, hg, rfl, rfl⟩ := i.openN n gid ho
      exact absurd ((i.told c hg).1 h) hc

/-- requestStop does nothing about those that have been told. -/
theorem run_stops (M : Moves cfg R) (c : Core s) (i : HInv cfg s) {ts : List Task} (hts : ts ≠ []) : ∀ {pre : List Name}, (∀ x ∈ pre, Told s.hist x) →
    R ⟨s, pre.map .stop ++ ts⟩ → R ⟨s, ts⟩
  | [], _, h => h
  | n :: pre, ht, h => by
    have hw := M.work h nofun (by simp [hts])
    simp only [exec] at hw
    rw [stop_noop c i (ht n (by simp))] at hw
    exact run_stops M c i hts (fun x hx => ht x (by simp [hx])) hw

theorem exists_order {α : Type} (m : AMap α) : ∃ order, IsRangeOrder m order := by
  have : ∀ l : List Name, ∃ l' : List Name, l'.Nodup ∧ ∀ k, k ∈ l' ↔ k ∈ l := by
    intro l
    induction l with
    | nil => exact ⟨[], List.nodup_nil, fun _ => Iff.rfl⟩
    | cons a l ih =>
      obtain ⟨l', h1, h2⟩ := ih
      by_cases h : a ∈ l'
      · refine ⟨l', h1, fun k => ?_⟩
        rw [List.mem_cons, h2]
        exact ⟨Or.inr, fun hk => hk.elim (fun e => by rw [e]; exact (h2 a).1 h) id⟩
      · exact ⟨a :: l', List.nodup_cons.2 ⟨h, h1⟩, fun k => by rw [List.mem_cons, List.mem_cons, h2]⟩
  exact this m.keys

theorem freach_exec {s : State} {ts : List Task} (hr : FReach cfg ⟨s, ts⟩) :
    ∃ D, Link cfg ⟨s, ts⟩ D ∧ Core s ∧ HInv cfg s ∧ XInv s ∧ s.pend = none := by
  obtain ⟨D, hk⟩ := freach_link hr
  obtain ⟨c, i⟩ := ex_hinv hk.1
  exact ⟨D, hk, c, i, (ex_xinv hk.1).2, hk.2.1⟩

/-! ## Calls -/

/-- Install of a new manifold. -/
theorem fit_installed (hr : FReach cfg ⟨s, []⟩) (k : Fit cfg ⟨s, []⟩ L) {n : Name} {m : Manifold} (hl : L.loop = .idle)
    (hm : manH s.hist n = none) (hc : ¬ CyclicH (.installed n m :: s.hist)) {order : List Name}
    (ho : IsRangeOrder (s.manifolds.set n m) order) :
    ∃ f', fstep cfg ⟨s, []⟩ (.install n m order) = some f' ∧ f'.s.hist = .installed n m :: s.hist ∧
      Fit cfg f' { L with loop := .busy [.start n 0], deps := fun i => L.deps i ++ List.replicate (m.inputs.count i) n } := by
  have sim := k.sim
  obtain ⟨⟨ha, hu, _⟩, sl, slow, _⟩ := k
  obtain ⟨D, hlk, c, i, x, hp⟩ := freach_exec hr
  have hdead := sl.of_idle hl
  have hn : s.manifolds.get? n = none := by rw [i.man]; exact hm
  refine ⟨⟨record s n m, [.start n 0, .check]⟩, ?_, rfl, ⟨.event ha hu (.installed L n m hl hm hc), rfl, ?_, record_ref c sim.ref m hn⟩,
      .busy hdead (.start n 0 (.done _)), slow.same rfl (fun _ => rfl) mem_tail_of, nofun⟩
  · simp only [fstep]
    rw [if_pos ⟨rfl, hdead, (isRangeOrder_iff _ _).2 ho⟩]
    simp only [beginInstall, hn, Option.isSome_none, Bool.false_eq_true, if_false,
      ((acyclic_result i ho).resolve_right (fun h => hc h.2)).1]
  · show (fun i => L.deps i ++ _) = depsOf (addDependents s.dependents n m.inputs)
    rw [addDependents_deps, sim.deps]

/-- Install under a name that is taken. -/
theorem fit_already (hr : FReach cfg ⟨s, []⟩) (k : Fit cfg ⟨s, []⟩ L) {n : Name} (m : Manifold) (hl : L.loop = .idle)
    (hm : manH s.hist n ≠ none) {order : List Name} (ho : IsRangeOrder (s.manifolds.set n m) order) :
    ∃ f', fstep cfg ⟨s, []⟩ (.install n m order) = some f' ∧ f'.s.hist = .installFailed n (.alreadyInstalled n) :: s.hist ∧
      Fit cfg f' { L with loop := .busy [] } := by
  have sim := k.sim
  obtain ⟨⟨ha, hu, _⟩, sl, slow, _⟩ := k
  obtain ⟨D, hlk, c, i, x, hp⟩ := freach_exec hr
  have hdead := sl.of_idle hl
  have hn : (s.manifolds.get? n).isSome = true := by rw [i.man]; exact Option.isSome_iff_ne_none.2 hm
  refine ⟨⟨s.log (.installFailed n (.alreadyInstalled n)), [.check]⟩, ?_, rfl, ⟨.event ha hu (.already L n hl hm), rfl, sim.deps,
    sim.ref.same rfl (fun _ => rfl) (fun _ => rfl)⟩, .busy hdead (.done _), slow.same rfl (fun _ => rfl) mem_tail_of, nofun⟩
  simp only [fstep]
  rw [if_pos ⟨rfl, hdead, (isRangeOrder_iff _ _).2 ho⟩]
  simp only [beginInstall, hn, if_true]

/-- Install of a manifold that would close a cycle. -/
theorem fit_cycle (hr : FReach cfg ⟨s, []⟩) (k : Fit cfg ⟨s, []⟩ L) {n : Name} {m : Manifold} (hl : L.loop = .idle)
    (hm : manH s.hist n = none) (hc : CyclicH (.installed n m :: s.hist)) {order : List Name}
    (ho : IsRangeOrder (s.manifolds.set n m) order) :
    ∃ f', fstep cfg ⟨s, []⟩ (.install n m order) = some f' ∧ f'.s.hist = .installFailed n (.wrap 0 .cycle) :: s.hist ∧
      Fit cfg f' { L with loop := .busy [] } := by
  have sim := k.sim
  obtain ⟨⟨ha, hu, _⟩, sl, slow, _⟩ := k
  obtain ⟨D, hlk, c, i, x, hp⟩ := freach_exec hr
  have hdead := sl.of_idle hl
  have hn : s.manifolds.get? n = none := by rw [i.man]; exact hm
  refine ⟨⟨s.log (.installFailed n (.wrap 0 .cycle)), [.check]⟩, ?_, rfl, ⟨.event ha hu (.cycle L n m hl hm hc), rfl, sim.deps,
    sim.ref.same rfl (fun _ => rfl) (fun _ => rfl)⟩, .busy hdead (.done _), slow.same rfl (fun _ => rfl) mem_tail_of, nofun⟩
  simp only [fstep]
  rw [if_pos ⟨rfl, hdead, (isRangeOrder_iff _ _).2 ho⟩]
  simp only [beginInstall, hn, Option.isSome_none, Bool.false_eq_true, if_false,
    ((acyclic_result i ho).resolve_left (fun h => h.2 hc)).1]

/-- Report. -/
theorem fit_report (hr : FReach cfg ⟨s, []⟩) (k : Fit cfg ⟨s, []⟩ L) (hl : L.loop = .idle) :
    fstep cfg ⟨s, []⟩ .report = some ⟨s, [.report, .check]⟩ ∧ (liveReport s).hist = reportH cfg s.hist :: s.hist ∧
      Fit cfg ⟨liveReport s, [.check]⟩ { L with loop := .busy [] } := by
  have sim := k.sim
  obtain ⟨⟨ha, hu, _⟩, sl, slow, _⟩ := k
  obtain ⟨D, hlk, c, i, x, hp⟩ := freach_exec hr
  have hdead := sl.of_idle hl
  refine ⟨?_, ?_⟩
  · simp only [fstep]
    rw [if_pos ⟨rfl, hdead⟩]
  · rw [liveReport_eq (by rw [tick_none hp]; exact c), tick_none hp, report_eq c i x]
    exact ⟨rfl, ⟨.event ha hu (.report L hl), rfl, sim.deps, sim.ref.same rfl (fun _ => rfl) (fun _ => rfl)⟩,
      .busy hdead (.done _), slow.same rfl (fun _ => rfl) mem_tail_of, nofun⟩

/-- Install that finds the engine dying. -/
theorem fit_refused (hr : FReach cfg ⟨s, todo⟩) (k : Fit cfg ⟨s, todo⟩ L) (n : Name) (hk : .kill ∈ s.hist) :
    ∃ f', fstep cfg ⟨s, todo⟩ (.env (.installRefused n)) = some f' ∧ f'.s.hist = .installFailed n .shuttingDown :: s.hist ∧
      Fit cfg f' L := by
  have sim := k.sim
  obtain ⟨⟨ha, hu, _⟩, sl, slow, hidle⟩ := k
  obtain ⟨D, hlk, c, i, x, hp⟩ := freach_exec hr
  have h : step cfg s (.installRefused n) = some (s.log (.installFailed n .shuttingDown)) := by
    simp only [step, show s.dying = true from i.dying.2 hk, if_true]
  have sim' := env_sim (op := .installRefused n) c i sim rfl nofun h
  refine ⟨⟨s.log (.installFailed n .shuttingDown), todo⟩, ?_, rfl, ⟨.event ha hu (.refuseInstall L n hk), rfl, sim'.deps, sim'.ref⟩,
    sim'.loop, slow.same rfl (fun _ => rfl) mem_tail_of, hidle⟩
  simp only [fstep, h, Op.isEnv, if_true, Option.map_some]

/-- Answers to calls. -/
theorem canon_answer {e : Ev} (k : Canon cfg (FReach cfg) ⟨s, todo⟩ L) (hs : Happens cfg s.hist L e L') (hna : answers e = true) :
    ∃ f', Canon cfg (FReach cfg) f' L' ∧ f'.s.hist = e :: s.hist ∧ urgent cfg (e :: s.hist) = none := by
  obtain ⟨hr, k⟩ := k
  have hidle := k.idle
  cases hs with
  | refuseInstall n hk =>
    obtain ⟨f', h1, h2, h3⟩ := fit_refused hr k n hk
    exact ⟨f', ⟨.step _ hr h1, h3⟩, h2, rfl⟩
  | installed n m hl hm hc =>
    have ht := hidle hl
    simp only at ht; subst ht
    obtain ⟨order, ho⟩ := exists_order (s.manifolds.set n m)
    obtain ⟨f', h1, h2, h3⟩ := fit_installed hr k hl hm hc ho
    exact ⟨f', ⟨.step _ hr h1, h3⟩, h2, rfl⟩
  | already n hl hm =>
    have ht := hidle hl
    simp only at ht; subst ht
    obtain ⟨order, ho⟩ := exists_order (s.manifolds.set n {})
    obtain ⟨f', h1, h2, h3⟩ := fit_already hr k {} hl hm ho
    exact ⟨f', ⟨.step _ hr h1, h3⟩, h2, rfl⟩
  | cycle n m hl hm hc =>
    have ht := hidle hl
    simp only at ht; subst ht
    obtain ⟨order, ho⟩ := exists_order (s.manifolds.set n m)
    obtain ⟨f', h1, h2, h3⟩ := fit_cycle hr k hl hm hc ho
    exact ⟨f', ⟨.step _ hr h1, h3⟩, h2, rfl⟩
  | report hl =>
    have ht := hidle hl
    simp only at ht; subst ht
    obtain ⟨h1, h2, h3⟩ := fit_report hr k hl
    exact ⟨_, ⟨.step .work (.step .report hr h1) rfl, h3⟩, h2, rfl⟩
  | _ => cases hna

/-- What can be seen, but for the answers to calls. -/
theorem canon_event (M : Moves cfg R) {e : Ev} (k : Canon cfg R ⟨s, todo⟩ L) (hs : Happens cfg s.hist L e L')
    (hM : (L.loop = .idle ∨ e = .exit) → Loose cfg R) (hna : answers e = false) :
    ∃ f', Canon cfg R f' L' ∧ Ext cfg (e :: s.hist) f'.s.hist := by
  have sim := k.sim
  have k0 := k
  obtain ⟨hr, hf, sl, slow, hidle⟩ := k
  obtain ⟨D, hlk, c, i, x, hp⟩ := freach_exec (M.reach hr)
  simp only at hf sl slow hidle
  have ha := hf.1
  have hu := hf.2.1
  cases hs with
  | kill =>
    exact canon_env M (op := .kill) hr sim ha hu hidle rfl nofun nofun rfl rfl rfl (.kill L)
      (slow.same rfl (fun _ => rfl) mem_tail_of)
  | finished k e hn =>
    refine canon_env M (op := .finish k e) hr sim ha hu hidle rfl nofun nofun
      (t := { s with finished := s.finished.set k e, hist := .finished k e :: s.hist }) ?_ rfl rfl (.finished L k e hn)
      (slow.same rfl (fun _ => rfl) mem_tail_of)
    have : s.finished.get? k = none := by
      cases h : s.finished.get? k with
      | none => rfl
      | some e' => exact absurd ((i.fin k e').1 h) (hn e')
    simp only [step, this, Option.isNone_none, if_true]
    try rfl
  | refuseInstall | installed | already | cycle | report => cases hna
  | startCall n gid b rc fuzz ho hph hg hd hfz =>
    obtain ⟨g, hgm, rfl, rfl⟩ := i.openN n gid ho
    have hpc := pc_delaying i hgm (slow g hgm) hph hg
    have hb := x.base g hgm
    rw [hd] at hb
    injection hb with hb
    injection hb with hb1 hb2
    subst hb1 hb2
    refine canon_env M (op := .gTimer g.gid fuzz) hr sim ha hu hidle rfl nofun nofun
      (t := (s.mapG g.gid (fun g => { g with pc := .starting })).log (.startCall g.name g.gid (cfg.delayFn g.base g.recent fuzz)))
      ?_ rfl rfl (.startCall L g.name g.gid g.base g.recent fuzz ho hph hg hd hfz)
      (slow.pc c hgm .starting rfl ?_ mem_tail_of (slow_pc nofun))
    · simp only [step, c.getG_eq hgm]
      rw [if_pos ⟨hpc, hfz⟩]
    · intro n hn
      show (if n = g.name then _ else _) = _
      rw [if_neg hn]; rfl
  | get n gid sn res out ho hph hb =>
    obtain ⟨g, hgm, rfl, rfl⟩ := i.openN n gid ho
    have hpc := pc_starting i hgm hph
    have hb' := i.beg g hgm
    rw [hb] at hb'
    injection hb' with hb'
    injection hb' with _ hb'
    subst hb'
    refine canon_env M (op := .gGet g.gid res out) hr sim ha hu hidle rfl nofun nofun
      (t := s.log (.get g.gid res out (answerH cfg g.snap res out))) ?_ rfl rfl (.get L g.name g.gid g.snap res out ho hph hb)
      (slow.same rfl (fun _ => rfl) mem_tail_of)
    have e : getResult cfg g res out = answerH cfg g.snap res out := by
      unfold getResult; rw [hpc]; exact answer_eq cfg _ _ _
    simp only [step, c.getG_eq hgm, e]
    rw [if_neg (by rw [hpc]; nofun)]
  | getLate n gid res out ho hph hc =>
    obtain ⟨g, hgm, rfl, rfl⟩ := i.openN n gid ho
    have hs' := Happens.getLate (cfg := cfg) L g.name g.gid res out ho hph hc
    have hst : g.pc ≠ .starting := fun h => hph (pc_phase i hgm h (fun h => h))
    by_cases hpc : g.pc = .delaying
    · have hd : phaseH s.hist g.name = .delayed := pc_phase i hgm hpc (fun h => h)
      have h1 := abort_step (cfg := cfg) c i hgm hpc (hc hd)
      have hr' := M.env (op := .gAbort g.gid) hr rfl nofun h1
      have sim' := env_sim (op := .gAbort g.gid) c i sim rfl nofun h1
      have hm : { g with pc := .sendStopped (some .aborted) } ∈
          (s.mapG g.gid (fun g => { g with pc := .sendStopped (some .aborted) })).gs :=
        List.mem_map.2 ⟨g, hgm, by rw [if_pos rfl]⟩
      have hsb : SlowBut (s.mapG g.gid (fun g => { g with pc := .sendStopped (some .aborted) })) g.gid :=
        SlowBut.of_pc slow c hgm _ rfl (fun _ _ => rfl) (fun _ h => h)
      refine canon_late M hr' sim' ha hu hidle hm nofun nofun
        hsb ?_ hs'
      exact fun _ _ => Or.inr ⟨hd, res, out, _, List.mem_cons_self ..⟩
    · exact canon_late M hr sim ha hu hidle hgm hpc hst (fun y hy _ => slow y hy) ((slow g hgm).mono rfl rfl rfl rfl mem_tail_of) hs'
  | startOk n gid w ho hph =>
    obtain ⟨g, hgm, rfl, rfl⟩ := i.openN n gid ho
    refine canon_env M (op := .gStartOk g.gid w) hr sim ha hu hidle rfl nofun nofun
      (t := (s.mapG g.gid (fun g => { g with pc := .registering w })).log (.startOk g.name g.gid w)) ?_ rfl rfl
      (.startOk L g.name g.gid w ho hph) (slow.pc c hgm (.registering w) rfl ?_ mem_tail_of (slow_pc nofun))
    · simp only [step, c.getG_eq hgm]
      rw [if_pos (pc_starting i hgm hph)]
    · intro n hn
      show (if n = g.name then _ else _) = _
      rw [if_neg hn]; rfl
  | startErr n gid e ho hph =>
    obtain ⟨g, hgm, rfl, rfl⟩ := i.openN n gid ho
    refine canon_env M (op := .gStartErr g.gid e) hr sim ha hu hidle rfl nofun nofun
      (t := (s.mapG g.gid (fun g => { g with pc := .sendStopped (startError e) })).log (.startErr g.name g.gid e)) ?_ rfl rfl
      (.startErr L g.name g.gid e ho hph) (slow.pc c hgm (.sendStopped (startError e)) rfl ?_ mem_tail_of ?_)
    · simp only [step, c.getG_eq hgm]
      rw [if_pos (pc_starting i hgm hph)]
    · intro n hn
      show (if n = g.name then _ else _) = _
      rw [if_neg hn]; rfl
    · refine fun _ _ => Or.inl ⟨e, ?_⟩
      show (if g.name = g.name then Phase.failed e else _) = _
      rw [if_pos rfl]
  | refuse n gid w ho hph hw hrf hc =>
    obtain ⟨g, hgm, rfl, rfl⟩ := i.openN n gid ho
    have hpc := pc_registering i sim.ref hgm hph hw hrf
    have hh := refuse_half c i ha hu sim.deps sim.ref hgm hpc hc
    have hfr := Frame.killWorker (s.mapG g.gid (fun g => { g with pc := afterOffer w })) w
    have hsl : AllSlow ((s.mapG g.gid (fun g => { g with pc := afterOffer w })).killWorker w) := by
      refine slow.pc c hgm (afterOffer w) (killWorker_gs _ w) ?_ ?_ (slow_pc (afterOffer_ne w))
      · intro n _; rw [killWorker_phase]; rfl
      · cases w
        · exact fun _ h => List.mem_cons_of_mem _ (List.mem_cons_of_mem _ h)
        · exact mem_tail_of
    have hx : Ext cfg (.killW w :: s.hist) ((s.mapG g.gid (fun g => { g with pc := afterOffer w })).killWorker w).hist :=
      Ext.killWorker (s := s.mapG g.gid (fun g => { g with pc := afterOffer w })) w
    by_cases hk : .kill ∈ s.hist
    · have h1 : step cfg s (.gRegisterDying g.gid) = some ((s.mapG g.gid (fun g => { g with pc := afterOffer w })).killWorker w) := by
        simp only [step, c.getG_eq hgm, hpc, i.dying.2 hk, if_true]
      exact ⟨_, ⟨M.env (op := .gRegisterDying g.gid) hr rfl nofun h1, hh, sl.frame (env_frame (op := .gRegisterDying g.gid) rfl h1), hsl, hidle⟩, hx⟩
    · obtain ⟨hcc, hl⟩ := hc.resolve_left hk
      have ht := hidle hl
      subst ht
      have hdead := sl.of_idle hl
      have hst : (s.cur g.name).stopping = true := (i.told c hgm).2 hcc
      have hnw := no_worker c hgm hpc
      have hr1 : R ⟨(s.mapG g.gid (fun g => { g with pc := afterOffer w })).killWorker w, [.check]⟩ := by
        refine (hM (.inl hl)).arm (op := .started g.gid 0) hr rfl ?_
        simp only [fstep, c.getG_eq hgm, hpc]
        rw [if_pos ⟨rfl, hdead⟩]
        have h1 : ((s.mapG g.gid (fun g => { g with pc := afterOffer w })).cur g.name).worker = none := hnw
        have h2 : ((s.mapG g.gid (fun g => { g with pc := afterOffer w })).cur g.name).stopping = true := hst
        simp only [beginStarted, h1, h2, Option.isSome_none, Bool.false_eq_true, if_false, if_true]
      have hr2 := (hM (.inl hl)).check hr1
      rw [endArm_cases (freach_exec (M.reach hr1)).choose_spec.2.2.2.2, if_neg (fun hc => by
        rw [refused_open c hgm hnw w] at hc; cases hc.2)] at hr2
      refine ⟨_, ⟨hr2, hh, ?_, hsl, fun _ => rfl⟩, hx⟩
      show LoopRel cfg _ [] L.loop
      rw [hl]; exact .idle (hfr.dead.trans hdead)
  | registered n gid w now hl hk ho hph hw hrf hc =>
    have ht := hidle hl
    subst ht
    have hdead := sl.of_idle hl
    obtain ⟨g, hgm, rfl, rfl⟩ := i.openN n gid ho
    have hpc := pc_registering i sim.ref hgm hph hw hrf
    have hr1 : R ⟨register (s.mapG g.gid (fun g => { g with pc := afterOffer w })) g.name g.gid w now,
        [.bounceAll g.name, .check]⟩ := by
      refine (hM (.inl hl)).arm (op := .started g.gid now) hr rfl ?_
      simp only [fstep, c.getG_eq hgm, hpc]
      rw [if_pos ⟨rfl, hdead⟩]
      have h1 : ((s.mapG g.gid (fun g => { g with pc := afterOffer w })).cur g.name).worker = none := no_worker c hgm hpc
      have h2 : ((s.mapG g.gid (fun g => { g with pc := afterOffer w })).cur g.name).stopping = false :=
        (not_told_stopping c i ho hc).2
      have h3 : (s.mapG g.gid (fun g => { g with pc := afterOffer w })).dying = false := (not_dying i).2 hk
      simp only [beginStarted, h1, h2, h3, Option.isSome_none, Bool.false_eq_true, if_false]
    refine ⟨_, ⟨hr1, ⟨.event ha hu (.registered L g.name g.gid w now hl hk ho hph hw hrf hc), rfl, sim.deps,
      register_ref c sim.ref hgm hpc now⟩, .busy hdead ?_,
      slow.pc c hgm (afterOffer w) rfl (fun _ _ => rfl) mem_tail_of (slow_pc (afterOffer_ne w)), nofun⟩, .refl rfl⟩
    have := Owed.bounceAll g.name (.done s.dependents)
    rw [List.append_nil] at this
    show Owed s.dependents _ ((L.deps g.name).map .tell)
    rw [sim.deps]; exact this
  | ended n gid now raw m order hl ho he hm hv => exact canon_ended (hM (.inl hl)) k0 hl ho he hm hv
  | dying n gid order pre l hl hk ho hc hn hi he hpre =>
    have ht := hidle hl
    subst ht he
    have hdead := sl.of_idle hl
    obtain ⟨g, hgm, rfl, rfl⟩ := i.openN n gid ho
    obtain ⟨h1, h2⟩ := not_told_stopping c i ho hc
    have hone : s.oneShot = true := by
      cases h : s.oneShot with
      | true => rfl
      | false =>
        rcases (ex_oinv hlk.1 h).2 g.name with h | h
        · rw [show (State.cur _ _).stopped = false from h1] at h; cases h
        · rw [show (State.cur _ _).stopping = false from h2] at h; cases h
    have hord : IsRangeOrder s.current (pre ++ g.name :: l) := by
      refine ⟨hn, fun y => ?_⟩
      rw [hi, AMap.mem_keys_iff, ← c.keys, ← i.man]
      exact Option.isSome_iff_ne_none.symm
    have hr1 : R ⟨s, pre.map .stop ++ (.stop g.name :: (l.map .stop ++ [.clearOneShot, .check]))⟩ := by
      refine (hM (.inl hl)).arm (op := .dying (pre ++ g.name :: l)) hr rfl ?_
      simp only [fstep]
      rw [if_pos ⟨rfl, hdead, hone, i.dying.2 hk, (isRangeOrder_iff _ _).2 hord⟩]
      simp
    have hr2 := M.work (run_stops M c i (by simp) hpre hr1) nofun (by simp)
    simp only [exec, List.nil_append] at hr2
    have hh := half_stop (L' := { L with loop := .busy (l.map .tell) }) c i x hf h1 h2
      (fun g' ho' hc' => .dying L g.name g' (pre ++ g.name :: l) pre l hl hk ho' hc' hn hi rfl hpre) rfl rfl
    refine ⟨_, ⟨hr2, hh, .busy ((requestStop_dead s g.name).trans hdead) ?_, stop_slow c slow h1 h2, nofun⟩, stop_ext c x i hgm h2⟩
    show Owed (requestStop s g.name).dependents _ _
    rw [requestStop_dependents]
    have := owed_stops (m := s.dependents) (.clear (.done _)) l
    simpa using this
  | start n b l m hl hk hm =>
    obtain ⟨hd, ho⟩ := sl.of_busy hl
    obtain ⟨o, tk, ts', hr', hh⟩ := advance M hr ho
    obtain ⟨D', hk', c', i', x', hp'⟩ := freach_exec (M.reach hr')
    cases hh with
    | start _ _ h =>
      obtain ⟨hi, hst⟩ := ready_start hk'.2.2.2
      have hw := M.work hr' nofun h.ne_nil
      simp only [exec, List.nil_append] at hw
      have hnd : ({ s with oneShot := o } : State).dying = false := (not_dying i').2 hk
      rw [requestStart_eq hi hst, tick_none hp', if_neg (by rw [hnd]; simp)] at hw
      refine ⟨_, ⟨hw, half_launch (s := { s with oneShot := o }) c' i' x' hf hm hst (.start L n b l m hl hk hm) rfl rfl, .busy hd h,
        launch_slow c' i' x' slow hm hst, nofun⟩, ?_⟩
      rw [launch_event (s := { s with oneShot := o }) i' x' hm b]
      exact .refl rfl
  | restart n l m hl ho' hk hm =>
    obtain ⟨hd, ho⟩ := sl.of_busy hl
    obtain ⟨o, tk, ts', hr', hh⟩ := advance M hr ho
    obtain ⟨D', hk', c', i', x', hp'⟩ := freach_exec (M.reach hr')
    have hnd : ({ s with oneShot := o } : State).dying = false := (not_dying i').2 hk
    cases hh with
    | bounce _ h =>
      have hi := ready_bounce hk'.2.2.2
      have hst : (({ s with oneShot := o } : State).cur n).stopped = true := (open_none_iff c' i' n).1 ho'
      have hw := M.work hr' nofun h.ne_nil
      simp only [exec, List.nil_append] at hw
      rw [if_pos hst, requestStart_eq hi hst, tick_none hp', if_neg (by rw [hnd]; simp)] at hw
      refine ⟨_, ⟨hw, half_launch (s := { s with oneShot := o }) c' i' x' hf hm hst (.restart L n l m hl ho' hk hm) rfl rfl,
        .busy hd h, launch_slow c' i' x' slow hm hst, nofun⟩, ?_⟩
      rw [launch_event (s := { s with oneShot := o }) i' x' hm _]
      exact .refl rfl
    | stop _ h =>
      have := ready_stop hk'.2.2.2
      have this : ({ s with oneShot := o } : State).dying = true := this
      rw [hnd] at this; cases this
  | cancelled n gid l hl ho' hc =>
    obtain ⟨hd, ho⟩ := sl.of_busy hl
    obtain ⟨o, tk, ts', hr', hh⟩ := advance M hr ho
    obtain ⟨D', hk', c', i', x', hp'⟩ := freach_exec (M.reach hr')
    obtain ⟨h1, h2⟩ := not_told_stopping c' i' ho' hc
    obtain ⟨g, hgm, rfl, rfl⟩ := i'.openN n gid ho'
    have hw := M.work hr' (by cases hh <;> nofun) (by cases hh <;> exact Owed.ne_nil ‹_›)
    have key : ∀ ts, Owed s.dependents ts l → R ⟨requestStop { s with oneShot := o } g.name, ts⟩ →
        ∃ f', Canon cfg R f' { L with loop := .busy l } ∧ Ext cfg (.cancelled g.gid :: s.hist) f'.s.hist := by
      intro ts h hw
      refine ⟨_, ⟨hw, half_stop (s := { s with oneShot := o }) c' i' x' hf h1 h2 (fun g' hg' hc' => .cancelled L g.name g' l hl hg' hc') rfl rfl,
        .busy ((requestStop_dead { s with oneShot := o } g.name).trans hd) ?_, stop_slow c' slow h1 h2, nofun⟩,
        stop_ext c' x' i' hgm h2⟩
      show Owed (requestStop { s with oneShot := o } g.name).dependents _ _
      rw [requestStop_dependents]; exact h
    cases hh with
    | bounce _ h =>
      simp only [exec, List.nil_append] at hw
      rw [h1] at hw
      exact key _ h hw
    | stop _ h => exact key _ h hw
  | uninstalled n order l hl =>
    obtain ⟨hd, ho⟩ := sl.of_busy hl
    obtain ⟨o, tk, ts', hr', hh⟩ := advance M hr ho
    obtain ⟨D', hk', c', i', x', hp'⟩ := freach_exec (M.reach hr')
    cases hh with
    | remove _ vals h =>
      exact ⟨_, ⟨M.work hr' nofun h.ne_nil, ⟨.event ha hu (.uninstalled L n _ l hl), rfl, rfl,
        uninstall_ref (s := { s with oneShot := o }) c' sim.ref vals (ready_remove hk'.2.2.2)⟩, .busy hd h,
        slow.same rfl (fun _ => rfl) mem_tail_of, nofun⟩, .refl rfl⟩
  | exit hl hk hall =>
    have key : ∀ o, R ⟨{ s with oneShot := o }, [.check]⟩ → s.tomb.dead = false →
        ∃ f', Canon cfg R f' { L with loop := .gone } ∧ Ext cfg (.exit :: s.hist) f'.s.hist := by
      intro o hr' hd
      obtain ⟨D', hk', c', i', x', hp'⟩ := freach_exec (M.reach hr')
      have hc : ({ s with oneShot := o } : State).dying = true ∧ allOthersStopped { s with oneShot := o } = true :=
        ⟨i'.dying.2 hk, (allStopped_iff c' i').1 hall⟩
      have hw := (hM (.inr rfl)).check hr'
      rw [endArm_cases hp', if_pos hc] at hw
      obtain ⟨e1, e2⟩ := half_exit (s := { s with oneShot := o }) c' i' hf hd hc (.exit L hl hk hall)
      exact ⟨_, ⟨hw, e1, .gone e2, slow.same rfl (fun _ => rfl) mem_tail_of, nofun⟩, .refl rfl⟩
    rcases id hl with h | ⟨h, htold⟩
    · obtain ⟨hd, ho⟩ := sl.of_busy h
      obtain ⟨o, hr'⟩ := advance_nil M hr ho
      exact key o hr' hd
    · have ht := hidle h
      subst ht
      have hdead := sl.of_idle h
      have hone : s.oneShot = true := by
        cases h1 : s.oneShot with
        | true => rfl
        | false =>
          have := freach_waits (M.reach hr) h1 rfl hdead
          rw [show allOthersStopped (Fine.s ⟨s, []⟩) = true from (allStopped_iff c i).1 hall] at this; cases this
      have hr1 : R ⟨s, s.current.keys.map .stop ++ [.clearOneShot, .check]⟩ := by
        refine (hM (.inr rfl)).arm (op := .dying s.current.keys) hr rfl ?_
        simp only [fstep]
        rw [if_pos ⟨rfl, hdead, hone, i.dying.2 hk, (isRangeOrder_iff _ _).2 ⟨(ex_binv hlk.1).1, fun _ => Iff.rfl⟩⟩]
      exact key false (M.work (run_stops M c i (by simp) (fun y _ => htold y) hr1) nofun (by simp)) hdead

/-- Every history that is allowed is one of an engine. -/
theorem after_canon {h : List Ev} (ha : After cfg h L) : ∃ f, Canon cfg (FReach cfg) f L ∧ Ext cfg h f.s.hist := by
  induction ha with
  | new => exact ⟨{}, ⟨.init, ⟨.new, rfl, rfl, nofun⟩, .idle rfl, nofun, fun _ => rfl⟩, .refl rfl⟩
  | event ha hu hs ih =>
    obtain ⟨⟨s, todo⟩, k, x⟩ := ih
    have e := x.eq hu
    subst e
    cases hna : answers _ with
    | false => exact canon_event FReach.moves.toMoves k hs (fun _ => FReach.moves) hna
    | true =>
      obtain ⟨f', k', e, hn⟩ := canon_answer k hs hna
      exact ⟨f', k', by rw [e]; exact .refl hn⟩
  | forced ha hu ih =>
    obtain ⟨f, k, x⟩ := ih
    exact ⟨f, k, x.forced hu⟩
  | silent ha hu hs ih =>
    obtain ⟨f, k, x⟩ := ih
    have e := x.eq hu
    subst e
    obtain ⟨f', k', e⟩ := canon_silent FReach.moves.toMoves k hs (fun _ => FReach.moves)
    exact ⟨f', k', by rw [e]; exact .refl hu⟩

end Verif.Engine
