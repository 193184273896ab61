import Verif.Engine.ExactWork

/-!
The arms of the loop do only what the specification allows.
-/

namespace Verif.Engine
open State Verif.Spec

variable {cfg : Config} {h0 : List Ev} {L0 : Hidden} {s t : State} {rf : Name → Bool} {D : Debt}

theorem LoopRel.ready {l : Loop} (h : LoopRel cfg s [] l) (hd : s.tomb.dead = false) : l = .idle := by
  generalize e : ([] : List Task) = ts at h
  cases h with
  | idle => rfl
  | gone h => rw [h] at hd; cases hd
  | busy _ ho => subst e; exact absurd rfl ho.ne_nil
  | stops pre ns => simp at e
  | report | check | look => cases e

theorem sendStopped_ends {L : Hidden} (i : HInv cfg s) (r : RefInv s L.refused) {g : G} (hg : g ∈ s.gs)
    {raw : Option Err} (hpc : g.pc = .sendStopped raw) : EndsWith s.hist L g.name g.gid raw := by
  have hp := i.pc g hg
  rw [PcOk, hpc] at hp
  have off : ∀ w, phaseH s.hist g.name = .ok w → workerH s.hist g.name ≠ none ∨ L.refused g.name = true := by
    intro w hw
    rw [← i.worker]
    cases h : (s.cur g.name).worker with
    | some w => left; simp
    | none =>
      right
      rw [r g hg, h]
      refine ⟨rfl, ?_⟩
      rw [hpc]; exact ⟨w, hw⟩
  unfold EndsWith
  rcases hp with ⟨h1, h2⟩ | ⟨e0, h1, h2⟩ | ⟨k, h1, h2⟩ | ⟨h1, h2, h3⟩ <;> rw [h1]
  · exact h2
  · simp only [h2, startError]
    by_cases ha : Err.aborted ∈ e0.tree
    · rw [if_pos ha, if_pos ((Err.is_iff_mem_tree _ _).2 ha)]
    · rw [if_neg ha, if_neg (fun h => ha ((Err.is_iff_mem_tree _ _).1 h))]
  · exact ⟨h2, off _ h1⟩
  · exact ⟨h2, h3, off _ h1⟩

/-- The state after an attempt has ended. -/
theorem half_ended {L : Hidden} (c : Core s) (i : HInv cfg s) (h : Half cfg h0 L0 s L) (hl : L.loop = .idle) {g : G} (hg : g ∈ s.gs)
    {raw : Option Err} (hpc : g.pc = .sendStopped raw) (now : Int) {vals : Name → List Name}
    (hv : validVals s.dependents g.name vals = true) :
    Half cfg h0 L0 (stopState cfg s g raw now)
      { L with loop := .look (duties cfg L.deps (depsOf (dropDependent s.dependents vals)) g.name
        (s.cur g.name).stopping (applyFilter cfg (s.man g.name) raw) (s.cur g.name).worker) } ∧
    (stopState cfg s g raw now).dependents = s.dependents ∧ (stopState cfg s g raw now).tomb.dead = s.tomb.dead := by
  obtain ⟨ha, hu, sd, r⟩ := h
  obtain ⟨m, hm⟩ := man_some i (c.g_installed hg)
  have hst : (s.cur g.name).stopping = decide (Ev.cancelled g.gid ∈ s.hist) := by
    have := i.told c hg
    cases hh : (s.cur g.name).stopping <;> simp_all
  have hh := Happens.ended (cfg := cfg) (h := s.hist) L g.name g.gid now raw m (depsOf (dropDependent s.dependents vals)) hl
    (i.openG g hg) (sendStopped_ends i r hg hpc) hm (fun j => by rw [sd]; exact drop_order hv j)
  rw [← man_filter i hm, ← hst, ← i.worker] at hh
  rw [stopState_eq cfg s g raw now (c.rel g hg).notStopped]
  simp only
  have rr : ∀ t : State, t.gs = s.gs.filter (fun x => x.gid != g.gid) → (∀ n, n ≠ g.name → phaseH t.hist n = phaseH s.hist n) →
      (∀ n, n ≠ g.name → t.cur n = s.cur n) → RefInv t L.refused := by
    intro t h1 h2 h3 y hy
    rw [h1] at hy
    obtain ⟨hy, hne⟩ := List.mem_filter.1 hy
    have hne : y.name ≠ g.name := fun e => by
      have := c.name_inj hy hg e
      subst this; simp at hne
    rw [r y hy]
    exact (Refused.congr rfl rfl (h2 _ hne) (by rw [h3 _ hne])).symm
  have ph : ∀ n, n ≠ g.name → phaseH (.ended g.name g.gid now raw (applyFilter cfg (s.man g.name) raw) (s.cur g.name).stopping
      (s.cur g.name).worker :: s.hist) n = phaseH s.hist n := by
    intro n hn
    show (if n = g.name then _ else _) = _
    rw [if_neg hn]
  have cu : ∀ n, n ≠ g.name → ((({ s with gs := s.gs.filter (fun x => x.gid != g.gid) } : State).setCur g.name
      (resetTo cfg s g raw now))).cur n = s.cur n := fun n hn => setCur_cur_ne _ _ _ hn
  have a1 := From.event ha hu hh
  split
  · rename_i hf
    refine ⟨⟨.forced a1 (by simp [urgent, hf]), rfl, sd, rr _ rfl ph cu⟩, rfl, Tomb.kill_dead _ _⟩
  · rename_i hf
    exact ⟨⟨a1, by simp [urgent, hf], sd, rr _ rfl ph cu⟩, rfl, rfl⟩

/-- After a worker was refused not everything is stopped. -/
theorem refused_open (c : Core s) {g : G} (hg : g ∈ s.gs) (hw : (s.cur g.name).worker = none) (w : WRef) :
    allOthersStopped ((s.mapG g.gid (fun g => { g with pc := afterOffer w })).killWorker w) = false := by
  have e : ((s.mapG g.gid (fun g => { g with pc := afterOffer w })).killWorker w).current = s.current := (Frame.killWorker _ w).current
  have hk : g.name ∈ s.current.keys := by
    rw [AMap.mem_keys_iff, ← c.keys]; exact c.g_installed hg
  cases h : allOthersStopped ((s.mapG g.gid (fun g => { g with pc := afterOffer w })).killWorker w) with
  | false => rfl
  | true =>
    unfold allOthersStopped at h
    rw [e, List.all_eq_true] at h
    have := h _ hk
    rw [killWorker_cur] at this
    have : ((s.cur g.name).stopped || (s.cur g.name).worker == some .self) = true := this
    rw [(c.rel g hg).notStopped, hw] at this
    simp at this

theorem record_ref (c : Core s) (r : RefInv s rf) {n : Name} (m : Manifold) (hn : s.manifolds.get? n = none) :
    RefInv (record s n m) rf := by
  refine r.same rfl (fun y => ?_) (fun _ => rfl)
  show (((s.current.set n {}).get? y).getD {}).worker = _
  rw [AMap.get?_set]
  split
  · rename_i e
    subst e
    have : s.current.get? y = none := by
      have : (s.manifolds.get? y).isSome = (s.current.get? y).isSome := c.keys y
      rw [hn] at this
      exact Option.isNone_iff_eq_none.1 (by simpa using this.symm)
    show none = (s.cur y).worker
    unfold State.cur; rw [this]; rfl
  · rfl

theorem register_ref (c : Core s) (r : RefInv s rf) {g : G} (hg : g ∈ s.gs) {w : WRef} (hpc : g.pc = .registering w) (now : Int) :
    RefInv (register (s.mapG g.gid (fun g => { g with pc := afterOffer w })) g.name g.gid w now) rf := by
  refine r.pc c hg (afterOffer w) rfl ?_ (fun _ _ => rfl) (fun _ _ => rfl) ?_
  · intro n hn
    show ((State.setCur _ _ _).cur n).worker = _
    rw [setCur_cur_ne _ _ _ hn]; rfl
  · show rf g.name = true ↔ Refused _ ((State.setCur _ _ _).cur g.name).worker _
    rw [setCur_cur_self, not_refused r hg (Or.inr (Or.inr ⟨w, hpc⟩))]
    exact ⟨nofun, fun h => by cases h.1⟩

theorem arm_good {f f' : Fine} {L : Hidden} {op : FOp} (hk : Link cfg f D) (x : XInv f.s) (ha : From cfg h0 L0 f.s.hist L)
    (hu : urgent cfg f.s.hist = none) (sim : Sim cfg f L) (h : fstep cfg f op = some f') : Good cfg h0 L0 f' := by
  cases op with
  | work => exact work_good hk x ha hu sim h
  | env op =>
    obtain ⟨c, i⟩ := ex_hinv hk.1
    simp only [fstep] at h
    split at h
    · rename_i he
      rw [Option.map_eq_some_iff] at h
      obtain ⟨s', hs, rfl⟩ := h
      exact (env_good c i x ha hu sim he hs).good
    · cases h
  | dying order =>
    obtain ⟨s, todo⟩ := f
    simp only [fstep] at h
    split at h
    · rename_i hc
      obtain ⟨h0, h1, h2, h3, h4⟩ := hc
      have h0 : todo = [] := by simpa using h0
      subst h0
      simp only [Option.some.injEq] at h; subst h
      refine ⟨L, ha, hu, sim.deps, sim.ref, ?_⟩
      rw [sim.loop.ready h1]
      exact .stops [] order h1 ((isRangeOrder_iff _ _).1 h4) nofun
    · cases h
  | report =>
    obtain ⟨s, todo⟩ := f
    simp only [fstep] at h
    split at h
    · rename_i hc
      have h0 : todo = [] := by simpa using hc.1
      subst h0
      simp only [Option.some.injEq] at h; subst h
      refine ⟨L, ha, hu, sim.deps, sim.ref, ?_⟩
      rw [sim.loop.ready hc.2]
      exact .report hc.2
    · cases h
  | install n m order =>
    obtain ⟨s, todo⟩ := f
    obtain ⟨c, i⟩ := ex_hinv hk.1
    simp only [fstep] at h
    split at h
    · rename_i hc
      have h0 : todo = [] := by simpa using hc.1
      subst h0
      have hdead : s.tomb.dead = false := hc.2.1
      have hl := sim.loop.ready hdead
      have ho := (isRangeOrder_iff _ _).1 hc.2.2
      simp only [Option.some.injEq] at h; subst h
      have i : HInv cfg s := i
      unfold beginInstall
      cases hn : s.manifolds.get? n with
      | some m' =>
        simp only [Option.isSome_some, if_true]
        exact .event ha hu (.already L n hl (by rw [← i.man, hn]; simp)) rfl rfl
          ⟨sim.deps, sim.ref.same rfl (fun _ => rfl) (fun _ => rfl), .busy hdead (.done _)⟩
      | none =>
        simp only [Option.isSome_none, Bool.false_eq_true, if_false]
        have hm : manH s.hist n = none := by rw [← i.man]; exact hn
        rcases acyclic_result i ho with ⟨h1, h2⟩ | ⟨h1, h2⟩ <;> rw [h1]
        · refine .event ha hu (.installed L n m hl hm h2) rfl rfl ⟨?_, ?_, .busy hdead (.start n 0 (.done _))⟩
          · show (fun i => L.deps i ++ _) = depsOf (addDependents s.dependents n m.inputs)
            rw [addDependents_deps, sim.deps]
          · exact record_ref c sim.ref m hn
        · exact .event ha hu (.cycle L n m hl hm h2) rfl rfl
            ⟨sim.deps, sim.ref.same rfl (fun _ => rfl) (fun _ => rfl), .busy hdead (.done _)⟩
    · cases h
  | started gid now =>
    obtain ⟨s, todo⟩ := f
    obtain ⟨c, i⟩ := ex_hinv hk.1
    have c : Core s := c
    have i : HInv cfg s := i
    simp only [fstep] at h
    split at h
    · rename_i hc
      have h0 : todo = [] := by simpa using hc.1
      subst h0
      have hdead : s.tomb.dead = false := hc.2
      have hl := sim.loop.ready hdead
      split at h
      · cases h
      · rename_i g hget
        obtain ⟨hg, hgid⟩ := getG_some s gid hget
        subst hgid
        split at h
        · rename_i w hpc
          simp only [Option.some.injEq] at h; subst h
          have hnw := no_worker c hg hpc
          have hnw' : ((s.mapG g.gid (fun g => { g with pc := afterOffer w })).cur g.name).worker = none := hnw
          unfold beginStarted
          simp only [hnw', Option.isSome_none, Bool.false_eq_true, if_false]
          have refused : (.kill ∈ s.hist ∨ .cancelled g.gid ∈ s.hist) →
              Good cfg h0 L0 ⟨(s.mapG g.gid (fun g => { g with pc := afterOffer w })).killWorker w, [.check]⟩ := by
            intro h
            refine refuse_good c i ha hu sim.deps sim.ref hg hpc (h.imp id (fun h => ⟨h, hl⟩)) ?_
            rw [hl]
            refine .check ((Frame.killWorker _ w).dead.trans hdead) (fun hall => ?_)
            rw [refused_open c hg hnw w] at hall; cases hall
          by_cases hst : ((s.mapG g.gid (fun g => { g with pc := afterOffer w })).cur g.name).stopping = true
          · rw [if_pos hst]
            exact refused (Or.inr ((i.told c hg).1 hst))
          · rw [if_neg hst]
            by_cases hd : (s.mapG g.gid (fun g => { g with pc := afterOffer w })).dying = true
            · rw [if_pos hd]
              exact refused (Or.inl (i.dying.1 hd))
            · rw [if_neg hd]
              refine .event ha hu (.registered L g.name g.gid w now hl ((not_dying i).1 (by simpa using hd)) (i.openG g hg)
                (pc_phase i hg hpc (fun h => h)) (by rw [← i.worker]; exact hnw)
                (not_refused sim.ref hg (Or.inr (Or.inr ⟨w, hpc⟩))) (fun h => hst ((i.told c hg).2 h))) rfl rfl
                ⟨sim.deps, register_ref c sim.ref hg hpc now, .busy hdead ?_⟩
              · have := Owed.bounceAll g.name (.done s.dependents)
                rw [List.append_nil] at this
                show Owed s.dependents _ ((L.deps g.name).map .tell)
                rw [sim.deps]; exact this
        · cases h
    · cases h
  | stopped gid now vals =>
    obtain ⟨s, todo⟩ := f
    obtain ⟨c, i⟩ := ex_hinv hk.1
    have c : Core s := c
    have i : HInv cfg s := i
    simp only [fstep] at h
    split at h
    · rename_i hc
      have h0 : todo = [] := by simpa using hc.1
      subst h0
      have hdead : s.tomb.dead = false := hc.2.1
      have hl := sim.loop.ready hdead
      have hv := hc.2.2
      split at h
      · cases h
      · rename_i g hget
        rw [hget] at hv
        have hv : validVals s.dependents g.name vals = true := hv
        obtain ⟨hg, hgid⟩ := getG_some s gid hget
        subst hgid
        split at h
        · rename_i raw hpc
          simp only [Option.some.injEq] at h; subst h
          obtain ⟨h1, h2, h3⟩ := half_ended c i (Half.refl ha hu sim) hl hg hpc now hv
          refine h1.good ?_
          show LoopRel cfg (stopState cfg s g raw now) _ _
          have := LoopRel.look (cfg := cfg) (s := stopState cfg s g raw now) g.name (s.cur g.name).stopping
            (applyFilter cfg (s.man g.name) raw) vals (s.cur g.name).worker (h3.trans hdead)
          rw [h2, ← show L.deps = depsOf s.dependents from sim.deps] at this
          exact this
        · cases h
    · cases h

/-- Every history of an engine is allowed. -/
theorem freach_good {f : Fine} (hr : FReach cfg f) : Good cfg [] {} f := by
  induction hr with
  | init => exact ⟨{}, .new, rfl, rfl, nofun, .idle rfl⟩
  | step op hr h ih =>
    obtain ⟨L, ha, hu, sim⟩ := ih
    obtain ⟨D, hk⟩ := freach_link hr
    exact arm_good hk (ex_xinv hk.1).2 ha hu sim h

end Verif.Engine
