import Verif.Engine.Frame

/-!
The core invariant of the engine model, and its preservation by the building blocks of a step.
-/

namespace Verif.Engine
open State Verif.Spec

/-- `x` is installed and declares `n` as an input. -/
def Dep (s : State) (n x : Name) : Prop := ∃ m, s.manifolds.get? x = some m ∧ n ∈ m.inputs

/-- How a goroutine and the loop's record of its manifold fit together. -/
structure Rel (dy : Bool) (g : G) (i : Info) : Prop where
  notStopped : i.stopped = false
  worker : ∀ w, i.worker = some w → i.starting = false ∧ (g.pc = afterOffer w ∨ ∃ e, g.pc = .sendStopped e)
  noworker : i.worker = none → ∀ w, g.pc = afterOffer w → i.stopping = true ∨ dy = true
  cancelled : g.cancelled = i.stopping
  cancelSome : i.stopping = false → i.cancel = some g.gid
  cancelNone : i.stopping = true → i.cancel = none

structure Core (s : State) : Prop where
  gidNodup : (s.gs.map G.gid).Nodup
  gidLt : ∀ g ∈ s.gs, g.gid < s.nextG
  nameNodup : (s.gs.map G.name).Nodup
  keys : ∀ n, (s.manifolds.get? n).isSome = (s.current.get? n).isSome
  live : ∀ n, (s.cur n).stopped = false → ∃ g ∈ s.gs, g.name = n
  rel : ∀ g ∈ s.gs, Rel s.dying g (s.cur g.name)
  idle : ∀ n, (s.cur n).stopped = true → (s.cur n).stopping = false
  deps : ∀ i x, x ∈ (s.dependents.get? i).getD [] ↔ Dep s i x
  acyclic : ¬ HasCycle (inputsTable s.manifolds)
  nilReason : s.tomb.reason = none ∨ s.tomb.reason = some none
  noPanic : s.tomb.panicked = false
  alive : s.tomb.dead = false → s.tomb.alive = 1
  dead : s.tomb.dead = true → s.dying = true ∧
    ∀ n, (s.cur n).stopped = true ∨ (s.cur n).worker = some .self

theorem nodup_inj {α β : Type} {l : List α} {f : α → β} (h : (l.map f).Nodup) {a b : α} (ha : a ∈ l)
    (hb : b ∈ l) (hab : f a = f b) : a = b := by
  induction l with
  | nil => simp at ha
  | cons x l ih =>
    simp only [List.map_cons, List.nodup_cons, List.mem_map, not_exists, not_and] at h
    rcases List.mem_cons.1 ha with ha' | ha' <;> rcases List.mem_cons.1 hb with hb' | hb'
    · rw [ha', hb']
    · exact absurd (by rw [← hab, ha']) (h.1 b hb')
    · exact absurd (by rw [hab, hb']) (h.1 a ha')
    · exact ih h.2 ha' hb'

theorem Core.gid_inj {s : State} (c : Core s) {a b : G} (ha : a ∈ s.gs) (hb : b ∈ s.gs)
    (h : a.gid = b.gid) : a = b := nodup_inj c.gidNodup ha hb h

theorem Core.name_inj {s : State} (c : Core s) {a b : G} (ha : a ∈ s.gs) (hb : b ∈ s.gs)
    (h : a.name = b.name) : a = b := nodup_inj c.nameNodup ha hb h

theorem Core.getG_eq {s : State} (c : Core s) {g : G} (h : g ∈ s.gs) : s.getG g.gid = some g := by
  unfold State.getG
  cases hf : s.gs.find? (fun x => decide (x.gid = g.gid)) with
  | none =>
    have := List.find?_eq_none.1 hf g h
    simp at this
  | some g' =>
    have h1 := List.mem_of_find?_eq_some hf
    have h2 : g'.gid = g.gid := by simpa using List.find?_some hf
    rw [c.gid_inj h1 h h2]

theorem isSome_cur_of_not_stopped {s : State} {n : Name} (h : (s.cur n).stopped = false) :
    (s.current.get? n).isSome = true := by
  unfold State.cur at h
  cases hc : s.current.get? n with
  | none => rw [hc] at h; simp at h
  | some i => rfl

theorem Core.g_installed {s : State} (c : Core s) {g : G} (h : g ∈ s.gs) :
    (s.manifolds.get? g.name).isSome = true := by
  rw [c.keys]; exact isSome_cur_of_not_stopped (c.rel g h).notStopped

theorem Core.init : Core init := by
  have hg : ∀ n, (Verif.Engine.init).cur n = {} := fun n => rfl
  refine ⟨List.nodup_nil, by simp [Verif.Engine.init], List.nodup_nil, fun _ => rfl, ?_, by simp [Verif.Engine.init], ?_, ?_, ?_, Or.inl rfl, rfl, fun _ => rfl, ?_⟩
  · intro n h; rw [hg] at h; simp at h
  · intro n _; rw [hg]
  · intro i x
    simp [Verif.Engine.init, Dep]
  · rintro ⟨n, hn⟩
    rcases Relation.TransGen.head'_iff.1 hn with ⟨c, ⟨l, hl, _⟩, _⟩
    rw [inputsTable_get] at hl
    simp [Verif.Engine.init] at hl
  · intro h; simp [Verif.Engine.init] at h

/-- Core only looks at some fields. -/
theorem Core.congr {s s' : State} (c : Core s) (h1 : s'.tomb = s.tomb) (h2 : s'.manifolds = s.manifolds)
    (h3 : s'.dependents = s.dependents) (h4 : s'.current = s.current) (h5 : s'.gs = s.gs)
    (h6 : s'.nextG = s.nextG) : Core s' := by
  have hcur : ∀ n, s'.cur n = s.cur n := fun n => by unfold State.cur; rw [h4]
  have hd : s'.dying = s.dying := by unfold State.dying; rw [h1]
  constructor
  · rw [h5]; exact c.gidNodup
  · rw [h5, h6]; exact c.gidLt
  · rw [h5]; exact c.nameNodup
  · rw [h2, h4]; exact c.keys
  · intro n; rw [h5, hcur]; exact c.live n
  · intro g hg; rw [h5] at hg; rw [hcur, hd]; exact c.rel g hg
  · intro n; rw [hcur]; exact c.idle n
  · intro i x; rw [h3]; unfold Dep; rw [h2]; exact c.deps i x
  · rw [h2]; exact c.acyclic
  · rw [h1]; exact c.nilReason
  · rw [h1]; exact c.noPanic
  · rw [h1]; exact c.alive
  · rw [h1, hd]; intro h; refine ⟨(c.dead h).1, fun n => ?_⟩; rw [hcur]; exact (c.dead h).2 n

theorem Core.log {s : State} (c : Core s) (e : Ev) : Core (s.log e) := c.congr rfl rfl rfl rfl rfl rfl

theorem Rel.mono {dy dy' : Bool} {g : G} {i : Info} (r : Rel dy g i) (h : dy = true → dy' = true) :
    Rel dy' g i :=
  ⟨r.notStopped, r.worker, fun hw w hp => (r.noworker hw w hp).imp id h, r.cancelled, r.cancelSome,
    r.cancelNone⟩

theorem kill_none_nilReason {t : Tomb} (h : t.reason = none ∨ t.reason = some none) :
    (t.kill none).reason = some none := by
  rw [Tomb.kill_reason t Tomb.ordinary_none]
  rcases h with h | h <;> rw [h]

theorem Core.killNil {s : State} (c : Core s) : Core s.killNil := by
  have hd : s.dying = true → s.killNil.dying = true := fun _ => killNil_dying s
  constructor
  · exact c.gidNodup
  · exact c.gidLt
  · exact c.nameNodup
  · exact c.keys
  · exact c.live
  · intro g hg; exact (c.rel g hg).mono hd
  · exact c.idle
  · exact c.deps
  · exact c.acyclic
  · right; exact kill_none_nilReason c.nilReason
  · rw [killNil_tomb, Tomb.kill_none_panicked]; exact c.noPanic
  · rw [killNil_tomb, Tomb.kill_dead, Tomb.kill_alive]; exact c.alive
  · rw [killNil_tomb, Tomb.kill_dead]
    intro h; exact ⟨killNil_dying s, (c.dead h).2⟩

theorem Core.killWorker {s : State} (c : Core s) (w : WRef) : Core (s.killWorker w) := by
  cases w with
  | obj n => exact c.log _
  | self => exact (c.log _).killNil

theorem map_mapG_eq {β : Type} (s : State) (gid : Nat) (f : G → G) (p : G → β)
    (h : ∀ g, p (f g) = p g) : (s.mapG gid f).gs.map p = s.gs.map p := by
  simp only [State.mapG, List.map_map]
  apply List.map_congr_left
  intro g _
  simp only [Function.comp_apply]
  split
  · exact h g
  · rfl

/-- Changing one goroutine. -/
theorem Core.mapG {s : State} (c : Core s) (gid : Nat) (f : G → G) (h1 : ∀ g, (f g).gid = g.gid)
    (h2 : ∀ g, (f g).name = g.name)
    (hr : ∀ g ∈ s.gs, g.gid = gid → Rel s.dying (f g) (s.cur g.name)) : Core (s.mapG gid f) := by
  constructor
  · rw [map_mapG_eq s gid f _ h1]; exact c.gidNodup
  · intro g hg
    obtain ⟨g₀, hg₀, rfl⟩ := (mem_mapG s gid f).1 hg
    split
    · rw [h1]; exact c.gidLt g₀ hg₀
    · exact c.gidLt g₀ hg₀
  · rw [map_mapG_eq s gid f _ h2]; exact c.nameNodup
  · exact c.keys
  · intro n hn
    obtain ⟨g, hg, hgn⟩ := c.live n hn
    refine ⟨_, (mem_mapG s gid f).2 ⟨g, hg, rfl⟩, ?_⟩
    split
    · rw [h2]; exact hgn
    · exact hgn
  · intro g hg
    obtain ⟨g₀, hg₀, rfl⟩ := (mem_mapG s gid f).1 hg
    split
    · rename_i h; rw [h2]; exact hr g₀ hg₀ h
    · exact c.rel g₀ hg₀
  · exact c.idle
  · exact c.deps
  · exact c.acyclic
  · exact c.nilReason
  · exact c.noPanic
  · exact c.alive
  · exact c.dead

/-- A goroutine that has no worker registered yet moves on to a point where it still has none. -/
theorem Core.setPc {s : State} (c : Core s) (gid : Nat) (p : Pc)
    (hr : ∀ g ∈ s.gs, g.gid = gid →
      ((s.cur g.name).worker = none → ∀ w, p = afterOffer w → (s.cur g.name).stopping = true ∨ s.dying = true) ∧
      (∀ w, (s.cur g.name).worker = some w → p = afterOffer w ∨ ∃ e, p = .sendStopped e)) :
    Core (s.mapG gid (fun g => { g with pc := p })) := by
  refine c.mapG gid _ (fun _ => rfl) (fun _ => rfl) ?_
  intro g hg hgid
  have r := c.rel g hg
  obtain ⟨ha, hb⟩ := hr g hg hgid
  exact ⟨r.notStopped, fun w hw => ⟨(r.worker w hw).1, hb w hw⟩, ha, r.cancelled, r.cancelSome, r.cancelNone⟩

/-- Scheduling an attempt. -/
theorem Core.launch' {s : State} (c : Core s) (n : Name) (delay : Int) (hd : s.dying = false)
    (hi : (s.manifolds.get? n).isSome = true) (hs : (s.cur n).stopped = true) :
    Core (launch s n delay) := by
  have hnog : ∀ g ∈ s.gs, g.name ≠ n := by
    intro g hg he
    have := (c.rel g hg).notStopped
    rw [he, hs] at this; cases this
  have hcur : ∀ m, (launch s n delay).cur m = if m = n then
      { s.cur n with
        starting := true, startAttempts := (s.cur n).startAttempts + 1, err := none,
        cancel := some s.nextG } else s.cur m := fun m => setCur_cur s n _ m
  have hdy : (launch s n delay).dying = s.dying := rfl
  have hw := (stopped_iff _).1 hs
  constructor
  · show (_ :: (s.gs.map G.gid)).Nodup
    rw [List.nodup_cons]
    refine ⟨?_, c.gidNodup⟩
    intro h
    obtain ⟨g, hg, he⟩ := List.mem_map.1 h
    have := c.gidLt g hg
    simp only at he
    omega
  · intro g hg
    show g.gid < s.nextG + 1
    rcases List.mem_cons.1 hg with rfl | hg
    · exact Nat.lt_succ_self _
    · exact Nat.lt_succ_of_lt (c.gidLt g hg)
  · show (_ :: (s.gs.map G.name)).Nodup
    rw [List.nodup_cons]
    refine ⟨?_, c.nameNodup⟩
    intro h
    obtain ⟨g, hg, he⟩ := List.mem_map.1 h
    exact hnog g hg he
  · intro m
    show (s.manifolds.get? m).isSome = ((s.current.set n _).get? m).isSome
    rw [AMap.get?_set]
    split
    · rename_i h; subst h; exact hi
    · exact c.keys m
  · intro m hm
    rw [hcur] at hm
    by_cases h : m = n
    · exact ⟨_, List.mem_cons_self, h.symm⟩
    · rw [if_neg h] at hm
      obtain ⟨g, hg, hgn⟩ := c.live m hm
      exact ⟨g, List.mem_cons_of_mem _ hg, hgn⟩
  · intro g hg
    rcases List.mem_cons.1 hg with rfl | hg
    · rw [hcur, if_pos rfl]
      refine ⟨?_, ?_, ?_, ?_, ?_, ?_⟩
      · simp [Info.stopped, hw.1]
      · intro w h; simp [hw.1] at h
      · intro _ w h; simp at h; cases w <;> simp [afterOffer] at h
      · simp [c.idle n hs]
      · simp
      · simp [c.idle n hs]
    · rw [hcur, if_neg (hnog g hg), hdy]; exact c.rel g hg
  · intro m hm
    rw [hcur] at hm ⊢
    split at hm
    · simp [Info.stopped, hw.1] at hm
    · rename_i h; rw [if_neg h]; exact c.idle m hm
  · exact c.deps
  · exact c.acyclic
  · exact c.nilReason
  · exact c.noPanic
  · exact c.alive
  · intro h
    have := (c.dead h).1
    rw [hd] at this; cases this

/-- Telling a goroutine to stop. -/
theorem Core.markStopping' {s : State} (c : Core s) (n : Name) (hs : (s.cur n).stopped = false)
    (hst : (s.cur n).stopping = false) : Core (markStopping s n) := by
  obtain ⟨g, hg, hgn⟩ := c.live n hs
  subst hgn
  have r := c.rel g hg
  have hcan := r.cancelSome hst
  have heq : markStopping s g.name =
      (((s.mapG g.gid (fun g => { g with cancelled := true })).log (.cancelled g.gid)).setCur g.name
        { s.cur g.name with stopping := true, cancel := none }) := by
    simp only [Verif.Engine.markStopping, hcan]
  rw [heq]
  generalize hs' : (((s.mapG g.gid (fun g => { g with cancelled := true })).log (.cancelled g.gid)).setCur g.name
        { s.cur g.name with stopping := true, cancel := none }) = s'
  have hcur : ∀ m, s'.cur m = if m = g.name then { s.cur g.name with stopping := true, cancel := none }
      else s.cur m := by intro m; subst hs'; rw [setCur_cur]; rfl
  have hgs : s'.gs = (s.mapG g.gid (fun g => { g with cancelled := true })).gs := by subst hs'; rfl
  have hstop : ({ s.cur g.name with stopping := true, cancel := none } : Info).stopped = (s.cur g.name).stopped := rfl
  constructor
  · rw [hgs, map_mapG_eq]
    · exact c.gidNodup
    · intro _; rfl
  · rw [hgs]; intro x hx
    obtain ⟨g₀, hg₀, rfl⟩ := (mem_mapG s g.gid _).1 hx
    have : s'.nextG = s.nextG := by subst hs'; rfl
    rw [this]
    split <;> exact c.gidLt g₀ hg₀
  · rw [hgs, map_mapG_eq]
    · exact c.nameNodup
    · intro _; rfl
  · intro m; subst hs'
    show (s.manifolds.get? m).isSome = ((s.current.set g.name _).get? m).isSome
    rw [AMap.get?_set]
    split
    · rename_i h; subst h; exact c.g_installed hg
    · exact c.keys m
  · intro m hm
    have hm' : (s.cur m).stopped = false := by
      rw [hcur] at hm; split at hm
      · rename_i h; rw [h, ← hstop]; exact hm
      · exact hm
    obtain ⟨x, hx, hxn⟩ := c.live m hm'
    rw [hgs]
    refine ⟨_, (mem_mapG s g.gid _).2 ⟨x, hx, rfl⟩, ?_⟩
    split <;> exact hxn
  · intro x hx
    rw [hgs] at hx
    have hdy : s'.dying = s.dying := by subst hs'; rfl
    obtain ⟨g₀, hg₀, rfl⟩ := (mem_mapG s g.gid _).1 hx
    rw [hdy]
    by_cases h : g₀.gid = g.gid
    · have : g₀ = g := c.gid_inj hg₀ hg h
      subst this
      rw [if_pos rfl, hcur, if_pos rfl]
      exact ⟨r.notStopped, r.worker, fun _ _ _ => Or.inl rfl, rfl, fun h => by simp at h, fun _ => rfl⟩
    · rw [if_neg h, hcur, if_neg]
      · exact c.rel g₀ hg₀
      · intro hn; exact h (by rw [c.name_inj hg₀ hg hn])
  · intro m hm
    rw [hcur] at hm ⊢
    by_cases h : m = g.name
    · rw [if_pos h, hstop, hs] at hm; cases hm
    · rw [if_neg h] at hm ⊢; exact c.idle m hm
  · intro i x
    have h1 : s'.dependents = s.dependents := by subst hs'; rfl
    have h2 : s'.manifolds = s.manifolds := by subst hs'; rfl
    rw [h1]; unfold Dep; rw [h2]; exact c.deps i x
  · have h2 : s'.manifolds = s.manifolds := by subst hs'; rfl
    rw [h2]; exact c.acyclic
  · subst hs'; exact c.nilReason
  · subst hs'; exact c.noPanic
  · subst hs'; exact c.alive
  · have h3 : s'.tomb = s.tomb := by subst hs'; rfl
    have hdy : s'.dying = s.dying := by subst hs'; rfl
    rw [h3, hdy]
    intro h
    refine ⟨(c.dead h).1, fun m => ?_⟩
    rw [hcur]
    split
    · rename_i hm
      rw [hstop]; exact (c.dead h).2 g.name
    · exact (c.dead h).2 m

theorem Core.requestStop' {s : State} (c : Core s) (n : Name) : Core (requestStop s n) := by
  unfold Verif.Engine.requestStop
  by_cases h : (s.cur n).stopping = true ∨ (s.cur n).stopped = true
  · have h' : ((s.cur n).stopping || (s.cur n).stopped) = true := by simpa using h
    simp only [h', if_true]; exact c
  · have h' : ((s.cur n).stopping || (s.cur n).stopped) = false := by simpa using h
    simp only [not_or, Bool.not_eq_true] at h
    simp only [h', Bool.false_eq_true, if_false]
    cases (s.cur n).worker with
    | none => exact c.markStopping' n h.2 h.1
    | some w => exact (c.markStopping' n h.2 h.1).killWorker w

/-- Recording a new manifold. -/
theorem Core.record' {s : State} (c : Core s) (n : Name) (m : Manifold) (hn : s.manifolds.get? n = none)
    (ha : ¬ HasCycle (inputsTable (s.manifolds.set n m))) (hdead : s.tomb.dead = false) :
    Core (record s n m) := by
  have hcn : s.current.get? n = none := by
    have := c.keys n; rw [hn] at this; simpa using this.symm
  have hcur0 : s.cur n = {} := by unfold State.cur; rw [hcn]; rfl
  have hcur : ∀ k, (record s n m).cur k = s.cur k := by
    intro k
    show ((s.current.set n {}).get? k).getD {} = s.cur k
    rw [AMap.get?_set]
    split
    · rename_i h; subst h; rw [hcur0]; rfl
    · rfl
  constructor
  · exact c.gidNodup
  · exact c.gidLt
  · exact c.nameNodup
  · intro k
    show ((s.manifolds.set n m).get? k).isSome = ((s.current.set n {}).get? k).isSome
    rw [AMap.get?_set, AMap.get?_set]
    split
    · rfl
    · exact c.keys k
  · intro k; rw [hcur]; exact c.live k
  · intro g hg; rw [hcur]; exact c.rel g hg
  · intro k; rw [hcur]; exact c.idle k
  · intro i x
    show x ∈ ((addDependents s.dependents n m.inputs).get? i).getD [] ↔ _
    rw [addDependents_spec, c.deps]
    unfold Dep
    show _ ↔ ∃ m', (s.manifolds.set n m).get? x = some m' ∧ i ∈ m'.inputs
    rw [AMap.get?_set]
    by_cases hx : x = n
    · subst hx; simp [hn]
    · simp [hx]
  · exact ha
  · exact c.nilReason
  · exact c.noPanic
  · exact c.alive
  · intro h
    have : s.tomb.dead = true := h
    rw [hdead] at this; cases this

theorem HasCycle.mono {a b : AMap (List Name)}
    (h : ∀ x l, a.get? x = some l → b.get? x = some l) : HasCycle a → HasCycle b := by
  rintro ⟨n, hn⟩
  have key : ∀ {x y}, Relation.TransGen (DependsOn a) x y → Relation.TransGen (DependsOn b) x y := by
    intro x y hxy
    induction hxy with
    | single hd => obtain ⟨l, hl, hy⟩ := hd; exact .single ⟨l, h _ l hl, hy⟩
    | tail _ hd ih => obtain ⟨l, hl, hy⟩ := hd; exact .tail ih ⟨l, h _ l hl, hy⟩
  exact ⟨n, key hn⟩

/-- Removing a stopped manifold. -/
theorem Core.uninstall' {s : State} (c : Core s) (n : Name) (vals : Name → List Name)
    (hs : (s.cur n).stopped = true) (hv : validVals s.dependents n vals = true)
    (hdead : s.tomb.dead = false) : Core (uninstall s n vals) := by
  have hcur : ∀ k, (uninstall s n vals).cur k = if k = n then {} else s.cur k := by
    intro k
    show ((s.current.erase n).get? k).getD {} = _
    rw [AMap.get?_erase]
    split <;> rfl
  constructor
  · exact c.gidNodup
  · exact c.gidLt
  · exact c.nameNodup
  · intro k
    show ((s.manifolds.erase n).get? k).isSome = ((s.current.erase n).get? k).isSome
    rw [AMap.get?_erase, AMap.get?_erase]
    split
    · rfl
    · exact c.keys k
  · intro k hk; rw [hcur] at hk
    split at hk
    · simp at hk
    · exact c.live k hk
  · intro g hg
    have hne : g.name ≠ n := by
      intro he
      have := (c.rel g hg).notStopped
      rw [he, hs] at this; cases this
    rw [hcur, if_neg hne]; exact c.rel g hg
  · intro k hk; rw [hcur] at hk ⊢
    split
    · rfl
    · rename_i h; rw [if_neg h] at hk; exact c.idle k hk
  · intro i x
    show x ∈ ((dropDependent s.dependents vals).get? i).getD [] ↔ _
    rw [dropDependent_spec hv, c.deps]
    unfold Dep
    show _ ↔ ∃ m', (s.manifolds.erase n).get? x = some m' ∧ i ∈ m'.inputs
    rw [AMap.get?_erase]
    by_cases hx : x = n
    · simp [hx]
    · simp [hx]
  · intro h
    refine c.acyclic (HasCycle.mono ?_ h)
    intro x l
    show (inputsTable (s.manifolds.erase n)).get? x = some l → _
    rw [inputsTable_get, inputsTable_get, AMap.get?_erase]
    split
    · simp
    · exact id
  · exact c.nilReason
  · exact c.noPanic
  · exact c.alive
  · intro h
    have : s.tomb.dead = true := h
    rw [hdead] at this; cases this

/-- Registering a worker: the goroutine and the record change together. -/
theorem Core.register' {s : State} (c : Core s) (g : G) (hg : g ∈ s.gs) (w : WRef) (now : Int)
    (hpc : g.pc = .registering w) (hd : s.dying = false) (hst : (s.cur g.name).stopping = false) :
    Core (register (s.mapG g.gid (fun g => { g with pc := afterOffer w })) g.name g.gid w now) := by
  have r := c.rel g hg
  have hcur : ∀ m, (register (s.mapG g.gid (fun g => { g with pc := afterOffer w })) g.name g.gid w now).cur m =
      if m = g.name then { s.cur g.name with
        worker := some w, starting := false, startCount := (s.cur g.name).startCount + 1, startAttempts := 0,
        startedTime := now } else s.cur m := by
    intro m; exact setCur_cur _ _ _ _
  have hdead : s.tomb.dead = false := by
    cases h : s.tomb.dead with
    | false => rfl
    | true => have := (c.dead h).1; rw [hd] at this; cases this
  constructor
  · show ((s.mapG g.gid _).gs.map G.gid).Nodup
    rw [map_mapG_eq]
    · exact c.gidNodup
    · intro _; rfl
  · intro x hx
    obtain ⟨g₀, hg₀, rfl⟩ := (mem_mapG s g.gid _).1 hx
    show _ < s.nextG
    split <;> exact c.gidLt g₀ hg₀
  · show ((s.mapG g.gid _).gs.map G.name).Nodup
    rw [map_mapG_eq]
    · exact c.nameNodup
    · intro _; rfl
  · intro m
    show (s.manifolds.get? m).isSome = ((s.current.set g.name _).get? m).isSome
    rw [AMap.get?_set]
    split
    · rename_i h; subst h; exact c.g_installed hg
    · exact c.keys m
  · intro m hm
    have : (s.cur m).stopped = false := by
      rw [hcur] at hm
      split at hm
      · rename_i h; rw [h]; exact r.notStopped
      · exact hm
    obtain ⟨x, hx, hxn⟩ := c.live m this
    refine ⟨_, (mem_mapG s g.gid _).2 ⟨x, hx, rfl⟩, ?_⟩
    split <;> exact hxn
  · intro x hx
    obtain ⟨g₀, hg₀, rfl⟩ := (mem_mapG s g.gid _).1 hx
    by_cases h : g₀.gid = g.gid
    · have : g₀ = g := c.gid_inj hg₀ hg h
      subst this
      rw [if_pos rfl, hcur, if_pos rfl]
      refine ⟨by simp [Info.stopped], ?_, ?_, r.cancelled, r.cancelSome, r.cancelNone⟩
      · intro w' hw'; simp at hw'; subst hw'; exact ⟨rfl, Or.inl rfl⟩
      · intro h; simp at h
    · rw [if_neg h, hcur, if_neg]
      · exact c.rel g₀ hg₀
      · intro hn; exact h (by rw [c.name_inj hg₀ hg hn])
  · intro m hm
    rw [hcur] at hm ⊢
    split at hm
    · simp [Info.stopped] at hm
    · rename_i h; rw [if_neg h]; exact c.idle m hm
  · exact c.deps
  · exact c.acyclic
  · exact c.nilReason
  · exact c.noPanic
  · exact c.alive
  · intro h
    have : s.tomb.dead = true := h
    rw [hdead] at this; cases this

/-- The end of an attempt: the goroutine disappears and the record is reset to a stopped one. -/
theorem Core.stop {s : State} (c : Core s) (g : G) (hg : g ∈ s.gs) (i : Info) (hi : i.stopped = true)
    (hi' : i.stopping = false) (hdead : s.tomb.dead = false) :
    Core ({ s with gs := s.gs.filter (fun x => x.gid != g.gid) }.setCur g.name i) := by
  generalize hs' : ({ s with gs := s.gs.filter (fun x => x.gid != g.gid) }.setCur g.name i) = s'
  have hcur : ∀ m, s'.cur m = if m = g.name then i else s.cur m := by
    intro m; subst hs'; rw [setCur_cur]; rfl
  have hgs : s'.gs = s.gs.filter (fun x => x.gid != g.gid) := by subst hs'; rfl
  have hmem : ∀ x, x ∈ s'.gs ↔ x ∈ s.gs ∧ x.gid ≠ g.gid := by
    intro x; rw [hgs]; simp
  have hdy : s'.dying = s.dying := by subst hs'; rfl
  constructor
  · rw [hgs]; exact c.gidNodup.sublist (List.filter_sublist.map _)
  · intro x hx
    have : s'.nextG = s.nextG := by subst hs'; rfl
    rw [this]; exact c.gidLt x ((hmem x).1 hx).1
  · rw [hgs]; exact c.nameNodup.sublist (List.filter_sublist.map _)
  · intro m; subst hs'
    show (s.manifolds.get? m).isSome = ((s.current.set g.name _).get? m).isSome
    rw [AMap.get?_set]
    split
    · rename_i h; subst h; exact c.g_installed hg
    · exact c.keys m
  · intro m hm
    rw [hcur] at hm
    by_cases h : m = g.name
    · rw [if_pos h, hi] at hm; cases hm
    · rw [if_neg h] at hm
      obtain ⟨x, hx, hxn⟩ := c.live m hm
      refine ⟨x, (hmem x).2 ⟨hx, ?_⟩, hxn⟩
      intro he
      have := c.gid_inj hx hg he
      subst this; exact h hxn.symm
  · intro x hx
    obtain ⟨hx1, hx2⟩ := (hmem x).1 hx
    rw [hcur, hdy, if_neg]
    · exact c.rel x hx1
    · intro hn; exact hx2 (by rw [c.name_inj hx1 hg hn])
  · intro m hm
    rw [hcur] at hm ⊢
    split
    · exact hi'
    · rename_i h; rw [if_neg h] at hm; exact c.idle m hm
  · intro a x
    have h1 : s'.dependents = s.dependents := by subst hs'; rfl
    have h2 : s'.manifolds = s.manifolds := by subst hs'; rfl
    rw [h1]; unfold Dep; rw [h2]; exact c.deps a x
  · have h2 : s'.manifolds = s.manifolds := by subst hs'; rfl
    rw [h2]; exact c.acyclic
  · subst hs'; exact c.nilReason
  · subst hs'; exact c.noPanic
  · subst hs'; exact c.alive
  · have h3 : s'.tomb = s.tomb := by subst hs'; rfl
    rw [h3, hdead]; intro h; cases h

/-- Leaving the loop. -/
theorem Core.exit {s : State} (c : Core s) (hd : s.dying = true) (hdead : s.tomb.dead = false)
    (ha : allOthersStopped s = true) :
    Core { s with tomb := s.tomb.finish (some .tombDying), hist := .exit :: s.hist } := by
  have halive := c.alive hdead
  have hreason : s.tomb.reason = some none := by
    rcases c.nilReason with h | h
    · simp [State.dying, Tomb.dying, h] at hd
    · exact h
  have hnp := c.noPanic
  have ht : s.tomb.finish (some .tombDying) = { s.tomb with alive := 0, dead := true } := by
    revert hreason halive hnp
    generalize s.tomb = t
    obtain ⟨r, al, de, pa⟩ := t
    intro h1 h2 h3
    simp only at h1 h2 h3
    subst h1; subst h2; subst h3
    simp [Tomb.finish, Tomb.kill]
  have hall : ∀ n, (s.cur n).stopped = true ∨ (s.cur n).worker = some .self := by
    intro n
    cases hc : s.current.get? n with
    | none => left; unfold State.cur; rw [hc]; rfl
    | some i =>
      have := List.all_eq_true.1 ha n (AMap.mem_keys_of_get? hc)
      simpa using this
  rw [ht]
  have hdy : ∀ h, State.dying { s with tomb := { s.tomb with alive := 0, dead := true }, hist := h } = s.dying :=
    fun _ => rfl
  constructor
  · exact c.gidNodup
  · exact c.gidLt
  · exact c.nameNodup
  · exact c.keys
  · exact c.live
  · intro g hg; exact c.rel g hg
  · exact c.idle
  · exact c.deps
  · exact c.acyclic
  · exact c.nilReason
  · exact c.noPanic
  · intro h; simp at h
  · intro _; exact ⟨hd, hall⟩

end Verif.Engine
