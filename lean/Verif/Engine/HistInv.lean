import Verif.Engine.Micro
import Verif.Spec.History

/-!
The state of the loop is what the history says: every part of it equals the corresponding specification function
of the history.
-/

namespace Verif.Engine
open State Verif.Spec

/-- How far a goroutine is, according to the history. -/
def PcOk (h : List Ev) (g : G) : Prop :=
  match g.pc with
  | .delaying => phaseH h g.name = .delayed
  | .starting => phaseH h g.name = .inStart
  | .registering w => phaseH h g.name = .ok w
  | .selfWait => phaseH h g.name = .ok .self
  | .waiting k => phaseH h g.name = .ok (.obj k)
  | .sendStopped e =>
    (phaseH h g.name = .delayed ∧ e = some .aborted ∧ (.cancelled g.gid ∈ h ∨ .kill ∈ h)) ∨
    (∃ e0, phaseH h g.name = .failed e0 ∧ e = startError e0) ∨
    (∃ k, phaseH h g.name = .ok (.obj k) ∧ .finished k e ∈ h) ∨
    (phaseH h g.name = .ok .self ∧ e = some .tombDying ∧ .kill ∈ h)

structure HInv (cfg : Config) (s : State) : Prop where
  man : ∀ n, s.manifolds.get? n = manH s.hist n
  openG : ∀ g ∈ s.gs, openH s.hist g.name = some g.gid
  openN : ∀ n gid, openH s.hist n = some gid → ∃ g ∈ s.gs, g.name = n ∧ g.gid = gid
  beg : ∀ g ∈ s.gs, lastBegin s.hist g.name = some (g.gid, g.snap)
  worker : ∀ n, (s.cur n).worker = workerH s.hist n
  canc : ∀ g ∈ s.gs, g.cancelled = true ↔ .cancelled g.gid ∈ s.hist
  ltBegin : ∀ n gid b r sn, .begin n gid b r sn ∈ s.hist → gid < s.nextG
  ltCanc : ∀ gid, .cancelled gid ∈ s.hist → gid < s.nextG
  dying : s.dying = true ↔ .kill ∈ s.hist
  dead : s.tomb.dead = true ↔ .exit ∈ s.hist
  worst : s.worst = worstH cfg.isFatal cfg.worstError s.hist
  count : ∀ n, (s.cur n).startCount = countH s.hist n
  err : ∀ n, (s.cur n).err = errH s.hist n
  started : ∀ n, (s.cur n).startedTime = startedH s.hist n
  recent : ∀ n, (s.cur n).recentErrors = recentH cfg.backoffResetTime s.hist n
  fin : ∀ k e, s.finished.get? k = some e ↔ .finished k e ∈ s.hist
  pc : ∀ g ∈ s.gs, PcOk s.hist g

theorem HInv.init (cfg : Config) : HInv cfg init := by
  have hcur : ∀ n, (Verif.Engine.init).cur n = {} := fun _ => rfl
  constructor <;> simp [Verif.Engine.init, manH, openH, workerH, worstH, countH, errH, startedH, recentH,
    State.dying, Tomb.dying, State.cur]

/-- requestStop spelled out. -/
theorem requestStop_form {s : State} (c : Core s) {n : Name} (hs : (s.cur n).stopped = false)
    (hst : (s.cur n).stopping = false) : ∃ g ∈ s.gs, g.name = n ∧
      let M := ((s.mapG g.gid (fun g => { g with cancelled := true })).log (.cancelled g.gid)).setCur n
        { s.cur n with stopping := true, cancel := none }
      (((s.cur n).worker = none ∧ requestStop s n = M) ∨
       (∃ k, (s.cur n).worker = some (.obj k) ∧ requestStop s n = M.log (.killW (.obj k))) ∨
       ((s.cur n).worker = some .self ∧ requestStop s n = (M.log (.killW .self)).killNil)) := by
  obtain ⟨g, hg, hgn⟩ := c.live n hs
  refine ⟨g, hg, hgn, ?_⟩
  have hcan := (c.rel g hg).cancelSome (by rw [hgn]; exact hst)
  rw [hgn] at hcan
  have hm : markStopping s n = ((s.mapG g.gid (fun g => { g with cancelled := true })).log (.cancelled g.gid)).setCur n
        { s.cur n with stopping := true, cancel := none } := by
    simp only [markStopping, hcan]
  simp only
  rw [← hm]
  rcases requestStop_cases s n with ⟨h, _⟩ | ⟨_, _, ⟨w, hw, e⟩ | ⟨hw, e⟩⟩
  · rcases h with h | h <;> simp_all
  · rw [e, hw]
    cases w with
    | self => right; right; exact ⟨rfl, rfl⟩
    | obj k => right; left; exact ⟨k, rfl, rfl⟩
  · left; exact ⟨hw, e⟩

theorem PcOk.mono {h h' : List Ev} {g : G} (hp : phaseH h' g.name = phaseH h g.name)
    (hf : ∀ k e, .finished k e ∈ h → .finished k e ∈ h') (hk : .kill ∈ h → .kill ∈ h')
    (hc : .cancelled g.gid ∈ h → .cancelled g.gid ∈ h') (ok : PcOk h g) : PcOk h' g := by
  unfold PcOk at *
  split <;> simp_all only
  rcases ok with ⟨h1, h2, h3⟩ | h | ⟨k, h, he⟩ | h
  · exact Or.inl ⟨h1, h2, h3.imp hc hk⟩
  · exact Or.inr (Or.inl h)
  · exact Or.inr (Or.inr (Or.inl ⟨k, h, hf _ _ he⟩))
  · exact Or.inr (Or.inr (Or.inr ⟨h.1, h.2.1, hk h.2.2⟩))

theorem PcOk.cons {h : List Ev} {g : G} {e : Ev} (hp : phaseH (e :: h) g.name = phaseH h g.name)
    (ok : PcOk h g) : PcOk (e :: h) g :=
  ok.mono hp (fun _ _ h => List.mem_cons_of_mem _ h) (fun h => List.mem_cons_of_mem _ h)
    (fun h => List.mem_cons_of_mem _ h)

theorem PcOk.congr {h : List Ev} {g g' : G} (hn : g'.name = g.name) (hp : g'.pc = g.pc) (hg : g'.gid = g.gid)
    (ok : PcOk h g) : PcOk h g' := by
  unfold PcOk at *; rw [hp, hn, hg]; exact ok

/-- Events that no specification function looks at. -/
def Ev.inert : Ev → Bool
  | .installFailed _ _ => true
  | .report _ _ _ => true
  | .get _ _ _ _ => true
  | .killW _ => true
  | _ => false

theorem HInv.congr {cfg : Config} {s s' : State} (i : HInv cfg s) (h1 : s'.manifolds = s.manifolds)
    (h2 : s'.gs = s.gs) (h3 : s'.current = s.current) (h4 : s'.nextG = s.nextG) (h5 : s'.tomb = s.tomb)
    (h6 : s'.worst = s.worst) (h7 : s'.finished = s.finished) (h8 : s'.hist = s.hist) : HInv cfg s' := by
  have hc : ∀ n, s'.cur n = s.cur n := fun n => by unfold State.cur; rw [h3]
  have hd : s'.dying = s.dying := by unfold State.dying; rw [h5]
  constructor
  · rw [h1, h8]; exact i.man
  · rw [h2, h8]; exact i.openG
  · rw [h2, h8]; exact i.openN
  · rw [h2, h8]; exact i.beg
  · intro n; rw [hc, h8]; exact i.worker n
  · rw [h2, h8]; exact i.canc
  · rw [h4, h8]; exact i.ltBegin
  · rw [h4, h8]; exact i.ltCanc
  · rw [hd, h8]; exact i.dying
  · rw [h5, h8]; exact i.dead
  · rw [h6, h8]; exact i.worst
  · intro n; rw [hc, h8]; exact i.count n
  · intro n; rw [hc, h8]; exact i.err n
  · intro n; rw [hc, h8]; exact i.started n
  · intro n; rw [hc, h8]; exact i.recent n
  · rw [h7, h8]; exact i.fin
  · rw [h2, h8]; exact i.pc

theorem HInv.logInert {cfg : Config} {s : State} (i : HInv cfg s) {e : Ev} (he : e.inert = true) :
    HInv cfg (s.log e) := by
  cases e <;> simp only [Ev.inert, Bool.false_eq_true] at he
  all_goals
    constructor
    · exact i.man
    · exact i.openG
    · exact i.openN
    · exact i.beg
    · exact i.worker
    · intro g hg; simpa using i.canc g hg
    · intro n gid b r sn h; exact i.ltBegin n gid b r sn (by simpa using h)
    · intro gid h; exact i.ltCanc gid (by simpa using h)
    · simpa using i.dying
    · simpa using i.dead
    · exact i.worst
    · exact i.count
    · exact i.err
    · exact i.started
    · exact i.recent
    · intro k e; simpa using i.fin k e
    · intro g hg; exact (i.pc g hg).cons rfl

theorem HInv.killNil {cfg : Config} {s : State} (i : HInv cfg s) : HInv cfg s.killNil := by
  constructor
  · exact i.man
  · exact i.openG
  · exact i.openN
  · exact i.beg
  · exact i.worker
  · intro g hg; simpa using i.canc g hg
  · intro n gid b r sn h; exact i.ltBegin n gid b r sn (by simpa using h)
  · intro gid h; exact i.ltCanc gid (by simpa using h)
  · simp
  · simpa using i.dead
  · exact i.worst
  · exact i.count
  · exact i.err
  · exact i.started
  · exact i.recent
  · intro k e; simpa using i.fin k e
  · intro g hg; exact (i.pc g hg).cons rfl

theorem HInv.mark {cfg : Config} {s : State} (i : HInv cfg s) (c : Core s) {g : G} (hg : g ∈ s.gs) :
    HInv cfg (((s.mapG g.gid (fun g => { g with cancelled := true })).log (.cancelled g.gid)).setCur g.name
        { s.cur g.name with stopping := true, cancel := none }) := by
  generalize hs' : (((s.mapG g.gid (fun g => { g with cancelled := true })).log (.cancelled g.gid)).setCur g.name
        { s.cur g.name with stopping := true, cancel := none }) = s'
  have hh : s'.hist = .cancelled g.gid :: s.hist := by subst hs'; rfl
  have hcur : ∀ m, s'.cur m = if m = g.name then { s.cur g.name with stopping := true, cancel := none }
      else s.cur m := by intro m; subst hs'; rw [setCur_cur]; rfl
  have hgs : ∀ x, x ∈ s'.gs ↔ ∃ y ∈ s.gs, x = if y.gid = g.gid then { y with cancelled := true } else y := by
    intro x; subst hs'; exact mem_mapG s g.gid _
  have hfield : ∀ {β : Type} (f : Info → β) (_ : ∀ j : Info, f { j with stopping := true, cancel := none } = f j)
      (n : Name), f (s'.cur n) = f (s.cur n) := by
    intro β f hf n
    rw [hcur]
    split
    · rename_i h; rw [hf, h]
    · rfl
  constructor
  · rw [hh]; subst hs'; exact i.man
  · intro x hx; obtain ⟨y, hy, rfl⟩ := (hgs x).1 hx
    rw [hh]; split <;> exact i.openG y hy
  · intro n gid h
    rw [hh] at h
    obtain ⟨y, hy, h1, h2⟩ := i.openN n gid h
    refine ⟨_, (hgs _).2 ⟨y, hy, rfl⟩, ?_⟩
    split <;> exact ⟨h1, h2⟩
  · intro x hx; obtain ⟨y, hy, rfl⟩ := (hgs x).1 hx
    rw [hh]; split <;> exact i.beg y hy
  · intro n; rw [hfield Info.worker (fun _ => rfl), hh]; exact i.worker n
  · intro x hx; obtain ⟨y, hy, rfl⟩ := (hgs x).1 hx
    rw [hh]
    by_cases h : y.gid = g.gid
    · simp [h]
    · rw [if_neg h]
      simp only [List.mem_cons, Ev.cancelled.injEq, h, false_or]
      exact i.canc y hy
  · intro n gid b r sn h
    rw [hh] at h; subst hs'; exact i.ltBegin n gid b r sn (by simpa using h)
  · intro gid h
    rw [hh] at h
    have hn : s'.nextG = s.nextG := by subst hs'; rfl
    rw [hn]
    rcases List.mem_cons.1 h with h | h
    · cases h; exact c.gidLt g hg
    · exact i.ltCanc gid h
  · rw [hh]; subst hs'; simpa using i.dying
  · rw [hh]; subst hs'; simpa using i.dead
  · rw [hh]; subst hs'; exact i.worst
  · intro n; rw [hfield Info.startCount (fun _ => rfl), hh]; exact i.count n
  · intro n; rw [hfield Info.err (fun _ => rfl), hh]; exact i.err n
  · intro n; rw [hfield Info.startedTime (fun _ => rfl), hh]; exact i.started n
  · intro n; rw [hfield Info.recentErrors (fun _ => rfl), hh]; exact i.recent n
  · intro k e; rw [hh]; subst hs'; simpa using i.fin k e
  · intro x hx; obtain ⟨y, hy, rfl⟩ := (hgs x).1 hx
    rw [hh]
    have := PcOk.cons (e := .cancelled g.gid) rfl (i.pc y hy)
    split
    · exact this.congr rfl rfl rfl
    · exact this

theorem HInv.launch' {cfg : Config} {s : State} (i : HInv cfg s) (c : Core s) (n : Name) (delay : Int)
    (hs : (s.cur n).stopped = true) : HInv cfg (launch s n delay) := by
  have hnog : ∀ g ∈ s.gs, g.name ≠ n := by
    intro g hg he
    have := (c.rel g hg).notStopped
    rw [he, hs] at this; cases this
  generalize hsn : takeSnapshot (s.setCur n { s.cur n with
    starting := true, startAttempts := (s.cur n).startAttempts + 1, err := none, cancel := some s.nextG })
    (s.man n).inputs = sn
  have hh : (launch s n delay).hist = .begin n s.nextG delay (s.cur n).recentErrors sn :: s.hist := by
    subst hsn; rfl
  have hgs : (launch s n delay).gs =
      { gid := s.nextG, name := n, base := delay, recent := (s.cur n).recentErrors, snap := sn } :: s.gs := by
    subst hsn; rfl
  have hw := (stopped_iff _).1 hs
  have hlt : ∀ g ∈ s.gs, g.gid ≠ s.nextG := fun g hg => Nat.ne_of_lt (c.gidLt g hg)
  constructor
  · rw [hh]; exact i.man
  · rw [hh, hgs]; intro g hg
    rcases List.mem_cons.1 hg with rfl | hg
    · simp [openH]
    · simp [openH, hnog g hg, i.openG g hg]
  · rw [hh, hgs]; intro m gid h
    simp only [openH] at h
    split at h
    · rename_i he; cases h; exact ⟨_, List.mem_cons_self, he.symm, rfl⟩
    · obtain ⟨y, hy, h1, h2⟩ := i.openN m gid h
      exact ⟨y, List.mem_cons_of_mem _ hy, h1, h2⟩
  · rw [hh, hgs]; intro g hg
    rcases List.mem_cons.1 hg with rfl | hg
    · simp [lastBegin]
    · simp [lastBegin, hnog g hg, i.beg g hg]
  · intro m; rw [hh, launch_cur]
    split
    · rename_i h; rw [h]; exact i.worker n
    · exact i.worker m
  · rw [hh, hgs]; intro g hg
    rcases List.mem_cons.1 hg with rfl | hg
    · simp only [Bool.false_eq_true, List.mem_cons, reduceCtorEq, false_or, false_iff]
      intro h; exact absurd (i.ltCanc _ h) (Nat.lt_irrefl _)
    · simpa using i.canc g hg
  · rw [hh]; intro m gid b r sn' h
    show gid < s.nextG + 1
    rcases List.mem_cons.1 h with h | h
    · cases h; exact Nat.lt_succ_self _
    · exact Nat.lt_succ_of_lt (i.ltBegin m gid b r sn' h)
  · rw [hh]; intro gid h
    exact Nat.lt_succ_of_lt (i.ltCanc gid (by simpa using h))
  · have := i.dying; rw [hh]; simp only [List.mem_cons, reduceCtorEq, false_or]; exact this
  · have := i.dead; rw [hh]; simp only [List.mem_cons, reduceCtorEq, false_or]; exact this
  · rw [hh]; exact i.worst
  · intro m; rw [hh, launch_cur]
    split
    · rename_i h; rw [h]; exact i.count n
    · exact i.count m
  · intro m; rw [hh, launch_cur]
    simp only [errH]
    split
    · rfl
    · exact i.err m
  · intro m; rw [hh, launch_cur]
    split
    · rename_i h; rw [h]; exact i.started n
    · exact i.started m
  · intro m; rw [hh, launch_cur]
    split
    · rename_i h; rw [h]; exact i.recent n
    · exact i.recent m
  · intro k e; have := i.fin k e; rw [hh]; simp only [List.mem_cons, reduceCtorEq, false_or]; exact this
  · rw [hh, hgs]; intro g hg
    rcases List.mem_cons.1 hg with rfl | hg
    · simp [PcOk, phaseH]
    · exact (i.pc g hg).cons (by simp [phaseH, hnog g hg])

theorem HInv.record' {cfg : Config} {s : State} (i : HInv cfg s) (c : Core s) (n : Name) (m : Manifold)
    (hn : s.manifolds.get? n = none) : HInv cfg (record s n m) := by
  have hcn : s.current.get? n = none := by
    have := c.keys n; rw [hn] at this; simpa using this.symm
  have hcur0 : s.cur n = {} := by unfold State.cur; rw [hcn]; rfl
  have hcur : ∀ k, (record s n m).cur k = s.cur k := by
    intro k
    show ((s.current.set n {}).get? k).getD {} = s.cur k
    rw [AMap.get?_set]
    split
    · rename_i h; subst h; rw [hcur0]; rfl
    · rfl
  have hh : (record s n m).hist = .installed n m :: s.hist := rfl
  constructor
  · intro k; rw [hh]
    show (s.manifolds.set n m).get? k = _
    rw [AMap.get?_set]
    simp only [manH]
    split
    · rfl
    · exact i.man k
  · exact i.openG
  · exact i.openN
  · exact i.beg
  · intro k; rw [hcur, hh]; exact i.worker k
  · rw [hh]; intro g hg; simpa using i.canc g hg
  · rw [hh]; intro k gid b r sn h; exact i.ltBegin k gid b r sn (by simpa using h)
  · rw [hh]; intro gid h; exact i.ltCanc gid (by simpa using h)
  · have := i.dying; rw [hh]; simp only [List.mem_cons, reduceCtorEq, false_or]; exact this
  · have := i.dead; rw [hh]; simp only [List.mem_cons, reduceCtorEq, false_or]; exact this
  · exact i.worst
  · intro k; rw [hcur, hh]; simp only [countH]
    split
    · rename_i h; rw [h, hcur0]
    · exact i.count k
  · intro k; rw [hcur, hh]; simp only [errH]
    split
    · rename_i h; rw [h, hcur0]
    · exact i.err k
  · intro k; rw [hcur, hh]; exact i.started k
  · intro k; rw [hcur, hh]; simp only [recentH]
    split
    · rename_i h; rw [h, hcur0]
    · exact i.recent k
  · intro k e; have := i.fin k e; rw [hh]; simp only [List.mem_cons, reduceCtorEq, false_or]; exact this
  · intro g hg; exact (i.pc g hg).cons rfl

/-- A goroutine moves without an event. -/
theorem HInv.setPc {cfg : Config} {s : State} (i : HInv cfg s) (c : Core s) {g : G} (hg : g ∈ s.gs) (p : Pc)
    (hp : PcOk s.hist { g with pc := p }) : HInv cfg (s.mapG g.gid (fun g => { g with pc := p })) := by
  have hgs := fun x => mem_mapG s g.gid (fun g => { g with pc := p }) (g := x)
  constructor
  · exact i.man
  · intro x hx; obtain ⟨y, hy, rfl⟩ := (hgs x).1 hx
    split <;> exact i.openG y hy
  · intro n gid h
    obtain ⟨y, hy, h1, h2⟩ := i.openN n gid h
    refine ⟨_, (hgs _).2 ⟨y, hy, rfl⟩, ?_⟩
    split <;> exact ⟨h1, h2⟩
  · intro x hx; obtain ⟨y, hy, rfl⟩ := (hgs x).1 hx
    split <;> exact i.beg y hy
  · exact i.worker
  · intro x hx; obtain ⟨y, hy, rfl⟩ := (hgs x).1 hx
    split <;> exact i.canc y hy
  · exact i.ltBegin
  · exact i.ltCanc
  · exact i.dying
  · exact i.dead
  · exact i.worst
  · exact i.count
  · exact i.err
  · exact i.started
  · exact i.recent
  · exact i.fin
  · intro x hx; obtain ⟨y, hy, rfl⟩ := (hgs x).1 hx
    split
    · rename_i h
      have := c.gid_inj hy hg h
      subst this; exact hp
    · exact i.pc y hy

/-- A goroutine moves with an event about it. -/
theorem HInv.setPcLog {cfg : Config} {s : State} (i : HInv cfg s) (c : Core s) {g : G} (hg : g ∈ s.gs) (p : Pc)
    (e : Ev) (he : (∃ d, e = .startCall g.name g.gid d) ∨ (∃ w, e = .startOk g.name g.gid w) ∨
      (∃ r, e = .startErr g.name g.gid r))
    (hp : PcOk (e :: s.hist) { g with pc := p }) :
    HInv cfg ((s.mapG g.gid (fun g => { g with pc := p })).log e) := by
  have hgs := fun x => mem_mapG s g.gid (fun g => { g with pc := p }) (g := x)
  have hother : ∀ y ∈ s.gs, y.gid ≠ g.gid → phaseH (e :: s.hist) y.name = phaseH s.hist y.name := by
    intro y hy hne
    have : y.name ≠ g.name := fun h => hne (by rw [c.name_inj hy hg h])
    rcases he with ⟨d, rfl⟩ | ⟨w, rfl⟩ | ⟨r, rfl⟩ <;> simp [phaseH, this]
  have hpc : ∀ x ∈ (s.mapG g.gid (fun g => { g with pc := p })).gs, PcOk (e :: s.hist) x := by
    intro x hx; obtain ⟨y, hy, rfl⟩ := (hgs x).1 hx
    split
    · rename_i h
      have := c.gid_inj hy hg h
      subst this; exact hp
    · rename_i h; exact (i.pc y hy).cons (hother y hy h)
  rcases he with ⟨d, rfl⟩ | ⟨w, rfl⟩ | ⟨r, rfl⟩
  all_goals
    constructor
    · exact i.man
    · intro x hx; obtain ⟨y, hy, rfl⟩ := (hgs x).1 hx
      split <;> exact i.openG y hy
    · intro n gid h
      obtain ⟨y, hy, h1, h2⟩ := i.openN n gid h
      refine ⟨_, (hgs _).2 ⟨y, hy, rfl⟩, ?_⟩
      split <;> exact ⟨h1, h2⟩
    · intro x hx; obtain ⟨y, hy, rfl⟩ := (hgs x).1 hx
      split <;> exact i.beg y hy
    · exact i.worker
    · intro x hx; obtain ⟨y, hy, rfl⟩ := (hgs x).1 hx
      split <;> simpa using i.canc y hy
    · intro n gid b r sn h; exact i.ltBegin n gid b r sn (by simpa using h)
    · intro gid h; exact i.ltCanc gid (by simpa using h)
    · simpa using i.dying
    · simpa using i.dead
    · exact i.worst
    · exact i.count
    · exact i.err
    · exact i.started
    · exact i.recent
    · intro k e; simpa using i.fin k e
    · exact hpc

theorem HInv.register' {cfg : Config} {s : State} (i : HInv cfg s) (c : Core s) {g : G} (hg : g ∈ s.gs) (w : WRef)
    (now : Int) (hpc : g.pc = .registering w) :
    HInv cfg (register (s.mapG g.gid (fun g => { g with pc := afterOffer w })) g.name g.gid w now) := by
  have hph := i.pc g hg
  rw [PcOk, hpc] at hph
  have i1 : HInv cfg (s.mapG g.gid (fun g => { g with pc := afterOffer w })) := by
    refine i.setPc c hg _ ?_
    cases w <;> exact hph
  have hh : (register (s.mapG g.gid (fun g => { g with pc := afterOffer w })) g.name g.gid w now).hist =
      .registered g.name g.gid w now :: s.hist := rfl
  have hcur : ∀ m, (register (s.mapG g.gid (fun g => { g with pc := afterOffer w })) g.name g.gid w now).cur m =
      if m = g.name then { s.cur g.name with
        worker := some w, starting := false, startCount := (s.cur g.name).startCount + 1, startAttempts := 0,
        startedTime := now } else s.cur m := by
    intro m; exact setCur_cur _ _ _ _
  constructor
  · exact i1.man
  · exact i1.openG
  · exact i1.openN
  · exact i1.beg
  · intro m; rw [hcur, hh]; simp only [workerH]
    split
    · rfl
    · exact i.worker m
  · rw [hh]; intro x hx; simpa using i1.canc x hx
  · rw [hh]; intro n gid b r sn h; exact i.ltBegin n gid b r sn (by simpa using h)
  · rw [hh]; intro gid h; exact i.ltCanc gid (by simpa using h)
  · have := i.dying; rw [hh]; simp only [List.mem_cons, reduceCtorEq, false_or]; exact this
  · have := i.dead; rw [hh]; simp only [List.mem_cons, reduceCtorEq, false_or]; exact this
  · exact i.worst
  · intro m; rw [hcur, hh]; simp only [countH]
    split
    · rename_i h; rw [h, i.count]
    · exact i.count m
  · intro m; rw [hcur, hh]; simp only [errH]
    split
    · rename_i h; rw [h]; exact i.err g.name
    · exact i.err m
  · intro m; rw [hcur, hh]; simp only [startedH]
    split
    · rfl
    · exact i.started m
  · intro m; rw [hcur, hh]; simp only [recentH]
    split
    · rename_i h; rw [h]; exact i.recent g.name
    · exact i.recent m
  · intro k e; have := i.fin k e; rw [hh]; simp only [List.mem_cons, reduceCtorEq, false_or]; exact this
  · intro x hx; exact (i1.pc x hx).cons rfl

theorem errIs_iff (r : Err) (t : Err) : errIs (some r) t = true ↔ t ∈ r.tree := Err.is_iff_mem_tree t r

theorem newRecent_spec (cfg : Config) (info : Info) (raw : Option Err) (now : Int) :
    newRecent cfg info raw now = match raw with
      | none => 0
      | some r =>
        if .aborted ∈ r.tree ∨ .missing ∈ r.tree then 1
        else if info.startedTime ≠ 0 ∧ cfg.backoffResetTime ≤ now - info.startedTime then 1
        else info.recentErrors + 1 := by
  unfold newRecent
  cases raw with
  | none => rfl
  | some r =>
    simp only [reduceCtorEq, if_false, errIs_iff]
    by_cases h1 : Err.aborted ∈ r.tree
    · simp [h1]
    · by_cases h2 : Err.missing ∈ r.tree
      · simp [h2]
      · simp only [h1, h2, if_false, or_self]
        by_cases h3 : info.startedTime = 0
        · simp [h3]
        · by_cases h4 : now - info.startedTime < cfg.backoffResetTime
          · have : ¬ cfg.backoffResetTime ≤ now - info.startedTime := by omega
            simp [h4, this]
          · have : cfg.backoffResetTime ≤ now - info.startedTime := by omega
            simp [h3, h4, this]

theorem HInv.stop_aux {cfg : Config} {s s' : State} (i : HInv cfg s) (c : Core s) {g : G} (hg : g ∈ s.gs)
    (raw : Option Err) (now : Int) {f : Option Err} (hf : applyFilter cfg (s.man g.name) raw = f)
    {st : Bool} {lost : Option WRef}
    (h1 : s'.manifolds = s.manifolds)
    (h2 : s'.gs = s.gs.filter (fun x => x.gid != g.gid))
    (hcur : ∀ m, s'.cur m = if m = g.name then resetTo cfg s g raw now else s.cur m)
    (h4 : s'.nextG = s.nextG) (h5 : s'.tomb = s.tomb)
    (h6 : s'.worst = if cfg.isFatal f then cfg.worstError f s.worst else s.worst)
    (h7 : s'.finished = s.finished)
    (hh : s'.hist = .ended g.name g.gid now raw f st lost :: s.hist) : HInv cfg s' := by
  have hmem : ∀ x, x ∈ s'.gs ↔ x ∈ s.gs ∧ x.gid ≠ g.gid := by
    intro x; rw [h2]; simp
  have hne : ∀ x ∈ s'.gs, x.name ≠ g.name := by
    intro x hx h
    obtain ⟨h1, h2⟩ := (hmem x).1 hx
    exact h2 (by rw [c.name_inj h1 hg h])
  have hd : s'.dying = s.dying := by unfold State.dying; rw [h5]
  constructor
  · rw [h1, hh]; exact i.man
  · intro x hx
    have h1 := hne x hx
    have h2 := i.openG x ((hmem x).1 hx).1
    rw [hh]; simp [openH, h1, h2]
  · intro n gid h
    rw [hh] at h
    simp only [openH] at h
    split at h
    · cases h
    · rename_i hn
      obtain ⟨y, hy, h1, h2⟩ := i.openN n gid h
      refine ⟨y, (hmem y).2 ⟨hy, ?_⟩, h1, h2⟩
      intro he
      have := c.gid_inj hy hg he
      subst this; exact hn h1.symm
  · intro x hx; rw [hh]; exact i.beg x ((hmem x).1 hx).1
  · intro m; rw [hcur, hh]; simp only [workerH]
    split
    · rfl
    · exact i.worker m
  · intro x hx
    have := i.canc x ((hmem x).1 hx).1
    rw [hh]; simpa using this
  · rw [hh, h4]; intro n gid b r sn h; exact i.ltBegin n gid b r sn (by simpa using h)
  · rw [hh, h4]; intro gid h; exact i.ltCanc gid (by simpa using h)
  · have := i.dying; rw [hh, hd]; simpa using this
  · have := i.dead; rw [hh, h5]; simpa using this
  · rw [hh, h6]; simp only [worstH]
    rw [i.worst]
  · intro m; rw [hcur, hh]
    show _ = countH s.hist m
    split
    · rename_i h; rw [h]; exact i.count _
    · exact i.count m
  · intro m; rw [hcur, hh]; simp only [errH]
    split
    · exact hf
    · exact i.err m
  · intro m; rw [hcur, hh]; simp only [startedH]
    split
    · rfl
    · exact i.started m
  · intro m; rw [hcur, hh]; simp only [recentH]
    split
    · rename_i h
      rw [h]
      show newRecent cfg (s.cur g.name) raw now = _
      rw [newRecent_spec, i.started, i.recent]
      cases raw <;> rfl
    · exact i.recent m
  · intro k e; have := i.fin k e; rw [hh, h7]; simpa using this
  · intro x hx
    have h1 := hne x hx
    rw [hh]
    exact (i.pc x ((hmem x).1 hx).1).cons (by simp [phaseH, h1])

theorem HInv.stop' {cfg : Config} {s : State} (i : HInv cfg s) (c : Core s) {g : G} (hg : g ∈ s.gs)
    (raw : Option Err) (now : Int) : HInv cfg (stopState cfg s g raw now) := by
  rw [stopState_eq cfg s g raw now (c.rel g hg).notStopped]
  generalize hf : applyFilter cfg (s.man g.name) raw = f
  simp only
  by_cases hfat : cfg.isFatal f = true
  · rw [if_pos hfat]
    refine HInv.killNil (i.stop_aux c hg raw now hf rfl rfl (fun m => setCur_cur _ _ _ _) rfl rfl ?_ rfl rfl)
    rw [if_pos hfat]; rfl
  · rw [if_neg hfat]
    refine i.stop_aux c hg raw now hf rfl rfl (fun m => setCur_cur _ _ _ _) rfl rfl ?_ rfl rfl
    rw [if_neg hfat]; rfl

theorem HInv.uninstall' {cfg : Config} {s : State} (i : HInv cfg s) (n : Name) (vals : Name → List Name)
    (hs : (s.cur n).stopped = true) (hst : startedH s.hist n = 0) : HInv cfg (uninstall s n vals) := by
  have hw := (stopped_iff _).1 hs
  have hcur : ∀ k, (uninstall s n vals).cur k = if k = n then {} else s.cur k := by
    intro k
    show ((s.current.erase n).get? k).getD {} = _
    rw [AMap.get?_erase]
    split <;> rfl
  have hh : (uninstall s n vals).hist = .uninstalled n :: s.hist := rfl
  constructor
  · intro k; rw [hh]
    show (s.manifolds.erase n).get? k = _
    rw [AMap.get?_erase]
    simp only [manH]
    split
    · rfl
    · exact i.man k
  · exact i.openG
  · exact i.openN
  · exact i.beg
  · intro k; rw [hcur, hh]
    split
    · rename_i h; rw [h]; exact (hw.1.symm.trans (i.worker n))
    · exact i.worker k
  · rw [hh]; intro g hg; simpa using i.canc g hg
  · rw [hh]; intro k gid b r sn h; exact i.ltBegin k gid b r sn (by simpa using h)
  · rw [hh]; intro gid h; exact i.ltCanc gid (by simpa using h)
  · have := i.dying; rw [hh]; simp only [List.mem_cons, reduceCtorEq, false_or]; exact this
  · have := i.dead; rw [hh]; simp only [List.mem_cons, reduceCtorEq, false_or]; exact this
  · exact i.worst
  · intro k; rw [hcur, hh]; simp only [countH]
    split
    · rfl
    · exact i.count k
  · intro k; rw [hcur, hh]; simp only [errH]
    split
    · rfl
    · exact i.err k
  · intro k; rw [hcur, hh]
    split
    · rename_i h; rw [h]; exact hst.symm
    · exact i.started k
  · intro k; rw [hcur, hh]; simp only [recentH]
    split
    · rfl
    · exact i.recent k
  · intro k e; have := i.fin k e; rw [hh]; simp only [List.mem_cons, reduceCtorEq, false_or]; exact this
  · intro g hg; exact (i.pc g hg).cons rfl

theorem exit_tomb {s : State} (c : Core s) (hd : s.dying = true) (hdead : s.tomb.dead = false) :
    s.tomb.finish (some .tombDying) = { s.tomb with alive := 0, dead := true } := by
  have halive := c.alive hdead
  have hreason : s.tomb.reason = some none := by
    rcases c.nilReason with h | h
    · simp [State.dying, Tomb.dying, h] at hd
    · exact h
  have hnp := c.noPanic
  revert hreason halive hnp
  generalize s.tomb = t
  obtain ⟨r, al, de, pa⟩ := t
  intro h1 h2 h3
  simp only at h1 h2 h3
  subst h1; subst h2; subst h3
  simp [Tomb.finish, Tomb.kill]

theorem micro_hinv {cfg s D s' D'} (h : Micro v cfg s D s' D') (c : Core s) (i : HInv cfg s) : HInv cfg s' := by
  cases h with
  | setPend p => exact i.congr rfl rfl rfl rfl rfl rfl rfl rfl
  | kill => exact i.killNil
  | discharge => exact i
  | launch n delay hd hi hs => exact i.launch' c n delay hs
  | reqStop n hs hst =>
    obtain ⟨g, hg, hgn, h⟩ := requestStop_form c hs hst
    subst hgn
    have im := i.mark c hg
    rcases h with ⟨_, e⟩ | ⟨k, _, e⟩ | ⟨_, e⟩ <;> rw [e]
    · exact im
    · exact im.logInert rfl
    · exact (im.logInert rfl).killNil
  | record n m hn ha hdead hD => exact i.record' c n m hn
  | neutral e he =>
    refine i.logInert ?_
    rcases he with ⟨_, _, rfl⟩ | rfl <;> rfl
  | register g hg w now hpc hd hst => exact i.register' c hg w now hpc
  | refuse g hg w hpc h =>
    have hph := i.pc g hg
    rw [PcOk, hpc] at hph
    have i1 : HInv cfg (s.mapG g.gid (fun g => { g with pc := afterOffer w })) := by
      refine i.setPc c hg _ ?_
      cases w <;> exact hph
    cases w with
    | self => exact (i1.logInert rfl).killNil
    | obj k => exact i1.logInert rfl
  | stop g hg raw now hpc hdead hD => exact i.stop' c hg raw now
  | uninstall n vals hs hi hv hdead ht hev =>
    exact i.uninstall' n vals hs ((i.started n).symm.trans ht)
  | gAbort g hg hpc h =>
    have hph := i.pc g hg
    rw [PcOk, hpc] at hph
    exact i.setPc c hg _ (Or.inl ⟨hph, rfl, (h.imp i.dying.1 (i.canc g hg).1).symm⟩)
  | gTimer g hg hpc fuzz hf =>
    exact i.setPcLog c hg _ _ (Or.inl ⟨_, rfl⟩) (by simp [PcOk, phaseH])
  | gGet g hg hpc res out => exact i.logInert rfl
  | gStartOk g hg hpc w =>
    exact i.setPcLog c hg _ _ (Or.inr (Or.inl ⟨_, rfl⟩)) (by simp [PcOk, phaseH])
  | gStartErr g hg hpc e =>
    exact i.setPcLog c hg _ _ (Or.inr (Or.inr ⟨_, rfl⟩)) (by simp [PcOk, phaseH])
  | gSelfDone g hg hpc hd =>
    have hph := i.pc g hg
    rw [PcOk, hpc] at hph
    exact i.setPc c hg _ (Or.inr (Or.inr (Or.inr ⟨hph, rfl, i.dying.1 hd⟩)))
  | gWaitRet g hg w hpc e he =>
    have hph := i.pc g hg
    rw [PcOk, hpc] at hph
    exact i.setPc c hg _ (Or.inr (Or.inr (Or.inl ⟨w, hph, (i.fin w e).1 he⟩)))
  | finish w e h =>
    constructor
    · exact i.man
    · exact i.openG
    · exact i.openN
    · exact i.beg
    · exact i.worker
    · intro g hg; have := i.canc g hg; simpa using this
    · intro n gid b r sn h; exact i.ltBegin n gid b r sn (by simpa using h)
    · intro gid h; exact i.ltCanc gid (by simpa using h)
    · have := i.dying
      simp only [log_hist, List.mem_cons, reduceCtorEq, false_or]; exact this
    · have := i.dead; simpa using this
    · exact i.worst
    · exact i.count
    · exact i.err
    · exact i.started
    · exact i.recent
    · intro k e'
      show (s.finished.set w e).get? k = _ ↔ _
      rw [AMap.get?_set]
      have := i.fin k e'
      by_cases hk : k = w
      · subst hk
        rw [h] at this
        simp only [reduceCtorEq, false_iff] at this
        simp [this, eq_comm]
      · simp [hk, this]
    · intro g hg; exact (i.pc g hg).cons rfl
  | oneShot hd h => exact i.congr rfl rfl rfl rfl rfl rfl rfl rfl
  | exit hd hdead ha =>
    have ht := exit_tomb c hd hdead
    rw [ht]
    constructor
    · exact i.man
    · exact i.openG
    · exact i.openN
    · exact i.beg
    · exact i.worker
    · intro g hg; have := i.canc g hg; simpa using this
    · intro n gid b r sn h; exact i.ltBegin n gid b r sn (by simpa using h)
    · intro gid h; exact i.ltCanc gid (by simpa using h)
    · have := i.dying
      simp only [List.mem_cons, reduceCtorEq, false_or]; exact this
    · simp
    · exact i.worst
    · exact i.count
    · exact i.err
    · exact i.started
    · exact i.recent
    · intro k e; have := i.fin k e; simpa using this
    · intro g hg; exact (i.pc g hg).cons rfl

theorem ex_hinv {v : List Ev → List Ev} {cfg : Config} {s : State} {D : Debt} (h : Ex v cfg s D) : Core s ∧ HInv cfg s :=
  ex_induct (P := fun s _ => HInv cfg s) (HInv.init cfg) (fun _ _ _ _ c i m => micro_hinv m c i) h

theorem reach_hinv {cfg : Config} {s : State} (hr : Reach cfg s) : Core s ∧ HInv cfg s := ex_hinv (reach_ex hr)

/-- Induction with both invariants available. -/
theorem ex_induct2 {v : List Ev → List Ev} {cfg : Config} {P : State → Debt → Prop} (h0 : P init noDebt)
    (hm : ∀ s D s' D', Core s → HInv cfg s → P s D → Micro v cfg s D s' D' → P s' D') {s : State} {D : Debt}
    (h : Ex v cfg s D) : P s D :=
  (ex_induct (P := fun s D => HInv cfg s ∧ P s D) ⟨HInv.init cfg, h0⟩
    (fun s D s' D' c hp m => ⟨micro_hinv m c hp.1, hm s D s' D' c hp.1 hp.2 m⟩) h).2.2

theorem reach_induct2 {cfg : Config} {P : State → Debt → Prop} (h0 : P init noDebt)
    (hm : ∀ s D s' D', Core s → HInv cfg s → P s D → Micro id cfg s D s' D' → P s' D') {s : State}
    (hr : Reach cfg s) : P s noDebt := ex_induct2 h0 hm (reach_ex hr)

end Verif.Engine
