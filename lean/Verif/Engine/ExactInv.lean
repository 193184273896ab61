import Verif.Engine.FineAll
import Verif.Spec.EngineExact

/-!
What else the history of an engine says about its state.
-/

namespace Verif.Engine
open State Verif.Spec

/-- Numbers, names, delays and the order of the table are what the history says. -/
structure XInv (s : State) : Prop where
  nextG : s.nextG = beginsH s.hist
  keys : s.current.keys = orderH s.hist
  name : ∀ g ∈ s.gs, nameH s.hist g.gid = some g.name
  base : ∀ g ∈ s.gs, delayH s.hist g.name = some (g.base, g.recent)
  delaying : ∀ g ∈ s.gs, g.pc = .delaying → ∀ res out r, .get g.gid res out r ∉ s.hist

theorem XInv.init : XInv init := ⟨rfl, rfl, nofun, nofun, nofun⟩

/-- Events that change nothing but, perhaps, how far an attempt is. -/
def Ev.quiet : Ev → Bool
  | .begin .. | .cancelled .. | .installed .. | .uninstalled .. | .registered .. | .ended .. => false
  | _ => true

theorem quiet_same {e : Ev} (he : e.quiet = true) (h : List Ev) :
    beginsH (e :: h) = beginsH h ∧ orderH (e :: h) = orderH h ∧ (∀ g, nameH (e :: h) g = nameH h g) ∧
      ∀ n, delayH (e :: h) n = delayH h n := by
  cases e <;> first | (cases he; done) | exact ⟨rfl, rfl, fun _ => rfl, fun _ => rfl⟩

/-- A goroutine that differs at most in its pc and whether it was cancelled. -/
def SameG (h h' : List Ev) (g g' : G) : Prop :=
  g'.gid = g.gid ∧ g'.name = g.name ∧ g'.base = g.base ∧ g'.recent = g.recent ∧
    (g'.pc = .delaying → g.pc = .delaying ∧ ∀ res out r, .get g.gid res out r ∈ h' → .get g.gid res out r ∈ h)

theorem XInv.still {s s' : State} (x : XInv s) (h1 : s'.nextG = s.nextG) (h2 : s'.current.keys = s.current.keys)
    (h3 : ∀ g' ∈ s'.gs, ∃ g ∈ s.gs, SameG s.hist s'.hist g g') (h4 : s'.hist = s.hist) : XInv s' := by
  constructor
  · rw [h1, h4]; exact x.nextG
  · rw [h2, h4]; exact x.keys
  all_goals
    intro g' hg'
    obtain ⟨g, hg, e1, e2, e3, e4, e5⟩ := h3 g' hg'
    try rw [h4]
  · rw [e1, e2]; exact x.name g hg
  · rw [e2, e3, e4]; exact x.base g hg
  · intro hp res out r; rw [e1]; exact x.delaying g hg (e5 hp).1 res out r

theorem XInv.move {s s' : State} (x : XInv s) {e : Ev} (he : e.quiet = true) (h1 : s'.nextG = s.nextG)
    (h2 : s'.current.keys = s.current.keys)
    (h3 : ∀ g' ∈ s'.gs, ∃ g ∈ s.gs, SameG s.hist s'.hist g g') (h4 : s'.hist = e :: s.hist) : XInv s' := by
  obtain ⟨q1, q2, q3, q4⟩ := quiet_same he s.hist
  constructor
  · rw [h1, h4, q1]; exact x.nextG
  · rw [h2, h4, q2]; exact x.keys
  all_goals
    intro g' hg'
    obtain ⟨g, hg, e1, e2, e3, e4, e5⟩ := h3 g' hg'
  · rw [h4, q3, e1, e2]; exact x.name g hg
  · rw [h4, q4, e2, e3, e4]; exact x.base g hg
  · intro hp res out r hm; rw [e1] at hm
    exact x.delaying g hg (e5 hp).1 res out r ((e5 hp).2 res out r hm)

theorem SameG.rfl' {h h' : List Ev} {g : G} (hg : ∀ res out r, .get g.gid res out r ∈ h' → .get g.gid res out r ∈ h) :
    SameG h h' g g := ⟨rfl, rfl, rfl, rfl, fun hp => ⟨hp, hg⟩⟩

theorem sameG_all {s s' : State} (h : s'.gs = s.gs) (hg : ∀ g ∈ s.gs, ∀ res out r, Ev.get g.gid res out r ∈ s'.hist →
    g.pc = .delaying → .get g.gid res out r ∈ s.hist) : ∀ g' ∈ s'.gs, ∃ g ∈ s.gs, SameG s.hist s'.hist g g' := by
  intro g' hg'
  rw [h] at hg'
  exact ⟨g', hg', rfl, rfl, rfl, rfl, fun hp => ⟨hp, fun res out r hm => hg g' hg' res out r hm hp⟩⟩

theorem XInv.logQ {s : State} (x : XInv s) {e : Ev} (he : e.quiet = true)
    (hg : ∀ g ∈ s.gs, g.pc = .delaying → ∀ res out r, e ≠ .get g.gid res out r) : XInv (s.log e) := by
  refine x.move he rfl rfl (sameG_all rfl ?_) rfl
  intro g hgs res out r hm hp
  rcases List.mem_cons.1 hm with rfl | hm
  · exact absurd rfl (hg g hgs hp res out r)
  · exact hm

theorem XInv.killNil {s : State} (x : XInv s) : XInv s.killNil :=
  (x.logQ (e := .kill) rfl (fun _ _ _ _ _ _ => nofun)).still rfl rfl
    (sameG_all rfl (fun _ _ _ _ _ h _ => h)) rfl

theorem XInv.killWorker {s : State} (x : XInv s) (w : WRef) : XInv (s.killWorker w) := by
  cases w with
  | obj k => exact x.logQ rfl (fun _ _ _ _ _ _ => nofun)
  | self => exact (x.logQ (e := .killW .self) rfl (fun _ _ _ _ _ _ => nofun)).killNil

theorem XInv.setPc {s : State} (x : XInv s) (gid : Nat) (p : Pc) (hp : p ≠ .delaying) :
    XInv (s.mapG gid (fun g => { g with pc := p })) := by
  refine x.still rfl rfl ?_ rfl
  intro g' hg'
  obtain ⟨g, hg, rfl⟩ := List.mem_map.1 hg'
  refine ⟨g, hg, ?_⟩
  split
  · exact ⟨rfl, rfl, rfl, rfl, fun h => absurd h hp⟩
  · exact .rfl' (fun _ _ _ h => h)

theorem AMap.keys_erase {α : Type} (m : AMap α) (k : Name) : (m.erase k).keys = m.keys.filter (· != k) := by
  unfold AMap.erase AMap.keys
  rw [List.filter_map]; rfl

theorem AMap.keys_set {α : Type} (m : AMap α) (k : Name) (v : α) : (m.set k v).keys = k :: m.keys.filter (· != k) := by
  show k :: (m.erase k).keys = _
  rw [AMap.keys_erase]

theorem XInv.markStopping {s : State} (x : XInv s) (c : Core s) (i : HInv cfg s) {g : G} (hg : g ∈ s.gs)
    (f : Info) : XInv (((s.mapG g.gid (fun g => { g with cancelled := true })).log (.cancelled g.gid)).setCur g.name f) := by
  constructor
  · exact x.nextG
  · show (s.current.set g.name f).keys = orderH (.cancelled g.gid :: s.hist)
    simp only [orderH, x.name g hg, AMap.keys_set, x.keys]
  all_goals
    intro g' hg'
    obtain ⟨y, hy, rfl⟩ := List.mem_map.1 hg'
  · show nameH s.hist _ = _
    split <;> exact x.name y hy
  · show delayH s.hist _ = _
    split <;> exact x.base y hy
  · intro hp res out r hm
    refine x.delaying y hy ?_ res out r ?_
    · split at hp <;> exact hp
    · rcases List.mem_cons.1 hm with h | h
      · cases h
      · split at h <;> exact h

theorem XInv.requestStop {s : State} (x : XInv s) (c : Core s) (i : HInv cfg s) {n : Name} (hs : (s.cur n).stopped = false)
    (hst : (s.cur n).stopping = false) : XInv (requestStop s n) := by
  obtain ⟨g, hg, rfl, h⟩ := requestStop_form c hs hst
  have x1 := x.markStopping c i hg { s.cur g.name with stopping := true, cancel := none }
  simp only at h
  rcases h with ⟨_, e⟩ | ⟨k, _, e⟩ | ⟨_, e⟩ <;> rw [e]
  · exact x1
  · exact x1.logQ rfl (fun _ _ _ _ _ _ => nofun)
  · exact (x1.logQ (e := .killW .self) rfl (fun _ _ _ _ _ _ => nofun)).killNil

theorem XInv.launch {s : State} (x : XInv s) (c : Core s) (i : HInv cfg s) {n : Name} (delay : Int)
    (hs : (s.cur n).stopped = true) (hget : ∀ g res out r, .get g res out r ∈ s.hist → g < s.nextG) :
    XInv (launch s n delay) := by
  have hne : ∀ g ∈ s.gs, g.name ≠ n := by
    rintro g hg rfl
    have := (c.rel g hg).notStopped
    rw [hs] at this; cases this
  constructor
  · show s.nextG + 1 = beginsH s.hist + 1
    rw [x.nextG]
  · show (s.current.set n _).keys = n :: (orderH s.hist).filter (· != n)
    rw [AMap.keys_set, x.keys]
  all_goals
    intro g hg
    rcases List.mem_cons.1 hg with rfl | hg
  · show (if s.nextG = s.nextG then some n else _) = some n
    rw [if_pos rfl]
  · show (if g.gid = s.nextG then some n else _) = _
    rw [if_neg (Nat.ne_of_lt (c.gidLt g hg))]; exact x.name g hg
  · show (if n = n then some _ else _) = some _
    rw [if_pos rfl]
  · show (if g.name = n then some _ else _) = _
    rw [if_neg (hne g hg)]; exact x.base g hg
  · intro _ res out r hm
    rcases List.mem_cons.1 hm with h | h
    · cases h
    · exact absurd (hget _ res out r h) (Nat.lt_irrefl _)
  · intro hp res out r hm
    rcases List.mem_cons.1 hm with h | h
    · cases h
    · exact x.delaying g hg hp res out r h

/-- Numbers in calls of Get are those of attempts that have begun. -/
def GetLt (s : State) : Prop := ∀ g res out r, Ev.get g res out r ∈ s.hist → g < s.nextG

theorem micro_getLt {v : List Ev → List Ev} {cfg : Config} {s s' : State} {D D' : Debt} (m : Micro v cfg s D s' D') (c : Core s)
    (a : GetLt s) : GetLt s' := by
  have quiet : ∀ t : State, s.nextG ≤ t.nextG → (∀ g res out r, Ev.get g res out r ∈ t.hist → .get g res out r ∈ s.hist) →
      GetLt t := fun t h1 h2 g res out r hm => Nat.lt_of_lt_of_le (a g res out r (h2 g res out r hm)) h1
  have cons : ∀ {e : Ev} {h : List Ev}, (∀ g res out r, e ≠ .get g res out r) → ∀ g res out r, Ev.get g res out r ∈ e :: h →
      .get g res out r ∈ h := by
    intro e h he g res out r hm
    rcases List.mem_cons.1 hm with rfl | hm
    · exact absurd rfl (he g res out r)
    · exact hm
  have kw : ∀ (t : State) w g res out r, Ev.get g res out r ∈ (t.killWorker w).hist → .get g res out r ∈ t.hist := by
    intro t w g res out r hm
    cases w with
    | obj k => exact cons (by simp) _ _ _ _ hm
    | self => exact cons (by simp) _ _ _ _ (cons (by simp) _ _ _ _ hm)
  have kwN : ∀ (t : State) w, (t.killWorker w).nextG = t.nextG := by intro t w; cases w <;> rfl
  cases m with
  | setPend | discharge | gAbort | gSelfDone | gWaitRet | oneShot => exact a
  | kill | gTimer | gStartOk | gStartErr | finish | exit | record | uninstall =>
    exact quiet _ (Nat.le_refl _) (cons (by simp))
  | launch n delay hd hi hs => exact quiet _ (Nat.le_succ _) (cons (by simp))
  | reqStop n hs hst hD =>
    obtain ⟨g, hg, rfl, h⟩ := requestStop_form c hs hst
    simp only at h
    rcases h with ⟨_, e⟩ | ⟨k, _, e⟩ | ⟨_, e⟩ <;> rw [e]
    · exact quiet _ (Nat.le_refl _) (cons (by simp))
    · exact quiet _ (Nat.le_refl _) (fun g res out r hm => cons (by simp) _ _ _ _ (cons (by simp) _ _ _ _ hm))
    · exact quiet _ (Nat.le_refl _)
        (fun g res out r hm => cons (by simp) _ _ _ _ (cons (by simp) _ _ _ _ (cons (by simp) _ _ _ _ hm)))
  | neutral e h => exact quiet _ (Nat.le_refl _) (cons (by rcases h with ⟨n, x, rfl⟩ | rfl <;> simp [reportEv]))
  | register g hg w now hpc hd hst hD => exact quiet _ (Nat.le_refl _) (cons (by simp))
  | refuse g hg w hpc h =>
    exact quiet _ (Nat.le_of_eq (kwN (s.mapG g.gid (fun g => { g with pc := afterOffer w })) w).symm)
      (fun g' res out r hm => kw (s.mapG g.gid (fun g => { g with pc := afterOffer w })) _ _ _ _ _ hm)
  | stop g hg raw now hpc hdead hD =>
    rw [stopState_eq cfg s g raw now (c.rel g hg).notStopped]
    simp only
    split
    · exact quiet _ (Nat.le_refl _) (fun g res out r hm => cons (by simp) _ _ _ _ (cons (by simp) _ _ _ _ hm))
    · exact quiet _ (Nat.le_refl _) (cons (by simp))
  | gGet g hg hpc res out =>
    intro g' res' out' r' hm
    rcases List.mem_cons.1 hm with h | h
    · injection h with h1; rw [h1]; exact c.gidLt g hg
    · exact a _ _ _ _ h

theorem micro_xinv {v : List Ev → List Ev} {cfg : Config} {s s' : State} {D D' : Debt} (m : Micro v cfg s D s' D') (c : Core s)
    (i : HInv cfg s) (a : GetLt s) (x : XInv s) : XInv s' := by
  have same : ∀ t : State, t.nextG = s.nextG → t.current = s.current → t.gs = s.gs → t.hist = s.hist → XInv t :=
    fun t h1 h2 h3 h4 => x.still h1 (by rw [h2]) (sameG_all h3 (fun _ _ _ _ _ h _ => h4 ▸ h)) h4
  cases m with
  | setPend | discharge | oneShot => exact same _ rfl rfl rfl rfl
  | kill => exact x.killNil
  | gAbort => exact x.setPc _ _ (by simp)
  | gSelfDone => exact x.setPc _ _ (by simp)
  | gWaitRet => exact x.setPc _ _ (by simp)
  | gTimer => exact (x.setPc _ _ (by simp)).logQ rfl (fun _ _ _ _ _ _ => nofun)
  | gStartOk => exact (x.setPc _ _ (by simp)).logQ rfl (fun _ _ _ _ _ _ => nofun)
  | gStartErr => exact (x.setPc _ _ (by simp)).logQ rfl (fun _ _ _ _ _ _ => nofun)
  | finish w e h =>
    exact (x.logQ (e := .finished w e) rfl (fun _ _ _ _ _ _ => nofun)).still rfl rfl
      (sameG_all rfl (fun _ _ _ _ _ h _ => h)) rfl
  | exit =>
    exact (x.logQ (e := .exit) rfl (fun _ _ _ _ _ _ => nofun)).still rfl rfl
      (sameG_all rfl (fun _ _ _ _ _ h _ => h)) rfl
  | neutral e h =>
    rcases h with ⟨n, e', rfl⟩ | rfl
    · exact x.logQ rfl (fun _ _ _ _ _ _ => nofun)
    · exact x.logQ rfl (fun _ _ _ _ _ _ => nofun)
  | gGet g hg hpc res out =>
    refine x.logQ rfl (fun y hy hp res' out' r' h => ?_)
    injection h with h1
    have := c.gid_inj hg hy h1
    subst this
    exact hpc hp
  | refuse g hg w hpc h => exact (x.setPc _ _ (by cases w <;> simp [afterOffer])).killWorker w
  | launch n delay hd hi hs => exact x.launch c i delay hs a
  | reqStop n hs hst hD => exact x.requestStop c i hs hst
  | record n m hn ha hdead hD =>
    constructor
    · exact x.nextG
    · show (s.current.set n {}).keys = n :: _
      rw [AMap.keys_set, x.keys]
    · exact x.name
    · exact x.base
    · exact fun g hg hp res out r hm => x.delaying g hg hp res out r (by simpa [record] using hm)
  | uninstall n vals =>
    constructor
    · exact x.nextG
    · show (s.current.erase n).keys = (orderH s.hist).filter _
      rw [AMap.keys_erase, x.keys]
    · exact x.name
    · exact x.base
    · exact fun g hg hp res out r hm => x.delaying g hg hp res out r (by simpa [uninstall] using hm)
  | register g hg w now hpc hd hst hD =>
    have x1 := x.setPc g.gid (afterOffer w) (by cases w <;> simp [afterOffer])
    constructor
    · exact x1.nextG
    · show (s.current.set g.name _).keys = g.name :: (orderH s.hist).filter (· != g.name)
      rw [AMap.keys_set, x.keys]
    · exact x1.name
    · exact x1.base
    · exact fun g hg hp res out r hm => x1.delaying g hg hp res out r (by simpa [register, log] using hm)
  | stop g hg raw now hpc hdead hD =>
    rw [stopState_eq cfg s g raw now (c.rel g hg).notStopped]
    simp only
    have x1 : XInv (({ s with gs := s.gs.filter (fun x => x.gid != g.gid) }.setCur g.name
          (resetTo cfg s g raw now)).log
        (.ended g.name g.gid now raw (applyFilter cfg (s.man g.name) raw) (s.cur g.name).stopping (s.cur g.name).worker)) := by
      constructor
      · exact x.nextG
      · show (s.current.set g.name _).keys = g.name :: (orderH s.hist).filter (· != g.name)
        rw [AMap.keys_set, x.keys]
      all_goals
        intro y hy
        have hy := (List.mem_filter.1 hy).1
      · exact x.name y hy
      · exact x.base y hy
      · exact fun hp res out r hm => x.delaying y hy hp res out r (by simpa [log] using hm)
    split
    · exact XInv.killNil (x1.still rfl rfl (sameG_all rfl (fun _ _ _ _ _ h _ => h)) rfl)
    · exact x1

theorem ex_xinv {v : List Ev → List Ev} {cfg : Config} {s : State} {D : Debt} (h : Ex v cfg s D) : GetLt s ∧ XInv s :=
  ex_induct2 (P := fun s _ => GetLt s ∧ XInv s) ⟨by intro g res out r h; simp [Verif.Engine.init] at h, XInv.init⟩
    (fun _ _ _ _ c i a m => ⟨micro_getLt m c a.1, micro_xinv m c i a.1 a.2⟩) h

end Verif.Engine
