import Verif.Engine.Emit

/-!
Further invariants: every worker that a Start func produced is accounted for, is Kill()ed when it should be, and
inputs are up to date.
-/

namespace Verif.Engine
open State Verif.Spec

theorem HInv.noOpen {cfg : Config} {s : State} (i : HInv cfg s) (c : Core s) {n : Name}
    (hs : (s.cur n).stopped = true) : openH s.hist n = none := by
  cases h : openH s.hist n with
  | none => rfl
  | some gid =>
    obtain ⟨g, hg, h1, _⟩ := i.openN n gid h
    have := (c.rel g hg).notStopped
    rw [h1, hs] at this; cases this

theorem HInv.dep {cfg : Config} {s : State} (i : HInv cfg s) (n x : Name) : Dep s n x ↔ Declares s.hist x n := by
  unfold Dep Declares; rw [i.man]

theorem HInv.told {cfg : Config} {s : State} (i : HInv cfg s) (c : Core s) {g : G} (hg : g ∈ s.gs) :
    (s.cur g.name).stopping = true ↔ .cancelled g.gid ∈ s.hist := by
  rw [← i.canc g hg, (c.rel g hg).cancelled]

/-- To prove that a micro step keeps a property of the history, check each event when it is recorded. -/
theorem micro_histInv {cfg : Config} {J : List Ev → Prop}
    (hq : ∀ e h, Quiet e → J h → J (e :: h))
    (hP : ∀ s D e, Core s → HInv cfg s → Emit v cfg s D e → J s.hist → J (e :: s.hist)) {s s' : State} {D D' : Debt}
    (m : Micro v cfg s D s' D') (c : Core s) (i : HInv cfg s) (hp : J s.hist) : J s'.hist := by
  have happ : ∀ (q h : List Ev), (∀ e ∈ q, Quiet e) → J h → J (q ++ h) := by
    intro q h
    induction q with
    | nil => intro _ ha; exact ha
    | cons e q ih => intro hqs ha; exact hq _ _ (hqs e (by simp)) (ih (fun x hx => hqs x (by simp [hx])) ha)
  obtain ⟨q, hqs, h | ⟨e, he, h⟩⟩ := micro_hist m c <;> rw [h]
  · exact happ q _ hqs hp
  · exact happ q _ hqs (hP s D e c i he hp)


/-! ### Every produced worker has finished or belongs to the open attempt -/

def Accounted (h : List Ev) : Prop := ∀ n g k, .startOk n g (.obj k) ∈ h →
  (∃ e, .finished k e ∈ h) ∨ (openH h n = some g ∧ phaseH h n = .ok (.obj k))

theorem Accounted.cons {h : List Ev} {e : Ev} (a : Accounted h) (hne : ∀ n g k, e ≠ .startOk n g (.obj k))
    (ho : ∀ n g k, openH h n = some g → phaseH h n = .ok (.obj k) → (∃ e, .finished k e ∈ h) ∨
      (openH (e :: h) n = some g ∧ phaseH (e :: h) n = .ok (.obj k))) : Accounted (e :: h) := by
  intro n g k hm
  rcases List.mem_cons.1 hm with hm | hm
  · exact absurd hm.symm (hne n g k)
  · rcases a n g k hm with ⟨e', h'⟩ | ⟨h1, h2⟩
    · exact Or.inl ⟨e', List.mem_cons_of_mem _ h'⟩
    · rcases ho n g k h1 h2 with ⟨e', h'⟩ | h'
      · exact Or.inl ⟨e', List.mem_cons_of_mem _ h'⟩
      · exact Or.inr h'

theorem HInv.phase_of_open {cfg : Config} {s : State} (i : HInv cfg s) (c : Core s) {g : G} (hg : g ∈ s.gs)
    {n : Name} {gid : Nat} (h : openH s.hist n = some gid) (hn : n = g.name) : gid = g.gid := by
  subst hn; rw [i.openG g hg] at h; exact (Option.some.inj h).symm

theorem emit_accounted {cfg : Config} {s : State} {D : Debt} {e : Ev} (c : Core s) (i : HInv cfg s)
    (he : Emit v cfg s D e) (a : Accounted s.hist) : Accounted (e :: s.hist) := by
  cases he with
  | begin n delay hd hi hs hD hb =>
    refine a.cons (by intros; simp) ?_
    intro x g k h1 h2
    have hne : x ≠ n := by
      rintro rfl; rw [i.noOpen c hs] at h1; cases h1
    right; simp [openH, phaseH, hne, h1, h2]
  | startCall g hg hpc fuzz hf =>
    have hp := i.pc g hg
    rw [PcOk, hpc] at hp
    refine a.cons (by intros; simp) ?_
    intro x gid k h1 h2
    have hne : x ≠ g.name := by rintro rfl; rw [hp] at h2; cases h2
    right; simp [openH, phaseH, hne, h1, h2]
  | startErr g hg hpc e =>
    have hp := i.pc g hg
    rw [PcOk, hpc] at hp
    refine a.cons (by intros; simp) ?_
    intro x gid k h1 h2
    have hne : x ≠ g.name := by rintro rfl; rw [hp] at h2; cases h2
    right; simp [openH, phaseH, hne, h1, h2]
  | startOk g hg hpc w =>
    have hp := i.pc g hg
    rw [PcOk, hpc] at hp
    intro n gid k hm
    rcases List.mem_cons.1 hm with hm | hm
    · cases hm; right
      have := i.openG g hg
      simp [openH, phaseH, this]
    · rcases a n gid k hm with ⟨e', h'⟩ | ⟨h1, h2⟩
      · exact Or.inl ⟨e', List.mem_cons_of_mem _ h'⟩
      · have hne : n ≠ g.name := by rintro rfl; rw [hp] at h2; cases h2
        right; simp [openH, phaseH, hne, h1, h2]
  | ended g hg raw now hpc hdead hD =>
    have hp := i.pc g hg
    rw [PcOk, hpc] at hp
    refine a.cons (by intros; simp) ?_
    intro x gid k h1 h2
    by_cases hne : x = g.name
    · subst hne
      left
      simp only [h2, reduceCtorEq, false_and, exists_false, false_or, Phase.ok.injEq, WRef.obj.injEq,
        or_false] at hp
      obtain ⟨k', rfl, hf⟩ := hp
      exact ⟨raw, hf⟩
    · right; simp [openH, phaseH, hne, h1, h2]
  | report =>
    refine a.cons (by intros; simp [reportEv]) ?_
    intro x gid k h1 h2; right; exact ⟨h1, h2⟩
  | installed | installFailed | registered | uninstalled | get | finished | exit =>
    refine a.cons (by intros; simp) ?_
    intro x gid k h1 h2; right; exact ⟨h1, h2⟩

theorem accounted_step {cfg s D s' D'} (m : Micro v cfg s D s' D') (c : Core s) (i : HInv cfg s)
    (a : Accounted s.hist) : Accounted s'.hist := by
  refine micro_histInv (J := Accounted) ?_ (fun s D e c i he a => emit_accounted c i he a) m c i a
  intro e h hq a
  rcases hq with rfl | ⟨w, rfl⟩ | ⟨g, rfl⟩ <;>
    exact a.cons (by intros; simp) (fun _ _ _ h1 h2 => Or.inr ⟨h1, h2⟩)

theorem ex_accounted {v : List Ev → List Ev} {cfg : Config} {s : State} {D : Debt} (h : Ex v cfg s D) : Accounted s.hist :=
  ex_induct2 (P := fun s _ => Accounted s.hist) (by intro n g k h; simp [init] at h)
    (fun _ _ _ _ c i a m => accounted_step m c i a) h

theorem reach_accounted {cfg : Config} {s : State} (hr : Reach cfg s) : Accounted s.hist := ex_accounted (reach_ex hr)

/-! ### Told to stop means Kill()ed -/

def KInv (s : State) : Prop := ∀ g ∈ s.gs, ∀ w, phaseH s.hist g.name = .ok w →
  killedH s.hist g.name = true ∨ g.pc = .registering w ∨
    (workerH s.hist g.name = some w ∧ g.cancelled = false)

theorem KInv.congr {s s' : State} (k : KInv s) (h1 : s'.gs = s.gs) (h2 : s'.hist = s.hist) : KInv s' := by
  unfold KInv; rw [h1, h2]; exact k

theorem killedH_killW {h : List Ev} {n : Name} {w : WRef} (hk : killedH h n = true) :
    killedH (.killW w :: h) n = true := by
  simp only [killedH]; split
  · rfl
  · exact hk

theorem micro_kinv {cfg s D s' D'} (m : Micro v cfg s D s' D') (c : Core s) (i : HInv cfg s) (k : KInv s) :
    KInv s' := by
  cases m with
  | setPend p => exact k.congr rfl rfl
  | kill => exact k
  | discharge => exact k
  | launch n delay hd hi hs hD hb =>
    intro g hg w hp
    have hg' : g ∈ _ :: s.gs := hg
    have hh : (launch s n delay).hist = .begin n s.nextG delay (s.cur n).recentErrors (launchSnap s n) :: s.hist := rfl
    rw [hh] at hp ⊢
    rcases List.mem_cons.1 hg' with rfl | hg'
    · simp [phaseH] at hp
    · have hne : g.name ≠ n := by
        intro he
        have := (c.rel g hg').notStopped
        rw [he, hs] at this; cases this
      simp only [phaseH, hne, if_false] at hp
      exact k g hg' w hp
  | reqStop n hs hst =>
    obtain ⟨g, hg, hgn, h⟩ := requestStop_form c hs hst
    subst hgn
    have hgs : ∀ x, x ∈ (requestStop s g.name).gs →
        ∃ y ∈ s.gs, x = if y.gid = g.gid then { y with cancelled := true } else y := by
      intro x hx
      rcases h with ⟨_, e⟩ | ⟨k, _, e⟩ | ⟨_, e⟩ <;> rw [e] at hx <;> exact (mem_mapG s g.gid _).1 hx
    intro x hx w hp
    obtain ⟨y, hy, rfl⟩ := hgs x hx
    have hname : (if y.gid = g.gid then { y with cancelled := true } else y).name = y.name := by split <;> rfl
    have hpcy : (if y.gid = g.gid then { y with cancelled := true } else y).pc = y.pc := by split <;> rfl
    rw [hname] at hp ⊢
    rw [hpcy]
    rcases h with ⟨hw, e⟩ | ⟨kk, hw, e⟩ | ⟨hw, e⟩
    · rw [e] at hp ⊢
      rcases k y hy w hp with h1 | h1 | ⟨h1, h2⟩
      · exact Or.inl h1
      · exact Or.inr (Or.inl h1)
      · by_cases hyg : y.gid = g.gid
        · have := c.gid_inj hy hg hyg
          subst this
          rw [← i.worker, hw] at h1; cases h1
        · rw [if_neg hyg]; exact Or.inr (Or.inr ⟨h1, h2⟩)
    · rw [e] at hp ⊢
      simp only [log_hist, setCur_hist, mapG_hist, phaseH] at hp
      rcases k y hy w hp with h1 | h1 | ⟨h1, h2⟩
      · left; exact killedH_killW h1
      · exact Or.inr (Or.inl h1)
      · by_cases hyg : y.gid = g.gid
        · have := c.gid_inj hy hg hyg
          subst this
          rw [← i.worker, hw] at h1
          left; cases h1; simp [killedH, phaseH, hp]
        · rw [if_neg hyg]; exact Or.inr (Or.inr ⟨h1, h2⟩)
    · rw [e] at hp ⊢
      simp only [log_hist, setCur_hist, mapG_hist, phaseH, killNil_hist] at hp
      rcases k y hy w hp with h1 | h1 | ⟨h1, h2⟩
      · left; simp only [killNil_hist, log_hist, killedH]; split
        · rfl
        · exact h1
      · exact Or.inr (Or.inl h1)
      · by_cases hyg : y.gid = g.gid
        · have := c.gid_inj hy hg hyg
          subst this
          rw [← i.worker, hw] at h1
          left; cases h1; simp [killedH, phaseH, hp]
        · rw [if_neg hyg]; exact Or.inr (Or.inr ⟨h1, h2⟩)
  | record n m hn ha hdead hD => exact k
  | neutral e he => rcases he with ⟨_, _, rfl⟩ | rfl <;> exact k
  | register g hg w now hpc hd hst =>
    intro x hx w' hp
    obtain ⟨y, hy, rfl⟩ := (mem_mapG s g.gid _).1 hx
    have hp' : phaseH s.hist (if y.gid = g.gid then { y with pc := afterOffer w } else y).name = .ok w' := hp
    by_cases hyg : y.gid = g.gid
    · have := c.gid_inj hy hg hyg
      subst this
      rw [if_pos rfl] at hp' ⊢
      have hq := i.pc y hy
      rw [PcOk, hpc] at hq
      have : w' = w := by
        have h0 : phaseH s.hist y.name = .ok w' := hp'
        rw [hq] at h0; cases h0; rfl
      subst this
      right; right
      refine ⟨?_, ?_⟩
      · show workerH (.registered y.name y.gid w' now :: s.hist) y.name = _
        simp [workerH]
      · show y.cancelled = false
        rw [(c.rel y hy).cancelled]; exact hst
    · rw [if_neg hyg] at hp' ⊢
      have hne : y.name ≠ g.name := fun h => hyg (by rw [c.name_inj hy hg h])
      rcases k y hy w' hp' with h1 | h1 | ⟨h1, h2⟩
      · exact Or.inl h1
      · exact Or.inr (Or.inl h1)
      · refine Or.inr (Or.inr ⟨?_, h2⟩)
        show workerH (.registered g.name g.gid w now :: s.hist) y.name = _
        simp [workerH, hne, h1]
  | refuse g hg w hpc h =>
    have key : ∀ (t : State), t.gs = (s.mapG g.gid (fun g => { g with pc := afterOffer w })).gs →
        (∀ n, phaseH t.hist n = phaseH s.hist n) → (∀ n, workerH t.hist n = workerH s.hist n) →
        (∀ n, killedH s.hist n = true → killedH t.hist n = true) →
        (phaseH s.hist g.name = .ok w → killedH t.hist g.name = true) → KInv t := by
      intro t h1 h2 h3 h4 h5 x hx w' hp
      rw [h1] at hx
      obtain ⟨y, hy, rfl⟩ := (mem_mapG s g.gid _).1 hx
      rw [h2] at hp
      rw [h3]
      by_cases hyg : y.gid = g.gid
      · have := c.gid_inj hy hg hyg
        subst this
        have hq := i.pc y hy
        rw [PcOk, hpc] at hq
        left
        simpa using h5 hq
      · rw [if_neg hyg] at hp ⊢
        rcases k y hy w' hp with h1 | h1 | ⟨h1, h2⟩
        · exact Or.inl (h4 _ h1)
        · exact Or.inr (Or.inl h1)
        · exact Or.inr (Or.inr ⟨h1, h2⟩)
    cases w with
    | self =>
      refine key _ rfl (fun _ => rfl) (fun _ => rfl) ?_ ?_
      · intro n hn; exact killedH_killW hn
      · intro hp
        show (if phaseH s.hist g.name = .ok .self then true else _) = true
        rw [if_pos hp]
    | obj kk =>
      refine key _ rfl (fun _ => rfl) (fun _ => rfl) ?_ ?_
      · intro n hn; exact killedH_killW hn
      · intro hp
        show (if phaseH s.hist g.name = .ok (.obj kk) then true else _) = true
        rw [if_pos hp]
  | stop g hg raw now hpc hdead hD =>
    rw [stopState_eq cfg s g raw now (c.rel g hg).notStopped]
    generalize applyFilter cfg (s.man g.name) raw = f
    have key : ∀ (t : State), t.gs = s.gs.filter (fun x => x.gid != g.gid) →
        (∃ q st lost, (q = [] ∨ q = [.kill]) ∧
          t.hist = q ++ .ended g.name g.gid now raw f st lost :: s.hist) → KInv t := by
      rintro t h1 ⟨q, st, lost, hq, h2⟩ x hx w' hp
      rw [h1] at hx
      have hxm : x ∈ s.gs ∧ x.gid ≠ g.gid := by simpa using hx
      have hne : x.name ≠ g.name := fun h => hxm.2 (by rw [c.name_inj hxm.1 hg h])
      have hp' : phaseH s.hist x.name = .ok w' := by
        rw [h2] at hp; rcases hq with rfl | rfl <;> simpa [phaseH, hne] using hp
      have := k x hxm.1 w' hp'
      rw [h2]
      rcases hq with rfl | rfl <;> simpa [killedH, workerH, hne] using this
    simp only
    split
    · exact key _ rfl ⟨[.kill], _, _, Or.inr rfl, rfl⟩
    · exact key _ rfl ⟨[], _, _, Or.inl rfl, rfl⟩
  | uninstall n vals hs hi hv hdead ht hev => exact k
  | gAbort g hg hpc h =>
    intro x hx w' hp
    obtain ⟨y, hy, rfl⟩ := (mem_mapG s g.gid _).1 hx
    by_cases hyg : y.gid = g.gid
    · have := c.gid_inj hy hg hyg
      subst this
      have hq := i.pc y hy
      rw [PcOk, hpc] at hq
      rw [if_pos rfl] at hp
      have hp' : phaseH s.hist y.name = .ok w' := hp
      rw [hq] at hp'; cases hp'
    · rw [if_neg hyg] at hp ⊢; exact k y hy w' hp
  | gTimer g hg hpc fuzz hf =>
    intro x hx w' hp
    obtain ⟨y, hy, rfl⟩ := (mem_mapG s g.gid _).1 hx
    by_cases hyg : y.gid = g.gid
    · have := c.gid_inj hy hg hyg
      subst this
      simp [phaseH] at hp
    · rw [if_neg hyg] at hp ⊢
      have hne : y.name ≠ g.name := fun h => hyg (by rw [c.name_inj hy hg h])
      simp only [log_hist, phaseH, hne, if_false] at hp
      exact k y hy w' hp
  | gGet g hg hpc res out => exact k
  | gStartOk g hg hpc w =>
    intro x hx w' hp
    obtain ⟨y, hy, rfl⟩ := (mem_mapG s g.gid _).1 hx
    by_cases hyg : y.gid = g.gid
    · have := c.gid_inj hy hg hyg
      subst this
      simp only [if_true, log_hist, phaseH, Phase.ok.injEq] at hp ⊢
      right; left; rw [hp]
    · rw [if_neg hyg] at hp ⊢
      have hne : y.name ≠ g.name := fun h => hyg (by rw [c.name_inj hy hg h])
      simp only [log_hist, mapG_hist, phaseH, hne, if_false, killedH, workerH] at hp ⊢
      exact k y hy w' hp
  | gStartErr g hg hpc e =>
    intro x hx w' hp
    obtain ⟨y, hy, rfl⟩ := (mem_mapG s g.gid _).1 hx
    by_cases hyg : y.gid = g.gid
    · have := c.gid_inj hy hg hyg
      subst this
      simp [phaseH] at hp
    · rw [if_neg hyg] at hp ⊢
      have hne : y.name ≠ g.name := fun h => hyg (by rw [c.name_inj hy hg h])
      simp only [log_hist, phaseH, hne, if_false] at hp
      exact k y hy w' hp
  | gSelfDone g hg hpc hd =>
    intro x hx w' hp
    obtain ⟨y, hy, rfl⟩ := (mem_mapG s g.gid _).1 hx
    by_cases hyg : y.gid = g.gid
    · have := c.gid_inj hy hg hyg
      subst this
      rw [if_pos rfl] at hp ⊢
      rcases k y hy w' hp with h1 | h1 | h1
      · exact Or.inl h1
      · rw [hpc] at h1; cases h1
      · exact Or.inr (Or.inr h1)
    · rw [if_neg hyg] at hp ⊢; exact k y hy w' hp
  | gWaitRet g hg w hpc e he =>
    intro x hx w' hp
    obtain ⟨y, hy, rfl⟩ := (mem_mapG s g.gid _).1 hx
    by_cases hyg : y.gid = g.gid
    · have := c.gid_inj hy hg hyg
      subst this
      rw [if_pos rfl] at hp ⊢
      rcases k y hy w' hp with h1 | h1 | h1
      · exact Or.inl h1
      · rw [hpc] at h1; cases h1
      · exact Or.inr (Or.inr h1)
    · rw [if_neg hyg] at hp ⊢; exact k y hy w' hp
  | finish w e h => exact k
  | oneShot hd h => exact k
  | exit hd hdead ha => exact k

theorem ex_kinv {v : List Ev → List Ev} {cfg : Config} {s : State} {D : Debt} (h : Ex v cfg s D) : KInv s :=
  ex_induct2 (P := fun s _ => KInv s) (by intro g hg; simp [init] at hg)
    (fun _ _ _ _ c i k m => micro_kinv m c i k) h

theorem reach_kinv {cfg : Config} {s : State} (hr : Reach cfg s) : KInv s := ex_kinv (reach_ex hr)

/-! ### Up-to-date inputs -/

theorem _root_.Verif.Spec.UpToDate.mono {h h' : List Ev} {n : Name} (u : UpToDate h n) (hm : manH h' n = manH h n)
    (hl : lastBegin h' n = lastBegin h n) (hw : ∀ i, Declares h n i → workerH h' i = workerH h i)
    (hi : ∀ i, workerH h i ≠ none → Declares h n i → manH h' i = manH h i) : UpToDate h' n := by
  obtain ⟨m, g, sn, h1, h2, h3, h6⟩ := u
  refine ⟨m, g, sn, hm.trans h1, hl.trans h2, ?_, h6⟩
  intro j hj
  have hd : Declares h n j := ⟨m, h1, hj⟩
  obtain ⟨h4, h5⟩ := h3 j hj
  rw [hw j hd]
  refine ⟨h4, fun hne => ?_⟩
  rw [hi j hne hd]
  exact h5 hne

structure FInv (s : State) (D : Debt) : Prop where
  noWait : ∀ n, D n → waitsH s.hist n = false
  fresh : s.dying = true ∨ ∀ n, (s.manifolds.get? n).isSome = true →
    D n ∨ (s.cur n).stopping = true ∨ UpToDate s.hist n

/-- A micro step that changes nothing relevant. -/
theorem FInv.same {s s' : State} {D : Debt} (f : FInv s D) (hd : s.dying = true → s'.dying = true)
    (hm : s'.manifolds = s.manifolds) (hc : ∀ n, (s.cur n).stopping = true → (s'.cur n).stopping = true)
    (hw : ∀ n, waitsH s'.hist n = waitsH s.hist n) (h1 : ∀ n, manH s'.hist n = manH s.hist n)
    (h2 : ∀ n, lastBegin s'.hist n = lastBegin s.hist n) (h3 : ∀ n, workerH s'.hist n = workerH s.hist n) :
    FInv s' D := by
  refine ⟨fun n hn => by rw [hw]; exact f.noWait n hn, ?_⟩
  rcases f.fresh with h | h
  · exact Or.inl (hd h)
  · right; intro n hn
    rw [hm] at hn
    rcases h n hn with h | h | h
    · exact Or.inl h
    · exact Or.inr (Or.inl (hc n h))
    · exact Or.inr (Or.inr (h.mono (h1 n) (h2 n) (fun i _ => h3 i) (fun i _ _ => h1 i)))

theorem Core.installed_of_worker {s : State} (c : Core s) {n : Name} (h : (s.cur n).worker ≠ none) :
    (s.manifolds.get? n).isSome = true := by
  rw [c.keys]
  refine isSome_cur_of_not_stopped ?_
  cases hw : (s.cur n).worker with
  | none => exact absurd hw h
  | some w => simp [Info.stopped, hw]

theorem micro_finv {cfg s D s' D'} (m : Micro v cfg s D s' D') (c : Core s) (i : HInv cfg s) (f : FInv s D) :
    FInv s' D' := by
  cases m with
  | setPend p => exact f.same id rfl (fun _ h => h) (fun _ => rfl) (fun _ => rfl) (fun _ => rfl) (fun _ => rfl)
  | kill =>
    exact f.same (fun _ => killNil_dying s) rfl (fun _ h => h) (fun _ => rfl) (fun _ => rfl) (fun _ => rfl)
      (fun _ => rfl)
  | discharge _ h1 h2 =>
    refine ⟨fun n hn => f.noWait n (h1 n hn), ?_⟩
    rcases f.fresh with h | h
    · exact Or.inl h
    · by_cases hd : s.dying = true
      · exact Or.inl hd
      right; intro n hn
      rcases h n hn with h | h | h
      · rcases h2 n h with h | h | h
        · exact Or.inl h
        · exact absurd h hd
        · exact Or.inr (Or.inl h)
      · exact Or.inr (Or.inl h)
      · exact Or.inr (Or.inr h)
  | launch n delay hd hi hs hD hb =>
    have hh : (launch s n delay).hist = .begin n s.nextG delay (s.cur n).recentErrors (launchSnap s n) :: s.hist := rfl
    refine ⟨?_, ?_⟩
    · intro x hx; rw [hh]; exact f.noWait x hx.1
    · rcases f.fresh with h | h
      · rw [hd] at h; cases h
      · right; intro x hx
        have hx' : (s.manifolds.get? x).isSome = true := hx
        rw [hh]
        by_cases hxn : x = n
        · subst hxn
          right; right
          obtain ⟨m, hm⟩ := Option.isSome_iff_exists.1 hi
          have hman : s.man x = m := by unfold State.man; rw [hm]; rfl
          obtain ⟨t1, t2⟩ := takeSnapshot_spec (s.setCur x { s.cur x with
              starting := true, startAttempts := (s.cur x).startAttempts + 1, err := none,
              cancel := some s.nextG }) (s.man x).inputs
          refine ⟨m, s.nextG, launchSnap s x, ?_, ?_, ?_, ?_⟩
          · show manH s.hist x = _; rw [← i.man, hm]
          · simp [lastBegin]
          rotate_left
          · intro j hj
            unfold launchSnap
            rw [t1, hman, if_neg hj]
          · intro j hj
            have hw : workerH s.hist j = (s.cur j).worker := (i.worker j).symm
            refine ⟨?_, ?_⟩
            · show (launchSnap s x).workers.get? j = some (workerH s.hist j)
              unfold launchSnap
              rw [t1, hman, if_pos hj, hw, setCur_cur]
              split
              · rename_i hjx; rw [hjx]
              · rfl
            · intro hne
              have hne' : (s.cur j).worker ≠ none := by rw [← hw]; exact hne
              obtain ⟨mj, hmj⟩ := Option.isSome_iff_exists.1 (c.installed_of_worker hne')
              refine ⟨mj, ?_, ?_⟩
              · show manH s.hist j = _; rw [← i.man, hmj]
              · unfold launchSnap
                rw [t2, hman, if_pos hj, setCur_man]
                unfold State.man; rw [hmj]; rfl
        · rcases h x hx' with h | h | h
          · exact Or.inl ⟨h, hxn⟩
          · right; left; rw [launch_cur_ne _ _ _ hxn]; exact h
          · right; right
            refine h.mono rfl ?_ (fun _ _ => rfl) (fun _ _ _ => rfl)
            simp [lastBegin, hxn]
  | reqStop n hs hst =>
    have hq : ∀ (q : List Ev), (∀ e ∈ q, Quiet e) → ∀ x, waitsH (q ++ s.hist) x = waitsH s.hist x ∧
        manH (q ++ s.hist) x = manH s.hist x ∧ lastBegin (q ++ s.hist) x = lastBegin s.hist x ∧
        workerH (q ++ s.hist) x = workerH s.hist x := by
      intro q
      induction q with
      | nil => intro _ x; exact ⟨rfl, rfl, rfl, rfl⟩
      | cons e q ih =>
        intro hqs x
        obtain ⟨a, b, d, e'⟩ := ih (fun y hy => hqs y (by simp [hy])) x
        rcases hqs e (by simp) with rfl | ⟨w, rfl⟩ | ⟨g, rfl⟩ <;> exact ⟨a, b, d, e'⟩
    have hhist : ∃ q, (∀ e ∈ q, Quiet e) ∧ (requestStop s n).hist = q ++ s.hist := by
      obtain ⟨g, hg, hgn, h⟩ := requestStop_form c hs hst
      rcases h with ⟨_, e⟩ | ⟨k, _, e⟩ | ⟨_, e⟩ <;> rw [e]
      · exact ⟨[.cancelled g.gid], by simp [Quiet], rfl⟩
      · exact ⟨[.killW (.obj k), .cancelled g.gid], by simp [Quiet], rfl⟩
      · exact ⟨[.kill, .killW .self, .cancelled g.gid], by simp [Quiet], rfl⟩
    obtain ⟨q, hqs, hh⟩ := hhist
    refine f.same (requestStop_dying_mono n) (requestStop_manifolds s n)
      (fun m hm => requestStop_stopping_mono s n m hm) ?_ ?_ ?_ ?_ <;> intro x <;> rw [hh]
    · exact (hq q hqs x).1
    · exact (hq q hqs x).2.1
    · exact (hq q hqs x).2.2.1
    · exact (hq q hqs x).2.2.2
  | record n m hn ha hdead hD =>
    have hcn : s.current.get? n = none := by
      have := c.keys n; rw [hn] at this; simpa using this.symm
    have hcur0 : s.cur n = {} := by unfold State.cur; rw [hcn]; rfl
    have hh : (record s n m).hist = .installed n m :: s.hist := rfl
    refine ⟨?_, ?_⟩
    · rintro x (hx | rfl) <;> rw [hh]
      · simp only [waitsH]; split
        · rfl
        · exact f.noWait x hx
      · simp [waitsH]
    · rcases f.fresh with h | h
      · exact Or.inl h
      · right; intro x hx
        by_cases hxn : x = n
        · exact Or.inl (Or.inr hxn)
        · have hx' : (s.manifolds.get? x).isSome = true := by
            have : ((s.manifolds.set n m).get? x).isSome = true := hx
            rwa [AMap.get?_set, if_neg hxn] at this
          have hcx : (record s n m).cur x = s.cur x := by
            show ((s.current.set n {}).get? x).getD {} = s.cur x
            rw [AMap.get?_set, if_neg hxn]; rfl
          rcases h x hx' with h | h | h
          · exact Or.inl (Or.inl h)
          · right; left; rw [hcx]; exact h
          · right; right
            rw [hh]
            refine h.mono ?_ rfl (fun _ _ => rfl) ?_
            · simp [manH, hxn]
            · intro j hj _
              have : j ≠ n := by
                rintro rfl; rw [← i.worker, hcur0] at hj; exact hj rfl
              simp [manH, this]
  | neutral e he =>
    rcases he with ⟨_, _, rfl⟩ | rfl <;>
      exact f.same id rfl (fun _ h => h) (fun _ => rfl) (fun _ => rfl) (fun _ => rfl) (fun _ => rfl)
  | register g hg w now hpc hd hst =>
    have hh : (register (s.mapG g.gid (fun g => { g with pc := afterOffer w })) g.name g.gid w now).hist =
      .registered g.name g.gid w now :: s.hist := rfl
    have hcur : ∀ m, ((register (s.mapG g.gid (fun g => { g with pc := afterOffer w })) g.name g.gid w now).cur
        m).stopping = (s.cur m).stopping := by
      intro m
      have : (register (s.mapG g.gid (fun g => { g with pc := afterOffer w })) g.name g.gid w now).cur m =
        if m = g.name then { s.cur g.name with
          worker := some w, starting := false, startCount := (s.cur g.name).startCount + 1, startAttempts := 0,
          startedTime := now } else s.cur m := setCur_cur _ _ _ _
      rw [this]
      split
      · rename_i h; rw [h]
      · rfl
    refine ⟨?_, ?_⟩
    · intro x hx; rw [hh]; simp only [waitsH]
      split
      · rfl
      · rename_i hnd
        rcases hx with hx | hx
        · exact f.noWait x hx
        · exact absurd ((i.dep g.name x).1 hx) hnd
    · rcases f.fresh with h | h
      · exact Or.inl h
      · right; intro x hx
        rw [hcur, hh]
        by_cases hdx : Dep s g.name x
        · exact Or.inl (Or.inr hdx)
        · rcases h x hx with h | h | h
          · exact Or.inl (Or.inl h)
          · exact Or.inr (Or.inl h)
          · right; right
            refine h.mono rfl rfl ?_ (fun _ _ _ => rfl)
            intro j hj
            have : j ≠ g.name := by rintro rfl; exact hdx ((i.dep _ x).2 hj)
            simp [workerH, this]
  | refuse g hg w hpc h =>
    have hd : s.dying = true → ((s.mapG g.gid (fun g => { g with pc := afterOffer w })).killWorker w).dying = true :=
      fun h => killWorker_dying_mono w h
    have hc : ∀ n, (s.cur n).stopping = true →
        (((s.mapG g.gid (fun g => { g with pc := afterOffer w })).killWorker w).cur n).stopping = true :=
      fun n h => by rw [killWorker_cur]; exact h
    cases w with
    | self => exact f.same hd rfl hc (fun _ => rfl) (fun _ => rfl) (fun _ => rfl) (fun _ => rfl)
    | obj k => exact f.same hd rfl hc (fun _ => rfl) (fun _ => rfl) (fun _ => rfl) (fun _ => rfl)
  | stop g hg raw now hpc hdead hD =>
    have hns := (c.rel g hg).notStopped
    obtain ⟨f1, f2, f3, f4, f5⟩ := stopState_facts cfg g raw now hns
    have hhist : ∃ q, (q = [] ∨ q = [.kill]) ∧ (stopState cfg s g raw now).hist = q ++
        .ended g.name g.gid now raw (applyFilter cfg (s.man g.name) raw) (s.cur g.name).stopping
          (s.cur g.name).worker :: s.hist := by
      rw [stopState_eq cfg s g raw now hns]
      simp only
      split
      · exact ⟨[.kill], Or.inr rfl, rfl⟩
      · exact ⟨[], Or.inl rfl, rfl⟩
    have hdm : s.dying = true → (stopState cfg s g raw now).dying = true := by
      intro h
      rw [stopState_eq cfg s g raw now hns]
      simp only
      split
      · exact killNil_dying _
      · exact h
    obtain ⟨q, hq, hh⟩ := hhist
    generalize stopState cfg s g raw now = s' at *
    generalize applyFilter cfg (s.man g.name) raw = fe at *
    have e1 : ∀ x, waitsH s'.hist x = waitsH (.ended g.name g.gid now raw fe (s.cur g.name).stopping
          (s.cur g.name).worker :: s.hist) x := by rw [hh]; rcases hq with rfl | rfl <;> intro x <;> rfl
    have e2 : ∀ x, manH s'.hist x = manH s.hist x := by rw [hh]; rcases hq with rfl | rfl <;> intro x <;> rfl
    have e3 : ∀ x, lastBegin s'.hist x = lastBegin s.hist x := by
      rw [hh]; rcases hq with rfl | rfl <;> intro x <;> rfl
    have e4 : ∀ x, workerH s'.hist x = if x = g.name then none else workerH s.hist x := by
      rw [hh]; rcases hq with rfl | rfl <;> intro x <;> rfl
    refine ⟨?_, ?_⟩
    · rintro x (hx | ⟨hx, hdx⟩ | ⟨rfl, hx⟩)
      · exact absurd hx (hD x)
      · rw [e1]
        have hne : x ≠ g.name := by rintro rfl; exact c.not_self_dep _ hdx
        simp only [waitsH, hne, if_false]
        rw [if_pos ⟨hx, (i.dep _ x).1 hdx⟩]
      · rw [e1]
        simp only [waitsH, if_true]
        have hx : (s.cur g.name).stopping = true ∨
            (fe ≠ none ∧ errIs fe .aborted = false ∧ errIs fe .missing = false) := by
          rcases hx with (h | ⟨h1, h2, h3, _⟩) | ⟨_, h2, h3, _, h4⟩
          · exact Or.inl h
          · exact Or.inr ⟨h1, h2, h3⟩
          · exact Or.inr ⟨(by rintro rfl; cases h4), h2, h3⟩
        rcases hx with h | ⟨h1, h2, h3⟩
        · simp [h]
        · cases fe with
          | none => exact absurd rfl h1
          | some r =>
            have a1 : Err.aborted ∉ r.tree := by
              intro h; rw [(errIs_iff r _).2 h] at h2; cases h2
            have a2 : Err.missing ∉ r.tree := by
              intro h; rw [(errIs_iff r _).2 h] at h3; cases h3
            simp [a1, a2]
    · rcases f.fresh with h | h
      · exact Or.inl (hdm h)
      · right; intro x hx
        rw [f1] at hx
        by_cases hxg : x = g.name
        · subst hxg
          rcases h g.name hx with h | h | h
          · exact absurd h (hD _)
          · exact Or.inl (Or.inr (Or.inr ⟨rfl, Or.inl (Or.inl h)⟩))
          · right; right
            refine h.mono (e2 _) (e3 _) ?_ (fun j _ _ => e2 j)
            intro j hj
            have : j ≠ g.name := by rintro rfl; exact c.not_self_dep _ ((i.dep _ _).2 hj)
            rw [e4, if_neg this]
        · rcases h x hx with h | h | h
          · exact absurd h (hD _)
          · right; left; rw [f5, if_neg hxg]; exact h
          · by_cases hdx : (s.cur g.name).worker ≠ none ∧ Dep s g.name x
            · exact Or.inl (Or.inr (Or.inl hdx))
            · right; right
              refine h.mono (e2 _) (e3 _) ?_ (fun j _ _ => e2 j)
              intro j hj
              rw [e4]
              split
              · rename_i hjg
                subst hjg
                rw [← i.worker]
                by_cases hw : (s.cur g.name).worker = none
                · exact hw.symm
                · exact absurd ⟨hw, (i.dep _ _).2 hj⟩ hdx
              · rfl
  | uninstall n vals hs hi hv hdead ht hev =>
    have hh : (uninstall s n vals).hist = .uninstalled n :: s.hist := rfl
    have hcur : ∀ k, (uninstall s n vals).cur k = if k = n then {} else s.cur k := by
      intro k
      show ((s.current.erase n).get? k).getD {} = _
      rw [AMap.get?_erase]
      split <;> rfl
    have hw := ((stopped_iff _).1 hs).1
    refine ⟨fun x hx => f.noWait x hx.1, ?_⟩
    rcases f.fresh with h | h
    · exact Or.inl h
    · right; intro x hx
      have hx' : ((s.manifolds.erase n).get? x).isSome = true := hx
      rw [AMap.get?_erase] at hx'
      have hxn : x ≠ n := by rintro rfl; simp at hx'
      rw [if_neg hxn] at hx'
      rcases h x hx' with h | h | h
      · exact Or.inl ⟨h, hxn⟩
      · right; left; rw [hcur, if_neg hxn]; exact h
      · right; right
        rw [hh]
        refine h.mono ?_ rfl (fun _ _ => rfl) ?_
        · simp [manH, hxn]
        · intro j hj _
          have : j ≠ n := by rintro rfl; rw [← i.worker] at hj; exact hj hw
          simp [manH, this]
  | gAbort g hg hpc h =>
    exact f.same id rfl (fun _ h => h) (fun _ => rfl) (fun _ => rfl) (fun _ => rfl) (fun _ => rfl)
  | gTimer g hg hpc fuzz hf =>
    exact f.same id rfl (fun _ h => h) (fun _ => rfl) (fun _ => rfl) (fun _ => rfl) (fun _ => rfl)
  | gGet g hg hpc res out =>
    exact f.same id rfl (fun _ h => h) (fun _ => rfl) (fun _ => rfl) (fun _ => rfl) (fun _ => rfl)
  | gStartOk g hg hpc w =>
    exact f.same id rfl (fun _ h => h) (fun _ => rfl) (fun _ => rfl) (fun _ => rfl) (fun _ => rfl)
  | gStartErr g hg hpc e =>
    exact f.same id rfl (fun _ h => h) (fun _ => rfl) (fun _ => rfl) (fun _ => rfl) (fun _ => rfl)
  | gSelfDone g hg hpc hd =>
    exact f.same id rfl (fun _ h => h) (fun _ => rfl) (fun _ => rfl) (fun _ => rfl) (fun _ => rfl)
  | gWaitRet g hg w hpc e he =>
    exact f.same id rfl (fun _ h => h) (fun _ => rfl) (fun _ => rfl) (fun _ => rfl) (fun _ => rfl)
  | finish w e h =>
    exact f.same id rfl (fun _ h => h) (fun _ => rfl) (fun _ => rfl) (fun _ => rfl) (fun _ => rfl)
  | oneShot hd h =>
    exact f.same id rfl (fun _ h => h) (fun _ => rfl) (fun _ => rfl) (fun _ => rfl) (fun _ => rfl)
  | exit hd hdead ha =>
    refine f.same ?_ rfl (fun _ h => h) (fun _ => rfl) (fun _ => rfl) (fun _ => rfl) (fun _ => rfl)
    intro _; rw [exit_tomb c hd hdead]; exact hd

theorem FInv.init : FInv init noDebt :=
  ⟨fun _ h => h.elim, Or.inr (fun n h => by simp [Verif.Engine.init] at h)⟩

theorem ex_finv {v : List Ev → List Ev} {cfg : Config} {s : State} {D : Debt} (h : Ex v cfg s D) : FInv s D :=
  ex_induct2 (P := FInv) FInv.init (fun _ _ _ _ c i f m => micro_finv m c i f) h

theorem reach_finv {cfg : Config} {s : State} (hr : Reach cfg s) : FInv s noDebt := ex_finv (reach_ex hr)

end Verif.Engine
