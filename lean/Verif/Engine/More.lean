import Verif.Engine.Live

/-!
Smaller invariants of the engine, and induction over the micro steps of one step.
-/

namespace Verif.Engine
open State Verif.Spec

/-- Induction over the micro steps of one step from a reachable state. -/
theorem step_induct {cfg : Config} {P : State → Debt → Prop} {s s' : State} {op : Op} (c : Core s)
    (i : HInv cfg s) (h : step cfg s op = some s') (h0 : P s noDebt)
    (hm : ∀ s D s' D', Core s → HInv cfg s → P s D → Micro id cfg s D s' D' → P s' D') : P s' noDebt := by
  have ch := step_chain c h
  have key : ∀ {a D b D'}, Chain id cfg a D b D' → Core a → HInv cfg a → P a D → Core b ∧ HInv cfg b ∧ P b D' := by
    intro a D b D' hch ca ia pa
    induction hch with
    | refl => exact ⟨ca, ia, pa⟩
    | tail _ m ih =>
      obtain ⟨c1, i1, p1⟩ := ih
      exact ⟨micro_core m c1, micro_hinv m c1 i1, hm _ _ _ _ c1 i1 p1 m⟩
  exact (key ch c i h0).2.2

/-- Histories only grow. -/
theorem chain_hist {cfg s D s' D'} (ch : Chain v cfg s D s' D') (c : Core s) :
    ∃ delta, s'.hist = delta ++ s.hist := by
  induction ch with
  | refl => exact ⟨[], rfl⟩
  | tail ch m ih =>
    obtain ⟨d, hd⟩ := ih
    obtain ⟨q, _, h | ⟨e, _, h⟩⟩ := micro_hist m (chain_core ch c)
    · exact ⟨q ++ d, by rw [h, hd, List.append_assoc]⟩
    · exact ⟨q ++ e :: d, by rw [h, hd]; simp⟩

theorem chain_hist_mem {cfg s D s' D'} (ch : Chain v cfg s D s' D') (c : Core s) {e : Ev} (h : e ∈ s.hist) :
    e ∈ s'.hist := by
  obtain ⟨d, hd⟩ := chain_hist ch c
  rw [hd]; simp [h]

/-! ### A registered worker is the one that Start returned -/

def WPhase (h : List Ev) : Prop := ∀ n w, workerH h n = some w → phaseH h n = .ok w

theorem wphase_step {cfg s D s' D'} (m : Micro v cfg s D s' D') (c : Core s) (i : HInv cfg s)
    (a : WPhase s.hist) : WPhase s'.hist := by
  refine micro_histInv (J := WPhase) ?_ ?_ m c i a
  · intro e h hq a
    rcases hq with rfl | ⟨w, rfl⟩ | ⟨g, rfl⟩ <;> exact a
  · intro s D e c i he a n w hw
    cases he with
    | begin m delay hd hi hs hD =>
      have hw' : workerH s.hist n = some w := hw
      have hne : n ≠ m := by
        rintro rfl
        rw [← i.worker, ((stopped_iff _).1 hs).1] at hw'; cases hw'
      have := a n w hw'
      simpa [phaseH, hne] using this
    | startCall g hg hpc fuzz hf =>
      have hp := i.pc g hg
      rw [PcOk, hpc] at hp
      have hw' : workerH s.hist n = some w := hw
      have := a n w hw'
      have hne : n ≠ g.name := by rintro rfl; rw [hp] at this; cases this
      simpa [phaseH, hne] using this
    | startOk g hg hpc w =>
      have hp := i.pc g hg
      rw [PcOk, hpc] at hp
      rename_i w'
      have hw' : workerH s.hist n = some w' := hw
      have := a n w' hw'
      have hne : n ≠ g.name := by rintro rfl; rw [hp] at this; cases this
      simpa [phaseH, hne] using this
    | startErr g hg hpc e =>
      have hp := i.pc g hg
      rw [PcOk, hpc] at hp
      have hw' : workerH s.hist n = some w := hw
      have := a n w hw'
      have hne : n ≠ g.name := by rintro rfl; rw [hp] at this; cases this
      simpa [phaseH, hne] using this
    | ended g hg raw now hpc hdead hD =>
      simp only [workerH] at hw
      split at hw
      · cases hw
      · rename_i hne
        simpa [phaseH, hne] using a n w hw
    | registered g hg w' now hpc hd hst =>
      have hp := i.pc g hg
      rw [PcOk, hpc] at hp
      simp only [workerH] at hw
      split at hw
      · rename_i hne
        cases hw
        rw [hne]; exact hp
      · exact a n w hw
    | report => exact a n w hw
    | installed | installFailed | uninstalled | get | finished | exit => exact a n w hw

theorem ex_wphase {v : List Ev → List Ev} {cfg : Config} {s : State} {D : Debt} (h : Ex v cfg s D) : WPhase s.hist :=
  ex_induct2 (P := fun s _ => WPhase s.hist) (by intro n w h; simp [init, workerH] at h)
    (fun _ _ _ _ c i a m => wphase_step m c i a) h

theorem reach_wphase {cfg : Config} {s : State} (hr : Reach cfg s) : WPhase s.hist := ex_wphase (reach_ex hr)

/-! ### Once dying has been handled, everything is told to stop -/

def OInv (s : State) : Prop := s.oneShot = false → s.dying = true ∧
  ∀ n, (s.cur n).stopped = true ∨ (s.cur n).stopping = true

theorem OInv.congr {s s' : State} (o : OInv s) (h1 : s'.oneShot = s.oneShot)
    (h2 : s.dying = true → s'.dying = true) (h3 : ∀ n, s'.cur n = s.cur n) : OInv s' := by
  intro h; rw [h1] at h
  obtain ⟨a, b⟩ := o h
  refine ⟨h2 a, fun n => ?_⟩
  rw [h3]; exact b n

theorem micro_oinv {cfg s D s' D'} (m : Micro v cfg s D s' D') (c : Core s) (o : OInv s) : OInv s' := by
  cases m with
  | setPend p => exact o.congr rfl id (fun _ => rfl)
  | kill => exact o.congr rfl (fun _ => killNil_dying s) (fun _ => rfl)
  | discharge => exact o
  | launch n delay hd hi hs hD hb =>
    intro h
    have := (o h).1
    rw [hd] at this; cases this
  | reqStop n hs hst =>
    obtain ⟨g, hg, hgn, hf⟩ := requestStop_form c hs hst
    intro h
    have h0 : s.oneShot = false := by
      rcases hf with ⟨_, e⟩ | ⟨k, _, e⟩ | ⟨_, e⟩ <;> rw [e] at h <;> exact h
    obtain ⟨a, b⟩ := o h0
    refine ⟨requestStop_dying_mono n a, fun m => ?_⟩
    rcases b m with h1 | h1
    · by_cases hmn : m = n
      · subst hmn; rw [hs] at h1; cases h1
      · left
        rcases hf with ⟨_, e⟩ | ⟨k, _, e⟩ | ⟨_, e⟩ <;> rw [e]
        · rw [setCur_cur_ne _ _ _ hmn]; exact h1
        · rw [log_cur, setCur_cur_ne _ _ _ hmn]; exact h1
        · rw [killNil_cur, log_cur, setCur_cur_ne _ _ _ hmn]; exact h1
    · exact Or.inr (requestStop_stopping_mono s n m h1)
  | record n m hn ha hdead hD =>
    intro h
    obtain ⟨a, b⟩ := o h
    refine ⟨a, fun x => ?_⟩
    have : (record s n m).cur x = if x = n then {} else s.cur x := by
      show ((s.current.set n {}).get? x).getD {} = _
      rw [AMap.get?_set]; split <;> rfl
    rw [this]
    split
    · exact Or.inl rfl
    · exact b x
  | neutral e he => exact o
  | register g hg w now hpc hd hst =>
    intro h
    have := (o h).1
    rw [hd] at this; cases this
  | refuse g hg w hpc h =>
    refine o.congr ?_ (fun h => killWorker_dying_mono w h) (fun n => by rw [killWorker_cur]; rfl)
    rw [killWorker_oneShot]; rfl
  | stop g hg raw now hpc hdead hD =>
    have hns := (c.rel g hg).notStopped
    obtain ⟨f1, f2, f3, f4, f5⟩ := stopState_facts cfg g raw now hns
    have hdm : s.dying = true → (stopState cfg s g raw now).dying = true := by
      intro h
      rw [stopState_eq cfg s g raw now hns]
      simp only
      split
      · exact killNil_dying _
      · exact h
    have hos : (stopState cfg s g raw now).oneShot = s.oneShot := by
      rw [stopState_eq cfg s g raw now hns]
      simp only
      split <;> rfl
    intro h
    rw [hos] at h
    obtain ⟨a, b⟩ := o h
    refine ⟨hdm a, fun n => ?_⟩
    rw [f5]
    split
    · exact Or.inl rfl
    · exact b n
  | uninstall n vals hs hi hv hdead ht hev =>
    intro h
    obtain ⟨a, b⟩ := o h
    refine ⟨a, fun x => ?_⟩
    have : (uninstall s n vals).cur x = if x = n then {} else s.cur x := by
      show ((s.current.erase n).get? x).getD {} = _
      rw [AMap.get?_erase]; split <;> rfl
    rw [this]
    split
    · exact Or.inl rfl
    · exact b x
  | gAbort g hg hpc h => exact o.congr rfl id (fun _ => rfl)
  | gTimer g hg hpc fuzz hf => exact o.congr rfl id (fun _ => rfl)
  | gGet g hg hpc res out => exact o.congr rfl id (fun _ => rfl)
  | gStartOk g hg hpc w => exact o.congr rfl id (fun _ => rfl)
  | gStartErr g hg hpc e => exact o.congr rfl id (fun _ => rfl)
  | gSelfDone g hg hpc hd => exact o.congr rfl id (fun _ => rfl)
  | gWaitRet g hg w hpc e he => exact o.congr rfl id (fun _ => rfl)
  | finish w e h => exact o.congr rfl id (fun _ => rfl)
  | oneShot hd h => intro _; exact ⟨hd, h⟩
  | exit hd hdead ha =>
    refine o.congr rfl ?_ (fun _ => rfl)
    intro _
    show Tomb.dying _ = true
    rw [exit_tomb c hd hdead]; exact hd

theorem ex_oinv {v : List Ev → List Ev} {cfg : Config} {s : State} {D : Debt} (h : Ex v cfg s D) : OInv s :=
  ex_induct2 (P := fun s _ => OInv s) (by intro h; simp [init] at h)
    (fun _ _ _ _ c _ o m => micro_oinv m c o) h

theorem reach_oinv {cfg : Config} {s : State} (hr : Reach cfg s) : OInv s := ex_oinv (reach_ex hr)

/-! ### The table of infos has each name once; goroutines know the event that began them -/

def BInv (s : State) : Prop := s.current.NodupKeys ∧
  ∀ g ∈ s.gs, .begin g.name g.gid g.base g.recent g.snap ∈ s.hist

theorem BInv.congr {s s' : State} (b : BInv s) (h1 : s'.current = s.current) (h2 : ∀ e ∈ s.hist, e ∈ s'.hist)
    (h3 : ∀ g ∈ s'.gs, ∃ y ∈ s.gs, g.name = y.name ∧ g.gid = y.gid ∧ g.base = y.base ∧ g.recent = y.recent ∧
      g.snap = y.snap) : BInv s' := by
  refine ⟨by rw [h1]; exact b.1, fun g hg => ?_⟩
  obtain ⟨y, hy, e1, e2, e3, e4, e5⟩ := h3 g hg
  rw [e1, e2, e3, e4, e5]
  exact h2 _ (b.2 y hy)

theorem BInv.mapG {s s' : State} (b : BInv s) (gid : Nat) (pc : Pc) (h1 : s'.current = s.current)
    (h2 : ∀ e ∈ s.hist, e ∈ s'.hist) (h3 : s'.gs = (s.mapG gid (fun g => { g with pc := pc })).gs) : BInv s' := by
  refine b.congr h1 h2 ?_
  intro g hg
  rw [h3] at hg
  obtain ⟨y, hy, rfl⟩ := (mem_mapG s gid _).1 hg
  refine ⟨y, hy, ?_⟩
  split <;> exact ⟨rfl, rfl, rfl, rfl, rfl⟩

theorem micro_binv {cfg s D s' D'} (m : Micro v cfg s D s' D') (c : Core s) (b : BInv s) : BInv s' := by
  have hh : ∀ e ∈ s.hist, e ∈ s'.hist := by
    intro e he
    obtain ⟨q, _, h | ⟨e', _, h⟩⟩ := micro_hist m c <;> rw [h] <;> simp [he]
  have same : ∀ {t : State}, t.gs = s.gs → ∀ g ∈ t.gs, ∃ y ∈ s.gs, g.name = y.name ∧ g.gid = y.gid ∧
      g.base = y.base ∧ g.recent = y.recent ∧ g.snap = y.snap := by
    intro t ht g hg; rw [ht] at hg; exact ⟨g, hg, rfl, rfl, rfl, rfl, rfl⟩
  cases m with
  | setPend p => exact b.congr rfl hh (same rfl)
  | kill => exact b.congr rfl hh (same rfl)
  | discharge => exact b
  | launch n delay hd hi hs hD hb =>
    refine ⟨?_, ?_⟩
    · show (s.current.set n _).NodupKeys
      exact b.1.set _ _
    · intro g hg
      have hg' : g ∈ _ :: s.gs := hg
      rcases List.mem_cons.1 hg' with rfl | hg'
      · exact List.mem_cons_self
      · exact hh _ (b.2 g hg')
  | reqStop n hs hst =>
    obtain ⟨g, hg, hgn, hf⟩ := requestStop_form c hs hst
    have hgs : (requestStop s n).gs = (s.mapG g.gid (fun g => { g with cancelled := true })).gs := by
      rcases hf with ⟨_, e⟩ | ⟨k, _, e⟩ | ⟨_, e⟩ <;> rw [e] <;> rfl
    have hcu : ∃ x, (requestStop s n).current = s.current.set n x := by
      rcases hf with ⟨_, e⟩ | ⟨k, _, e⟩ | ⟨_, e⟩ <;> rw [e] <;> exact ⟨_, rfl⟩
    refine ⟨?_, ?_⟩
    · obtain ⟨x, hx⟩ := hcu
      rw [hx]; exact b.1.set _ _
    · intro x hx
      rw [hgs] at hx
      obtain ⟨y, hy, rfl⟩ := (mem_mapG s g.gid _).1 hx
      have := hh _ (b.2 y hy)
      split <;> exact this
  | record n m hn ha hdead hD => exact ⟨b.1.set _ _, fun g hg => hh _ (b.2 g hg)⟩
  | neutral e he => exact b.congr rfl hh (same rfl)
  | register g hg w now hpc hd hst =>
    refine ⟨?_, ?_⟩
    · show (s.current.set g.name _).NodupKeys
      exact b.1.set _ _
    · intro x hx
      have hx' : x ∈ (s.mapG g.gid (fun g => { g with pc := afterOffer w })).gs := hx
      obtain ⟨y, hy, rfl⟩ := (mem_mapG s g.gid _).1 hx'
      have := hh _ (b.2 y hy)
      split <;> exact this
  | refuse g hg w hpc h =>
    refine b.mapG g.gid (afterOffer w) ?_ hh ?_
    · rw [killWorker_current]; rfl
    · rw [killWorker_gs]
  | stop g hg raw now hpc hdead hD =>
    have hns := (c.rel g hg).notStopped
    have e1 : ∃ x, (stopState cfg s g raw now).current = s.current.set g.name x := by
      rw [stopState_eq cfg s g raw now hns]; simp only; split <;> exact ⟨_, rfl⟩
    have e2 : (stopState cfg s g raw now).gs = s.gs.filter (fun x => x.gid != g.gid) := by
      rw [stopState_eq cfg s g raw now hns]; simp only; split <;> rfl
    refine ⟨?_, ?_⟩
    · obtain ⟨x, hx⟩ := e1
      rw [hx]; exact b.1.set _ _
    · intro x hx
      rw [e2] at hx
      exact hh _ (b.2 x (List.mem_filter.1 hx).1)
  | uninstall n vals hs hi hv hdead ht hev => exact ⟨b.1.erase _, fun g hg => hh _ (b.2 g hg)⟩
  | gAbort g hg hpc h => exact b.mapG g.gid _ rfl hh rfl
  | gTimer g hg hpc fuzz hf => exact b.mapG g.gid _ rfl hh rfl
  | gGet g hg hpc res out => exact b.congr rfl hh (same rfl)
  | gStartOk g hg hpc w => exact b.mapG g.gid _ rfl hh rfl
  | gStartErr g hg hpc e => exact b.mapG g.gid _ rfl hh rfl
  | gSelfDone g hg hpc hd => exact b.mapG g.gid _ rfl hh rfl
  | gWaitRet g hg w hpc e he => exact b.mapG g.gid _ rfl hh rfl
  | finish w e h => exact b.congr rfl hh (same rfl)
  | oneShot hd h => exact b.congr rfl hh (same rfl)
  | exit hd hdead ha => exact b.congr rfl hh (same rfl)

theorem BInv.init : BInv init := ⟨AMap.nodupKeys_empty, by intro g hg; simp [Verif.Engine.init] at hg⟩

theorem ex_binv {v : List Ev → List Ev} {cfg : Config} {s : State} {D : Debt} (h : Ex v cfg s D) : BInv s :=
  ex_induct2 (P := fun s _ => BInv s) BInv.init (fun _ _ _ _ c _ b m => micro_binv m c b) h

theorem reach_binv {cfg : Config} {s : State} (hr : Reach cfg s) : BInv s := ex_binv (reach_ex hr)

/-! ### Open attempts across a step -/

theorem openH_append {d h : List Ev} {x : Name} {g : Nat} (ho : openH (d ++ h) x = some g) :
    (∃ b r sn, .begin x g b r sn ∈ d) ∨ openH h x = some g := by
  induction d with
  | nil => exact Or.inr ho
  | cons e d ih =>
    have fwd : openH (d ++ h) x = some g → _ := fun h' => (ih h').imp
      (fun ⟨b, r, sn, hm⟩ => (⟨b, r, sn, List.mem_cons_of_mem e hm⟩ : ∃ b r sn, Ev.begin x g b r sn ∈ e :: d)) id
    cases e with
    | begin m g' b r sn =>
      simp only [List.cons_append, openH] at ho
      split at ho
      · rename_i hx
        cases ho; subst hx
        exact Or.inl ⟨b, r, sn, List.mem_cons_self⟩
      · exact fwd ho
    | ended m g' now raw f st lost =>
      simp only [List.cons_append, openH] at ho
      split at ho
      · cases ho
      · exact fwd ho
    | _ => exact fwd ho

end Verif.Engine
