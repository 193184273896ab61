import Verif.Runner.Live

/-!
# Runner: it is never stuck, and shutting down ends
-/

namespace Verif.Runner
open Tab State RSpec Verif.Spec

/-- The loop never waits for messages when it could return. -/
theorem ReachT.busy {p : Params} {t : Tab} (h : ReachT p t) :
    t.pc = .select → ¬ (t.isDying = true ∧ ∀ id, t.workers.get? id = none) := by
  induction h with
  | init => intro h; cases h
  | step hr hT ih =>
    intro hp
    cases hT with
    | same => exact ih hp
    | quiet e _ _ => exact ih hp
    | kill => exact ih hp
    | select _ h2 => exact h2
    | gDying g _ _ _ => exact ih hp
    | gTimer g _ _ => exact ih hp
    | gCall g _ _ => exact ih hp
    | gStartOk g w _ _ => exact ih hp
    | gStartErr g e _ _ => exact ih hp
    | gWaitRet g w e _ _ _ => exact ih hp
    | take rid cid ret _ => exact ih hp
    | finish w e _ => exact ih hp
    | done gid id e h1 =>
      unfold workerDone at hp
      split at hp
      · rw [show _ = _ from h1] at hp; cases hp
      · dsimp only at hp
        split at hp
        · cases hp
        · unfold beginShutdown at hp; split at hp <;> cases hp
        · cases hp
    | _ => cases hp

/-- Some internal step is possible. -/
def CanStep (p : Params) (s : State) : Prop := ∃ op s', op.internal = true ∧ step p s op = some s'

theorem canStep_of {p : Params} {s : State} (op : Op) (hi : op.internal = true) (h : (step p s op).isSome = true) : CanStep p s :=
  ⟨op, _, hi, (Option.some_get h).symm⟩

/-- Some internal step is possible without waiting for the end of a delay. -/
def CanStepNow (p : Params) (s : State) : Prop :=
  ∃ op s', op.internal = true ∧ (∀ g, op ≠ .gTimer g) ∧ step p s op = some s'

theorem now_of {p : Params} {s : State} (op : Op) (hi : op.internal = true) (hn : ∀ g, op ≠ .gTimer g)
    (h : (step p s op).isSome = true) : CanStepNow p s := ⟨op, _, hi, hn, (Option.some_get h).symm⟩

theorem CanStepNow.can {p : Params} {s : State} (h : CanStepNow p s) : CanStep p s :=
  let ⟨op, s', hi, _, hs⟩ := h
  ⟨op, s', hi, hs⟩

theorem getC_of {s : State} (hnd : (s.clients.map Client.cid).Nodup) {c : Client} (hc : c ∈ s.clients) :
    s.getC c.cid = some c := by
  unfold State.getC
  cases h : s.clients.find? (fun x => decide (x.cid = c.cid)) with
  | none => have := List.find?_eq_none.1 h c hc; simp at this
  | some x =>
    have h1 := List.mem_of_find?_eq_some h
    have h2 : x.cid = c.cid := by simpa using List.find?_some h
    rw [cid_inj hnd h1 hc h2]

theorem getG_of {t : Tab} (hnd : (t.gs.map G.gid).Nodup) {g : G} (hg : g ∈ t.gs) : t.getG g.gid = some g := by
  unfold Tab.getG
  cases h : t.gs.find? (fun x => decide (x.gid = g.gid)) with
  | none => have := List.find?_eq_none.1 h g hg; simp at this
  | some x =>
    have h1 := List.mem_of_find?_eq_some h
    have h2 : x.gid = g.gid := by simpa using List.find?_some h
    rw [gid_inj hnd h1 hg h2]

/-- Whoever holds runner.mu can go on. -/
theorem Reach.mu_now {p : Params} {s : State} (hr : Reach p s) (h : s.mu ≠ none) : CanStepNow p s := by
  obtain ⟨cid, hcid⟩ := Option.ne_none_iff_exists'.1 h
  obtain ⟨c, hc, rfl, x, hx, hp⟩ := hr.minv.held cid hcid
  have hg := getC_of hr.minv.nd hc
  rcases hp with hp | hp
  · refine now_of (.hCheck c.cid) rfl (by simp) ?_
    simp only [Runner.step, Op.cid?, hg, clientStep, hx, hp, if_true]
    split <;> rfl
  · refine now_of (.hEnter c.cid) rfl (by simp) ?_
    simp only [Runner.step, Op.cid?, hg, clientStep, hx, hp, if_true]; rfl

theorem Reach.mu_step {p : Params} {s : State} (hr : Reach p s) (h : s.mu ≠ none) : CanStep p s := (hr.mu_now h).can

/-- So can the loop in killAll. -/
theorem Reach.locked_now {p : Params} {s : State} (h : s.tab.pc.locked = true) : CanStepNow p s := by
  refine now_of .killNext rfl (by simp) ?_
  cases hp : s.tab.pc with
  | killing rest => cases rest <;> simp [Runner.step, Op.cid?, tabStep, hp]
  | _ => rw [hp] at h; cases h

/-- Where nothing can go on by itself, runner.mu is free. -/
theorem Reach.mu_rest {p : Params} {s : State} (hr : Reach p s) (hq : ¬ CanStep p s) : s.muFree = true := by
  rw [muFree_iff]
  refine ⟨Classical.byContradiction fun h => hq (hr.mu_step h), ?_⟩
  cases h : s.tab.pc.locked with
  | false => rfl
  | true => exact absurd (Reach.locked_now h).can hq

theorem keys_order {p : Params} {t : Tab} (h : ReachT p t) : isRangeOrder t.workers t.workers.keys = true :=
  (isRangeOrder_iff _ _).2 ⟨h.nodupKeys, fun _ => Iff.rfl⟩

/-- The loop can always go on, except where it waits for a message or has returned. -/
theorem Reach.loop_now {p : Params} {s : State} (hr : Reach p s) (h1 : s.tab.pc ≠ .select) (h2 : s.tab.pc ≠ .exited) :
    CanStepNow p s := by
  by_cases hmu : s.mu = none
  · cases hp : s.tab.pc with
    | top =>
      refine now_of .loopTop rfl (by simp) ?_
      simp only [Runner.step, Op.cid?, tabStep, hp, if_true]
      split <;> rfl
    | select => exact absurd hp h1
    | act m =>
      refine now_of (.act 0) rfl (by simp) ?_
      simp [Runner.step, Op.cid?, tabStep, hp, hmu]
    | killAll =>
      refine now_of (.killAll s.tab.workers.keys) rfl (by simp) ?_
      simp [Runner.step, Op.cid?, tabStep, hp, hmu, keys_order hr.tab]
    | killing rest =>
      refine now_of .killNext rfl (by simp) ?_
      cases rest <;> simp [Runner.step, Op.cid?, tabStep, hp]
    | reply cid r =>
      refine now_of .reply rfl (by simp) ?_
      cases r <;> simp [Runner.step, hp]
    | bcast =>
      refine now_of .bcast rfl (by simp) ?_
      simp [Runner.step, hp]
    | exited => exact absurd hp h2
  · exact hr.mu_now hmu

theorem Reach.loop_step {p : Params} {s : State} (hr : Reach p s) (h1 : s.tab.pc ≠ .select) (h2 : s.tab.pc ≠ .exited) :
    CanStep p s := (hr.loop_now h1 h2).can

/-- A goroutine that is not in a StartFunc and not waiting for its worker can go on, or the loop can. -/
theorem Reach.g_step {p : Params} {s : State} (hr : Reach p s) (hne : s.tab.pc ≠ .exited) {g : G} (hg : g ∈ s.tab.gs) :
    CanStep p s ∨ g.pc = .starting ∨ ∃ w, g.pc = .waiting w ∧ s.tab.finished.get? w = none := by
  by_cases hsel : s.tab.pc = .select
  · have hgg := getG_of hr.tab.shape.gidNd hg
    cases hp : g.pc with
    | delaying =>
      left; refine canStep_of (.gTimer g.gid) rfl ?_
      simp [Runner.step, Op.cid?, tabStep, hgg, hp]
    | ready =>
      left; refine canStep_of (.gCall g.gid) rfl ?_
      simp [Runner.step, Op.cid?, tabStep, hgg, hp]
    | starting => exact Or.inr (Or.inl rfl)
    | sendStarted w =>
      left; refine canStep_of (.recvStarted g.gid) rfl ?_
      simp [Runner.step, Op.cid?, tabStep, hgg, hp, hsel]
    | waiting w =>
      cases hf : s.tab.finished.get? w with
      | none => exact Or.inr (Or.inr ⟨w, rfl, hf⟩)
      | some e =>
        left; refine canStep_of (.gWaitRet g.gid) rfl ?_
        simp [Runner.step, Op.cid?, tabStep, hgg, hp, hf]
    | sendDone e =>
      left; refine canStep_of (.recvDone g.gid) rfl ?_
      simp [Runner.step, Op.cid?, tabStep, hgg, hp, hsel]
    | gone e =>
      have := hr.tab.shape.goneAct g hg e hp
      rw [hsel] at this; cases this
  · exact Or.inl (hr.loop_step hsel hne)

theorem Reach.killed {p : Params} {s : State} (hr : Reach p s) (hd : s.tab.isDying = true) (hsel : s.tab.pc = .select)
    {g : G} (hg : g ∈ s.tab.gs) {w : Nat} (hp : g.pc = .waiting w) (hf : s.tab.finished.get? w = none) :
    .killW g.id w ∈ s.tab.hist := by
  have hi := hr.tab.hinv
  rcases hr.tab.learn.waiting g hg w hp with hl | hl
  · rcases learned_accounted hr.tab.evOk hl with h | h | h
    · exfalso
      rw [hi.inst] at h
      cases hw : s.tab.workers.get? g.id with
      | none => rw [hw] at h; cases h
      | some i =>
        rw [hw] at h
        rcases hr.tab.shape.dying hd with hx | hx
        · rw [hsel] at hx; cases hx
        · have := hr.tab.shape.stopped g.id i hw (hx g.id i hw)
          simp [this] at h
    · exact h
    · rw [← hi.fin, hf] at h; cases h
  · rw [hsel] at hl; cases hl

/-- A runner that is shutting down can go on by itself, or waits for a StartFunc to return or for a worker it has
Kill()ed to finish. -/
theorem Reach.progress {p : Params} {s : State} (hr : Reach p s) (hd : s.tab.isDying = true) (hne : s.tab.pc ≠ .exited) :
    CanStep p s ∨ (∃ g ∈ s.tab.gs, g.pc = .starting) ∨
    ∃ g ∈ s.tab.gs, ∃ w, g.pc = .waiting w ∧ s.tab.finished.get? w = none ∧ .killW g.id w ∈ s.tab.hist := by
  by_cases hsel : s.tab.pc = .select
  · have hb := hr.tab.busy hsel
    have : ∃ id, s.tab.workers.get? id ≠ none := by
      apply Classical.byContradiction
      intro hx
      exact hb ⟨hd, fun id => Classical.byContradiction fun hy => hx ⟨id, hy⟩⟩
    obtain ⟨id, hid⟩ := this
    have hk := (hr.tab.shape.known id).1 (by cases h : s.tab.workers.get? id with
      | none => exact absurd h hid
      | some _ => rfl)
    obtain ⟨g, hg, rfl⟩ := List.mem_map.1 hk
    rcases hr.g_step hne hg with h | h | ⟨w, h1, h2⟩
    · exact Or.inl h
    · exact Or.inr (Or.inl ⟨g, hg, h⟩)
    · exact Or.inr (Or.inr ⟨g, hg, w, h1, h2, hr.killed hd hsel hg h1 h2⟩)
  · exact Or.inl (hr.loop_step hsel hne)

/-! ## The environment's steps do not make the measure larger -/

/-- A new call by a client. -/
def Op.newCall : Op → Bool
  | .callStart .. | .callStop .. | .callWorker .. | .callRemove .. => true
  | _ => false

theorem rank_mono {b : Bool} {f f' : Nat → Bool} (h : ∀ w, f w = true → f' w = true) (pc : Pc) : pc.rank b f' ≤ pc.rank b f := by
  cases pc with
  | waiting w =>
    simp only [Pc.rank]
    cases h1 : f w with
    | true => rw [h w h1]; exact Nat.le_refl _
    | false => split <;> simp
  | sendDone e => cases e <;> exact Nat.le_refl _
  | gone e => cases e <;> exact Nat.le_refl _
  | _ => exact Nat.le_refl _

theorem sum_le {α : Type} (l : List α) (r r' : α → Nat) (h : ∀ a ∈ l, r' a ≤ r a) : (l.map r').sum ≤ (l.map r).sum := by
  induction l with
  | nil => exact Nat.le_refl _
  | cons a l ih =>
    have := h a List.mem_cons_self
    have := ih (fun a ha => h a (List.mem_cons_of_mem _ ha))
    simp only [List.map_cons, List.sum_cons]; omega

theorem sum_lt {α : Type} (l : List α) (r r' : α → Nat) (h : ∀ a ∈ l, r' a ≤ r a) {a : α} (ha : a ∈ l) (hlt : r' a < r a) :
    (l.map r').sum < (l.map r).sum := by
  induction l with
  | nil => cases ha
  | cons x l ih =>
    have h1 := h x List.mem_cons_self
    have h2 := sum_le l r r' (fun a ha => h a (List.mem_cons_of_mem _ ha))
    simp only [List.map_cons, List.sum_cons]
    rcases List.mem_cons.1 ha with rfl | ha
    · omega
    · have := ih (fun a ha => h a (List.mem_cons_of_mem _ ha)) ha; omega

theorem fin_set {t : Tab} {w : Nat} {e : Option Err} (v : Nat) (hv : t.fin v = true) :
    ({ t with finished := t.finished.set w e } : Tab).fin v = true := by
  unfold Tab.fin at *
  simp only [AMap.get?_set]
  split
  · rfl
  · exact hv

theorem finish_le {b : Bool} {s : State} {w : Nat} {e : Option Err} :
    meas b (s.withTab ({ s.tab with finished := s.tab.finished.set w e }.log (.finished w e))) ≤ meas b s := by
  have h : gsum b { s.tab with finished := s.tab.finished.set w e } ≤ gsum b s.tab :=
    sum_le _ _ _ (fun g _ => rank_mono (fun v hv => fin_set v hv) g.pc)
  unfold meas
  apply Nat.add_le_add_right
  apply Nat.mul_le_mul_right
  show 6 * gsum b { s.tab with finished := s.tab.finished.set w e } + _ + _ + _ + _ ≤ 6 * gsum b s.tab + _ + _ + _ + _
  exact Nat.add_le_add_right (Nat.add_le_add_right (Nat.add_le_add_right (Nat.add_le_add_right (Nat.mul_le_mul_left _ h) _) _) _) _

theorem finish_lt {b : Bool} {s : State} {w : Nat} {e : Option Err} {g : G} (hg : g ∈ s.tab.gs) (hp : g.pc = .waiting w)
    (hf : s.tab.finished.get? w = none) :
    meas b (s.withTab ({ s.tab with finished := s.tab.finished.set w e }.log (.finished w e))) < meas b s := by
  have h : gsum b { s.tab with finished := s.tab.finished.set w e } < gsum b s.tab := by
    refine sum_lt _ _ _ (fun g _ => rank_mono (fun v hv => fin_set v hv) g.pc) hg ?_
    rw [hp]
    have h1 : ({ s.tab with finished := s.tab.finished.set w e } : Tab).fin w = true := by
      unfold Tab.fin; simp [AMap.get?_set]
    have h2 : s.tab.fin w = false := by unfold Tab.fin; rw [hf]; rfl
    simp only [Pc.rank, h1, h2]; decide
  apply meas_lt_L
  · rfl
  · show 6 * gsum b { s.tab with finished := s.tab.finished.set w e } + (if s.tab.dyingArm then 6 else 0) +
        s.tab.pc.rank s.tab.gs.length + s.tab.gs.length * s.tab.due + 6 * csum s <
      6 * gsum b s.tab + (if s.tab.dyingArm then 6 else 0) + s.tab.pc.rank s.tab.gs.length + s.tab.gs.length * s.tab.due +
        6 * csum s
    omega

theorem Reach.meas_le {p : Params} {b : Bool} {s s' : State} {op : Op} (hr : Reach p s) (h1 : op.internal = false)
    (h2 : op.startReturns = false) (h3 : op.newCall = false) (hs : Runner.step p s op = some s') : meas b s' ≤ meas b s := by
  cases op <;> first | (cases h1; done) | (cases h2; done) | (cases h3; done) | skip
  · cases hs; exact Nat.le_refl _
  · rename_i cid
    simp only [Runner.step, Op.cid?] at hs
    split at hs
    · rename_i c hg
      obtain ⟨hc, rfl⟩ := getC_some hg
      cases hs
      have h3 := cid_rank hr.minv.nd hc (fun c => { c with cancelled := true })
      have h4 := cid_hrank hr.minv.nd hc (fun c => { c with cancelled := true })
      have h5 : hrank { c with cancelled := true } = hrank c := rfl
      have h6 : meas b ((s.mapC c.cid (fun c => { c with cancelled := true })).log (.cancelled c.cid)) =
        (tabL b s.tab + 6 * csum (s.mapC c.cid (fun c => { c with cancelled := true }))) *
          (3 * (s.mapC c.cid (fun c => { c with cancelled := true })).clients.length + 1) +
          hsum (s.mapC c.cid (fun c => { c with cancelled := true })) := rfl
      have h7 : csum (s.mapC c.cid (fun c => { c with cancelled := true })) = csum s := by simp only at h3; omega
      have h8 : hsum (s.mapC c.cid (fun c => { c with cancelled := true })) = hsum s := by rw [h5] at h4; omega
      have h9 : (s.mapC c.cid (fun c => { c with cancelled := true })).clients.length = s.clients.length := List.length_map _
      rw [h6, h7, h8, h9]; exact Nat.le_refl _
    · cases hs
  · simp only [Runner.step, Op.cid?, tabStep] at hs
    split at hs <;> cases hs
    exact Nat.le_refl _
  · simp only [Runner.step, Op.cid?, tabStep] at hs
    split at hs <;> cases hs
    exact Nat.le_refl _
  · simp only [Runner.step, Op.cid?, tabStep] at hs
    split at hs
    · split at hs <;> cases hs
      exact Nat.le_refl _
    · cases hs
  · simp only [Runner.step, Op.cid?, tabStep] at hs
    split at hs <;> cases hs
    exact finish_le

/-! ## Executions from a state -/

/-- An execution from one state to another, in which `n` of the steps satisfy `count`, and all satisfy `ok`. -/
inductive Exec (p : Params) (ok count : Op → Bool) : Nat → State → State → Prop
  | nil (s : State) : Exec p ok count 0 s s
  | one {n : Nat} {s s1 s2 : State} (op : Op) : ok op = true → step p s op = some s1 → Exec p ok count n s1 s2 →
      Exec p ok count (if count op then n + 1 else n) s s2

theorem Exec.reach {p : Params} {ok count : Op → Bool} {n : Nat} {s s' : State} (h : Exec p ok count n s s') (hr : Reach p s) :
    Reach p s' := by
  induction h with
  | nil => exact hr
  | one op _ hs _ ih => exact ih (hr.step op hs)

theorem dying_step {p : Params} {s s' : State} {op : Op} (hr : Reach p s) (hd : s.tab.isDying = true) (hs : Runner.step p s op = some s') :
    s'.tab.isDying = true := by
  have h1 := hr.tab.hinv.shut.1 hd
  have hr' := hr.step op hs
  obtain ⟨es, h2, _⟩ := hr.tab.emits (step_T hs)
  exact hr'.tab.hinv.shut.2 (by rw [h2]; exact List.mem_append_right _ h1)

/-- The steps of a runner that is shutting down are bounded in number. -/
theorem Exec.bounded {p : Params} {n : Nat} {s s' : State} (hr : Reach p s) (hd : s.tab.isDying = true)
    (h : Exec p (fun op => !op.newCall) (fun op => op.internal || op.startReturns) n s s') : n + meas true s' ≤ meas true s := by
  induction h with
  | nil => simp
  | @one n s s1 s2 op hok hs hx ih =>
    have ih := ih (hr.step op hs) (dying_step hr hd hs)
    split
    · rename_i hc
      have := hr.meas_lt (b := true) (fun _ => hd) (by simpa using hc) hs
      omega
    · rename_i hc
      rw [Bool.or_eq_true, not_or] at hc
      have := hr.meas_le (b := true) (by simpa using hc.1) (by simpa using hc.2) (by simpa using hok) hs
      omega

/-- Between calls of clients and StartFuncs returning, the steps of a runner are bounded in number. -/
theorem Exec.quiesces {p : Params} {n : Nat} {s s' : State} (hr : Reach p s)
    (h : Exec p (fun op => !op.newCall && !op.startReturns) Op.internal n s s') : n + meas false s' ≤ meas false s := by
  induction h with
  | nil => simp
  | @one n s s1 s2 op hok hs hx ih =>
    have ih := ih (hr.step op hs)
    rw [Bool.and_eq_true] at hok
    split
    · rename_i hc
      have := hr.meas_lt (b := false) nofun (Or.inl hc) hs
      omega
    · rename_i hc
      have := hr.meas_le (b := false) (by simpa using hc) (by simpa using hok.2) (by simpa using hok.1) hs
      omega

/-- Finishing a worker is possible whenever it has not finished. -/
theorem finish_step {p : Params} {s : State} {w : Nat} {e : Option Err} (hf : s.tab.finished.get? w = none) :
    step p s (.finish w e) = some (s.withTab ({ s.tab with finished := s.tab.finished.set w e }.log (.finished w e))) := by
  simp [Runner.step, Op.cid?, tabStep, hf]

theorem startErr_step {p : Params} {s : State} (hr : Reach p s) {g : G} (hg : g ∈ s.tab.gs) (hp : g.pc = .starting) (e : Err) :
    ∃ s', step p s (.gStartErr g.gid e) = some s' := by
  simp [Runner.step, Op.cid?, tabStep, getG_of hr.tab.shape.gidNd hg, hp]

/-- From every state of a runner that is shutting down there is an execution to its end in which every StartFunc that
has been called fails, every worker that was Kill()ed finishes, and nobody calls the runner. -/
theorem Reach.can_exit {p : Params} : ∀ {s : State}, Reach p s → s.tab.isDying = true →
    ∃ n s', Exec p (fun op => !op.newCall) (fun op => op.internal || op.startReturns) n s s' ∧ s'.tab.pc = .exited := by
  intro s
  generalize hm : meas true s = m
  induction m using Nat.strongRecOn generalizing s with
  | ind m ih =>
    intro hr hd
    by_cases hx : s.tab.pc = .exited
    · exact ⟨0, s, .nil s, hx⟩
    · rcases hr.progress hd hx with ⟨op, s1, hi, hs⟩ | ⟨g, hg, hp⟩ | ⟨g, hg, w, hp, hf, _⟩
      · have hlt := hr.meas_lt (b := true) (fun _ => hd) (Or.inl hi) hs
        obtain ⟨n, s2, h1, h2⟩ := ih _ (hm ▸ hlt) rfl (hr.step op hs) (dying_step hr hd hs)
        exact ⟨_, s2, .one op (by cases op <;> first | rfl | cases hi) hs h1, h2⟩
      · obtain ⟨s1, hs⟩ := startErr_step hr hg hp (.user 0)
        have hlt := hr.meas_lt (b := true) (fun _ => hd) (Or.inr ⟨rfl, rfl⟩) hs
        obtain ⟨n, s2, h1, h2⟩ := ih _ (hm ▸ hlt) rfl (hr.step _ hs) (dying_step hr hd hs)
        exact ⟨_, s2, .one _ rfl hs h1, h2⟩
      · have hs := finish_step (p := p) (e := none) hf
        have hlt := finish_lt (b := true) (e := none) hg hp hf
        obtain ⟨n, s2, h1, h2⟩ := ih _ (hm ▸ hlt) rfl (hr.step _ hs) (dying_step hr hd hs)
        exact ⟨_, s2, .one _ rfl hs h1, h2⟩

end Verif.Runner
