import Verif.Catacomb.Live

/-!
# Catacomb: it is never stuck
-/

namespace Verif.Catacomb
open State CSpec Verif.Spec

/-- Some internal step is possible. -/
def CanStep (own : Nat) (s : State) : Prop := ∃ op s', op.internal = true ∧ step own s op = some s'

theorem canStep_of {own : Nat} {s : State} (op : Op) (hi : op.internal = true) (h : (step own s op).isSome = true) : CanStep own s :=
  ⟨op, _, hi, (Option.some_get h).symm⟩

theorem sum_ne_zero {α : Type} (f : α → Nat) {l : List α} (h : (l.map f).sum ≠ 0) : ∃ x ∈ l, f x ≠ 0 := by
  induction l with
  | nil => exact absurd rfl h
  | cons x l ih =>
    by_cases hx : f x = 0
    · simp only [List.map_cons, List.sum_cons, hx, Nat.zero_add] at h
      obtain ⟨y, hy, hf⟩ := ih h
      exact ⟨y, List.mem_cons_of_mem _ hy, hf⟩
    · exact ⟨x, List.mem_cons_self, hx⟩

section
variable {own : Nat} {s : State}
/-- The steps of an Invoke call. -/
def invOps (i : Nat) : List Op := [.iBegin i, .iAdd i, .iListen i, .iGo i, .iOk i, .iKill i, .iWaitRet i, .iFail i]
/-- The steps of an Add call. -/
def addOps (c : Nat) : List Op := [.aDying c, .aSend c, .aWaitRet c]
/-- The steps of the two goroutines of a tracked worker. -/
def trackOps (k : Nat) : List Op := [.tWaitRet k, .tKill k, .tClose k, .tExit k, .kDying k, .kWaitRet k, .kClosed k]
/-- The steps of the listen goroutine. -/
def listenOps : List Op := [.lDying, .lAdd]
/-- The steps of the work goroutine. -/
def workOps : List Op := [.workKill, .wgWait, .wgWake, .workEnd]

theorem no_step {l : List Op} (hq : ∀ op ∈ l, step own s op = none) (op : Op) (hm : op ∈ l) (h : (step own s op).isSome = true) : False := by
  rw [hq op hm] at h; cases h

theorem quiet_of (hq : ¬ CanStep own s) {l : List Op} (hl : ∀ op ∈ l, op.internal = true) : ∀ op ∈ l, step own s op = none := by
  intro op hm
  cases h : step own s op with
  | none => rfl
  | some s' => exact absurd ⟨op, s', hl op hm, h⟩ hq


/-- Where an Invoke call may be when nothing can happen. -/
theorem quiet_inv (hS : Shape s) (hc : s.crashed = false) {i : Nat} (hq : ∀ op ∈ invOps i, step own s op = none) {v : InvCall}
    (hv : s.invs[i]? = some v) :
    (∃ r, v.pc = .returned r) ∨ ∃ e w ws, v.pc = .failWait e w ws ∧ s.fin.get? w = none := by
  cases hp : v.pc with
  | start =>
    refine (no_step hq (.iBegin i) (by simp [invOps]) ?_).elim
    simp only [step, hc, Bool.false_eq_true, if_false, Op.inv?, hv, Option.bind_some, stepInv, hp]
    split
    · rfl
    · split <;> rfl
  | adding j ws =>
    cases ws with
    | nil =>
      refine (no_step hq (.iListen i) (by simp [invOps]) ?_).elim
      simp only [step, hc, Bool.false_eq_true, if_false, Op.inv?, hv, Option.bind_some, stepInv, hp]; rfl
    | cons x ws =>
      cases x with
      | none => exact absurd rfl (hS.plans i v hv j _ hp none List.mem_cons_self)
      | some w =>
        refine (no_step hq (.iAdd i) (by simp [invOps]) ?_).elim
        simp only [step, hc, Bool.false_eq_true, if_false, Op.inv?, hv, Option.bind_some, stepInv, hp]; rfl
  | go =>
    refine (no_step hq (.iGo i) (by simp [invOps]) ?_).elim
    simp only [step, hc, Bool.false_eq_true, if_false, Op.inv?, hv, Option.bind_some, stepInv, hp]; rfl
  | ok =>
    refine (no_step hq (.iOk i) (by simp [invOps]) ?_).elim
    simp only [step, hc, Bool.false_eq_true, if_false, Op.inv?, hv, Option.bind_some, stepInv, hp]; rfl
  | failing e ws =>
    cases ws with
    | nil =>
      refine (no_step hq (.iFail i) (by simp [invOps]) ?_).elim
      simp only [step, hc, Bool.false_eq_true, if_false, Op.inv?, hv, Option.bind_some, stepInv, hp]; rfl
    | cons x ws =>
      refine (no_step hq (.iKill i) (by simp [invOps]) ?_).elim
      cases x <;> (simp only [step, hc, Bool.false_eq_true, if_false, Op.inv?, hv, Option.bind_some, stepInv, hp]; rfl)
  | failWait e w ws =>
    cases hf : s.fin.get? w with
    | none => exact Or.inr ⟨e, w, ws, rfl, hf⟩
    | some x =>
      refine (no_step hq (.iWaitRet i) (by simp [invOps]) ?_).elim
      simp only [step, hc, Bool.false_eq_true, if_false, Op.inv?, hv, Option.bind_some, stepInv, hp, hf, Option.isSome_some, if_true]
  | returned r => exact Or.inl ⟨r, rfl⟩

theorem quiet_listener (hc : s.crashed = false) (hq : ∀ op ∈ listenOps, step own s op = none) :
    s.listener = .none ∨ (s.listener = .select ∧ s.dying = false) ∨ s.listener = .done := by
  cases hl : s.listener with
  | none => exact Or.inl rfl
  | done => exact Or.inr (Or.inr rfl)
  | select =>
    cases hd : s.dying with
    | false => exact Or.inr (Or.inl ⟨rfl, rfl⟩)
    | true =>
      refine (no_step hq .lDying (by simp [listenOps]) ?_).elim
      simp only [step, hc, Bool.false_eq_true, if_false, Op.inv?, Op.add?, Op.track?, stepMain, hl, hd, if_true, Option.isSome_some]
  | adding c w =>
    refine (no_step hq .lAdd (by simp [listenOps]) ?_).elim
    simp only [step, hc, Bool.false_eq_true, if_false, Op.inv?, Op.add?, Op.track?, stepMain, hl, Option.isSome_some]

theorem quiet_track (hS : Shape s) (hc : s.crashed = false) {k : Nat} (hq : ∀ op ∈ trackOps k, step own s op = none) {t : Track}
    (ht : s.tracks[k]? = some t) :
    (t.waiter = .done ∧ t.killer = .done) ∨
    (s.fin.get? t.w = none ∧ ((t.killer = .stop ∧ s.dying = true) ∨ (t.killer = .select ∧ s.dying = false))) := by
  have hT := hS.tracks k t ht
  have hw : (t.waiter = .wait ∧ s.fin.get? t.w = none) ∨ t.waiter = .done := by
    cases hp : t.waiter with
    | wait =>
      cases hf : s.fin.get? t.w with
      | none => exact Or.inl ⟨rfl, rfl⟩
      | some x =>
        refine (no_step hq (.tWaitRet k) (by simp [trackOps]) ?_).elim
        cases x <;> simp only [step, hc, Bool.false_eq_true, if_false, Op.inv?, Op.add?, Op.track?, ht, Option.bind_some, stepTrack, hp, hf,
          Option.isSome_some]
    | kill e =>
      refine (no_step hq (.tKill k) (by simp [trackOps]) ?_).elim
      simp only [step, hc, Bool.false_eq_true, if_false, Op.inv?, Op.add?, Op.track?, ht, Option.bind_some, stepTrack, hp, Option.isSome_some]
    | close =>
      refine (no_step hq (.tClose k) (by simp [trackOps]) ?_).elim
      simp only [step, hc, Bool.false_eq_true, if_false, Op.inv?, Op.add?, Op.track?, ht, Option.bind_some, stepTrack, hp, Option.isSome_some]
    | exit =>
      refine (no_step hq (.tExit k) (by simp [trackOps]) ?_).elim
      simp only [step, hc, Bool.false_eq_true, if_false, Op.inv?, Op.add?, Op.track?, ht, Option.bind_some, stepTrack, hp, Option.isSome_some]
    | done => exact Or.inr rfl
  cases hk : t.killer with
  | select =>
    cases hd : s.dying with
    | true =>
      refine (no_step hq (.kDying k) (by simp [trackOps]) ?_).elim
      simp only [step, hc, Bool.false_eq_true, if_false, Op.inv?, Op.add?, Op.track?, ht, Option.bind_some, stepTrack, hk, hd, if_true,
        Option.isSome_some]
    | false =>
      rcases hw with ⟨_, hf⟩ | hw
      · exact Or.inr ⟨hf, Or.inr ⟨rfl, rfl⟩⟩
      · refine (no_step hq (.kClosed k) (by simp [trackOps]) ?_).elim
        simp only [step, hc, Bool.false_eq_true, if_false, Op.inv?, Op.add?, Op.track?, ht, Option.bind_some, stepTrack, hk, hw, or_true, if_true,
          Option.isSome_some]
  | stop =>
    cases hf : s.fin.get? t.w with
    | none => exact Or.inr ⟨rfl, Or.inl ⟨rfl, hT.stop hk⟩⟩
    | some x =>
      refine (no_step hq (.kWaitRet k) (by simp [trackOps]) ?_).elim
      simp only [step, hc, Bool.false_eq_true, if_false, Op.inv?, Op.add?, Op.track?, ht, Option.bind_some, stepTrack, hk, hf, Option.isSome_some,
        if_true]
  | done =>
    have hf := hT.killer hk
    rcases hw with ⟨_, hf'⟩ | hw
    · rw [hf'] at hf; cases hf
    · exact Or.inl ⟨hw, rfl⟩

theorem quiet_work (hc : s.crashed = false) (hq : ∀ op ∈ workOps, step own s op = none) :
    s.work = .none ∨ s.work = .running ∨ s.work = .asleep ∨ s.work = .done := by
  cases hw : s.work with
  | none => exact Or.inl rfl
  | running => exact Or.inr (Or.inl rfl)
  | asleep => exact Or.inr (Or.inr (Or.inl rfl))
  | done => exact Or.inr (Or.inr (Or.inr rfl))
  | kill e =>
    refine (no_step hq .workKill (by simp [workOps]) ?_).elim
    simp only [step, hc, Bool.false_eq_true, if_false, Op.inv?, Op.add?, Op.track?, stepMain, hw, Option.isSome_some]
  | wait =>
    refine (no_step hq .wgWait (by simp [workOps]) ?_).elim
    simp only [step, hc, Bool.false_eq_true, if_false, Op.inv?, Op.add?, Op.track?, stepMain, hw]
    split <;> rfl
  | woken =>
    refine (no_step hq .wgWake (by simp [workOps]) ?_).elim
    simp only [step, hc, Bool.false_eq_true, if_false, Op.inv?, Op.add?, Op.track?, stepMain, hw]
    split <;> rfl
  | ret =>
    refine (no_step hq .workEnd (by simp [workOps]) ?_).elim
    simp only [step, hc, Bool.false_eq_true, if_false, Op.inv?, Op.add?, Op.track?, stepMain, hw]
    split <;> rfl

/-- If some Invoke call got past the used check and nothing can happen, that call has returned. -/
theorem quiet_owner (hS : Shape s) (hc : s.crashed = false) (hq : ¬ CanStep own s) {i : Nat} (ho : s.owner = some i) :
    s.listener ≠ .none ∧ s.work ≠ .none := by
  obtain ⟨v, hv, ha, hph⟩ := hS.own i ho
  rcases quiet_inv hS hc (quiet_of hq (by simp [invOps, Op.internal])) hv with ⟨r, hp⟩ | ⟨e, w, ws, hp, _⟩
  · rw [hp] at hph; exact hph
  · rw [hp] at ha; cases ha

theorem quiet_add' (hc : s.crashed = false) {c : Nat} (hq : ∀ op ∈ addOps c, step own s op = none) {a : AddCall}
    (ha : s.adds[c]? = some a) :
    (∃ r, a.pc = .returned r) ∨ (a.pc = .stop ∧ s.fin.get? a.w = none) ∨
      (a.pc = .select ∧ s.dying = false ∧ (a.chan = false ∨ s.listener ≠ .select)) := by
  cases hp : a.pc with
  | returned r => exact Or.inl ⟨r, rfl⟩
  | stop =>
    cases hf : s.fin.get? a.w with
    | none => exact Or.inr (Or.inl ⟨rfl, rfl⟩)
    | some x =>
      refine (no_step hq (.aWaitRet c) (by simp [addOps]) ?_).elim
      cases x <;> simp only [step, hc, Bool.false_eq_true, if_false, Op.inv?, Op.add?, ha, Option.bind_some, stepAdd, hp, hf, Option.isSome_some]
  | select =>
    cases hd : s.dying with
    | true =>
      refine (no_step hq (.aDying c) (by simp [addOps]) ?_).elim
      simp only [step, hc, Bool.false_eq_true, if_false, Op.inv?, Op.add?, ha, Option.bind_some, stepAdd, hp, hd, if_true, Option.isSome_some]
    | false =>
      refine Or.inr (Or.inr ⟨rfl, rfl, ?_⟩)
      cases hch : a.chan with
      | false => exact Or.inl rfl
      | true =>
        refine Or.inr fun hl => ?_
        refine no_step hq (.aSend c) (by simp [addOps]) ?_
        simp only [step, hc, Bool.false_eq_true, if_false, Op.inv?, Op.add?, ha, Option.bind_some, stepAdd, hp, hch, hl, and_self, if_true,
          Option.isSome_some]

theorem quiet_add (hS : Shape s) (hc : s.crashed = false) (hq : ¬ CanStep own s) {c : Nat} {a : AddCall}
    (ha : s.adds[c]? = some a) (hown : a.chan = true → s.owner ≠ none) :
    (∃ r, a.pc = .returned r) ∨ (a.pc = .stop ∧ s.fin.get? a.w = none) ∨ (a.pc = .select ∧ s.dying = false ∧ a.chan = false) := by
  rcases quiet_add' hc (quiet_of hq (by simp [addOps, Op.internal])) ha with h | h | ⟨h1, h2, h3⟩
  · exact Or.inl h
  · exact Or.inr (Or.inl h)
  · refine Or.inr (Or.inr ⟨h1, h2, ?_⟩)
    cases hch : a.chan with
    | false => rfl
    | true =>
      obtain ⟨i, ho⟩ := Option.ne_none_iff_exists'.1 (hown hch)
      rcases quiet_listener hc (quiet_of hq (by simp [listenOps, Op.internal])) with hl | ⟨hl, _⟩ | hl
      · exact absurd hl (quiet_owner hS hc hq ho).1
      · rcases h3 with h3 | h3
        · rw [hch] at h3; cases h3
        · exact absurd hl h3
      · have := hS.lst hl; rw [h2] at this; cases this

/-- When nothing can happen in a dying catacomb, it is dead or waiting for user code. -/
theorem quiet_dying (hS : Shape s) (hH : HInv own s) (hc : s.crashed = false) (hq : ¬ CanStep own s) {i : Nat} (ho : s.owner = some i)
    (hd : s.dying = true) :
    s.tomb.dead = true ∨ s.goexit = true ∨ s.work = .running ∨
      ∃ (k : Nat) (t : Track), s.tracks[k]? = some t ∧ t.killer = .stop ∧ s.fin.get? t.w = none := by
  have hown := quiet_owner hS hc hq ho
  have hl : s.listener = .done := by
    rcases quiet_listener hc (quiet_of hq (by simp [listenOps, Op.internal])) with hl | ⟨_, hl⟩ | hl
    · exact absurd hl hown.1
    · rw [hd] at hl; cases hl
    · exact hl
  rcases quiet_work hc (quiet_of hq (by simp [workOps, Op.internal])) with hw | hw | hw | hw
  · exact absurd hw hown.2
  · exact Or.inr (Or.inr (Or.inl hw))
  · refine Or.inr (Or.inr (Or.inr ?_))
    have hn := hS.asleep hw
    have hcnt := hS.count
    rw [hl] at hcnt
    have hz : lcount .done = 0 := rfl
    rw [hz, Nat.zero_add] at hcnt
    rw [hcnt] at hn
    obtain ⟨t, htm, ht0⟩ := sum_ne_zero tcount hn
    obtain ⟨k, ht⟩ := List.mem_iff_getElem?.1 htm
    rcases quiet_track hS hc (quiet_of hq (by simp [trackOps, Op.internal])) ht with ⟨h1, h2⟩ | ⟨hf, ⟨h1, _⟩ | ⟨_, h1⟩⟩
    · simp [tcount, h1, h2] at ht0
    · exact ⟨k, t, ht, h1, hf⟩
    · rw [hd] at h1; cases h1
  · cases hg : s.goexit with
    | true => exact Or.inr (Or.inl rfl)
    | false => exact Or.inl (hS.dead.2 ⟨hw, hg⟩)

end

/-! ## The adds channel exists once somebody has got past the used check -/

def ChanOk (s : State) : Prop := ∀ (c : Nat) a, s.adds[c]? = some a → a.chan = true → s.owner ≠ none

theorem ChanOk.set {s s' : State} (h : ChanOk s) {c : Nat} {a a' : AddCall} (ha : s.adds[c]? = some a)
    (hs : s'.adds = s.adds.set c a') (hch : a'.chan = a.chan) (ho : s'.owner = s.owner) : ChanOk s' := by
  intro c' x hx hxc
  rw [hs] at hx
  rw [ho]
  rcases get_set hx with ⟨rfl, rfl⟩ | ⟨_, hx⟩
  · exact h _ _ ha (hch ▸ hxc)
  · exact h _ _ hx hxc

theorem wgDone_adds (s : State) : (wgDone s).adds = s.adds ∧ (wgDone s).owner = s.owner := by
  unfold wgDone; split <;> exact ⟨rfl, rfl⟩

theorem wgAdd_adds (s : State) (d : Nat) : (wgAdd s d).adds = s.adds ∧ (wgAdd s d).owner = s.owner := by
  unfold wgAdd; split <;> exact ⟨rfl, rfl⟩

theorem ChanOk.same {s s' : State} (h : ChanOk s) (ha : s'.adds = s.adds) (ho : s'.owner = s.owner) : ChanOk s' := by
  intro c a hx; rw [ha] at hx; rw [ho]; exact h c a hx

theorem T.chan {own : Nat} {s s' : State} {op : Op} (h : ChanOk s) (hT : T own s op s') : ChanOk s' := by
  cases hT with
  | iClaim i v hv hp he ho => intro _ _ _ _; exact nofun
  | callAdd w =>
    intro c a ha hch
    rcases get_append ha with ha | ⟨_, rfl⟩
    · exact h c a ha hch
    · intro hx; rw [show s.owner = none from hx] at hch; cases hch
  | aDying c a ha hp hd => exact h.set ha rfl rfl rfl
  | aSend c a ha hp hc hl => exact h.set ha rfl rfl rfl
  | aErr c a e ha hp hf => exact h.set ha rfl rfl rfl
  | aNil c a ha hp hf => exact h.set ha rfl rfl rfl
  | iAdd i v j w ws hv hp => exact h.same (wgAdd_adds _ _).1 (wgAdd_adds _ _).2
  | iListen i v j hv hp => exact h.same (wgAdd_adds _ _).1 (wgAdd_adds _ _).2
  | lDying hl hd => exact h.same (wgDone_adds _).1 (wgDone_adds _).2
  | lAdd c w hl => exact h.same (wgAdd_adds { s with listener := .select } _).1 (wgAdd_adds { s with listener := .select } _).2
  | tExit k t ht hp => exact h.same (wgDone_adds _).1 (wgDone_adds _).2
  | kWaitRet k t ht hp hf => exact h.same (wgDone_adds _).1 (wgDone_adds _).2
  | kClosed k t ht hp hc => exact h.same (wgDone_adds _).1 (wgDone_adds _).2
  | _ => exact h.same rfl rfl

theorem Reach.chan {own : Nat} {s : State} (hr : Reach own s) : ChanOk s := by
  induction hr with
  | init => intro c a ha; cases ha
  | step op hr hs ih => exact (step_T hs).2.chan ih

/-! ## Panics -/

theorem wgDone_tomb (s : State) : (wgDone s).tomb = s.tomb ∧ (wgDone s).hist = s.hist := by
  unfold wgDone; split <;> exact ⟨rfl, rfl⟩

theorem wgAdd_tomb (s : State) (d : Nat) : (wgAdd s d).tomb = s.tomb ∧ (wgAdd s d).hist = s.hist := by
  unfold wgAdd; split <;> exact ⟨rfl, rfl⟩

/-- A panic of the tomb leaves an event. -/
theorem T.panic {own : Nat} {s s' : State} {op : Op} (hS : Shape s) (hc : s.crashed = false) (hT : T own s op s')
    (hp' : s'.tomb.panicked = true) : ∃ who e, s'.hist = .killPanics who e :: s.hist := by
  have hpan : s.tomb.panicked = false := by
    simp only [crashed, Bool.or_eq_false_iff] at hc; exact hc.1
  have same : ∀ {t : Tomb}, t = s.tomb → t.panicked = true → False := by
    rintro t rfl h; rw [hpan] at h; cases h
  cases hT with
  | killPanics who e hw hk => exact ⟨who, e, rfl⟩
  | tKill k t e ht hp hk => exact absurd (show (s.tomb.kill (killArg own (some e))).panicked = true from hp') (by rw [hk]; nofun)
  | workKill e hw hk => exact absurd (show (s.tomb.kill (killArg own e)).panicked = true from hp') (by rw [hk]; nofun)
  | killCall e hk => exact absurd (show (s.tomb.kill (killArg own e)).panicked = true from hp') (by rw [hk]; nofun)
  | iGo i v hv hp =>
    have hph := hS.phase hv (by rw [hp]; rfl)
    rw [hp] at hph
    have hnd : s.tomb.dead = false := by
      cases hd : s.tomb.dead with
      | false => rfl
      | true => have := (hS.dead.1 hd).1; rw [hph.2] at this; cases this
    have : s.tomb.go.panicked = true := hp'
    simp [Tomb.go, hnd, hpan] at this
  | dead hw hg =>
    have : (s.tomb.finish none).panicked = true := hp'
    unfold Tomb.finish at this
    dsimp only at this
    split at this
    · split at this
      · rename_i hk; rw [Tomb.kill_none_panicked] at hk; exact (same rfl hk).elim
      · rename_i hk
        split at this
        · exact absurd this hk
        · exact absurd this hk
    · exact (same rfl this).elim
  | iAdd i v j w ws hv hp => exact (same (wgAdd_tomb _ _).1 hp').elim
  | iListen i v j hv hp => exact (same (wgAdd_tomb _ _).1 hp').elim
  | lDying hl hd => exact (same (wgDone_tomb { s with listener := .done }).1 hp').elim
  | lAdd c w hl => exact (same (wgAdd_tomb { s with listener := .select } _).1 hp').elim
  | tExit k t ht hp => exact (same (wgDone_tomb (s.setTrack _ _)).1 hp').elim
  | kWaitRet k t ht hp hf => exact (same (wgDone_tomb (s.setTrack _ _)).1 hp').elim
  | kClosed k t ht hp hc => exact (same (wgDone_tomb (s.setTrack _ _)).1 hp').elim
  | _ => exact (same rfl hp').elim

/-- The last event of a crashed catacomb is the panic. -/
theorem Reach.crash {own : Nat} {s : State} (hr : Reach own s) (hc : s.crashed = true) :
    ∃ who e h, s.hist = .killPanics who e :: h := by
  have hp : s.tomb.panicked = true := by
    simp only [crashed, hr.shape.noPanic, Bool.or_false] at hc; exact hc
  cases hr with
  | init => cases hp
  | step op hr hs =>
    obtain ⟨h1, hT⟩ := step_T hs
    obtain ⟨who, e, h⟩ := hT.panic hr.shape h1 hp
    exact ⟨who, e, _, h⟩

theorem finished_mem {h : List Ev} {w : Nat} {r : Option Err} (hf : finishedH h w = some r) : .finished w r ∈ h := by
  induction h with
  | nil => cases hf
  | cons e h ih =>
    cases e with
    | finished w' r' =>
      simp only [finishedH] at hf
      split at hf
      · rename_i hw; subst hw; cases hf; exact List.mem_cons_self
      · exact List.mem_cons_of_mem _ (ih hf)
    | _ => exact List.mem_cons_of_mem _ (ih hf)

theorem AtEvery.mem {P : Ev → List Ev → Prop} {h : List Ev} (ha : AtEvery P h) {e : Ev} (he : e ∈ h) :
    ∃ post pre, h = post ++ e :: pre ∧ P e pre := by
  obtain ⟨post, pre, rfl⟩ := List.append_of_mem he
  exact ⟨post, pre, rfl, ha.split⟩

theorem Dying.post {post h : List Ev} (hd : Dying h) : Dying (post ++ h) := by
  obtain ⟨x, hx, hy⟩ := hd; exact ⟨x, List.mem_append_right _ hx, hy⟩

/-- The catacomb hands out its ErrDying only when it is dying. -/
theorem issued_dying {own : Nat} {h : List Ev} (hk : AtEvery (EvOk own) h) (hi : Issued own h) : Dying h := by
  rcases hi with hi | ⟨c, x, hi, _⟩
  · obtain ⟨post, pre, rfl, h1⟩ := AtEvery.mem hk hi
    rcases h1 with ⟨h1, _⟩ | ⟨_, h1⟩
    · exact Dying.post (Dying.cons h1)
    · cases h1
  · obtain ⟨post, pre, rfl, _, w, h1, h2, _⟩ := AtEvery.mem hk hi
    obtain ⟨post', pre', rfl⟩ := List.append_of_mem h2
    have h3 : EvOk own (.killA c w) pre' := by
      have : post ++ Ev.addRet c (some x) :: (post' ++ Ev.killA c w :: pre') = (post ++ Ev.addRet c (some x) :: post') ++ Ev.killA c w :: pre' := by
        simp
      rw [this] at hk
      exact hk.split
    exact Dying.post (Dying.cons (Dying.post (Dying.cons h3.2.1)))

theorem own_mem {own : Nat} {e : Err} (h : OwnDying own (some e)) : own ∈ dyings e := List.mem_of_mem_head? h

/-- An error supplied before is harmless to pass to Kill. -/
theorem supplied_ok {own : Nat} {h : List Ev} (hk : AtEvery (EvOk own) h) (hp : Proper own h) {ev : Ev} (hev : ev ∈ h) {e : Err}
    (he : supplied ev = some e) : e ≠ .tombStillAlive ∧ (OwnDying own (some e) → Dying h) := by
  obtain ⟨post, pre, rfl, h1⟩ := AtEvery.mem hp hev
  obtain ⟨h2, h3⟩ := h1 e he
  refine ⟨h2, fun hy => ?_⟩
  have hkp : AtEvery (EvOk own) pre := by
    clear hev hp h1 h2 h3
    induction post with
    | nil => exact hk.2
    | cons x post ih => exact ih hk.2
  exact Dying.post (Dying.cons (issued_dying hkp (h3 (own_mem hy))))

theorem no_panic {own : Nat} {h : List Ev} {who : Caller} {e : Option Err} (hk : AtEvery (EvOk own) (.killPanics who e :: h))
    (hp : Proper own (.killPanics who e :: h)) : False := by
  obtain ⟨hb, hw⟩ := hk.1
  have fin : ∀ ev ∈ h, ∀ x, supplied ev = some x → e = some x → False := by
    intro ev hev x hx he
    subst he
    obtain ⟨h1, h2⟩ := supplied_ok hk.2 hp.2 hev hx
    rcases hb with hb | ⟨hb, hnd⟩
    · cases hb; exact h1 rfl
    · exact hnd (h2 hb)
  cases who with
  | waiter k =>
    obtain ⟨w, src, x, _, rfl, hf⟩ := hw
    exact fin _ (finished_mem hf) x rfl rfl
  | work =>
    obtain ⟨r, hr, hwe | ⟨v, rfl, rfl⟩⟩ := hw
    · subst hwe
      cases e with
      | none =>
        rcases hb with hb | ⟨hb, _⟩
        · cases hb
        · exact hb
      | some x => exact fin _ hr x rfl rfl
    · rcases hb with hb | ⟨hb, _⟩
      · cases hb
      · simp [OwnDying, dyings, Err.tree] at hb
  | client =>
    cases e with
    | none =>
      rcases hb with hb | ⟨hb, _⟩
      · cases hb
      · exact hb
    | some x =>
      obtain ⟨h1, h2⟩ := hp.1 x rfl
      rcases hb with hb | ⟨hb, hnd⟩
      · cases hb; exact h1 rfl
      · exact hnd (issued_dying hk.2 (h2 (own_mem hb)))

/-- With proper user code nothing panics. -/
theorem Reach.no_crash {own : Nat} {s : State} (hr : Reach own s) (hp : Proper own s.hist) : s.crashed = false := by
  cases hc : s.crashed with
  | false => rfl
  | true =>
    obtain ⟨who, e, h, hh⟩ := hr.crash hc
    have hk := hr.events
    rw [hh] at hk hp
    exact (no_panic hk hp).elim

/-! ## A way to the end -/

/-- `s'` is reached from `s` by operations satisfying `ok`. -/
inductive Exec (own : Nat) (ok : Op → Prop) : State → State → Prop
  | refl (s : State) : Exec own ok s s
  | step {s s1 s2 : State} (op : Op) : ok op → step own s op = some s1 → Exec own ok s1 s2 → Exec own ok s s2

/-- The catacomb's own steps, the work func returning nil, and workers finishing with nil. -/
def Benign (op : Op) : Prop := op.internal = true ∨ op = .workRet (.ret none) ∨ ∃ w, op = .finish w none

/-- Such steps supply no error, and start no Goexit. -/
theorem T.benign {own : Nat} {s s' : State} {op : Op} (hT : T own s op s') (hb : Benign op) :
    s'.hist = s.hist ∨ ∃ e, s'.hist = e :: s.hist ∧ supplied e = none ∧ e ≠ .workRet .goexit := by
  have evn : ∀ {e : Ev}, s'.hist = e :: s.hist → supplied e = none → e ≠ .workRet .goexit →
      s'.hist = s.hist ∨ ∃ e, s'.hist = e :: s.hist ∧ supplied e = none ∧ e ≠ .workRet .goexit := fun h1 h2 h3 => Or.inr ⟨_, h1, h2, h3⟩
  cases hT with
  | callInvoke p => rcases hb with h | h | ⟨_, h⟩ <;> cases h
  | callAdd w => rcases hb with h | h | ⟨_, h⟩ <;> cases h
  | killCall e hk => rcases hb with h | h | ⟨_, h⟩ <;> cases h
  | callErrDying => rcases hb with h | h | ⟨_, h⟩ <;> cases h
  | waitCall r hr => rcases hb with h | h | ⟨_, h⟩ <;> cases h
  | killPanics who e hw hk =>
    cases who with
    | client => rcases hb with h | h | ⟨_, h⟩ <;> cases h
    | waiter k => exact evn rfl rfl nofun
    | work => exact evn rfl rfl nofun
  | finish w e hf =>
    have : e = none := by
      rcases hb with h | h | ⟨_, h⟩
      · cases h
      · cases h
      · cases h; rfl
    subst this; exact evn rfl rfl nofun
  | workRet r e hw hr =>
    have : r = .ret none := by
      rcases hb with h | h | ⟨_, h⟩
      · cases h
      · cases h; rfl
      · cases h
    subst this; exact evn rfl rfl nofun
  | workExit r hw hr =>
    have : r = .ret none := by
      rcases hb with h | h | ⟨_, h⟩
      · cases h
      · cases h; rfl
      · cases h
    subst this; cases hr
  | iAdd i v j w ws hv hp => exact evn (e := .tracked _ w (.init i j)) (congrArg _ (wgAdd_tomb s 2).2) rfl nofun
  | iListen i v j hv hp => exact Or.inl (by simp [setInv, wgAdd_tomb])
  | lDying hl hd => exact Or.inl (wgDone_tomb _).2
  | lAdd c w hl => exact evn (e := .tracked _ w (.add c)) (congrArg _ (wgAdd_tomb { s with listener := .select } 2).2) rfl nofun
  | tExit k t ht hp => exact Or.inl (wgDone_tomb _).2
  | kWaitRet k t ht hp hf => exact Or.inl (wgDone_tomb _).2
  | kClosed k t ht hp hc => exact Or.inl (wgDone_tomb _).2
  | iInvalid | iUsed | iSkip | iWaitRet | tErr | tNil | tClose | wgPass | wgSleep | wgWake | wgReused | goexited => exact Or.inl rfl
  | iClaim | iGo | iOk | iKill | iFail | aDying | aSend | aErr | aNil | tKill | kDying | workKill | dead => exact evn rfl rfl nofun

/-- In a dying catacomb that is not dead and whose work func has not called Goexit, something can be done about it. -/
theorem Reach.progress {own : Nat} {s : State} (hr : Reach own s) (hc : s.crashed = false) {i : Nat} (ho : s.owner = some i)
    (hd : s.dying = true) (hnd : s.tomb.dead = false) (hg : s.goexit = false) :
    CanStep own s ∨ s.work = .running ∨
      ∃ (k : Nat) (t : Track), s.tracks[k]? = some t ∧ t.killer = .stop ∧ s.fin.get? t.w = none := by
  by_cases hq : CanStep own s
  · exact Or.inl hq
  · right
    rcases quiet_dying hr.shape hr.hinv hc hq ho hd with h | h | h
    · rw [hnd] at h; cases h
    · rw [hg] at h; cases h
    · exact h

theorem step_finish {own : Nat} {s : State} (hc : s.crashed = false) {w : Nat} (hf : s.fin.get? w = none) (e : Option Err) :
    step own s (.finish w e) = some ({ s with fin := s.fin.set w e }.emit (.finished w e)) := by
  simp only [step, hc, Bool.false_eq_true, if_false, Op.inv?, Op.add?, Op.track?, stepMain, hf, if_true]

theorem step_workRet {own : Nat} {s : State} (hc : s.crashed = false) (hw : s.work = .running) :
    ∃ s', step own s (.workRet (.ret none)) = some s' := by
  simp only [step, hc, Bool.false_eq_true, if_false, Op.inv?, Op.add?, Op.track?, stepMain, hw, WorkRes.safely]
  exact ⟨_, rfl⟩

/-- From every dying state there is a way to the end, if the work func and the workers do what they are asked to. -/
theorem Reach.ends {own : Nat} {s : State} (hr : Reach own s) (hp : Proper own s.hist) {i : Nat} (ho : s.owner = some i)
    (hd : s.dying = true) (hg : s.goexit = false) : ∃ s', Exec own Benign s s' ∧ s'.tomb.dead = true := by
  induction hn : Catacomb.measure s using Nat.strongRecOn generalizing s with
  | _ n ih =>
    subst hn
    cases hdead : s.tomb.dead with
    | true => exact ⟨s, .refl s, hdead⟩
    | false =>
      have hc := hr.no_crash hp
      have go : ∀ {op : Op} {s' : State}, Benign op → Catacomb.step own s op = some s' →
          (s'.crashed = true ∨ Catacomb.measure s' < Catacomb.measure s) → ∃ s', Exec own Benign s s' ∧ s'.tomb.dead = true := by
        intro op s' hb hs hm
        have hr' := hr.step op hs
        have hT := (step_T hs).2
        have hp' : Proper own s'.hist ∧ (∀ x ∈ s.hist, x ∈ s'.hist) ∧ (.workRet .goexit ∈ s'.hist → .workRet .goexit ∈ s.hist) := by
          rcases hT.benign hb with he | ⟨e, he, h1, h2⟩
          · rw [he]; exact ⟨hp, fun _ hx => hx, fun hx => hx⟩
          · rw [he]
            exact ⟨⟨fun x hx => (by rw [h1] at hx; cases hx), hp⟩, fun _ hx => List.mem_cons_of_mem _ hx, fun hx => mem_cons_ne hx h2.symm⟩
        obtain ⟨hp', hsub, hge⟩ := hp'
        have hm' : Catacomb.measure s' < Catacomb.measure s := hm.resolve_left (by rw [hr'.no_crash hp']; nofun)
        have ho' : s'.owner = some i := (hr'.hinv.invs.own i).2 (hsub _ ((hr.hinv.invs.own i).1 ho))
        have hd' : s'.dying = true := by
          obtain ⟨x, hx, hy⟩ := hr.hinv.tomb.dying.1 hd
          exact hr'.hinv.tomb.dying.2 ⟨x, hsub x hx, hy⟩
        have hg' : s'.goexit = false := by
          cases hgx : s'.goexit with
          | false => rfl
          | true =>
            rw [hr.hinv.work.exit.2 (hge (hr'.hinv.work.exit.1 hgx))] at hg; cases hg
        obtain ⟨s2, h1, h2⟩ := ih _ hm' hr' hp' ho' hd' hg' rfl
        exact ⟨s2, .step op hb hs h1, h2⟩
      rcases hr.progress hc ho hd hdead hg with ⟨op, s', hi, hs⟩ | hw | ⟨k, t, ht, _, hf⟩
      · exact go (Or.inl hi) hs (((step_T hs).2.measure hr.shape).1 (Or.inl hi))
      · obtain ⟨s', hs⟩ := step_workRet (own := own) hc hw
        exact go (Or.inr (Or.inl rfl)) hs (((step_T hs).2.measure hr.shape).1 (Or.inr ⟨_, rfl⟩))
      · refine go (Or.inr (Or.inr ⟨t.w, rfl⟩)) (step_finish hc hf none) (Or.inr ?_)
        have hlt : trank (s.fin.set t.w none) t < trank s.fin t := by
          simp only [trank, AMap.get?_set_self, hf]; simp
        have := sum_lt (f := trank (s.fin.set t.w none)) (g := trank s.fin) (l := s.tracks) (fun x _ => trank_finish _ _ _ _)
          (List.mem_of_getElem? ht) hlt
        simp only [Catacomb.measure, emit]; omega

end Verif.Catacomb
