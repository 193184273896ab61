import Verif.Engine.Fair
import Verif.Props.EngineLive
import Verif.Props.EngineConverge

/-!
# Engine: what happens in every fair execution

A `Run` is an infinite execution of a new engine, its clients, its Start funcs and its workers. It is `Fair` if no step of
the engine's own goroutines that is possible again and again is passed over for ever; the ends of delays are treated apart
(`DelaysEnd`). The theorems are about what has then happened sooner or later, whatever the clients do meanwhile.
-/

namespace Verif.Props
open Verif.Spec Verif.Engine Relation

variable {cfg : Config} {s s' : State}

/-! ## What is asked of user code -/

/-- Every Start func returns. -/
def StartsReturn (h : Nat → List Ev) : Prop := ∀ k n g, openH (h k) n = some g → phaseH (h k) n = .inStart →
  ∃ j, k ≤ j ∧ ¬ (openH (h j) n = some g ∧ phaseH (h j) n = .inStart)

/-- Every Start func returns whose context has been cancelled. -/
def StartsHeed (h : Nat → List Ev) : Prop := ∀ k n g, openH (h k) n = some g → phaseH (h k) n = .inStart →
  .cancelled g ∈ h k → ∃ j, k ≤ j ∧ ¬ (openH (h j) n = some g ∧ phaseH (h j) n = .inStart)

/-- Every worker that has been Kill()ed finishes. -/
def KilledFinish (h : Nat → List Ev) : Prop := ∀ k w, .killW (.obj w) ∈ h k → ∃ j e, .finished w e ∈ h j

/-! ## Finitely many kinds of steps -/

/-- The kinds of steps that some goroutine may take. -/
def kindsOf (gs : List G) : List Kind := .dying :: gs.flatMap (fun g =>
  [.started g.gid, .stopped g.gid, .abort g.gid, .timer g.gid, .registerDying g.gid, .selfDone g.gid, .waitRet g.gid])

theorem mem_kindsOf {gs : List G} {g : G} (hg : g ∈ gs) {x : Kind} (hx : x ∈ [Kind.started g.gid, .stopped g.gid,
    .abort g.gid, .timer g.gid, .registerDying g.gid, .selfDone g.gid, .waitRet g.gid]) : x ∈ kindsOf gs :=
  List.mem_cons_of_mem _ (List.mem_flatMap.2 ⟨g, hg, hx⟩)

theorem canDo_kind {x : Kind} (h : CanDo cfg s x) : x ∈ kindsOf s.gs := by
  obtain ⟨op, s', hk, h⟩ := h
  have main : ∀ gid, (s.getG gid = none → False) → x ∈ [Kind.started gid, .stopped gid, .abort gid, .timer gid,
      .registerDying gid, .selfDone gid, .waitRet gid] → x ∈ kindsOf s.gs := by
    intro gid hn hx
    cases hg : s.getG gid with
    | none => exact (hn hg).elim
    | some g =>
      obtain ⟨h1, rfl⟩ := getG_some _ _ hg
      exact mem_kindsOf h1 hx
  cases op <;> simp only [Op.kind, Option.some.injEq, reduceCtorEq] at hk <;> subst hk
  case armDying => exact List.mem_cons_self
  case armStarted gid _ _ => exact main gid (fun hn => by simp [step, hn] at h) (by simp)
  case armStopped gid _ _ _ => exact main gid (fun hn => by simp [step, hn] at h) (by simp)
  case gAbort gid => exact main gid (fun hn => by simp [step, hn] at h) (by simp)
  case gTimer gid _ => exact main gid (fun hn => by simp [step, hn] at h) (by simp)
  case gRegisterDying gid => exact main gid (fun hn => by simp [step, hn] at h) (by simp)
  case gSelfDone gid => exact main gid (fun hn => by simp [step, hn] at h) (by simp)
  case gWaitRet gid => exact main gid (fun hn => by simp [step, hn] at h) (by simp)

theorem internal_of_kind {op : Op} {x : Kind} (h : op.kind = some x) : internal op = true := by
  cases op <;> first | rfl | cases h

theorem kind_of_own {op : Op} (h : own op = true) : ∃ x, op.kind = some x ∧ (prompt op = true → x.isTimer = false) := by
  cases op <;> first | (cases h; done) | exact ⟨_, rfl, fun h => by first | rfl | cases h⟩

/-- When no internal step is taken any more and the goroutines stay as they are, no kind of step that is never passed over
for ever stays possible. -/
theorem Run.rests {r : Run cfg} {P : Kind → Prop} (hf : ∀ x, P x → InfOften (fun k => CanDo cfg (r.st k) x) →
    InfOften (fun k => (r.op k).kind = some x)) {m : Nat} (hq : ∀ k, m ≤ k → internal (r.op k) = false)
    (hg : ∀ k, m ≤ k → (r.st k).gs = (r.st m).gs) : ∃ m', m ≤ m' ∧ ∀ k, m' ≤ k → ∀ x, P x → ¬ CanDo cfg (r.st k) x := by
  by_cases hi : InfOften (fun k => ∃ x, P x ∧ CanDo cfg (r.st k) x)
  · exfalso
    have h1 : InfOften (fun k => ∃ x ∈ kindsOf (r.st m).gs, P x ∧ CanDo cfg (r.st k) x) :=
      hi.mono_from m (fun k hk ⟨x, hp, hc⟩ => ⟨x, by rw [← hg k hk]; exact canDo_kind hc, hp, hc⟩)
    obtain ⟨x, _, hx⟩ := h1.of_list
    obtain ⟨_, _, hp, _⟩ := hx 0
    obtain ⟨k, hk, ht⟩ := hf x hp (hx.mono (fun _ h => h.2)) m
    have := hq k hk
    rw [internal_of_kind ht] at this; cases this
  · obtain ⟨m', hm'⟩ := not_infOften hi
    exact ⟨max m m', Nat.le_max_left _ _, fun k hk x hp hc => hm' k (Nat.le_trans (Nat.le_max_right _ _) hk) ⟨x, hp, hc⟩⟩

theorem requestStart_dying_gs (a : State) (n : Name) (d : Int) (h : a.dying = true) : (requestStart a n d).gs = a.gs := by
  have hk : ∀ (b : State) l, b.dying = true → (b.killInternal l n).gs = b.gs ∧ (b.killInternal l n).dying = true :=
    fun b l hb => ⟨rfl, Tomb.kill_dying_of_dying _ _ hb⟩
  have h1 : (if (a.manifolds.get? n).isNone then a.killInternal 384 n else a).gs = a.gs ∧
      (if (a.manifolds.get? n).isNone then a.killInternal 384 n else a).dying = true := by
    split
    · exact hk _ _ h
    · exact ⟨rfl, h⟩
  unfold requestStart
  simp only
  generalize (if (a.manifolds.get? n).isNone then a.killInternal 384 n else a) = s1 at *
  have h2 : (if (s1.cur n).stopped then s1 else s1.killInternal 390 n).gs = a.gs ∧
      (if (s1.cur n).stopped then s1 else s1.killInternal 390 n).dying = true := by
    split
    · exact h1
    · exact ⟨(hk _ _ h1.2).1.trans h1.1, (hk _ _ h1.2).2⟩
  generalize (if (s1.cur n).stopped then s1 else s1.killInternal 390 n) = s2 at *
  rw [if_pos ((sameG_tick s2).2.2 h2.2), tick_gs]
  exact h2.1

/-- What clients do starts no attempt of a dying engine, and neither does anything but Install of another. -/
theorem quiet_gs {op : Op} (h : step cfg s op = some s') (hi : internal op = false)
    (hd : s.dying = true ∨ ∀ n m o p, op ≠ .armInstall n m o p) : s'.gs = s.gs := by
  cases op <;> first | (cases hi; done) | skip
  case kill => simp only [step, Option.some.injEq] at h; subst h; rfl
  case armReport p =>
    simp only [step] at h
    split at h <;> cases h
    rw [endArm_gs]
    unfold liveReport
    simp only
    split <;> exact tick_gs _
  case armInstall n m o p =>
    have hd : s.dying = true := hd.resolve_right (fun hn => hn n m o p rfl)
    simp only [step] at h
    split at h <;> cases h
    rw [endArm_gs]
    unfold gotInstall
    split
    · rfl
    · split
      · rfl
      · exact requestStart_dying_gs (record { s with pend := p } n m) n 0 hd
  case installRefused n => simp only [step] at h; split at h <;> cases h; rfl
  case gGet gid res out =>
    simp only [step] at h
    split at h
    case h_2 => cases h
    split at h <;> cases h
    rfl
  case finish w e => simp only [step] at h; split at h <;> cases h; rfl

/-- A measure that does not grow, and shrinks at each internal step: there is a last internal step. -/
theorem Run.last {r : Run cfg} {f : Nat → Nat} {n : Nat}
    (h : ∀ k, n ≤ k → f (k + 1) ≤ f k ∧ (internal (r.op k) = true → f (k + 1) < f k)) :
    ∃ m, n ≤ m ∧ ∀ k, m ≤ k → internal (r.op k) = false := by
  obtain ⟨m, hm, hc⟩ := settles (fun k hk => (h k hk).1)
  refine ⟨m, hm, fun k hk => ?_⟩
  cases hi : internal (r.op k) with
  | false => rfl
  | true =>
    have h1 := (h k (Nat.le_trans hm hk)).2 hi
    have h2 := hc k hk
    have h3 := hc (k + 1) (by omega)
    omega

/-- Where a goroutine may be when it cannot go on, the loop being alive. -/
theorem rest_pc (hr : Reach cfg s) (hx : .exit ∉ s.hist) {g : G} (hg : g ∈ s.gs)
    (hq : ∀ x : Kind, x.isTimer = false → ¬ CanDo cfg s x) :
    (g.pc = .delaying ∧ .kill ∉ s.hist ∧ .cancelled g.gid ∉ s.hist) ∨ g.pc = .starting ∨
    (g.pc = .selfWait ∧ .kill ∉ s.hist) ∨ ∃ w, g.pc = .waiting w ∧ ∀ e, .finished w e ∉ s.hist := by
  obtain ⟨c, i⟩ := reach_hinv hr
  have hdead : s.tomb.dead = false := by
    cases h : s.tomb.dead with
    | false => rfl
    | true => exact absurd (i.dead.1 h) hx
  have hgg := c.getG_eq hg
  have no : ∀ (x : Kind) (op : Op), x.isTimer = false → op.kind = some x → (step cfg s op).isSome = true → False := by
    intro x op h1 h2 h3
    obtain ⟨s', hs⟩ := Option.isSome_iff_exists.1 h3
    exact hq x h1 ⟨op, s', h2, hs⟩
  cases hp : g.pc with
  | delaying =>
    have hno : ¬ (s.dying = true ∨ g.cancelled = true) := fun hh =>
      no (.abort g.gid) (.gAbort g.gid) rfl rfl (by simp only [step, hgg]; rw [if_pos ⟨hp, hh⟩]; rfl)
    exact Or.inl ⟨rfl, fun h => hno (Or.inl (i.dying.2 h)), fun h => hno (Or.inr ((i.canc g hg).2 h))⟩
  | starting => exact Or.inr (Or.inl rfl)
  | registering w =>
    exact (no (.started g.gid) (.armStarted g.gid 0 none) rfl rfl (by
      simp only [step, hgg, hp]; rw [if_neg (by rw [hdead]; simp)]; rfl)).elim
  | selfWait =>
    refine Or.inr (Or.inr (Or.inl ⟨rfl, fun h => ?_⟩))
    exact no (.selfDone g.gid) (.gSelfDone g.gid) rfl rfl (by simp only [step, hgg]; rw [if_pos ⟨hp, i.dying.2 h⟩]; rfl)
  | waiting w =>
    refine Or.inr (Or.inr (Or.inr ⟨w, rfl, fun e h => ?_⟩))
    exact no (.waitRet g.gid) (.gWaitRet g.gid) rfl rfl (by simp only [step, hgg, hp, (i.fin w e).2 h]; rfl)
  | sendStopped e =>
    obtain ⟨vals, hv⟩ := exists_validVals s.dependents g.name
    have hcond : ¬ (s.tomb.dead = true ∨ validVals s.dependents g.name vals = false) := by
      rw [hdead, hv]; simp
    exact (no (.stopped g.gid) (.armStopped g.gid 0 vals none) rfl rfl (by
      simp only [step, hgg, hp, Option.map_some, Option.getD_some]; rw [if_neg hcond]; rfl)).elim

theorem phase_starting (hr : Reach cfg s) {g : G} (hg : g ∈ s.gs) (hp : g.pc = .starting) :
    openH s.hist g.name = some g.gid ∧ phaseH s.hist g.name = .inStart := by
  have i := (reach_hinv hr).2
  have h := i.pc g hg
  unfold PcOk at h; rw [hp] at h
  exact ⟨i.openG g hg, h⟩

theorem phase_waiting (hr : Reach cfg s) {g : G} (hg : g ∈ s.gs) {w : Nat} (hp : g.pc = .waiting w) :
    openH s.hist g.name = some g.gid ∧ phaseH s.hist g.name = .ok (.obj w) := by
  have i := (reach_hinv hr).2
  have h := i.pc g hg
  unfold PcOk at h; rw [hp] at h
  exact ⟨i.openG g hg, h⟩

/-- A Start func that returns does not stay where it is for ever. -/
theorem Run.leaves_start {r : Run cfg} {m : Nat} {g : G} (hg : ∀ k, m ≤ k → g ∈ (r.st k).gs)
    (h : ∃ j, m ≤ j ∧ ¬ (openH (r.hist j) g.name = some g.gid ∧ phaseH (r.hist j) g.name = .inStart)) : g.pc ≠ .starting := by
  intro hp
  obtain ⟨j, hj, hn⟩ := h
  exact hn (phase_starting (r.reach j) (hg j hj) hp)

/-! ## Executions for the examples: some operations, and then one and the same for ever -/

namespace Demo

def runOp (ops : List Op) (x : Op) (k : Nat) : Op := ops.getD k x

def runSt (cfg : Config) (ops : List Op) (x : Op) : Nat → State
  | 0 => init
  | k + 1 => (step cfg (runSt cfg ops x k) (runOp ops x k)).getD (runSt cfg ops x k)

/-- A state with another history. -/
def withHist (s : State) (h : List Ev) : State := { s with hist := h }

/-- After the operations, `x` adds the event `e` to the history and changes nothing else. -/
def Idles (cfg : Config) (ops : List Op) (x : Op) (e : Ev) : Prop := ∀ h,
  step cfg (withHist (runSt cfg ops x ops.length) h) x = some (withHist (runSt cfg ops x ops.length) (e :: h))

variable {ops : List Op} {x : Op} {e : Ev}

theorem runOp_later (ops : List Op) (x : Op) (d : Nat) : runOp ops x (ops.length + d) = x := by
  unfold runOp; rw [List.getD_eq_getElem?_getD, List.getElem?_eq_none (by omega)]; rfl

theorem runSt_later (hx : Idles cfg ops x e) (d : Nat) : runSt cfg ops x (ops.length + d) =
    withHist (runSt cfg ops x ops.length) (List.replicate d e ++ (runSt cfg ops x ops.length).hist) := by
  induction d with
  | zero => rfl
  | succ d ih =>
    show (step cfg (runSt cfg ops x (ops.length + d)) (runOp ops x (ops.length + d))).getD _ = _
    rw [runOp_later, ih, hx]
    rfl

def mkRun (h1 : ∀ k, k < ops.length → (step cfg (runSt cfg ops x k) (runOp ops x k)).isSome = true)
    (hx : Idles cfg ops x e) : Engine.Run cfg where
  st := runSt cfg ops x
  op := runOp ops x
  start := rfl
  next := by
    intro k
    have : (step cfg (runSt cfg ops x k) (runOp ops x k)).isSome = true := by
      by_cases hk : k < ops.length
      · exact h1 k hk
      · obtain ⟨d, rfl⟩ : ∃ d, k = ops.length + d := ⟨k - ops.length, by omega⟩
        rw [runOp_later, runSt_later hx, hx]
        rfl
    show _ = some ((step cfg (runSt cfg ops x k) (runOp ops x k)).getD (runSt cfg ops x k))
    obtain ⟨t, ht⟩ := Option.isSome_iff_exists.1 this
    rw [ht]; rfl

variable {h1 : ∀ k, k < ops.length → (step cfg (runSt cfg ops x k) (runOp ops x k)).isSome = true} {hx : Idles cfg ops x e}

theorem mkRun_later {k : Nat} (hk : ops.length ≤ k) : (mkRun h1 hx).st k =
    withHist (runSt cfg ops x ops.length) (List.replicate (k - ops.length) e ++ (runSt cfg ops x ops.length).hist) := by
  obtain ⟨d, rfl⟩ : ∃ d, k = ops.length + d := ⟨k - ops.length, by omega⟩
  rw [Nat.add_sub_cancel_left]
  exact runSt_later hx d

/-- What `e` leaves alone stays as it is after the operations. -/
theorem mkRun_stays {α : Sort _} (F : List Ev → α) (hF : ∀ h, F (e :: h) = F h) {k : Nat} (hk : ops.length ≤ k) :
    F ((mkRun h1 hx).hist k) = F (runSt cfg ops x ops.length).hist := by
  unfold Run.hist
  rw [mkRun_later hk]
  show F (List.replicate _ e ++ _) = _
  generalize k - ops.length = d
  induction d with
  | zero => rfl
  | succ d ih => exact (hF _).trans ih

/-- Nothing of its own is left for the engine to do. -/
def quietB (s : State) : Bool :=
  (s.tomb.dead || !s.oneShot || !s.dying) && s.gs.all (fun g => match g.pc with
    | .delaying => false
    | .starting => true
    | .registering _ => false
    | .selfWait => !s.dying
    | .waiting w => (s.finished.get? w).isNone
    | .sendStopped _ => s.tomb.dead)

theorem quietB_no (h : quietB s = true) (y : Kind) : ¬ CanDo cfg s y := by
  rintro ⟨op, s', hk, hs⟩
  simp only [quietB, Bool.and_eq_true, List.all_eq_true, Bool.or_eq_true, Bool.not_eq_true'] at h
  obtain ⟨h0, hg⟩ := h
  cases op <;> simp only [Op.kind, Option.some.injEq, reduceCtorEq] at hk
  case armDying order pend =>
    simp only [step] at hs
    split at hs
    · rename_i hc
      rcases h0 with (h0 | h0) | h0
      · rw [hc.1] at h0; cases h0
      · rw [hc.2.1] at h0; cases h0
      · rw [hc.2.2.1] at h0; cases h0
    · cases hs
  all_goals
    rename_i gid
    simp only [step] at hs
    try (split at hs; · cases hs)
    split at hs
    all_goals first | (cases hs; done) | skip
    rename_i g hgg
    have hq := hg g (getG_some _ _ hgg).1
    split at hs
    all_goals first | (cases hs; done) | skip
    rename_i hc
    first
      | (rw [hc] at hq; cases hq; done)
      | (rw [hc.1] at hq; cases hq; done)
      | (rw [hc] at hq; simp_all; done)
      | (rw [hc.1, hc.2] at hq; cases hq; done)
      | (rw [hc] at hq; split at hs <;> simp_all)

theorem mkRun_fair (hq : quietB (runSt cfg ops x ops.length) = true) : (mkRun h1 hx).Fair ∧ (mkRun h1 hx).DelaysEnd := by
  have key : ∀ y, ¬ InfOften (fun k => CanDo cfg ((mkRun h1 hx).st k) y) := by
    intro y hy
    obtain ⟨k, hk, hc⟩ := hy ops.length
    rw [mkRun_later hk] at hc
    refine quietB_no (s := withHist _ (List.replicate (k - ops.length) e ++ (runSt cfg ops x ops.length).hist)) ?_ y hc
    exact hq
  exact ⟨fun y _ h => absurd h (key y), fun g h => absurd h (key _)⟩

/-- No Start func is being called at the end. -/
theorem mkRun_starts (hq : (runSt cfg ops x ops.length).gs.all (fun g => g.pc != .starting) = true) :
    StartsReturn (mkRun h1 hx).hist := by
  intro k n g _ _
  refine ⟨max k ops.length, Nat.le_max_left _ _, fun ⟨ho, hp⟩ => ?_⟩
  obtain ⟨c, i⟩ := reach_hinv ((mkRun h1 hx).reach (max k ops.length))
  obtain ⟨G, hG, rfl, rfl⟩ := i.openN n g ho
  have hpc := i.pc G hG
  rw [mkRun_later (Nat.le_max_right k ops.length)] at hG
  have hs := List.all_eq_true.1 hq G hG
  unfold PcOk at hpc
  have hp : phaseH ((mkRun h1 hx).st (max k ops.length)).hist G.name = .inStart := hp
  split at hpc
  · rw [hp] at hpc; cases hpc
  · rename_i h; rw [h] at hs; simp at hs
  · rw [hp] at hpc; cases hpc
  · rw [hp] at hpc; cases hpc
  · rw [hp] at hpc; cases hpc
  · rw [hp] at hpc
    rcases hpc with ⟨h, _⟩ | ⟨_, h, _⟩ | ⟨_, h, _⟩ | ⟨h, _⟩ <;> cases h

theorem starts_heed {h : Nat → List Ev} (hs : StartsReturn h) : StartsHeed h := fun k n g h1 h2 _ => hs k n g h1 h2

def killedW : Ev → Option Nat
  | .killW (.obj w) => some w
  | _ => none

def finishedW (h : List Ev) (w : Nat) : Bool := h.any (fun | .finished w' _ => w' == w | _ => false)

/-- Every worker that has been Kill()ed has finished at the end. -/
theorem mkRun_killed (he : killedW e = none)
    (hq : ((runSt cfg ops x ops.length).hist.filterMap killedW).all (finishedW (runSt cfg ops x ops.length).hist) = true) :
    KilledFinish (mkRun h1 hx).hist := by
  intro k w hk
  have h2 : w ∈ ((mkRun h1 hx).hist (max k ops.length)).filterMap killedW :=
    List.mem_filterMap.2 ⟨_, (mkRun h1 hx).hist_mono (Nat.le_max_left k ops.length) hk, rfl⟩
  rw [mkRun_stays (F := fun h => h.filterMap killedW) (fun h => by simp [he]) (Nat.le_max_right k ops.length)] at h2
  obtain ⟨ev, hm, hf⟩ := List.any_eq_true.1 (List.all_eq_true.1 hq w h2)
  cases ev <;> first | (cases hf; done) | skip
  rename_i w' e'
  simp only [beq_iff_eq] at hf
  exact ⟨ops.length, e', by
    unfold Run.hist
    rw [mkRun_later (Nat.le_refl _)]
    exact List.mem_append_right _ (hf ▸ hm)⟩

/-- A test for `Calm`. -/
def calmB (h : List Ev) : Op → Bool
  | .kill | .armInstall _ _ _ _ | .gStartErr _ _ | .finish _ _ => false
  | .armDying _ p | .armReport p | .armStarted _ _ p | .armStopped _ _ _ p => p.isNone
  | .gStartOk _ (.obj k) => noFinish h k
  | _ => true

theorem calmB_spec {h : List Ev} {op : Op} (hb : calmB h op = true) : Calm cfg h op := by
  cases op <;> simp only [calmB, Option.isNone_iff_eq_none, Bool.false_eq_true] at hb <;> first | exact hb | trivial | skip
  rename_i g w
  intro k hk e'
  subst hk
  exact noFinish_spec hb e'

/-- A dying engine that is killed again stays as it is. -/
theorem idles_kill (h : ((runSt cfg ops .kill ops.length).tomb.kill none) = (runSt cfg ops .kill ops.length).tomb) :
    Idles cfg ops .kill .kill := by
  intro l
  simp only [step, State.killNil, withHist, h]

/-- A live engine that is asked for a report stays as it is. -/
theorem idles_report (h1 : (runSt cfg ops (.armReport none) ops.length).tomb.dead = false)
    (h2 : (runSt cfg ops (.armReport none) ops.length).dying = false)
    (h3 : (runSt cfg ops (.armReport none) ops.length).pend = none) :
    Idles cfg ops (.armReport none) (reportEv (runSt cfg ops (.armReport none) ops.length)) := by
  intro l
  generalize runSt cfg ops (.armReport none) ops.length = t at *
  have hp : ({ withHist t l with pend := none } : State) = withHist t l := by
    cases t; simp only [withHist] at h3 ⊢; rw [h3]
  have hd : (withHist t l).dying = false := h2
  have ht : ∀ l, (withHist t l).tick = withHist t l := fun l => by unfold State.tick; rw [show (withHist t l).pend = none from h3]
  simp only [step]
  rw [if_pos (show (withHist t l).tomb.dead = false from h1), hp]
  have hl : liveReport (withHist t l) = withHist t (reportEv t :: l) := by
    unfold liveReport
    simp only [ht, hd]
    unfold reportEv
    rw [h2]
    rfl
  rw [hl]
  unfold endArm
  simp only [ht]
  rw [if_neg (by rw [show ({ withHist t (reportEv t :: l) with pend := none } : State).dying = false from h2]; simp)]
  cases t; simp only [withHist] at h3 ⊢; rw [h3]

/-- Two manifolds are installed and come up; then the engine is asked for reports. -/
def up : Engine.Run Demo.cfg := mkRun (ops := opsUp) (x := .armReport none) (by decide +kernel)
  (idles_report (by decide +kernel) (by decide +kernel) (by decide +kernel))

/-- They come up, fail, and the engine is killed and exits; then it is killed again and again. -/
def down : Engine.Run Demo.cfg := mkRun (ops := opsDown) (x := .kill) (by decide +kernel) (idles_kill (by decide +kernel))

/-- The engine itself is installed as a worker; it is killed and exits, and is killed again and again. -/
def self : Engine.Run Demo.cfg := mkRun (ops := opsSelf) (x := .kill) (by decide +kernel) (idles_kill (by decide +kernel))

theorem up_fair : up.Fair ∧ up.DelaysEnd := mkRun_fair (cfg := Demo.cfg) (ops := opsUp) (by decide +kernel)
theorem down_fair : down.Fair ∧ down.DelaysEnd := mkRun_fair (cfg := Demo.cfg) (ops := opsDown) (by decide +kernel)
theorem self_fair : self.Fair ∧ self.DelaysEnd := mkRun_fair (cfg := Demo.cfg) (ops := opsSelf) (by decide +kernel)

end Demo

/-! ## C80: liveness under fairness -/

/-- C80: an engine that has been killed exits, whatever its clients do meanwhile, if every Start func returns whose
context has been cancelled and every worker that has been Kill()ed finishes. No delay need end. -/
theorem C80_killed_exits {r : Run cfg} (hf : r.Fair) (hs : StartsHeed r.hist) (hw : KilledFinish r.hist) {n : Nat}
    (hk : .kill ∈ r.hist n) : ∃ k, .exit ∈ r.hist k := by
  refine Classical.byContradiction (fun hx => ?_)
  have hx : ∀ k, .exit ∉ r.hist k := fun k h => hx ⟨k, h⟩
  have hk' : ∀ k, n ≤ k → .kill ∈ r.hist k := fun k hk1 => r.hist_mono hk1 hk
  obtain ⟨m, hm, hq⟩ := Run.last (r := r) (f := fun k => remaining (r.st k)) (n := n)
    (fun k hk1 => C43_bounded_step (r.reach k) (hk' k hk1) (r.next k))
  have hg : ∀ k, m ≤ k → (r.st k).gs = (r.st m).gs := stays (fun k hk1 => quiet_gs (r.next k) (hq k hk1)
    (Or.inl ((reach_hinv (r.reach k)).2.dying.2 (hk' k (by omega)))))
  obtain ⟨m', hm', hno⟩ := Run.rests hf hq hg
  rcases C43_progress (r.reach m') (hk' m' (by omega)) (hx m') with ⟨op, s', h1, h2⟩ | h
  · obtain ⟨x, h3, h4⟩ := kind_of_own (own_of_prompt h1)
    exact hno m' (Nat.le_refl _) x (h4 h1) ⟨op, s', h3, h2⟩
  · have there : ∀ g ∈ (r.st m').gs, ∀ k, m' ≤ k → g ∈ (r.st k).gs := fun g hg1 k hk1 => by
      rw [hg k (by omega), ← hg m' hm']; exact hg1
    rcases h with ⟨a, g, h1, h2, h3⟩ | ⟨a, g, w, h1, h2, h3, h4⟩
    · obtain ⟨G, hG, rfl, rfl⟩ := (reach_hinv (r.reach m')).2.openN a g h1
      rcases rest_pc (r.reach m') (hx m') hG (hno m' (Nat.le_refl _)) with h | h | h | ⟨w, h, _⟩
      · exact h.2.1 (hk' m' (by omega))
      · exact Run.leaves_start (there G hG) (hs m' G.name G.gid h1 h2 h3) h
      · exact h.2 (hk' m' (by omega))
      · have := (phase_waiting (r.reach m') hG h).2
        rw [show phaseH (r.st m').hist G.name = .inStart from h2] at this; cases this
    · obtain ⟨G, hG, rfl, rfl⟩ := (reach_hinv (r.reach m')).2.openN a g h1
      obtain ⟨j, e, hj⟩ := hw m' w (killedH_mem h3 h2)
      rcases rest_pc (r.reach m') (hx m') hG (hno m' (Nat.le_refl _)) with h | h | h | ⟨w', h, _⟩
      · exact h.2.1 (hk' m' (by omega))
      · have := (phase_starting (r.reach m') hG h).2
        rw [h2] at this; cases this
      · exact h.2 (hk' m' (by omega))
      · have := (phase_waiting (r.reach m') hG h).2
        rw [h2] at this
        cases this
        have hj' := r.hist_mono (Nat.le_max_right m' j) hj
        rcases rest_pc (r.reach (max m' j)) (hx _) (there G hG _ (Nat.le_max_left _ _)) (hno _ (Nat.le_max_left _ _)) with
          h' | h' | h' | ⟨w', h', h''⟩
        · rw [h] at h'; cases h'.1
        · rw [h] at h'; cases h'
        · rw [h] at h'; cases h'.1
        · rw [h] at h'; cases h'
          exact h'' e hj'

example : Demo.down.Fair ∧ StartsHeed Demo.down.hist ∧ KilledFinish Demo.down.hist ∧ .kill ∈ Demo.down.hist 25 ∧
    .exit ∉ Demo.down.hist 25 :=
  ⟨Demo.down_fair.1, Demo.starts_heed (Demo.mkRun_starts (cfg := Demo.cfg) (ops := Demo.opsDown) (by decide +kernel)),
    Demo.mkRun_killed (cfg := Demo.cfg) (ops := Demo.opsDown) rfl (by decide +kernel), by decide +kernel, by decide +kernel⟩

/-- A goroutine whose last message is never received ends up at one place. -/
theorem Run.follow {r : Run cfg} {n : Nat} {g : G} (hg : g ∈ (r.st n).gs)
    (hne : ∀ k now raw f t l, .ended g.name g.gid now raw f t l ∉ r.hist k) :
    (∀ k, n ≤ k → ∃ x ∈ (r.st k).gs, x.gid = g.gid ∧ x.name = g.name) ∧
    ∃ m pc, n ≤ m ∧ ∀ k, m ≤ k → (r.op k).mover ≠ some g.gid ∧
      ∃ x ∈ (r.st k).gs, x.gid = g.gid ∧ x.name = g.name ∧ x.pc = pc := by
  have go : ∀ k x, x ∈ (r.st k).gs → x.gid = g.gid → x.name = g.name → GoesOn (r.op k) x (r.st (k + 1)) := by
    intro k x hx h1 h2
    rcases step_moves (reach_hinv (r.reach k)).1 (r.next k) hx with h | ⟨now, vals, pend, h⟩
    · exact h
    · exfalso
      have hn := r.next k
      rw [h] at hn
      obtain ⟨a, raw, f, t, l, d, hd, _⟩ := C41_reaction (r.reach k) hn
      have ha : .ended a x.gid now raw f t l ∈ r.hist (k + 1) := by
        show _ ∈ (r.st (k + 1)).hist
        rw [hd]; simp
      have : a = x.name := by
        have h3 := C30_one_at_a_time ((r.reach k).step _ hn)
        rw [hd] at h3
        have h4 : openH (r.st k).hist a = some x.gid := h3.split
        obtain ⟨y, hy, rfl, h5⟩ := (reach_hinv (r.reach k)).2.openN a x.gid h4
        rw [(reach_hinv (r.reach k)).1.gid_inj hy hx h5]
      rw [this, h2, h1] at ha
      exact hne _ _ _ _ _ _ ha
  have ex : ∀ k, n ≤ k → ∃ x ∈ (r.st k).gs, x.gid = g.gid ∧ x.name = g.name := by
    refine kept ⟨g, hg, rfl, rfl⟩ ?_
    rintro k _ ⟨x, hx, h1, h2⟩
    obtain ⟨y, hy, h3, h4, _⟩ := go k x hx h1 h2
    exact ⟨y, hy, h3.trans h1, h4.trans h2⟩
  refine ⟨ex, ?_⟩
  have hget : ∀ k x, x ∈ (r.st k).gs → x.gid = g.gid → (r.st k).getG g.gid = some x := fun k x hx h1 => by
    rw [← h1]; exact (reach_hinv (r.reach k)).1.getG_eq hx
  let f : Nat → Nat := fun k => match (r.st k).getG g.gid with
    | some x => x.pc.rank
    | none => 0
  have hf : ∀ k x, x ∈ (r.st k).gs → x.gid = g.gid → f k = x.pc.rank := fun k x hx h1 => by
    show (match (r.st k).getG g.gid with | some x => x.pc.rank | none => 0) = _
    rw [hget k x hx h1]
  obtain ⟨m, hm, hc⟩ := settles (f := f) (n := n) (by
    intro k hk
    obtain ⟨x, hx, h1, h2⟩ := ex k hk
    obtain ⟨y, hy, h3, h4, h5, h6⟩ := go k x hx h1 h2
    rw [hf k x hx h1, hf (k + 1) y hy (h3.trans h1)]
    by_cases hmv : (r.op k).mover = some x.gid
    · exact Nat.le_of_lt (h6 hmv)
    · rw [h5 hmv])
  have still : ∀ k, m ≤ k → (r.op k).mover ≠ some g.gid := by
    intro k hk hmv
    obtain ⟨x, hx, h1, h2⟩ := ex k (by omega)
    obtain ⟨y, hy, h3, h4, h5, h6⟩ := go k x hx h1 h2
    have := h6 (by rw [h1]; exact hmv)
    rw [← hf k x hx h1, ← hf (k + 1) y hy (h3.trans h1), hc k hk, hc (k + 1) (by omega)] at this
    omega
  obtain ⟨x, hx, h1, h2⟩ := ex m hm
  refine ⟨m, x.pc, hm, fun k hk => ⟨still k hk, ?_⟩⟩
  exact kept (P := fun k => ∃ y ∈ (r.st k).gs, y.gid = g.gid ∧ y.name = g.name ∧ y.pc = x.pc) ⟨x, hx, h1, h2, rfl⟩ (by
    rintro k hk ⟨y, hy, a1, a2, a3⟩
    obtain ⟨z, hz, b1, b2, b3, _⟩ := go k y hy a1 a2
    exact ⟨z, hz, b1.trans a1, b2.trans a2, (b3 (by rw [a1]; exact still k hk)).trans a3⟩) k hk

/-- Where an attempt of a manifold may stay for ever. -/
inductive Stays (h : Nat → List Ev) (a : Name) (g : Nat) : Prop
  /-- its Start func does not return -/
  | start (m : Nat) (_ : ∀ k, m ≤ k → phaseH (h k) a = .inStart)
  /-- its worker does not finish; it has been Kill()ed, or it is registered and the attempt has not been told to stop -/
  | worker (m w : Nat) (_ : ∀ k, m ≤ k → phaseH (h k) a = .ok (.obj w) ∧
      (killedH (h k) a = true ∨ (workerH (h k) a = some (.obj w) ∧ .cancelled g ∉ h k))) (_ : ∀ k e, .finished w e ∉ h k)
  /-- its worker is the engine itself, which is not killed -/
  | self (m : Nat) (_ : ∀ k, m ≤ k → phaseH (h k) a = .ok .self ∧ workerH (h k) a = some .self ∧ .cancelled g ∉ h k)
      (_ : ∀ k, .kill ∉ h k)
  /-- its worker is the engine itself, which has exited -/
  | gone (m : Nat) (_ : ∀ k, m ≤ k → phaseH (h k) a = .ok .self) (_ : .exit ∈ h m)

/-- C80: every attempt to start a manifold ends, unless its Start func does not return, its worker does not finish, or its
worker is the engine itself. -/
theorem C80_attempts_end {r : Run cfg} (hf : r.Fair) (hd : r.DelaysEnd) {n : Nat} {a : Name} {g : Nat}
    (ho : openH (r.hist n) a = some g) : (∃ k now raw f t l, .ended a g now raw f t l ∈ r.hist k) ∨
      ((∀ k, n ≤ k → openH (r.hist k) a = some g) ∧ Stays r.hist a g) := by
  by_cases hne : ∃ k now raw f t l, .ended a g now raw f t l ∈ r.hist k
  · exact Or.inl hne
  have hne : ∀ k now raw f t l, .ended a g now raw f t l ∉ r.hist k := fun k now raw f t l h => hne ⟨k, now, raw, f, t, l, h⟩
  obtain ⟨G, hG, rfl, rfl⟩ := (reach_hinv (r.reach n)).2.openN a g ho
  obtain ⟨hex, m, pc, hm, hfol⟩ := Run.follow hG hne
  refine Or.inr ⟨fun k hk => ?_, ?_⟩
  · obtain ⟨x, hx, h1, h2⟩ := hex k hk
    have := (reach_hinv (r.reach k)).2.openG x hx
    rw [h1, h2] at this; exact this
  by_cases hx : ∃ k, .exit ∈ r.hist k
  · obtain ⟨k0, hx⟩ := hx
    refine .gone (max n k0) (fun k hk => ?_) (r.hist_mono (Nat.le_max_right _ _) hx)
    obtain ⟨c, i⟩ := reach_hinv (r.reach k)
    obtain ⟨x, hx', _, h2⟩ := hex k (by omega)
    have := dead_self c i (reach_wphase (r.reach k)) (i.dead.2 (r.hist_mono (show k0 ≤ k by omega) hx)) hx'
    rw [h2] at this; exact this
  have hx : ∀ k, .exit ∉ r.hist k := fun k h => hx ⟨k, h⟩
  -- no step of the goroutine is possible again and again
  have never : ∀ (x : Kind) (y : Nat → Op) (m0 : Nat), m ≤ m0 → (∀ op : Op, op.kind = some x → op.mover = some G.gid) →
      (∀ k, m0 ≤ k → (y k).kind = some x ∧ (step cfg (r.st k) (y k)).isSome = true) → False := by
    intro x y m0 hm0 hmv hy
    have hc : InfOften (fun k => CanDo cfg (r.st k) x) := infOften_of_from m0 (fun k hk => by
      obtain ⟨h1, h2⟩ := hy k hk
      obtain ⟨s', h2⟩ := Option.isSome_iff_exists.1 h2
      exact ⟨y k, s', h1, h2⟩)
    have ht : InfOften (fun k => (r.op k).kind = some x) := by
      cases hxt : x.isTimer with
      | false => exact hf x hxt hc
      | true => cases x <;> first | exact hd _ hc | cases hxt
    obtain ⟨k, hk, h⟩ := ht m
    exact (hfol k hk).1 (hmv _ h)
  have at' : ∀ k, m ≤ k → ∃ x ∈ (r.st k).gs, (r.st k).getG G.gid = some x ∧ x.name = G.name ∧ x.pc = pc ∧
      PcOk (r.st k).hist x := by
    intro k hk
    obtain ⟨_, x, hx', h1, h2, h3⟩ := hfol k hk
    obtain ⟨c, i⟩ := reach_hinv (r.reach k)
    exact ⟨x, hx', by rw [← h1]; exact c.getG_eq hx', h2, h3, i.pc x hx'⟩
  have kinv : ∀ k w, m ≤ k → pc ≠ .registering w → phaseH (r.hist k) G.name = .ok w →
      killedH (r.hist k) G.name = true ∨ (workerH (r.hist k) G.name = some w ∧ .cancelled G.gid ∉ r.hist k) := by
    intro k w hk hpc hp
    obtain ⟨_, x, hx', h1, h2, h3⟩ := hfol k hk
    obtain ⟨c, i⟩ := reach_hinv (r.reach k)
    rcases reach_kinv (r.reach k) x hx' w (by rw [h2]; exact hp) with h | h | ⟨h, h'⟩
    · exact Or.inl (by rw [← h2]; exact h)
    · exact absurd (h3.symm.trans h) hpc
    · exact Or.inr ⟨by rw [← h2]; exact h, fun hc => by
        have := (i.canc x hx').2 (by rw [h1]; exact hc)
        rw [h'] at this; cases this⟩
  have dead : ∀ k, (r.st k).tomb.dead = false := fun k => by
    cases h : (r.st k).tomb.dead with
    | false => rfl
    | true => exact absurd ((reach_hinv (r.reach k)).2.dead.1 h) (hx k)
  cases hpc : pc with
  | delaying =>
    refine (never (.timer G.gid) (fun _ => .gTimer G.gid 0) m (Nat.le_refl _) (fun op h => ?_) (fun k hk => ⟨rfl, ?_⟩)).elim
    · cases op <;> simp only [Op.kind, Option.some.injEq, reduceCtorEq, Kind.timer.injEq] at h
      rw [h]; rfl
    · obtain ⟨x, _, h1, _, h3, _⟩ := at' k hk
      simp only [step, h1]
      rw [if_pos ⟨h3.trans hpc, by decide, by decide⟩]; rfl
  | starting =>
    refine .start m (fun k hk => ?_)
    obtain ⟨x, _, _, h2, h3, h4⟩ := at' k hk
    unfold PcOk at h4; rw [h3, hpc, h2] at h4; exact h4
  | registering w =>
    refine (never (.started G.gid) (fun _ => .armStarted G.gid 0 none) m (Nat.le_refl _) (fun op h => ?_)
      (fun k hk => ⟨rfl, ?_⟩)).elim
    · cases op <;> simp only [Op.kind, Option.some.injEq, reduceCtorEq, Kind.started.injEq] at h
      rw [h]; rfl
    · obtain ⟨x, _, h1, _, h3, _⟩ := at' k hk
      simp only [step, h1, h3.trans hpc]
      rw [if_neg (by rw [dead k]; simp)]; rfl
  | selfWait =>
    have nokill : ∀ k0, .kill ∉ r.hist k0 := by
      intro k0 hk0
      refine never (.selfDone G.gid) (fun _ => .gSelfDone G.gid) (max m k0) (Nat.le_max_left _ _) (fun op h => ?_)
        (fun k hk => ⟨rfl, ?_⟩)
      · cases op <;> simp only [Op.kind, Option.some.injEq, reduceCtorEq, Kind.selfDone.injEq] at h
        rw [h]; rfl
      · obtain ⟨x, _, h1, _, h3, _⟩ := at' k (by omega)
        simp only [step, h1]
        rw [if_pos ⟨h3.trans hpc, (reach_hinv (r.reach k)).2.dying.2 (r.hist_mono (show k0 ≤ k by omega) hk0)⟩]; rfl
    refine .self m (fun k hk => ?_) nokill
    obtain ⟨x, _, _, h2, h3, h4⟩ := at' k hk
    unfold PcOk at h4; rw [h3, hpc, h2] at h4
    refine ⟨h4, ?_⟩
    rcases kinv k .self hk (by rw [hpc]; nofun) h4 with h | h
    · exact absurd (self_kill (r.reach k) (killedH_mem h h4)) (nokill k)
    · exact h
  | waiting w =>
    refine .worker m w (fun k hk => ?_) (fun k0 e hk0 => ?_)
    · obtain ⟨x, _, _, h2, h3, h4⟩ := at' k hk
      unfold PcOk at h4; rw [h3, hpc, h2] at h4
      exact ⟨h4, kinv k (.obj w) hk (by rw [hpc]; nofun) h4⟩
    · refine never (.waitRet G.gid) (fun _ => .gWaitRet G.gid) (max m k0) (Nat.le_max_left _ _) (fun op h => ?_)
        (fun k hk => ⟨rfl, ?_⟩)
      · cases op <;> simp only [Op.kind, Option.some.injEq, reduceCtorEq, Kind.waitRet.injEq] at h
        rw [h]; rfl
      · obtain ⟨x, _, h1, _, h3, _⟩ := at' k (by omega)
        have := ((reach_hinv (r.reach k)).2.fin w e).2 (r.hist_mono (show k0 ≤ k by omega) hk0)
        simp only [step, h1, h3.trans hpc, this]; rfl
  | sendStopped e =>
    let y : Nat → Op := fun k => .armStopped G.gid 0 (Classical.choose (exists_validVals (r.st k).dependents G.name)) none
    refine (never (.stopped G.gid) y m (Nat.le_refl _) (fun op h => ?_) (fun k hk => ⟨rfl, ?_⟩)).elim
    · cases op <;> simp only [Op.kind, Option.some.injEq, reduceCtorEq, Kind.stopped.injEq] at h
      rw [h]; rfl
    · obtain ⟨x, _, h1, h2, h3, _⟩ := at' k hk
      have hv := Classical.choose_spec (exists_validVals (r.st k).dependents G.name)
      have hcond : ¬ ((r.st k).tomb.dead = true ∨ validVals (r.st k).dependents x.name
          (Classical.choose (exists_validVals (r.st k).dependents G.name)) = false) := by
        rw [dead k, h2, hv]; simp
      simp only [y, step, h1, h3.trans hpc, Option.map_some, Option.getD_some]
      rw [if_neg hcond]; rfl

-- the first attempt of manifold 1 ends
example : Demo.up.Fair ∧ Demo.up.DelaysEnd ∧ openH (Demo.up.hist 3) 1 = some 1 ∧ openH (Demo.up.hist 7) 1 = some 2 :=
  ⟨Demo.up_fair.1, Demo.up_fair.2, by decide +kernel, by decide +kernel⟩

-- the second stays, its worker not finishing
example : openH (Demo.up.hist 7) 1 = some 2 ∧ ∀ k now raw f t l, .ended 1 2 now raw f t l ∉ Demo.up.hist k := by
  refine ⟨by decide +kernel, fun k now raw f t l h => ?_⟩
  have h1 := Demo.up.hist_mono (Nat.le_max_left k Demo.opsUp.length) h
  have h2 : (Demo.up.hist (max k Demo.opsUp.length)).any (fun | .ended 1 2 _ _ _ _ _ => true | _ => false) = true :=
    List.any_eq_true.2 ⟨_, h1, rfl⟩
  have h3 := Demo.mkRun_stays (cfg := Demo.cfg) (ops := Demo.opsUp) (x := .armReport none) (h1 := by decide +kernel)
    (hx := Demo.idles_report (by decide +kernel) (by decide +kernel) (by decide +kernel))
    (F := fun h => h.any (fun | .ended 1 2 _ _ _ _ _ => true | _ => false)) (fun _ => rfl)
    (Nat.le_max_right k Demo.opsUp.length)
  have h4 := h3.symm.trans h2
  revert h4
  decide +kernel

-- the engine is its own worker
example : Demo.self.Fair ∧ Demo.self.DelaysEnd ∧ openH (Demo.self.hist 3) 0 = some 0 ∧ .exit ∈ Demo.self.hist 7 :=
  ⟨Demo.self_fair.1, Demo.self_fair.2, by decide +kernel, by decide +kernel⟩

/-- C80: every attempt that has been told to stop ends, or the engine exits, if every Start func returns whose context has
been cancelled and every worker that has been Kill()ed finishes. -/
theorem C80_told_ends {r : Run cfg} (hf : r.Fair) (hd : r.DelaysEnd) (hs : StartsHeed r.hist) (hw : KilledFinish r.hist)
    {n : Nat} {a : Name} {g : Nat} (ho : openH (r.hist n) a = some g) (hc : .cancelled g ∈ r.hist n) :
    ∃ k, .exit ∈ r.hist k ∨ ∃ now raw f t l, .ended a g now raw f t l ∈ r.hist k := by
  rcases C80_attempts_end hf hd ho with ⟨k, h⟩ | ⟨hop, h⟩
  · exact ⟨k, Or.inr h⟩
  · cases h with
    | start m h =>
      have h1 := hop (max n m) (Nat.le_max_left _ _)
      obtain ⟨j, hj, hn⟩ := hs _ a g h1 (h _ (Nat.le_max_right _ _)) (r.hist_mono (Nat.le_max_left _ _) hc)
      exact absurd ⟨hop j (by omega), h j (by omega)⟩ hn
    | worker m w h hf =>
      obtain ⟨h1, h2⟩ := h (max n m) (Nat.le_max_right _ _)
      rcases h2 with h2 | ⟨_, h2⟩
      · obtain ⟨j, e, hj⟩ := hw _ w (killedH_mem h2 h1)
        exact absurd hj (hf j e)
      · exact absurd (r.hist_mono (Nat.le_max_left _ _) hc) h2
    | self m h _ => exact absurd (r.hist_mono (Nat.le_max_left _ _) hc) (h (max n m) (Nat.le_max_right _ _)).2.2
    | gone m _ h => exact ⟨m, Or.inl h⟩

example : Demo.up.Fair ∧ Demo.up.DelaysEnd ∧ StartsHeed Demo.up.hist ∧ KilledFinish Demo.up.hist ∧
    openH (Demo.up.hist 5) 1 = some 1 ∧ .cancelled 1 ∈ Demo.up.hist 5 :=
  ⟨Demo.up_fair.1, Demo.up_fair.2,
    Demo.starts_heed (Demo.mkRun_starts (cfg := Demo.cfg) (ops := Demo.opsUp) (by decide +kernel)),
    Demo.mkRun_killed (cfg := Demo.cfg) (ops := Demo.opsUp) rfl (by decide +kernel), by decide +kernel, by decide +kernel⟩

/-- C80: when the environment has become calm, a live engine settles for good, if every Start func returns and every worker
that has been Kill()ed finishes. -/
theorem C80_settles {r : Run cfg} (hf : r.Fair) (hd : r.DelaysEnd) (hs : StartsReturn r.hist) (hw : KilledFinish r.hist)
    (hk : ∀ k, .kill ∉ r.hist k) {n : Nat} (hc : ∀ k, n ≤ k → Calm cfg (r.hist k) (r.op k)) :
    ∃ m, ∀ k, m ≤ k → Settled (r.hist k) := by
  obtain ⟨c, hw0⟩ := exists_weight (r.reach n)
  have hwt : ∀ k, n ≤ k → Weight c (r.st k) :=
    kept hw0 (fun k hk1 h => (calm_step (r.reach k) h (hc k hk1) (r.next k) (hk (k + 1))).1)
  obtain ⟨m, hm, hq⟩ := Run.last (r := r) (f := fun k => mu cfg c (r.st k)) (n := n)
    (fun k hk1 => (calm_step (r.reach k) (hwt k hk1) (hc k hk1) (r.next k) (hk (k + 1))).2)
  have hg : ∀ k, m ≤ k → (r.st k).gs = (r.st m).gs := stays (fun k hk1 => quiet_gs (r.next k) (hq k hk1)
    (Or.inr (fun a b d e h => by have := hc k (by omega); rw [h] at this; exact this)))
  obtain ⟨m', hm', hno⟩ := Run.rests (P := fun _ => True) (fun x _ h => by
    cases hx : x.isTimer with
    | false => exact hf x hx h
    | true => cases x <;> first | exact hd _ h | cases hx) hq hg
  have hx : ∀ k, .exit ∉ r.hist k := fun k h => by
    obtain ⟨co, i⟩ := reach_hinv (r.reach k)
    exact hk k (i.dying.1 (co.dead (i.dead.2 h)).1)
  refine ⟨m', fun k hk1 => Classical.byContradiction (fun hns => ?_)⟩
  have there : ∀ g ∈ (r.st k).gs, ∀ j, k ≤ j → g ∈ (r.st j).gs := fun g hg1 j hj => by
    rw [hg j (by omega), ← hg k (by omega)]; exact hg1
  rcases C65_progress (r.reach k) (hk k) hns with ⟨op, s', h1, _, h2⟩ | h
  · obtain ⟨x, h3, _⟩ := kind_of_own h1
    exact hno k hk1 x trivial ⟨op, s', h3, h2⟩
  · rcases h with ⟨a, g, h1, h2⟩ | ⟨a, g, w, h1, h2, h3, h4⟩
    · obtain ⟨G, hG, rfl, rfl⟩ := (reach_hinv (r.reach k)).2.openN a g h1
      have hp : phaseH (r.st k).hist G.name = .inStart := h2
      rcases rest_pc (r.reach k) (hx k) hG (fun x _ => hno k hk1 x trivial) with h | h | h | ⟨w, h, _⟩
      · have := (reach_hinv (r.reach k)).2.pc G hG
        unfold PcOk at this; rw [h.1] at this; rw [hp] at this; cases this
      · exact Run.leaves_start (there G hG) (hs k G.name G.gid h1 h2) h
      · have := (reach_hinv (r.reach k)).2.pc G hG
        unfold PcOk at this; rw [h.1] at this; rw [hp] at this; cases this
      · have := (phase_waiting (r.reach k) hG h).2
        rw [hp] at this; cases this
    · obtain ⟨G, hG, rfl, rfl⟩ := (reach_hinv (r.reach k)).2.openN a g h1
      have hp : phaseH (r.st k).hist G.name = .ok (.obj w) := h2
      obtain ⟨j, e, hj⟩ := hw k w (killedH_mem h3 h2)
      have hj' := r.hist_mono (Nat.le_max_right k j) hj
      rcases rest_pc (r.reach k) (hx k) hG (fun x _ => hno k hk1 x trivial) with h | h | h | ⟨w', h, _⟩
      · have := (reach_hinv (r.reach k)).2.pc G hG
        unfold PcOk at this; rw [h.1] at this; rw [hp] at this; cases this
      · have := (phase_starting (r.reach k) hG h).2
        rw [hp] at this; cases this
      · have := (reach_hinv (r.reach k)).2.pc G hG
        unfold PcOk at this; rw [h.1] at this; rw [hp] at this; cases this
      · have := (phase_waiting (r.reach k) hG h).2
        rw [hp] at this; cases this
        rcases rest_pc (r.reach (max k j)) (hx _) (there G hG _ (Nat.le_max_left _ _))
          (fun x _ => hno _ (Nat.le_trans hk1 (Nat.le_max_left _ _)) x trivial) with h' | h' | h' | ⟨w', h', h''⟩
        · rw [h] at h'; cases h'.1
        · rw [h] at h'; cases h'
        · rw [h] at h'; cases h'.1
        · rw [h] at h'; cases h'
          exact h'' e hj'

namespace Demo

theorem up_live (k : Nat) : .kill ∉ up.hist k := by
  intro h
  have h1 := up.hist_mono (Nat.le_max_left k opsUp.length) h
  have h3 := mkRun_stays (cfg := Demo.cfg) (ops := opsUp) (x := .armReport none) (h1 := by decide +kernel)
    (hx := idles_report (by decide +kernel) (by decide +kernel) (by decide +kernel))
    (F := fun h => h.any (fun | .kill => true | _ => false)) (fun _ => rfl) (Nat.le_max_right k opsUp.length)
  have h4 := h3.symm.trans (List.any_eq_true.2 ⟨_, h1, rfl⟩)
  revert h4
  decide +kernel

theorem up_calm (k : Nat) (hk : 2 ≤ k) : Calm Demo.cfg (up.hist k) (up.op k) := by
  by_cases h : k < opsUp.length
  · refine calmB_spec ?_
    have : ∀ k, k < opsUp.length → 2 ≤ k → calmB (up.hist k) (up.op k) = true := by decide +kernel
    exact this k h hk
  · obtain ⟨d, rfl⟩ : ∃ d, k = opsUp.length + d := ⟨k - opsUp.length, by omega⟩
    rw [show up.op (opsUp.length + d) = .armReport none from runOp_later _ _ _]
    rfl

theorem up_needs (k : Nat) : AtEvery NeedsInputs (up.hist k) := by
  have h3 := mkRun_stays (cfg := Demo.cfg) (ops := opsUp) (x := .armReport none) (h1 := by decide +kernel)
    (hx := idles_report (by decide +kernel) (by decide +kernel) (by decide +kernel))
    (F := everyB) (fun _ => rfl) (Nat.le_max_right k opsUp.length)
  have h4 : AtEvery NeedsInputs (up.hist (max k opsUp.length)) := everyB_spec (h3.trans (by decide +kernel))
  obtain ⟨d, hd⟩ := up.hist_append (Nat.le_max_left k opsUp.length)
  rw [hd] at h4
  exact atEvery_drop h4

end Demo

-- at first the engine has not settled
example : Demo.up.Fair ∧ Demo.up.DelaysEnd ∧ StartsReturn Demo.up.hist ∧ KilledFinish Demo.up.hist ∧
    (∀ k, .kill ∉ Demo.up.hist k) ∧ (∀ k, 2 ≤ k → Calm Demo.cfg (Demo.up.hist k) (Demo.up.op k)) ∧ ¬ Settled (Demo.up.hist 2) :=
  ⟨Demo.up_fair.1, Demo.up_fair.2, Demo.mkRun_starts (cfg := Demo.cfg) (ops := Demo.opsUp) (by decide +kernel),
    Demo.mkRun_killed (cfg := Demo.cfg) (ops := Demo.opsUp) rfl (by decide +kernel), Demo.up_live, Demo.up_calm,
    fun h => by
      obtain ⟨_, w, hw, _⟩ := h 0 0 (by decide +kernel)
      have : workerH (Demo.up.hist 2) 0 = none := by decide +kernel
      rw [this] at hw; cases hw⟩

/-- C80: in the end the manifolds that have a worker are those whose inputs, direct and indirect, are all installed. -/
theorem C80_converges {r : Run cfg} (hf : r.Fair) (hd : r.DelaysEnd) (hs : StartsReturn r.hist) (hw : KilledFinish r.hist)
    (hk : ∀ k, .kill ∉ r.hist k) {n : Nat} (hc : ∀ k, n ≤ k → Calm cfg (r.hist k) (r.op k))
    (hn : ∀ k, AtEvery NeedsInputs (r.hist k)) : ∃ m, ∀ k, m ≤ k → ∀ a, workerH (r.hist k) a ≠ none ↔
      manH (r.hist k) a ≠ none ∧ ∀ i, TransGen (Declares (r.hist k)) a i → manH (r.hist k) i ≠ none := by
  obtain ⟨m, hm⟩ := C80_settles hf hd hs hw hk hc
  exact ⟨m, fun k hk1 a => C65_settled (r.reach k) (hk k) (hm k hk1) (hn k) a⟩

example : (∀ k, AtEvery NeedsInputs (Demo.up.hist k)) ∧ workerH (Demo.up.hist 2) 1 = none ∧ manH (Demo.up.hist 2) 1 ≠ none :=
  ⟨Demo.up_needs, by decide +kernel, by decide +kernel⟩

end Verif.Props
