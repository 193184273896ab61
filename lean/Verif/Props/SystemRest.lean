import Verif.Props.SystemKept

/-!
# C111: an engine of a program comes to rest

In a program as in C106, in which delays end and Start funcs return, an engine whose environment is calm from some time on comes to rest,
whatever goes on elsewhere: the manifolds that have a worker are in the end those whose inputs, direct and indirect, are all installed.
-/

namespace Verif.Props
open Verif.System Verif.Spec Verif.Schedule

section
open Verif.Engine
variable {cfg : Config}

/-- A worker finishes that the engine has never been handed. -/
def Stranger (cfg : Config) (a : Fine) (op : FOp) (b : Fine) : Prop :=
  Filler cfg a op b ∧ ∃ w e, op = .env (.finish w e) ∧ ∀ n, phaseH a.s.hist n ≠ .ok (.obj w)

theorem strangers {a b : Fine} (h : Fills (Stranger cfg) a b) : Fills (Filler cfg) a b := by
  induction h with
  | nil => exact .nil
  | snoc _ hf ih => exact .snoc ih hf.1

theorem phase_startOk : ∀ {h : List Ev} {n : Name} {w : WRef}, phaseH h n = .ok w → ∃ g, .startOk n g w ∈ h
  | [], n, w, h => by cases h
  | e :: h, n, w, hp => by
    have ih := @phase_startOk h n w
    cases e with
    | startOk m g v =>
      by_cases hm : n = m
      · simp only [phaseH, hm, if_true] at hp
        injection hp with hp; subst hp; subst hm
        exact ⟨g, by simp⟩
      · simp only [phaseH, hm, if_false] at hp
        obtain ⟨g', hg⟩ := ih hp
        exact ⟨g', by simp [hg]⟩
    | _ =>
      simp only [phaseH] at hp
      have hp : phaseH h n = .ok w := by
        first
          | exact hp
          | (split at hp
             · cases hp
             · exact hp)
      obtain ⟨g', hg⟩ := ih hp
      exact ⟨g', by simp [hg]⟩

theorem Stranger.exists {a : Fine} (hr : FReach cfg a) : ∃ op b, Stranger cfg a op b := by
  have : ∀ h : List Ev, ∃ m, ∀ w, m ≤ w → (∀ e, .finished w e ∉ h) ∧ ∀ n g, .startOk n g (.obj w) ∉ h := by
    intro h
    induction h with
    | nil => exact ⟨0, fun _ _ => ⟨nofun, nofun⟩⟩
    | cons x h ih =>
      obtain ⟨m, hm⟩ := ih
      cases x with
      | finished v y =>
        refine ⟨max m (v + 1), fun w hw => ⟨fun e he => ?_, fun n g he => ?_⟩⟩
        · rcases List.mem_cons.1 he with h | h
          · injection h; omega
          · exact (hm w (by omega)).1 e h
        · rcases List.mem_cons.1 he with h | h
          · cases h
          · exact (hm w (by omega)).2 n g h
      | startOk n0 g0 v0 =>
        refine ⟨max m ((match v0 with | .obj v => v | _ => 0) + 1), fun w hw => ⟨fun e he => ?_, fun n g he => ?_⟩⟩
        · rcases List.mem_cons.1 he with h | h
          · cases h
          · exact (hm w (by omega)).1 e h
        · rcases List.mem_cons.1 he with h | h
          · injection h with _ _ h; subst h; simp at hw
          · exact (hm w (by omega)).2 n g h
      | _ =>
        refine ⟨m, fun w hw => ⟨fun e he => ?_, fun n g he => ?_⟩⟩
        · rcases List.mem_cons.1 he with h | h
          · cases h
          · exact (hm w hw).1 e h
        · rcases List.mem_cons.1 he with h | h
          · cases h
          · exact (hm w hw).2 n g h
  obtain ⟨m, hm⟩ := this a.s.hist
  obtain ⟨h1, h2⟩ := hm m (Nat.le_refl _)
  obtain ⟨_, i⟩ := freach_hinv hr
  have hno : ∀ n, phaseH a.s.hist n ≠ .ok (.obj m) := fun n hp => by
    obtain ⟨g, hg⟩ := phase_startOk hp
    exact h2 n g hg
  have hf : a.s.finished.get? m = none := by
    cases h : a.s.finished.get? m with
    | none => rfl
    | some x => exact absurd ((i.fin _ x).1 h) (h1 x)
  refine ⟨_, { a with s := { a.s with finished := a.s.finished.set m none }.log (.finished m none) }, ⟨?_, m, none, rfl, fun g hg hp => ?_⟩,
    m, none, rfl, hno⟩
  · simp only [fstep, Op.isEnv, if_true, Engine.step, hf, Option.isNone_none, Option.map_some]
  · have := i.pc g hg
    unfold PcOk at this
    rw [hp] at this
    exact hno _ this

theorem fills_todo {a b : Fine} (h : Fills (Filler cfg) a b) : b.todo = a.todo := by
  induction h with
  | nil => rfl
  | snoc _ hf ih =>
    obtain ⟨w, e, _, rfl⟩ := hf.form
    exact ih

theorem fills_gs {a b : Fine} (h : Fills (Filler cfg) a b) : b.s.gs = a.s.gs := by
  induction h with
  | nil => rfl
  | snoc _ hf ih =>
    obtain ⟨w, e, _, rfl⟩ := hf.form
    exact ih

theorem worker_fills {fs h : List Ev} (hf : ∀ e ∈ fs, ∃ w x, e = .finished w x) (n : Name) : workerH (fs ++ h) n = workerH h n := by
  induction fs with
  | nil => rfl
  | cons x fs ih =>
    obtain ⟨w, e, rfl⟩ := hf x (.head _)
    exact ih (fun e he => hf e (.tail _ he))

/-- An engine whose environment is calm comes to rest, also if there are pauses between its steps. -/
theorem pauses_rest {q : Pauses cfg} (hf : q.Fair FOp.kind) (hs : StartsReturn (pausesHist q)) (hw : KilledFinish (pausesHist q))
    (hk : ∀ k, .kill ∉ pausesHist q k) {n : Nat} (hc : ∀ k op, n ≤ k → q.op k = some op → FCalm cfg (pausesHist q k) op) :
    ∃ m, ∀ k, m ≤ k → Verif.Props.Settled (pausesHist q k) ∧ Verif.Props.Quiet (q.st k) ∧ (q.st k).s.gs = (q.st m).s.gs := by
  have reach : ∀ k, FReach cfg (q.st k) := q.inv (P := FReach cfg) .init (fun _ _ _ h hs => .step _ h hs)
  obtain ⟨r, h1, h2, h3, h4⟩ := q.unstutter_ops (F := Stranger cfg) (P := FReach cfg) hf reach (fun _ _ _ h hs => .step _ h hs.1.1)
    (fun _ _ _ h => h.1.1) (fun _ h => Stranger.exists h) (fun _ _ _ x _ h ⟨op, f, hk, hc⟩ => by
      obtain ⟨op', f', hk', hc'⟩ := h.1.can (x := x) ⟨op, f, hk, hc⟩
      exact ⟨op', f', hk', hc'⟩)
  let R : FineRun cfg := ⟨r.st, r.op, r.start, r.next⟩
  have mono : ∀ {i j : Nat}, i ≤ j → ∀ e, e ∈ pausesHist q i → e ∈ pausesHist q j := fun {i j} hij e he => by
    obtain ⟨es, h⟩ := epauses_grow (q := q) hij
    rw [h]; exact List.mem_append_right _ he
  have hfair : R.Fair := fun x _ hi => h1 x hi
  have hdel : R.DelaysEnd := fun g hi => h1 _ hi
  have hstarts : StartsReturn R.hist := fun n a g ho hp => by
    refine Classical.byContradiction (fun hno => ?_)
    have hno : ∀ j, n ≤ j → openH (R.hist j) a = some g ∧ phaseH (R.hist j) a = .inStart := fun j hj =>
      Classical.byContradiction (fun h => hno ⟨j, hj, h⟩)
    obtain ⟨b, hb⟩ := h3 n
    have still : ∀ j, b ≤ j → openH (pausesHist q j) a = some g ∧ phaseH (pausesHist q j) a = .inStart := fun j hj => by
      obtain ⟨m, hm, hfl⟩ := hb j hj
      obtain ⟨f1, f2, _⟩ := fills_same (strangers hfl)
      obtain ⟨g1, g2⟩ := hno m hm
      exact ⟨(f1 a).symm.trans g1, (f2 a).symm.trans g2⟩
    obtain ⟨g1, g2⟩ := still b (Nat.le_refl _)
    obtain ⟨j, hj, hno'⟩ := hs b a g g1 g2
    exact hno' (still j hj)
  have hkilled : KilledFinish R.hist := fun n w hkw => by
    obtain ⟨b, hb⟩ := h3 n
    obtain ⟨m, hm, hfl⟩ := hb b (Nat.le_refl _)
    have hkw' := ((fills_same (strangers hfl)).2.2.2 _ (R.hist_mono hm hkw)).resolve_right nofun
    obtain ⟨j, e, hj⟩ := hw b w hkw'
    obtain ⟨m', _, hfl'⟩ := hb (max b j) (by omega)
    exact ⟨m', e, (fills_same (strangers hfl')).2.2.1 _ (mono (by omega) _ hj)⟩
  have hlive : ∀ k, .kill ∉ R.hist k := fun k h => by
    obtain ⟨b, hb⟩ := h3 k
    obtain ⟨m, hm, hfl⟩ := hb b (Nat.le_refl _)
    exact hk b (((fills_same (strangers hfl)).2.2.2 _ (R.hist_mono hm h)).resolve_right nofun)
  obtain ⟨n', hn'⟩ := h4 n
  have hcalm : ∀ k, n' ≤ k → FCalm cfg (R.hist k) (R.op k) := fun k hk => by
    rcases hn' k hk with ⟨j, hj, ho, hst⟩ | ⟨_, w, e, ho, hno⟩
    · have := hc j _ hj ho
      rw [show R.hist k = pausesHist q j from congrArg (fun f : Fine => f.s.hist) hst]
      exact this
    · rw [show R.op k = .env (.finish w e) from ho]
      exact fun a g _ hp => absurd hp (hno a)
  obtain ⟨m, hm⟩ := FineRun.comes_to_rest (r := R) hfair hdel hstarts hkilled hlive hcalm
  obtain ⟨b, hb⟩ := h3 m
  refine ⟨b, fun k hk => ?_⟩
  obtain ⟨m', hm', hfl⟩ := hb k hk
  have hfl := strangers hfl
  obtain ⟨g1, g2, g3⟩ := hm m' hm'
  have hgs : ∀ j, b ≤ j → (q.st j).s.gs = (r.st m).s.gs := fun j hj => by
    obtain ⟨m1, hm1, hfl1⟩ := hb j hj
    rw [← fills_gs (strangers hfl1)]
    exact (hm m1 hm1).2.2
  obtain ⟨f1, f2, f3, _⟩ := fills_same hfl
  obtain ⟨fs, f5, f6⟩ := fills_hist hfl
  refine ⟨fun a g ho => ?_, fun t ht => g2 t (by show t ∈ (r.st m').todo; rw [fills_todo hfl]; exact ht), (hgs k hk).trans (hgs b (Nat.le_refl _)).symm⟩
  obtain ⟨u1, w, u2, u3⟩ := g1 a g ((f1 a).trans ho)
  refine ⟨fun h => u1 (f3 _ h), w, ?_, fun x hx e he => u3 x hx e (f3 _ he)⟩
  rw [← u2]
  show workerH (q.st k).s.hist a = workerH (r.st m').s.hist a
  rw [f5, worker_fills f6]

end

variable {I : Type} [DecidableEq I] {W : Wiring I}

/-- No delay of an engine goes on for ever. -/
def SysRun.DelaysEnd (r : SysRun W) : Prop := ∀ i g,
  InfOften (fun k => ∃ d, ((r.st k i).step (.engine (.env (.gTimer g d)))).isSome = true) →
    InfOften (fun k => ∃ d, r.act k = some (i, .engine (.env (.gTimer g d))))

/-- From time `n` on the environment of engine `i` is calm: nobody Installs anything, Start funcs return workers that run, and unless they
have been told to stop fail only with errors that are not retried at once; workers end only after they have been told to stop. -/
def SysRun.CalmFrom (r : SysRun W) (i : I) (cfg : Engine.Config) (n : Nat) : Prop :=
  ∀ k op, n ≤ k → r.act k = some (i, .engine op) → FCalm cfg (r.st k i).ehist op

theorem timer_kind {op : Engine.FOp} {x : Engine.FKind} (h : op.kind = some x) (hx : x.isTimer = true) :
    ∃ g d, op = .env (.gTimer g d) ∧ x = .of (.timer g) := by
  cases x with
  | work => cases hx
  | of y =>
    cases y <;> simp only [Engine.FKind.isTimer, Engine.Kind.isTimer, reduceCtorEq] at hx
    cases op with
    | env op => cases op <;> simp_all [Engine.FOp.kind, Engine.Op.kind]
    | _ => simp [Engine.FOp.kind] at h

/-- The part of an engine, with its delays; it is as somebody asked for, or a Kill. -/
theorem engine_part_all (r : SysRun W) (hf : r.Fair) (hd : r.DelaysEnd) {i : I} {cfg : Engine.Config} (hi : W.kind i = .engine cfg) :
    ∃ q : Engine.Pauses cfg, q.Fair Engine.FOp.kind ∧ (∀ k, r.st k i = .engine cfg (q.st k)) ∧
      ∀ k op, q.op k = some op → r.act k = some (i, .engine op) ∨ op = .env .kill := by
  have ex : ∀ k, ∃ s, r.st k i = .engine cfg s := fun k => by
    have := reach_of (r.reach k) i
    rw [hi] at this
    generalize r.st k i = c at this
    cases this; exact ⟨_, rfl⟩
  choose s hs using ex
  have ex : ∀ k, ∃ o : Option Engine.FOp, (∀ op, r.act k = some (i, .engine op) → o = some op) ∧
      (∀ op, o = some op → r.act k = some (i, .engine op) ∨ op = .env .kill) ∧
      ((∃ op, o = some op ∧ Engine.ftrans cfg (s k) op (s (k + 1))) ∨ (o = none ∧ s (k + 1) = s k)) := fun k => by
    rcases r.next k with ⟨j, op, ha, h⟩ | ⟨ha, h⟩
    · obtain ⟨c, hc, hS, _⟩ := wstep_inv h
      by_cases hij : i = j
      · subst hij
        have hc' : (r.st k i).step op = some (r.st (k + 1) i) := by rw [hS, after_self]; exact hc
        rw [hs k, hs (k + 1)] at hc'
        cases op <;> simp only [Comp.step, reduceCtorEq] at hc'
        rename_i op
        obtain ⟨s', h2, h3⟩ := Option.map_eq_some_iff.1 hc'
        injection h3 with _ h3; subst h3
        refine ⟨some op, fun op' h => ?_, fun op' h => ?_, .inl ⟨op, rfl, h2⟩⟩
        · rw [ha] at h; injection h with h; injection h with _ h; injection h with h; rw [h]
        · injection h with h; subst h; exact .inl ha
      · have hno : ∀ op', r.act k ≠ some (i, .engine op') := fun op' h => by
          rw [ha] at h; injection h with h; injection h with h; exact hij h.symm
        have hst : r.st (k + 1) i = r.st k i ∨ r.st (k + 1) i = (r.st k i).kill := by
          rw [hS]; unfold Wiring.after
          rw [if_neg hij]
          split
          · exact .inr rfl
          · exact .inl rfl
        have still : r.st (k + 1) i = r.st k i → s (k + 1) = s k := fun e => by
          rw [hs k, hs (k + 1)] at e
          injection e
        rcases hst with e | e
        · exact ⟨none, fun op' h => absurd h (hno op'), nofun, .inr ⟨rfl, still e⟩⟩
        · unfold Comp.kill at e
          cases hk : (r.st k i).step (r.st k i).killOp with
          | none => rw [hk] at e; exact ⟨none, fun op' h => absurd h (hno op'), nofun, .inr ⟨rfl, still e⟩⟩
          | some c' =>
            rw [hk] at e
            have e : r.st (k + 1) i = c' := e
            subst e
            rw [hs k, hs (k + 1)] at hk
            simp only [Comp.killOp, Comp.step] at hk
            obtain ⟨s', h2, h3⟩ := Option.map_eq_some_iff.1 hk
            injection h3 with _ h3; subst h3
            exact ⟨some (.env .kill), fun op' h => absurd h (hno op'), fun op' h => by injection h with h; exact .inr h.symm, .inl ⟨_, rfl, h2⟩⟩
    · refine ⟨none, fun op h => (by rw [ha] at h; cases h), nofun, .inr ⟨rfl, ?_⟩⟩
      have e : r.st (k + 1) i = r.st k i := by rw [h]
      rw [hs k, hs (k + 1)] at e
      injection e
  choose o ho using ex
  refine ⟨⟨s, o, ?_, fun k => (ho k).2.2⟩, fun x hx => ?_, hs, fun k => (ho k).2.1⟩
  · have h0 := hs 0
    rw [r.start, Wiring.new, hi] at h0
    injection h0 with _ h0; exact h0.symm
  · cases ht : x.isTimer with
    | false =>
      refine (hf i (.engine x) (hx.mono (fun k ⟨op, s', h1, h2⟩ => ?_))).mono (fun k ⟨op, h1, h2⟩ => ?_)
      · refine ⟨.engine op, .engine cfg s', by simp [skind, Engine.ekind_of h1 ht], ?_⟩
        rw [hs k]
        simp only [Comp.step]
        rw [show Engine.fstep cfg (s k) op = some s' from h2]; rfl
      · cases op <;> simp only [skind, Option.map_eq_some_iff, reduceCtorEq, and_false, exists_false] at h2
        obtain ⟨y, h2, h3⟩ := h2
        injection h3 with h3; subst h3
        show (o k).bind _ = _
        rw [(ho k).1 _ h1]
        exact (Engine.ekind_some.1 h2).1
    | true =>
      obtain ⟨_, _, op0, _, h0, _⟩ := hx 0
      obtain ⟨g, _, _, rfl⟩ := timer_kind h0 ht
      refine (hd i g (hx.mono (fun k ⟨op, s', h1, h2⟩ => ?_))).mono (fun k ⟨d, h1⟩ => ?_)
      · obtain ⟨g', d, rfl, h3⟩ := timer_kind h1 ht
        injection h3 with h3; injection h3 with h3; subst h3
        refine ⟨d, ?_⟩
        rw [hs k]
        simp only [Comp.step]
        rw [show Engine.fstep cfg (s k) _ = some s' from h2]; rfl
      · show (o k).bind _ = _
        rw [(ho k).1 _ h1]; rfl

/-- The engine is at rest from time `m` on. -/
theorem rest {r : SysRun W} (hf : r.Fair) (hd : r.DelaysEnd) (hw : r.WaitsReturn) (hu : r.Users)
    (wf : WellFounded (fun c i => ∃ k w, w ∈ (r.st k i).kills ∧ W.child i w = c)) {i : I} {cfg : Engine.Config} (hi : W.kind i = .engine cfg)
    (hs : StartsReturn (fun k => (r.st k i).ehist)) (hk : ∀ k, .kill ∉ (r.st k i).ehist) {n : Nat} (hc : r.CalmFrom i cfg n) :
    ∃ q : Engine.Pauses cfg, (∀ k, r.st k i = .engine cfg (q.st k)) ∧ ∃ m, ∀ k, m ≤ k → Verif.Props.Settled (r.st k i).ehist ∧ Verif.Props.Quiet (q.st k) ∧
      (q.st k).s.gs = (q.st m).s.gs := by
  obtain ⟨q, h1, h2, h3⟩ := engine_part_all r hf hd hi
  have hh : ∀ k, (r.st k i).ehist = Engine.pausesHist q k := fun k => by rw [h2]; rfl
  refine ⟨q, h2, ?_⟩
  simp only [hh] at hs hk ⊢
  have reach : ∀ k, Engine.FReach cfg (q.st k) := q.inv (P := Engine.FReach cfg) .init (fun _ _ _ h hs => .step _ h hs)
  refine pauses_rest (q := q) h1 hs (fun n w hkw => ?_) hk (n := n) (fun k op hn ho => ?_)
  · have hkw : w ∈ (r.st n i).kills := by rw [h2]; exact List.mem_filterMap.2 ⟨_, hkw, rfl⟩
    obtain ⟨j, hj⟩ := C106_stops hf hw hu wf _ (told (r.reach n) hkw)
    obtain ⟨j', e, hj'⟩ := hw i w (max n j) (r.kills_stay (Nat.le_max_left n j) hkw) (r.ended_stays (Nat.le_max_right n j) hj)
    rw [h2] at hj'
    exact ⟨j', e, hj'⟩
  · rcases h3 k op ho with ha | rfl
    · rw [← hh]; exact hc k op hn ha
    · exfalso
      rcases q.next k with ⟨a, ha, ht⟩ | ⟨ha, _⟩
      · rw [ho] at ha; injection ha with ha; subst ha
        refine hk (k + 1) ?_
        show _ ∈ (q.st (k + 1)).s.hist
        have ht : Engine.fstep cfg (q.st k) (.env .kill) = some (q.st (k + 1)) := ht
        simp only [Engine.fstep, Engine.Op.isEnv, if_true, Engine.step, Option.map_some, Option.some.injEq] at ht
        rw [← ht]
        simp [Engine.State.killNil, Engine.State.log]
      · rw [ho] at ha; cases ha

/-- C111: an engine of a program whose environment is calm comes to rest: no attempt begins or ends any more, and every attempt has a worker
that has not been told to stop, has not ended, and stays the same. -/
theorem C111_settles {r : SysRun W} (hf : r.Fair) (hd : r.DelaysEnd) (hw : r.WaitsAll) (hu : r.Users)
    (wf : WellFounded (fun c i => ∃ k w, w ∈ (r.st k i).kills ∧ W.child i w = c)) {i : I} {cfg : Engine.Config} (hi : W.kind i = .engine cfg)
    (hs : StartsReturn (fun k => (r.st k i).ehist)) (hk : ∀ k, .kill ∉ (r.st k i).ehist) {n : Nat} (hc : r.CalmFrom i cfg n) :
    ∃ m, ∀ k, m ≤ k → (∀ a, openH (r.st k i).ehist a = openH (r.st m i).ehist a) ∧
      ∀ a g, openH (r.st k i).ehist a = some g → .cancelled g ∉ (r.st k i).ehist ∧ workerH (r.st k i).ehist a = workerH (r.st m i).ehist a ∧
        ∃ w, workerH (r.st k i).ehist a = some w ∧ ∀ x, w = .obj x → ¬ EndedW (r.st k (W.child i x)) := by
  obtain ⟨q, h2, m, h⟩ := rest hf hd hw.killed hu wf hi hs hk hc
  have hh : ∀ k, (r.st k i).ehist = (q.st k).s.hist := fun k => by rw [h2]; rfl
  have reach : ∀ k, Engine.FReach cfg (q.st k) := q.inv (P := Engine.FReach cfg) .init (fun _ _ _ h hs => .step _ h hs)
  simp only [hh] at h ⊢
  have hopen : ∀ k, m ≤ k → ∀ a, openH (q.st k).s.hist a = openH (q.st m).s.hist a := fun k hk a => by
    obtain ⟨_, u⟩ := Engine.freach_hinv (reach k)
    obtain ⟨_, v⟩ := Engine.freach_hinv (reach m)
    cases ho : openH (q.st m).s.hist a with
    | some g =>
      obtain ⟨G, hG, rfl, rfl⟩ := v.openN a g ho
      exact u.openG G (by rw [(h k hk).2.2]; exact hG)
    | none =>
      cases ho' : openH (q.st k).s.hist a with
      | none => rfl
      | some g =>
        obtain ⟨G, hG, rfl, rfl⟩ := u.openN a g ho'
        rw [(h k hk).2.2] at hG
        rw [v.openG G hG] at ho; cases ho
  have hphase : ∀ k, Engine.WPhase (q.st k).s.hist := fun k => by
    obtain ⟨D, hl⟩ := Engine.freach_ex (reach k)
    exact Engine.ex_wphase hl
  simp only [hh] at hk
  have pc : ∀ k, m ≤ k → ∀ G ∈ (q.st m).s.gs, ∃ w, workerH (q.st k).s.hist G.name = some w ∧ (∀ x, w = .obj x → ∀ e, .finished x e ∉ (q.st k).s.hist) ∧
      (G.pc = .registering w ∨ (G.pc = .selfWait ∧ w = .self) ∨ ∃ x, G.pc = .waiting x ∧ w = .obj x) := fun k hkm G hG => by
    obtain ⟨_, u⟩ := Engine.freach_hinv (reach k)
    rw [← (h k hkm).2.2] at hG
    obtain ⟨_, w, hw, hx⟩ := (h k hkm).1 G.name G.gid (u.openG G hG)
    have hp := hphase k _ _ hw
    refine ⟨w, hw, hx, ?_⟩
    have := u.pc G hG
    unfold Engine.PcOk at this
    cases hpc : G.pc <;> rw [hpc] at this <;> simp only [hp, reduceCtorEq, Phase.ok.injEq] at this
    · subst this; exact .inl rfl
    · exact .inr (.inl ⟨rfl, this⟩)
    · exact .inr (.inr ⟨_, rfl, this⟩)
    · exfalso
      rcases this with ⟨h, _⟩ | ⟨_, h, _⟩ | ⟨x, h, hfx⟩ | ⟨_, _, h⟩
      · cases h
      · cases h
      · exact hx x h _ hfx
      · exact hk k h
  have hwork : ∀ k, m ≤ k → ∀ a g, openH (q.st k).s.hist a = some g → ∃ w, workerH (q.st k).s.hist a = some w ∧ workerH (q.st m).s.hist a = some w ∧
      ∀ x, w = .obj x → ∀ e, .finished x e ∉ (q.st k).s.hist := fun k hkm a g ho => by
    rw [hopen k hkm] at ho
    obtain ⟨_, v⟩ := Engine.freach_hinv (reach m)
    obtain ⟨G, hG, rfl, rfl⟩ := v.openN a g ho
    obtain ⟨w, h3, h4, h5⟩ := pc k hkm G hG
    obtain ⟨w', h3', _, h5'⟩ := pc m (Nat.le_refl _) G hG
    refine ⟨w, h3, ?_, h4⟩
    rw [h3']
    rcases h5 with h5 | ⟨h5, rfl⟩ | ⟨x, h5, rfl⟩ <;> rcases h5' with h5' | ⟨h5', rfl⟩ | ⟨x', h5', rfl⟩ <;> rw [h5] at h5' <;> simp_all
  refine ⟨m, fun k hkm => ⟨hopen k hkm, fun a g ho => ⟨((h k hkm).1 a g ho).1, ?_⟩⟩⟩
  obtain ⟨w, h3, h4, _⟩ := hwork k hkm a g ho
  refine ⟨h3.trans h4.symm, w, h3, fun x hx he => ?_⟩
  subst hx
  -- if it had ended, the engine would learn of it
  obtain ⟨g', hg'⟩ := phase_startOk (hphase k _ _ h3)
  obtain ⟨j, e, hj⟩ := hw i x k (by rw [h2]; exact ⟨a, g', hg'⟩) he
  rw [h2] at hj
  obtain ⟨es, hes⟩ := epauses_grow (q := q) (Nat.le_max_right k j)
  obtain ⟨w, _, h6, h7⟩ := hwork (max k j) (by omega) a g (by rw [hopen _ (by omega), ← hopen k hkm]; exact ho)
  rw [h4] at h6; injection h6 with h6
  refine h7 x h6.symm e ?_
  show _ ∈ Engine.pausesHist q (max k j)
  rw [hes]; exact List.mem_append_right _ hj

/-- C111: … and the manifolds that have a worker are those whose inputs, direct and indirect, are all installed. -/
theorem C111_converges {r : SysRun W} (hf : r.Fair) (hd : r.DelaysEnd) (hw : r.WaitsReturn) (hu : r.Users)
    (wf : WellFounded (fun c i => ∃ k w, w ∈ (r.st k i).kills ∧ W.child i w = c)) {i : I} {cfg : Engine.Config} (hi : W.kind i = .engine cfg)
    (hs : StartsReturn (fun k => (r.st k i).ehist)) (hk : ∀ k, .kill ∉ (r.st k i).ehist) {n : Nat} (hc : r.CalmFrom i cfg n)
    (hn : ∀ k, AtEvery NeedsInputs (r.st k i).ehist) : ∃ m, ∀ k, m ≤ k → ∀ a, workerH (r.st k i).ehist a ≠ none ↔
      manH (r.st k i).ehist a ≠ none ∧ ∀ b, Relation.TransGen (Declares (r.st k i).ehist) a b → manH (r.st k i).ehist b ≠ none := by
  obtain ⟨q, h2, m, h⟩ := rest hf hd hw hu wf hi hs hk hc
  refine ⟨m, fun k hk1 a => ?_⟩
  obtain ⟨h3, h4, _⟩ := h k hk1
  have hk := hk k
  have hn := hn k
  have hr := reach_of (r.reach k) i
  rw [h2] at h3 hk hn hr ⊢
  rw [hi] at hr
  cases hr with
  | engine hr =>
    obtain ⟨D, hl⟩ := Engine.freach_link hr
    have e := quiet_noDebt hl h4
    subst e
    exact ex_settled hl.1 hk h3 hn a

namespace SDemo

/-- The program of the examples is started; then its runner waits for something to do, and its catacomb is given another worker. -/
def opsStay : List (Nat × Op) := opsUp ++ [(1, .runner .loopTop)] ++ [.callAdd 2, .aSend 0, .lAdd].map (fun op => (2, .catacomb op))

def afterStay (k : Nat) : List Comp := (run SDemo.W (kinds.map Kind.new) (opsStay.take k)).getD []

theorem stay_some (k : Nat) : run SDemo.W (kinds.map Kind.new) (opsStay.take k) = some (afterStay k) := by
  have h : (run SDemo.W (kinds.map Kind.new) opsStay).isSome = true := by decide +kernel
  rw [← List.take_append_drop k opsStay, run_append] at h
  unfold afterStay
  cases hr : run SDemo.W (kinds.map Kind.new) (opsStay.take k) with
  | none => rw [hr] at h; cases h
  | some L => rfl

theorem stay_step {k : Nat} (hk : k < opsStay.length) : stepL SDemo.W (afterStay k) (opsStay[k]).1 (opsStay[k]).2 = some (afterStay (k + 1)) := by
  have h := stay_some (k + 1)
  rw [List.take_succ_eq_append_getElem hk, run_append, stay_some k] at h
  simp only [Option.bind_some, run, Option.bind_fun_some] at h
  exact h

theorem stay_more {k : Nat} (hk : opsStay.length ≤ k) : afterStay k = afterStay opsStay.length := by
  unfold afterStay
  rw [List.take_of_length_le hk, List.take_of_length_le (Nat.le_refl _)]

/-- What holds after each of these steps, of every worker, holds for ever. -/
theorem stay_all {P : Comp → Bool} (key : ∀ k, k ≤ opsStay.length → (afterStay k).all P = true) (h0 : P (.leaf false none) = true) (k i : Nat) :
    P (fn (afterStay k) i) = true := by
  refine fn_all ?_ h0 i
  by_cases hk : k ≤ opsStay.length
  · exact key k hk
  · rw [stay_more (by omega)]; exact key _ (Nat.le_refl _)

/-- The program of the examples is started, and goes on for ever. -/
def stay : SysRun SDemo.W where
  st k := fn (afterStay k)
  act k := opsStay[k]?
  start := after_zero
  up k i := by
    have := stay_all (P := fun c => !c.crashed) (by decide +kernel) rfl k i
    simpa using this
  next k := by
    by_cases hk : k < opsStay.length
    · exact .inl ⟨_, _, List.getElem?_eq_getElem hk, stepL_some (stay_step hk)⟩
    · exact .inr ⟨List.getElem?_eq_none (Nat.le_of_not_lt hk), by rw [stay_more (by omega : opsStay.length ≤ k + 1), ← stay_more (Nat.le_of_not_lt hk)]⟩

theorem stay_last {k : Nat} (hk : opsStay.length ≤ k) : stay.st k = fn (afterStay opsStay.length) := by
  show fn (afterStay k) = _
  rw [stay_more hk]

theorem stay_idle (i : Nat) : idle (fn (afterStay opsStay.length) i) = true :=
  fn_all (P := idle) (by decide +kernel) rfl i

theorem stay_fair : stay.Fair := by
  intro i x h
  exfalso
  obtain ⟨k, hk, hc⟩ := h opsStay.length
  refine idle_no (reach_of (stay.reach k) i) ?_ x hc
  rw [stay_last hk]; exact stay_idle i

theorem stay_delays : stay.DelaysEnd := by
  intro i g h
  exfalso
  obtain ⟨k, hk, d, hc⟩ := h opsStay.length
  have hi := stay_idle i
  rw [stay_last hk] at hc
  generalize fn (afterStay opsStay.length) i = c at hi hc
  cases c with
  | engine cfg f =>
    simp only [idle, Bool.and_eq_true] at hi
    obtain ⟨c', hc⟩ := Option.isSome_iff_exists.1 hc
    obtain ⟨s', hs, _⟩ := Option.map_eq_some_iff.1 hc
    exact FDemo.quiet_no hi.1 (.timer g) ⟨_, s', rfl, hs⟩
  | _ => cases hc

theorem stay_kills (i w k : Nat) : w ∉ (stay.st k i).kills := by
  intro h
  have h := stay.kills_stay (Nat.le_max_left k opsStay.length) h
  rw [stay_last (Nat.le_max_right k opsStay.length)] at h
  have := fn_all (L := afterStay opsStay.length) (P := fun c => c.kills.isEmpty) (by decide +kernel) rfl i
  rw [List.isEmpty_iff.1 this] at h; cases h

theorem stay_waits : stay.WaitsAll := by
  intro i w k _ he
  have := stay_all (P := fun c => c.result.isNone) (by decide +kernel) rfl k (SDemo.W.child i w)
  change (stay.st k (SDemo.W.child i w)).result.isNone = true at this
  unfold EndedW at he
  rw [Option.isNone_iff_eq_none.1 this] at he; cases he

theorem stay_starts : StartsReturn (fun k => (stay.st k 0).ehist) := by
  intro k n g _ _
  refine ⟨max k opsStay.length, Nat.le_max_left _ _, fun ⟨ho, hp⟩ => ?_⟩
  have ho : openH (stay.st (max k opsStay.length) 0).ehist n = some g := ho
  have hp : phaseH (stay.st (max k opsStay.length) 0).ehist n = .inStart := hp
  have hr := reach_of (stay.reach opsStay.length) 0
  rw [stay_last (Nat.le_max_right _ _)] at ho hp
  rw [stay_last (Nat.le_refl _)] at hr
  have key : (match fn (afterStay opsStay.length) 0 with | .engine _ f => f.s.gs.all (fun g => g.pc != .starting) | _ => false) = true := by
    decide +kernel
  generalize fn (afterStay opsStay.length) 0 = c at ho hp hr key
  cases hr with
  | engine hr =>
    obtain ⟨_, i⟩ := Engine.freach_hinv hr
    obtain ⟨G, hG, rfl, rfl⟩ := i.openN n g ho
    have hpc := i.pc G hG
    have hs := List.all_eq_true.1 key G hG
    simp only [Comp.ehist] at hp
    unfold Engine.PcOk at hpc
    split at hpc
    · rw [hp] at hpc; cases hpc
    · rename_i h; rw [h] at hs; simp at hs
    · rw [hp] at hpc; cases hpc
    · rw [hp] at hpc; cases hpc
    · rw [hp] at hpc; cases hpc
    · rw [hp] at hpc
      rcases hpc with ⟨h, _⟩ | ⟨_, h, _⟩ | ⟨_, h, _⟩ | ⟨h, _⟩ <;> cases h

theorem stay_users : stay.Users := by
  intro i
  have hc : ∀ k, (stay.st k i).chist.all (fun e => !(CSpec.killOf e).isSome) = true := fun k =>
    stay_all (P := fun c => c.chist.all (fun e => !(CSpec.killOf e).isSome)) (by decide +kernel) rfl k i
  have hl : ∀ k, (match stay.st k i with | .leaf b _ => !b | _ => true) = true := fun k =>
    stay_all (P := fun c => match c with | .leaf b _ => !b | _ => true) (by decide +kernel) rfl k i
  have hr : ∀ g, RSpec.phaseH (fn (afterStay opsStay.length) i).rhist g ≠ some .calling := fun g hp => by
    have key : (afterStay opsStay.length).all (fun c => (c.rhist.filterMap RDemo.calledG).all (fun g => RSpec.phaseH c.rhist g != some .calling)) = true := by
      decide +kernel
    have := List.all_eq_true.1 (fn_all key rfl i) g (RDemo.calling_mem hp)
    rw [hp] at this; simp at this
  split
  · intro k g _
    refine ⟨max k opsStay.length, Nat.le_max_left _ _, fun hp => ?_⟩
    have hp : RSpec.phaseH (stay.st (max k opsStay.length) i).rhist g = some .calling := hp
    rw [stay_last (Nat.le_max_right k opsStay.length)] at hp
    exact hr g hp
  · rintro k ⟨e, he, hd⟩
    have := List.all_eq_true.1 (hc k) _ he
    simp [hd] at this
  · rename_i hi
    match i, hi with
    | 0, _ => exact fun k n g ho hp _ => stay_starts k n g ho hp
    | 1, hi | 2, hi | 3, hi | 4, hi => cases hi
    | n + 5, hi => cases hi
  · intro k hs
    have := hl k
    have hr := reach_of (stay.reach k) i
    rename_i hi
    rw [hi] at hr
    generalize stay.st k i = c at hs this hr
    cases hr with
    | leaf b x =>
      have hs : b = true := hs
      subst hs; cases this

theorem stay_calm : stay.CalmFrom 0 Demo.cfg 12 := by
  intro k op hk ha
  have hl : k < opsStay.length := by
    by_contra h
    have ha : opsStay[k]? = _ := ha
    rw [List.getElem?_eq_none (Nat.le_of_not_lt h)] at ha; cases ha
  have key : ∀ k, k < opsStay.length → 12 ≤ k → (match stay.act k with
    | some (0, .engine (.env op)) => Demo.calmB (stay.st k 0).ehist op
    | some (0, .engine (.install _ _ _)) => false
    | _ => true) = true := by decide +kernel
  have := key k hl hk
  rw [ha] at this
  cases op with
  | env op => exact Demo.calmB_spec this
  | install => cases this
  | _ => trivial

end SDemo

-- at first the engine has not settled
example : SDemo.stay.Fair ∧ SDemo.stay.DelaysEnd ∧ SDemo.stay.WaitsAll ∧ SDemo.stay.WaitsReturn ∧ SDemo.stay.Users ∧
    WellFounded (fun c i => ∃ k w, w ∈ (SDemo.stay.st k i).kills ∧ SDemo.W.child i w = c) ∧ SDemo.W.kind 0 = .engine Demo.cfg ∧
    StartsReturn (fun k => (SDemo.stay.st k 0).ehist) ∧ (∀ k, .kill ∉ (SDemo.stay.st k 0).ehist) ∧ SDemo.stay.CalmFrom 0 Demo.cfg 12 ∧
    (∀ k, AtEvery NeedsInputs (SDemo.stay.st k 0).ehist) ∧ workerH (SDemo.stay.st 12 0).ehist 1 = none ∧
    manH (SDemo.stay.st 12 0).ehist 1 ≠ none := by
  refine ⟨SDemo.stay_fair, SDemo.stay_delays, SDemo.stay_waits, SDemo.stay_waits.killed, SDemo.stay_users,
    ⟨fun i => ⟨i, fun j ⟨k, w, h, _⟩ => absurd h (SDemo.stay_kills i w k)⟩⟩, rfl, SDemo.stay_starts, fun k h => ?_, SDemo.stay_calm, fun k => ?_,
    by decide +kernel, by decide +kernel⟩
  · have := SDemo.stay_all (P := fun c => c.ehist.all (fun e => match e with | .kill => false | _ => true)) (by decide +kernel) rfl k 0
    have := List.all_eq_true.1 this _ h
    simp at this
  · exact Demo.everyB_spec (SDemo.stay_all (P := fun c => Demo.everyB c.ehist) (by decide +kernel) rfl k 0)

end Verif.Props
