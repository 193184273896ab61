import Verif.Props.SystemRest

/-!
# C112: calls return, in a program

Calls of StartWorker and StopWorker on a runner, and of Invoke and Add on a catacomb, as parts of a program.
-/

namespace Verif.Props
open Verif.System Verif.Spec Verif.Schedule

section
open Verif.Runner
variable {p : Params}

theorem exited_panicked {r : Runner.Run p} {a b : Nat} (hab : a ≤ b) (he : .exit ∈ r.hist a) (hp : (r.st a).tab.tomb.panicked = true) :
    (r.st b).tab.tomb.panicked = true := by
  induction hab with
  | refl => exact hp
  | @step b hb ih =>
    rcases exited_tomb ((r.reach b).tab.hinv.exit.2 (r.hist_mono hb he)) (r.next b) with h | h
    · rw [h]; exact ih
    · rw [h, Tomb.kill_none_panicked]; exact ih

theorem rfills_tomb {a b : State} (h : Fills (Runner.Filler p) a b) : b.tab.tomb = a.tab.tomb := by
  induction h with
  | nil => rfl
  | snoc _ hf ih =>
    obtain ⟨w, e, _, _, rfl⟩ := hf.form
    exact ih

theorem runner_pauses_returns {q : Runner.Pauses p} (hf : q.Fair rkind) (hu : ∀ k, (q.st k).tab.tomb.panicked = false) {k cid : Nat}
    (hc : (∃ id sf, RSpec.callH (Runner.pausesHist q k) cid = some (.start id sf)) ∨ ∃ id, RSpec.callH (Runner.pausesHist q k) cid = some (.stop id)) :
    ∃ j v, .ret cid v ∈ Runner.pausesHist q j := by
  have reach : ∀ k, Runner.Reach p (q.st k) := q.inv (P := Runner.Reach p) .init (fun _ _ _ h hs => .step _ h hs)
  obtain ⟨r, h1, h2, h3⟩ := q.unstutter (F := Runner.Filler p) (P := Runner.Reach p) hf reach (fun _ _ _ h hs => .step _ h hs.1)
    (fun _ _ _ h => h.1) (fun _ h => Runner.Filler.exists h) (fun s a s' x _ h ⟨op, f, hk, hc⟩ => by
      have hi := (rkind_some.1 hk).1
      have hc : Runner.step p s' op = some f := hc
      obtain ⟨c', hc'⟩ := Option.isSome_iff_exists.1 (h.can hi (by rw [hc]; rfl))
      exact ⟨op, c', hk, hc'⟩)
  let R : Runner.Run p := ⟨r.st, r.op, r.start, r.next⟩
  have hfair : R.Fair := fun op hop hi => by
    refine (h1 op.kind (hi.mono (fun k ⟨op', s', hk, hs⟩ => ⟨op', s', rkind_some.2 ⟨?_, hk⟩, hs⟩))).mono (fun k hk => (rkind_some.1 hk).2)
    exact kind_internal hk hop
  have hx : ∀ k, .exit ∈ R.hist k → (Runner.waitResult (R.st k)).isSome = true := fun k he => by
    refine runner_wait (R.reach k) he ?_
    by_contra hp
    obtain ⟨b, hb⟩ := h3 k
    obtain ⟨m, hm, hfl⟩ := hb b (Nat.le_refl _)
    have := exited_panicked (r := R) hm he (by simpa using hp)
    rw [show (R.st m).tab.tomb = _ from rfills_tomb hfl, hu b] at this
    cases this
  have call : ∀ {a b : Nat} {x : RSpec.Call}, a ≤ b → RSpec.callH (Runner.pausesHist q a) cid = some x → RSpec.callH (Runner.pausesHist q b) cid = some x := by
    intro a b x hab h
    induction hab with
    | refl => exact h
    | @step b _ ih =>
      rcases q.next b with ⟨op, _, hn⟩ | ⟨_, hn⟩
      · exact step_call (reach b) hn ih
      · show RSpec.callH (q.st (b + 1)).tab.hist cid = some x
        rw [hn]; exact ih
  obtain ⟨j, n, hj, hn⟩ := h2 k
  have hn : R.hist n = Runner.pausesHist q j := congrArg (fun s => s.tab.hist) hn
  obtain ⟨m, v, hm⟩ := C78_start_stop_return (r := R) hfair hx (n := n) (cid := cid) (by
    rw [hn]
    exact hc.imp (fun ⟨id, sf, h⟩ => ⟨id, sf, call hj h⟩) (fun ⟨id, h⟩ => ⟨id, call hj h⟩))
  obtain ⟨b, hb⟩ := h3 m
  obtain ⟨m', hm', hfl⟩ := hb b (Nat.le_refl _)
  exact ⟨b, v, ((rfills_same hfl).2.2.1 _ (R.hist_mono hm' hm)).resolve_right nofun⟩

end

section
open Verif.Catacomb
variable {own : Nat}

theorem cfills_hist {a b : State} (h : Fills (Catacomb.Filler own) a b) : ∃ fs, b.hist = fs ++ a.hist ∧ ∀ e ∈ fs, ∃ x, e = .errDying x := by
  induction h with
  | nil => exact ⟨[], rfl, nofun⟩
  | snoc _ hf ih =>
    obtain ⟨fs, h1, h2⟩ := ih
    rw [hf.form]
    refine ⟨_ :: fs, by show _ :: _ = _; rw [h1]; rfl, fun e he => ?_⟩
    rcases List.mem_cons.1 he with rfl | he
    · exact ⟨_, rfl⟩
    · exact h2 e he

theorem csplit_before {fs h post pre : List Ev} {e : Ev} (hh : fs ++ h = post ++ e :: pre) (he : e ∉ fs) : ∃ post', h = post' ++ e :: pre := by
  rcases List.append_eq_append_iff.1 hh with ⟨c, _, h2⟩ | ⟨c, h1, h2⟩
  · exact ⟨c, h2⟩
  · cases c with
    | nil => exact ⟨[], by simpa using h2.symm⟩
    | cons x c =>
      simp only [List.cons_append, List.cons.injEq] at h2
      exact absurd (by rw [h1, ← h2.1]; simp) he

theorem crun_append (R : Catacomb.Run own) {a b : Nat} (hab : a ≤ b) : ∃ es, R.hist b = es ++ R.hist a := by
  induction hab with
  | refl => exact ⟨[], rfl⟩
  | @step b _ ih =>
    obtain ⟨es, h⟩ := ih
    rcases R.hist_grows b with h' | ⟨x, h', _⟩
    · exact ⟨es, h'.trans h⟩
    · exact ⟨x :: es, by rw [h', h]; rfl⟩

theorem catacomb_pauses_calls {q : Catacomb.Pauses own} (hc : ∀ k, (q.st k).crashed = false) (hf : q.Fair ckind)
    (fin : ∀ k w, w ∈ (Catacomb.pausesHist q k).filterMap ckillOf → ∃ j, (CSpec.finishedH (Catacomb.pausesHist q j) w).isSome = true) {k : Nat} :
    (∀ i p, .callInvoke i p ∈ Catacomb.pausesHist q k → ∃ j x, .invokeRet i x ∈ Catacomb.pausesHist q j) ∧
    ∀ c w, .callAdd c w ∈ Catacomb.pausesHist q k → (∃ j x, .addRet c x ∈ Catacomb.pausesHist q j) ∨
      (∀ j, ¬ CSpec.Dying (Catacomb.pausesHist q j)) ∧ ∃ j post pre, Catacomb.pausesHist q j = post ++ .callAdd c w :: pre ∧ ∀ i, .claimed i ∉ pre := by
  obtain ⟨r, h1, h2, h3⟩ := q.unstutter (F := Catacomb.Filler own) (P := fun s => s.crashed = false) hf hc
    (fun _ _ _ h hs => by rw [hs.form]; exact h) (fun _ _ _ h => h.2) (fun _ h => Catacomb.Filler.exists h)
    (fun s a s' x _ h ⟨op, f, hk, hc⟩ => by
      have hc : Catacomb.step own s' op = some f := hc
      rw [h.form] at hc
      obtain ⟨c', hc'⟩ := Option.isSome_iff_exists.1 (emit_can (by rw [hc]; rfl))
      exact ⟨op, c', hk, hc'⟩)
  let R : Catacomb.Run own := ⟨r.st, r.op, r.start, r.next⟩
  have mono : ∀ {i j : Nat}, i ≤ j → ∀ e, e ∈ Catacomb.pausesHist q i → e ∈ Catacomb.pausesHist q j := fun {i j} hij e he => by
    obtain ⟨es, h⟩ := cpauses_grow q hij
    rw [h]; exact List.mem_append_right _ he
  have hfair : R.Fair := fun op hop hi => by
    refine (h1 op (hi.mono (fun k hs => ?_))).mono (fun k hk => (ckind_some.1 hk).2)
    obtain ⟨s', hs⟩ := Option.isSome_iff_exists.1 hs
    exact ⟨op, s', ckind_some.2 ⟨hop, rfl⟩, hs⟩
  have fwd : ∀ {k : Nat} {e : Ev}, e ∈ Catacomb.pausesHist q k → ∃ n, e ∈ R.hist n := fun {k e} he => by
    obtain ⟨j, n, hj, hn⟩ := h2 k
    exact ⟨n, by rw [show R.hist n = Catacomb.pausesHist q j from congrArg (fun s => s.hist) hn]; exact mono hj _ he⟩
  have back : ∀ {n : Nat} {e : Ev}, e ∈ R.hist n → (∀ x, e ≠ .errDying x) → ∃ k, e ∈ Catacomb.pausesHist q k := fun {n e} he hne => by
    obtain ⟨b, hb⟩ := h3 n
    obtain ⟨m, hm, hfl⟩ := hb b (Nat.le_refl _)
    exact ⟨b, ((cfills_same hfl).2.1 _ (R.hist_mono hm he)).resolve_right (fun ⟨x, h⟩ => hne x h)⟩
  have killed : ∀ {m w : Nat} {e : Ev}, e ∈ R.hist m → ckillOf e = some w → (∀ k, CSpec.finishedH (R.hist k) w = none) → False := fun {m w e} he hw hno => by
    obtain ⟨k, hk⟩ := back he (fun x h => by subst h; cases hw)
    obtain ⟨j, hj⟩ := fin k w (List.mem_filterMap.2 ⟨e, hk, hw⟩)
    obtain ⟨y, hy⟩ := Option.isSome_iff_exists.1 hj
    obtain ⟨n, hn⟩ := fwd (finished_mem hy)
    have := cfin_of_mem hn
    rw [hno n] at this; cases this
  refine ⟨fun i p hi => ?_, fun c w ha => ?_⟩
  · obtain ⟨n, hn⟩ := fwd hi
    rcases C79_invoke_returns (r := R) hfair hn with ⟨k, x, hx⟩ | ⟨m, w, hm, hno⟩
    · obtain ⟨j, hj⟩ := back hx nofun
      exact ⟨j, x, hj⟩
    · exact (killed hm rfl hno).elim
  · obtain ⟨n, hn⟩ := fwd ha
    rcases C79_add_returns (r := R) hfair hn with ⟨k, x, hx⟩ | ⟨m, hm, hno⟩ | ⟨hd, m, post, pre, hh, hcl⟩
    · obtain ⟨j, hj⟩ := back hx nofun
      exact .inl ⟨j, x, hj⟩
    · exact (killed hm rfl hno).elim
    · refine .inr ⟨fun j ⟨e, he, hk⟩ => ?_, ?_⟩
      · obtain ⟨n, hn⟩ := fwd he
        exact hd n ⟨e, hn, hk⟩
      · obtain ⟨b, hb⟩ := h3 m
        obtain ⟨m', hm', hfl⟩ := hb b (Nat.le_refl _)
        obtain ⟨fs, f1, f2⟩ := cfills_hist hfl
        obtain ⟨es, hes⟩ := crun_append R hm'
        have hes : (r.st m').hist = es ++ R.hist m := hes
        rw [f1, hh, ← List.append_assoc] at hes
        obtain ⟨post', h⟩ := csplit_before hes (fun h => by obtain ⟨_, h⟩ := f2 _ h; cases h)
        exact ⟨b, post', pre, h, hcl⟩

end

variable {I : Type} [DecidableEq I] {W : Wiring I}

/-- C112: every call of StartWorker or StopWorker on a runner of a program returns. -/
theorem C112_runner {r : SysRun W} (hf : r.Fair) {i : I} {p : Runner.Params} (hi : W.kind i = .runner p) {k cid : Nat}
    (hc : (∃ id sf, RSpec.callH (r.st k i).rhist cid = some (.start id sf)) ∨ ∃ id, RSpec.callH (r.st k i).rhist cid = some (.stop id)) :
    ∃ j v, .ret cid v ∈ (r.st j i).rhist := by
  obtain ⟨q, h1, h2⟩ := runner_part r hf hi
  have hh : ∀ n, (r.st n i).rhist = Runner.pausesHist q n := fun n => by rw [h2]; rfl
  simp only [hh] at hc ⊢
  exact runner_pauses_returns (q := q) h1 (fun k => by
    have := r.up k i
    rw [h2] at this; exact this) hc

-- a call of StartWorker has been made and has not returned yet
example : SDemo.life.Fair ∧ SDemo.W.kind 1 = .runner RDemo.prm ∧ RSpec.callH (SDemo.life.st 26 1).rhist 0 = some (.start 7 1) ∧
    (SDemo.life.st 26 1).rhist.length = 1 :=
  ⟨SDemo.life_fair, rfl, by decide +kernel, by decide +kernel⟩

/-- What a catacomb of a program has killed ends, and it learns of it. -/
theorem killed_finish {r : SysRun W} (hf : r.Fair) (hw : r.WaitsReturn) (hu : r.Users)
    (wf : WellFounded (fun c i => ∃ k w, w ∈ (r.st k i).kills ∧ W.child i w = c)) {i : I} {k w : Nat} (hk : w ∈ (r.st k i).kills) :
    ∃ j e, SawW (r.st j i) w e := by
  obtain ⟨j, hj⟩ := C106_stops hf hw hu wf _ (told (r.reach k) hk)
  exact hw i w (max k j) (r.kills_stay (Nat.le_max_left k j) hk) (r.ended_stays (Nat.le_max_right k j) hj)

theorem catacomb_calls {r : SysRun W} (hf : r.Fair) (hw : r.WaitsReturn) (hu : r.Users)
    (wf : WellFounded (fun c i => ∃ k w, w ∈ (r.st k i).kills ∧ W.child i w = c)) {i : I} {own : Nat} (hi : W.kind i = .catacomb own) {k : Nat} :
    (∀ c p, .callInvoke c p ∈ (r.st k i).chist → ∃ j x, .invokeRet c x ∈ (r.st j i).chist) ∧
    ∀ c w, .callAdd c w ∈ (r.st k i).chist → (∃ j x, .addRet c x ∈ (r.st j i).chist) ∨
      (∀ j, ¬ CSpec.Dying (r.st j i).chist) ∧ ∃ j post pre, (r.st j i).chist = post ++ .callAdd c w :: pre ∧ ∀ i, .claimed i ∉ pre := by
  obtain ⟨q, h1, h2⟩ := catacomb_part r hf hi
  have hh : ∀ n, (r.st n i).chist = Catacomb.pausesHist q n := fun n => by rw [h2]; rfl
  simp only [hh]
  exact catacomb_pauses_calls (q := q) (fun k => by
    have := r.up k i
    rw [h2] at this; exact this) h1 (fun k w hk => by
    obtain ⟨j, e, hj⟩ := killed_finish hf hw hu wf (i := i) (k := k) (w := w) (by rw [h2]; exact hk)
    rw [h2] at hj
    exact ⟨j, cfin_of_mem hj⟩)

/-- C112: every call of Invoke on a catacomb of a program returns. -/
theorem C112_invoke {r : SysRun W} (hf : r.Fair) (hw : r.WaitsReturn) (hu : r.Users)
    (wf : WellFounded (fun c i => ∃ k w, w ∈ (r.st k i).kills ∧ W.child i w = c)) {i : I} {own : Nat} (hi : W.kind i = .catacomb own) {k c : Nat}
    {p : Catacomb.Plan} (hc : .callInvoke c p ∈ (r.st k i).chist) : ∃ j x, .invokeRet c x ∈ (r.st j i).chist :=
  (catacomb_calls hf hw hu wf hi).1 c p hc

-- a call of Invoke has been made and has not returned yet
example : SDemo.life.Fair ∧ SDemo.life.WaitsReturn ∧ SDemo.life.Users ∧
    WellFounded (fun c i => ∃ k w, w ∈ (SDemo.life.st k i).kills ∧ SDemo.W.child i w = c) ∧ SDemo.W.kind 2 = .catacomb 7 ∧
    (SDemo.life.st 38 2).chist = [.callInvoke 0 { init := [some 1] }] :=
  ⟨SDemo.life_fair, SDemo.life_waits, SDemo.life_users, SDemo.life_wf, rfl, by decide +kernel⟩

/-- C112: every call of Add on a catacomb of a program returns, unless it was made before any Invoke call got past the used check and the
catacomb is never killed. -/
theorem C112_add {r : SysRun W} (hf : r.Fair) (hw : r.WaitsReturn) (hu : r.Users)
    (wf : WellFounded (fun c i => ∃ k w, w ∈ (r.st k i).kills ∧ W.child i w = c)) {i : I} {own : Nat} (hi : W.kind i = .catacomb own) {k c w : Nat}
    (hc : .callAdd c w ∈ (r.st k i).chist) : (∃ j x, .addRet c x ∈ (r.st j i).chist) ∨
      (∀ j, ¬ CSpec.Dying (r.st j i).chist) ∧ ∃ j post pre, (r.st j i).chist = post ++ .callAdd c w :: pre ∧ ∀ i, .claimed i ∉ pre :=
  (catacomb_calls hf hw hu wf hi).2 c w hc

-- a call of Add has been made, after an Invoke, and has not returned yet
example : SDemo.stay.Fair ∧ SDemo.stay.WaitsReturn ∧ SDemo.stay.Users ∧
    WellFounded (fun c i => ∃ k w, w ∈ (SDemo.stay.st k i).kills ∧ SDemo.W.child i w = c) ∧ SDemo.W.kind 2 = .catacomb 7 ∧
    .callAdd 0 2 ∈ (SDemo.stay.st 45 2).chist ∧ .claimed 0 ∈ (SDemo.stay.st 44 2).chist ∧ .addRet 0 none ∉ (SDemo.stay.st 45 2).chist :=
  ⟨SDemo.stay_fair, SDemo.stay_waits.killed, SDemo.stay_users, ⟨fun i => ⟨i, fun _ ⟨k, w, h, _⟩ => absurd h (SDemo.stay_kills i w k)⟩⟩, rfl,
    by decide +kernel, by decide +kernel, by decide +kernel⟩

end Verif.Props
