import Verif.Props.System
import Verif.Props.EngineFineRuns

/-!
# C106: a program stops

In an infinite execution of a program (`SysRun`) the scheduler is fair to the goroutines of all its workers, Wait of a worker that has ended
returns, and users do what they have to: StartFuncs return, Start funcs return when their context is cancelled, the work func of a catacomb
returns once the catacomb is dying, and a leaf ends when it has been killed. Then a worker that is told to stop ends, however many workers
are below it.
-/

namespace Verif.Props
open Verif.System Verif.Spec Verif.Schedule

variable {I : Type} [DecidableEq I] {W : Wiring I}

/-- An infinite execution of a program. A panic would end it. -/
structure SysRun (W : Wiring I) where
  st : Nat → I → Comp
  act : Nat → Option (I × Op)
  start : st 0 = W.new
  up : ∀ k, Up (st k)
  next : ∀ k, (∃ i op, act k = some (i, op) ∧ W.step (st k) i op = some (st (k + 1))) ∨ (act k = none ∧ st (k + 1) = st k)

/-- The kinds of steps of a worker's goroutines, ends of delays of an engine aside. -/
inductive SKind
  | runner (op : Runner.Op)
  | catacomb (op : Catacomb.Op)
  | engine (x : Engine.FKind)

def skind : Op → Option SKind
  | .runner op => (Runner.rkind op).map .runner
  | .catacomb op => (Catacomb.ckind op).map .catacomb
  | .engine op => (Engine.ekind op).map .engine
  | _ => none

/-- A step of some kind can be taken. -/
def CanW (c : Comp) (x : SKind) : Prop := ∃ op c', skind op = some x ∧ c.step op = some c'

namespace SysRun

/-- No kind of step of a worker that can be taken again and again is passed over for ever. -/
def Fair (r : SysRun W) : Prop := ∀ i x, InfOften (fun k => CanW (r.st k i) x) → InfOften (fun k => ∃ op, r.act k = some (i, op) ∧ skind op = some x)

/-- Wait of a worker that has been Kill()ed returns when the worker has ended. -/
def WaitsReturn (r : SysRun W) : Prop := ∀ i w k, w ∈ (r.st k i).kills → EndedW (r.st k (W.child i w)) → ∃ j e, SawW (r.st j i) w e

/-- What is asked of users. -/
def Users (r : SysRun W) : Prop := ∀ i, match W.kind i with
  | .runner _ => RSpec.StartsReturn (fun k => (r.st k i).rhist)
  | .catacomb _ => ∀ k, CSpec.Dying (r.st k i).chist → ∃ j x, .workRet x ∈ (r.st j i).chist ∧ x ≠ .goexit
  | .engine _ => StartsHeed (fun k => (r.st k i).ehist)
  | .leaf => ∀ k, StoppingW (r.st k i) → ∃ j, EndedW (r.st j i)

theorem reach (r : SysRun W) : ∀ k, System.Reach W (r.st k)
  | 0 => by rw [r.start]; exact .init
  | k + 1 => by
    rcases r.next k with ⟨i, op, _, h⟩ | ⟨_, h⟩
    · exact .step i op (r.reach k) (r.up k) h
    · rw [h]; exact r.reach k

theorem moves (r : SysRun W) (k : Nat) (i : I) : Moves (r.st k i) (r.st (k + 1) i) := by
  rcases r.next k with ⟨j, op, _, h⟩ | ⟨_, h⟩
  · exact wstep_moves h i
  · rw [h]; exact .inl rfl

theorem ended_stays (r : SysRun W) {i : I} {k j : Nat} (h : k ≤ j) (he : EndedW (r.st k i)) : EndedW (r.st j i) := by
  induction h with
  | refl => exact he
  | @step m _ ih => exact (reach_of (r.reach m) i).ended (r.moves m i) ih

theorem kills_stay (r : SysRun W) {i : I} {k j : Nat} (h : k ≤ j) {w : Nat} (he : w ∈ (r.st k i).kills) : w ∈ (r.st j i).kills := by
  induction h with
  | refl => exact he
  | @step m _ ih =>
    rcases r.moves m i with h | ⟨op, h⟩
    · rw [h]; exact ih
    · rw [(reach_of (r.reach m) i).kills h]; exact List.mem_append_right _ ih

/-- What a worker does, step by step: a step of its own, a Kill, or nothing. -/
theorem local_op (r : SysRun W) (i : I) (k : Nat) : ∃ o : Option Op, (∀ x, (∃ op, r.act k = some (i, op) ∧ skind op = some x) → o.bind skind = some x) ∧
    ((∃ op, o = some op ∧ (r.st k i).step op = some (r.st (k + 1) i)) ∨ (o = none ∧ r.st (k + 1) i = r.st k i)) := by
  rcases r.next k with ⟨j, op, ha, h⟩ | ⟨ha, h⟩
  · obtain ⟨c, hc, hS, _⟩ := wstep_inv h
    by_cases hij : i = j
    · subst hij
      refine ⟨some op, fun x ⟨op', h1, h2⟩ => ?_, .inl ⟨op, rfl, ?_⟩⟩
      · rw [ha] at h1; injection h1 with h1; injection h1 with _ h1; subst h1; exact h2
      · rw [hS, after_self]; exact hc
    · rcases r.moves k i with hm | ⟨op', hm⟩
      · exact ⟨none, fun x ⟨op', h1, _⟩ => by rw [ha] at h1; injection h1 with h1; injection h1 with h1; exact absurd h1.symm hij, .inr ⟨rfl, hm⟩⟩
      · exact ⟨some op', fun x ⟨op', h1, _⟩ => by rw [ha] at h1; injection h1 with h1; injection h1 with h1; exact absurd h1.symm hij,
          .inl ⟨_, rfl, hm⟩⟩
  · exact ⟨none, fun x ⟨op', h1, _⟩ => (by rw [ha] at h1; cases h1), .inr ⟨rfl, by rw [h]⟩⟩

end SysRun

/-- The part of a runner. -/
theorem runner_part (r : SysRun W) (hf : r.Fair) {i : I} {p : Runner.Params} (hi : W.kind i = .runner p) :
    ∃ q : Runner.Pauses p, q.Fair Runner.rkind ∧ ∀ k, r.st k i = .runner p (q.st k) := by
  have ex : ∀ k, ∃ s, r.st k i = .runner p s := fun k => by
    have := reach_of (r.reach k) i
    rw [hi] at this
    generalize r.st k i = c at this
    cases this; exact ⟨_, rfl⟩
  choose s hs using ex
  have ex : ∀ k, ∃ o : Option Runner.Op, (∀ x, (∃ op, r.act k = some (i, op) ∧ skind op = some (.runner x)) → o.bind Runner.rkind = some x) ∧
      ((∃ op, o = some op ∧ Runner.rtrans p (s k) op (s (k + 1))) ∨ (o = none ∧ s (k + 1) = s k)) := fun k => by
    obtain ⟨o, h1, h2⟩ := r.local_op i k
    rw [hs k, hs (k + 1)] at h2
    rcases h2 with ⟨op, rfl, h2⟩ | ⟨rfl, h2⟩
    · cases op <;> simp only [Comp.step, reduceCtorEq] at h2
      rename_i op
      obtain ⟨s', h2, h3⟩ := Option.map_eq_some_iff.1 h2
      injection h3 with _ h3; subst h3
      refine ⟨some op, fun x hx => ?_, .inl ⟨op, rfl, h2⟩⟩
      have := h1 _ hx
      simpa [skind] using this
    · injection h2 with _ h2
      exact ⟨none, fun x hx => (by have := h1 _ hx; cases this), .inr ⟨rfl, h2⟩⟩
  choose o ho using ex
  refine ⟨⟨s, o, ?_, fun k => (ho k).2⟩, fun x hx => ?_, hs⟩
  · have h0 := hs 0
    rw [r.start, Wiring.new, hi] at h0
    injection h0 with _ h0; exact h0.symm
  · refine (hf i (.runner x) (hx.mono (fun k ⟨op, s', h1, h2⟩ => ?_))).mono (fun k hk => (ho k).1 x hk)
    refine ⟨.runner op, .runner p s', by simp [skind, h1], ?_⟩
    rw [hs k]
    simp only [Comp.step]
    rw [show Runner.step p (s k) op = some s' from h2]; rfl

/-- The part of a catacomb. -/
theorem catacomb_part (r : SysRun W) (hf : r.Fair) {i : I} {own : Nat} (hi : W.kind i = .catacomb own) :
    ∃ q : Catacomb.Pauses own, q.Fair Catacomb.ckind ∧ (∀ k, r.st k i = .catacomb own (q.st k)) := by
  have ex : ∀ k, ∃ s, r.st k i = .catacomb own s := fun k => by
    have := reach_of (r.reach k) i
    rw [hi] at this
    generalize r.st k i = c at this
    cases this; exact ⟨_, rfl⟩
  choose s hs using ex
  have ex : ∀ k, ∃ o : Option Catacomb.Op, (∀ x, (∃ op, r.act k = some (i, op) ∧ skind op = some (.catacomb x)) → o.bind Catacomb.ckind = some x) ∧
      ((∃ op, o = some op ∧ Catacomb.ctrans own (s k) op (s (k + 1))) ∨ (o = none ∧ s (k + 1) = s k)) := fun k => by
    obtain ⟨o, h1, h2⟩ := r.local_op i k
    rw [hs k, hs (k + 1)] at h2
    rcases h2 with ⟨op, rfl, h2⟩ | ⟨rfl, h2⟩
    · cases op <;> simp only [Comp.step, reduceCtorEq] at h2
      rename_i op
      obtain ⟨s', h2, h3⟩ := Option.map_eq_some_iff.1 h2
      injection h3 with _ h3; subst h3
      refine ⟨some op, fun x hx => ?_, .inl ⟨op, rfl, h2⟩⟩
      have := h1 _ hx
      simpa [skind] using this
    · injection h2 with _ h2
      exact ⟨none, fun x hx => (by have := h1 _ hx; cases this), .inr ⟨rfl, h2⟩⟩
  choose o ho using ex
  refine ⟨⟨s, o, ?_, fun k => (ho k).2⟩, fun x hx => ?_, hs⟩
  · have h0 := hs 0
    rw [r.start, Wiring.new, hi] at h0
    injection h0 with _ h0; exact h0.symm
  · refine (hf i (.catacomb x) (hx.mono (fun k ⟨op, s', h1, h2⟩ => ?_))).mono (fun k hk => (ho k).1 x hk)
    refine ⟨.catacomb op, .catacomb own s', by simp [skind, h1], ?_⟩
    rw [hs k]
    simp only [Comp.step]
    rw [show Catacomb.step own (s k) op = some s' from h2]; rfl

/-- The part of an engine. -/
theorem engine_part (r : SysRun W) (hf : r.Fair) {i : I} {cfg : Engine.Config} (hi : W.kind i = .engine cfg) :
    ∃ q : Engine.Pauses cfg, q.Fair Engine.ekind ∧ ∀ k, r.st k i = .engine cfg (q.st k) := by
  have ex : ∀ k, ∃ s, r.st k i = .engine cfg s := fun k => by
    have := reach_of (r.reach k) i
    rw [hi] at this
    generalize r.st k i = c at this
    cases this; exact ⟨_, rfl⟩
  choose s hs using ex
  have ex : ∀ k, ∃ o : Option Engine.FOp, (∀ x, (∃ op, r.act k = some (i, op) ∧ skind op = some (.engine x)) → o.bind Engine.ekind = some x) ∧
      ((∃ op, o = some op ∧ Engine.ftrans cfg (s k) op (s (k + 1))) ∨ (o = none ∧ s (k + 1) = s k)) := fun k => by
    obtain ⟨o, h1, h2⟩ := r.local_op i k
    rw [hs k, hs (k + 1)] at h2
    rcases h2 with ⟨op, rfl, h2⟩ | ⟨rfl, h2⟩
    · cases op <;> simp only [Comp.step, reduceCtorEq] at h2
      rename_i op
      obtain ⟨s', h2, h3⟩ := Option.map_eq_some_iff.1 h2
      injection h3 with _ h3; subst h3
      refine ⟨some op, fun x hx => ?_, .inl ⟨op, rfl, h2⟩⟩
      have := h1 _ hx
      simpa [skind] using this
    · injection h2 with _ h2
      exact ⟨none, fun x hx => (by have := h1 _ hx; cases this), .inr ⟨rfl, h2⟩⟩
  choose o ho using ex
  refine ⟨⟨s, o, ?_, fun k => (ho k).2⟩, fun x hx => ?_, hs⟩
  · have h0 := hs 0
    rw [r.start, Wiring.new, hi] at h0
    injection h0 with _ h0; exact h0.symm
  · refine (hf i (.engine x) (hx.mono (fun k ⟨op, s', h1, h2⟩ => ?_))).mono (fun k hk => (ho k).1 x hk)
    refine ⟨.engine op, .engine cfg s', by simp [skind, h1], ?_⟩
    rw [hs k]
    simp only [Comp.step]
    rw [show Engine.fstep cfg (s k) op = some s' from h2]; rfl

/-- The Wait method of a runner returns when its loop has, unless it panics. -/
theorem runner_wait {p : Runner.Params} {s : Runner.State} (hr : Runner.Reach p s) (he : .exit ∈ s.tab.hist) (hc : s.tab.tomb.panicked = false) :
    EndedW (.runner p s) := by
  unfold EndedW Comp.result Runner.waitResult Tomb.wait
  rcases endTomb hr.tab (hr.tab.hinv.exit.2 he) with ⟨h1, _, _, h2⟩ | ⟨_, h, _⟩
  · simp only [h1, h2, if_true]; rfl
  · rw [h] at hc; cases hc

/-- C106: a worker that is told to stop, or decides to, ends. Nobody kills, however indirectly, themselves. -/
theorem C106_stops {r : SysRun W} (hf : r.Fair) (hw : r.WaitsReturn) (hu : r.Users)
    (wf : WellFounded (fun c i => ∃ k w, w ∈ (r.st k i).kills ∧ W.child i w = c)) (i : I) {k : Nat} (hs : StoppingW (r.st k i)) :
    ∃ j, EndedW (r.st j i) := by
  induction i using wf.induction generalizing k with
  | _ i ih =>
  have fin : ∀ w n, w ∈ (r.st n i).kills → ∃ j e, SawW (r.st j i) w e := fun w n hk => by
    obtain ⟨j, hj⟩ := ih _ ⟨n, w, hk, rfl⟩ (told (r.reach n) hk)
    exact hw i w (max n j) (r.kills_stay (Nat.le_max_left n j) hk) (r.ended_stays (Nat.le_max_right n j) hj)
  have hu := hu i
  cases hi : W.kind i with
  | runner p =>
    rw [hi] at hu
    obtain ⟨q, h1, h2⟩ := runner_part r hf hi
    have hh : (fun k => (r.st k i).rhist) = Runner.pausesHist q := funext (fun k => by rw [h2]; rfl)
    obtain ⟨m, hm⟩ := runner_pauses_exit (q := q) h1 (by rw [← hh]; exact hu) (fun n id w hk => by
      obtain ⟨j, e, hj⟩ := fin w n (by
        rw [h2]
        exact List.mem_filterMap.2 ⟨_, hk, rfl⟩)
      rw [h2] at hj
      obtain ⟨es, hes⟩ := rpauses_grow q (Nat.le_max_right n j)
      obtain ⟨e', he'⟩ := Option.isSome_iff_exists.1 (rfin_of_mem (h := Runner.pausesHist q (max n j)) (w := w) (r := e) (by
        rw [hes]; exact List.mem_append_right _ hj))
      exact ⟨max n j, e', Nat.le_max_left _ _, he'⟩) (k := k) (by rw [h2] at hs; exact hs)
    refine ⟨m, ?_⟩
    have hc := r.up m i
    have hr := reach_of (r.reach m) i
    rw [h2] at hc hr ⊢
    rw [hi] at hr
    cases hr with
    | runner hr =>
      exact runner_wait hr hm hc
  | catacomb own =>
    rw [hi] at hu
    obtain ⟨q, h1, h2⟩ := catacomb_part r hf hi
    have hd : CSpec.Dying (r.st k i).chist := by rw [h2] at hs ⊢; exact hs
    obtain ⟨j, x, hx, hne⟩ := hu k hd
    rw [h2] at hx
    obtain ⟨m, hm⟩ := catacomb_pauses_dead (q := q) (fun k => by
      have := r.up k i
      rw [h2] at this; exact this) h1 (fun n g w hk => by
      obtain ⟨j, e, hj⟩ := fin w n (by
        rw [h2]
        exact List.mem_filterMap.2 ⟨_, hk, rfl⟩)
      rw [h2] at hj
      exact ⟨j, cfin_of_mem hj⟩) hx hne
    refine ⟨m, ?_⟩
    have hr := reach_of (r.reach m) i
    rw [h2] at hr ⊢
    rw [hi] at hr
    cases hr with
    | catacomb hr =>
      unfold EndedW
      rw [Comp.result, ((C67_wait hr).2 hm).1]; rfl
  | engine cfg =>
    rw [hi] at hu
    obtain ⟨q, h1, h2⟩ := engine_part r hf hi
    have hh : (fun k => (r.st k i).ehist) = Engine.pausesHist q := funext (fun k => by rw [h2]; rfl)
    obtain ⟨m, hm⟩ := pauses_exit (q := q) h1 (by rw [← hh]; exact hu) (fun n w hk => by
      obtain ⟨j, e, hj⟩ := fin w n (by
        rw [h2]
        exact List.mem_filterMap.2 ⟨_, hk, rfl⟩)
      rw [h2] at hj
      exact ⟨j, e, hj⟩) (k := k) (by rw [h2] at hs; exact hs)
    refine ⟨m, ?_⟩
    have hr := reach_of (r.reach m) i
    rw [h2] at hr ⊢
    rw [hi] at hr
    cases hr with
    | engine hr =>
      unfold EndedW
      rw [Comp.result, C81_wait_result hr, if_pos (show Engine.Ev.exit ∈ (q.st m).s.hist from hm)]; rfl
  | leaf =>
    rw [hi] at hu
    exact hu k hs

/-- C106: … and then everything below it has ended. -/
theorem C106_all_stop {r : SysRun W} (hf : r.Fair) (hw : r.WaitsReturn) (hu : r.Users)
    (wf : WellFounded (fun c i => ∃ k w, w ∈ (r.st k i).kills ∧ W.child i w = c)) {i : I} {k : Nat} (hs : StoppingW (r.st k i)) :
    ∃ n, EndedW (r.st n i) ∧ ∀ j, n ≤ j → ∀ x, BelowW W (r.st j) x i → EndedW (r.st j x) := by
  obtain ⟨n, hn⟩ := C106_stops hf hw hu wf i hs
  exact ⟨n, hn, fun j hj x hb => C105_no_orphans (r.reach j) (r.ended_stays hj hn) hb⟩

namespace SDemo

/-- The program of the examples; when everybody has ended it does nothing more. -/
def life : SysRun SDemo.W where
  st k := fn (after k)
  act k := ops[k]?
  start := after_zero
  up := after_up
  next k := by
    by_cases hk : k < ops.length
    · exact .inl ⟨_, _, List.getElem?_eq_getElem hk, stepL_some (after_step hk)⟩
    · exact .inr ⟨List.getElem?_eq_none (Nat.le_of_not_lt hk), by rw [after_last (by omega : ops.length ≤ k + 1), ← after_last (Nat.le_of_not_lt hk)]⟩

theorem life_last {k : Nat} (hk : ops.length ≤ k) : life.st k = fn (after ops.length) := congrArg fn (after_last hk)

theorem kill_stops {c : Comp} (h : .kill ∈ c.ehist) : StoppingW c := by
  cases c with
  | engine => exact h
  | _ => cases h

/-- Nothing is left to do for a worker. -/
def idle : Comp → Bool
  | .runner p s => !canStepB p s
  | .catacomb own s => (CDemo.internalOps s).all (fun op => (Catacomb.step own s op).isNone)
  | .engine _ f => Demo.quietB f.s && f.todo.isEmpty
  | .leaf _ _ => true

theorem idle_no {k : Kind} {c : Comp} (ho : Of k c) (h : idle c = true) (x : SKind) : ¬ CanW c x := by
  rintro ⟨op, c', hx, hs⟩
  cases ho with
  | runner hr =>
    cases op <;> simp only [Comp.step, reduceCtorEq] at hs
    rename_i op
    obtain ⟨s', hs, _⟩ := Option.map_eq_some_iff.1 hs
    refine not_canStep hr (by simpa [idle] using h) ⟨op, s', ?_, hs⟩
    by_contra hi
    simp [skind, Runner.rkind, hi] at hx
  | catacomb hr =>
    cases op <;> simp only [Comp.step, reduceCtorEq] at hs
    rename_i op
    obtain ⟨s', hs, _⟩ := Option.map_eq_some_iff.1 hs
    refine CDemo.not_canStep h ⟨op, s', ?_, hs⟩
    by_contra hi
    simp [skind, Catacomb.ckind, hi] at hx
  | engine hr =>
    simp only [idle, Bool.and_eq_true, List.isEmpty_iff] at h
    cases op <;> simp only [Comp.step, reduceCtorEq] at hs
    rename_i op
    obtain ⟨s', hs, _⟩ := Option.map_eq_some_iff.1 hs
    cases hk : op.kind with
    | none => simp [skind, Engine.ekind, hk] at hx
    | some y =>
      cases y with
      | of y => exact FDemo.quiet_no h.1 y ⟨op, s', hk, hs⟩
      | work =>
        cases op with
        | work => simp only [Engine.fstep, h.2, reduceCtorEq] at hs
        | env op => cases ho : op.kind <;> simp [Engine.FOp.kind, ho] at hk
        | _ => simp [Engine.FOp.kind] at hk
  | leaf => cases op <;> simp [skind] at hx <;> simp [Comp.step] at hs

theorem life_idle (i : Nat) : idle (fn (after ops.length) i) = true := by
  have key : (after ops.length).all idle = true := by decide +kernel
  unfold fn
  cases hi : (after ops.length)[i]? with
  | none => rfl
  | some c => exact List.all_eq_true.1 key c (List.mem_of_getElem? hi)

theorem life_fair : life.Fair := by
  intro i x h
  exfalso
  obtain ⟨k, hk, hc⟩ := h ops.length
  refine idle_no (reach_of (life.reach k) i) ?_ x hc
  rw [life_last hk]; exact life_idle i

theorem life_waits : life.WaitsReturn := by
  intro i w k hk _
  have h := life.kills_stay (Nat.le_max_left k ops.length) hk
  rw [life_last (Nat.le_max_right k ops.length)] at h
  have key : (after ops.length).all (fun c => c.kills.all (fun w => c.ends.any (fun x => x.1 == w))) = true := by decide +kernel
  refine ⟨ops.length, ?_⟩
  have h2 : life.st ops.length i = fn (after ops.length) i := rfl
  rw [h2]
  generalize hc : fn (after ops.length) i = c at h ⊢
  unfold fn at hc
  cases hi : (after ops.length)[i]? with
  | none => rw [hi] at hc; subst hc; cases h
  | some c' =>
    rw [hi] at hc
    simp only [Option.getD_some] at hc
    subst hc
    have := List.all_eq_true.1 (List.all_eq_true.1 key _ (List.mem_of_getElem? hi)) w h
    obtain ⟨x, hx, hxw⟩ := List.any_eq_true.1 this
    exact ⟨x.2, saw_iff.2 (by rw [← beq_iff_eq.1 hxw]; exact hx)⟩

theorem life_users : life.Users := by
  intro i
  match i with
  | 0 =>
    intro k n g _ _ _
    refine ⟨max k ops.length, Nat.le_max_left _ _, fun ⟨ho, _⟩ => ?_⟩
    have ho : Spec.openH (life.st (max k ops.length) 0).ehist n = some g := ho
    have hr := reach_of (life.reach ops.length) 0
    rw [life_last (Nat.le_max_right k ops.length)] at ho
    have key : (match fn (after ops.length) 0 with | .engine _ f => f.s.gs.isEmpty | _ => false) = true := by decide +kernel
    change Of (SDemo.W.kind 0) (fn (after ops.length) 0) at hr
    generalize fn (after ops.length) 0 = c at ho hr key
    cases hr with
    | engine hr =>
      obtain ⟨G, hG, _⟩ := (Engine.freach_hinv hr).2.openN n g ho
      rw [List.isEmpty_iff.1 key] at hG; cases hG
  | 1 =>
    intro k g _
    refine ⟨max k ops.length, Nat.le_max_left _ _, fun hp => ?_⟩
    have hp : RSpec.phaseH (life.st (max k ops.length) 1).rhist g = some .calling := hp
    rw [life_last (Nat.le_max_right k ops.length)] at hp
    have key : ((fn (after ops.length) 1).rhist.filterMap RDemo.calledG).all
      (fun g => RSpec.phaseH (fn (after ops.length) 1).rhist g != some .calling) = true := by decide +kernel
    have := List.all_eq_true.1 key g (RDemo.calling_mem hp)
    rw [hp] at this; simp at this
  | 2 =>
    intro k _
    exact ⟨ops.length, .ret none, by decide +kernel, nofun⟩
  | 3 => exact fun _ _ => ⟨ops.length, by unfold EndedW; decide +kernel⟩
  | 4 => exact fun _ _ => ⟨ops.length, by unfold EndedW; decide +kernel⟩
  | n + 5 =>
    intro k h
    rw [show life.st k (n + 5) = .leaf false none from fn_more (by rw [after_length]; omega)] at h
    cases h

/-- Workers have higher numbers than those who kill them. -/
theorem life_wf : WellFounded (fun c i => ∃ k w, w ∈ (life.st k i).kills ∧ SDemo.W.child i w = c) := by
  refine Subrelation.wf (r := fun a b : Nat => 5 - a < 5 - b) ?_ (measure (fun i => 5 - i)).wf
  rintro c i ⟨k, w, hk, rfl⟩
  have h := life.kills_stay (Nat.le_max_left k ops.length) hk
  rw [life_last (Nat.le_max_right k ops.length)] at h
  have key : ∀ i, i < 5 → ((fn (after ops.length) i).kills.all (fun w => decide (5 - SDemo.W.child i w < 5 - i))) = true := by decide +kernel
  by_cases hi : i < 5
  · exact of_decide_eq_true (List.all_eq_true.1 (key i hi) w h)
  · rw [fn_more (by rw [after_length]; omega)] at h
    cases h

end SDemo

-- the program of the examples stops when its engine is killed
example : SDemo.life.Fair ∧ SDemo.life.WaitsReturn ∧ SDemo.life.Users ∧
    WellFounded (fun c i => ∃ k w, w ∈ (SDemo.life.st k i).kills ∧ SDemo.W.child i w = c) ∧
    StoppingW (SDemo.life.st (SDemo.opsUp ++ SDemo.opsKill).length 0) ∧ ¬ EndedW (SDemo.life.st (SDemo.opsUp ++ SDemo.opsKill).length 0) ∧
    BelowW SDemo.W (SDemo.life.st (SDemo.opsUp ++ SDemo.opsKill).length) 3 0 :=
  ⟨SDemo.life_fair, SDemo.life_waits, SDemo.life_users, SDemo.life_wf,
    SDemo.kill_stops (by decide +kernel), by unfold EndedW; decide +kernel,
    .tail (b := 1) (.single ⟨10, SDemo.took_took (by decide +kernel), rfl⟩) ⟨10, SDemo.took_took (by decide +kernel), rfl⟩⟩

end Verif.Props
