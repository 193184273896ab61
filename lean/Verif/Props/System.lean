import Verif.System.Local
import Verif.Props.SystemDemo

/-!
# C105: programs of runners, catacombs and engines

A program (`Wiring`) is any number of runners, catacombs, engines and other workers, of which some run others. C82 puts a tree together from
executions that are given; here the program is a model of its own, with one scheduler, and Kill and Wait of a worker are steps of it.
-/

namespace Verif.Props
open Verif.System Verif.Spec

/-- `w` has been made its worker: by a StartFunc, by a Start func, or by Plan.Init or a call of Add that has returned nil. -/
def TookW : Comp → Nat → Prop
  | .runner _ s, w => ∃ id g, .startOk id g w ∈ s.tab.hist
  | .catacomb _ s, w => Accepted s.hist w
  | .engine _ f, w => ∃ n g, .startOk n g (.obj w) ∈ f.s.hist
  | .leaf _ _, _ => False

/-- It has been told to stop, or has decided to. -/
def StoppingW : Comp → Prop
  | .runner _ s => .kill ∈ s.tab.hist ∨ RSpec.shutH s.tab.hist
  | .catacomb _ s => CSpec.Dying s.hist
  | .engine _ f => .kill ∈ f.s.hist
  | .leaf killed _ => killed = true

/-- Wait of its worker `w` has returned `e`. -/
def SawW : Comp → Nat → Option Err → Prop
  | .runner _ s, w, e => .finished w e ∈ s.tab.hist
  | .catacomb _ s, w, e => .finished w e ∈ s.hist
  | .engine _ f, w, e => .finished w e ∈ f.s.hist
  | .leaf _ _, _, _ => False

/-- It has called Kill of its worker `w`. -/
def KilledW : Comp → Nat → Prop
  | .runner _ s, w => (∃ g, .killW g w ∈ s.tab.hist) ∨ ∃ c, .clientKillW c w ∈ s.tab.hist
  | .catacomb _ s, w => (∃ g, .killT g w ∈ s.hist) ∨ (∃ c, .killA c w ∈ s.hist) ∨ ∃ i, .killI i w ∈ s.hist
  | .engine _ f, w => .killW (.obj w) ∈ f.s.hist
  | .leaf _ _, _ => False

/-- It has ended: its Wait method returns. -/
def EndedW (c : Comp) : Prop := c.result.isSome = true

namespace SDemo

/-- Workers made by start funcs. -/
def took : Comp → List Nat
  | .runner _ s => s.tab.hist.filterMap (fun e => match e with | .startOk _ _ w => some w | _ => none)
  | .engine _ f => f.s.hist.filterMap (fun e => match e with | .startOk _ _ (.obj w) => some w | _ => none)
  | _ => []

theorem took_took {c : Comp} {w : Nat} (h : w ∈ took c) : TookW c w := by
  cases c with
  | runner p s =>
    obtain ⟨e, he, h⟩ := List.mem_filterMap.1 h
    split at h
    · injection h with h; subst h; exact ⟨_, _, he⟩
    · cases h
  | engine cfg f =>
    obtain ⟨e, he, h⟩ := List.mem_filterMap.1 h
    split at h
    · injection h with h; subst h; exact ⟨_, _, he⟩
    · cases h
  | catacomb | leaf => cases h

end SDemo

variable {I : Type} [DecidableEq I] {W : Wiring I} {S S' : I → Comp}

/-- `j` is a worker of `i`, or a worker of one of its workers, and so on. -/
def BelowW (W : Wiring I) (S : I → Comp) : I → I → Prop := Relation.TransGen (fun j i => ∃ w, TookW (S i) w ∧ W.child i w = j)

theorem wstep_inv {i : I} {op : Op} (hs : W.step S i op = some S') : ∃ c, (S i).step op = some c ∧ S' = W.after S i c ∧
    ∀ w e, (w, e) ∈ newEnds (S i) c → (S (W.child i w)).result = some e := by
  obtain ⟨c, hc, hs⟩ := Option.bind_eq_some_iff.1 hs
  split at hs
  · rename_i hw
    injection hs with hs
    exact ⟨c, hc, hs.symm, fun w e hf => of_decide_eq_true (List.all_eq_true.1 hw _ hf)⟩
  · cases hs

theorem after_self (S : I → Comp) (i : I) (c : Comp) : W.after S i c i = c := if_pos rfl

theorem wstep_moves {i : I} {op : Op} (hs : W.step S i op = some S') (j : I) : Moves (S j) (S' j) := by
  obtain ⟨c, hc, rfl, _⟩ := wstep_inv hs
  unfold Wiring.after
  split
  · rename_i h; subst h; exact .inr ⟨op, hc⟩
  · split
    · exact kill_moves _
    · exact .inl rfl

theorem reach_of (hr : System.Reach W S) (i : I) : Of (W.kind i) (S i) := by
  induction hr with
  | init => exact .new _
  | step j op _ _ hs ih => exact ih.moves (wstep_moves hs i)

theorem stopping_moves {k : Kind} {c c' : Comp} (h : Of k c) (hm : Moves c c') (hs : StoppingW c) : StoppingW c' := by
  have h' := h.moves hm
  have hg := h.grows hm
  cases h with
  | runner _ =>
    cases h'
    obtain ⟨es, he⟩ := hg.inR
    simp only [Comp.rhist] at he
    exact hs.imp (fun h => by rw [he]; exact List.mem_append_right _ h) (fun h => by unfold RSpec.shutH; rw [he]; exact List.mem_append_right _ h)
  | catacomb _ =>
    cases h'
    obtain ⟨es, he⟩ := hg.inC
    simp only [Comp.chist] at he
    obtain ⟨e, h1, h2⟩ := hs
    exact ⟨e, by rw [he]; exact List.mem_append_right _ h1, h2⟩
  | engine _ =>
    cases h'
    obtain ⟨es, he⟩ := hg.inE
    simp only [Comp.ehist] at he
    show _ ∈ _
    rw [he]; exact List.mem_append_right _ hs
  | leaf killed res =>
    rcases hm with rfl | ⟨op, hm⟩
    · exact hs
    cases op <;> simp only [Comp.step, reduceCtorEq] at hm
    · injection hm with hm; subst hm; rfl
    · cases res <;> simp only [Comp.step, Option.some.injEq, reduceCtorEq] at hm
      subst hm; exact hs

theorem cat_kill {own : Nat} {s : Catacomb.State} (hc : s.crashed = false) : (Comp.catacomb own s).kill =
    .catacomb own { s with tomb := s.tomb.kill none, hist := .kill none :: s.hist } := by
  have hs : Catacomb.step own s (.killCall none) = some (Catacomb.kill own s s none .client (.kill none)) := by
    simp only [Catacomb.step]
    rw [if_neg (by rw [hc]; decide)]; rfl
  have hp : s.tomb.panicked = false := by
    unfold Catacomb.State.crashed at hc
    exact (Bool.or_eq_false_iff.1 hc).1
  have ha : Catacomb.killArg own none = none := rfl
  simp only [Comp.kill, Comp.killOp, Comp.step, hs, Option.map_some, Option.getD_some, Catacomb.kill, ha, Tomb.kill_none_panicked, hp,
    Bool.false_eq_true, if_false]

theorem kill_stopping {k : Kind} {c : Comp} (h : Of k c) (hc : c.crashed = false) : StoppingW c.kill := by
  cases h with
  | runner _ => exact .inl (List.mem_cons_self)
  | catacomb _ => rw [cat_kill hc]; exact ⟨.kill none, List.mem_cons_self, rfl⟩
  | engine _ => exact List.mem_cons_self
  | leaf killed res => rfl

theorem kill_kills {k : Kind} {c : Comp} (h : Of k c) (hc : c.crashed = false) : c.kill.kills = c.kills := by
  cases h with
  | catacomb _ => rw [cat_kill hc]; rfl
  | _ => rfl

theorem kill_saw {k : Kind} {c : Comp} (h : Of k c) (hc : c.crashed = false) {w : Nat} {e : Option Err} (hs : SawW c.kill w e) : SawW c w e := by
  cases h with
  | runner _ => exact (List.mem_cons.1 hs).resolve_left nofun
  | catacomb _ => rw [cat_kill hc] at hs; exact (List.mem_cons.1 hs).resolve_left nofun
  | engine _ => exact (List.mem_cons.1 hs).resolve_left nofun
  | leaf killed res => exact hs.elim

/-- When an engine has exited, every worker its Start funcs produced has finished. -/
theorem fine_exit_finished {cfg : Engine.Config} {f : Engine.Fine} (hr : Engine.FReach cfg f) (he : .exit ∈ f.s.hist) {n : Name}
    {g w : Nat} (hw : .startOk n g (.obj w) ∈ f.s.hist) : ∃ e, .finished w e ∈ f.s.hist := by
  have hc := C81_clean_exit hr
  obtain ⟨post, pre, hh⟩ := List.append_of_mem he
  rw [hh] at hw hc ⊢
  rcases List.mem_append.1 hw with hm | hm
  · obtain ⟨a, b, rfl⟩ := List.append_of_mem hm
    rw [List.append_assoc, List.cons_append] at hc
    exact absurd (by simp) (hc.split (e := Engine.Ev.startOk n g (.obj w)))
  · rcases List.mem_cons.1 hm with hm | hm
    · cases hm
    · obtain ⟨e, h⟩ := (hc.split (e := Engine.Ev.exit)).2.2 n g w hm
      exact ⟨e, by simp [h]⟩

theorem told (hr : System.Reach W S) {i : I} {w : Nat} (hk : w ∈ (S i).kills) : StoppingW (S (W.child i w)) := by
  induction hr with
  | init =>
    refine absurd hk ?_
    simp only [Wiring.new]
    cases W.kind i <;> exact nofun
  | @step S S' j op hr hu hs ih =>
    by_cases hold : w ∈ (S i).kills
    · exact stopping_moves (reach_of hr _) (wstep_moves hs _) (ih hold)
    · obtain ⟨c, hc, rfl, _⟩ := wstep_inv hs
      by_cases hij : i = j
      · subst hij
        rw [after_self, (reach_of hr i).kills hc] at hk
        have hk := (List.mem_append.1 hk).resolve_right hold
        unfold Wiring.after
        rw [if_neg (W.ne i w), if_pos (List.any_eq_true.2 ⟨w, hk, decide_eq_true rfl⟩)]
        exact kill_stopping (reach_of hr _) (hu _)
      · refine absurd ?_ hold
        unfold Wiring.after at hk
        rw [if_neg hij] at hk
        split at hk
        · rw [kill_kills (reach_of hr i) (hu i)] at hk; exact hk
        · exact hk

-- the engine kills the runner and the catacomb
example : System.Reach SDemo.W (SDemo.fn (SDemo.after (SDemo.opsUp ++ SDemo.opsKill).length)) ∧
    (SDemo.fn (SDemo.after (SDemo.opsUp ++ SDemo.opsKill).length) 0).kills = [10, 11] ∧ SDemo.W.child 0 10 = 1 ∧ SDemo.W.child 0 11 = 2 :=
  ⟨SDemo.after_reach _, by decide +kernel, rfl, rfl⟩

theorem killed_iff {c : Comp} {w : Nat} : KilledW c w ↔ w ∈ c.kills := by
  cases c with
  | runner p s =>
    simp only [KilledW, Comp.kills, List.mem_filterMap]
    refine ⟨?_, fun ⟨x, h, hx⟩ => ?_⟩
    · rintro (⟨g, h⟩ | ⟨c, h⟩) <;> exact ⟨_, h, rfl⟩
    · cases x <;> simp [rkillOf] at hx
      · subst hx; exact .inl ⟨_, h⟩
      · subst hx; exact .inr ⟨_, h⟩
  | catacomb own s =>
    simp only [KilledW, Comp.kills, List.mem_filterMap]
    refine ⟨?_, fun ⟨x, h, hx⟩ => ?_⟩
    · rintro (⟨g, h⟩ | ⟨c, h⟩ | ⟨i, h⟩) <;> exact ⟨_, h, rfl⟩
    · cases x <;> simp [ckillOf] at hx <;> subst hx <;> first
        | exact .inl ⟨_, h⟩
        | exact .inr (.inl ⟨_, h⟩)
        | exact .inr (.inr ⟨_, h⟩)
  | engine cfg f =>
    simp only [KilledW, Comp.kills, List.mem_filterMap]
    refine ⟨fun h => ⟨_, h, rfl⟩, fun ⟨x, h, hx⟩ => ?_⟩
    unfold ekillOf at hx
    split at hx
    · injection hx with hx; subst hx; exact h
    · cases hx
  | leaf killed res => exact ⟨False.elim, nofun⟩

/-- C105: a worker whose Kill method has been called by another is stopping. -/
theorem C105_told (hr : System.Reach W S) {i : I} {w : Nat} (hk : KilledW (S i) w) : StoppingW (S (W.child i w)) := told hr (killed_iff.1 hk)

theorem saw_iff {c : Comp} {w : Nat} {e : Option Err} : SawW c w e ↔ (w, e) ∈ c.ends := by
  cases c with
  | runner p s =>
    simp only [SawW, Comp.ends, List.mem_filterMap]
    exact ⟨fun h => ⟨_, h, rfl⟩, fun ⟨x, h, hx⟩ => by cases x <;> simp [rendOf] at hx; obtain ⟨rfl, rfl⟩ := hx; exact h⟩
  | catacomb own s =>
    simp only [SawW, Comp.ends, List.mem_filterMap]
    exact ⟨fun h => ⟨_, h, rfl⟩, fun ⟨x, h, hx⟩ => by cases x <;> simp [cendOf] at hx; obtain ⟨rfl, rfl⟩ := hx; exact h⟩
  | engine cfg f =>
    simp only [SawW, Comp.ends, List.mem_filterMap]
    exact ⟨fun h => ⟨_, h, rfl⟩, fun ⟨x, h, hx⟩ => by cases x <;> simp [eendOf] at hx; obtain ⟨rfl, rfl⟩ := hx; exact h⟩
  | leaf killed res => exact ⟨False.elim, nofun⟩

/-- C105: if Wait of a worker has returned to another, it has ended, and with that result. (After nil, the Wait method of a catacomb returns
an error if somebody calls Kill with one: C11.) -/
theorem C105_seen (hr : System.Reach W S) {i : I} {w : Nat} {e : Option Err} (hk : SawW (S i) w e) : System.Settled (S (W.child i w)) e := by
  induction hr with
  | init =>
    refine absurd hk ?_
    simp only [Wiring.new]
    cases W.kind i <;> exact nofun
  | @step S S' j op hr hu hs ih =>
    refine (reach_of hr _).settled (wstep_moves hs _) ?_
    by_cases hold : SawW (S i) w e
    · exact ih hold
    · obtain ⟨c, hc, rfl, hf⟩ := wstep_inv hs
      by_cases hij : i = j
      · subst hij
        rw [after_self] at hk
        rw [saw_iff, (reach_of hr i).ends hc] at hk
        exact .inl (hf w e ((List.mem_append.1 hk).resolve_right (fun h => hold (saw_iff.2 h))))
      · refine absurd ?_ hold
        unfold Wiring.after at hk
        rw [if_neg hij] at hk
        split at hk
        · exact kill_saw (reach_of hr i) (hu i) hk
        · exact hk

-- the engine sees both of them end
example : System.Reach SDemo.W (SDemo.fn (SDemo.after SDemo.ops.length)) ∧ SawW (SDemo.fn (SDemo.after SDemo.ops.length) 0) 10 none ∧
    SawW (SDemo.fn (SDemo.after SDemo.ops.length) 0) 11 none :=
  ⟨SDemo.after_reach _, saw_iff.2 (by decide +kernel), saw_iff.2 (by decide +kernel)⟩

/-- When a worker has ended, Wait of every worker of its has returned. -/
theorem ended_saw {k : Kind} {c : Comp} (h : Of k c) (he : EndedW c) {w : Nat} (ht : TookW c w) : ∃ e, SawW c w e := by
  cases h with
  | runner hr =>
    obtain ⟨id, g, ht⟩ := ht
    obtain ⟨x, hx⟩ := Option.isSome_iff_exists.1 he
    obtain ⟨e, he⟩ := Option.isSome_iff_exists.1 (runner_exit_finished hr (wait_exit hr hx) ht)
    exact ⟨e, rfin_mem he⟩
  | catacomb hr =>
    have hd : Catacomb.Ev.dead ∈ _ := Classical.byContradiction (fun hn => by
      have := (C67_wait hr).1 hn
      unfold EndedW at he
      rw [Comp.result, this] at he; cases he)
    obtain ⟨e, he⟩ := Option.isSome_iff_exists.1 ((C02_dead hr hd).2 w ht)
    exact ⟨e, Catacomb.finished_mem he⟩
  | engine hr =>
    obtain ⟨n, g, ht⟩ := ht
    unfold EndedW at he
    rw [Comp.result, C81_wait_result hr] at he
    have hx : Engine.Ev.exit ∈ _ := Classical.byContradiction (fun hx => by rw [if_neg hx] at he; cases he)
    exact fine_exit_finished hr hx ht
  | leaf _ _ => exact ht.elim

/-- C105: when a worker has ended, so have all its workers. -/
theorem C105_children_ended (hr : System.Reach W S) {i : I} (he : EndedW (S i)) {w : Nat} (ht : TookW (S i) w) : EndedW (S (W.child i w)) := by
  obtain ⟨e, h⟩ := ended_saw (reach_of hr i) he ht
  exact (C105_seen hr h).isSome

/-- C105: … and all the workers below it. -/
theorem C105_no_orphans (hr : System.Reach W S) {i j : I} (he : EndedW (S i)) (hb : BelowW W S j i) : EndedW (S j) := by
  induction hb using Relation.TransGen.head_induction_on with
  | single hb => obtain ⟨w, h1, rfl⟩ := hb; exact C105_children_ended hr he h1
  | head hb _ ih => obtain ⟨w, h1, rfl⟩ := hb; exact C105_children_ended hr ih h1

-- when the engine has ended, so has the worker of the runner
example : System.Reach SDemo.W (SDemo.fn (SDemo.after SDemo.ops.length)) ∧ EndedW (SDemo.fn (SDemo.after SDemo.ops.length) 0) ∧
    TookW (SDemo.fn (SDemo.after SDemo.ops.length) 0) 11 ∧ BelowW SDemo.W (SDemo.fn (SDemo.after SDemo.ops.length)) 3 0 :=
  ⟨SDemo.after_reach _, by unfold EndedW; decide +kernel, SDemo.took_took (by decide +kernel),
    .tail (b := 1) (.single ⟨10, SDemo.took_took (by decide +kernel), rfl⟩) ⟨10, SDemo.took_took (by decide +kernel), rfl⟩⟩

end Verif.Props
