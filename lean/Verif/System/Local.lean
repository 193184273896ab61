import Verif.System.Model
import Verif.Props.Pauses
import Verif.Props.WaitStable
import Verif.Props.Tree

/-!
# Each worker of a program

Seen from one of its workers, what a program does is an execution of that worker's model.
-/

namespace Verif.System
open Verif.Spec

/-- A worker of some kind, in a state it can reach. -/
inductive Of : Kind → Comp → Prop
  | runner {p : Runner.Params} {s : Runner.State} : Runner.Reach p s → Of (.runner p) (.runner p s)
  | catacomb {own : Nat} {s : Catacomb.State} : Catacomb.Reach own s → Of (.catacomb own) (.catacomb own s)
  | engine {cfg : Engine.Config} {f : Engine.Fine} : Engine.FReach cfg f → Of (.engine cfg) (.engine cfg f)
  | leaf (killed : Bool) (res : Option (Option Err)) : Of .leaf (.leaf killed res)

theorem Of.new (k : Kind) : Of k k.new := by
  cases k
  · exact .runner .init
  · exact .catacomb .init
  · exact .engine .init
  · exact .leaf _ _

theorem Of.step {k : Kind} {c c' : Comp} {op : Op} (h : Of k c) (hs : c.step op = some c') : Of k c' := by
  cases h with
  | runner hr =>
    cases op <;> simp only [Comp.step, reduceCtorEq] at hs
    replace hs := Option.map_eq_some_iff.1 hs
    obtain ⟨s', hs, rfl⟩ := hs
    exact .runner (.step _ hr hs)
  | catacomb hr =>
    cases op <;> simp only [Comp.step, reduceCtorEq] at hs
    replace hs := Option.map_eq_some_iff.1 hs
    obtain ⟨s', hs, rfl⟩ := hs
    exact .catacomb (.step _ hr hs)
  | engine hr =>
    cases op <;> simp only [Comp.step, reduceCtorEq] at hs
    replace hs := Option.map_eq_some_iff.1 hs
    obtain ⟨s', hs, rfl⟩ := hs
    exact .engine (.step _ hr hs)
  | leaf killed res =>
    cases op <;> simp only [Comp.step, reduceCtorEq] at hs
    · injection hs with hs; subst hs; exact .leaf _ _
    · cases res <;> simp only [Comp.step, Option.some.injEq, reduceCtorEq] at hs
      subst hs; exact .leaf _ _

/-- A step, or nothing. -/
def Moves (c c' : Comp) : Prop := c' = c ∨ ∃ op, c.step op = some c'

theorem kill_moves (c : Comp) : Moves c c.kill := by
  unfold Comp.kill
  cases h : c.step c.killOp with
  | none => exact .inl rfl
  | some c' => exact .inr ⟨_, h⟩

theorem Of.moves {k : Kind} {c c' : Comp} (h : Of k c) (hm : Moves c c') : Of k c' := by
  rcases hm with rfl | ⟨op, hs⟩
  · exact h
  · exact h.step hs

/-- The history of a worker grows, one way or another. -/
structure Grow (c c' : Comp) : Prop where
  inR : ∃ es, c'.rhist = es ++ c.rhist
  inC : ∃ es, c'.chist = es ++ c.chist
  inE : ∃ es, c'.ehist = es ++ c.ehist

theorem Grow.refl (c : Comp) : Grow c c := ⟨⟨[], rfl⟩, ⟨[], rfl⟩, ⟨[], rfl⟩⟩

theorem Of.grow {k : Kind} {c c' : Comp} {op : Op} (h : Of k c) (hs : c.step op = some c') : Grow c c' := by
  cases h with
  | runner hr =>
    cases op <;> simp only [Comp.step, reduceCtorEq] at hs
    replace hs := Option.map_eq_some_iff.1 hs
    obtain ⟨s', hs, rfl⟩ := hs
    obtain ⟨es, h2, _⟩ := hr.tab.emits (Runner.step_T hs)
    exact ⟨⟨es, h2⟩, ⟨[], rfl⟩, ⟨[], rfl⟩⟩
  | catacomb hr =>
    cases op <;> simp only [Comp.step, reduceCtorEq] at hs
    replace hs := Option.map_eq_some_iff.1 hs
    obtain ⟨s', hs, rfl⟩ := hs
    refine ⟨⟨[], rfl⟩, ?_, ⟨[], rfl⟩⟩
    rcases Props.step_hist hr hs with h | ⟨e, h⟩
    · exact ⟨[], h⟩
    · exact ⟨[e], h⟩
  | engine hr =>
    cases op <;> simp only [Comp.step, reduceCtorEq] at hs
    replace hs := Option.map_eq_some_iff.1 hs
    obtain ⟨s', hs, rfl⟩ := hs
    exact ⟨⟨[], rfl⟩, ⟨[], rfl⟩, Engine.fstep_grows (Engine.freach_hinv hr).1 hs⟩
  | leaf killed res =>
    cases op <;> simp only [Comp.step, reduceCtorEq] at hs
    · injection hs with hs; subst hs; exact ⟨⟨[], rfl⟩, ⟨[], rfl⟩, ⟨[], rfl⟩⟩
    · cases res <;> simp only [Comp.step, Option.some.injEq, reduceCtorEq] at hs
      subst hs; exact ⟨⟨[], rfl⟩, ⟨[], rfl⟩, ⟨[], rfl⟩⟩

theorem Of.grows {k : Kind} {c c' : Comp} (h : Of k c) (hm : Moves c c') : Grow c c' := by
  rcases hm with rfl | ⟨op, hs⟩
  · exact .refl _
  · exact h.grow hs

theorem take_new {α : Type} {l l' : List α} (h : ∃ es, l' = es ++ l) : l' = l'.take (l'.length - l.length) ++ l := by
  obtain ⟨es, rfl⟩ := h
  simp

/-- The Kill calls of a worker, old and new. -/
theorem Of.kills {k : Kind} {c c' : Comp} {op : Op} (h : Of k c) (hs : c.step op = some c') : c'.kills = newKills c c' ++ c.kills := by
  refine take_new ?_
  have hg := h.grow hs
  have h' := h.step hs
  cases h with
  | runner hr =>
    cases h'
    obtain ⟨es, he⟩ := hg.inR
    exact ⟨es.filterMap rkillOf, by simp only [Comp.rhist] at he; simp [Comp.kills, he]⟩
  | catacomb hr =>
    cases h'
    obtain ⟨es, he⟩ := hg.inC
    exact ⟨es.filterMap ckillOf, by simp only [Comp.chist] at he; simp [Comp.kills, he]⟩
  | engine hr =>
    cases h'
    obtain ⟨es, he⟩ := hg.inE
    exact ⟨es.filterMap ekillOf, by simp only [Comp.ehist] at he; simp [Comp.kills, he]⟩
  | leaf killed res => cases h'; exact ⟨[], rfl⟩

/-- What Wait of its workers has returned, before and now. -/
theorem Of.ends {k : Kind} {c c' : Comp} {op : Op} (h : Of k c) (hs : c.step op = some c') : c'.ends = newEnds c c' ++ c.ends := by
  refine take_new ?_
  have hg := h.grow hs
  have h' := h.step hs
  cases h with
  | runner hr =>
    cases h'
    obtain ⟨es, he⟩ := hg.inR
    exact ⟨es.filterMap rendOf, by simp only [Comp.rhist] at he; simp [Comp.ends, he]⟩
  | catacomb hr =>
    cases h'
    obtain ⟨es, he⟩ := hg.inC
    exact ⟨es.filterMap cendOf, by simp only [Comp.chist] at he; simp [Comp.ends, he]⟩
  | engine hr =>
    cases h'
    obtain ⟨es, he⟩ := hg.inE
    exact ⟨es.filterMap eendOf, by simp only [Comp.ehist] at he; simp [Comp.ends, he]⟩
  | leaf killed res => cases h'; exact ⟨[], rfl⟩

/-- Whether what Wait returns stays as it is: a catacomb's Wait may return nil first and an error after somebody calls Kill with it. -/
def Settled (c : Comp) (e : Option Err) : Prop := c.result = some e ∨ (e = none ∧ c.result.isSome = true ∧ ∃ own s, c = .catacomb own s)

theorem Of.settled {k : Kind} {c c' : Comp} (h : Of k c) (hm : Moves c c') {e : Option Err} (hr : Settled c e) : Settled c' e := by
  rcases hm with rfl | ⟨op, hs⟩
  · exact hr
  cases h with
  | runner hR =>
    cases op <;> simp only [Comp.step, reduceCtorEq] at hs
    replace hs := Option.map_eq_some_iff.1 hs
    obtain ⟨s', hs, rfl⟩ := hs
    rcases hr with hr | ⟨_, _, _, _, h⟩
    · refine .inl ?_
      exact Props.C93_runner (ok := fun _ => true) (cnt := fun _ => true) hR (.one _ rfl hs (.nil _)) hr
    · cases h
  | catacomb hR =>
    rename_i own s
    cases op <;> simp only [Comp.step, reduceCtorEq] at hs
    replace hs := Option.map_eq_some_iff.1 hs
    obtain ⟨s', hs, rfl⟩ := hs
    have hsome : (Comp.catacomb own s).result.isSome = true := by
      rcases hr with hr | ⟨_, hr, _⟩
      · rw [hr]; rfl
      · exact hr
    have hd : .dead ∈ s.hist := Classical.byContradiction (fun hn => by
      have := (Props.C67_wait hR).1 hn
      rw [Comp.result, this] at hsome; cases hsome)
    have hR' : Catacomb.Reach own s' := .step _ hR hs
    have hd' : .dead ∈ s'.hist := by
      rcases Props.step_hist hR hs with h | ⟨x, h⟩
      · rw [h]; exact hd
      · rw [h]; exact List.mem_cons_of_mem _ hd
    have hw := ((Props.C67_wait hR).2 hd)
    have hw' := ((Props.C67_wait hR').2 hd').1
    cases e with
    | none => exact .inr ⟨rfl, by rw [Comp.result, hw']; rfl, _, _, rfl⟩
    | some x =>
      refine .inl ?_
      have hr := hr.resolve_right (fun h => by cases h.1)
      rw [Comp.result, hw.1] at hr
      rw [Comp.result, hw', Props.C67_stable hR hs hw.2 (Option.some.inj hr)]
  | engine hR =>
    cases op <;> simp only [Comp.step, reduceCtorEq] at hs
    replace hs := Option.map_eq_some_iff.1 hs
    obtain ⟨s', hs, rfl⟩ := hs
    rcases hr with hr | ⟨_, _, _, _, h⟩
    · exact .inl (Props.C93_engine hR (.tail (.refl _) hs) hr)
    · cases h
  | leaf killed res =>
    rcases hr with hr | ⟨_, _, _, _, h⟩
    · cases op <;> simp only [Comp.step, reduceCtorEq] at hs
      · injection hs with hs; subst hs; exact .inl hr
      · simp only [Comp.result] at hr; subst hr; simp [Comp.step] at hs
    · cases h

theorem Settled.isSome {c : Comp} {e : Option Err} (h : Settled c e) : c.result.isSome = true := by
  rcases h with h | h
  · rw [h]; rfl
  · exact h.2.1

/-- Once its Wait returns, it always does. -/
theorem Of.ended {k : Kind} {c c' : Comp} (h : Of k c) (hm : Moves c c') (hr : c.result.isSome = true) : c'.result.isSome = true := by
  obtain ⟨e, he⟩ := Option.isSome_iff_exists.1 hr
  exact (h.settled hm (.inl he)).isSome

end Verif.System
