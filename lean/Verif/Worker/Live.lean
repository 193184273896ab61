import Verif.Worker.Inv

/-!
The calls of Stop, Dead and the workertest functions end (proofs only).
-/

namespace Verif.Worker
open Verif.Spec Verif.WSpec

/-- Steps of the calls, as opposed to the worker's, the clock's and new calls. -/
def Op.internal : Op → Bool
  | .call _ | .finish _ | .timeout _ => false
  | _ => true

def CanStep (s : State) : Prop := ∃ op s', op.internal = true ∧ Worker.step s op = some s'

def Pc.rank : Pc → Nat
  | .start => 4 | .killed => 3 | .wait => 1 | .select => 1 | .returned => 0
def GPc.rank : GPc → Nat
  | .none => 0 | .wait => 2 | .got _ => 1 | .done => 0
/-- A call that has not started its goroutine yet may do so. -/
def Call.rank (x : Call) : Nat := 2 * x.pc.rank + x.g.rank
def measure (s : State) : Nat := (s.calls.map Call.rank).sum

theorem sum_set {α : Type} (f : α → Nat) {l : List α} {i : Nat} {x y : α} (h : l[i]? = some x) :
    ((l.set i y).map f).sum + f x = (l.map f).sum + f y := by
  induction l generalizing i with
  | nil => cases h
  | cons a l ih =>
    cases i with
    | zero =>
      simp only [List.getElem?_cons_zero, Option.some.injEq] at h
      subst h
      simp only [List.set_cons_zero, List.map_cons, List.sum_cons]; omega
    | succ i =>
      simp only [List.getElem?_cons_succ] at h
      have := ih h
      simp only [List.set_cons_succ, List.map_cons, List.sum_cons]; omega

theorem emit_calls (s : State) (e : Ev) : (s.emit e).calls = s.calls := rfl

theorem step_measure {s s' : State} {op : Op} (hs : Worker.step s op = some s') :
    (op.internal = true → measure s' < measure s) ∧ ((∀ k, op ≠ .call k) → measure s' ≤ measure s) := by
  cases op with
  | call k => exact ⟨nofun, fun h => absurd rfl (h k)⟩
  | finish r =>
    simp only [Worker.step, Op.id?] at hs
    split at hs
    · cases hs; exact ⟨nofun, fun _ => Nat.le_refl _⟩
    · cases hs
  | timeout c =>
    simp only [Worker.step, Op.id?, Option.bind_eq_some_iff] at hs
    obtain ⟨x, hx, hs⟩ := hs
    simp only [stepCall] at hs
    split at hs
    · cases hs
      refine ⟨nofun, fun _ => ?_⟩
      have := sum_set Call.rank (y := { x with timer := true }) hx
      simp only [Call.rank] at this
      simp only [measure, State.emit, State.set, Call.rank]; omega
    · cases hs
  | kill c | go c d | gWait c | gSend c | stopRet c | recv c | late c =>
    simp only [Worker.step, Op.id?, Option.bind_eq_some_iff] at hs
    obtain ⟨x, hx, hs⟩ := hs
    have key : ∀ y : Call, y.rank < x.rank → s'.calls = s.calls.set c y → measure s' < measure s := by
      intro y hy hc
      have := sum_set Call.rank (y := y) hx
      simp only [measure, hc]; omega
    suffices h : measure s' < measure s from ⟨fun _ => h, fun _ => Nat.le_of_lt h⟩
    simp only [stepCall] at hs
    repeat' split at hs
    all_goals first
      | (cases hs; done)
      | (cases hs
         refine key _ ?_ rfl
         simp_all [Call.rank, Pc.rank, GPc.rank]
         done)
      | (cases hs
         refine key _ ?_ rfl
         simp_all [Call.rank, Pc.rank, GPc.rank]
         omega)

/-- When no call can go on: it has returned, or waits for the worker, or for worker or timeout. -/
theorem quiet {s : State} (hI : Inv s) (hq : ¬ CanStep s) {c : Nat} {x : Call} (hx : s.calls[c]? = some x) :
    (x.pc = .returned ∨ (x.pc = .wait ∧ s.fin = none) ∨ (x.pc = .select ∧ s.fin = none ∧ x.timer = false)) ∧
    (x.g = .none ∨ x.g = .done ∨ (x.g = .wait ∧ s.fin = none)) := by
  have hc := hI.ok c x hx
  have st : ∀ (op : Op), op.internal = true → op.id? = some c → (stepCall s c x op).isSome = true → False := by
    intro op h1 h2 h3
    refine hq ⟨op, (stepCall s c x op).get h3, h1, ?_⟩
    simp only [Worker.step, h2, hx, Option.bind_some, Option.some_get]
  have hg : x.g = .none ∨ x.g = .done ∨ (x.g = .wait ∧ s.fin = none) := by
    cases hg : x.g with
    | none => exact Or.inl rfl
    | done => exact Or.inr (Or.inl rfl)
    | wait =>
      cases hf : s.fin with
      | none => exact Or.inr (Or.inr ⟨rfl, rfl⟩)
      | some r => exact (st (.gWait c) rfl rfl (by simp only [stepCall, hg, hf, Option.isSome_some])).elim
    | got r =>
      refine (st (.gSend c) rfl rfl ?_).elim
      have hb := hc.empty (by rw [hg]; nofun)
      simp only [stepCall, hg, hb, if_true]
      split <;> rfl
  refine ⟨?_, hg⟩
  cases hp : x.pc with
  | start =>
    refine (st (.kill c) rfl rfl ?_).elim
    simp only [stepCall, hp]; split
    · rfl
    · split <;> rfl
  | killed =>
    refine (st (.go c .absent) rfl rfl ?_).elim
    simp only [stepCall, hp]; split <;> rfl
  | wait =>
    cases hf : s.fin with
    | none => exact Or.inr (Or.inl ⟨rfl, rfl⟩)
    | some r => exact (st (.stopRet c) rfl rfl (by simp only [stepCall, hp, hf, Option.isSome_some])).elim
  | select =>
    refine Or.inr (Or.inr ⟨rfl, ?_, ?_⟩)
    · rcases hg with hg | hg | ⟨_, hg⟩
      · exact absurd hg (hc.sel hp).2
      · obtain ⟨r, hb⟩ := hc.full hg hp
        refine (st (.recv c) rfl rfl ?_).elim
        simp only [stepCall, hp, hb]; rfl
      · exact hg
    · cases ht : x.timer with
      | false => rfl
      | true =>
        refine (st (.late c) rfl rfl ?_).elim
        simp only [stepCall, hp, ht, and_self, if_true]; rfl
  | returned => exact Or.inl rfl

end Verif.Worker
