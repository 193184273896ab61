import Verif.Catacomb.Observe
import Verif.Props.CatacombDemo

/-!
# C67: Err and Context of a catacomb
-/

namespace Verif.Props
open Verif.Spec Verif.Catacomb Verif.CSpec

variable {own : Nat} {s s' : State}

theorem step_hist (hr : Reach own s) {op : Op} (hs : Catacomb.step own s op = some s') : s'.hist = s.hist ∨ ∃ e, s'.hist = e :: s.hist := by
  obtain ⟨hc, hT⟩ := step_T hs
  rcases (hT.hist hr.shape hr.hinv hc).1 with he | ⟨e, he, _⟩
  · exact Or.inl he
  · exact Or.inr ⟨e, he⟩

/-- C67: Err is ErrStillAlive as long as nobody has killed the catacomb, and the first error after that. -/
theorem C67_err (hr : Reach own s) :
    (¬ Dying s.hist → err s = some .tombStillAlive) ∧ (Dying s.hist → err s = firstError own s.hist) := by
  have hT := hr.hinv.tomb
  cases h : s.tomb.reason with
  | none =>
    have hnd : ¬ Dying s.hist := fun hd => by
      have := hT.dying.2 hd
      simp [Tomb.dying, h] at this
    exact ⟨fun _ => by simp only [err, h], fun hd => absurd hd hnd⟩
  | some r =>
    have hd : Dying s.hist := hT.dying.1 (by simp [Tomb.dying, h])
    exact ⟨fun hnd => absurd hd hnd, fun _ => by simp only [err, h]; exact hT.reason r h⟩

/-- C67: Wait returns exactly when the catacomb is dead, and then what Err says. -/
theorem C67_wait (hr : Reach own s) : (.dead ∉ s.hist → waitNow s = none) ∧ (.dead ∈ s.hist → waitNow s = some (err s) ∧ Dying s.hist) := by
  have hT := hr.hinv.tomb
  refine ⟨fun h => ?_, fun h => ?_⟩
  · have : s.tomb.dead ≠ true := fun hd => h (hT.dead.1 hd)
    simp [waitNow, Tomb.wait, this]
  · have hd : Dying s.hist := by
      obtain ⟨post, pre, hh⟩ := List.append_of_mem h
      have hk := hr.events
      rw [hh] at hk
      obtain ⟨_, ⟨e, he⟩, _⟩ : EvOk own .dead pre := hk.split
      exact ⟨_, by rw [hh]; exact List.mem_append_right _ (List.mem_cons_of_mem _ he), rfl⟩
    refine ⟨?_, hd⟩
    have h1 := hT.dying.2 hd
    simp only [waitNow, Tomb.wait, hT.dead.2 h, if_true, err]
    cases hx : s.tomb.reason with
    | none => simp [Tomb.dying, hx] at h1
    | some r => rfl

/-- C67: an error that Err has given is what it gives from then on. -/
theorem C67_stable (hr : Reach own s) {op : Op} (hs : Catacomb.step own s op = some s') (hd : Dying s.hist) {e : Err} (he : err s = some e) :
    err s' = some e := by
  have hr' : Reach own s' := .step op hr hs
  have h1 := (C67_err hr).2 hd
  rw [he] at h1
  rcases step_hist hr hs with h | ⟨x, h⟩
  · rw [(C67_err hr').2 (by rw [h]; exact hd), h, h1]
  · rw [(C67_err hr').2 (by rw [h]; obtain ⟨y, hy, hk⟩ := hd; exact ⟨y, List.mem_cons_of_mem _ hy, hk⟩), h]
    simp only [firstError, ← h1]

/-- C67: a context got from Context is done exactly if its parent is or the catacomb has been killed. -/
theorem C67_context {o : OState} (hr : OReach own o) {i p : Nat} {b : Bool} (hc : o.ctxs[i]? = some (p, b)) :
    b = true ↔ Dying o.cat.hist ∨ p ∈ o.parents := by
  suffices h : ∀ c ∈ o.ctxs, (c.2 = true ↔ o.cat.tomb.dying = true ∨ c.1 ∈ o.parents) by
    rw [← hr.reach.hinv.tomb.dying]
    exact h (p, b) (List.mem_of_getElem? hc)
  clear hc
  induction hr with
  | init => exact nofun
  | @step o o' op hr hs ih =>
    cases op with
    | cat op =>
      simp only [ostep, Option.map_eq_some_iff] at hs
      obtain ⟨s', h1, rfl⟩ := hs
      intro c hc
      simp only at hc ⊢
      have hmono : o.cat.tomb.dying = true → s'.tomb.dying = true := by
        intro hd
        have hr' : Reach own s' := .step op hr.reach h1
        rw [hr'.hinv.tomb.dying]
        obtain ⟨y, hy, hk⟩ := hr.reach.hinv.tomb.dying.1 hd
        rcases step_hist hr.reach h1 with h | ⟨x, h⟩
        · exact ⟨y, by rw [h]; exact hy, hk⟩
        · exact ⟨y, by rw [h]; exact List.mem_cons_of_mem _ hy, hk⟩
      by_cases hb : becomesDying o.cat s' = true
      · rw [if_pos hb] at hc
        obtain ⟨c', _, rfl⟩ := List.mem_map.1 hc
        have : s'.tomb.dying = true := by simp only [becomesDying, Bool.and_eq_true] at hb; exact hb.1
        simp [this]
      · rw [if_neg hb] at hc
        rw [ih c hc]
        have : o.cat.tomb.dying = true ↔ s'.tomb.dying = true := by
          refine ⟨hmono, fun h => ?_⟩
          simp only [becomesDying, h, Bool.true_and, Bool.not_eq_true', Bool.not_eq_false] at hb
          exact hb
        rw [this]
    | cancel p =>
      simp only [ostep, Option.some.injEq] at hs
      subst hs
      intro c hc
      obtain ⟨c', hc', rfl⟩ := List.mem_map.1 hc
      have := ih c' hc'
      by_cases hp : c'.1 = p
      · simp [hp]
      · simp only [if_neg hp, this, List.mem_cons]
        exact ⟨fun h => h.imp id Or.inr, fun h => h.imp id (fun h => h.resolve_left hp)⟩
    | context p =>
      simp only [ostep, Option.some.injEq] at hs
      subst hs
      intro c hc
      rcases List.mem_append.1 hc with hc | hc
      · exact ih c hc
      · rw [List.mem_singleton] at hc
        subst hc
        simp

/-! ### Examples -/

/-- Alive, killed with nil, failed, and dead; the last has seen the errors 5 and then 6. -/
example : err (CDemo.after 7 CDemo.opsUp) = some .tombStillAlive ∧ err (CDemo.after 7 CDemo.opsClean) = none ∧
    err (CDemo.after 7 (CDemo.opsFailed (.user 5))) = some (.user 5) ∧ waitNow (CDemo.after 7 (CDemo.opsFailed (.user 5))) = none ∧
    err (CDemo.after 7 CDemo.opsLife) = some (.user 5) ∧ waitNow (CDemo.after 7 CDemo.opsLife) = some (some (.user 5)) := by decide +kernel

/-- Run a list of operations with contexts. -/
def oRun (own : Nat) : OState → List OOp → Option OState
  | o, [] => some o
  | o, op :: ops => (ostep own o op).bind fun o' => oRun own o' ops

/-- Three contexts, one of which is done because of its parent; then the catacomb is killed; the next is done from the start. -/
example : (oRun 7 { cat := Catacomb.init } ([.context 1, .context 2] ++ CDemo.opsUp.map .cat ++ [.cancel 2, .context 3])).map (·.ctxs) =
      some [(1, false), (2, true), (3, false)] ∧
    (oRun 7 { cat := Catacomb.init } ([.context 1, .context 2] ++ CDemo.opsUp.map .cat ++ [.cancel 2, .cat (.killCall none), .context 3])).map
      (·.ctxs) = some [(1, true), (2, true), (3, true)] := by decide +kernel

end Verif.Props
