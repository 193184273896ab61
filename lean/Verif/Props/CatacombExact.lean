import Verif.Catacomb.Exact
import Verif.Props.CatacombDemo

/-!
# C94: exactly which histories a catacomb can have

`AtEvery (Possible own)` is a complete account of a catacomb as its users see it: what it says cannot happen does not, and all it
allows does in some execution.
-/

namespace Verif.Props
open Verif.CSpec Verif.Catacomb Verif.Spec

/-- C94: a history is one of a catacomb if and only if each of its events is possible after those before it. -/
theorem C94_exact {own : Nat} {h : List Ev} : (∃ s, Reach own s ∧ s.hist = h) ↔ AtEvery (Possible own) h :=
  ⟨fun ⟨_, hr, he⟩ => he ▸ hr.xinv.2, fun hp => let ⟨s, hr, he, _⟩ := possible_reach h hp; ⟨s, hr, he⟩⟩

/-- C94: what can be seen next, after a history, is exactly what is possible. -/
theorem C94_next {own : Nat} {s : State} (hr : Reach own s) {e : Ev} :
    (∃ s', Reach own s' ∧ s'.hist = e :: s.hist) ↔ Possible own e s.hist :=
  C94_exact.trans ⟨fun h => h.1, fun h => ⟨h, hr.xinv.2⟩⟩

/-- C94: whatever is true of the history of every execution follows from the specification. -/
theorem C94_complete {own : Nat} (P : List Ev → Prop) :
    (∀ s, Reach own s → P s.hist) ↔ ∀ h, AtEvery (Possible own) h → P h :=
  ⟨fun hP h hp => let ⟨s, hr, he⟩ := C94_exact.2 hp; he ▸ hP s hr, fun hP s hr => hP _ hr.xinv.2⟩

/- C94_exact, from right to left: a life with no workers, each event of which is checked against the specification. So some catacomb lives it. -/
example : ∃ s, Reach 0 s ∧ s.hist = [.waitRet none, .dead, .workKill none, .workRet (.ret none), .workCall, .claimed 0, .callInvoke 0 {}] := by
  refine C94_exact.2 ?_
  simp [AtEvery, Possible, EvOk, Extra, Killable, OwnDying, WorkErr, firstError, killOf, effective, invokes, Valid]

/- C94_next: once worker 2 has failed and the catacomb knows, its other worker may be Kill()ed, and Wait cannot have returned. -/
example : (∃ s', Reach 0 s' ∧ s'.hist = .killT 0 1 :: (CDemo.after 0 (CDemo.opsFailed (.user 5))).hist) ∧
    ¬ ∃ s', Reach 0 s' ∧ s'.hist = .waitRet (some (.user 5)) :: (CDemo.after 0 (CDemo.opsFailed (.user 5))).hist :=
  ⟨⟨CDemo.after 0 (CDemo.opsFailed (.user 5) ++ [.kDying 0]), CDemo.after_reach _ _, by decide +kernel⟩,
   fun h => absurd ((C94_next (CDemo.after_reach _ _)).1 h).1.1 (by decide +kernel)⟩

end Verif.Props
