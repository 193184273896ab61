import Verif.Engine.Cause
import Verif.Props.EngineDemo

/-!
C66: the engine stops nothing without a reason.
-/

namespace Verif.Props
open Verif.Spec Verif.Engine

variable {cfg : Config} {s : State}

/-- C66: whenever an attempt is told to stop, the engine has been killed, or the attempt is open and, unless its manifold
lists an input twice, was given for one of its inputs something else than the engine has now. Whenever a worker's Kill is
called, the engine has been killed or an attempt it belongs to has been told to stop. -/
theorem C66_caused (hr : Reach cfg s) : AtEvery Caused s.hist := reach_caused hr

-- both kinds of events occur in a live engine
example : let s := Demo.after Demo.cfg Demo.opsBounce
    Reach Demo.cfg s ∧ .kill ∉ s.hist ∧ .cancelled 1 ∈ s.hist ∧ .cancelled 2 ∈ s.hist ∧ .killW (.obj 11) ∈ s.hist :=
  ⟨Demo.after_reach _ _, by decide +kernel, by decide +kernel, by decide +kernel, by decide +kernel⟩

/-- Manifold 1 lists its input 0 twice; it waits for 0, which then comes up. -/
def Demo.opsTwiceInput : List Op :=
  [ .armInstall 0 {} [0] none, .armInstall 1 { inputs := [0, 0] } [1, 0] none,
    .gTimer 1 0, .gStartErr 1 .missing, .armStopped 1 3 Demo.noVals none,
    .gTimer 0 0, .gStartOk 0 (.obj 10), .armStarted 0 5 none ]

/-- C66, the exception: an attempt of a manifold that lists an input twice is told to stop although it was given just the
workers that the engine has, and has since it was made. -/
theorem C66_listed_twice : ∃ (s : State) (h : List Ev), Reach Demo.cfg s ∧ s.hist = .cancelled 2 :: h ∧ .kill ∉ h ∧
    openH h 1 = some 2 ∧ ¬ Stale h 1 := by
  refine ⟨Demo.after Demo.cfg Demo.opsTwiceInput, (Demo.after Demo.cfg Demo.opsTwiceInput).hist.tail,
    Demo.after_reach _ _, by decide +kernel, by decide +kernel, by decide +kernel, ?_⟩
  rintro ⟨m, g, sn, i, h1, h2, h3, h4⟩
  have e1 : manH (Demo.after Demo.cfg Demo.opsTwiceInput).hist.tail 1 = some { inputs := [0, 0] } := by decide +kernel
  rw [e1] at h1; cases h1
  have e2 : lastBegin (Demo.after Demo.cfg Demo.opsTwiceInput).hist.tail 1 =
    some (2, { workers := ⟨[(0, some (.obj 10))]⟩, outputs := ⟨[(0, none)]⟩ }) := by decide +kernel
  rw [e2] at h2; cases h2
  have hi : i = 0 := by simpa using h3
  subst hi
  exact h4 (by decide +kernel)

end Verif.Props
