import Verif.Spec.EngineCount

/-!
# Where an engine settles

A policy says of each manifold whether it keeps a worker, given which of its inputs have one.
-/

namespace Verif.Spec
open Verif.Engine

abbrev Policy := Name → (Name → Bool) → Bool

/-- The inputs an attempt was given a worker for. -/
def given (sn : Snapshot) (i : Name) : Bool := match sn.workers.get? i with
  | some (some _) => true
  | _ => false

/-- The error is one after which a manifold stays stopped until one of its inputs changes. -/
def comesToRest : Option Err → Bool
  | none => true
  | some r => decide (.missing ∈ r.tree ∨ .aborted ∈ r.tree)

/-- Start funcs and workers follow the policy: an attempt that comes to rest without having been told to stop is one that
the policy wants no worker for. (It may fail in other ways: then it is tried again.) -/
def Obeys (P : Policy) : Ev → List Ev → Prop := fun e h => match e with
  | .ended n _ _ _ f false _ => comesToRest f = true → ∀ g sn, lastBegin h n = some (g, sn) → P n (given sn) = false
  | _ => True

/-- The policy wants every worker that has been registered. -/
def Wanted (P : Policy) (h : List Ev) : Prop := ∀ n g sn, openH h n = some g → lastBegin h n = some (g, sn) →
  P n (given sn) = true

/-- Every worker that the policy does not want finishes (or is not the engine itself, which cannot). -/
def Leaves (P : Policy) (h : Nat → List Ev) : Prop := ∀ k n g w sn, openH (h k) n = some g → workerH (h k) n = some w →
  lastBegin (h k) n = some (g, sn) → P n (given sn) = false → ∃ q j e, w = .obj q ∧ .finished q e ∈ h j

/-- What the policy makes of the manifolds installed: exactly those have a worker that are wanted when exactly those have
one. -/
def Result (P : Policy) (h : List Ev) (R : Name → Bool) : Prop := ∀ n, R n = true ↔
  manH h n ≠ none ∧ P n (fun i => decide (i ∈ inputsH h n) && R i) = true

/-- The same names are installed, with the same inputs. -/
def SameGraph (h h' : List Ev) : Prop := ∀ n, (manH h n).map Manifold.inputs = (manH h' n).map Manifold.inputs

/-- The manifolds that have a worker. -/
def upH (h : List Ev) (n : Name) : Bool := (workerH h n).isSome

/-- Nothing happens any more but reports, failing installs, and what user code does on its own. -/
def SameTable (h h' : List Ev) : Prop := ∀ n, attemptsH h n = attemptsH h' n ∧ manH h n = manH h' n ∧ openH h n = openH h' n ∧
  workerH h n = workerH h' n ∧ lastBegin h n = lastBegin h' n

/-- From step `n` on nothing is installed, and no manifold ends by itself with an error after which it is tried again. -/
def NoCauses (h : Nat → List Ev) (n : Nat) : Prop := ∀ k, n ≤ k → ∀ a, causesH (h k) a = causesH (h n) a

end Verif.Spec
