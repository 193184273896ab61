import Verif.Spec.History

/-!
# How often an engine starts a manifold

What counts as a reason for one attempt.
-/

namespace Verif.Spec
open Verif.Engine

/-- The attempts of a manifold begun so far. -/
def attemptsH : List Ev → Name → Nat
  | [], _ => 0
  | .begin m _ _ _ _ :: h, n => attemptsH h n + if n = m then 1 else 0
  | _ :: h, n => attemptsH h n

/-- The inputs that a manifold declares now. -/
def inputsH (h : List Ev) (n : Name) : List Name := match manH h n with
  | some m => m.inputs
  | none => []

/-- The error is one after which a manifold is tried again without being told. -/
def retried : Option Err → Bool
  | none => false
  | some r => decide (.aborted ∉ r.tree ∧ .missing ∉ r.tree ∧ (.bounce ∈ r.tree ∨ .uninstall ∉ r.tree))

/-- How often the manifold was installed, or ended by itself with an error after which it is tried again. -/
def causesH : List Ev → Name → Nat
  | [], _ => 0
  | .installed m _ :: h, n => causesH h n + if n = m then 1 else 0
  | .ended m _ _ _ f told _ :: h, n => causesH h n + if n = m ∧ told = false ∧ retried f = true then 1 else 0
  | _ :: h, n => causesH h n

/-- How often an input of the manifold was registered or lost while it was declared (an input declared twice counts
twice). -/
def newsH : List Ev → Name → Nat
  | [], _ => 0
  | e :: h, n => newsH h n + match e with
    | .registered i _ _ _ => (inputsH h n).count i
    | .ended i _ _ _ _ _ lost => if lost = none then 0 else (inputsH h n).count i
    | _ => 0

end Verif.Spec
