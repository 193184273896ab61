import Verif.ValidateProofs

/-!
# C49: `Validate` detects exactly the cycles

Specification: `Spec.HasCycle` (Verif/Spec/Graph.lean), the transitive closure of the declared inputs.
-/

namespace Verif.Props

open Verif.Spec

/-- C49. For every table of inputs (of any size, with duplicate inputs, with inputs that name no manifold)
and every iteration order of the map, `Validate` returns an error iff the graph has a cycle. -/
theorem C49_validate_iff_acyclic (inputs : AMap (List Name)) (order : List Name)
    (ho : IsRangeOrder inputs order) :
    Validate.validate inputs order = none ↔ ¬ HasCycle inputs := by
  rcases Validate.validate_cases (inputs := inputs) order (fun k hk => (ho.2 k).2 hk) with h | h
  · exact iff_of_true h.1 h.2
  · exact iff_of_false (by rw [h.1]; simp) (fun hn => hn h.2)

/-- C49, the error: when there is a cycle the error is the cycle error (the model's recursion bound, which
does not exist in the code, is never the reason). -/
theorem C49_validate_error (inputs : AMap (List Name)) (order : List Name)
    (ho : IsRangeOrder inputs order) (e : Err) (he : Validate.validate inputs order = some e) :
    e = .cycle ∧ HasCycle inputs := by
  rcases Validate.validate_cases (inputs := inputs) order (fun k hk => (ho.2 k).2 hk) with h | h
  · rw [h.1] at he; cases he
  · rw [h.1] at he; cases he; exact ⟨rfl, h.2⟩

/-- C49: the node the error names is on a cycle, and all nodes it says are being considered lead to it. -/
theorem C49_error_names_cycle (inputs : AMap (List Name)) (order : List Name) {n : Name} {st : Validate.VState}
    (h : Validate.run inputs order = .cycle n st) : Relation.TransGen (DependsOn inputs) n n ∧
      ∀ d, st.isDoing d = true → Relation.TransGen (DependsOn inputs) d n := by
  obtain ⟨_, h2, _⟩ := Validate.run_facts (inputs := inputs) (inputs.keys.length + 1) order {} Validate.vinv_init
    (by simp [Validate.VState.isDoing]) (by rw [Validate.free_init]; exact Nat.le_refl _)
  obtain ⟨h3, h4⟩ := h2 n st h
  exact ⟨h4 n h3, h4⟩

/-- C49: the verdict does not depend on the map iteration order. -/
theorem C49_order_independent (inputs : AMap (List Name)) (o₁ o₂ : List Name)
    (h₁ : IsRangeOrder inputs o₁) (h₂ : IsRangeOrder inputs o₂) :
    Validate.validate inputs o₁ = Validate.validate inputs o₂ := by
  rcases Validate.validate_cases (inputs := inputs) o₁ (fun k hk => (h₁.2 k).2 hk) with a | a <;>
  rcases Validate.validate_cases (inputs := inputs) o₂ (fun k hk => (h₂.2 k).2 hk) with b | b
  · rw [a.1, b.1]
  · exact absurd b.2 a.2
  · exact absurd a.2 b.2
  · rw [a.1, b.1]

/-- A diamond with a duplicate input and an input that is not installed. -/
def diamond : AMap (List Name) := ⟨[(0, [1, 2]), (1, [3]), (2, [3, 3, 9]), (3, [])]⟩
/-- The same with 3 → 0 added. -/
def ring : AMap (List Name) := ⟨[(0, [1, 2]), (1, [3]), (2, [3, 3, 9]), (3, [0])]⟩

example : IsRangeOrder diamond [2, 0, 3, 1] := by rw [← isRangeOrder_iff]; decide
example : IsRangeOrder ring [2, 0, 3, 1] := by rw [← isRangeOrder_iff]; decide
example : Validate.validate diamond [2, 0, 3, 1] = none := by decide
example : Validate.validate ring [2, 0, 3, 1] = some .cycle := by decide
example : (match Validate.run ring [2, 0, 3, 1] with
    | .cycle n st => some (n, [0, 1, 2, 3, 9].map st.isDoing)
    | _ => none) = some (3, [true, true, true, true, false]) := by decide
/-- both sides of the equivalence are inhabited -/
example : HasCycle ring ∧ ¬ HasCycle diamond :=
  ⟨(C49_validate_error ring [2, 0, 3, 1] (by rw [← isRangeOrder_iff]; decide) .cycle (by decide)).2,
   (C49_validate_iff_acyclic diamond [2, 0, 3, 1] (by rw [← isRangeOrder_iff]; decide)).1 (by decide)⟩

end Verif.Props
