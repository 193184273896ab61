import Mathlib.Logic.Relation
import Verif.Base

/-! # Specification: dependency graphs and cycles -/

namespace Verif.Spec

/-- `a` declares `b` as an input, in a table from name to declared inputs. -/
def DependsOn (inputs : AMap (List Name)) (a b : Name) : Prop :=
  ∃ l, inputs.get? a = some l ∧ b ∈ l

/-- Some name depends on itself, directly or through others. -/
def HasCycle (inputs : AMap (List Name)) : Prop :=
  ∃ n, Relation.TransGen (DependsOn inputs) n n

end Verif.Spec
