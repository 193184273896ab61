import Verif.Base

/-!
# dependency.Validate

Models dependency/util.go:31-79.
-/

namespace Verif.Validate

/-- The `doing` and `done` maps of `validator` (dependency/util.go:48-52). They are Go maps, shared by all
recursive calls, so the model threads them through. -/
structure VState where
  doing : AMap Bool := .empty
  done : AMap Bool := .empty

/-- `v.doing[node]`: absent keys read as false. -/
def VState.isDoing (s : VState) (n : Name) : Bool := (s.doing.get? n).getD false
/-- `v.done[node]`. -/
def VState.isDone (s : VState) (n : Name) : Bool := (s.done.get? n).getD false

/-- Result of `visit`. `outOfFuel` does not exist in the Go code: it marks the exhaustion of the model's
recursion bound, and is proved never to occur for the bound `validate` uses. -/
inductive VRes
  | ok (s : VState)
  /-- the error of util.go:65, with the node and the `doing` map (in the state) it mentions -/
  | cycle (node : Name) (s : VState)
  | outOfFuel

/-- The loop of dependency/util.go:69-74: visit the inputs in order, stop at the first error. -/
def visitAll (v : VState → Name → VRes) : VState → List Name → VRes
  | s, [] => .ok s
  | s, n :: ns => match v s n with
    | .ok s' => visitAll v s' ns
    | r => r

/-- dependency/util.go:63-79 `visit`. The first argument bounds the recursion depth. `v.inputs[node]` for an
absent key is the empty slice. -/
def visit (inputs : AMap (List Name)) : Nat → VState → Name → VRes
  | 0, _, _ => .outOfFuel
  | fuel + 1, s, node =>
    if s.isDoing node then .cycle node s
    else if s.isDone node then .ok s
    else
      match visitAll (visit inputs fuel) { s with doing := s.doing.set node true }
          ((inputs.get? node).getD []) with
      | .ok s' => .ok { done := s'.done.set node true, doing := s'.doing.set node false }
      | r => r

/-- dependency/util.go:54-61 `run`: `order` is the order in which `range v.inputs` yields the nodes. -/
def run (inputs : AMap (List Name)) (order : List Name) : VRes :=
  visitAll (visit inputs (inputs.keys.length + 1)) {} order

/-- dependency/util.go:33-43 `Validate`, reduced to the table of declared inputs (line 34-37 copies exactly
that). Returns Go's error: nil iff the search finished. -/
def validate (inputs : AMap (List Name)) (order : List Name) : Option Err :=
  match run inputs order with
  | .ok _ => none
  | .cycle _ _ => some .cycle
  | .outOfFuel => some (.user 0)

end Verif.Validate
