import Verif.Base

/-!
# dependency/testing/stub.go, and the Output func of SelfManifold

Values and types are arbitrary; reflection is a parameter. A panic is an outcome of its own.
-/

namespace Verif.Stub

variable {Val Ty : Type}

/-- The part of package reflect that is used. -/
structure Reflect (Val Ty : Type) where
  /-- reflect.ValueOf(v).Type() -/
  typeOf : Val → Ty
  /-- Type.ConvertibleTo -/
  convertible : Ty → Ty → Bool
  /-- Value.Convert; `none` is a panic, which is possible even if ConvertibleTo says true (a slice shorter than the array
  it is converted to). -/
  convert : Val → Ty → Option Val

/-- stub.go:25-28 StubResource. A nil element of Outputs is `none`. -/
structure Resource (Val : Type) where
  outputs : List (Option Val) := []
  error : Option Err := none

/-- An `interface{}` as NewStubResources distinguishes it (stub.go:37-44). -/
inductive Raw (Val : Type)
  | err (e : Err)
  | list (l : List (Option Val))
  | val (v : Option Val)

/-- stub.go:35-44. -/
def Raw.resource : Raw Val → Resource Val
  | .err e => { error := some e }
  | .list l => { outputs := l }
  | .val v => { outputs := [v] }

/-- stub.go:33-48 NewStubResources: one entry for each entry of the map (in whatever order), overwriting. -/
def newStubResources (raw : List (Name × Raw Val)) : AMap (Resource Val) :=
  raw.foldl (fun m p => m.set p.1 p.2.resource) .empty

/-- The out parameter: nil, not a pointer, a nil pointer, or a pointer to a variable of type `ty`. -/
inductive Out (Ty : Type)
  | nil
  | notPointer
  | nilPointer
  | var (ty : Ty)

/-- What a Get call does. -/
inductive Res (Val : Type)
  /-- returns nil, having assigned nothing -/
  | ok
  /-- returns nil, having assigned `v` -/
  | assigned (v : Val)
  /-- returns the resource's error -/
  | error (e : Err)
  /-- "unexpected resource name" -/
  | unexpected
  /-- "outPtr should be a pointer" -/
  | notPointer
  /-- "cannot set ... into ..." with the outputs tried -/
  | cannotSet (tried : List Val)
  | panics

/-- The loop of stub.go:91-99, with the outputs tried so far. -/
def tryOutputs (R : Reflect Val Ty) (ty : Ty) : List Val → List (Option Val) → Res Val
  | tried, [] => .cannotSet tried
  | _, none :: _ => .panics
  | tried, some v :: l =>
    if R.convertible (R.typeOf v) ty then match R.convert v ty with
      | some v' => .assigned v'
      | none => .panics
    else tryOutputs R ty (tried ++ [v]) l

/-- stub.go:73-102 Getter.Get. -/
def get (R : Reflect Val Ty) (m : AMap (Resource Val)) (name : Name) (out : Out Ty) : Res Val :=
  match m.get? name with
  | none => .unexpected
  | some r => match r.error with
    | some e => .error e
    | none => match out with
      | .nil => .ok
      | .notPointer => .notPointer
      | .nilPointer => .panics
      | .var ty => tryOutputs R ty [] r.outputs

/-- The out parameter of SelfManifold's Output func. -/
inductive SelfOut
  | installer
  | reporter
  /-- a nil *Installer or *Reporter -/
  | nilPointer
  | other
deriving DecidableEq, Repr

/-- What it does. -/
inductive SelfRes
  /-- returns nil, having assigned the engine -/
  | assigned
  | badInput
  | badOut
  | panics
deriving DecidableEq, Repr

/-- dependency/util.go:89-101: Output of SelfManifold(engine), called with worker `w`. -/
def selfOutput (engine w : Nat) (out : SelfOut) : SelfRes :=
  if w ≠ engine then .badInput
  else match out with
    | .installer => .assigned
    | .reporter => .assigned
    | .nilPointer => .panics
    | .other => .badOut

end Verif.Stub
