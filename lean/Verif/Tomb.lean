import Verif.Base

/-!
# gopkg.in/tomb.v2

An external dependency (go.mod:14), not part of /repo. Modelled from its documented behaviour:

* `Kill(reason)` closes Dying the first time; "although Kill may be called multiple times, only the first
  non-nil error is recorded as the death reason"; `Kill(ErrDying)` is a no-op once dying and panics while
  alive; `Kill(ErrStillAlive)` panics.
* A function run by `Go` that returns a non-nil error kills the tomb with it; when the last function has
  returned, the tomb is killed with its result and Dead is closed.
* `Wait` blocks until Dead, then returns the recorded reason.
-/

namespace Verif

/-- A tomb. `reason = none` is tomb.ErrStillAlive (the tomb is alive); `some r` means dying or dead with
recorded death reason `r`. `alive` counts running goroutines; `panicked` is set when a call panics. -/
structure Tomb where
  reason : Option (Option Err) := none
  alive : Nat := 0
  dead : Bool := false
  panicked : Bool := false
deriving DecidableEq, Repr

namespace Tomb

/-- The Dying channel is closed. -/
def dying (t : Tomb) : Bool := t.reason.isSome

/-- tomb.Kill. -/
def kill (t : Tomb) (e : Option Err) : Tomb :=
  if e = some .tombStillAlive then { t with panicked := true }
  else if e = some .tombDying then
    if t.reason = none then { t with panicked := true } else t
  else match t.reason with
    | none => { t with reason := some e }
    | some none => { t with reason := some e }
    | some (some _) => t

/-- tomb.Go (the bookkeeping part). -/
def go (t : Tomb) : Tomb :=
  if t.dead then { t with panicked := true } else { t with alive := t.alive + 1 }

/-- What tomb does when a function run by `Go` returns `e`. -/
def finish (t : Tomb) (e : Option Err) : Tomb :=
  let t1 := { t with alive := t.alive - 1 }
  if t1.alive = 0 ∨ e ≠ none then
    let t2 := t1.kill e
    if t2.panicked then t2
    else if t2.alive = 0 then { t2 with dead := true } else t2
  else t1

/-- tomb.Wait: `none` while it would block. -/
def wait (t : Tomb) : Option (Option Err) := if t.dead then t.reason else none

/-! ## Facts -/

@[simp] theorem kill_alive (t : Tomb) (e) : (t.kill e).alive = t.alive := by
  unfold kill; split
  · rfl
  · split
    · split <;> rfl
    · split <;> rfl

@[simp] theorem kill_dead (t : Tomb) (e) : (t.kill e).dead = t.dead := by
  unfold kill; split
  · rfl
  · split
    · split <;> rfl
    · split <;> rfl

/-- An ordinary argument: neither of the two errors tomb treats specially. -/
def Ordinary (e : Option Err) : Prop := e ≠ some .tombStillAlive ∧ e ≠ some .tombDying

@[simp] theorem ordinary_none : Ordinary none := ⟨nofun, nofun⟩

theorem kill_reason (t : Tomb) {e : Option Err} (h : Ordinary e) :
    (t.kill e).reason = match t.reason with
      | some (some r) => some (some r)
      | _ => some e := by
  unfold kill
  rw [if_neg h.1, if_neg h.2]
  split <;> simp_all

theorem kill_panicked (t : Tomb) {e : Option Err} (h : Ordinary e) : (t.kill e).panicked = t.panicked := by
  unfold kill
  rw [if_neg h.1, if_neg h.2]
  split <;> rfl

theorem kill_dying (t : Tomb) {e : Option Err} (h : Ordinary e) : (t.kill e).dying = true := by
  unfold dying; rw [kill_reason t h]; split <;> rfl

theorem kill_dying_of_dying (t : Tomb) (e : Option Err) (h : t.dying = true) :
    (t.kill e).dying = true := by
  unfold dying at *
  unfold kill; split
  · exact h
  · split
    · split <;> exact h
    · split <;> simp_all

@[simp] theorem kill_none_dying (t : Tomb) : (t.kill none).dying = true := kill_dying t ordinary_none
@[simp] theorem kill_none_panicked (t : Tomb) : (t.kill none).panicked = t.panicked :=
  kill_panicked t ordinary_none

/-- Killing a dying tomb with nil changes nothing. -/
theorem kill_none_of_dying (t : Tomb) (h : t.dying = true) : t.kill none = t := by
  unfold kill dying at *
  obtain ⟨r, a, d, p⟩ := t
  match r with
  | none => simp at h
  | some none => rfl
  | some (some _) => rfl

/-- Independent description of the reason recorded after a sequence of Kill arguments: the first non-nil
one if there is one, nil otherwise. -/
def firstNonNil : List (Option Err) → Option Err
  | [] => none
  | some e :: _ => some e
  | none :: l => firstNonNil l

theorem firstNonNil_append (l m : List (Option Err)) :
    firstNonNil (l ++ m) = (firstNonNil l).or (firstNonNil m) := by
  induction l with
  | nil => simp [firstNonNil]
  | cons a l ih => cases a <;> simp [firstNonNil, ih]

/-- For every non-empty sequence of ordinary Kill calls the tomb records the first non-nil argument. -/
theorem reason_kills (es : List (Option Err)) (hne : es ≠ []) (h : ∀ e ∈ es, Ordinary e) :
    (es.foldl kill {}).reason = some (firstNonNil es) := by
  have key : ∀ (es : List (Option Err)) (t : Tomb) (r : Option Err), t.reason = some r →
      (∀ e ∈ es, Ordinary e) → (es.foldl kill t).reason = some (r.or (firstNonNil es)) := by
    intro es
    induction es with
    | nil => intro t r ht _; simp [ht, firstNonNil]
    | cons e es ih =>
      intro t r ht ho
      have he := ho e (by simp)
      have hr : (t.kill e).reason = some (r.or e) := by
        rw [kill_reason t he, ht]; cases r <;> rfl
      rw [List.foldl_cons, ih _ _ hr (fun x hx => ho x (by simp [hx]))]
      cases r <;> cases e <;> simp [firstNonNil]
  cases es with
  | nil => exact absurd rfl hne
  | cons e es =>
    have he := h e (by simp)
    have hr : (kill {} e).reason = some e := by rw [kill_reason _ he]
    rw [List.foldl_cons, key es _ _ hr (fun x hx => h x (by simp [hx]))]
    cases e <;> simp [firstNonNil]

end Tomb
end Verif
