/-!
# Shared vocabulary: names, finite maps, Go error values

Nothing here is specific to one component of juju/worker.
-/

namespace Verif

/-- Stands for Go's `string` used as manifold name or worker id. The code only ever compares such strings
for equality (and prints them), so any infinite type with decidable equality will do. -/
abbrev Name := Nat

/-! ## Finite maps -/

/-- Go's `map[string]T`. A list of entries, looked up by the first match; `set` and `erase` drop all
earlier entries for the key. Iteration order is never taken from this list: wherever the code ranges over a
map, the model takes the order as a parameter (Go leaves it unspecified). -/
structure AMap (α : Type) where
  entries : List (Name × α) := []
deriving Repr, DecidableEq

namespace AMap
variable {α : Type}

/-- `m[k]` with the comma-ok form. -/
def get? (m : AMap α) (k : Name) : Option α := m.entries.lookup k

/-- `delete(m, k)`. -/
def erase (m : AMap α) (k : Name) : AMap α := ⟨m.entries.filter (fun p => p.1 != k)⟩

/-- `m[k] = v`. -/
def set (m : AMap α) (k : Name) (v : α) : AMap α := ⟨(k, v) :: (m.erase k).entries⟩

/-- The keys of the map, in no meaningful order. -/
def keys (m : AMap α) : List Name := m.entries.map (·.1)

/-- `make(map[string]T)`. -/
def empty : AMap α := ⟨[]⟩

theorem lookup_cons' (p : Name × α) (l : List (Name × α)) (k : Name) :
    (p :: l).lookup k = if k = p.1 then some p.2 else l.lookup k := by
  rw [List.lookup_cons]
  by_cases h : k = p.1
  · subst h; simp
  · have : (k == p.1) = false := by simpa using h
    simp [this, h]

theorem lookup_filter_ne (l : List (Name × α)) (k j : Name) :
    (l.filter (fun p => p.1 != k)).lookup j = if j = k then none else l.lookup j := by
  induction l with
  | nil => simp
  | cons p l ih =>
    rw [lookup_cons', List.filter_cons]
    by_cases hak : p.1 = k
    · simp only [hak, bne_self_eq_false, Bool.false_eq_true, if_false, ih]
      by_cases hj : j = k <;> simp [hj]
    · have : (p.1 != k) = true := by simp [hak]
      simp only [this, if_true, lookup_cons', ih]
      by_cases hj : j = p.1
      · simp only [hj, if_true, hak, if_false]
      · simp [hj]

@[simp] theorem get?_empty (k : Name) : (empty : AMap α).get? k = none := rfl

theorem get?_erase (m : AMap α) (k j : Name) :
    (m.erase k).get? j = if j = k then none else m.get? j := by
  simp [get?, erase, lookup_filter_ne]

theorem get?_set (m : AMap α) (k j : Name) (v : α) :
    (m.set k v).get? j = if j = k then some v else m.get? j := by
  simp only [get?, set, erase, lookup_cons', lookup_filter_ne]
  by_cases h : j = k <;> simp [h]

@[simp] theorem get?_set_self (m : AMap α) (k : Name) (v : α) : (m.set k v).get? k = some v := by
  simp [get?_set]

theorem get?_set_ne (m : AMap α) {k j : Name} (v : α) (h : j ≠ k) :
    (m.set k v).get? j = m.get? j := by
  simp [get?_set, h]

@[simp] theorem get?_erase_self (m : AMap α) (k : Name) : (m.erase k).get? k = none := by
  simp [get?_erase]

theorem get?_erase_ne (m : AMap α) {k j : Name} (h : j ≠ k) :
    (m.erase k).get? j = m.get? j := by
  simp [get?_erase, h]

theorem mem_keys_iff (m : AMap α) (k : Name) : k ∈ m.keys ↔ (m.get? k).isSome := by
  unfold keys get?
  induction m.entries with
  | nil => simp
  | cons p l ih =>
    obtain ⟨a, b⟩ := p
    rw [lookup_cons', List.map_cons, List.mem_cons, ih]
    by_cases h : k = a <;> simp [h]

theorem mem_keys_of_get? {m : AMap α} {k : Name} {v : α} (h : m.get? k = some v) : k ∈ m.keys := by
  rw [mem_keys_iff, h]; rfl

theorem not_mem_keys {m : AMap α} {k : Name} : k ∉ m.keys ↔ m.get? k = none := by
  rw [mem_keys_iff]; simp

/-- Each key occurs once. -/
def NodupKeys (m : AMap α) : Prop := m.keys.Nodup

theorem nodupKeys_empty : (empty : AMap α).NodupKeys := List.nodup_nil

theorem keys_erase (m : AMap α) (k : Name) : (m.erase k).keys = m.keys.filter (fun j => j != k) := by
  simp only [keys, erase, List.filter_map]; rfl

theorem NodupKeys.erase {m : AMap α} (h : m.NodupKeys) (k : Name) : (m.erase k).NodupKeys := by
  unfold NodupKeys at *
  rw [keys_erase]; exact List.Nodup.sublist List.filter_sublist h

theorem NodupKeys.set {m : AMap α} (h : m.NodupKeys) (k : Name) (v : α) : (m.set k v).NodupKeys := by
  have := h.erase k
  unfold NodupKeys at *
  show (k :: (m.erase k).keys).Nodup
  rw [List.nodup_cons]
  refine ⟨?_, this⟩
  rw [keys_erase]; simp

end AMap

/-- `order` lists the keys of `m`, each once: a possible order in which Go's `range m` visits them. -/
def IsRangeOrder {α : Type} (m : AMap α) (order : List Name) : Prop :=
  order.Nodup ∧ ∀ k, k ∈ order ↔ k ∈ m.keys

/-- Executable form of `IsRangeOrder`. -/
def isRangeOrder {α : Type} (m : AMap α) (order : List Name) : Bool :=
  decide order.Nodup && order.all (fun k => m.keys.contains k) && m.keys.all (fun k => order.contains k)

theorem isRangeOrder_iff {α : Type} (m : AMap α) (order : List Name) :
    isRangeOrder m order = true ↔ IsRangeOrder m order := by
  simp only [isRangeOrder, IsRangeOrder, Bool.and_eq_true, decide_eq_true_eq, List.all_eq_true,
    List.contains_iff_mem]
  constructor
  · rintro ⟨⟨h1, h2⟩, h3⟩
    exact ⟨h1, fun k => ⟨h2 k, h3 k⟩⟩
  · rintro ⟨h1, h2⟩
    exact ⟨⟨h1, fun k hk => (h2 k).1 hk⟩, fun k hk => (h2 k).2 hk⟩

/-! ## Error values -/

/-- Go error values that occur in or are told apart by the code; `Option Err` is Go's `error`, `none` being
`nil`. `user` is any other comparable error value, `wrap` an error whose `Unwrap` gives one error
(`errors.Annotatef`, `errors.Trace`, `fmt.Errorf("%w")`), `join` one whose `Unwrap` gives two. -/
inductive Err
  /-- tomb.ErrDying -/
  | tombDying
  /-- tomb.ErrStillAlive -/
  | tombStillAlive
  /-- dependency/engine.go:506 errAborted -/
  | aborted
  /-- dependency/interface.go:139 ErrMissing -/
  | missing
  /-- dependency/interface.go:133 ErrBounce -/
  | bounce
  /-- dependency/interface.go:144 ErrUninstall -/
  | uninstall
  /-- runner.go:24 ErrDead -/
  | runnerDead
  /-- runner.go:23 ErrAborted -/
  | runnerAborted
  /-- runner.go:355 errors.NotFoundf("worker %q") -/
  | notFound (id : Name)
  /-- runner.go:471 errors.AlreadyExistsf("worker %q") -/
  | alreadyExists (id : Name)
  /-- runner.go:654 "runtime.Goexit called in running worker" -/
  | goexit
  /-- catacomb/catacomb.go:286 dyingError{catacomb}; the number is the catacomb's identity -/
  | catDying (c : Nat)
  /-- catacomb/catacomb.go:254 -/
  | badKillTombDying
  /-- catacomb/catacomb.go:259 -/
  | badKillOther
  /-- catacomb/catacomb.go:281 -/
  | badStillAlive
  /-- catacomb/catacomb.go:321 "panic resulted in: %v" -/
  | panicked (v : Nat)
  /-- dependency/engine.go:384, 390, 584, 658: the engine's internal "fatal: ..." errors -/
  | internal (which : Nat) (n : Name)
  /-- dependency/engine.go:326 -/
  | shuttingDown
  /-- dependency/engine.go:338 -/
  | alreadyInstalled (n : Name)
  /-- dependency/util.go:65 -/
  | cycle
  /-- dependency/snapshot.go:46 -/
  | expired
  /-- anything else -/
  | user (n : Nat)
  | wrap (tag : Nat) (e : Err)
  | join (a b : Err)
deriving DecidableEq, Repr

namespace Err

/-- `errors.Is(err, target)` for comparable targets: pre-order search of the unwrap tree. -/
def is : Err → Err → Bool
  | .wrap t e, target => (Err.wrap t e == target) || e.is target
  | .join a b, target => (Err.join a b == target) || a.is target || b.is target
  | e, target => e == target

/-- `errors.As(err, &dyingErr)` (catacomb/catacomb.go:256-257): the first `dyingError` in pre-order. -/
def asDying : Err → Option Nat
  | .catDying c => some c
  | .wrap _ e => asDying e
  | .join a b => match asDying a with
    | some c => some c
    | none => asDying b
  | _ => none

end Err

/-- `errors.Is(err, target)` where `err` may be nil. -/
def errIs (err : Option Err) (target : Err) : Bool :=
  match err with
  | none => false
  | some e => e.is target

/-- Pre-order list of all errors in the unwrap tree, for specifications. -/
def Err.tree : Err → List Err
  | .wrap t e => .wrap t e :: e.tree
  | .join a b => .join a b :: (a.tree ++ b.tree)
  | e => [e]

theorem Err.is_iff_mem_tree (t e : Err) : e.is t = true ↔ t ∈ e.tree := by
  induction e with
  | wrap tag e ih =>
    simp only [Err.is, Err.tree, Bool.or_eq_true, beq_iff_eq, ih, List.mem_cons, eq_comm (a := t)]
  | join a b iha ihb =>
    simp only [Err.is, Err.tree, Bool.or_eq_true, beq_iff_eq, iha, ihb, List.mem_cons, List.mem_append,
      or_assoc, eq_comm (a := t)]
  | _ => simp only [Err.is, Err.tree, beq_iff_eq, List.mem_singleton, eq_comm (a := t)]

theorem Err.asDying_none_iff (e : Err) : e.asDying = none ↔ ∀ c, Err.catDying c ∉ e.tree := by
  induction e with
  | wrap tag e ih => simp [Err.asDying, Err.tree, ih]
  | join a b iha ihb =>
    simp only [Err.asDying, Err.tree]
    cases ha : a.asDying with
    | none =>
      have := iha.1 ha
      simp only [ihb, List.mem_cons, List.mem_append, reduceCtorEq, false_or, not_or]
      exact ⟨fun h c => ⟨this c, h c⟩, fun h c => (h c).2⟩
    | some c =>
      simp only [reduceCtorEq, false_iff]
      intro h
      have : a.asDying = none := iha.2 (fun c hc => h c (by simp [hc]))
      simp [ha] at this
  | _ => simp [Err.asDying, Err.tree]

end Verif
