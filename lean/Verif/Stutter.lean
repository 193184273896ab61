import Verif.Schedule
import Mathlib.Data.Nat.Find

/-!
# Executions in which something else happens meanwhile

A part of a program takes a step now and then. Seen from it, an execution of the program is an execution of its own, with pauses. Left out,
what remains is an infinite execution; or a finite one, which is continued with steps that are none of its own (`F`).
-/

namespace Verif.Schedule
open Verif.Spec

section
variable {p : Nat → Bool} (h : InfOften (fun k => p k = true))

include h in
theorem next_ex (k : Nat) : ∃ j, k ≤ j ∧ p j = true := h k

/-- The first step from `k` on that counts. -/
noncomputable def nxt (k : Nat) : Nat := Nat.find (next_ex h k)

theorem nxt_le (k : Nat) : k ≤ nxt h k := (Nat.find_spec (next_ex h k)).1
theorem nxt_mem (k : Nat) : p (nxt h k) = true := (Nat.find_spec (next_ex h k)).2
theorem nxt_min {k j : Nat} (hk : k ≤ j) (hj : j < nxt h k) : p j = false := by
  have := Nat.find_min (next_ex h k) hj
  cases hp : p j with
  | false => rfl
  | true => exact absurd ⟨hk, hp⟩ this

/-- The steps that count, in order. -/
noncomputable def sel : Nat → Nat
  | 0 => nxt h 0
  | n + 1 => nxt h (sel n + 1)

theorem sel_mem : ∀ n, p (sel h n) = true
  | 0 => nxt_mem h 0
  | n + 1 => nxt_mem h _

theorem sel_lt (n : Nat) : sel h n < sel h (n + 1) := nxt_le h _

theorem sel_mono {n m : Nat} (hl : n ≤ m) : sel h n ≤ sel h m := by
  induction hl with
  | refl => exact Nat.le_refl _
  | @step m _ ih => exact Nat.le_trans ih (Nat.le_of_lt (sel_lt h m))

theorem le_sel : ∀ n, n ≤ sel h n
  | 0 => Nat.zero_le _
  | n + 1 => Nat.lt_of_le_of_lt (le_sel n) (sel_lt h n)

/-- The first step that counts from `k` on is one of them. -/
theorem nxt_sel (k : Nat) : ∃ n, sel h n = nxt h k := by
  have ex : ∃ n, k ≤ sel h n := ⟨k, le_sel h k⟩
  have hk := Nat.find_spec ex
  refine ⟨Nat.find ex, ?_⟩
  have h1 : nxt h k ≤ sel h (Nat.find ex) := by
    refine Nat.le_of_not_lt (fun hlt => ?_)
    have := nxt_min h hk hlt
    rw [sel_mem h] at this; cases this
  refine Nat.le_antisymm ?_ h1
  refine Nat.le_of_not_lt (fun hlt => ?_)
  cases hn : Nat.find ex with
  | zero =>
    rw [hn] at hlt
    have := nxt_min h (Nat.zero_le _) hlt
    rw [nxt_mem h] at this; cases this
  | succ n =>
    have hlt' : ¬ k ≤ sel h n := Nat.find_min ex (by omega)
    rw [hn] at hlt
    have := nxt_min h (k := sel h n + 1) (by have := nxt_le h k; omega) hlt
    rw [nxt_mem h] at this; cases this

end

variable {σ α κ : Type} {T F : σ → α → σ → Prop} {kind : α → Option κ} {P : σ → Prop} {s0 : σ}

/-- An infinite execution. -/
structure IRun (T : σ → α → σ → Prop) (s0 : σ) where
  st : Nat → σ
  op : Nat → α
  start : st 0 = s0
  next : ∀ k, T (st k) (op k) (st (k + 1))

/-- An infinite execution with pauses. -/
structure SRun (T : σ → α → σ → Prop) (s0 : σ) where
  st : Nat → σ
  op : Nat → Option α
  start : st 0 = s0
  next : ∀ k, (∃ a, op k = some a ∧ T (st k) a (st (k + 1))) ∨ (op k = none ∧ st (k + 1) = st k)

/-- No kind of step that can be taken again and again is passed over for ever. -/
def SRun.Fair (r : SRun T s0) (kind : α → Option κ) : Prop :=
  ∀ x, InfOften (fun k => Can T kind (r.st k) x) → InfOften (fun k => (r.op k).bind kind = some x)

def IRun.Fair (r : IRun T s0) (kind : α → Option κ) : Prop :=
  ∀ x, InfOften (fun k => Can T kind (r.st k) x) → InfOften (fun k => kind (r.op k) = some x)

theorem SRun.inv (r : SRun T s0) (h0 : P s0) (hp : ∀ s a s', P s → T s a s' → P s') : ∀ k, P (r.st k)
  | 0 => by rw [r.start]; exact h0
  | k + 1 => by
    have ih := r.inv h0 hp k
    rcases r.next k with ⟨a, _, hn⟩ | ⟨_, hn⟩
    · exact hp _ _ _ ih hn
    · rw [hn]; exact ih

theorem SRun.path (r : SRun T s0) : ∀ k, Path T s0 (r.st k)
  | 0 => by rw [r.start]; exact .nil
  | k + 1 => by
    have ih := r.path k
    rcases r.next k with ⟨a, _, hn⟩ | ⟨_, hn⟩
    · exact ih.snoc hn
    · rw [hn]; exact ih

theorem SRun.same {r : SRun T s0} {k j : Nat} (hk : k ≤ j) (h : ∀ i, k ≤ i → i < j → r.op i = none) : r.st j = r.st k := by
  induction hk with
  | refl => rfl
  | @step m hm ih =>
    rcases r.next m with ⟨a, ha, _⟩ | ⟨_, hn⟩
    · rw [h m hm (Nat.lt_succ_self m)] at ha; cases ha
    · exact hn.trans (ih (fun i h1 h2 => h i h1 (Nat.lt_succ_of_lt h2)))

/-- The steps of others that lead from one state to another. -/
inductive Fills (F : σ → α → σ → Prop) (s : σ) : σ → Prop
  | nil : Fills F s s
  | snoc {t a t'} : Fills F s t → F t a t' → Fills F s t'

/-- What remains of an execution when the pauses are left out. If it is finite, it is continued with steps `F`, which make nothing possible
that the part could not do before. Whatever happens in the one happens in the other, these steps aside, and by the same steps. -/
theorem SRun.unstutter_ops (r : SRun T s0) (hf : r.Fair kind) (hP : ∀ k, P (r.st k)) (hp : ∀ s a s', P s → F s a s' → P s')
    (sub : ∀ s a s', F s a s' → T s a s') (total : ∀ s, P s → ∃ a s', F s a s')
    (can : ∀ s a s' x, P s → F s a s' → Can T kind s' x → Can T kind s x) :
    ∃ r' : IRun T s0, r'.Fair kind ∧ (∀ k, ∃ j n, k ≤ j ∧ r'.st n = r.st j) ∧
      (∀ n, ∃ b, ∀ j, b ≤ j → ∃ m, n ≤ m ∧ Fills F (r.st j) (r'.st m)) ∧
      ∀ k, ∃ n, ∀ m, n ≤ m → (∃ j, k ≤ j ∧ r.op j = some (r'.op m) ∧ r'.st m = r.st j) ∨ F (r'.st m) (r'.op m) (r'.st (m + 1)) := by
  by_cases h : InfOften (fun k => (r.op k).isSome = true)
  · have real : ∀ n, ∃ a, r.op (sel h n) = some a := fun n => Option.isSome_iff_exists.1 (sel_mem h n)
    choose op hop using real
    have same : ∀ k, r.st (nxt h k) = r.st k := fun k => r.same (nxt_le h k) (fun i h1 h2 => by
      have := nxt_min h h1 h2
      cases ho : r.op i with
      | none => rfl
      | some a => rw [ho] at this; cases this)
    let R : IRun T s0 := ⟨fun n => r.st (sel h n), op, by show r.st (nxt h 0) = _; rw [same, r.start], fun n => by
      show T _ _ (r.st (nxt h (sel h n + 1)))
      rw [same]
      rcases r.next (sel h n) with ⟨a, ha, hn⟩ | ⟨ha, _⟩
      · rw [hop n] at ha; injection ha with ha; subst ha; exact hn
      · rw [hop n] at ha; cases ha⟩
    have find : ∀ k, ∃ m, k ≤ sel h m ∧ R.st m = r.st k := fun k => by
      obtain ⟨m, hm⟩ := nxt_sel h k
      exact ⟨m, by rw [hm]; exact nxt_le h k, by show r.st (sel h m) = _; rw [hm, same]⟩
    refine ⟨R, fun x hx n => ?_, fun k => ?_, fun n => ⟨sel h n, fun j hj => ?_⟩,
      fun k => ⟨k, fun m hm => .inl ⟨sel h m, Nat.le_trans hm (le_sel h m), hop m, rfl⟩⟩⟩
    · have hx' : InfOften (fun k => Can T kind (r.st k) x) := fun n => by
        obtain ⟨k, hk, hd⟩ := hx n
        exact ⟨sel h k, Nat.le_trans hk (le_sel h k), hd⟩
      obtain ⟨k, hk, hkk⟩ := hf x hx' (sel h n)
      obtain ⟨m, hm⟩ := nxt_sel h k
      have hmk : sel h m = k := by
        rw [hm]
        refine Nat.le_antisymm (Nat.le_of_not_lt (fun hlt => ?_)) (nxt_le h k)
        have := nxt_min h (Nat.le_refl k) hlt
        cases ho : r.op k with
        | none => rw [ho] at hkk; cases hkk
        | some a => rw [ho] at this; cases this
      refine ⟨m, Nat.le_of_not_lt (fun hlt => ?_), ?_⟩
      · have h1 := sel_lt h m
        have h2 := sel_mono h (n := m + 1) (m := n) hlt
        omega
      · show kind (op m) = _
        rw [← hmk, hop m] at hkk; exact hkk
    · obtain ⟨m, _, hm⟩ := find k
      exact ⟨k, m, Nat.le_refl _, hm⟩
    · obtain ⟨m, hm, he⟩ := find j
      rcases Nat.le_total n m with hl | hl
      · exact ⟨m, hl, by rw [he]; exact .nil⟩
      · have := sel_mono h hl
        have : j = sel h n := by omega
        subst this
        exact ⟨n, Nat.le_refl _, .nil⟩
  · obtain ⟨N, hN⟩ := not_infOften h
    have hN : ∀ k, N ≤ k → r.op k = none := fun k hk => by
      cases ho : r.op k with
      | none => rfl
      | some a => exact absurd (by show (r.op k).isSome = true; rw [ho]; rfl) (hN k hk)
    have same : ∀ k, N ≤ k → r.st k = r.st N := fun k hk => r.same hk (fun i h1 _ => hN i h1)
    obtain ⟨t⟩ := exists_through (T' := F) (kind := fun _ : α => (none : Option Unit)) (P := P) (r.path N) sub total
      hp (hP N)
    have hP : ∀ k, t.n ≤ k → P (t.st k) := fun k hk => by
      induction hk with
      | refl => rw [t.at_n]; exact hP N
      | @step m hm ih => exact hp _ _ _ ih (t.later m hm)
    have back : ∀ x k, t.n ≤ k → Can T kind (t.st k) x → Can T kind (r.st N) x := by
      intro x k hk
      induction hk with
      | refl => rw [t.at_n]; exact fun h => h
      | @step m hm ih => exact fun h => ih (can _ _ _ x (hP m hm) (t.later m hm) h)
    have fills : ∀ k, t.n ≤ k → Fills F (r.st N) (t.st k) := by
      intro k hk
      induction hk with
      | refl => rw [t.at_n]; exact .nil
      | @step m hm ih => exact .snoc ih (t.later m hm)
    refine ⟨⟨t.st, t.op, t.start, t.next⟩, fun x hx => ?_, fun k => ⟨max k N, t.n, by omega, t.at_n.trans (same _ (by omega)).symm⟩,
      fun n => ⟨N, fun j hj => ⟨max n t.n, by omega, by rw [same j hj]; exact fills _ (by omega)⟩⟩,
      fun k => ⟨t.n, fun m hm => .inr (t.later m hm)⟩⟩
    obtain ⟨k, hk, hd⟩ := hx t.n
    have hd := back x k hk hd
    obtain ⟨j, hj, hk⟩ := hf x (infOften_of_from N (fun k hk => by rw [same k hk]; exact hd)) N
    have hk : (r.op j).bind kind = some x := hk
    rw [hN j hj] at hk; cases hk

theorem SRun.unstutter (r : SRun T s0) (hf : r.Fair kind) (hP : ∀ k, P (r.st k)) (hp : ∀ s a s', P s → F s a s' → P s')
    (sub : ∀ s a s', F s a s' → T s a s') (total : ∀ s, P s → ∃ a s', F s a s')
    (can : ∀ s a s' x, P s → F s a s' → Can T kind s' x → Can T kind s x) :
    ∃ r' : IRun T s0, r'.Fair kind ∧ (∀ k, ∃ j n, k ≤ j ∧ r'.st n = r.st j) ∧
      ∀ n, ∃ b, ∀ j, b ≤ j → ∃ m, n ≤ m ∧ Fills F (r.st j) (r'.st m) := by
  obtain ⟨r', h1, h2, h3, _⟩ := r.unstutter_ops hf hP hp sub total can
  exact ⟨r', h1, h2, h3⟩

end Verif.Schedule
