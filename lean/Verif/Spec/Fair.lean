import Mathlib.Logic.Basic

/-!
# Infinite executions: what happens again and again

`k` counts the steps of an infinite execution.
-/

namespace Verif.Spec

/-- `P` holds again and again, however long one waits. -/
def InfOften (P : Nat → Prop) : Prop := ∀ n, ∃ k, n ≤ k ∧ P k

theorem InfOften.mono {P Q : Nat → Prop} (h : InfOften P) (i : ∀ k, P k → Q k) : InfOften Q := fun n =>
  let ⟨k, hk, hp⟩ := h n
  ⟨k, hk, i k hp⟩

theorem InfOften.mono_from {P Q : Nat → Prop} (h : InfOften P) (n : Nat) (i : ∀ k, n ≤ k → P k → Q k) : InfOften Q := fun m => by
  obtain ⟨k, hk, hp⟩ := h (max m n)
  exact ⟨k, by omega, i k (by omega) hp⟩

theorem infOften_of_from {P : Nat → Prop} (n : Nat) (h : ∀ k, n ≤ k → P k) : InfOften P := fun m =>
  ⟨max m n, by omega, h _ (by omega)⟩

theorem not_infOften {P : Nat → Prop} (h : ¬ InfOften P) : ∃ n, ∀ k, n ≤ k → ¬ P k := by
  unfold InfOften at h
  simp only [not_forall, not_exists, not_and] at h
  exact h

/-- What happens again and again in one of two ways happens again and again in one way. -/
theorem InfOften.or {P Q : Nat → Prop} (h : InfOften (fun k => P k ∨ Q k)) : InfOften P ∨ InfOften Q := by
  by_cases hp : InfOften P
  · exact Or.inl hp
  · obtain ⟨n, hn⟩ := not_infOften hp
    exact Or.inr (h.mono_from n (fun k hk hx => hx.resolve_left (hn k hk)))

/-- The same for finitely many ways. -/
theorem InfOften.of_list {α : Type} {P : α → Nat → Prop} (l : List α) (h : InfOften (fun k => ∃ a ∈ l, P a k)) :
    ∃ a ∈ l, InfOften (P a) := by
  induction l with
  | nil => obtain ⟨k, _, a, ha, _⟩ := h 0; cases ha
  | cons a l ih =>
    have h' : InfOften (fun k => P a k ∨ ∃ b ∈ l, P b k) := h.mono (by
      rintro k ⟨b, hb, hp⟩
      rcases List.mem_cons.1 hb with rfl | hb
      · exact Or.inl hp
      · exact Or.inr ⟨b, hb, hp⟩)
    rcases h'.or with h | h
    · exact ⟨a, List.mem_cons_self, h⟩
    · obtain ⟨b, hb, hp⟩ := ih h
      exact ⟨b, List.mem_cons_of_mem _ hb, hp⟩

/-- A number that does not grow settles. -/
theorem settles {f : Nat → Nat} {n : Nat} (h : ∀ k, n ≤ k → f (k + 1) ≤ f k) : ∃ m, n ≤ m ∧ ∀ k, m ≤ k → f k = f m := by
  have mono : ∀ a b, n ≤ a → a ≤ b → f b ≤ f a := by
    intro a b ha hab
    induction hab with
    | refl => exact Nat.le_refl _
    | step hb ih => exact Nat.le_trans (h _ (Nat.le_trans ha hb)) ih
  obtain ⟨v, hv⟩ : ∃ v, v = f n := ⟨_, rfl⟩
  induction v using Nat.strongRecOn generalizing n with
  | ind v ih =>
    by_cases hx : ∃ k, n ≤ k ∧ f k < f n
    · obtain ⟨k, hk, hlt⟩ := hx
      obtain ⟨m, hm, hc⟩ := ih (f k) (hv ▸ hlt) (n := k) (fun j hj => h j (Nat.le_trans hk hj))
        (fun a b ha hab => mono a b (Nat.le_trans hk ha) hab) rfl
      exact ⟨m, Nat.le_trans hk hm, hc⟩
    · refine ⟨n, Nat.le_refl _, fun k hk => ?_⟩
      have h1 := mono n k (Nat.le_refl _) hk
      have h2 : ¬ f k < f n := fun hl => hx ⟨k, hk, hl⟩
      omega

/-- What stays as it is from some moment on. -/
theorem stays {α : Type} {f : Nat → α} {n : Nat} (h : ∀ k, n ≤ k → f (k + 1) = f k) : ∀ k, n ≤ k → f k = f n := by
  intro k hk
  induction hk with
  | refl => rfl
  | step hk ih => rw [h _ hk, ih]

/-- What is kept from step to step is kept for good. -/
theorem kept {P : Nat → Prop} {n : Nat} (h0 : P n) (h : ∀ k, n ≤ k → P k → P (k + 1)) : ∀ k, n ≤ k → P k := by
  intro k hk
  induction hk with
  | refl => exact h0
  | step hk ih => exact h _ hk ih

end Verif.Spec
