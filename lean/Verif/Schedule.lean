import Verif.Spec.Fair
import Mathlib.Data.Countable.Basic

/-!
# Fair schedules

Whatever has happened so far, a fair scheduler can go on from there: among the kinds of steps that can be taken, it takes one that it
has not taken for longest. `T s a s'` says that step `a` leads from `s` to `s'`, `kind` which steps the scheduler has to be fair to.
-/

namespace Verif.Schedule
open Verif.Spec

variable {σ α κ : Type} {T : σ → α → σ → Prop} {kind : α → Option κ} {P : σ → Prop}

/-- A step of kind `x` can be taken. -/
def Can (T : σ → α → σ → Prop) (kind : α → Option κ) (s : σ) (x : κ) : Prop := ∃ a s', kind a = some x ∧ T s a s'

/-- A least one. -/
theorem least {ι : Type} {Q : ι → Prop} (f : ι → Nat) (h : ∃ x, Q x) : ∃ x, Q x ∧ ∀ y, Q y → f x ≤ f y := by
  obtain ⟨x, hx⟩ := h
  generalize hn : f x = n
  induction n using Nat.strongRecOn generalizing x with
  | ind n ih =>
    by_cases h : ∃ y, Q y ∧ f y < f x
    · obtain ⟨y, hy, hlt⟩ := h
      exact ih (f y) (hn ▸ hlt) y hy rfl
    · exact ⟨x, hx, fun y hy => Nat.le_of_not_lt (fun hl => h ⟨y, hy, hl⟩)⟩

/-- The scheduler's choice. -/
theorem choice (total : ∀ s, P s → ∃ a s', T s a s') {s : σ} (hs : P s) (stamp : κ → Nat) :
    ∃ a s', T s a s' ∧ ∀ x, Can T kind s x → ∃ y, kind a = some y ∧ stamp y ≤ stamp x := by
  by_cases h : ∃ x, Can T kind s x
  · obtain ⟨y, ⟨a, s', h1, h2⟩, h3⟩ := least stamp h
    exact ⟨a, s', h2, fun x hx => ⟨y, h1, h3 x hx⟩⟩
  · obtain ⟨a, s', h2⟩ := total s hs
    exact ⟨a, s', h2, fun x hx => absurd ⟨x, hx⟩ h⟩

/-- What the scheduler remembers of each kind of step: a number that is greater the later it was taken. -/
noncomputable def restamp (code : κ → Nat) (kind : α → Option κ) (i : Nat) (a : α) (stamp : κ → Nat) : κ → Nat :=
  open Classical in fun x => if kind a = some x then code x + i else stamp x

theorem filter_sub {ι : Type} {p q : ι → Bool} (l : List ι) (h : ∀ x, p x = true → q x = true) :
    (l.filter p).Sublist (l.filter q) := by
  induction l with
  | nil => exact .slnil
  | cons x l ih =>
    cases hp : p x with
    | true => rw [List.filter_cons_of_pos hp, List.filter_cons_of_pos (h x hp)]; exact ih.cons₂ x
    | false =>
      rw [List.filter_cons_of_neg (by simp [hp])]
      cases hq : q x with
      | true => rw [List.filter_cons_of_pos hq]; exact ih.cons x
      | false => rw [List.filter_cons_of_neg (by simp [hq])]; exact ih

/-- From every state there is a fair execution. -/
theorem exists_fair [Countable κ] (total : ∀ s, P s → ∃ a s', T s a s') (inv : ∀ s a s', P s → T s a s' → P s') {s0 : σ}
    (h0 : P s0) : ∃ (st : Nat → σ) (op : Nat → α), st 0 = s0 ∧ (∀ i, T (st i) (op i) (st (i + 1))) ∧
      ∀ x, InfOften (fun i => Can T kind (st i) x) → InfOften (fun i => kind (op i) = some x) := by
  obtain ⟨code, hcode⟩ := exists_injective_nat κ
  have ch : ∀ (c : {s // P s} × (κ → Nat)), ∃ a s', T c.1.1 a s' ∧ ∀ x, Can T kind c.1.1 x → ∃ y, kind a = some y ∧ c.2 y ≤ c.2 x :=
    fun c => choice total c.1.2 c.2
  choose opOf next hT hmin using ch
  let go : Nat → {s // P s} × (κ → Nat) := fun i => Nat.rec (⟨s0, h0⟩, code)
    (fun i c => (⟨next c, inv _ _ _ c.1.2 (hT c)⟩, restamp code kind i (opOf c) c.2)) i
  have gs : ∀ i, go (i + 1) = (⟨next (go i), inv _ _ _ (go i).1.2 (hT (go i))⟩, restamp code kind i (opOf (go i)) (go i).2) :=
    fun i => rfl
  refine ⟨fun i => (go i).1.1, fun i => opOf (go i), rfl, fun i => ?_, fun x hx => ?_⟩
  · show T _ _ (go (i + 1)).1.1
    rw [gs]
    exact hT (go i)
  refine Classical.byContradiction (fun hno => ?_)
  obtain ⟨n, hn⟩ := not_infOften hno
  -- from then on the number of `x` does not change
  have hst : ∀ k, n ≤ k → (go k).2 x = (go n).2 x := stays (f := fun k => (go k).2 x) (fun k hk => by
    show (go (k + 1)).2 x = _
    rw [gs]
    show restamp code kind k (opOf (go k)) (go k).2 x = _
    unfold restamp
    rw [if_neg (hn k hk)])
  generalize hc : (go n).2 x = c at hst
  -- the kinds of steps that come before `x`
  have low : ∀ i y, code y ≤ (go i).2 y := by
    intro i
    induction i with
    | zero => exact fun y => Nat.le_refl _
    | succ i ih =>
      intro y
      rw [gs]
      show _ ≤ restamp code kind i (opOf (go i)) (go i).2 y
      unfold restamp
      split
      · omega
      · exact ih y
  classical
  let before : Nat → List Nat := fun i => (List.range (c + 1)).filter (fun v => decide (∃ y, code y = v ∧ (go i).2 y ≤ c))
  have mono : ∀ i, max n (c + 1) ≤ i → ∀ y, (go (i + 1)).2 y ≤ c → (go i).2 y ≤ c ∧ kind (opOf (go i)) ≠ some y := by
    intro i hi y hy
    rw [gs] at hy
    have hy : restamp code kind i (opOf (go i)) (go i).2 y ≤ c := hy
    unfold restamp at hy
    split at hy
    · omega
    · exact ⟨hy, by assumption⟩
  obtain ⟨m, hm, hs⟩ := settles (f := fun i => (before i).length) (n := max n (c + 1)) (fun i hi => by
    refine List.Sublist.length_le (filter_sub _ (fun v hv => ?_))
    obtain ⟨y, h1, h2⟩ := of_decide_eq_true hv
    exact decide_eq_true ⟨y, h1, (mono i hi y h2).1⟩)
  obtain ⟨k, hk, hcan⟩ := hx m
  obtain ⟨y, h1, h2⟩ := hmin (go k) x hcan
  rw [hst k (by omega)] at h2
  -- one of them is taken, and no longer comes before `x`
  have hlt : (before (k + 1)).length < (before k).length := by
    have hsub : (before (k + 1)).Sublist (before k) := filter_sub _ (fun v hv => by
      obtain ⟨y, h1, h2⟩ := of_decide_eq_true hv
      exact decide_eq_true ⟨y, h1, (mono k (by omega) y h2).1⟩)
    refine Nat.lt_of_le_of_ne hsub.length_le (fun e => ?_)
    have e := hsub.eq_of_length e
    have hin : code y ∈ before k := List.mem_filter.2 ⟨List.mem_range.2 (by have := low k y; omega), decide_eq_true ⟨y, rfl, h2⟩⟩
    rw [← e] at hin
    obtain ⟨y', h3, h4⟩ := of_decide_eq_true (List.mem_filter.1 hin).2
    have := hcode h3
    subst this
    exact (mono k (by omega) y' h4).2 h1
  have a1 := hs k hk
  have a2 := hs (k + 1) (by omega)
  have a1 : (before k).length = (before m).length := a1
  have a2 : (before (k + 1)).length = (before m).length := a2
  omega

/-- States reached from `s0`. -/
inductive Path (T : σ → α → σ → Prop) (s0 : σ) : σ → Prop
  | nil : Path T s0 s0
  | snoc {s a s'} : Path T s0 s → T s a s' → Path T s0 s'

/-- An execution from `s0` through `t` that is as `T'` says after that, and fair. -/
structure Through (T T' : σ → α → σ → Prop) (kind : α → Option κ) (s0 t : σ) where
  st : Nat → σ
  op : Nat → α
  start : st 0 = s0
  next : ∀ i, T (st i) (op i) (st (i + 1))
  n : Nat
  at_n : st n = t
  later : ∀ i, n ≤ i → T' (st i) (op i) (st (i + 1))
  fair : ∀ x, InfOften (fun i => Can T' kind (st i) x) → InfOften (fun i => kind (op i) = some x)

theorem through_cons {T' : σ → α → σ → Prop} {s s' t : σ} {a : α} (ha : T s a s') (r : Through T T' kind s' t) :
    Nonempty (Through T T' kind s t) := by
  refine ⟨⟨fun | 0 => s | i + 1 => r.st i, fun | 0 => a | i + 1 => r.op i, rfl, ?_, r.n + 1, r.at_n, ?_, fun x hx => ?_⟩⟩
  · rintro (_ | i)
    · show T s a (r.st 0)
      rw [r.start]; exact ha
    · exact r.next i
  · rintro (_ | i) hi
    · omega
    · exact r.later i (by omega)
  · have h1 : InfOften (fun i => Can T' kind (r.st i) x) := fun n => by
      obtain ⟨k, hk, h⟩ := hx (n + 1)
      cases k with
      | zero => omega
      | succ k => exact ⟨k, by omega, h⟩
    intro n
    obtain ⟨k, hk, h⟩ := r.fair x h1 n
    exact ⟨k + 1, by omega, h⟩

/-- Every finite execution can be continued fairly. -/
theorem exists_through [Countable κ] {T' : σ → α → σ → Prop} {s0 t : σ} (hp : Path T s0 t) (sub : ∀ s a s', T' s a s' → T s a s')
    (total : ∀ s, P s → ∃ a s', T' s a s') (inv : ∀ s a s', P s → T' s a s' → P s') (ht : P t) :
    Nonempty (Through T T' kind s0 t) := by
  obtain ⟨st, op, h1, h2, h3⟩ := exists_fair (kind := kind) total inv ht
  have h : Nonempty (Through T T' kind t t) := ⟨⟨st, op, h1, fun i => sub _ _ _ (h2 i), 0, h1, fun i _ => h2 i, h3⟩⟩
  have key : ∀ {s}, Path T s0 s → Nonempty (Through T T' kind s t) → Nonempty (Through T T' kind s0 t) := by
    intro s hp
    induction hp with
    | nil => exact id
    | snoc _ ha ih => exact fun ⟨r⟩ => ih (through_cons ha r)
  exact key hp h

end Verif.Schedule
