import Verif.Spec.EngineSettle
import Verif.Props.EngineCount
import Verif.Props.EngineFineFair

/-!
# C101: where an engine settles
-/

namespace Verif.Props.Settle
open Verif.Engine Verif.Spec Verif.Props Count Relation

variable {cfg : Config} {h d : List Ev} {a n i : Name}

/-! ## Counting in a longer history -/

/-- How often an attempt of the manifold ended. -/
def endsH : List Ev → Name → Nat
  | [], _ => 0
  | .ended m _ _ _ _ _ _ :: h, n => endsH h n + if n = m then 1 else 0
  | _ :: h, n => endsH h n

theorem attempts_app (d h : List Ev) (a : Name) : attemptsH (d ++ h) a = attemptsH d a + attemptsH h a := by
  induction d with
  | nil => simp [attemptsH]
  | cons e d ih => cases e <;> simp only [List.cons_append, attemptsH, ih] <;> omega

theorem regs_app (d h : List Ev) (a : Name) : regsH (d ++ h) a = regsH d a + regsH h a := by
  induction d with
  | nil => simp [regsH]
  | cons e d ih => cases e <;> simp only [List.cons_append, regsH, ih] <;> omega

theorem losses_app (d h : List Ev) (a : Name) : lossesH (d ++ h) a = lossesH d a + lossesH h a := by
  induction d with
  | nil => simp [lossesH]
  | cons e d ih => cases e <;> simp only [List.cons_append, lossesH, ih] <;> omega

theorem ends_app (d h : List Ev) (a : Name) : endsH (d ++ h) a = endsH d a + endsH h a := by
  induction d with
  | nil => simp [endsH]
  | cons e d ih => cases e <;> simp only [List.cons_append, endsH, ih] <;> omega

theorem causes_app (d h : List Ev) (a : Name) : causesH (d ++ h) a = causesH d a + causesH h a := by
  induction d with
  | nil => simp [causesH]
  | cons e d ih => cases e <;> simp only [List.cons_append, causesH, ih] <;> omega

/-- Nothing was installed. -/
def noInst (d : List Ev) : Prop := ∀ n m, .installed n m ∉ d

theorem noInst_of (hd : ∀ a, causesH d a = 0) : noInst d := by
  intro n m hm
  obtain ⟨d1, d2, rfl⟩ := List.append_of_mem hm
  have := hd n
  rw [causes_app] at this
  simp only [causesH, if_true] at this
  omega

theorem zero_causes (hz : d.all (fun e => match e with
    | .installed _ _ => false
    | .ended _ _ _ _ f told _ => told || !retried f
    | _ => true) = true) (a : Name) : causesH d a = 0 := by
  induction d with
  | nil => rfl
  | cons e d ih =>
    simp only [List.all_cons, Bool.and_eq_true] at hz
    have ih := ih hz.2
    cases e with
    | installed m x => cases hz.1
    | ended m g now raw f told lost =>
      have h1 := hz.1
      simp only [causesH, ih, Nat.zero_add]
      rw [if_neg]
      rintro ⟨_, rfl, h2⟩
      have h1 : (false || !retried f) = true := h1
      rw [h2] at h1; cases h1
    | _ => exact ih

theorem man_app (hd : noInst d) (a : Name) : manH (d ++ h) a = manH h a ∨ manH (d ++ h) a = none := by
  induction d with
  | nil => exact Or.inl rfl
  | cons e d ih =>
    have ih := ih (fun n m hm => hd n m (List.mem_cons_of_mem _ hm))
    cases e with
    | installed n m => exact absurd List.mem_cons_self (hd n m)
    | uninstalled m =>
      simp only [List.cons_append, manH]
      split
      · exact Or.inr rfl
      · exact ih
    | _ => exact ih

theorem inputs_app (hd : noInst d) (a : Name) : inputsH (d ++ h) a = inputsH h a ∨ inputsH (d ++ h) a = [] := by
  unfold inputsH
  rcases man_app (h := h) hd a with e | e
  · rw [e]; exact Or.inl rfl
  · rw [e]; exact Or.inr rfl

theorem news_app (hd : noInst d) (hr : ∀ i ∈ inputsH h a, regsH d i = 0 ∧ lossesH d i = 0) :
    newsH (d ++ h) a = newsH h a := by
  induction d with
  | nil => rfl
  | cons e d ih =>
    have hd' : noInst d := fun n m hm => hd n m (List.mem_cons_of_mem _ hm)
    have hin := inputs_app (h := h) hd' a
    have zero : ∀ i, (i ∈ inputsH h a → False) → (inputsH (d ++ h) a).count i = 0 := by
      intro i hi
      rcases hin with e | e <;> rw [e]
      · exact List.count_eq_zero.2 hi
      · rfl
    have ih := ih hd' (fun i hi => by
      have := hr i hi
      cases e <;> simp only [regsH, lossesH] at this <;> omega)
    cases e with
    | registered m g w t =>
      simp only [List.cons_append, newsH]
      rw [ih, zero m (fun hm => by have := hr m hm; simp [regsH] at this)]; rfl
    | ended m g now raw f told lost =>
      simp only [List.cons_append, newsH]
      by_cases hl : lost = none
      · rw [if_pos hl, ih]; rfl
      · rw [if_neg hl, ih, zero m (fun hm => by have := hr m hm; simp [lossesH, hl] at this)]; rfl
    | _ => simp only [List.cons_append, newsH]; exact ih

/-! ## Ends -/

theorem happens_ends {L L' : Hidden} {e : Ev} (i : ∀ n, endsH h n + (if openH h n ≠ none then 1 else 0) ≤ attemptsH h n)
    (hs : Happens cfg h L e L') (n : Name) :
    endsH (e :: h) n + (if openH (e :: h) n ≠ none then 1 else 0) ≤ attemptsH (e :: h) n := by
  have h1 := i n
  cases hs
  case start m b l mm hl hk hm =>
    show endsH h n + (if (if n = m then some (beginsH h) else openH h n) ≠ none then 1 else 0) ≤
      attemptsH h n + if n = m then 1 else 0
    by_cases hx : n = m
    · simp only [hx, if_true] at *
      split <;> omega
    · simp only [hx, if_false] at *; omega
  case restart m l mm hl ho hk hm =>
    show endsH h n + (if (if n = m then some (beginsH h) else openH h n) ≠ none then 1 else 0) ≤
      attemptsH h n + if n = m then 1 else 0
    by_cases hx : n = m
    · simp only [hx, if_true] at *
      split <;> omega
    · simp only [hx, if_false] at *; omega
  case ended m g now raw mm order hl ho he hm hv =>
    show (endsH h n + if n = m then 1 else 0) + (if (if n = m then none else openH h n) ≠ none then 1 else 0) ≤ attemptsH h n
    by_cases hx : n = m
    · subst hx
      simp [ho] at *
      omega
    · simp only [hx, if_false] at *; omega
  all_goals exact h1

theorem after_ends {L : Hidden} (ha : After cfg h L) :
    ∀ n, endsH h n + (if openH h n ≠ none then 1 else 0) ≤ attemptsH h n := by
  induction ha with
  | new => exact fun _ => Nat.le_refl _
  | event _ _ hs ih => exact happens_ends ih hs
  | forced _ hu ih => rcases urgent_plain hu with ⟨w, rfl⟩ | rfl <;> exact ih
  | silent _ _ _ ih => exact ih

theorem happens_begins {L L' : Hidden} {e : Ev} (hs : Happens cfg h L e L') {m : Name} {g : Nat} {b : Int} {r : Nat}
    {sn : Snapshot} (he : e = .begin m g b r sn) : manH h m ≠ none := by
  cases hs <;> cases he <;> simp_all

/-- Only what is installed is begun. -/
theorem after_begins {L : Hidden} (ha : After cfg h L) :
    AtEvery (fun e h => ∀ m g b r sn, e = .begin m g b r sn → manH h m ≠ none) h := by
  induction ha with
  | new => trivial
  | event _ _ hs ih => exact ⟨fun m g b r sn he => happens_begins hs he, ih⟩
  | forced _ hu ih =>
    refine ⟨fun m g b r sn he => ?_, ih⟩
    rcases urgent_plain hu with ⟨w, rfl⟩ | rfl <;> cases he
  | silent _ _ _ ih => exact ih

/-! ## Sequences that come to rest -/

theorem mono_bounded {f : Nat → Nat} {n B : Nat} (hm : ∀ k, n ≤ k → f k ≤ f (k + 1)) (hb : ∀ k, n ≤ k → f k ≤ B) :
    ∃ m, n ≤ m ∧ ∀ k, m ≤ k → f k = f m := by
  obtain ⟨m, h1, h2⟩ := settles (f := fun k => B - f k) (n := n) (fun k hk => by have := hm k hk; omega)
  refine ⟨m, h1, fun k hk => ?_⟩
  have := h2 k hk
  have := hb k (by omega)
  have := hb m h1
  omega

variable {r : FineRun cfg}

/-- What happened between two moments. -/
theorem between (r : FineRun cfg) {k j : Nat} (hkj : k ≤ j) : ∃ d, r.hist j = d ++ r.hist k := r.hist_append hkj

theorem noInst_between {m k j : Nat} (hc : NoCauses r.hist m) (hk : m ≤ k) (hj : k ≤ j) (hd : r.hist j = d ++ r.hist k) :
    noInst d := noInst_of (fun a => by
  have h1 := hc j (by omega) a
  have h2 := hc k hk a
  rw [hd, causes_app] at h1
  omega)

theorem attempts_mono (r : FineRun cfg) {k j : Nat} (hkj : k ≤ j) (a : Name) :
    attemptsH (r.hist k) a ≤ attemptsH (r.hist j) a := by
  obtain ⟨d, hd⟩ := between r hkj
  rw [hd, attempts_app]; omega

theorem regs_mono (r : FineRun cfg) {k j : Nat} (hkj : k ≤ j) (a : Name) : regsH (r.hist k) a ≤ regsH (r.hist j) a := by
  obtain ⟨d, hd⟩ := between r hkj
  rw [hd, regs_app]; omega

theorem losses_mono (r : FineRun cfg) {k j : Nat} (hkj : k ≤ j) (a : Name) : lossesH (r.hist k) a ≤ lossesH (r.hist j) a := by
  obtain ⟨d, hd⟩ := between r hkj
  rw [hd, losses_app]; omega

theorem ends_mono (r : FineRun cfg) {k j : Nat} (hkj : k ≤ j) (a : Name) : endsH (r.hist k) a ≤ endsH (r.hist j) a := by
  obtain ⟨d, hd⟩ := between r hkj
  rw [hd, ends_app]; omega

theorem regs_le (r : FineRun cfg) (k : Nat) (a : Name) : regsH (r.hist k) a ≤ attemptsH (r.hist k) a := by
  obtain ⟨_, L, ha⟩ := C96_sound (r.reach k)
  have h : RInv (r.hist k) := after_reg ha
  have := h.regs a
  omega

theorem losses_le (r : FineRun cfg) (k : Nat) (a : Name) : lossesH (r.hist k) a ≤ attemptsH (r.hist k) a := by
  obtain ⟨_, L, ha⟩ := C96_sound (r.reach k)
  have h : RInv (r.hist k) := after_reg ha
  have := h.losses a
  have := regs_le r k a
  omega

theorem ends_le (r : FineRun cfg) (k : Nat) (a : Name) : endsH (r.hist k) a ≤ attemptsH (r.hist k) a := by
  obtain ⟨_, L, ha⟩ := C96_sound (r.reach k)
  have h : endsH (r.hist k) a + (if openH (r.hist k) a ≠ none then 1 else 0) ≤ attemptsH (r.hist k) a := after_ends ha a
  omega

/-- If the attempts of a manifold stop, so do its registrations, losses and ends. -/
theorem follow_attempts {m : Nat} (hm : ∀ k, m ≤ k → attemptsH (r.hist k) a = attemptsH (r.hist m) a) :
    ∃ m', m ≤ m' ∧ ∀ k, m' ≤ k → regsH (r.hist k) a = regsH (r.hist m') a ∧ lossesH (r.hist k) a = lossesH (r.hist m') a ∧
      endsH (r.hist k) a = endsH (r.hist m') a := by
  obtain ⟨m1, h1, h1'⟩ := mono_bounded (f := fun k => regsH (r.hist k) a) (n := m) (B := attemptsH (r.hist m) a)
    (fun k _ => regs_mono r (Nat.le_succ k) a) (fun k hk => by rw [← hm k hk]; exact regs_le r k a)
  obtain ⟨m2, h2, h2'⟩ := mono_bounded (f := fun k => lossesH (r.hist k) a) (n := m) (B := attemptsH (r.hist m) a)
    (fun k _ => losses_mono r (Nat.le_succ k) a) (fun k hk => by rw [← hm k hk]; exact losses_le r k a)
  obtain ⟨m3, h3, h3'⟩ := mono_bounded (f := fun k => endsH (r.hist k) a) (n := m) (B := attemptsH (r.hist m) a)
    (fun k _ => ends_mono r (Nat.le_succ k) a) (fun k hk => by rw [← hm k hk]; exact ends_le r k a)
  refine ⟨max m1 (max m2 m3), by omega, fun k hk => ⟨?_, ?_, ?_⟩⟩
  · exact (h1' k (by omega)).trans (h1' _ (by omega)).symm
  · exact (h2' k (by omega)).trans (h2' _ (by omega)).symm
  · exact (h3' k (by omega)).trans (h3' _ (by omega)).symm

theorem declares_wf (hr : FReach cfg f) : WellFounded (fun j n => Declares f.s.hist n j) := by
  obtain ⟨D, hl⟩ := freach_link hr
  obtain ⟨_, i⟩ := ex_hinv hl.1
  refine wf_right f.s.manifolds.keys ?_ ?_
  · rintro j n ⟨m, hm, _⟩
    rw [← i.man] at hm
    exact AMap.mem_keys_of_get? hm
  · intro n h
    exact ex_acyclic hl.1 ⟨n, transGen_swap.1 h⟩

/-- The attempts of each manifold stop. -/
theorem attempts_stop {m : Nat} (hc : NoCauses r.hist m) (a : Name) :
    ∃ m', m ≤ m' ∧ ∀ k, m' ≤ k → attemptsH (r.hist k) a = attemptsH (r.hist m') a := by
  induction a using (declares_wf (r.reach m)).induction with
  | _ a ih =>
    have inp : ∀ i ∈ inputsH (r.hist m) a, Declares (r.hist m) a i := by
      intro i hi
      unfold inputsH at hi
      cases hm : manH (r.hist m) a with
      | none => rw [hm] at hi; cases hi
      | some x => rw [hm] at hi; exact ⟨x, hm, hi⟩
    have each : ∀ i ∈ inputsH (r.hist m) a, ∃ m', ∀ k, m' ≤ k → ∀ j, k ≤ j → regsH (r.hist j) i = regsH (r.hist k) i ∧
        lossesH (r.hist j) i = lossesH (r.hist k) i := by
      intro i hi
      obtain ⟨m1, _, h1⟩ := ih i (inp i hi)
      obtain ⟨m2, _, h2⟩ := follow_attempts h1
      refine ⟨m2, fun k hk j hj => ⟨?_, ?_⟩⟩
      · rw [(h2 j (by omega)).1, (h2 k hk).1]
      · rw [(h2 j (by omega)).2.1, (h2 k hk).2.1]
    obtain ⟨m1, h1⟩ := from_list _ each
    -- from then on there are no news
    have news : ∀ k, max m m1 ≤ k → newsH (r.hist k) a = newsH (r.hist (max m m1)) a := by
      intro k hk
      obtain ⟨d, hd⟩ := between r hk
      rw [hd]
      refine news_app (noInst_between hc (by omega) hk hd) (fun i hi => ?_)
      have hi' : i ∈ inputsH (r.hist m) a := by
        obtain ⟨d0, hd0⟩ := between r (Nat.le_max_left m m1)
        rw [hd0] at hi
        rcases inputs_app (h := r.hist m) (noInst_between hc (Nat.le_refl _) (Nat.le_max_left m m1) hd0) a with e | e
        · rw [e] at hi; exact hi
        · rw [e] at hi; cases hi
      obtain ⟨x, y⟩ := h1 (max m m1) (by omega) i hi' k hk
      rw [hd, regs_app] at x
      rw [hd, losses_app] at y
      omega
    obtain ⟨m2, h2, h2'⟩ := mono_bounded (f := fun k => attemptsH (r.hist k) a) (n := max m m1)
      (B := causesH (r.hist m) a + newsH (r.hist (max m m1)) a) (fun k _ => attempts_mono r (Nat.le_succ k) a)
      (fun k hk => by
        have h3 : attemptsH (r.hist k) a ≤ causesH (r.hist k) a + newsH (r.hist k) a := C99_attempts (r.reach k) a
        rw [news k hk, hc k (by omega)] at h3
        exact h3)
    exact ⟨m2, by omega, h2'⟩

/-- Names that have something to do with a history: the others have no attempts, and get none. -/
def begun (h : List Ev) : List Name := h.filterMap (fun e => match e with
  | .begin m _ _ _ _ => some m
  | _ => none)

theorem not_begun (hn : a ∉ begun h) : attemptsH h a = 0 := by
  induction h with
  | nil => rfl
  | cons e h ih =>
    cases e with
    | begin m g b rr sn =>
      simp only [begun, List.filterMap_cons, List.mem_cons, not_or] at hn
      simp only [attemptsH, if_neg hn.1]
      exact ih hn.2
    | _ => exact ih hn

theorem no_begin {m k : Nat} (hc : NoCauses r.hist m) (hk : m ≤ k) (hi : manH (r.hist m) a = none) :
    attemptsH (r.hist k) a = attemptsH (r.hist m) a := by
  obtain ⟨d, hd⟩ := between r hk
  obtain ⟨_, L, ha⟩ := C96_sound (r.reach k)
  have hb : AtEvery (fun e h => ∀ m g b r sn, e = .begin m g b r sn → manH h m ≠ none) (r.hist k) := after_begins ha
  have hn := noInst_between hc (Nat.le_refl _) hk hd
  rw [hd] at hb ⊢
  clear hd
  induction d with
  | nil => rfl
  | cons e d ih =>
    have hn' : noInst d := fun n m hm => hn n m (List.mem_cons_of_mem _ hm)
    have ih := ih hb.2 hn'
    cases e with
    | begin m' g b rr sn =>
      simp only [List.cons_append, attemptsH]
      have := hb.1 m' g b rr sn rfl
      have hne : a ≠ m' := by
        rintro rfl
        rcases man_app (h := r.hist m) hn' a with e | e
        · exact this (e.trans hi)
        · exact this e
      rw [if_neg hne]; exact ih
    | _ => exact ih

/-- Events that leave the tables alone. -/
theorem table_app (h1 : attemptsH d a = 0) (h2 : regsH d a = 0) (h3 : endsH d a = 0) :
    openH (d ++ h) a = openH h a ∧ workerH (d ++ h) a = workerH h a ∧ lastBegin (d ++ h) a = lastBegin h a := by
  induction d with
  | nil => exact ⟨rfl, rfl, rfl⟩
  | cons e d ih =>
    have ih := ih (by cases e <;> simp only [attemptsH] at h1 <;> omega) (by cases e <;> simp only [regsH] at h2 <;> omega)
      (by cases e <;> simp only [endsH] at h3 <;> omega)
    cases e with
    | begin m =>
      have : a ≠ m := by rintro rfl; simp [attemptsH] at h1
      simp only [List.cons_append, openH, workerH, lastBegin, if_neg this]; exact ih
    | ended m =>
      have : a ≠ m := by rintro rfl; simp [endsH] at h3
      simp only [List.cons_append, openH, workerH, lastBegin, if_neg this]; exact ih
    | registered m =>
      have : a ≠ m := by rintro rfl; simp [regsH] at h2
      simp only [List.cons_append, openH, workerH, lastBegin, if_neg this]; exact ih
    | _ => exact ih

/-- What is installed stays the same in the end. -/
theorem man_stops {m : Nat} (hc : NoCauses r.hist m) (a : Name) :
    ∃ m', m ≤ m' ∧ ∀ k, m' ≤ k → manH (r.hist k) a = manH (r.hist m') a := by
  obtain ⟨m', h1, h2⟩ := settles (f := fun k => if manH (r.hist k) a = none then 0 else 1) (n := m) (fun k hk => by
    obtain ⟨d, hd⟩ := between r (Nat.le_succ k)
    rcases man_app (h := r.hist k) (noInst_between hc hk (Nat.le_succ k) hd) a with e | e
    · show (if manH (r.hist (k + 1)) a = none then 0 else 1) ≤ _
      rw [hd, e]
    · show (if manH (r.hist (k + 1)) a = none then 0 else 1) ≤ _
      rw [hd, e]; exact Nat.zero_le _)
  refine ⟨m', h1, fun k hk => ?_⟩
  obtain ⟨d, hd⟩ := between r hk
  rcases man_app (h := r.hist m') (noInst_between hc h1 hk hd) a with e | e
  · rw [hd]; exact e
  · have h3 : (if manH (r.hist k) a = none then 0 else 1) = if manH (r.hist m') a = none then 0 else 1 := h2 k hk
    rw [← hd] at e
    rw [if_pos e] at h3
    by_cases hz : manH (r.hist m') a = none
    · rw [e, hz]
    · rw [if_neg hz] at h3; cases h3

theorem open_begun (r : FineRun cfg) (k : Nat) (h0 : attemptsH (r.hist k) a = 0) :
    regsH (r.hist k) a = 0 ∧ endsH (r.hist k) a = 0 := by
  have := regs_le r k a
  have := ends_le r k a
  omega

/-- For each manifold, from some moment on nothing changes. -/
theorem table_stops {m : Nat} (hc : NoCauses r.hist m) (a : Name) : ∃ m', m ≤ m' ∧ ∀ k, m' ≤ k →
    attemptsH (r.hist k) a = attemptsH (r.hist m') a ∧ manH (r.hist k) a = manH (r.hist m') a ∧
      openH (r.hist k) a = openH (r.hist m') a ∧ workerH (r.hist k) a = workerH (r.hist m') a ∧
      lastBegin (r.hist k) a = lastBegin (r.hist m') a := by
  obtain ⟨m1, h1, h1'⟩ := attempts_stop hc a
  obtain ⟨m2, h2, h2'⟩ := follow_attempts h1'
  obtain ⟨m3, h3, h3'⟩ := man_stops hc a
  refine ⟨max m2 m3, by omega, fun k hk => ?_⟩
  have e1 := (h1' k (by omega)).trans (h1' (max m2 m3) (by omega)).symm
  have e2 := (h2' k (by omega)).1.trans (h2' (max m2 m3) (by omega)).1.symm
  have e3 := (h2' k (by omega)).2.2.trans (h2' (max m2 m3) (by omega)).2.2.symm
  have e4 := (h3' k (by omega)).trans (h3' (max m2 m3) (by omega)).symm
  obtain ⟨d, hd⟩ := between r hk
  refine ⟨e1, e4, ?_⟩
  rw [hd, attempts_app] at e1
  rw [hd, regs_app] at e2
  rw [hd, ends_app] at e3
  rw [hd]
  exact table_app (by omega) (by omega) (by omega)

theorem storm_ends {m : Nat} (hc : NoCauses r.hist m) : ∃ m', m ≤ m' ∧ ∀ k, m' ≤ k → SameTable (r.hist k) (r.hist m') := by
  obtain ⟨m1, h1⟩ := from_list (P := fun a k => ∀ j, k ≤ j → attemptsH (r.hist j) a = attemptsH (r.hist k) a ∧
      manH (r.hist j) a = manH (r.hist k) a ∧ openH (r.hist j) a = openH (r.hist k) a ∧
      workerH (r.hist j) a = workerH (r.hist k) a ∧ lastBegin (r.hist j) a = lastBegin (r.hist k) a)
    ((r.st m).s.manifolds.keys ++ begun (r.hist m)) (fun a _ => by
      obtain ⟨m', _, h⟩ := table_stops hc a
      refine ⟨m', fun k hk j hj => ?_⟩
      obtain ⟨x1, x2, x3, x4, x5⟩ := h j (by omega)
      obtain ⟨y1, y2, y3, y4, y5⟩ := h k hk
      exact ⟨x1.trans y1.symm, x2.trans y2.symm, x3.trans y3.symm, x4.trans y4.symm, x5.trans y5.symm⟩)
  refine ⟨max m m1, Nat.le_max_left _ _, fun k hk a => ?_⟩
  by_cases ha : a ∈ (r.st m).s.manifolds.keys ++ begun (r.hist m)
  · exact h1 (max m m1) (Nat.le_max_right _ _) a ha k hk
  · simp only [List.mem_append, not_or] at ha
    have hi : manH (r.hist m) a = none := by
      cases hm : manH (r.hist m) a with
      | none => rfl
      | some x =>
        rw [show r.hist m = (r.st m).s.hist from rfl, ← (freach_hinv (r.reach m)).2.man] at hm
        exact absurd (AMap.mem_keys_of_get? hm) ha.1
    have z : ∀ j, m ≤ j → attemptsH (r.hist j) a = 0 := fun j hj => (no_begin hc hj hi).trans (not_begun ha.2)
    have hman : ∀ j, m ≤ j → manH (r.hist j) a = none := by
      intro j hj
      obtain ⟨d, hd⟩ := between r hj
      rw [hd]
      rcases man_app (h := r.hist m) (noInst_between hc (Nat.le_refl _) hj hd) a with e | e
      · rw [e]; exact hi
      · exact e
    obtain ⟨d, hd⟩ := between r hk
    have e1 := z k (by omega)
    obtain ⟨e2, e3⟩ := open_begun r k e1
    refine ⟨e1.trans (z _ (by omega)).symm, (hman k (by omega)).trans (hman _ (by omega)).symm, ?_⟩
    rw [hd, attempts_app] at e1
    rw [hd, regs_app] at e2
    rw [hd, ends_app] at e3
    rw [hd]
    exact table_app (by omega) (by omega) (by omega)

/-- From some moment on every attempt has a registered worker that runs and has not been told to stop. -/
theorem settled_in_the_end (hf : r.Fair) (hd : r.DelaysEnd) (hs : StartsReturn r.hist) (hw : KilledFinish r.hist)
    (hx : ∀ k, .exit ∉ r.hist k) {m : Nat} (hm : ∀ k, m ≤ k → SameTable (r.hist k) (r.hist m)) :
    ∃ m', m ≤ m' ∧ ∀ k, m' ≤ k → Settled (r.hist k) := by
  have each : ∀ G ∈ (r.st m).s.gs, ∃ m, ∀ k, m ≤ k → .cancelled G.gid ∉ r.hist k ∧ ∃ w, workerH (r.hist k) G.name = some w ∧
      ∀ q, w = .obj q → ∀ e, .finished q e ∉ r.hist k := by
    intro G hG
    have hop : ∀ k, m ≤ k → openH (r.hist k) G.name = some G.gid := fun k hk1 =>
      (hm k hk1 G.name).2.2.1.trans ((freach_hinv (r.reach m)).2.openG G hG)
    rcases FineRun.stuck hf hop with h | ⟨m', hm', h⟩
    · cases h with
      | start q h =>
        obtain ⟨j, hj, hn⟩ := hs _ _ _ (hop (max m q) (by omega)) (h _ (Nat.le_max_right _ _))
        exact absurd ⟨hop j (by omega), h j (by omega)⟩ hn
      | worker q w h hfw =>
        refine ⟨q, fun k hk1 => ?_⟩
        obtain ⟨h1, h2⟩ := h k hk1
        rcases h2 with h2 | ⟨h2, h3⟩
        · obtain ⟨j, e, hj⟩ := hw _ w (killedH_mem h2 h1)
          exact absurd hj (hfw j e)
        · exact ⟨h3, _, h2, fun q' hq' e => by cases hq'; exact hfw k e⟩
      | self q h _ =>
        refine ⟨q, fun k hk1 => ?_⟩
        obtain ⟨_, h2, h3⟩ := h k hk1
        exact ⟨h3, _, h2, fun q' hq' => by cases hq'⟩
      | gone q _ h => exact absurd h (hx q)
    · exfalso
      obtain ⟨k, hk1, hk'⟩ := hd G.gid (infOften_of_from m' (fun k hk1 => by
        obtain ⟨_, x, h1, h3⟩ := h k hk1
        refine canDo_env (.gTimer G.gid 0) rfl rfl ?_
        simp only [Engine.step, h1]
        rw [if_pos ⟨h3, by decide, by decide⟩]; rfl)) m'
      exact (h k hk1).1 (mover_of_kind hk' (by simp))
  obtain ⟨m', h'⟩ := from_list _ each
  refine ⟨max m m', Nat.le_max_left _ _, fun k hk1 a g ho => ?_⟩
  have ho' : openH (r.st m).s.hist a = some g := ((hm k (by omega) a).2.2.1).symm.trans ho
  obtain ⟨G, hG, rfl, rfl⟩ := (freach_hinv (r.reach m)).2.openN a g ho'
  exact h' k (by omega) G hG

/-! ## The policy -/

/-- A manifold at rest: the event that ended its latest attempt, and with what. -/
theorem rests_ended {n : Name} : ∀ {h : List Ev}, waitsH h n = true → openH h n = none →
    ∃ post g now raw f lost pre, h = post ++ .ended n g now raw f false lost :: pre ∧ lastBegin h n = lastBegin pre n ∧
      comesToRest f = true := by
  intro h
  induction h with
  | nil => intro h; cases h
  | cons e h ih =>
    intro h1 h2
    have old : waitsH h n = true → openH h n = none → lastBegin (e :: h) n = lastBegin h n →
        ∃ post g now raw f lost pre, e :: h = post ++ .ended n g now raw f false lost :: pre ∧
          lastBegin (e :: h) n = lastBegin pre n ∧ comesToRest f = true := by
      intro h1 h2 h3
      obtain ⟨post, g, now, raw, f, lost, pre, h4, h5, h6⟩ := ih h1 h2
      exact ⟨e :: post, g, now, raw, f, lost, pre, by rw [h4]; rfl, h3.trans h5, h6⟩
    cases e with
    | ended m g now raw f told lost =>
      simp only [waitsH, openH] at h1 h2
      by_cases hm : n = m
      · subst hm
        simp only [if_true, Bool.and_eq_true, Bool.not_eq_true'] at h1
        obtain ⟨rfl, hr⟩ := h1
        refine ⟨[], g, now, raw, f, lost, h, rfl, rfl, ?_⟩
        cases f <;> exact hr
      · rw [if_neg hm] at h1 h2
        split at h1
        · cases h1
        · exact old h1 h2 rfl
    | begin m g b r sn =>
      simp only [waitsH, openH] at h1 h2
      split at h2
      · cases h2
      · rename_i hm
        exact old h1 h2 (by simp [lastBegin, hm])
    | installed m =>
      simp only [waitsH] at h1
      split at h1
      · cases h1
      · exact old h1 h2 rfl
    | registered m =>
      simp only [waitsH] at h1
      split at h1
      · cases h1
      · exact old h1 h2 rfl
    | startCall | startOk | startErr | installFailed | uninstalled | get | finished | exit | report | kill | cancelled | killW =>
      exact old h1 h2 rfl

/-- What an up-to-date attempt was given. -/
theorem given_now {m : Manifold} {sn : Snapshot} (hm : manH h n = some m)
    (h1 : ∀ i ∈ m.inputs, sn.workers.get? i = some (workerH h i)) (h2 : ∀ i, i ∉ m.inputs → sn.workers.get? i = none) :
    given sn = fun i => decide (i ∈ inputsH h n) && upH h i := by
  funext i
  unfold given upH
  have hin : inputsH h n = m.inputs := by unfold inputsH; rw [hm]
  rw [hin]
  by_cases hi : i ∈ m.inputs
  · rw [h1 i hi]
    cases workerH h i <;> simp [hi]
  · rw [h2 i hi]
    simp [hi]

theorem settled_result (hr : FReach cfg f) (h0 : f.todo = []) (hk : .kill ∉ f.s.hist) (hs : Settled f.s.hist) {P : Policy}
    (ho : AtEvery (Obeys P) f.s.hist) (hw : Wanted P f.s.hist) : Result P f.s.hist (upH f.s.hist) := by
  obtain ⟨D, hl⟩ := freach_link hr
  have e := quiet_noDebt hl (fun t ht => by rw [h0] at ht; cases ht)
  subst e
  have hx := hl.1
  obtain ⟨c, i⟩ := ex_hinv hx
  have hopenw : ∀ n, upH f.s.hist n = true → ∃ g, openH f.s.hist n = some g := by
    intro n hn
    have hw' : (f.s.cur n).worker ≠ none := by
      rw [i.worker]; unfold upH at hn; exact Option.isSome_iff_ne_none.1 hn
    have hns : (f.s.cur n).stopped = false := by
      cases hs : (f.s.cur n).stopped with
      | false => rfl
      | true => exact absurd ((stopped_iff _).1 hs).1 hw'
    obtain ⟨g, hg, rfl⟩ := c.live n hns
    exact ⟨_, i.openG g hg⟩
  intro n
  constructor
  · intro hn
    obtain ⟨g, hg⟩ := hopenw n hn
    obtain ⟨h1, _⟩ := hs _ _ hg
    obtain ⟨m, g', sn, u1, u2, u3, u4⟩ := (ex_inputs_current hx hg h1 hk).resolve_left id
    refine ⟨by rw [u1]; simp, ?_⟩
    rw [← given_now u1 (fun j hj => (u3 j hj).1) u4]
    have hg' : g' = g := by
      obtain ⟨G, hG, rfl, rfl⟩ := i.openN n g hg
      have := i.beg G hG
      rw [u2] at this
      simp only [Option.some.injEq, Prod.mk.injEq] at this
      exact this.1
    exact hw n g sn hg (by rw [u2, hg'])
  · rintro ⟨h1, h2⟩
    cases hop : openH f.s.hist n with
    | some g =>
      obtain ⟨_, w, hw', _⟩ := hs n g hop
      unfold upH; rw [hw']; rfl
    | none =>
      exfalso
      obtain ⟨post, g, now, raw, fe, lost, pre, e1, e2, e3⟩ := rests_ended (ex_rests hx hk h1 hop) hop
      obtain ⟨m, g', sn, u1, u2, u3, u4⟩ := (ex_stopped_not_stale hx h1 hop hk).resolve_left id
      rw [e1] at ho
      have hob : Obeys P (.ended n g now raw fe false lost) pre := ho.split
      have := hob e3 g' sn (by rw [← e2]; exact u2)
      rw [given_now u1 (fun j hj => (u3 j hj).1) u4, h2] at this
      cases this

/-- The policy decides. -/
theorem result_unique (hr : FReach cfg f) {h' : List Ev} (hg : SameGraph f.s.hist h') {P : Policy} {R R' : Name → Bool}
    (h1 : Result P f.s.hist R) (h2 : Result P h' R') (n : Name) : R n = R' n := by
  induction n using (declares_wf hr).induction with
  | _ n ih =>
    have hin : inputsH f.s.hist n = inputsH h' n := by
      have := hg n
      unfold inputsH
      cases ha : manH f.s.hist n <;> cases hb : manH h' n <;> rw [ha, hb] at this <;> simp_all
    have hman : manH f.s.hist n ≠ none ↔ manH h' n ≠ none := by
      have := hg n
      cases ha : manH f.s.hist n <;> cases hb : manH h' n <;> rw [ha, hb] at this <;> simp_all
    have hP : (fun i => decide (i ∈ inputsH f.s.hist n) && R i) = fun i => decide (i ∈ inputsH h' n) && R' i := by
      funext i
      rw [← hin]
      by_cases hi : i ∈ inputsH f.s.hist n
      · rw [ih i ?_]
        unfold inputsH at hi
        cases hm : manH f.s.hist n with
        | none => rw [hm] at hi; cases hi
        | some x => rw [hm] at hi; exact ⟨x, hm, hi⟩
      · simp [hi]
    have := (h1 n).trans ((and_congr hman (by rw [hP])).trans (h2 n).symm)
    cases ha : R n <;> cases hb : R' n <;> simp_all

end Verif.Props.Settle

namespace Verif.Props
open Verif.Engine Verif.Spec Settle

variable {cfg cfg' : Config} {f f' : Fine} {r : FineRun cfg}

/-- C101: once nothing is installed any more and manifolds fail only in ways after which they are not tried again at once, a
moment comes after which no attempt is begun or ends, no worker is registered or lost and nothing is removed. This needs
nothing of the scheduler, nor that Start funcs or workers ever end. -/
theorem C101_storm {n : Nat} (hc : NoCauses r.hist n) :
    ∃ m, n ≤ m ∧ ∀ k, m ≤ k → SameTable (r.hist k) (r.hist m) := storm_ends hc

/-- C101: if moreover the engine is not killed, the scheduler is fair, delays end, Start funcs return and killed workers
finish, then from some moment on every open attempt has a registered worker which runs and has not been told to stop. -/
theorem C101_settles (hf : r.Fair) (hd : r.DelaysEnd) (hs : StartsReturn r.hist) (hw : KilledFinish r.hist)
    (hk : ∀ k, .kill ∉ r.hist k) {n : Nat} (hc : NoCauses r.hist n) : ∃ m, ∀ k, m ≤ k → Settled (r.hist k) := by
  obtain ⟨m, _, h⟩ := C101_storm hc
  obtain ⟨m', _, h'⟩ := settled_in_the_end hf hd hs hw (fun k hx => by
    obtain ⟨co, i⟩ := freach_hinv (r.reach k)
    exact hk k (i.dying.1 (co.dead (i.dead.2 hx)).1)) h
  exact ⟨m', h'⟩

/-- C101: for every policy there is exactly one set of manifolds that it makes of those installed … -/
theorem C101_exists (hr : FReach cfg f) (P : Policy) : ∃ R, Result P f.s.hist R ∧ ∀ R', Result P f.s.hist R' → R' = R := by
  have hwf := declares_wf hr
  let R : Name → Bool := hwf.fix (fun n rec => decide (manH f.s.hist n ≠ none) &&
    P n (fun i => if hi : Declares f.s.hist n i then rec i hi else false))
  have hR : Result P f.s.hist R := by
    intro n
    have e : R n = (decide (manH f.s.hist n ≠ none) && P n (fun i => if Declares f.s.hist n i then R i else false)) := by
      show hwf.fix _ n = _
      rw [WellFounded.fix_eq]
      rfl
    have e2 : (fun i => if Declares f.s.hist n i then R i else false) = fun i => decide (i ∈ inputsH f.s.hist n) && R i := by
      funext i
      have : Declares f.s.hist n i ↔ i ∈ inputsH f.s.hist n := by
        unfold Declares inputsH
        cases manH f.s.hist n <;> simp
      by_cases hi : Declares f.s.hist n i
      · rw [if_pos hi, decide_eq_true (this.1 hi), Bool.true_and]
      · rw [if_neg hi, decide_eq_false (fun h => hi (this.2 h)), Bool.false_and]
    rw [e, e2, Bool.and_eq_true, decide_eq_true_eq]
  exact ⟨R, hR, fun R' h => funext (fun n => result_unique hr (fun _ => rfl) h hR n)⟩

/-- … and it is these that have a worker when the loop of a live engine is at its select and the engine has settled, if
Start funcs and workers follow the policy. -/
theorem C101_result (hr : FReach cfg f) (h0 : f.todo = []) (hk : .kill ∉ f.s.hist) (hs : Settled f.s.hist) {P : Policy}
    (ho : AtEvery (Obeys P) f.s.hist) (hw : Wanted P f.s.hist) : Result P f.s.hist (upH f.s.hist) :=
  settled_result hr h0 hk hs ho hw

/-- C101: two engines that have the same manifolds and have settled under the same policy have workers for the same ones,
no matter in which order things were installed, started, failed and restarted, and whatever their configurations. -/
theorem C101_same (hr : FReach cfg f) (h0 : f.todo = []) (hk : .kill ∉ f.s.hist) (hs : Settled f.s.hist)
    (hr' : FReach cfg' f') (h0' : f'.todo = []) (hk' : .kill ∉ f'.s.hist) (hs' : Settled f'.s.hist)
    (hg : SameGraph f.s.hist f'.s.hist) {P : Policy} (ho : AtEvery (Obeys P) f.s.hist) (hw : Wanted P f.s.hist)
    (ho' : AtEvery (Obeys P) f'.s.hist) (hw' : Wanted P f'.s.hist) : upH f.s.hist = upH f'.s.hist :=
  funext (result_unique hr hg (C101_result hr h0 hk hs ho hw) (C101_result hr' h0' hk' hs' ho' hw'))

/-- C101: and every execution comes to that. -/
theorem C101_converges (hf : r.Fair) (hd : r.DelaysEnd) (hs : StartsReturn r.hist) (hw : KilledFinish r.hist)
    (hk : ∀ k, .kill ∉ r.hist k) {n : Nat} (hc : NoCauses r.hist n) {P : Policy} (ho : ∀ k, AtEvery (Obeys P) (r.hist k))
    (hl : Leaves P r.hist) : ∃ m, ∀ k, m ≤ k → Result P (r.hist k) (upH (r.hist k)) := by
  obtain ⟨m1, h1, t⟩ := C101_storm hc
  obtain ⟨m2, s⟩ := C101_settles hf hd hs hw hk hc
  refine ⟨max m1 m2, fun k hk1 => ?_⟩
  have same : ∀ j, m1 ≤ j → ∀ a, manH (r.hist j) a = manH (r.hist k) a ∧ openH (r.hist j) a = openH (r.hist k) a ∧
      workerH (r.hist j) a = workerH (r.hist k) a ∧ lastBegin (r.hist j) a = lastBegin (r.hist k) a := fun j hj a => by
    obtain ⟨_, a2, a3, a4, a5⟩ := t j hj a
    obtain ⟨_, b2, b3, b4, b5⟩ := t k (by omega) a
    exact ⟨a2.trans b2.symm, a3.trans b3.symm, a4.trans b4.symm, a5.trans b5.symm⟩
  obtain ⟨j, hj, h0⟩ := FineRun.idle_again hf k
  have hwant : Wanted P (r.hist j) := by
    intro a g sn h2 h3
    cases hP : P a (given sn) with
    | true => rfl
    | false =>
      obtain ⟨_, w, hw1, _⟩ := s j (by omega) a g h2
      obtain ⟨q, i, e, rfl, hfin⟩ := hl j a g w sn h2 hw1 h3 hP
      obtain ⟨x1, x2, x3, x4⟩ := same j (by omega) a
      obtain ⟨y1, y2, y3, y4⟩ := same (max i j) (by omega) a
      obtain ⟨_, w', hw2, hn⟩ := s (max i j) (by omega) a g (by rw [y2, ← x2]; exact h2)
      have hw3 : w' = .obj q := by
        rw [y3, ← x3, hw1] at hw2
        simpa using hw2.symm
      exact absurd (r.hist_mono (Nat.le_max_left i j) hfin) (hn q hw3 e)
  have key : Result P (r.hist j) (upH (r.hist j)) := C101_result (r.reach j) h0 (hk j) (s j (by omega)) (ho j) hwant
  have e1 : ∀ a, manH (r.hist k) a = manH (r.hist j) a := fun a => ((same j (by omega) a).1).symm
  have e2 : upH (r.hist k) = upH (r.hist j) := by
    funext a
    unfold upH
    rw [(same j (by omega) a).2.2.1]
  have e3 : ∀ a, inputsH (r.hist k) a = inputsH (r.hist j) a := fun a => by unfold inputsH; rw [e1]
  intro a
  rw [e2, e1, e3]
  exact key a

end Verif.Props

namespace Verif.Props.SDemo
open Verif.Engine Verif.Spec Settle

/-- Manifold 0 does its job and ends; manifold 1 has a worker when 0 has none. -/
def pol : Policy := fun n has => n ≠ 0 && !has 0

/-- As in `FDemo.opsUp` both come up; then 0 ends, 1 is told to stop and is started again. -/
def ops1 : List FOp := FDemo.opsUp ++ [ .env (.finish 10 none), .env (.gWaitRet 0), .stopped 0 100 Demo.vals01,
  .work, .work, .work, .work, .env (.finish 11 none), .env (.gWaitRet 2), .stopped 2 101 Demo.noVals, .work, .work, .work, .work,
  .env (.gTimer 3 0), .env (.gStartOk 3 (.obj 12)), .started 3 103, .work, .work ]

/-- Here 1 is installed first, and 0 does not even start. -/
def ops2 : List FOp := [ .install 1 { inputs := [0] } [1], .work, .work, .env (.gTimer 0 0), .env (.gStartOk 0 (.obj 20)),
  .started 0 1, .work, .work, .install 0 {} [0, 1], .work, .work, .env (.gTimer 1 0), .env (.gStartErr 1 .missing),
  .stopped 1 6 Demo.vals01, .work, .work ]

def obeysB (P : Policy) : List Ev → Bool
  | [] => true
  | e :: h => obeysB P h && match e with
    | .ended n _ _ _ f false _ => !comesToRest f || match lastBegin h n with
      | some (_, sn) => !P n (given sn)
      | none => true
    | _ => true

theorem obeysB_spec {P : Policy} : ∀ {h : List Ev}, obeysB P h = true → AtEvery (Obeys P) h := by
  intro h
  induction h with
  | nil => intro _; trivial
  | cons e h ih =>
    intro hb
    simp only [obeysB, Bool.and_eq_true] at hb
    refine ⟨?_, ih hb.1⟩
    have hb := hb.2
    cases e with
    | ended n g now raw f told lost =>
      cases told with
      | true => trivial
      | false =>
        intro hr g' sn hl
        simp only [hr, hl] at hb
        simpa using hb
    | _ => trivial

/-- Everything that holds of the names 0 and 1 and of those without attempts. -/
theorem names {h : List Ev} (hb : (begun h).all (fun n => n = 0 || n = 1) = true) {n g : Nat} (ho : openH h n = some g) :
    n = 0 ∨ n = 1 := by
  have : n ∈ begun h := by
    clear hb
    induction h with
    | nil => cases ho
    | cons e h ih =>
      cases e with
      | begin m g' b r sn =>
        simp only [openH] at ho
        simp only [begun, List.filterMap_cons, List.mem_cons]
        split at ho
        · rename_i hm; exact Or.inl hm
        · exact Or.inr (ih ho)
      | ended m =>
        simp only [openH] at ho
        split at ho
        · cases ho
        · exact ih ho
      | _ => exact ih ho
  simpa using List.all_eq_true.1 hb n this

/-- Manifold 1 alone has an open attempt, number `g`, with the worker `w`. -/
def oneUp (P : Policy) (h : List Ev) (g w : Nat) : Bool :=
  (begun h).all (fun n => n = 0 || n = 1) && openH h 0 = none && openH h 1 = some g && workerH h 1 = some (.obj w) &&
    h.all (fun e => e != .cancelled g) && Demo.noFinish h w && (match lastBegin h 1 with
      | some (_, sn) => P 1 (given sn)
      | none => false)

theorem oneUp_settled {P : Policy} {h : List Ev} {g w : Nat} (hb : oneUp P h g w = true) : Settled h ∧ Wanted P h := by
  simp only [oneUp, Bool.and_eq_true, decide_eq_true_eq] at hb
  obtain ⟨⟨⟨⟨⟨⟨b1, b2⟩, b3⟩, b4⟩, b5⟩, b6⟩, b7⟩ := hb
  constructor
  · intro n g' ho
    rcases names b1 ho with rfl | rfl
    · rw [b2] at ho; cases ho
    · rw [b3] at ho; cases ho
      refine ⟨fun hc => ?_, _, b4, fun k hk e => ?_⟩
      · have := List.all_eq_true.1 b5 _ hc
        simp at this
      · cases hk; exact Demo.noFinish_spec b6 e
  · intro n g' sn ho hl
    rcases names b1 ho with rfl | rfl
    · rw [b2] at ho; cases ho
    · rw [hl] at b7; exact b7

theorem alive {h : List Ev} (hb : h.all (fun e => e != .kill) = true) : .kill ∉ h := fun hc => by
  have := List.all_eq_true.1 hb _ hc
  simp at this

-- the hypotheses of C101_result and C101_same: two engines that took different ways
example : (FDemo.run Demo.cfg {} ops1).isSome = true ∧ (FDemo.run Demo.cfg {} ops2).isSome = true ∧
    (FDemo.after Demo.cfg ops1).todo = [] ∧ (FDemo.after Demo.cfg ops2).todo = [] ∧
    .kill ∉ (FDemo.after Demo.cfg ops1).s.hist ∧ .kill ∉ (FDemo.after Demo.cfg ops2).s.hist ∧
    (Settled (FDemo.after Demo.cfg ops1).s.hist ∧ Wanted pol (FDemo.after Demo.cfg ops1).s.hist) ∧
    (Settled (FDemo.after Demo.cfg ops2).s.hist ∧ Wanted pol (FDemo.after Demo.cfg ops2).s.hist) ∧
    AtEvery (Obeys pol) (FDemo.after Demo.cfg ops1).s.hist ∧ AtEvery (Obeys pol) (FDemo.after Demo.cfg ops2).s.hist ∧
    attemptsH (FDemo.after Demo.cfg ops1).s.hist 1 = 3 ∧ attemptsH (FDemo.after Demo.cfg ops2).s.hist 1 = 1 ∧
    upH (FDemo.after Demo.cfg ops1).s.hist 0 = false ∧ upH (FDemo.after Demo.cfg ops1).s.hist 1 = true :=
  ⟨by decide +kernel, by decide +kernel, by decide +kernel, by decide +kernel, alive (by decide +kernel),
    alive (by decide +kernel), oneUp_settled (g := 3) (w := 12) (by decide +kernel),
    oneUp_settled (g := 0) (w := 20) (by decide +kernel), obeysB_spec (by decide +kernel), obeysB_spec (by decide +kernel),
    by decide +kernel, by decide +kernel, by decide +kernel, by decide +kernel⟩

/-- What is installed, as a list. -/
def graph (h : List Ev) : List Name := h.filterMap (fun e => match e with
  | .installed n _ => some n
  | _ => none)

theorem graph_none {h : List Ev} {n : Name} (hn : n ∉ graph h) : manH h n = none := by
  induction h with
  | nil => rfl
  | cons e h ih =>
    cases e with
    | installed m x =>
      simp only [graph, List.filterMap_cons, List.mem_cons, not_or] at hn
      simp only [manH, if_neg hn.1]; exact ih hn.2
    | uninstalled m => simp only [manH]; split; rfl; exact ih hn
    | _ => exact ih hn

example : SameGraph (FDemo.after Demo.cfg ops1).s.hist (FDemo.after Demo.cfg ops2).s.hist := by
  intro n
  have h1 : graph (FDemo.after Demo.cfg ops1).s.hist = [1, 0] := by decide +kernel
  have h2 : graph (FDemo.after Demo.cfg ops2).s.hist = [0, 1] := by decide +kernel
  by_cases h0 : n = 0
  · subst h0; decide +kernel
  by_cases h0' : n = 1
  · subst h0'; decide +kernel
  rw [graph_none (by rw [h1]; simp [h0, h0']), graph_none (by rw [h2]; simp [h0, h0'])]

/-- The first of the two, asked for reports for ever. -/
def up : FineRun Demo.cfg := FDemo.mkRun (ops := ops1) (x := FDemo.reportOps) (by decide +kernel)
  (FDemo.cycles_report (by decide +kernel) (by decide +kernel) (by decide +kernel) (by decide +kernel))

theorem up_hist (k : Nat) : up.hist k = (FDemo.runSt Demo.cfg ops1 FDemo.reportOps k).s.hist := rfl

theorem up_stays {α : Sort _} (F : List Ev → α) (hF : ∀ b w l h, F (.report b w l :: h) = F h) {k : Nat}
    (hk : ops1.length ≤ k) : F (up.hist k) = F (FDemo.runSt Demo.cfg ops1 FDemo.reportOps ops1.length).s.hist :=
  FDemo.mkRun_stays (cfg := Demo.cfg) (ops := ops1) (x := FDemo.reportOps) F (fun h => by unfold reportEv; exact hF ..) hk

/-- What holds of the final history for good, when it only looks for events that are there. -/
theorem up_never (p : Ev → Bool) (hp : ∀ b w l, p (.report b w l) = false)
    (hq : (FDemo.runSt Demo.cfg ops1 FDemo.reportOps ops1.length).s.hist.any p = false) (k : Nat) {e : Ev} (he : e ∈ up.hist k) :
    p e = false := by
  have h1 := up.hist_mono (Nat.le_max_left k ops1.length) he
  have h3 := up_stays (fun h => h.any p) (fun b w l h => by simp [hp]) (Nat.le_max_right k ops1.length)
  rw [hq] at h3
  cases hpe : p e with
  | false => rfl
  | true => rw [List.any_eq_true.2 ⟨_, h1, hpe⟩] at h3; cases h3

theorem up_obeys (k : Nat) : AtEvery (Obeys pol) (up.hist k) := by
  have h3 := up_stays (obeysB pol) (fun b w l h => by simp [obeysB]) (Nat.le_max_right k ops1.length)
  have h4 : AtEvery (Obeys pol) (up.hist (max k ops1.length)) := obeysB_spec (h3.trans (by decide +kernel))
  obtain ⟨d, hd⟩ := up.hist_append (Nat.le_max_left k ops1.length)
  rw [hd] at h4
  exact atEvery_drop h4

theorem registered_of {h : List Ev} {n : Name} {w : WRef} (hw : workerH h n = some w) : ∃ g t, .registered n g w t ∈ h := by
  induction h with
  | nil => cases hw
  | cons e h ih =>
    have old : workerH h n = some w → ∃ g t, .registered n g w t ∈ e :: h := fun hw => by
      obtain ⟨g, t, hm⟩ := ih hw
      exact ⟨g, t, List.mem_cons_of_mem _ hm⟩
    cases e with
    | registered m g w' t =>
      simp only [workerH] at hw
      split at hw
      · rename_i hm; cases hw; subst hm; exact ⟨g, t, List.mem_cons_self⟩
      · exact old hw
    | ended m =>
      simp only [workerH] at hw
      split at hw
      · cases hw
      · exact old hw
    | _ => exact old hw

/-- Manifold 1's worker 12 is the only one that stays, and it is wanted. -/
def goodB (h : List Ev) : Bool := workerH h 1 != some (.obj 12) || match lastBegin h 1 with
  | some (_, sn) => pol 1 (given sn)
  | none => true

theorem up_leaves : Leaves pol up.hist := by
  intro k n g w sn _ hw hl hP
  obtain ⟨g', t, hm⟩ := registered_of hw
  have h1 := up_never (fun e => match e with
    | .registered n _ w _ => w != .obj 10 && w != .obj 11 && (w != .obj 12 || n != 1)
    | _ => false) (fun _ _ _ => rfl) (by decide +kernel) k hm
  have fin : ∀ q, q = 10 ∨ q = 11 → .finished q none ∈ up.hist ops1.length := by
    rintro q (rfl | rfl)
    · rw [up_hist]
      exact List.elem_iff.1 (by decide +kernel)
    · rw [up_hist]
      exact List.elem_iff.1 (by decide +kernel)
  by_cases h10 : w = .obj 10
  · exact ⟨10, _, none, h10, fin 10 (Or.inl rfl)⟩
  by_cases h11 : w = .obj 11
  · exact ⟨11, _, none, h11, fin 11 (Or.inr rfl)⟩
  exfalso
  have : w = .obj 12 ∧ n = 1 := by
    have e10 : (w != .obj 10) = true := by simpa using h10
    have e11 : (w != .obj 11) = true := by simpa using h11
    simp only [e10, e11, Bool.true_and, Bool.or_eq_false_iff, bne_eq_false_iff_eq] at h1
    exact h1
  obtain ⟨rfl, rfl⟩ := this
  have good : goodB (up.hist k) = true := by
    by_cases hk : k < ops1.length
    · have : ∀ k, k < ops1.length → goodB (up.hist k) = true := by decide +kernel
      exact this k hk
    · exact (up_stays goodB (fun _ _ _ _ => rfl) (by omega)).trans (by decide +kernel)
  unfold goodB at good
  rw [hw, hl] at good
  simp only [bne_self_eq_false, Bool.false_or] at good
  rw [hP] at good; cases good

theorem up_causes : NoCauses up.hist 5 := by
  intro k hk a
  by_cases h : k < ops1.length
  · obtain ⟨d, hd⟩ := up.hist_append hk
    have hz : ∀ k, k < ops1.length → 5 ≤ k → ((up.hist k).take ((up.hist k).length - (up.hist 5).length)).all (fun e => match e with
      | .installed _ _ => false
      | .ended _ _ _ _ f told _ => told || !retried f
      | _ => true) = true := by decide +kernel
    have hz := hz k h hk
    rw [hd, List.length_append, Nat.add_sub_cancel, List.take_left'] at hz
    · rw [hd, causes_app, zero_causes hz, Nat.zero_add]
    · rfl
  · rw [up_stays (fun h => causesH h a) (fun _ _ _ _ => rfl) (by omega)]
    obtain ⟨d, hd⟩ := up.hist_append (show 5 ≤ ops1.length by decide)
    have hz : ((up.hist ops1.length).take ((up.hist ops1.length).length - (up.hist 5).length)).all (fun e => match e with
      | .installed _ _ => false
      | .ended _ _ _ _ f told _ => told || !retried f
      | _ => true) = true := by decide +kernel
    rw [hd, List.length_append, Nat.add_sub_cancel, List.take_left'] at hz
    · rw [← up_hist, hd, causes_app, zero_causes hz, Nat.zero_add]
    · rfl

-- the hypotheses of C101_storm, C101_settles and C101_converges
example : up.Fair ∧ up.DelaysEnd ∧ StartsReturn up.hist ∧ KilledFinish up.hist ∧ (∀ k, .kill ∉ up.hist k) ∧
    NoCauses up.hist 5 ∧ (∀ k, AtEvery (Obeys pol) (up.hist k)) ∧ Leaves pol up.hist ∧
    upH (up.hist 26) 0 = true ∧ upH (up.hist 26) 1 = true ∧ ¬ Result pol (up.hist 26) (upH (up.hist 26)) := by
  refine ⟨(FDemo.mkRun_fair (cfg := Demo.cfg) (ops := ops1) (by decide +kernel) (Or.inr ⟨1, by decide, rfl⟩)).1,
    (FDemo.mkRun_fair (cfg := Demo.cfg) (ops := ops1) (by decide +kernel) (Or.inr ⟨1, by decide, rfl⟩)).2,
    FDemo.mkRun_starts (cfg := Demo.cfg) (ops := ops1) (by decide +kernel),
    FDemo.mkRun_killed (cfg := Demo.cfg) (ops := ops1) (x := FDemo.reportOps) (by unfold reportEv; rfl) (by decide +kernel),
    fun k hk => ?_, up_causes, up_obeys, up_leaves, by decide +kernel, by decide +kernel, fun h => ?_⟩
  · have := up_never (fun e => e == .kill) (fun _ _ _ => rfl) (by decide +kernel) k hk
    simp at this
  · have := (h 0).1 (by decide +kernel)
    have h2 := this.2
    simp [pol] at h2

end Verif.Props.SDemo
