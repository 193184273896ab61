import Verif.Runner.Emit

/-!
# Runner: what follows from the rules about single events

Every lemma here is about an arbitrary history in which every event obeys `EvOk`; nothing else of the model is used.
-/

namespace Verif.RSpec
open Verif.Runner Verif.Spec

variable {p : Params} {h : List Ev}

theorem AtEvery.drop {α : Type} {P : α → List α → Prop} {mid pre : List α} (h : AtEvery P (mid ++ pre)) : AtEvery P pre := by
  induction mid with
  | nil => exact h
  | cons _ _ ih => exact ih h.2

/-- An open attempt has begun and is not over. -/
theorem open_phase (hk : AtEvery (EvOk p) h) : ∀ {id g}, openH h id = some g → ∃ x, phaseH h g = some x := by
  induction h with
  | nil => intro id g ho; cases ho
  | cons e h ih =>
    intro id g ho
    have ih := @ih hk.2
    have keep : openH h id = some g → phaseH (e :: h) g = phaseH h g → ∃ x, phaseH (e :: h) g = some x := by
      intro h1 h2; rw [h2]; exact ih h1
    cases e with
    | «begin» m g' d sf =>
      simp only [openH] at ho
      split at ho
      · cases ho; exact ⟨.pending, by simp [phaseH]⟩
      · by_cases hg : g = g'
        · subst hg; exact ⟨.pending, by simp [phaseH]⟩
        · exact keep ho (by simp [phaseH, hg])
    | ended m g' e =>
      simp only [openH] at ho
      split at ho
      · cases ho
      · by_cases hg : g = g'
        · subst hg; exact ⟨.over, by simp [phaseH]⟩
        · exact keep ho (by simp [phaseH, hg])
    | startCall m g' sf =>
      by_cases hg : g = g'
      · subst hg; exact ⟨.calling, by simp [phaseH]⟩
      · exact keep ho (by simp [phaseH, hg])
    | startOk m g' w =>
      by_cases hg : g = g'
      · subst hg; exact ⟨.running w, by simp [phaseH]⟩
      · exact keep ho (by simp [phaseH, hg])
    | startErr m g' e =>
      by_cases hg : g = g'
      · subst hg; exact ⟨.failed e, by simp [phaseH]⟩
      · exact keep ho (by simp [phaseH, hg])
    | _ => exact keep ho rfl

/-- An attempt that has begun stays begun. -/
theorem phase_some {mid pre : List Ev} {g : Nat} (h0 : phaseH pre g ≠ none) : phaseH (mid ++ pre) g ≠ none := by
  induction mid with
  | nil => exact h0
  | cons e mid ih =>
    show phaseH (e :: (mid ++ pre)) g ≠ none
    cases e <;> simp only [phaseH] <;> first | exact ih | (split <;> first | exact ih | (intro hc; cases hc; done))

/-- An attempt whose StartFunc has been called is never pending again. -/
theorem phase_late {mid pre : List Ev} {g : Nat} (hk : AtEvery (EvOk p) (mid ++ pre)) (h0 : phaseH pre g ≠ none)
    (h1 : phaseH pre g ≠ some .pending) : phaseH (mid ++ pre) g ≠ some .pending := by
  induction mid with
  | nil => exact h1
  | cons e mid ih =>
    have ih := ih hk.2
    show phaseH (e :: (mid ++ pre)) g ≠ some .pending
    have he := hk.1
    cases e with
    | «begin» m g' d sf =>
      simp only [phaseH]
      split
      · rename_i hg; subst hg; exact absurd he.2.2.2.2.1 (phase_some h0)
      · exact ih
    | _ => simp only [phaseH] <;> first | exact ih | (split <;> first | exact ih | (intro hc; cases hc; done))

/-- An open attempt stays open until its end is processed. -/
theorem open_stays {mid pre : List Ev} {id g : Nat} (hk : AtEvery (EvOk p) (mid ++ pre)) (h0 : openH pre id = some g)
    (h1 : ∀ e, Ev.ended id g e ∉ mid) : openH (mid ++ pre) id = some g := by
  induction mid with
  | nil => exact h0
  | cons e mid ih =>
    have ih := ih hk.2 (fun e he => h1 e (List.mem_cons_of_mem _ he))
    show openH (e :: (mid ++ pre)) id = some g
    have he := hk.1
    cases e with
    | «begin» m g' d sf =>
      simp only [openH]
      split
      · rename_i hm; subst hm
        have := he.2.1
        rw [show openH (mid ++ pre) id = none from this] at ih; cases ih
      · exact ih
    | ended m g' e =>
      simp only [openH]
      split
      · rename_i hm; subst hm
        have := he.2.1
        rw [show openH (mid ++ pre) id = some g' from this] at ih
        cases ih
        exact absurd List.mem_cons_self (h1 e)
      · exact ih
    | _ => exact ih

/-- A finished worker stays finished, with the same result. -/
theorem finished_stays {mid pre : List Ev} {w : Nat} {r : Option Err} (hk : AtEvery (EvOk p) (mid ++ pre))
    (h0 : finishedH pre w = some r) : finishedH (mid ++ pre) w = some r := by
  induction mid with
  | nil => exact h0
  | cons e mid ih =>
    have ih := ih hk.2
    show finishedH (e :: (mid ++ pre)) w = some r
    have he := hk.1
    cases e with
    | finished w' r' =>
      simp only [finishedH]
      split
      · rename_i hm; subst hm
        rw [show finishedH (mid ++ pre) w = none from he] at ih; cases ih
      · exact ih
    | _ => exact ih

/-- A worker a StartFunc produced is that of an attempt still open, or has finished. -/
theorem startOk_open (hk : AtEvery (EvOk p) h) : ∀ {id g w}, Ev.startOk id g w ∈ h →
    (openH h id = some g ∧ phaseH h g = some (.running w)) ∨ (finishedH h w).isSome = true := by
  induction h with
  | nil => intro id g w hm; cases hm
  | cons e h ih =>
    intro id g w hm
    have he := hk.1
    rcases List.mem_cons.1 hm with rfl | hm
    · exact Or.inl ⟨he.1, by simp [phaseH]⟩
    · rcases @ih hk.2 id g w hm with ⟨ho, hp⟩ | hf
      · cases e with
        | «begin» m g' d sf =>
          left
          refine ⟨?_, ?_⟩
          · simp only [openH]; split
            · rename_i hx; subst hx; rw [he.2.1] at ho; cases ho
            · exact ho
          · simp only [phaseH]; split
            · rename_i hx; subst hx; rw [he.2.2.2.2.1] at hp; cases hp
            · exact hp
        | ended m g' e =>
          by_cases hx : g = g'
          · subst hx
            right
            rcases he.2.2 with ⟨h1, _⟩ | ⟨_, h1, _⟩ | ⟨w', h1, h2⟩
            · rw [hp] at h1; cases h1
            · rw [hp] at h1; cases h1
            · rw [hp] at h1; cases h1; simp [finishedH, h2]
          · left
            refine ⟨?_, by simp [phaseH, hx, hp]⟩
            simp only [openH]; split
            · rename_i hy; subst hy
              have := he.2.1; rw [ho] at this; cases this; exact absurd rfl hx
            · exact ho
        | startCall m g' sf =>
          refine Or.inl ⟨ho, ?_⟩
          simp only [phaseH]; split
          · rename_i hx; subst hx; have := he.2.1; rw [hp] at this; cases this
          · exact hp
        | startOk m g' w' =>
          refine Or.inl ⟨ho, ?_⟩
          simp only [phaseH]; split
          · rename_i hx; subst hx; have := he.2; rw [hp] at this; cases this
          · exact hp
        | startErr m g' e =>
          refine Or.inl ⟨ho, ?_⟩
          simp only [phaseH]; split
          · rename_i hx; subst hx; have := he.2; rw [hp] at this; cases this
          · exact hp
        | _ => exact Or.inl ⟨ho, hp⟩
      · right
        obtain ⟨r, hr⟩ := Option.isSome_iff_exists.1 hf
        have := finished_stays (mid := [e]) (pre := h) hk hr
        rw [show finishedH (e :: h) w = some r from this]; rfl

/-- An attempt that has begun is open until its end has been processed. -/
theorem begin_open (hk : AtEvery (EvOk p) h) : ∀ {id g d sf}, Ev.begin id g d sf ∈ h →
    openH h id = some g ∨ ∃ e, Ev.ended id g e ∈ h := by
  induction h with
  | nil => intro id g d sf hm; cases hm
  | cons e h ih =>
    intro id g d sf hm
    have he := hk.1
    rcases List.mem_cons.1 hm with rfl | hm
    · left; simp [openH]
    · rcases @ih hk.2 id g d sf hm with ho | ⟨r, hr⟩
      · cases e with
        | «begin» m g' d sf =>
          left
          simp only [openH]; split
          · rename_i hx; subst hx; rw [he.2.1] at ho; cases ho
          · exact ho
        | ended m g' e =>
          by_cases hx : id = m
          · subst hx
            have := he.2.1; rw [ho] at this; cases this
            exact Or.inr ⟨e, List.mem_cons_self⟩
          · left; simp only [openH, if_neg hx]; exact ho
        | _ => exact Or.inl ho
      · exact Or.inr ⟨r, List.mem_cons_of_mem _ hr⟩

/-- The worker the runner holds for an id is that of its open attempt, or has finished. -/
theorem inst_open (hk : AtEvery (EvOk p) h) : ∀ {id w}, instH h id = some w →
    (∃ g, openH h id = some g ∧ phaseH h g = some (.running w)) ∨ (finishedH h w).isSome = true := by
  induction h with
  | nil => intro id w hm; cases hm
  | cons e h ih =>
    intro id w hm
    have he := hk.1
    have ih := @ih hk.2 id w
    have fin : (finishedH h w).isSome = true → (finishedH (e :: h) w).isSome = true := by
      intro hf
      obtain ⟨r, hr⟩ := Option.isSome_iff_exists.1 hf
      have := finished_stays (mid := [e]) (pre := h) hk hr
      rw [show finishedH (e :: h) w = some r from this]; rfl
    have keep : instH h id = some w → (∀ k, openH h id = some k → openH (e :: h) id = some k) →
        (∀ k, phaseH h k = some (.running w) → phaseH (e :: h) k = some (.running w)) →
        (∃ g, openH (e :: h) id = some g ∧ phaseH (e :: h) g = some (.running w)) ∨
          (finishedH (e :: h) w).isSome = true := by
      intro h0 h1 h2
      rcases ih h0 with ⟨g, ho, hp⟩ | hf
      · exact Or.inl ⟨g, h1 g ho, h2 g hp⟩
      · exact Or.inr (fin hf)
    cases e with
    | accepted cid m r sf =>
      simp only [instH] at hm; split at hm
      · cases hm
      · exact keep hm (fun _ x => x) (fun _ x => x)
    | removed m r =>
      simp only [instH] at hm; split at hm
      · cases hm
      · exact keep hm (fun _ x => x) (fun _ x => x)
    | killW m w' =>
      simp only [instH] at hm; split at hm
      · cases hm
      · exact keep hm (fun _ x => x) (fun _ x => x)
    | learned m g w' =>
      simp only [instH] at hm; split at hm
      · rename_i hx; subst hx; cases hm; exact Or.inl ⟨g, he.1, he.2⟩
      · exact keep hm (fun _ x => x) (fun _ x => x)
    | «begin» m g' d sf =>
      refine keep hm ?_ ?_
      · intro k hq; simp only [openH]; split
        · rename_i hx; subst hx; rw [he.2.1] at hq; cases hq
        · exact hq
      · intro k hq; simp only [phaseH]; split
        · rename_i hx; subst hx; rw [he.2.2.2.2.1] at hq; cases hq
        · exact hq
    | ended m g' e =>
      rcases ih hm with ⟨g, ho, hp⟩ | hf
      · by_cases hx : g = g'
        · subst hx
          right
          rcases he.2.2 with ⟨h1, _⟩ | ⟨_, h1, _⟩ | ⟨w', h1, h2⟩
          · rw [hp] at h1; cases h1
          · rw [hp] at h1; cases h1
          · rw [hp] at h1; cases h1; simp [finishedH, h2]
        · left
          refine ⟨g, ?_, by simp [phaseH, hx, hp]⟩
          simp only [openH]; split
          · rename_i hy; subst hy
            have := he.2.1; rw [ho] at this; cases this; exact absurd rfl hx
          · exact ho
      · exact Or.inr (fin hf)
    | startCall m g' sf =>
      refine keep hm (fun _ x => x) ?_
      intro k hq; simp only [phaseH]; split
      · rename_i hx; subst hx; have := he.2.1; rw [hq] at this; cases this
      · exact hq
    | startOk m g' w' =>
      refine keep hm (fun _ x => x) ?_
      intro k hq; simp only [phaseH]; split
      · rename_i hx; subst hx; have := he.2; rw [hq] at this; cases this
      · exact hq
    | startErr m g' e =>
      refine keep hm (fun _ x => x) ?_
      intro k hq; simp only [phaseH]; split
      · rename_i hx; subst hx; have := he.2; rw [hq] at this; cases this
      · exact hq
    | _ => exact keep hm (fun _ x => x) (fun _ x => x)

/-- A worker the runner has learned of is still held, has been Kill()ed, or has finished. -/
theorem learned_accounted (hk : AtEvery (EvOk p) h) : ∀ {id g w}, Ev.learned id g w ∈ h →
    instH h id = some w ∨ Ev.killW id w ∈ h ∨ (finishedH h w).isSome = true := by
  induction h with
  | nil => intro id g w hm; cases hm
  | cons e h ih =>
    intro id g w hm
    have he := hk.1
    have fin : (finishedH h w).isSome = true → (finishedH (e :: h) w).isSome = true := by
      intro hf
      obtain ⟨r, hr⟩ := Option.isSome_iff_exists.1 hf
      have := finished_stays (mid := [e]) (pre := h) hk hr
      rw [show finishedH (e :: h) w = some r from this]; rfl
    rcases List.mem_cons.1 hm with rfl | hm
    · left; simp [instH]
    · rcases @ih hk.2 id g w hm with hi | hkw | hf
      · cases e with
        | accepted cid m r sf =>
          left; simp only [instH]; split
          · rename_i hx; subst hx; rw [he.2.1] at hi; cases hi
          · exact hi
        | removed m r =>
          by_cases hx : id = m
          · subst hx
            right; right
            rcases inst_open hk.2 hi with ⟨g', ho, _⟩ | hf
            · rw [he.2.1] at ho; cases ho
            · exact fin hf
          · left; simp only [instH, if_neg hx]; exact hi
        | killW m w' =>
          by_cases hx : id = m
          · subst hx
            have := he.2; rw [hi] at this; cases this
            exact Or.inr (Or.inl List.mem_cons_self)
          · left; simp only [instH, if_neg hx]; exact hi
        | learned m g' w' =>
          by_cases hx : id = m
          · subst hx
            rcases inst_open hk.2 hi with ⟨g2, ho, hp⟩ | hf
            · have := he.1; rw [ho] at this; cases this
              have := he.2; rw [hp] at this; cases this
              left; simp [instH]
            · exact Or.inr (Or.inr (fin hf))
          · left; simp only [instH, if_neg hx]; exact hi
        | _ => exact Or.inl hi
      · exact Or.inr (Or.inl (List.mem_cons_of_mem _ hkw))
      · exact Or.inr (Or.inr (fin hf))

/-- An id told to stop stays so until it is registered anew. -/
theorem told_stays {mid pre : List Ev} {id : Name} (h0 : toldH pre id = true)
    (h1 : ∀ cid rid sf, Ev.accepted cid id rid sf ∉ mid) : toldH (mid ++ pre) id = true := by
  induction mid with
  | nil => exact h0
  | cons e mid ih =>
    have ih := ih (fun c rid sf he => h1 c rid sf (List.mem_cons_of_mem _ he))
    show toldH (e :: (mid ++ pre)) id = true
    cases e with
    | accepted cid m r sf =>
      simp only [toldH]; split
      · rename_i hx; subst hx; exact absurd List.mem_cons_self (h1 cid r sf)
      · exact ih
    | told m => simp only [toldH]; split
                · rfl
                · exact ih
    | _ => exact ih

/-- An unknown id stays unknown until it is registered. -/
theorem unknown_stays {mid pre : List Ev} {id : Name} (h0 : knownH pre id = none)
    (h1 : ∀ cid rid sf, Ev.accepted cid id rid sf ∉ mid) : knownH (mid ++ pre) id = none := by
  induction mid with
  | nil => exact h0
  | cons e mid ih =>
    have ih := ih (fun c rid sf he => h1 c rid sf (List.mem_cons_of_mem _ he))
    show knownH (e :: (mid ++ pre)) id = none
    cases e with
    | accepted cid m r sf =>
      simp only [knownH]; split
      · rename_i hx; subst hx; exact absurd List.mem_cons_self (h1 cid r sf)
      · exact ih
    | removed m r => simp only [knownH]; split
                     · rfl
                     · exact ih
    | _ => exact ih

/-- No attempt is open until one begins. -/
theorem closed_stays {mid pre : List Ev} {id : Name} (h0 : openH pre id = none)
    (h1 : ∀ g d sf, Ev.begin id g d sf ∉ mid) : openH (mid ++ pre) id = none := by
  induction mid with
  | nil => exact h0
  | cons e mid ih =>
    have ih := ih (fun g d sf he => h1 g d sf (List.mem_cons_of_mem _ he))
    show openH (e :: (mid ++ pre)) id = none
    cases e with
    | «begin» m g d sf =>
      simp only [openH]; split
      · rename_i hx; subst hx; exact absurd List.mem_cons_self (h1 g d sf)
      · exact ih
    | ended m r _ => simp only [openH]; split
                     · rfl
                     · exact ih
    | _ => exact ih

/-- Splitting an event off a part of a history. -/
theorem mem_split {α : Type} {x : α} {l : List α} (h : x ∈ l) : ∃ a b, l = a ++ x :: b := List.append_of_mem h

end Verif.RSpec
