import Verif.Props.SystemAgain

/-!
# C120: a manifold that is told to stop is started again, in a program

When an input of a manifold changes, the engine tells the open attempt of the manifold to stop (C34). Here: if nobody kills the engine, the attempt
then ends, whatever it was doing, and another begins.
-/

namespace Verif.Props
open Verif.Engine Verif.Spec

variable {cfg : Config}

/-- An open attempt stays open until it ends. -/
theorem open_or_ended {d h : List Ev} {x : Name} {g : Nat} (ha : AtEvery OneAtATime (d ++ h)) (ho : openH h x = some g) :
    openH (d ++ h) x = some g ∨ ∃ d2 d1 now raw f t l, d = d2 ++ .ended x g now raw f t l :: d1 := by
  induction d with
  | nil => exact .inl ho
  | cons e d ih =>
    rcases ih ha.2 with h1 | ⟨d2, d1, now, raw, f, t, l, rfl⟩
    · cases e with
      | begin m g' b c sn =>
        by_cases hm : x = m
        · exfalso
          have h2 : openH (d ++ h) m = none := ha.1.1
          rw [← hm, h1] at h2; cases h2
        · exact .inl (by simp only [List.cons_append, openH, if_neg hm]; exact h1)
      | ended m g' now raw f t l =>
        by_cases hm : x = m
        · subst hm
          have h2 : openH (d ++ h) x = some g' := ha.1
          rw [h1] at h2; injection h2 with h2; subst h2
          exact .inr ⟨[], d, now, raw, f, t, l, rfl⟩
        · exact .inl (by simp only [List.cons_append, openH, if_neg hm]; exact h1)
      | _ => exact .inl h1
    · exact .inr ⟨e :: d2, d1, now, raw, f, t, l, rfl⟩

/-- A manifold that has an open attempt is installed. -/
theorem open_man {f : Fine} (hr : FReach cfg f) {x : Name} {g : Nat} (ho : openH f.s.hist x = some g) : manH f.s.hist x ≠ none := by
  have h1 := C81_one_at_a_time hr
  have h2 := C81_uninstall hr
  generalize f.s.hist = h at ho h1 h2
  clear hr
  induction h with
  | nil => cases ho
  | cons e h ih =>
    cases e with
    | begin m g' b c sn =>
      by_cases hm : x = m
      · subst hm; exact h2.1
      · simp only [openH, if_neg hm] at ho; exact ih ho h1.2 h2.2
    | ended m g' now raw f t l =>
      by_cases hm : x = m
      · simp [openH, hm] at ho
      · simp only [openH, if_neg hm] at ho; exact ih ho h1.2 h2.2
    | installed m man =>
      simp only [manH]
      split
      · simp
      · exact ih ho h1.2 h2.2
    | uninstalled m =>
      simp only [manH]
      split
      · rename_i hm
        subst hm
        have h3 : openH h x = none := h2.1.2.1
        have ho : openH h x = some g := ho
        rw [h3] at ho; cases ho
      · exact ih ho h1.2 h2.2
    | _ => exact ih ho h1.2 h2.2

open Verif.System

variable {I : Type} [DecidableEq I] {W : Wiring I}

/-- C120: an attempt that has been told to stop, of an engine that nobody kills, ends, and another one begins. -/
theorem C120_bounced {r : SysRun W} (hf : r.Fair) (hd : r.DelaysEnd) (hw : r.WaitsAll) (hu : r.Users)
    (wf : WellFounded (fun c i => ∃ k w, w ∈ (r.st k i).kills ∧ W.child i w = c)) {i : I} {cfg : Engine.Config} (hi : W.kind i = .engine cfg)
    (hk : ∀ k, .kill ∉ (r.st k i).ehist) {k g : Nat} {x : Name} (ho : openH (r.st k i).ehist x = some g) (hc : .cancelled g ∈ (r.st k i).ehist) :
    ∃ m g' b c sn post mid now raw f l, (r.st m i).ehist = post ++ .begin x g' b c sn :: (mid ++ (r.st k i).ehist) ∧
      .ended x g now raw f true l ∈ mid := by
  have hkept := fun n x hx => (C114_program hf hd hw hu wf hi hk (n := n) (x := x) hx).1
  obtain ⟨q, h1, h2⟩ := engine_part r hf hi
  have hh : ∀ n, (r.st n i).ehist = Engine.pausesHist q n := fun n => by rw [h2]; rfl
  have reach : ∀ k, Engine.FReach cfg (q.st k) := q.inv (P := Engine.FReach cfg) .init (fun _ _ _ h hs => .step _ h hs)
  rw [hh] at ho hc
  -- what has become of the attempt
  have told : ∀ {n : Nat} {d2 d1 : List Ev} {now raw f t l}, Engine.pausesHist q n = d2 ++ .ended x g now raw f t l :: (d1 ++ Engine.pausesHist q k) →
      t = true ∧ manH (d1 ++ Engine.pausesHist q k) x ≠ none := fun {n d2 d1 now raw f t l} hn => by
    have hp := C81_ends_properly (reach n)
    rw [show (q.st n).s.hist = _ from hn] at hp
    obtain ⟨⟨mf, hmf, _⟩, ht, _⟩ : EndsProperly cfg (.ended x g now raw f t l) (d1 ++ Engine.pausesHist q k) := hp.split
    exact ⟨ht.2 (List.mem_append_right _ hc), by rw [hmf]; simp⟩
  suffices hmore : ∃ m, k ≤ m ∧ attemptsH (Engine.pausesHist q k) x < attemptsH (Engine.pausesHist q m) x by
    obtain ⟨m, hm, hlt⟩ := hmore
    obtain ⟨d, hd'⟩ := epauses_grow (q := q) hm
    rw [hd'] at hlt
    obtain ⟨post, mid, g', b, c, sn, rfl⟩ := attempts_begin hlt
    have ha := C81_one_at_a_time (reach m)
    rw [show (q.st m).s.hist = _ from hd', List.append_assoc, List.cons_append] at ha
    have tail : ∀ {d h : List Ev}, AtEvery OneAtATime (d ++ h) → AtEvery OneAtATime h := fun {d h} ha => by
      induction d with
      | nil => exact ha
      | cons a d ih => exact ih ha.2
    have ha' := tail ha
    rcases open_or_ended ha'.2 ho with h3 | ⟨d2, d1, now, raw, f, t, l, rfl⟩
    · have h4 : openH (mid ++ Engine.pausesHist q k) x = none := ha'.1.1
      rw [h4] at h3; cases h3
    · have ht := (told (n := m) (d2 := post ++ .begin x g' b c sn :: d2) (d1 := d1) (now := now) (raw := raw) (f := f) (t := t) (l := l) (hd'.trans (by simp only [List.append_assoc, List.cons_append]))).1
      subst ht
      exact ⟨m, g', b, c, sn, post, d2 ++ .ended x g now raw f true l :: d1, now, raw, f, l, by rw [hh, hh, hd', List.append_assoc, List.cons_append], by simp⟩
  by_contra hno
  have same : ∀ m, k ≤ m → ¬ attemptsH (Engine.pausesHist q k) x < attemptsH (Engine.pausesHist q m) x := fun m hm h => hno ⟨m, hm, h⟩
  have state : ∀ m, k ≤ m → .cancelled g ∈ Engine.pausesHist q m ∧ manH (Engine.pausesHist q m) x ≠ none ∧
      (openH (Engine.pausesHist q m) x = some g ∨ openH (Engine.pausesHist q m) x = none ∧ waitsH (Engine.pausesHist q m) x = false) := fun m hm => by
    obtain ⟨d, hd'⟩ := epauses_grow (q := q) hm
    refine ⟨by rw [hd']; exact List.mem_append_right _ hc, ?_⟩
    have a1 := C81_one_at_a_time (reach m)
    have a2 := C81_uninstall (reach m)
    have hd2 : (q.st m).s.hist = _ := hd'
    rw [hd2] at a1 a2
    rcases open_or_ended a1 ho with h3 | ⟨d2, d1, now, raw, f, t, l, rfl⟩
    · refine ⟨open_man (reach m) (g := g) (by rw [hd2]; exact h3), .inl (by rw [hd']; exact h3)⟩
    · rw [List.append_assoc, List.cons_append] at hd' a1 a2
      obtain ⟨ht, hmn⟩ := told hd'
      subst ht
      have hle := attempts_le d1 (Engine.pausesHist q k) x
      have hle2 := attempts_le d2 (.ended x g now raw f true l :: (d1 ++ Engine.pausesHist q k)) x
      have hle2 : attemptsH (d1 ++ Engine.pausesHist q k) x ≤ _ := hle2
      have hs := same m hm
      rw [hd'] at hs ⊢
      have hceq : attemptsH (d2 ++ .ended x g now raw f true l :: (d1 ++ Engine.pausesHist q k)) x = attemptsH (d1 ++ Engine.pausesHist q k) x := by
        omega
      have h5 := no_attempt (x := x) a1 hceq (by simp [openH])
      exact ⟨(again_rests a1 a2 hmn (.inl rfl) hceq).1, .inr ⟨h5.1, h5.2 (by simp [waitsH])⟩⟩
  have hK := hkept k x (by rw [hh]; exact (state k (Nat.le_refl _)).2.1)
  rw [funext hh] at hK
  cases hK with
  | removed m h3 h4 => exact (state m h3).2.1 h4
  | again h3 =>
    obtain ⟨m, h4⟩ := h3 (attemptsH (Engine.pausesHist q k) x + 1)
    obtain ⟨d, hd'⟩ := epauses_grow (q := q) (Nat.le_max_right k m)
    have := attempts_le d (Engine.pausesHist q m) x
    rw [← hd'] at this
    exact same _ (Nat.le_max_left k m) (by omega)
  | starting m g' h3 =>
    obtain ⟨h4, h5, _⟩ := h3 (max k m) (Nat.le_max_right _ _)
    obtain ⟨h6, _, h7 | ⟨h7, _⟩⟩ := state _ (Nat.le_max_left k m)
    · rw [h4] at h7; injection h7 with h7; subst h7; exact h5 h6
    · rw [h4] at h7; cases h7
  | running m g' w' h3 =>
    obtain ⟨h4, h5, _⟩ := h3 (max k m) (Nat.le_max_right _ _)
    obtain ⟨h6, _, h7 | ⟨h7, _⟩⟩ := state _ (Nat.le_max_left k m)
    · rw [h4] at h7; injection h7 with h7; subst h7; exact h5 h6
    · rw [h4] at h7; cases h7
  | waiting m h3 =>
    obtain ⟨h4, h5⟩ := h3 (max k m) (Nat.le_max_right _ _)
    obtain ⟨_, _, h7 | ⟨_, h7⟩⟩ := state _ (Nat.le_max_left k m)
    · rw [h4] at h7; cases h7
    · rw [h5] at h7; cases h7

-- an attempt has been told to stop before its worker was started
example : SDemo.stay.Fair ∧ SDemo.stay.DelaysEnd ∧ SDemo.stay.WaitsAll ∧ SDemo.stay.Users ∧
    WellFounded (fun c i => ∃ k w, w ∈ (SDemo.stay.st k i).kills ∧ SDemo.W.child i w = c) ∧ SDemo.W.kind 0 = .engine Demo.cfg ∧
    (∀ k, .kill ∉ (SDemo.stay.st k 0).ehist) ∧ openH (SDemo.stay.st 14 0).ehist 1 = some 1 ∧ .cancelled 1 ∈ (SDemo.stay.st 14 0).ehist := by
  refine ⟨SDemo.stay_fair, SDemo.stay_delays, SDemo.stay_waits, SDemo.stay_users,
    ⟨fun i => ⟨i, fun j ⟨k, w, h, _⟩ => absurd h (SDemo.stay_kills i w k)⟩⟩, rfl, fun k h => ?_, by decide +kernel, by decide +kernel⟩
  have := SDemo.stay_all (P := fun c => c.ehist.all (fun e => match e with | .kill => false | _ => true)) (by decide +kernel) rfl k 0
  have := List.all_eq_true.1 this _ h
  simp at this

end Verif.Props
