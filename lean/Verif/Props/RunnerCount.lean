import Verif.Props.RunnerExact
import Verif.Props.RunnerHist

/-!
# C99: how often a runner starts a worker
-/

namespace Verif.Props.RCount
open Verif.Runner Verif.RSpec

variable {p : Params} {h : List Ev} {e : Ev}

/-- The attempts to start a worker begun so far. -/
def attemptsR : List Ev → Name → Nat
  | [], _ => 0
  | .begin m _ _ _ :: h, n => attemptsR h n + if n = m then 1 else 0
  | _ :: h, n => attemptsR h n

/-- How often StartWorker was accepted for the id, or its worker or start function ended with an error after which it is run
again, when it had not been told to stop. -/
def causesR (p : Params) : List Ev → Name → Nat
  | [], _ => 0
  | .accepted _ m _ _ :: h, n => causesR p h n + if n = m then 1 else 0
  | .ended m _ e :: h, n => causesR p h n + if n = m ∧ again p e = true ∧ toldH h n = false then 1 else 0
  | _ :: h, n => causesR p h n

def isBegin (n : Name) : Ev → Nat
  | .begin m _ _ _ => if n = m then 1 else 0
  | _ => 0

def begN (n : Name) : List Ev → Nat
  | [] => 0
  | e :: l => isBegin n e + begN n l

/-- The events that are due at some time. -/
def soft : Ev → Bool
  | .begin .. | .told _ | .killW .. | .removed .. | .shutdown => true
  | _ => false

theorem attempts_cons (n : Name) : attemptsR (e :: h) n = attemptsR h n + isBegin n e := by
  cases e <;> rfl

theorem causes_soft (hs : soft e = true) (n : Name) : causesR p (e :: h) n = causesR p h n := by
  cases e <;> first | rfl | cases hs

theorem killing_soft (h : List Ev) (id n : Name) : begN n (killing h id) = 0 ∧ ∀ x ∈ killing h id, soft x = true := by
  unfold killing
  split
  · exact ⟨rfl, fun x hx => by rw [List.mem_singleton.1 hx]; rfl⟩
  · exact ⟨rfl, fun x hx => by cases hx⟩

theorem caused_soft (e : Ev) (h : List Ev) : ∀ x ∈ caused p e h, soft x = true := by
  intro x hx
  cases e <;> simp only [caused] at hx
  case accepted => rw [List.mem_singleton.1 hx]; rfl
  case learned id g w =>
    split at hx
    · rcases List.mem_cons.1 hx with rfl | hx
      · rfl
      · rw [List.mem_singleton.1 hx]; rfl
    · cases hx
  case stopHandled id =>
    split at hx
    · rcases List.mem_cons.1 hx with rfl | hx
      · rfl
      · exact (killing_soft h id 0).2 x hx
    · cases hx
  case told id => exact (killing_soft h id 0).2 x hx
  case ended id g e =>
    split at hx
    · split at hx
      · rw [List.mem_singleton.1 hx]; rfl
      · cases hx
    · split at hx
      · rcases List.mem_cons.1 hx with rfl | hx
        · rfl
        · split at hx
          · rw [List.mem_singleton.1 hx]; rfl
          · cases hx
      · cases hx
  all_goals cases hx

theorem due_soft : ∀ (h : List Ev), ∀ x ∈ dueH p h, soft x = true := by
  intro h
  induction h with
  | nil => intro x hx; cases hx
  | cons e h ih =>
    intro x hx
    simp only [dueH] at hx
    split at hx
    · exact caused_soft e h x hx
    · rename_i d l hd; exact ih x (by rw [hd]; exact List.mem_cons_of_mem _ hx)

theorem open_sf (hk : Spec.AtEvery (EvOk p) h) {n g : Nat} (ho : openH h n = some g) : (sfH h n).isSome = true := by
  induction h with
  | nil => cases ho
  | cons e h ih =>
    have ih := ih hk.2
    cases e <;> simp only [openH, sfH] at ho ⊢ <;> try exact ih ho
    case accepted cid id rid sf =>
      split
      · rfl
      · exact ih ho
    case begin id g' d sf =>
      split at ho
      · rename_i he
        have hb := hk.1
        simp only [EvOk] at hb
        rw [he, hb.2.2.2.2.2.1]; rfl
      · exact ih ho
    case ended id g' e =>
      split at ho
      · cases ho
      · exact ih ho

theorem caused_count {T : Choice} (hk : Spec.AtEvery (EvOk p) h) (hc : Can p T e h) (n : Name) :
    attemptsR (e :: h) n = attemptsR h n ∧ causesR p (e :: h) n = causesR p h n + begN n (caused p e h) := by
  have k0 := fun id => (killing_soft h id n).1
  cases e <;> simp only [attempts_cons, isBegin, causesR, caused, begN, Nat.add_zero, k0, true_and]
  case begin => exact hc.elim
  case learned => split <;> rfl
  case stopHandled id =>
    split
    · simp only [begN, isBegin, k0, Nat.add_zero]
    · rfl
  case ended id g e =>
    have ho : openH h id = some g := hc.2.1
    obtain ⟨sf, hsf⟩ := Option.isSome_iff_exists.1 (open_sf hk ho)
    by_cases hn : n = id
    · subst hn
      by_cases ha : again p e = true ∧ toldH h n = false
      · simp only [ha, hsf, begN, isBegin, if_true, and_self]
      · rw [if_neg ha, if_neg (fun hx => ha hx.2)]
        split
        · simp only [begN, isBegin]
          split <;> simp [begN, isBegin]
        · rfl
    · rw [if_neg (fun hx => hn hx.1)]
      split
      · rw [hsf]; simp only [begN, isBegin, if_neg hn]
      · split
        · simp only [begN, isBegin]
          split <;> simp [begN, isBegin]
        · rfl

theorem count (T : Choice) : ∀ {h : List Ev}, Spec.AtEvery (EvOk p) h → Spec.AtEvery (Possible p T) h → ∀ n,
    attemptsR h n + begN n (dueH p h) = causesR p h n := by
  intro h
  induction h with
  | nil => intro _ _ n; rfl
  | cons e h ih =>
    intro hk hp n
    have ih := ih hk.2 hp.2 n
    have hp1 := hp.1
    unfold Possible at hp1
    simp only [dueH]
    cases hd : dueH p h with
    | nil =>
      rw [hd] at hp1 ih
      obtain ⟨h1, h2⟩ := caused_count hk.2 hp1 n
      simp only [begN] at ih
      rw [h1, h2]
      show _ + begN n (caused p e h) = _
      omega
    | cons d l =>
      rw [hd] at hp1 ih
      subst hp1
      simp only [begN] at ih
      rw [attempts_cons, causes_soft (due_soft h e (by rw [hd]; exact List.mem_cons_self))]
      show _ + begN n l = _
      omega

end Verif.Props.RCount

namespace Verif.Props
open Verif.Runner Verif.RSpec

/-- C99: a runner begins exactly one attempt to start a worker for each StartWorker call that it accepts and each end of the
worker, or failure of its start function, with an error after which it is run again, if it has not been told to stop. -/
theorem C99_runner {p : Params} {s : State} (hr : Reach p s) (n : Name) :
    RCount.attemptsR s.tab.hist n = RCount.causesR p s.tab.hist n := by
  obtain ⟨T, hh, hd⟩ := C95_sound hr
  have := RCount.count T (runner_evOk hr) hh n
  rw [hd] at this
  exact this

example : RCount.attemptsR (RDemo.after RDemo.prm RDemo.opsTwice).tab.hist 7 = 2 := by decide +kernel

end Verif.Props
