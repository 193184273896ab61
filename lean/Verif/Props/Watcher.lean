import Verif.Watcher
import Verif.Spec.AtEvery

/-!
# C68: the fake watcher
-/

namespace Verif.Props
open Verif.Spec Verif.Watcher

def isGot : Watcher.Ev → Bool
  | .got _ => true
  | _ => false
def isRet : Watcher.Ev → Bool
  | .pingRet _ => true
  | _ => false

/-- Values sent, including the preloaded ones, and not received. -/
def pending (preload : Int) (h : List Watcher.Ev) : Int := max preload 0 + h.countP isRet - h.countP isGot

/-- `h` is what has happened before, newest first. -/
def WEvOk (preload : Int) (e : Watcher.Ev) (h : List Watcher.Ev) : Prop :=
  match e with
  | .ping c => .ping c ∉ h ∧ .recv c ∉ h
  | .recv c => .ping c ∉ h ∧ .recv c ∉ h
  | .pingRet c => .ping c ∈ h ∧ .pingRet c ∉ h ∧ .pingPanic c ∉ h ∧ .closed ∉ h
  | .pingPanic c => .ping c ∈ h ∧ .pingRet c ∉ h ∧ .pingPanic c ∉ h ∧ .closed ∈ h
  | .got c => .recv c ∈ h ∧ .got c ∉ h ∧ .gotClosed c ∉ h ∧ 0 < pending preload h
  | .gotClosed c => .recv c ∈ h ∧ .got c ∉ h ∧ .gotClosed c ∉ h ∧ .closed ∈ h ∧ pending preload h = 0
  | .closed => .closed ∉ h
  | .closePanic => .closed ∈ h

/-! ### Proofs -/

def wid : Watcher.Ev → Option Nat
  | .ping c | .pingRet c | .pingPanic c | .recv c | .got c | .gotClosed c => some c
  | .closed | .closePanic => none

structure WInv (len preload : Int) (s : Watcher.State) : Prop where
  cap : (s.cap : Int) = len
  le : s.buf ≤ s.cap
  pend : pending preload s.hist = s.buf
  closed : s.closed = true ↔ .closed ∈ s.hist
  none : s.closed = true → s.senders = [] ∧ s.receivers = []
  full : s.senders ≠ [] → s.buf = s.cap ∧ s.receivers = []
  empty : s.receivers ≠ [] → s.buf = 0
  snd : ∀ c, c ∈ s.senders ↔ .ping c ∈ s.hist ∧ .pingRet c ∉ s.hist ∧ .pingPanic c ∉ s.hist
  rcv : ∀ c, c ∈ s.receivers ↔ .recv c ∈ s.hist ∧ .got c ∉ s.hist ∧ .gotClosed c ∉ s.hist
  nd : s.senders.Nodup
  nd' : s.receivers.Nodup
  ids : ∀ e ∈ s.hist, ∀ c, wid e = some c → c < s.next
  events : AtEvery (WEvOk preload) s.hist

theorem panics {preload : Int} {h : List Watcher.Ev} (hc : .closed ∈ h) (hk : AtEvery (WEvOk preload) h) : ∀ {l : List Nat}, l.Nodup →
    (∀ c ∈ l, .ping c ∈ h ∧ .pingRet c ∉ h ∧ .pingPanic c ∉ h) → AtEvery (WEvOk preload) (l.map .pingPanic ++ h)
  | [], _, _ => hk
  | a :: l, hn, hl => by
    have hn' := List.nodup_cons.1 hn
    have ha := hl a List.mem_cons_self
    refine ⟨?_, panics hc hk hn'.2 (fun c h => hl c (List.mem_cons_of_mem _ h))⟩
    refine ⟨List.mem_append_right _ ha.1, ?_, ?_, List.mem_append_right _ hc⟩
    · simp [ha.2.1]
    · simp [ha.2.2, hn'.1]

theorem closes {preload : Int} {h : List Watcher.Ev} (hc : .closed ∈ h) (hp : pending preload h = 0) (hk : AtEvery (WEvOk preload) h) :
    ∀ {l : List Nat}, l.Nodup →
    (∀ c ∈ l, .recv c ∈ h ∧ .got c ∉ h ∧ .gotClosed c ∉ h) → AtEvery (WEvOk preload) (l.map .gotClosed ++ h)
  | [], _, _ => hk
  | a :: l, hn, hl => by
    have hn' := List.nodup_cons.1 hn
    have ha := hl a List.mem_cons_self
    refine ⟨?_, closes hc hp hk hn'.2 (fun c h => hl c (List.mem_cons_of_mem _ h))⟩
    refine ⟨List.mem_append_right _ ha.1, ?_, ?_, List.mem_append_right _ hc, ?_⟩
    · simp [ha.2.1]
    · simp [ha.2.2, hn'.1]
    · have h1 : (l.map Watcher.Ev.gotClosed).countP isRet = 0 := by simp [List.countP_eq_zero, isRet]
      have h2 : (l.map Watcher.Ev.gotClosed).countP isGot = 0 := by simp [List.countP_eq_zero, isGot]
      show pending preload (l.map Watcher.Ev.gotClosed ++ h) = 0
      simp only [pending, List.countP_append, h1, h2]
      simp only [pending] at hp
      omega

theorem winv_init {len preload : Int} {s : Watcher.State} (h : Watcher.new len preload = some s) : WInv len preload s := by
  unfold Watcher.new at h
  split at h
  · cases h
  · split at h
    · cases h
    · cases h
      refine ⟨?_, ?_, ?_, by simp, by simp, by simp, by simp, by simp, by simp, by simp, by simp, by simp, trivial⟩
      · simp; omega
      · simp only; omega
      · simp [pending]

theorem pending_cons (preload : Int) (e : Watcher.Ev) (h : List Watcher.Ev) :
    pending preload (e :: h) = pending preload h + (if isRet e then 1 else 0) - (if isGot e then 1 else 0) := by
  simp only [pending, List.countP_cons]
  split <;> split <;> simp <;> omega

/-- The call begins. -/
theorem winv_call {len preload : Int} {s : Watcher.State} (hI : WInv len preload s) {e : Watcher.Ev} (he : e = .ping s.next ∨ e = .recv s.next) :
    pending preload (e :: s.hist) = s.buf ∧ (s.closed = true ↔ .closed ∈ e :: s.hist) ∧ AtEvery (WEvOk preload) (e :: s.hist) ∧
    (∀ x ∈ e :: s.hist, ∀ c, wid x = some c → c < s.next + 1) := by
  have hfr : ∀ e, wid e = some s.next → e ∉ s.hist := fun e h1 h2 => Nat.lt_irrefl _ (hI.ids e h2 _ h1)
  refine ⟨?_, ?_, ⟨?_, hI.events⟩, ?_⟩
  · rw [pending_cons, hI.pend]; rcases he with rfl | rfl <;> simp [isRet, isGot]
  · rw [hI.closed]; rcases he with rfl | rfl <;> simp
  · rcases he with rfl | rfl <;> exact ⟨hfr _ rfl, hfr _ rfl⟩
  · intro x hx c hc
    rcases List.mem_cons.1 hx with rfl | hx
    · rcases he with rfl | rfl <;> (cases hc; omega)
    · exact Nat.lt_succ_of_lt (hI.ids x hx c hc)

theorem winv_ping {len preload : Int} {s : Watcher.State} (hI : WInv len preload s) : WInv len preload (Watcher.ping s) := by
  have hfr : ∀ e, wid e = some s.next → e ∉ s.hist := fun e h1 h2 => Nat.lt_irrefl _ (hI.ids e h2 _ h1)
  have f1 := hfr (.pingRet s.next) rfl
  have f2 := hfr (.pingPanic s.next) rfl
  have f3 := hfr (.ping s.next) rfl
  have f4 : s.next ∉ s.senders := fun h => f3 ((hI.snd _).1 h).1
  have f5 : s.next ∉ s.receivers := fun h => hfr (.recv s.next) rfl ((hI.rcv _).1 h).1
  obtain ⟨g1, g2, g3, g4⟩ := winv_call hI (e := .ping s.next) (Or.inl rfl)
  simp only [Watcher.ping]
  by_cases hc : s.closed = true
  · rw [if_pos hc]
    refine ⟨hI.cap, hI.le, ?_, ?_, hI.none, hI.full, hI.empty, ?_, ?_, hI.nd, hI.nd', ?_, ⟨?_, g3⟩⟩
    · show pending preload (_ :: _ :: _) = _
      rw [pending_cons, g1]; simp [isRet, isGot]
    · simpa using hI.closed
    · intro c; rw [hI.snd c]
      by_cases hcn : c = s.next
      · subst hcn; simp [f3]
      · simp [hcn]
    · intro c; rw [hI.rcv c]; simp
    · intro x hx c h
      rcases List.mem_cons.1 hx with rfl | hx
      · cases h; exact Nat.lt_succ_self _
      · exact g4 x hx c h
    · refine ⟨List.mem_cons_self, ?_, ?_, g2.1 hc⟩ <;> simp [f1, f2]
  · rw [if_neg hc]
    cases hr : s.receivers with
    | cons r rs =>
      have hnd := hI.nd'
      rw [hr] at hnd
      have hnr := List.nodup_cons.1 hnd
      have hrr := (hI.rcv r).1 (by rw [hr]; exact List.mem_cons_self)
      have hrn : r ≠ s.next := fun h => f5 (by rw [hr, h]; exact List.mem_cons_self)
      have hs : s.senders = [] := Classical.byContradiction fun h => by have := (hI.full h).2; rw [hr] at this; cases this
      have hb := hI.empty (by rw [hr]; nofun)
      refine ⟨hI.cap, hI.le, ?_, ?_, fun h => absurd h hc, fun h => absurd hs h, fun _ => hb, ?_, ?_, hI.nd, hnr.2, ?_, ⟨?_, ?_, g3⟩⟩
      · show pending preload (_ :: _ :: _ :: _) = _
        rw [pending_cons, pending_cons, g1]; simp [isRet, isGot]
      · simpa using hI.closed
      · intro c; rw [hI.snd c]
        by_cases hcn : c = s.next
        · subst hcn; simp [f3]
        · simp [hcn]
      · intro c
        have := hI.rcv c
        rw [hr] at this
        by_cases hcr : c = r
        · subst hcr; simp [hnr.1]
        · simp only [List.mem_cons, hcr, false_or] at this
          rw [this]; simp [hcr]
      · intro x hx c h
        rcases List.mem_cons.1 hx with rfl | hx
        · cases h; exact Nat.lt_succ_of_lt (hI.ids _ hrr.1 _ rfl)
        · rcases List.mem_cons.1 hx with rfl | hx
          · cases h; exact Nat.lt_succ_self _
          · exact g4 x hx c h
      · refine ⟨?_, ?_, ?_, ?_⟩
        · simp [hrr.1]
        · simp [hrr.2.1]
        · simp [hrr.2.2]
        · show 0 < pending preload (_ :: _ :: _)
          rw [pending_cons, g1]; simp [isRet, isGot] <;> omega
      · refine ⟨List.mem_cons_self, ?_, ?_, fun h => hc (g2.2 h)⟩ <;> simp [f1, f2]
    | nil =>
      simp only
      by_cases hb : s.buf < s.cap
      · rw [if_pos hb]
        have hs : s.senders = [] := Classical.byContradiction fun h => by have := (hI.full h).1; omega
        refine ⟨hI.cap, hb, ?_, ?_, fun h => absurd h hc, fun h => absurd hs h, fun h => absurd rfl h, ?_, ?_, hI.nd, by simp, ?_, ⟨?_, g3⟩⟩
        · show pending preload (_ :: _ :: _) = _
          rw [pending_cons, g1]; simp [isRet, isGot]
        · simpa using hI.closed
        · intro c; rw [hI.snd c]
          by_cases hcn : c = s.next
          · subst hcn; simp [f3]
          · simp [hcn]
        · intro c; show c ∈ ([] : List Nat) ↔ _; rw [← hr, hI.rcv c]; simp
        · intro x hx c h
          rcases List.mem_cons.1 hx with rfl | hx
          · cases h; exact Nat.lt_succ_self _
          · exact g4 x hx c h
        · refine ⟨List.mem_cons_self, ?_, ?_, fun h => hc (g2.2 h)⟩ <;> simp [f1, f2]
      · rw [if_neg hb]
        refine ⟨hI.cap, hI.le, g1, g2, fun h => absurd h hc, fun _ => ⟨?_, rfl⟩, fun h => absurd rfl h, ?_, ?_, ?_, by simp, g4, g3⟩
        · have := hI.le; show s.buf = s.cap; omega
        · intro c
          rw [List.mem_append, hI.snd c]
          by_cases hcn : c = s.next
          · subst hcn; simp [f1, f2]
          · simp [hcn]
        · intro c; show c ∈ ([] : List Nat) ↔ _; rw [← hr, hI.rcv c]; simp
        · rw [List.nodup_append]
          refine ⟨hI.nd, by simp, ?_⟩
          intro a ha b hb hab
          rw [List.mem_singleton] at hb
          subst hab; subst hb; exact f4 ha

theorem winv_recv {len preload : Int} {s : Watcher.State} (hI : WInv len preload s) : WInv len preload (Watcher.recv s) := by
  have hfr : ∀ e, wid e = some s.next → e ∉ s.hist := fun e h1 h2 => Nat.lt_irrefl _ (hI.ids e h2 _ h1)
  have f1 := hfr (.got s.next) rfl
  have f2 := hfr (.gotClosed s.next) rfl
  have f3 := hfr (.recv s.next) rfl
  have f4 : s.next ∉ s.senders := fun h => hfr (.ping s.next) rfl ((hI.snd _).1 h).1
  have f5 : s.next ∉ s.receivers := fun h => f3 ((hI.rcv _).1 h).1
  obtain ⟨g1, g2, g3, g4⟩ := winv_call hI (e := .recv s.next) (Or.inr rfl)
  have snd' : ∀ c, c ∈ s.senders ↔ .ping c ∈ .recv s.next :: s.hist ∧ .pingRet c ∉ .recv s.next :: s.hist ∧ .pingPanic c ∉ .recv s.next :: s.hist := by
    intro c; rw [hI.snd c]; simp
  simp only [Watcher.recv]
  cases hs : s.senders with
  | cons p ps =>
    have hne : s.senders ≠ [] := by rw [hs]; nofun
    have hc : s.closed ≠ true := fun h => hne (hI.none h).1
    have hnd := hI.nd
    rw [hs] at hnd
    have hnp := List.nodup_cons.1 hnd
    have hp := (hI.snd p).1 (by rw [hs]; exact List.mem_cons_self)
    obtain ⟨hb, hr⟩ := hI.full hne
    refine ⟨hI.cap, hI.le, ?_, ?_, fun h => absurd h hc, fun _ => ⟨hb, hr⟩, fun h => absurd hr h, ?_, ?_, hnp.2, hI.nd', ?_, ⟨?_, ?_, g3⟩⟩
    · show pending preload (_ :: _ :: _ :: _) = _
      rw [pending_cons, pending_cons, g1]; simp [isRet, isGot]
    · simpa using hI.closed
    · intro c
      have := hI.snd c
      rw [hs] at this
      by_cases hcp : c = p
      · subst hcp; simp [hnp.1]
      · simp only [List.mem_cons, hcp, false_or] at this
        rw [this]; simp [hcp]
    · intro c
      rw [hI.rcv c]
      by_cases hcn : c = s.next
      · subst hcn; simp [f3]
      · simp [hcn]
    · intro x hx c h
      rcases List.mem_cons.1 hx with rfl | hx
      · cases h; exact Nat.lt_succ_self _
      · rcases List.mem_cons.1 hx with rfl | hx
        · cases h; exact Nat.lt_succ_of_lt (hI.ids _ hp.1 _ rfl)
        · exact g4 x hx c h
    · refine ⟨?_, ?_, ?_, ?_⟩
      · simp
      · simp [f1]
      · simp [f2]
      · show 0 < pending preload (_ :: _ :: _)
        rw [pending_cons, g1]; simp [isRet, isGot] <;> omega
    · refine ⟨?_, ?_, ?_, fun h => hc (g2.2 h)⟩
      · simp [hp.1]
      · simp [hp.2.1]
      · simp [hp.2.2]
  | nil =>
    simp only
    by_cases hb : 0 < s.buf
    · rw [if_pos hb]
      have hr : s.receivers = [] := Classical.byContradiction fun h => by have := hI.empty h; omega
      refine ⟨hI.cap, ?_, ?_, ?_, fun h => ⟨rfl, (hI.none h).2⟩, fun h => absurd rfl h, fun h => absurd hr h, ?_, ?_, by simp, hI.nd', ?_, ⟨?_, g3⟩⟩
      · have := hI.le; show s.buf - 1 ≤ s.cap; omega
      · show pending preload (_ :: _ :: _) = ((s.buf - 1 : Nat) : Int)
        rw [pending_cons, g1]; simp [isRet, isGot] <;> omega
      · simpa using hI.closed
      · intro c; show c ∈ ([] : List Nat) ↔ _; rw [← hs, hI.snd c]; simp
      · intro c; rw [hI.rcv c]
        by_cases hcn : c = s.next
        · subst hcn; simp [f3]
        · simp [hcn]
      · intro x hx c h
        rcases List.mem_cons.1 hx with rfl | hx
        · cases h; exact Nat.lt_succ_self _
        · exact g4 x hx c h
      · refine ⟨List.mem_cons_self, ?_, ?_, ?_⟩
        · simp [f1]
        · simp [f2]
        · show 0 < pending preload (_ :: _); rw [g1]; omega
    · rw [if_neg hb]
      by_cases hc : s.closed = true
      · rw [if_pos hc]
        refine ⟨hI.cap, hI.le, ?_, ?_, fun h => ⟨rfl, (hI.none h).2⟩, fun h => absurd rfl h, hI.empty, ?_, ?_, by simp, hI.nd', ?_, ⟨?_, g3⟩⟩
        · show pending preload (_ :: _ :: _) = _
          rw [pending_cons, g1]; simp [isRet, isGot]
        · simpa using hI.closed
        · intro c; show c ∈ ([] : List Nat) ↔ _; rw [← hs, hI.snd c]; simp
        · intro c; rw [hI.rcv c]
          by_cases hcn : c = s.next
          · subst hcn; simp [f3]
          · simp [hcn]
        · intro x hx c h
          rcases List.mem_cons.1 hx with rfl | hx
          · cases h; exact Nat.lt_succ_self _
          · exact g4 x hx c h
        · refine ⟨List.mem_cons_self, ?_, ?_, g2.1 hc, ?_⟩
          · simp [f1]
          · simp [f2]
          · show pending preload (_ :: _) = 0; rw [g1]; omega
      · rw [if_neg hc]
        refine ⟨hI.cap, hI.le, g1, g2, fun h => absurd h hc, fun h => absurd rfl h, fun _ => ?_, ?_, ?_, by simp, ?_, g4, g3⟩
        · show s.buf = 0; omega
        · intro c; show c ∈ ([] : List Nat) ↔ _; rw [← hs]; exact snd' c
        · intro c
          rw [List.mem_append, hI.rcv c]
          by_cases hcn : c = s.next
          · subst hcn; simp [f1, f2]
          · simp [hcn]
        · rw [List.nodup_append]
          refine ⟨hI.nd', by simp, ?_⟩
          intro a ha b hb hab
          rw [List.mem_singleton] at hb
          subst hab; subst hb; exact f5 ha

theorem winv_close {len preload : Int} {s : Watcher.State} (hI : WInv len preload s) : WInv len preload (Watcher.close s) := by
  simp only [Watcher.close]
  by_cases hc : s.closed = true
  · rw [if_pos hc]
    refine ⟨hI.cap, hI.le, ?_, ?_, hI.none, hI.full, hI.empty, ?_, ?_, hI.nd, hI.nd', ?_, ⟨hI.closed.1 hc, hI.events⟩⟩
    · show pending preload (_ :: _) = _
      rw [pending_cons, hI.pend]; simp [isRet, isGot]
    · simpa using hI.closed
    · intro c; rw [hI.snd c]; simp
    · intro c; rw [hI.rcv c]; simp
    · intro x hx c h
      rcases List.mem_cons.1 hx with rfl | hx
      · cases h
      · exact hI.ids x hx c h
  · rw [if_neg hc]
    have hk : AtEvery (WEvOk preload) (.closed :: s.hist) := ⟨fun h => hc (hI.closed.2 h), hI.events⟩
    have hp1 : pending preload (.closed :: s.hist) = s.buf := by rw [pending_cons, hI.pend]; simp [isRet, isGot]
    refine ⟨hI.cap, hI.le, ?_, ?_, fun _ => ⟨rfl, rfl⟩, nofun, nofun, ?_, ?_, by simp, by simp, ?_, ?_⟩
    · have h1 : (s.receivers.map Watcher.Ev.gotClosed).countP isRet = 0 := by simp [List.countP_eq_zero, isRet]
      have h2 : (s.receivers.map Watcher.Ev.gotClosed).countP isGot = 0 := by simp [List.countP_eq_zero, isGot]
      have h3 : (s.senders.map Watcher.Ev.pingPanic).countP isRet = 0 := by simp [List.countP_eq_zero, isRet]
      have h4 : (s.senders.map Watcher.Ev.pingPanic).countP isGot = 0 := by simp [List.countP_eq_zero, isGot]
      show pending preload (_ ++ _ ++ _ :: _) = _
      simp only [pending, List.countP_append, h1, h2, h3, h4]
      simp only [pending] at hp1
      omega
    · simp
    · intro c
      simp only [List.not_mem_nil, false_iff]
      rintro ⟨h1, h2, h3⟩
      simp at h1 h2 h3
      exact h3.1 ((hI.snd c).2 ⟨h1, h2, h3.2⟩)
    · intro c
      simp only [List.not_mem_nil, false_iff]
      rintro ⟨h1, h2, h3⟩
      simp at h1 h2 h3
      exact h3.1 ((hI.rcv c).2 ⟨h1, h2, h3.2⟩)
    · intro x hx c h
      simp only [List.mem_append, List.mem_map, List.mem_cons] at hx
      rcases hx with (⟨a, ha, rfl⟩ | ⟨a, ha, rfl⟩) | rfl | hx
      · cases h; exact hI.ids _ ((hI.snd c).1 ha).1 _ rfl
      · cases h; exact hI.ids _ ((hI.rcv c).1 ha).1 _ rfl
      · cases h
      · exact hI.ids x hx c h
    · show AtEvery _ (_ ++ _ ++ _ :: _)
      rw [List.append_assoc]
      have hk2 : AtEvery (WEvOk preload) (s.receivers.map .gotClosed ++ .closed :: s.hist) := by
        by_cases hr : s.receivers = []
        · rw [hr]; exact hk
        · refine closes List.mem_cons_self ?_ hk hI.nd' ?_
          · rw [hp1, hI.empty hr]; rfl
          · intro c h
            have := (hI.rcv c).1 h
            simp [this]
      refine panics (by simp) hk2 hI.nd ?_
      intro c h
      have := (hI.snd c).1 h
      simp [this]

theorem winv_reach {len preload : Int} {s : Watcher.State} (hr : Watcher.Reach len preload s) : WInv len preload s := by
  induction hr with
  | init h => exact winv_init h
  | step op _ ih =>
    cases op with
    | ping => exact winv_ping ih
    | recv => exact winv_recv ih
    | close => exact winv_close ih

/-! ### The property -/

variable {len preload : Int} {s : Watcher.State}

/-- C68: NewFakeWatcher panics if the channel could not hold the preloaded values (or could not be made at all). -/
theorem C68_new : (∃ s, Watcher.new len preload = some s) ↔ preload ≤ len ∧ 0 ≤ len := by
  unfold Watcher.new
  split
  · exact ⟨nofun, fun h => by omega⟩
  · split
    · exact ⟨nofun, fun h => by omega⟩
    · exact ⟨fun _ => by omega, fun _ => ⟨_, rfl⟩⟩

/-- C68: every call and every receive ends as it should: a Ping returns only before Close and panics only because of it; a
receive gets a value only if there is one, and finds the channel closed only after Close, when all values have been received;
Close panics exactly the second time. -/
theorem C68_events (hr : Watcher.Reach len preload s) : AtEvery (WEvOk preload) s.hist := (winv_reach hr).events

/-- C68: no value is made up and none is lost: those sent and not received are between none and `len`. -/
theorem C68_capacity (hr : Watcher.Reach len preload s) : 0 ≤ pending preload s.hist ∧ pending preload s.hist ≤ len := by
  have hI := winv_reach hr
  have := hI.cap
  have := hI.le
  rw [hI.pend]; omega

/-- C68: a Ping is blocked only if there are `len` unreceived values and nobody waits for one; a receive only if there is
none; neither after Close. -/
theorem C68_blocked (hr : Watcher.Reach len preload s) {c : Nat} :
    (.ping c ∈ s.hist → .pingRet c ∉ s.hist → .pingPanic c ∉ s.hist → pending preload s.hist = len ∧ .closed ∉ s.hist ∧
      ∀ c', .recv c' ∈ s.hist → .got c' ∈ s.hist ∨ .gotClosed c' ∈ s.hist) ∧
    (.recv c ∈ s.hist → .got c ∉ s.hist → .gotClosed c ∉ s.hist → pending preload s.hist = 0 ∧ .closed ∉ s.hist) := by
  have hI := winv_reach hr
  refine ⟨fun h1 h2 h3 => ?_, fun h1 h2 h3 => ?_⟩
  · have hm := (hI.snd c).2 ⟨h1, h2, h3⟩
    have hne : s.senders ≠ [] := fun h => by rw [h] at hm; cases hm
    obtain ⟨hb, hr⟩ := hI.full hne
    refine ⟨by rw [hI.pend, hb]; exact hI.cap, fun h => hne (hI.none (hI.closed.2 h)).1, fun c' hc' => ?_⟩
    refine Classical.byContradiction fun hx => ?_
    have := (hI.rcv c').2 ⟨hc', fun h => hx (Or.inl h), fun h => hx (Or.inr h)⟩
    rw [hr] at this; cases this
  · have hm := (hI.rcv c).2 ⟨h1, h2, h3⟩
    have hne : s.receivers ≠ [] := fun h => by rw [h] at hm; cases hm
    exact ⟨by rw [hI.pend, hI.empty hne]; rfl, fun h => hne (hI.none (hI.closed.2 h)).2⟩

/-! ### Examples -/

/-- Room for two, one preloaded; the second Ping blocks until something is received; another is blocked when the channel is
closed. -/
example : ((Watcher.new 2 1).map fun s => ([.ping, .ping, .recv, .ping, .close, .recv, .recv, .recv, .close].foldl Watcher.step s).hist) =
    some [.closePanic, .gotClosed 6, .recv 6, .got 5, .recv 5, .got 4, .recv 4, .pingPanic 3, .closed, .ping 3, .got 2, .pingRet 1, .recv 2,
      .ping 1, .pingRet 0, .ping 0] := by decide +kernel

/-- No room at all: the receive waits for the Ping. -/
example : ((Watcher.new 0 (-3)).map fun s => ([.recv, .ping, .recv, .close].foldl Watcher.step s).hist) =
    some [.gotClosed 2, .closed, .recv 2, .got 0, .pingRet 1, .ping 1, .recv 0] := by decide +kernel

end Verif.Props
