import Verif.Props.EngineStopped
import Verif.Props.RunnerHist

/-!
# User code that does not return (C89)

A Start func that has been called and has not returned, and a worker that has not finished. (A Start func of the engine
that calls runtime.Goexit, and a Wait that does, are among these: the goroutine that called them ends without telling the
loop.) Nothing is done about them: the attempt stays open, and neither the engine nor the runner ends.
-/

namespace Verif.Props

theorem atEvery_behind {α : Type} {P : α → List α → Prop} {post pre : List α} {e : α} (h : Spec.AtEvery P (post ++ e :: pre)) :
    Spec.AtEvery P pre := by
  induction post with
  | nil => exact h.2
  | cons _ _ ih => exact ih h.2

section
open Verif.Spec Verif.Engine

variable {cfg : Config} {f : Fine}

/-- The attempt `g` of manifold `n`, open at `pre`, is inside its Start func, which does not return in `mid`, or has a worker that has
not finished. -/
def HungAt (pre mid : List Ev) (n : Name) (g : Nat) : Prop :=
  openH pre n = some g ∧
  ((phaseH pre n = .inStart ∧ (∀ w, .startOk n g w ∉ mid) ∧ ∀ e, .startErr n g e ∉ mid) ∨
   ∃ k, phaseH pre n = .ok (.obj k) ∧ ∀ e, .finished k e ∉ mid ++ pre)

/-- An attempt of the manifold begins, goes on or ends. -/
def moves (n : Name) : Ev → Bool
  | .begin m _ _ _ _ | .startCall m _ _ | .startOk m _ _ | .startErr m _ _ | .ended m _ _ _ _ _ _ => n == m
  | _ => false

theorem hung_stays {n : Name} {g : Nat} {pre : List Ev} : ∀ {mid : List Ev}, AtEvery OneAtATime (mid ++ pre) →
    AtEvery (EndsProperly cfg) (mid ++ pre) → HungAt pre mid n g →
    openH (mid ++ pre) n = some g ∧ phaseH (mid ++ pre) n = phaseH pre n ∧ ∀ e ∈ mid, moves n e = false := by
  intro mid
  induction mid with
  | nil => intro _ _ h; exact ⟨h.1, rfl, by simp⟩
  | cons e mid ih =>
    intro h1 h2 h
    have hh : HungAt pre mid n g := by
      refine ⟨h.1, ?_⟩
      rcases h.2 with ⟨a, b, c⟩ | ⟨k, a, b⟩
      · exact .inl ⟨a, fun w hw => b w (.tail _ hw), fun e he => c e (.tail _ he)⟩
      · exact .inr ⟨k, a, fun e he => b e (.tail _ he)⟩
    obtain ⟨ho, hp, hm⟩ := ih h1.2 h2.2 hh
    have he : OneAtATime e (mid ++ pre) := h1.1
    have he2 : EndsProperly cfg e (mid ++ pre) := h2.1
    have hm' : moves n e = false → ∀ x ∈ e :: mid, moves n x = false := fun h x hx => by
      rcases List.mem_cons.1 hx with rfl | hx
      · exact h
      · exact hm x hx
    show openH (e :: (mid ++ pre)) n = some g ∧ phaseH (e :: (mid ++ pre)) n = phaseH pre n ∧ _
    have notDelayed : phaseH (mid ++ pre) n ≠ .delayed := by
      rw [hp]; rcases h.2 with ⟨a, _⟩ | ⟨k, a, _⟩ <;> rw [a] <;> nofun
    cases e with
    | «begin» m g' b r sn =>
      have hne : n ≠ m := fun x => by subst x; cases ho.symm.trans he.1
      simp only [openH, phaseH, if_neg hne]; exact ⟨ho, hp, hm' (beq_false_of_ne hne)⟩
    | startCall m g' d =>
      have hne : n ≠ m := fun x => by subst x; exact notDelayed he.2
      simp only [openH, phaseH, if_neg hne]; exact ⟨ho, hp, hm' (beq_false_of_ne hne)⟩
    | startOk m g' w =>
      have hne : n ≠ m := fun x => by
        subst x
        rcases h.2 with ⟨_, b, _⟩ | ⟨k, a, _⟩
        · cases ho.symm.trans he.1; exact b w (.head _)
        · cases (hp.trans a).symm.trans he.2
      simp only [openH, phaseH, if_neg hne]; exact ⟨ho, hp, hm' (beq_false_of_ne hne)⟩
    | startErr m g' r =>
      have hne : n ≠ m := fun x => by
        subst x
        rcases h.2 with ⟨_, _, c⟩ | ⟨k, a, _⟩
        · cases ho.symm.trans he.1; exact c r (.head _)
        · cases (hp.trans a).symm.trans he.2
      simp only [openH, phaseH, if_neg hne]; exact ⟨ho, hp, hm' (beq_false_of_ne hne)⟩
    | ended m g' now raw fl told lost =>
      have hne : n ≠ m := fun x => by
        subst x
        have h3 := he2.2.2.2
        rcases h.2 with ⟨a, _⟩ | ⟨k, a, b⟩
        · rw [hp.trans a] at h3; exact h3
        · rw [hp.trans a] at h3; exact b raw (.tail _ h3)
      simp only [openH, phaseH, if_neg hne]; exact ⟨ho, hp, hm' (beq_false_of_ne hne)⟩
    | _ => exact ⟨ho, hp, hm' rfl⟩

/-- C89: while a Start func that has been called does not return, or a worker does not finish, the engine does not end,
whatever else happens; the attempt stays open, no other is made for that manifold and it is not uninstalled. -/
theorem C89_engine (hr : FReach cfg f) {pre mid : List Ev} (hh : f.s.hist = mid ++ pre) {n : Name} {g : Nat}
    (h : HungAt pre mid n g) :
    .exit ∉ f.s.hist ∧ waitResult cfg f.s = none ∧ openH f.s.hist n = some g ∧ (∀ e ∈ mid, moves n e = false) ∧
    .uninstalled n ∉ mid := by
  have key : openH f.s.hist n = some g ∧ phaseH f.s.hist n = phaseH pre n ∧ ∀ e ∈ mid, moves n e = false := by
    rw [hh]; exact hung_stays (hh ▸ C81_one_at_a_time hr) (hh ▸ C81_ends_properly hr) h
  have hx : .exit ∉ f.s.hist := by
    intro hx
    obtain ⟨D, hl⟩ := freach_link hr
    obtain ⟨c, i⟩ := ex_hinv hl.1
    obtain ⟨x, hg, hgn, -⟩ := i.openN n g key.1
    have := dead_self c i (ex_wphase hl.1) (i.dead.2 hx) hg
    rw [hgn, key.2.1] at this
    rcases h.2 with ⟨a, _⟩ | ⟨k, a, _⟩ <;> rw [a] at this <;> cases this
  refine ⟨hx, ?_, key.1, key.2.2, ?_⟩
  · rw [C81_wait_result hr, if_neg hx]
  · intro hu
    obtain ⟨a, b, rfl⟩ := List.append_of_mem hu
    have hh' : f.s.hist = a ++ .uninstalled n :: (b ++ pre) := by rw [hh]; simp
    have h1 := (hh' ▸ C81_uninstall hr).split
    have hb : HungAt pre b n g := by
      refine ⟨h.1, ?_⟩
      rcases h.2 with ⟨x, y, z⟩ | ⟨k, x, y⟩
      · exact .inl ⟨x, fun w hw => y w (by simp [hw]), fun e he => z e (by simp [he])⟩
      · exact .inr ⟨k, x, fun e he => y e (by
          rcases List.mem_append.1 he with he | he <;> simp [he])⟩
    have h2 := hung_stays (cfg := cfg) (atEvery_behind (hh' ▸ C81_one_at_a_time hr)) (atEvery_behind (hh' ▸ C81_ends_properly hr)) hb
    cases h1.2.1.symm.trans h2.1

/-- Manifold 0's Start func has been called. -/
def opsCalled : List FOp := [ .install 0 {} [0], .work, .work, .env (.gTimer 0 0) ]

/-- It does not return: the engine is killed, and the loop has told the attempt to stop. -/
def opsHung : List FOp := opsCalled ++ [ .env .kill, .dying [0], .work, .work, .work ]

example : FReach Demo.cfg (FDemo.after Demo.cfg opsHung) ∧
    (FDemo.after Demo.cfg opsHung).s.hist = [.cancelled 0, .kill] ++ (FDemo.after Demo.cfg opsCalled).s.hist ∧
    HungAt (FDemo.after Demo.cfg opsCalled).s.hist [.cancelled 0, .kill] 0 0 :=
  ⟨FDemo.after_reach _ _, by decide +kernel, by decide +kernel, .inl ⟨by decide +kernel, by simp, by simp⟩⟩

end

section
open Verif.Spec (AtEvery)
open Verif.RSpec Verif.Runner

variable {p : Params} {s : State}

/-- The same for attempt `g` of id `id` of a runner. -/
def RHungAt (pre mid : List Ev) (id : Name) (g : Nat) : Prop :=
  openH pre id = some g ∧
  ((phaseH pre g = some .calling ∧ (∀ i w, .startOk i g w ∉ mid) ∧ ∀ i e, .startErr i g e ∉ mid) ∨
   ∃ w, phaseH pre g = some (.running w) ∧ finishedH (mid ++ pre) w = none)

/-- Something happens to an id or an attempt of it begins or ends. -/
def rmoves (id : Name) : Ev → Bool
  | .accepted _ m _ _ | .begin m _ _ _ | .ended m _ _ | .removed m _ => id == m
  | _ => false

theorem finished_tail {e : Ev} {h : List Ev} {w : Nat} (hf : finishedH (e :: h) w = none) : finishedH h w = none := by
  cases e <;> simp only [finishedH] at hf <;> first | exact hf | skip
  split at hf
  · cases hf
  · exact hf

theorem rhung_stays {id : Name} {g : Nat} {pre : List Ev} : ∀ {mid : List Ev}, AtEvery (EvOk p) (mid ++ pre) → RHungAt pre mid id g →
    openH (mid ++ pre) id = some g ∧ phaseH (mid ++ pre) g = phaseH pre g ∧ ∀ e ∈ mid, rmoves id e = false := by
  intro mid
  induction mid with
  | nil => intro _ h; exact ⟨h.1, rfl, by simp⟩
  | cons e mid ih =>
    intro h1 h
    have hh : RHungAt pre mid id g := by
      refine ⟨h.1, ?_⟩
      rcases h.2 with ⟨a, b, c⟩ | ⟨k, a, b⟩
      · exact .inl ⟨a, fun i w hw => b i w (.tail _ hw), fun i e he => c i e (.tail _ he)⟩
      · exact .inr ⟨k, a, finished_tail b⟩
    obtain ⟨ho, hp, hm⟩ := ih h1.2 hh
    have he : EvOk p e (mid ++ pre) := h1.1
    have hm' : rmoves id e = false → ∀ x ∈ e :: mid, rmoves id x = false := fun h x hx => by
      rcases List.mem_cons.1 hx with rfl | hx
      · exact h
      · exact hm x hx
    show openH (e :: (mid ++ pre)) id = some g ∧ phaseH (e :: (mid ++ pre)) g = phaseH pre g ∧ _
    have notPending : phaseH (mid ++ pre) g ≠ some .pending := by
      rw [hp]; rcases h.2 with ⟨a, _⟩ | ⟨k, a, _⟩ <;> rw [a] <;> nofun
    have isSome : phaseH (mid ++ pre) g ≠ none := by
      rw [hp]; rcases h.2 with ⟨a, _⟩ | ⟨k, a, _⟩ <;> rw [a] <;> nofun
    cases e with
    | «begin» m g' d sf =>
      have hne : id ≠ m := fun x => by subst x; cases ho.symm.trans he.2.1
      have hng : g ≠ g' := fun x => by subst x; exact isSome he.2.2.2.2.1
      simp only [openH, phaseH, if_neg hne, if_neg hng]; exact ⟨ho, hp, hm' (beq_false_of_ne hne)⟩
    | startCall m g' sf =>
      have hng : g ≠ g' := fun x => by subst x; exact notPending he.2.1
      simp only [openH, phaseH, if_neg hng]; exact ⟨ho, hp, hm' rfl⟩
    | startOk m g' w =>
      have hng : g ≠ g' := fun x => by
        subst x
        rcases h.2 with ⟨_, b, _⟩ | ⟨k, a, _⟩
        · exact b m w (.head _)
        · cases (hp.trans a).symm.trans he.2
      simp only [openH, phaseH, if_neg hng]; exact ⟨ho, hp, hm' rfl⟩
    | startErr m g' r =>
      have hng : g ≠ g' := fun x => by
        subst x
        rcases h.2 with ⟨_, _, c⟩ | ⟨k, a, _⟩
        · exact c m r (.head _)
        · cases (hp.trans a).symm.trans he.2
      simp only [openH, phaseH, if_neg hng]; exact ⟨ho, hp, hm' rfl⟩
    | ended m g' r =>
      have hng : g ≠ g' := fun x => by
        subst x
        rcases he.2.2 with ⟨h3, _⟩ | ⟨err, h3, _⟩ | ⟨w, h3, h4⟩
        · exact notPending h3
        · rcases h.2 with ⟨a, _⟩ | ⟨k, a, _⟩ <;> cases (hp.trans a).symm.trans h3
        · rcases h.2 with ⟨a, _⟩ | ⟨k, a, b⟩
          · cases (hp.trans a).symm.trans h3
          · cases (hp.trans a).symm.trans h3; cases (finished_tail b).symm.trans h4
      have hne : id ≠ m := fun x => by subst x; cases ho.symm.trans he.2.1; exact hng rfl
      simp only [openH, phaseH, if_neg hne, if_neg hng]; exact ⟨ho, hp, hm' (beq_false_of_ne hne)⟩
    | accepted c m r sf =>
      have hne : id ≠ m := fun x => by subst x; cases ho.symm.trans he.2.2.1
      exact ⟨ho, hp, hm' (beq_false_of_ne hne)⟩
    | removed m r =>
      have hne : id ≠ m := fun x => by subst x; cases ho.symm.trans he.2.1
      exact ⟨ho, hp, hm' (beq_false_of_ne hne)⟩
    | _ => exact ⟨ho, hp, hm' rfl⟩

/-- C89: while a StartFunc that has been called does not return, or a worker does not finish, the runner does not end, whatever
else happens; the id stays registered, and its attempt is the only one. -/
theorem C89_runner (hr : Reach p s) {pre mid : List Ev} (hh : s.tab.hist = mid ++ pre) {id : Name} {g : Nat}
    (h : RHungAt pre mid id g) :
    .exit ∉ s.tab.hist ∧ waitResult s = none ∧ (knownH s.tab.hist id).isSome = true ∧ openH s.tab.hist id = some g ∧
    ∀ e ∈ mid, rmoves id e = false := by
  have key := rhung_stays (p := p) (hh ▸ hr.tab.evOk) h
  rw [← hh] at key
  obtain ⟨x, hx, hid, -⟩ := (hr.tab.hinv.opn id g).1 key.1
  have hk : (s.tab.workers.get? id).isSome = true := (hr.tab.shape.known id).2 (List.mem_map.2 ⟨x, hx, hid⟩)
  have hx : .exit ∉ s.tab.hist := fun he => by
    rw [(hr.tab.shape.exited (hr.tab.hinv.exit.2 he)).2 id] at hk; cases hk
  refine ⟨hx, ?_, ?_, key.1, key.2.2⟩
  · cases hw : waitResult s with
    | none => rfl
    | some r => exact absurd (wait_exit hr hw) hx
  · rw [hr.tab.hinv.kn, Option.isSome_map]; exact hk

/-- The runner is killed while worker 10 does not finish. -/
example : Reach RDemo.prm (RDemo.after RDemo.prm (RDemo.opsUp ++ [.kill, .loopTop, .recvDying, .killAll [7], .killNext, .killNext])) ∧
    (RDemo.after RDemo.prm (RDemo.opsUp ++ [.kill, .loopTop, .recvDying, .killAll [7], .killNext, .killNext])).tab.hist =
      [.killW 7 10, .told 7, .shutdown, .kill] ++ (RDemo.after RDemo.prm RDemo.opsUp).tab.hist ∧
    openH (RDemo.after RDemo.prm RDemo.opsUp).tab.hist 7 = some 0 ∧
    phaseH (RDemo.after RDemo.prm RDemo.opsUp).tab.hist 0 = some (.running 10) ∧
    finishedH ([.killW 7 10, .told 7, .shutdown, .kill] ++ (RDemo.after RDemo.prm RDemo.opsUp).tab.hist) 10 = none :=
  ⟨RDemo.after_reach _ _, by decide +kernel, by decide +kernel, by decide +kernel, by decide +kernel⟩

end

end Verif.Props
