import Verif.Snapshot.Model
import Verif.Spec.AtEvery

/-!
# C98: Get, the end of the Start func, and the access log

dependency/engine.go:513-519 says of the fact that the snapshot expires after the worker has been started: "failing to
block them won't cause data races anyway". That is not so (`C98_race`): a call of Get that is in progress when the Start
func returns may write the access log while `runWorker` reads it. The rest says what is true instead.
-/

namespace Verif.Props.Snap
open Verif.Spec Verif.Snapshot
open Verif.Engine (Config rawAccess)

variable {cfg : Config} {sn : Verif.Engine.Snapshot} {s s' : State}

/-! ## The specification -/

/-- The call of Get that goroutine `t` is in. -/
def openH : List Ev → Nat → Option (Name × Option Nat)
  | [], _ => none
  | .call u res out :: h, t => if u = t then some (res, out) else openH h t
  | .answer u _ _ _ :: h, t => if u = t then none else openH h t
  | _ :: h, t => openH h t

/-- It was made after the snapshot had expired. -/
def lateH : List Ev → Nat → Bool
  | [], _ => false
  | .call u _ _ :: h, t => if u = t then decide (.expired ∈ h) else lateH h t
  | _ :: h, t => lateH h t

/-- The calls that have returned before the snapshot expired, with their results, in order. -/
def accessesH : List Ev → List Access
  | [] => []
  | .answer _ res out r :: h => if .expired ∈ h then accessesH h else accessesH h ++ [⟨res, out, r⟩]
  | _ :: h => accessesH h

/-- What Get answers about the tables: inputs that are not declared or have no worker are missing; a nil out parameter
asks for no more; otherwise the input's Output func decides, and there must be one. -/
def Answer (cfg : Config) (sn : Verif.Engine.Snapshot) (res : Name) (out : Option Nat) (r : Option Err) : Prop :=
  ((sn.workers.get? res).getD none = none → ∃ e, r = some e ∧ .missing ∈ e.tree) ∧
  ∀ w, sn.workers.get? res = some (some w) →
    (out = none → r = none) ∧
    ∀ o, out = some o →
      ((sn.outputs.get? res).getD none = none → ∃ e, r = some e ∧ .missing ∈ e.tree) ∧
      ∀ f, sn.outputs.get? res = some (some f) → r = cfg.outFn f w o

/-- A call made before the snapshot has expired is answered from the tables, or, if it has expired meanwhile, refused; one
made after that is refused. -/
def Answered (cfg : Config) (sn : Verif.Engine.Snapshot) : Ev → List Ev → Prop
  | .answer t res out r, h => openH h t = some (res, out) ∧
      ((r = some .expired ∧ .expired ∈ h) ∨ (lateH h t = false ∧ Answer cfg sn res out r))
  | _, _ => True

/-- The log is used only by calls made before the snapshot has expired. -/
def InTime : Ev → List Ev → Prop
  | .load t, h | .store t, h => openH h t ≠ none ∧ lateH h t = false
  | _, _ => True

/-- The Start func does not let calls of Get overlap, and has waited for them when it returns; the next is made after the
snapshot has expired. -/
def Orderly : Ev → List Ev → Prop
  | .call _ _ _, h => .expired ∈ h ∨ (.returned ∉ h ∧ ∀ u, openH h u = none)
  | .returned, h => ∀ u, openH h u = none
  | _, _ => True

/-- The log that is passed to the engine says exactly what has been asked for. -/
def Exact : Ev → List Ev → Prop
  | .started l, h | .stopped l, h => l = accessesH h
  | _, _ => True

/-! ## The invariant -/

/-- What is known of a goroutine from the history. -/
def CallOk (cfg : Config) (sn : Verif.Engine.Snapshot) (h : List Ev) (t : Nat) : Call → Prop
  | .idle => openH h t = none
  | .begun res out => openH h t = some (res, out)
  | .checked res out => openH h t = some (res, out) ∧ lateH h t = false
  | .accessed a | .loaded a _ =>
    openH h t = some (a.res, a.out) ∧ lateH h t = false ∧ a.err = rawAccess cfg sn a.res a.out

structure Inv (cfg : Config) (sn : Verif.Engine.Snapshot) (s : State) : Prop where
  calls : ∀ t, CallOk cfg sn s.hist t (s.calls t)
  exp : s.expired = true ↔ .expired ∈ s.hist
  before : s.pc = .delaying ∨ s.pc = .inStart → .returned ∉ s.hist
  ret : ∀ ok, s.pc = .returned ok → .returned ∈ s.hist
  after : .expired ∈ s.hist ↔ s.pc ≠ .delaying ∧ s.pc ≠ .inStart ∧ ∀ ok, s.pc ≠ .returned ok
  own : s.pc ≠ .inStart → s.calls 0 = .idle
  given : s.given = true → s.pc ≠ .delaying

theorem rawAccess_answer (res : Name) (out : Option Nat) : Answer cfg sn res out (rawAccess cfg sn res out) := by
  have hmiss : ∀ t, ∃ e, some (Err.wrap t .missing) = some e ∧ .missing ∈ e.tree := fun t => ⟨_, rfl, by simp [Err.tree]⟩
  unfold Answer rawAccess
  cases h1 : sn.workers.get? res with
  | none => exact ⟨fun _ => hmiss 1, fun w h => by cases h⟩
  | some w =>
    cases w with
    | none => exact ⟨fun _ => hmiss 2, fun w h => by cases h⟩
    | some w =>
      refine ⟨fun h => (by cases h), fun w' h => ?_⟩
      cases h
      refine ⟨fun h => by subst h; rfl, ?_⟩
      rintro o rfl
      cases h2 : (sn.outputs.get? res).getD none with
      | none =>
        refine ⟨fun _ => hmiss 3, fun f h => ?_⟩
        rw [h] at h2; cases h2
      | some f =>
        refine ⟨fun h => (by cases h), fun f' h => ?_⟩
        rw [h] at h2; cases h2; rfl

theorem inv_init : Inv cfg sn {} :=
  ⟨fun _ => rfl, by simp, by simp, by simp, by simp, by simp, by simp⟩

/-- The steps of Get. -/
theorem CallOk.congr {h h' : List Ev} {t : Nat} {c : Call} (h1 : openH h' t = openH h t) (h2 : lateH h' t = lateH h t)
    (hc : CallOk cfg sn h t c) : CallOk cfg sn h' t c := by
  cases c <;> simp only [CallOk] at hc ⊢ <;> simp_all

theorem inv_step (i : Inv cfg sn s) {op : Op} (h : step cfg sn s op = some s') : Inv cfg sn s' := by
  have hc := i.calls
  cases op with
  | timer =>
    simp only [step] at h
    split at h
    · rename_i hp
      simp only [Option.some.injEq] at h; subst h
      have hx : .expired ∉ s.hist := fun he => (i.after.1 he).1 hp
      refine ⟨fun t => (hc t).congr rfl rfl, ?_, ?_, ?_, ?_, ?_, ?_⟩
      · simp only [State.note, List.mem_cons, reduceCtorEq, false_or]; exact i.exp
      · intro _; simp only [State.note, List.mem_cons, reduceCtorEq, false_or]; exact i.before (Or.inl hp)
      · intro ok h; cases h
      · simp [State.note, hx]
      · intro h; exact absurd rfl h
      · intro _ h; cases h
    · cases h
  | abort =>
    simp only [step] at h
    split at h
    · rename_i hp
      simp only [Option.some.injEq] at h; subst h
      have hx : .expired ∉ s.hist := fun he => (i.after.1 he).1 hp
      refine ⟨fun t => (hc t).congr rfl rfl, ?_, ?_, ?_, ?_, ?_, ?_⟩
      · simp only [State.note, List.mem_cons, reduceCtorEq, false_or]; exact i.exp
      · intro h; rcases h with h | h <;> cases h
      · intro ok _; simp [State.note]
      · simp [State.note, hx]
      · intro _; exact i.own (by rw [hp]; nofun)
      · intro _ h; cases h
    · cases h
  | call t res out =>
    simp only [step] at h
    split at h
    · rename_i hp
      obtain ⟨hg, hi, h0⟩ := hp
      simp only [Option.some.injEq] at h; subst h
      refine ⟨fun u => ?_, ?_, ?_, ?_, ?_, ?_, ?_⟩
      · by_cases hu : u = t
        · subst hu; simp [State.note, State.setCall, CallOk, openH]
        · have hu' : ¬ t = u := fun h => hu h.symm
          simp only [State.note, State.setCall, if_neg hu]
          exact (hc u).congr (by simp [openH, hu']) (by simp [lateH, hu'])
      · simp only [State.note, State.setCall, List.mem_cons, reduceCtorEq, false_or]; exact i.exp
      · simp only [State.note, State.setCall, List.mem_cons, reduceCtorEq, false_or]; exact i.before
      · simp only [State.note, State.setCall, List.mem_cons, reduceCtorEq, false_or]; exact i.ret
      · simp only [State.note, State.setCall, List.mem_cons, reduceCtorEq, false_or]; exact i.after
      · intro hne
        simp only [State.note, State.setCall] at hne ⊢
        by_cases hu : 0 = t
        · exact absurd (h0 hu.symm) hne
        · rw [if_neg hu]; exact i.own hne
      · exact i.given
    · cases h
  | check t =>
    simp only [step] at h
    split at h
    · rename_i res out hb
      have hbt := hc t
      rw [hb] at hbt
      split at h
      · rename_i he
        simp only [Option.some.injEq] at h; subst h
        refine ⟨fun u => ?_, ?_, ?_, ?_, ?_, ?_, ?_⟩
        · by_cases hu : u = t
          · subst hu; simp [State.note, State.setCall, CallOk, openH]
          · have hu' : ¬ t = u := fun h => hu h.symm
            simp only [State.note, State.setCall, if_neg hu]
            exact (hc u).congr (by simp [openH, hu']) (by simp [lateH])
        · simp only [State.note, State.setCall, List.mem_cons, reduceCtorEq, false_or]; exact i.exp
        · simp only [State.note, State.setCall, List.mem_cons, reduceCtorEq, false_or]; exact i.before
        · simp only [State.note, State.setCall, List.mem_cons, reduceCtorEq, false_or]; exact i.ret
        · simp only [State.note, State.setCall, List.mem_cons, reduceCtorEq, false_or]; exact i.after
        · intro hne
          simp only [State.note, State.setCall] at hne ⊢
          split
          · rfl
          · exact i.own hne
        · exact i.given
      · rename_i he
        simp only [Option.some.injEq] at h; subst h
        have hx : .expired ∉ s.hist := fun h => he (i.exp.2 h)
        have hl : lateH s.hist t = false := by
          have key : ∀ h : List Ev, .expired ∉ h → lateH h t = false := by
            intro h
            induction h with
            | nil => intro _; rfl
            | cons e h ih =>
              intro hn
              have ih := ih (fun hm => hn (List.mem_cons_of_mem _ hm))
              cases e <;> simp only [lateH] <;> try exact ih
              split
              · simp only [decide_eq_false_iff_not]; exact fun hm => hn (List.mem_cons_of_mem _ hm)
              · exact ih
          exact key _ hx
        refine ⟨fun u => ?_, i.exp, i.before, i.ret, i.after, ?_, i.given⟩
        · by_cases hu : u = t
          · subst hu; simp only [State.setCall, if_true]; exact ⟨hbt, hl⟩
          · simp only [State.setCall, if_neg hu]; exact hc u
        · intro hne
          have h0 := i.own hne
          simp only [State.setCall]
          split
          · rename_i hu; rw [hu, hb] at h0; cases h0
          · exact h0
    · cases h
  | access t =>
    simp only [step] at h
    split at h
    · rename_i res out hb
      have hbt := hc t
      rw [hb] at hbt
      simp only [Option.some.injEq] at h; subst h
      refine ⟨fun u => ?_, i.exp, i.before, i.ret, i.after, ?_, i.given⟩
      · by_cases hu : u = t
        · subst hu; simp only [State.setCall, if_true]; exact ⟨hbt.1, hbt.2, rfl⟩
        · simp only [State.setCall, if_neg hu]; exact hc u
      · intro hne
        have h0 := i.own hne
        simp only [State.setCall]
        split
        · rename_i hu; rw [hu, hb] at h0; cases h0
        · exact h0
    · cases h
  | load t =>
    simp only [step] at h
    split at h
    · rename_i a hb
      have hbt := hc t
      rw [hb] at hbt
      simp only [Option.some.injEq] at h; subst h
      refine ⟨fun u => ?_, ?_, ?_, ?_, ?_, ?_, ?_⟩
      · by_cases hu : u = t
        · subst hu; simp only [State.note, State.setCall, if_true]; exact hbt
        · simp only [State.note, State.setCall, if_neg hu]; exact (hc u).congr rfl rfl
      · simp only [State.note, State.setCall, List.mem_cons, reduceCtorEq, false_or]; exact i.exp
      · simp only [State.note, State.setCall, List.mem_cons, reduceCtorEq, false_or]; exact i.before
      · simp only [State.note, State.setCall, List.mem_cons, reduceCtorEq, false_or]; exact i.ret
      · simp only [State.note, State.setCall, List.mem_cons, reduceCtorEq, false_or]; exact i.after
      · intro hne
        have h0 := i.own hne
        simp only [State.note, State.setCall]
        split
        · rename_i hu; rw [hu, hb] at h0; cases h0
        · exact h0
      · exact i.given
    · cases h
  | store t =>
    simp only [step] at h
    split at h
    · rename_i a old hb
      simp only [Option.some.injEq] at h; subst h
      refine ⟨fun u => ?_, ?_, ?_, ?_, ?_, ?_, ?_⟩
      · by_cases hu : u = t
        · subst hu; simp [State.note, State.setCall, CallOk, openH]
        · have hu' : ¬ t = u := fun h => hu h.symm
          simp only [State.note, State.setCall, if_neg hu]
          exact (hc u).congr (by simp [openH, hu']) (by simp [lateH])
      · simp only [State.note, State.setCall, List.mem_cons, reduceCtorEq, false_or]; exact i.exp
      · simp only [State.note, State.setCall, List.mem_cons, reduceCtorEq, false_or]; exact i.before
      · simp only [State.note, State.setCall, List.mem_cons, reduceCtorEq, false_or]; exact i.ret
      · simp only [State.note, State.setCall, List.mem_cons, reduceCtorEq, false_or]; exact i.after
      · intro hne
        simp only [State.note, State.setCall] at hne ⊢
        split
        · rfl
        · exact i.own hne
      · exact i.given
    · cases h
  | ret ok =>
    simp only [step] at h
    split at h
    · rename_i hp
      simp only [Option.some.injEq] at h; subst h
      have hx : .expired ∉ s.hist := fun he => (i.after.1 he).2.1 hp.1
      refine ⟨fun t => (hc t).congr rfl rfl, ?_, ?_, ?_, ?_, ?_, ?_⟩
      · simp only [State.note, List.mem_cons, reduceCtorEq, false_or]; exact i.exp
      · intro h; rcases h with h | h <;> cases h
      · intro ok _; simp [State.note]
      · simp [State.note, hx]
      · intro _; exact hp.2
      · intro _ h; cases h
    · cases h
  | expire =>
    simp only [step] at h
    split at h
    · rename_i ok hp
      simp only [Option.some.injEq] at h; subst h
      refine ⟨fun t => (hc t).congr rfl rfl, ?_, ?_, ?_, ?_, ?_, ?_⟩
      · simp [State.note]
      · intro h; rcases h with h | h <;> cases h
      · intro ok h; cases h
      · simp [State.note]
      · intro _; exact i.own (by rw [hp]; nofun)
      · intro _ h; cases h
    · cases h
  | log =>
    simp only [step] at h
    split at h
    · rename_i hp
      simp only [Option.some.injEq] at h; subst h
      have hx : .expired ∈ s.hist := i.after.2 (by rw [hp]; exact ⟨nofun, nofun, nofun⟩)
      refine ⟨fun t => (hc t).congr rfl rfl, ?_, ?_, ?_, ?_, ?_, ?_⟩
      · simp only [State.note, List.mem_cons, reduceCtorEq, false_or]; exact i.exp
      · intro h; rcases h with h | h <;> cases h
      · intro ok h; cases h
      · simp [State.note, hx]
      · intro _; exact i.own (by rw [hp]; nofun)
      · intro _ h; cases h
    · rename_i hp
      simp only [Option.some.injEq] at h; subst h
      have hx : .expired ∈ s.hist := i.after.2 (by rw [hp]; exact ⟨nofun, nofun, nofun⟩)
      refine ⟨fun t => (hc t).congr rfl rfl, ?_, ?_, ?_, ?_, ?_, ?_⟩
      · simp only [State.note, List.mem_cons, reduceCtorEq, false_or]; exact i.exp
      · intro h; rcases h with h | h <;> cases h
      · intro ok h; cases h
      · simp [State.note, hx]
      · intro _; exact i.own (by rw [hp]; nofun)
      · intro _ h; cases h
    · cases h
  | waitRet =>
    simp only [step] at h
    split at h
    · rename_i hp
      simp only [Option.some.injEq] at h; subst h
      have hx : .expired ∈ s.hist := i.after.2 (by rw [hp]; exact ⟨nofun, nofun, nofun⟩)
      refine ⟨hc, i.exp, ?_, ?_, ?_, ?_, ?_⟩
      · intro h; rcases h with h | h <;> cases h
      · intro ok h; cases h
      · simp [hx]
      · intro _; exact i.own (by rw [hp]; nofun)
      · intro _ h; cases h
    · cases h

theorem reach_inv (hr : Reach cfg sn s) : Inv cfg sn s := by
  induction hr with
  | init => exact inv_init
  | step op _ h ih => exact inv_step ih h

/-- A property of the events that every step keeps holds of every history. -/
theorem every {P : Ev → List Ev → Prop}
    (hP : ∀ {s s' : State} {op : Op}, Inv cfg sn s → step cfg sn s op = some s' →
      s'.hist = s.hist ∨ (∃ e, s'.hist = e :: s.hist ∧ P e s.hist) ∨
        ∃ e e', s'.hist = e' :: e :: s.hist ∧ P e s.hist ∧ P e' (e :: s.hist))
    (hr : Reach cfg sn s) : AtEvery P s.hist := by
  induction hr with
  | init => trivial
  | step op hr h ih =>
    rcases hP (reach_inv hr) h with e | ⟨e, h1, h2⟩ | ⟨e, e', h1, h2, h3⟩
    · rw [e]; exact ih
    · rw [h1]; exact ⟨h2, ih⟩
    · rw [h1]; exact ⟨h3, h2, ih⟩

/-! ## The theorems -/

/-- C98: what Get returns. -/
theorem C98_answers (hr : Reach cfg sn s) : AtEvery (Answered cfg sn) s.hist := by
  refine every (fun {s s'} {op} i h => ?_) hr
  have hc := i.calls
  cases op <;> simp only [step] at h
  case check t =>
    split at h
    · rename_i res out hb
      have hbt := hc t
      rw [hb] at hbt
      split at h <;> cases h
      · rename_i he
        exact Or.inr (Or.inl ⟨_, rfl, hbt, Or.inl ⟨rfl, i.exp.1 he⟩⟩)
      · exact Or.inl rfl
    · cases h
  case store t =>
    split at h
    · rename_i a old hb
      have hbt := hc t
      rw [hb] at hbt
      cases h
      exact Or.inr (Or.inr ⟨_, _, rfl, trivial, hbt.1, Or.inr ⟨hbt.2.1, by rw [hbt.2.2]; exact rawAccess_answer _ _⟩⟩)
    · cases h
  all_goals
    split at h <;> cases h <;> first | exact Or.inl rfl | exact Or.inr (Or.inl ⟨_, rfl, trivial⟩)

/-- C98: a call made after the snapshot has expired does not touch the log. -/
theorem C98_in_time (hr : Reach cfg sn s) : AtEvery InTime s.hist := by
  refine every (fun {s s'} {op} i h => ?_) hr
  have hc := i.calls
  cases op <;> simp only [step] at h
  case check t =>
    split at h
    · split at h <;> cases h
      · exact Or.inr (Or.inl ⟨_, rfl, trivial⟩)
      · exact Or.inl rfl
    · cases h
  case load t =>
    split at h
    · rename_i a hb
      have hbt := hc t
      rw [hb] at hbt
      cases h
      exact Or.inr (Or.inl ⟨_, rfl, by rw [hbt.1]; nofun, hbt.2.1⟩)
    · cases h
  case store t =>
    split at h
    · rename_i a old hb
      have hbt := hc t
      rw [hb] at hbt
      cases h
      exact Or.inr (Or.inr ⟨_, _, rfl, ⟨by rw [hbt.1]; nofun, hbt.2.1⟩, trivial⟩)
    · cases h
  all_goals
    split at h <;> cases h <;> first | exact Or.inl rfl | exact Or.inr (Or.inl ⟨_, rfl, trivial⟩)

/-- What orderly use of the Getter guarantees. -/
structure Ord (s : State) : Prop where
  one : .expired ∉ s.hist → ∀ t u, openH s.hist t ≠ none → openH s.hist u ≠ none → t = u
  nobody : .expired ∉ s.hist → .returned ∈ s.hist → ∀ t, openH s.hist t = none
  late : .expired ∈ s.hist → ∀ t, openH s.hist t ≠ none → lateH s.hist t = true
  old : ∀ t a old, s.calls t = .loaded a old → old = s.log
  log : s.log = accessesH s.hist

theorem ord_init : Ord {} := by
  refine ⟨fun _ t u h => absurd rfl h, fun _ h => (by cases h), fun h => (by cases h), fun t a old h => (by cases h), rfl⟩

theorem Ord.congr (o : Ord s) {e : Ev} (h1 : ∀ t, openH s'.hist t = openH s.hist t) (h2 : ∀ t, lateH s'.hist t = lateH s.hist t)
    (h3 : s'.hist = e :: s.hist) (h4 : e ≠ .expired) (h5 : e = .returned → ∀ t, openH s.hist t = none)
    (h6 : ∀ t a old, s'.calls t = .loaded a old → old = s'.log) (h7 : s'.log = s.log)
    (h8 : accessesH s'.hist = accessesH s.hist) : Ord s' := by
  have hx : .expired ∈ s'.hist ↔ .expired ∈ s.hist := by
    rw [h3, List.mem_cons]; exact ⟨fun h => h.resolve_left (fun h => h4 h.symm), Or.inr⟩
  refine ⟨?_, ?_, ?_, h6, by rw [h7, h8]; exact o.log⟩
  · intro hn t u; rw [h1, h1]; exact o.one (fun h => hn (hx.2 h)) t u
  · intro hn hr t
    rw [h1]
    rw [h3, List.mem_cons] at hr
    rcases hr with hr | hr
    · exact h5 hr.symm t
    · exact o.nobody (fun h => hn (hx.2 h)) hr t
  · intro hn t; rw [h1, h2]; exact o.late (hx.1 hn) t

theorem ord_step (i : Inv cfg sn s) (o : Ord s) {op : Op} (h : step cfg sn s op = some s') (ho : AtEvery Orderly s'.hist) :
    Ord s' := by
  have hc := i.calls
  cases op with
  | timer =>
    simp only [step] at h
    split at h <;> cases h
    exact o.congr (fun _ => rfl) (fun _ => rfl) rfl nofun nofun o.old rfl rfl
  | abort =>
    simp only [step] at h
    split at h <;> cases h
    exact o.congr (fun _ => rfl) (fun _ => rfl) rfl nofun (fun _ => ho.1) o.old rfl rfl
  | ret ok =>
    simp only [step] at h
    split at h <;> cases h
    exact o.congr (fun _ => rfl) (fun _ => rfl) rfl nofun (fun _ => ho.1) o.old rfl rfl
  | log =>
    simp only [step] at h
    split at h <;> cases h
    · exact o.congr (fun _ => rfl) (fun _ => rfl) rfl nofun nofun o.old rfl rfl
    · exact o.congr (fun _ => rfl) (fun _ => rfl) rfl nofun nofun o.old rfl rfl
  | waitRet =>
    simp only [step] at h
    split at h <;> cases h
    exact ⟨o.one, o.nobody, o.late, o.old, o.log⟩
  | call t res out =>
    simp only [step] at h
    split at h <;> cases h
    have ho1 : .expired ∈ s.hist ∨ (.returned ∉ s.hist ∧ ∀ u, openH s.hist u = none) := ho.1
    have hx : .expired ∈ Ev.call t res out :: s.hist ↔ .expired ∈ s.hist := by simp
    refine ⟨?_, ?_, ?_, ?_, o.log⟩
    · intro hn a b ha hb
      simp only [State.note, State.setCall] at hn ha hb
      rcases ho1 with h | ⟨_, h⟩
      · exact absurd (hx.2 h) hn
      · simp only [openH] at ha hb
        split at ha
        · rename_i h1
          split at hb
          · rename_i h2; rw [← h1, ← h2]
          · exact absurd (h b) hb
        · exact absurd (h a) ha
    · intro hn hr a
      simp only [State.note, State.setCall] at hn hr
      rcases ho1 with h | ⟨h, _⟩
      · exact absurd (hx.2 h) hn
      · simp only [List.mem_cons, reduceCtorEq, false_or] at hr; exact absurd hr h
    · intro hn a ha
      simp only [State.note, State.setCall] at hn ha ⊢
      simp only [openH] at ha
      simp only [lateH]
      split
      · simpa using hn
      · rename_i hne
        rw [if_neg hne] at ha
        exact o.late (hx.1 hn) a ha
    · intro u a old hu
      simp only [State.note, State.setCall] at hu
      split at hu
      · cases hu
      · exact o.old u a old hu
  | check t =>
    simp only [step] at h
    split at h
    case h_2 => cases h
    rename_i res out hb
    split at h <;> cases h
    · rename_i he
      have hx : .expired ∈ s.hist := i.exp.1 he
      refine ⟨?_, ?_, ?_, ?_, ?_⟩
      · intro hn; exact absurd (List.mem_cons_of_mem _ hx) hn
      · intro hn; exact absurd (List.mem_cons_of_mem _ hx) hn
      · intro hn a ha
        simp only [State.note, State.setCall] at ha ⊢
        simp only [openH] at ha
        split at ha
        · exact absurd rfl ha
        · exact o.late hx a ha
      · intro u a old hu
        simp only [State.note, State.setCall] at hu
        split at hu
        · cases hu
        · exact o.old u a old hu
      · show s.log = accessesH (_ :: s.hist)
        simp only [accessesH]
        rw [if_pos hx]; exact o.log
    · refine ⟨o.one, o.nobody, o.late, ?_, o.log⟩
      intro u a old hu
      simp only [State.setCall] at hu
      split at hu
      · cases hu
      · exact o.old u a old hu
  | access t =>
    simp only [step] at h
    split at h <;> cases h
    refine ⟨o.one, o.nobody, o.late, ?_, o.log⟩
    intro u a old hu
    simp only [State.setCall] at hu
    split at hu
    · cases hu
    · exact o.old u a old hu
  | load t =>
    simp only [step] at h
    split at h <;> cases h
    refine o.congr (fun _ => rfl) (fun _ => rfl) rfl nofun nofun ?_ rfl rfl
    intro u a old hu
    simp only [State.note, State.setCall] at hu
    split at hu
    · cases hu; rfl
    · exact o.old u a old hu
  | store t =>
    simp only [step] at h
    split at h
    case h_2 => cases h
    rename_i a old hb
    have hbt := hc t
    rw [hb] at hbt
    cases h
    have hot : openH s.hist t ≠ none := by rw [hbt.1]; nofun
    have hx : .expired ∉ s.hist := fun h => by
      have := o.late h t hot
      rw [hbt.2.1] at this; cases this
    have hx' : .expired ∉ Ev.answer t a.res a.out a.err :: .store t :: s.hist := by simpa using hx
    have hn : ∀ u, openH (Ev.answer t a.res a.out a.err :: .store t :: s.hist) u = none := by
      intro u
      simp only [openH]
      split
      · rfl
      · rename_i hne
        cases hu : openH s.hist u with
        | none => rfl
        | some c => exact absurd (o.one hx t u hot (by rw [hu]; nofun)) hne
    refine ⟨fun _ b c hb' => absurd (hn b) hb', fun _ _ => hn, fun h => absurd h hx', ?_, ?_⟩
    · intro u a' old' hu
      simp only [State.note, State.setCall] at hu
      split at hu
      · cases hu
      · rename_i hne
        have hcu := hc u
        rw [hu] at hcu
        exact absurd (o.one hx u t (by rw [hcu.1]; nofun) hot) hne
    · show old ++ [a] = accessesH (_ :: _ :: s.hist)
      simp only [accessesH]
      rw [if_neg (by simpa using hx), o.old t a old hb, o.log]
  | expire =>
    simp only [step] at h
    split at h
    case h_2 => cases h
    rename_i ok hp
    cases h
    have hx : .expired ∉ s.hist := fun h => (i.after.1 h).2.2 ok hp
    refine ⟨?_, ?_, ?_, o.old, o.log⟩
    · intro hn; exact absurd List.mem_cons_self hn
    · intro hn; exact absurd List.mem_cons_self hn
    · intro _ t ht
      exact absurd (o.nobody hx (i.ret ok hp) t) ht

theorem hist_cons {op : Op} (h : step cfg sn s op = some s') : ∃ d, s'.hist = d ++ s.hist := by
  cases op <;> simp only [step] at h
  case check t =>
    split at h
    · split at h <;> cases h
      · exact ⟨[_], rfl⟩
      · exact ⟨[], rfl⟩
    · cases h
  all_goals
    split at h <;> cases h <;> first | exact ⟨[], rfl⟩ | exact ⟨[_], rfl⟩ | exact ⟨[_, _], rfl⟩

theorem atEvery_tail {P : Ev → List Ev → Prop} : ∀ {d h : List Ev}, AtEvery P (d ++ h) → AtEvery P h := by
  intro d
  induction d with
  | nil => exact fun h => h
  | cons _ _ ih => exact fun h => ih h.2

theorem reach_ord (hr : Reach cfg sn s) (ho : AtEvery Orderly s.hist) : Ord s := by
  induction hr with
  | init => exact ord_init
  | step op hr h ih =>
    obtain ⟨d, hd⟩ := hist_cons h
    exact ord_step (reach_inv hr) (ih (by rw [hd] at ho; exact atEvery_tail ho)) h ho

/-- C98: if the Start func does not let calls of Get overlap and has waited for them when it returns, nothing races. -/
theorem C98_no_race (hr : Reach cfg sn s) (ho : AtEvery Orderly s.hist) : ¬ Racy s := by
  have i := reach_inv hr
  have o := reach_ord hr ho
  rintro ⟨t, u, hne, h1, h2⟩
  have ht : openH s.hist t ≠ none ∧ lateH s.hist t = false := by
    have hct := i.calls t
    unfold State.next at h1
    split at h1
    · cases h1
    · rename_i a old hb; rw [hb] at hct; exact ⟨by rw [hct.1]; nofun, hct.2.1⟩
    · split at h1
      · split at h1 <;> cases h1
      · cases h1
  have hx : .expired ∉ s.hist := fun h => by
    have := o.late h t ht.1
    rw [ht.2] at this; cases this
  have hcu := i.calls u
  unfold State.next at h2
  split at h2
  · rename_i a hb; rw [hb] at hcu; exact hne (o.one hx t u ht.1 (by rw [hcu.1]; nofun))
  · rename_i a old hb; rw [hb] at hcu; exact hne (o.one hx t u ht.1 (by rw [hcu.1]; nofun))
  · split at h2
    · split at h2
      · rename_i hp
        exact hx (i.after.2 (by rw [hp]; exact ⟨nofun, nofun, nofun⟩))
      · exact h2 rfl
    · exact h2 rfl

/-- C98: in that case the log that is passed to the engine with each ticket says exactly what has been asked for. -/
theorem C98_log_exact (hr : Reach cfg sn s) (ho : AtEvery Orderly s.hist) : AtEvery Exact s.hist := by
  induction hr with
  | init => trivial
  | @step s1 s2 op hr h ih =>
    obtain ⟨d, hd⟩ := hist_cons h
    have ho1 : AtEvery Orderly s1.hist := by rw [hd] at ho; exact atEvery_tail ho
    have ih := ih ho1
    have o := reach_ord hr ho1
    clear hd
    cases op <;> simp only [step] at h
    case check t =>
      split at h
      · split at h <;> cases h
        · exact ⟨trivial, ih⟩
        · exact ih
      · cases h
    case log =>
      split at h <;> cases h
      · exact ⟨o.log, ih⟩
      · exact ⟨o.log, ih⟩
    all_goals
      split at h <;> cases h <;> first | exact ih | exact ⟨trivial, ih⟩ | exact ⟨trivial, trivial, ih⟩

/-- C98: that is so in particular if Get is called only by the goroutine that runs the Start func. -/
theorem C98_start_only (hr : Reach cfg sn s) (h0 : ∀ t res out, .call t res out ∈ s.hist → t = 0) :
    AtEvery Orderly s.hist := by
  have only : ∀ {h : List Ev}, (∀ t res out, .call t res out ∈ h → t = 0) → ∀ u, u ≠ 0 → openH h u = none := by
    intro h
    induction h with
    | nil => intro _ u _; rfl
    | cons e h ih =>
      intro hh u hu
      have ih := ih (fun t res out hm => hh t res out (List.mem_cons_of_mem _ hm)) u hu
      cases e <;> simp only [openH] <;> try exact ih
      · rename_i t res out
        have := hh t res out List.mem_cons_self
        subst this
        rw [if_neg (fun h => hu h.symm)]; exact ih
      · split
        · rfl
        · exact ih
  induction hr with
  | init => trivial
  | @step s1 s2 op hr h ih =>
    obtain ⟨d, hd⟩ := hist_cons h
    have h01 : ∀ t res out, .call t res out ∈ s1.hist → t = 0 := fun t res out hm =>
      h0 t res out (by rw [hd]; exact List.mem_append_right _ hm)
    have ih := ih h01
    have i := reach_inv hr
    have none' : s1.calls 0 = .idle → ∀ u, openH s1.hist u = none := by
      intro hi u
      by_cases hu : u = 0
      · have := i.calls 0; rw [hi] at this; rw [hu]; exact this
      · exact only h01 u hu
    clear hd
    cases op <;> simp only [step] at h
    case check t =>
      split at h
      · split at h <;> cases h
        · exact ⟨trivial, ih⟩
        · exact ih
      · cases h
    case call t res out =>
      split at h <;> cases h
      rename_i hc
      have ht : t = 0 := h0 t res out List.mem_cons_self
      subst ht
      exact ⟨Or.inr ⟨i.before (Or.inr (hc.2.2 rfl)), none' hc.2.1⟩, ih⟩
    case abort =>
      split at h <;> cases h
      rename_i hc
      exact ⟨none' (i.own (by rw [hc]; nofun)), ih⟩
    case ret ok =>
      split at h <;> cases h
      rename_i hc
      exact ⟨none' hc.2, ih⟩
    all_goals
      split at h <;> cases h <;> first | exact ih | exact ⟨trivial, ih⟩ | exact ⟨trivial, trivial, ih⟩

/-! ## Executions -/

namespace Demo

def run (cfg : Config) (sn : Verif.Engine.Snapshot) : State → List Op → Option State
  | s, [] => some s
  | s, op :: ops => match step cfg sn s op with
    | some s' => run cfg sn s' ops
    | none => none

theorem run_reach : ∀ (ops : List Op) {s s' : State}, Reach cfg sn s → run cfg sn s ops = some s' → Reach cfg sn s' := by
  intro ops
  induction ops with
  | nil => intro s s' hr h; simp only [run, Option.some.injEq] at h; exact h ▸ hr
  | cons op ops ih =>
    intro s s' hr h
    simp only [run] at h
    split at h
    · rename_i s1 h1; exact ih (hr.step op h1) h
    · cases h

def after (cfg : Config) (sn : Verif.Engine.Snapshot) (ops : List Op) : State := (run cfg sn {} ops).getD {}

theorem after_reach (cfg : Config) (sn : Verif.Engine.Snapshot) (ops : List Op) : Reach cfg sn (after cfg sn ops) := by
  unfold after
  cases h : run cfg sn {} ops with
  | none => exact .init
  | some f => exact run_reach ops .init h

def dcfg : Config := { isFatal := fun _ => false, worstError := fun a _ => a, outFn := fun _ _ o => if o = 7 then some (.user 9) else none }

/-- Input 0 has a worker and an Output func, input 1 has no worker. -/
def dsn : Verif.Engine.Snapshot := ⟨⟨[(0, some (.obj 10)), (1, none)]⟩, ⟨[(0, some 3), (1, none)]⟩⟩

def get (t : Nat) (res : Name) (out : Option Nat) : List Op := [.call t res out, .check t, .access t, .load t, .store t]

/-- The Start func asks for four things and returns a worker, which then asks again. -/
def opsPlain : List Op := [.timer] ++ get 0 0 none ++ get 0 0 (some 7) ++ get 0 1 none ++ get 0 5 (some 1) ++
  [.ret true, .expire, .call 1 0 none, .log, .check 1, .waitRet, .log]

def opsTurns : List Op := [.timer] ++ get 0 0 none ++ get 3 0 none ++ [.ret true, .expire, .call 5 0 none, .log]

def opsOwn : List Op := [.timer] ++ get 0 0 none ++ [.ret true, .expire, .log, .waitRet, .log]

/-- The worker's goroutine is in Get when the Start func returns. -/
def opsRace : List Op := [.timer] ++ get 0 0 none ++ [.call 1 0 (some 2), .ret true, .check 1, .expire, .access 1, .load 1]

/-- Two goroutines call Get at the same time, and the Start func waits for them. -/
def opsLost : List Op := [.timer, .call 1 0 none, .call 2 1 none, .check 1, .check 2, .access 1, .access 2, .load 1, .load 2,
  .store 1, .store 2, .ret true, .expire, .log]

end Demo

example : (Demo.run Demo.dcfg Demo.dsn {} Demo.opsPlain).isSome = true ∧
    (Demo.after Demo.dcfg Demo.dsn Demo.opsPlain).hist.filter (fun e => match e with | .answer .. => true | _ => false) =
      [.answer 1 0 none (some .expired), .answer 0 5 (some 1) (some (.wrap 1 .missing)), .answer 0 1 none (some (.wrap 2 .missing)),
        .answer 0 0 (some 7) (some (.user 9)), .answer 0 0 none none] := by decide +kernel

example : (Demo.after Demo.dcfg Demo.dsn Demo.opsPlain).hist.head? = some (.stopped
    [⟨0, none, none⟩, ⟨0, some 7, some (.user 9)⟩, ⟨1, none, some (.wrap 2 .missing)⟩, ⟨5, some 1, some (.wrap 1 .missing)⟩]) := by
  decide +kernel

/-- The hypothesis of `C98_no_race` and `C98_log_exact`, for two goroutines that take turns in the Start func and one that
calls Get after the snapshot has expired. -/
example : AtEvery Orderly (Demo.after Demo.dcfg Demo.dsn Demo.opsTurns).hist ∧
    (Demo.after Demo.dcfg Demo.dsn Demo.opsTurns).hist.head? = some (.started [⟨0, none, none⟩, ⟨0, none, none⟩]) := by
  refine ⟨?_, by decide +kernel⟩
  have e : (Demo.after Demo.dcfg Demo.dsn Demo.opsTurns).hist = [.started [⟨0, none, none⟩, ⟨0, none, none⟩], .call 5 0 none, .expired,
    .returned, .answer 3 0 none none, .store 3, .load 3, .call 3 0 none,
    .answer 0 0 none none, .store 0, .load 0, .call 0 0 none, .start] := by decide +kernel
  rw [e]
  have h3 : ∀ u, openH [.answer 3 0 none none, .store 3, .load 3, .call 3 0 none,
      .answer 0 0 none none, .store 0, .load 0, .call 0 0 none, .start] u = none := by
    intro u
    by_cases h0 : 0 = u <;> by_cases h1 : 3 = u <;> simp [openH, h0, h1]
  have h0 : ∀ u, openH [.answer 0 0 none none, .store 0, .load 0, .call 0 0 none, .start] u = none := by
    intro u
    by_cases h0 : 0 = u <;> simp [openH, h0]
  exact ⟨trivial, Or.inl (by decide), trivial, h3, trivial, trivial, trivial, Or.inr ⟨by decide, h0⟩, trivial, trivial, trivial,
    Or.inr ⟨by decide, fun _ => rfl⟩, trivial, trivial⟩

/-- The hypothesis of `C98_start_only`. -/
example : ∃ s, Reach Demo.dcfg Demo.dsn s ∧ (∀ t res out, Ev.call t res out ∈ s.hist → t = 0) ∧ s.hist.length = 9 := by
  refine ⟨_, Demo.after_reach _ _ Demo.opsOwn, ?_, by decide +kernel⟩
  have e : (Demo.after Demo.dcfg Demo.dsn Demo.opsOwn).hist = [.stopped [⟨0, none, none⟩], .started [⟨0, none, none⟩], .expired,
    .returned, .answer 0 0 none none, .store 0, .load 0, .call 0 0 none, .start] := by decide +kernel
  rw [e]
  intro t res out h
  simp at h
  exact h.1

/-- C98, what the comment says is not so: the log may be written while it is read for a ticket, by a call of Get that was
made before the Start func returned. -/
theorem C98_race : ∃ (cfg : Config) (sn : Verif.Engine.Snapshot) (s : State), Reach cfg sn s ∧ Racy s ∧
    s.pc = .logging true ∧ ∃ t, t ≠ 0 ∧ s.next t = some true :=
  ⟨Demo.dcfg, Demo.dsn, _, Demo.after_reach _ _ Demo.opsRace, ⟨1, 0, by decide, by decide +kernel, by decide +kernel⟩,
    by decide +kernel, 1, by decide, by decide +kernel⟩

/-- C98: and if calls of Get overlap, the log may not tell of all of them, though the Start func has waited for them. -/
theorem C98_lost : ∃ (cfg : Config) (sn : Verif.Engine.Snapshot) (s : State) (l : List Access) (h : List Ev), Reach cfg sn s ∧
    s.hist = .started l :: h ∧ (accessesH h).length = 2 ∧ l.length = 1 ∧
    ∀ t, openH h t = none := by
  refine ⟨Demo.dcfg, Demo.dsn, _, [⟨1, none, some (.wrap 2 .missing)⟩], _, Demo.after_reach _ _ Demo.opsLost,
    (show _ = Ev.started _ :: (Demo.after Demo.dcfg Demo.dsn Demo.opsLost).hist.tail by decide +kernel), by decide +kernel, rfl, ?_⟩
  intro t
  have e : (Demo.after Demo.dcfg Demo.dsn Demo.opsLost).hist.tail = [.expired, .returned, .answer 2 1 none (some (.wrap 2 .missing)),
    .store 2, .answer 1 0 none none, .store 1, .load 2, .load 1, .call 2 1 none, .call 1 0 none, .start] := by decide +kernel
  rw [e]
  by_cases h1 : 1 = t
  · simp [openH, h1]
  · by_cases h2 : 2 = t
    · simp [openH, h2]
    · simp [openH, h1, h2]

end Verif.Props.Snap
