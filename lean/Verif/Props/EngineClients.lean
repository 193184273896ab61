import Verif.Engine.ClientsLive
import Verif.Props.EngineFine

/-!
# C100: calls on an engine
-/

namespace Verif.Props
open Verif.Engine Verif.Spec

namespace ClDemo

/-- Run a list of operations; `none` if one is not enabled. -/
def run (cfg : Config) : Clients → List COp → Option Clients
  | s, [] => some s
  | s, op :: ops => match cstep cfg s op with
    | some s' => run cfg s' ops
    | none => none

theorem run_reach {cfg : Config} : ∀ (ops : List COp) {s s' : Clients}, CReach cfg s → run cfg s ops = some s' →
    CReach cfg s' := by
  intro ops
  induction ops with
  | nil => intro s s' hr h; simp only [run, Option.some.injEq] at h; exact h ▸ hr
  | cons op ops ih =>
    intro s s' hr h
    simp only [run] at h
    split at h
    · rename_i s1 h1; exact ih (hr.step op h1) h
    · cases h

/-- The state after the operations, if they are enabled. -/
def after (cfg : Config) (ops : List COp) : Clients := (run cfg {} ops).getD {}

theorem after_reach (cfg : Config) (ops : List COp) : CReach cfg (after cfg ops) := by
  unfold after
  cases h : run cfg {} ops with
  | none => exact .init
  | some s => exact run_reach ops .init h

/-- Two clients install the same manifold, a third asks for a report and a fourth waits. The first Install is served; the report is
asked for while the loop has the ticket in its hands. -/
def opsTwo : List COp :=
  [ .call .wait, .call (.install 0 {}), .call (.install 0 {}), .take 2 [0], .call .report, .work, .reply, .work,
    .take 3 [], .other (.env (.gTimer 0 0)), .work ]

/-- The report is handed over; the engine is killed; the second Install is refused by the loop, a third one finds the engine dying,
and the attempt is told to stop, ends, and the loop returns. -/
def opsEnd : List COp := opsTwo ++
  [ .reply, .work, .other (.env .kill), .take 1 [0], .call (.install 1 {}), .refuse 4, .reply, .work, .call .report,
    .other (.env (.gStartErr 0 (.user 1))), .other (.stopped 0 3 Demo.noVals), .work, .work, .atEnd 0, .atEnd 5 ]

end ClDemo

section
variable {cfg : Config} {s : Clients}

/-- C100: an engine with its clients is an engine: what clients do makes nothing possible that was not, and the engine's part of the
log is its history. -/
theorem C100_engine (hr : CReach cfg s) : FReach cfg s.f ∧ engOf s.log = s.f.s.hist :=
  let i := creach_inv hr; ⟨i.reach, i.hist⟩

/-- C100: and nothing is made impossible: every execution of the engine is one with clients. -/
theorem C100_contains {f : Fine} (hr : FReach cfg f) : ∃ s, CReach cfg s ∧ s.f = f := by
  induction hr with
  | init => exact ⟨{}, .init, rfl⟩
  | @step f f' op _ h ih =>
    obtain ⟨s, hs, rfl⟩ := ih
    have new : ∀ q, (s.calls ++ [Call.mk q .asking])[s.calls.length]? = some ⟨q, .asking⟩ := fun q => by simp
    have asked : ∀ q, CReach cfg { s with calls := s.calls ++ [⟨q, .asking⟩], log := .call s.calls.length q :: s.log } :=
      fun q => hs.step (.call q) rfl
    by_cases ho : op.ofCall = false
    · exact ⟨s.move f', hs.step (.other op) (by simp only [cstep, ho, Bool.false_eq_true, if_false, h, Option.map_some]), rfl⟩
    cases op with
    | dying | started | stopped => exact absurd rfl ho
    | work =>
      have go : ∀ s1, CReach cfg s1 → s1.f = s.f → s1.handing = none → ∃ s, CReach cfg s ∧ s.f = f' := by
        intro s1 h1 h2 h3
        refine ⟨{ s1.move f' with serving := s1.noted }, h1.step .work ?_, rfl⟩
        simp only [cstep, h3, Option.isSome_none, Bool.false_eq_true, if_false, h2, h, Option.map_some]
      cases hh : s.handing with
      | none => exact go s hs rfl hh
      | some x =>
        exact go ({ s with serving := none }.answer x.1 x.2) (hs.step .reply (by simp only [cstep, hh, Option.map_some])) rfl rfl
    | report =>
      exact ⟨{ ({ s with calls := s.calls ++ [Call.mk .report .asking], log := .call s.calls.length .report :: s.log }.move f').setPc
          s.calls.length .served with serving := some (s.calls.length, none) },
        (asked .report).step (.take s.calls.length []) (by simp only [cstep, new, h, Option.map_some]), rfl⟩
    | install n m order =>
      exact ⟨{ ({ s with calls := s.calls ++ [Call.mk (.install n m) .asking], log := .call s.calls.length (.install n m) :: s.log }.move
          f').setPc s.calls.length .served with serving := some (s.calls.length, some (installAnswer s.f.s n m order)) },
        (asked (.install n m)).step (.take s.calls.length order) (by simp only [cstep, new, h, Option.map_some]), rfl⟩
    | env op =>
      cases op with
      | installRefused n =>
        exact ⟨({ s with calls := s.calls ++ [Call.mk (.install n {}) .asking], log := .call s.calls.length (.install n {}) :: s.log }.move
            f').answer s.calls.length (.err .shuttingDown),
          (asked (.install n {})).step (.refuse s.calls.length) (by simp only [cstep, new, h, Option.map_some]), rfl⟩
      | _ => exact absurd rfl ho

/-- C100: what the log looks like. A call returns at most once and after it has begun. What Install and Report return was true at a
moment after the call began: the loop gives each of its answers to a call that is open and asks for it, and that call returns
it; before it has, the loop does nothing but begin the attempt of the manifold just installed, and gives no other
answer. Install returns nil only when the manifold has been installed and its first attempt begun, or the engine is dying; it returns
that the engine is shutting down only when that is so. Report falls back on the final report, and Wait returns, only when the loop
has returned, with the filtered worst error. -/
theorem C100_log (hr : CReach cfg s) : AtEvery (LogOk cfg) s.log := (creach_inv hr).good

example : CReach Demo.cfg (ClDemo.after Demo.cfg ClDemo.opsEnd) ∧
    (ClDemo.after Demo.cfg ClDemo.opsEnd).log.filterMap (fun | .ret c r => some (c, r) | _ => none) =
      [(5, .stopped none [⟨0, .stopped, [], 0, some (.user 1), none, false⟩]), (0, .waited none), (1, .err (.alreadyInstalled 0)),
       (4, .err .shuttingDown), (3, .live false none [⟨0, .starting, [], 0, none, none, false⟩]), (2, .ok)] :=
  ⟨ClDemo.after_reach _ _, by decide +kernel⟩

/-- C100: as many manifolds have been installed as Install calls have returned nil, as many Installs have failed in the loop as have
returned that failure, and as many reports have been made as have been returned, but for one that is being handed over. -/
theorem C100_paired (hr : CReach cfg s) (κ : Nat) : givenH κ s.log = gotH κ s.log + underwayH κ s.log := by
  have h := C100_log hr
  generalize s.log = l at h
  clear hr
  induction l with
  | nil => rfl
  | cons e l ih =>
    have ih := ih h.2
    have he := h.1
    unfold givenH gotH underwayH at *
    cases e with
    | call c q => simpa [pendingH] using ih
    | eng e =>
      rw [List.countP_cons, List.countP_cons]
      by_cases hl : loopAnswer e = true
      · have hn : pendingH l = none := by
          cases hp : pendingH l with
          | none => rfl
          | some p => have := (he.2 p.1 p.2.1 p.2.2 hp).1; rw [hl] at this; cases this
        rw [hn] at ih
        simp only [pendingH, hl, if_true]
        by_cases hk : evKind e = some κ <;> simp [hk, ih]
      · have hk : evKind e = none := by
          cases e <;> first | rfl | (exact absurd rfl hl) | skip
          rename_i n e
          simp only [loopAnswer, decide_eq_true_eq] at hl
          simp [evKind, Classical.not_not.1 hl]
        simp only [pendingH, hl, if_false, hk]
        cases hp : pendingH l with
        | none => rw [hp] at ih; simpa using ih
        | some p => rw [hp] at ih; simpa using ih
    | ret c r =>
      rw [List.countP_cons, List.countP_cons]
      obtain ⟨q, _, hret⟩ := he
      by_cases hb : byLoop r = true
      · obtain ⟨x, a, y, hp, _, hrt, _⟩ : ∃ x a y, pendingH l = some (x, a, y) ∧ .call c q ∈ y ∧ Right cfg y q a r ∧ Seen l x a := by
          unfold Returns at hret
          split at hret
          · cases hb
          · cases hb
          · cases hb
          · exact hret
        have hk : evKind a = resKind r := by
          cases q <;> cases a <;> cases r <;> first | rfl | exact hrt.elim | skip
          obtain ⟨_, rfl, _⟩ := hrt
          rfl
        simp only [pendingH, hb, if_true, hp, hk] at ih ⊢
        by_cases hr : resKind r = some κ <;> simp [hr] at ih ⊢ <;> exact ih
      · have hk : resKind r = none := by
          cases r <;> first | rfl | (exact absurd rfl hb) | skip
          rename_i e
          simp only [byLoop, decide_eq_true_eq] at hb
          simp [resKind, Classical.not_not.1 hb]
        simp only [pendingH, hb, hk]
        simpa using ih

example : (ClDemo.after Demo.cfg ClDemo.opsTwo).log.length = 9 ∧ givenH 2 (ClDemo.after Demo.cfg ClDemo.opsTwo).log = 1 ∧
    gotH 2 (ClDemo.after Demo.cfg ClDemo.opsTwo).log = 0 ∧ underwayH 2 (ClDemo.after Demo.cfg ClDemo.opsTwo).log = 1 ∧
    gotH 0 (ClDemo.after Demo.cfg ClDemo.opsTwo).log = 1 := by decide +kernel

/-- C100: a call returns at most once. -/
theorem C100_once (hr : CReach cfg s) (c : Nat) : returnsH c s.log ≤ 1 := by
  have h := C100_log hr
  generalize s.log = l at h
  clear hr
  have zero : ∀ l : List CEv, (∀ r, .ret c r ∉ l) → returnsH c l = 0 := by
    intro l hl
    unfold returnsH
    rw [List.countP_eq_zero]
    intro x hx
    cases x with
    | ret d r =>
      intro e
      have e : d = c := by simpa using e
      subst e
      exact hl r hx
    | _ => simp
  induction l with
  | nil => exact Nat.zero_le _
  | cons e l ih =>
    have ih := ih h.2
    have he := h.1
    cases e with
    | call d q => unfold returnsH at *; rw [List.countP_cons]; simpa using ih
    | eng e => unfold returnsH at *; rw [List.countP_cons]; simpa using ih
    | ret d r =>
      by_cases hd : d = c
      · subst hd
        obtain ⟨q, ⟨_, h2⟩, _⟩ := he
        have := zero l h2
        unfold returnsH at *
        rw [List.countP_cons, this]
        simp
      · unfold returnsH at *
        rw [List.countP_cons]
        simpa [hd] using ih

/-- C100: while an Install or Report call has not returned, something can be done about it without any user code: the loop can go
on with its work, hand a result over or receive the ticket, or the call can find the engine dying or dead. -/
theorem C100_never_stuck (hr : CReach cfg s) {c : Nat} {q : Req} (ho : Open s.log c q) (hq : q ≠ .wait) :
    ∃ x ∈ [CKind.work, .reply, .take c, .refuse c, .atEnd c], CCanDo cfg s x := by
  have i := creach_inv hr
  obtain ⟨p, hp⟩ := (i.called c q).1 ho.1
  have hne : p ≠ .returned := by
    rintro rfl
    obtain ⟨r, h⟩ := (i.ret c).2 ⟨q, hp⟩
    exact ho.2 r h
  by_cases ht : s.f.todo = []
  · have hp' : p = .asking := by
      cases p with
      | asking => rfl
      | served =>
        obtain ⟨x, hx⟩ := i.served c q hp
        rw [serving_idle i ht] at hx
        cases hx
      | returned => exact absurd rfl hne
    subst hp'
    cases hd : s.f.s.tomb.dead with
    | false => exact ⟨.take c, by simp, idle_can ht hd hp hq⟩
    | true =>
      rcases dead_can i hd hp with h | h
      · exact ⟨.refuse c, by simp, h⟩
      · exact ⟨.atEnd c, by simp, h⟩
  · rcases busy_can (cfg := cfg) ht with h | h
    · exact ⟨.work, by simp, h.2⟩
    · exact ⟨.reply, by simp, h.2⟩

example : CReach Demo.cfg (ClDemo.after Demo.cfg ClDemo.opsTwo) ∧ Open (ClDemo.after Demo.cfg ClDemo.opsTwo).log 3 .report := by
  refine ⟨ClDemo.after_reach _ _, ?_, fun r hr => ?_⟩
  · decide +kernel
  · have h := (creach_inv (ClDemo.after_reach Demo.cfg ClDemo.opsTwo)).ret 3
    obtain ⟨q, hq⟩ := h.1 ⟨r, hr⟩
    have : (ClDemo.after Demo.cfg ClDemo.opsTwo).calls[3]? = some ⟨.report, .served⟩ := by decide +kernel
    rw [this] at hq
    cases hq

namespace ClDemo

/-- After `opsEnd`, the engine is Kill()ed again and again. -/
def endOp (k : Nat) : COp := (opsEnd[k]?).getD (.other (.env .kill))

def endSt : Nat → Clients
  | 0 => {}
  | k + 1 => (cstep Demo.cfg (endSt k) (endOp k)).getD {}

/-- What is left to do after `opsEnd`: nothing. -/
structure Over (s : Clients) : Prop where
  todo : s.f.todo = []
  returned : ∀ c ∈ s.calls, c.pc = .returned
  serving : s.serving = none

theorem endSt_over : ∀ d, Over (endSt (opsEnd.length + d))
  | 0 => ⟨List.isEmpty_iff.1 (by decide +kernel), by
      have : (endSt opsEnd.length).calls.all (fun c => decide (c.pc = .returned)) = true := by decide +kernel
      intro c hc
      simpa using List.all_eq_true.1 this c hc, by decide +kernel⟩
  | d + 1 => by
    obtain ⟨h1, h2, h3⟩ := endSt_over d
    have e : endSt (opsEnd.length + (d + 1)) = (endSt (opsEnd.length + d)).move
        ⟨(endSt (opsEnd.length + d)).f.s.killNil, (endSt (opsEnd.length + d)).f.todo⟩ := by
      show (cstep Demo.cfg (endSt (opsEnd.length + d)) (endOp (opsEnd.length + d))).getD {} = _
      have : endOp (opsEnd.length + d) = .other (.env .kill) := by
        unfold endOp
        rw [List.getElem?_eq_none (by omega)]
        rfl
      rw [this]
      rfl
    rw [e]
    exact ⟨h1, h2, h3⟩

theorem end_next (k : Nat) : cstep Demo.cfg (endSt k) (endOp k) = some (endSt (k + 1)) := by
  have : (cstep Demo.cfg (endSt k) (endOp k)).isSome = true := by
    by_cases hk : k < opsEnd.length
    · have : ∀ k, k < opsEnd.length → (cstep Demo.cfg (endSt k) (endOp k)).isSome = true := by decide +kernel
      exact this k hk
    · have : endOp k = .other (.env .kill) := by
        unfold endOp
        rw [List.getElem?_eq_none (by omega)]
        rfl
      rw [this]
      rfl
  obtain ⟨s', hs⟩ := Option.isSome_iff_exists.1 this
  show _ = some ((cstep Demo.cfg (endSt k) (endOp k)).getD {})
  rw [hs]
  rfl

/-- An infinite execution in which all calls return. -/
def endRun : CRun Demo.cfg := ⟨endSt, endOp, rfl, end_next⟩

theorem end_fair : endRun.Fair := by
  intro x hx
  exfalso
  obtain ⟨k, hk, op, s', ho, hs⟩ := hx opsEnd.length
  obtain ⟨d, rfl⟩ : ∃ d, k = opsEnd.length + d := ⟨k - opsEnd.length, by omega⟩
  obtain ⟨h1, h2, h3⟩ := endSt_over d
  have no : ∀ (c : Nat) (q : Req), (endSt (opsEnd.length + d)).calls[c]? ≠ some (Call.mk q .asking) := by
    intro c q h
    have := h2 _ (List.mem_of_getElem? h)
    cases this
  change cstep Demo.cfg (endSt (opsEnd.length + d)) op = some s' at hs
  cases op with
  | call | other => cases ho
  | work =>
    simp only [cstep] at hs
    split at hs
    · cases hs
    · simp only [fstep, h1, Option.map_none] at hs
      cases hs
  | reply =>
    simp only [cstep, Clients.handing, h3] at hs
    cases hs
  | take c o | refuse c | atEnd c =>
    simp only [cstep] at hs
    split at hs
    all_goals first
      | (rename_i h; exact no _ _ h)
      | cases hs

end ClDemo

/-- C100: in every fair infinite execution every Install and every Report returns, whatever manifolds, Start funcs and workers do (or do
not do), and every Wait returns if the engine exits. -/
theorem C100_returns {r : CRun cfg} (hf : r.Fair) {k c : Nat} {q : Req} (hc : .call c q ∈ (r.st k).log)
    (hq : q ≠ .wait ∨ .exit ∈ engOf (r.st k).log) : ∃ j res, .ret c res ∈ (r.st j).log := by
  have i := creach_inv (r.reach k)
  obtain ⟨p, hp⟩ := (i.called c q).1 hc
  rw [i.hist] at hq
  obtain ⟨j, hj⟩ := r.returns hf hp hq
  obtain ⟨res, h⟩ := ((creach_inv (r.reach j)).ret c).2 ⟨q, hj⟩
  exact ⟨j, res, h⟩

example : ClDemo.endRun.Fair ∧ .call 0 .wait ∈ (ClDemo.endRun.st ClDemo.opsEnd.length).log ∧
    .exit ∈ engOf (ClDemo.endRun.st ClDemo.opsEnd.length).log ∧ .call 2 (.install 0 {}) ∈ (ClDemo.endRun.st 3).log :=
  ⟨ClDemo.end_fair, by decide +kernel, by decide +kernel, by decide +kernel⟩

end
end Verif.Props
