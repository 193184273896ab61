import Verif.Runner.Held
import Verif.Props.RunnerKilling
import Verif.Props.RunnerHist

/-!
# The runner while a worker's Report or Kill runs (C90)

`Verif/Runner/Held.lean`: Report and killWorkerLocked call a method of a worker with runner.mu held, and it may take any
time.
-/

namespace Verif.Props
open Verif.Spec Verif.RSpec Verif.Runner

variable {p : Params}

/-- C90: every state of a runner whose workers' Report and Kill take time is one of the runner in which they do not, with the same
history; so whatever is proved of all those histories holds here too. -/
theorem C90_guarantees {h : HState} (hr : HReach p h) : Reach p h.s := (hreach_inv hr).1

theorem reports_reach {s : State} {lines : List Line} : ∀ {rest acc : List Name}, HReach p ⟨s, some (.report lines rest)⟩ →
    lines = reportLines s.tab acc → HReach p ⟨s.log (.report (reportLines s.tab (acc ++ rest))), none⟩ := by
  intro rest
  induction rest generalizing lines with
  | nil => intro acc hr hl; subst hl; rw [List.append_nil]; exact .step .rNext hr rfl
  | cons id rest ih =>
    intro acc hr hl
    subst hl
    have h1 : HReach p ⟨s, some (.report (reportLines s.tab acc ++ ((s.tab.workers.get? id).map (lineOf id)).toList) rest)⟩ :=
      .step .rNext hr rfl
    have h2 := ih (acc := acc ++ [id]) h1 (by rw [reportLines_append]; rfl)
    rwa [List.append_assoc] at h2

/-- C90: and every state of that runner is one of this. -/
theorem C90_contains {s : State} (hr : Reach p s) : HReach p ⟨s, none⟩ := by
  induction hr with
  | init => exact .init
  | @step s s' o hr hs ih =>
    cases ho : o.isReport with
    | true =>
      cases o <;> first | (cases ho; done) | skip
      rename_i order
      simp only [Runner.step, Op.cid?, tabStep] at hs
      split at hs
      · rename_i hc
        cases hs
        have h1 : HReach p ⟨s, some (.report [] order)⟩ := .step (.rLock order) ih (by
          simp only [hstep]; rw [if_pos ⟨trivial, hc⟩])
        exact reports_reach (acc := []) h1 rfl
      · cases hs
    | false =>
      have h1 : hstep p ⟨s, none⟩ (.op o) = some ⟨s', if callsKill p s o s'.tab.hist then some .kill else none⟩ := by
        simp only [hstep, ho, Hold.lets, hs]; rfl
      cases hk : callsKill p s o s'.tab.hist with
      | false => rw [hk] at h1; exact .step _ ih h1
      | true =>
        rw [hk] at h1
        exact .step .killReturns (.step _ ih h1) rfl

/-- An execution that satisfies `ok` at every step. -/
inductive HExec (p : Params) (ok : HOp → Bool) : HState → HState → Prop
  | nil (h : HState) : HExec p ok h h
  | one {h h1 h2 : HState} (o : HOp) : ok o = true → hstep p h o = some h1 → HExec p ok h1 h2 → HExec p ok h h2

theorem HExec.reach {ok : HOp → Bool} {h h' : HState} (hx : HExec p ok h h') (hr : HReach p h) : HReach p h' := by
  induction hx with
  | nil => exact hr
  | one o _ hs _ ih => exact ih (.step o hr hs)

/-! ## In a worker's Kill -/

/-- Every operation but the return of the Kill. -/
def notReturns (o : HOp) : Bool := decide (o ≠ .killReturns)

theorem looks_takes {s : State} {o : Op} (h : o.takesMu p s = false) : o.looks = false := by
  cases o <;> first | rfl | (cases h; done)

theorem kill_still {h h' : HState} (hx : HExec p notReturns h h') : HReach p h → h.held = some .kill →
    Still h.s h'.s ∧ h'.held = some .kill := by
  induction hx with
  | nil h => intro _ hh; exact ⟨⟨rfl, rfl, ⟨[], rfl, by simp⟩, fun c hc h => ⟨c, hc, rfl, h⟩⟩, hh⟩
  | @one h h1 h2 o ho hs _ ih =>
    intro hr hh
    have hr1 := HReach.step o hr hs
    obtain ⟨hre, hi⟩ := hreach_inv hr
    have key : Still h.s h1.s ∧ h1.held = some .kill := by
      cases o with
      | op o =>
        simp only [hstep] at hs
        split at hs
        · rename_i hc
          have hc := hc.2
          simp only [hh, Hold.lets, Bool.and_eq_true, Bool.not_eq_true'] at hc
          split at hs
          · rename_i s' h3
            cases hs
            refine ⟨step_still hre (not_dead hre ?_) hc.2 (looks_takes hc.1) h3, ?_⟩
            · simp only [HeldInv, hh] at hi; rw [hi.1]; nofun
            · show (if _ then _ else _) = _
              rw [hh]; split <;> rfl
          · cases hs
        · cases hs
      | rLock order => simp only [hstep, hh] at hs; simp at hs
      | rNext => simp only [hstep, hh] at hs; cases hs
      | killReturns => simp [notReturns] at ho
    obtain ⟨h3, h4⟩ := ih hr1 key.2
    exact ⟨key.1.trans h3, h4⟩

/-- C90: a worker's Kill that StopWorker has led to, or the start of a worker that had been told to stop: until it
returns, the loop does nothing whatever else happens, neither Report nor WorkerNames returns, and a call of StopWorker,
Worker or StopAndRemoveWorker made meanwhile does not return. -/
theorem C90_kill {h h' : HState} (hr : HReach p h) (hh : h.held = some .kill) (hx : HExec p notReturns h h') :
    ∃ es, h'.s.tab.hist = es ++ h.s.tab.hist ∧ (∀ e ∈ es, needsRunner e = false) ∧
      ∀ k id, .callStop k id ∈ es ∨ .callWorker k id ∈ es ∨ .callRemove k id ∈ es → ∀ r, .ret k r ∉ h'.s.tab.hist := by
  obtain ⟨hst, _⟩ := kill_still hx hr hh
  obtain ⟨es, he, hq⟩ := hst.es
  refine ⟨es, he, fun e hm => (hq e hm).1, ?_⟩
  intro k id hc r
  have key : ∃ c ∈ h'.s.clients, c.cid = k ∧ Held c := by
    rcases hc with hc | hc | hc
    · exact (hq _ hc).2 k rfl
    · exact (hq _ hc).2 k rfl
    · exact (hq _ hc).2 k rfl
  obtain ⟨c, hcm, rfl, i, hk⟩ := key
  refine ((C90_guarantees (hx.reach hr)).cinv.ok c hcm).ret ?_ r
  intro r' hr'
  rcases hk with hk | hk <;> rw [hr'] at hk <;> cases hk

/-! ## In a worker's Report -/

/-- What is done with runner.mu held. -/
def needsMutex : Ev → Bool
  | .accepted .. | .stopHandled .. | .learned .. | .told .. | .killW .. | .removed .. | .report .. | .names .. => true
  | _ => false

/-- A call that waits for runner.mu to look at the table goes on waiting as long as it does not get it. -/
theorem lock_stays {s s' : State} {o : Op} (hr : Reach p s) (ho : ∀ k, o ≠ .cLock k) (hs : step p s o = some s') {x : Client}
    (hx : x ∈ s.clients) {id : Name} (hp : x.pc = .lock id) : ∃ c' ∈ s'.clients, c'.cid = x.cid ∧ c'.pc = .lock id := by
  have hnd := hr.cinv.nd
  unfold Runner.step at hs
  split at hs
  · cases hs; exact ⟨x, .tail _ hx, rfl, hp⟩
  · cases hs; exact ⟨x, .tail _ hx, rfl, hp⟩
  · cases hs; exact ⟨x, .tail _ hx, rfl, hp⟩
  · cases hs; exact ⟨x, .tail _ hx, rfl, hp⟩
  · split at hs
    all_goals first | (cases hs; done) | skip
    all_goals
      rename_i hpc
      obtain ⟨c, hc, hck, hcp⟩ := hr.cinv.reply _ (.inr ⟨_, hpc⟩)
      subst hck
      cases hs
      have hne : x.cid ≠ c.cid := fun h => by
        have := cid_inj hnd hx hc h
        subst this
        cases hp.symm.trans hcp
      exact ⟨x, List.mem_map.2 ⟨x, hx, if_neg hne⟩, rfl, hp⟩
  · split at hs <;> cases hs
    exact ⟨{ x with helper := x.helper.map Helper.wake }, List.mem_map.2 ⟨x, hx, rfl⟩, rfl, hp⟩
  · split at hs
    · rename_i cid hcid
      split at hs
      · rename_i c hg
        have hc : c ∈ s.clients := List.mem_of_find?_eq_some hg
        have hck : c.cid = cid := by simpa using List.find?_some hg
        subst hck
        by_cases hne : x.cid = c.cid
        · have := cid_inj hnd hx hc hne
          subst this
          cases o <;> cases hcid <;> simp only [clientStep, hp] at hs <;> first | (cases hs; done) | exact absurd rfl (ho _) | skip
          all_goals (repeat' split at hs) <;> first
            | (cases hs; done)
            | contradiction
            | (cases hs; exact ⟨_, List.mem_map.2 ⟨x, hx, if_pos rfl⟩, rfl, hp⟩)
        · have hi : ∀ id r, x ∈ (afterInfo s c id r).clients := by
            intro id r; unfold afterInfo; split
            · exact List.mem_map.2 ⟨x, hx, if_neg hne⟩
            · split <;> exact List.mem_map.2 ⟨x, hx, if_neg hne⟩
          cases o <;> cases hcid <;> simp only [clientStep] at hs <;> first | (cases hs; done) | exact absurd rfl (ho _) | skip
          all_goals (repeat' split at hs) <;> first
            | (cases hs; done)
            | contradiction
            | (cases hs; exact ⟨x, List.mem_map.2 ⟨x, hx, if_neg hne⟩, rfl, hp⟩)
            | (cases hs; exact ⟨x, hi _ _, rfl, hp⟩)
            | (cases hs; exact ⟨{ x with helper := x.helper.map Helper.wake },
                List.mem_map.2 ⟨_, List.mem_map.2 ⟨x, hx, rfl⟩, if_neg hne⟩, rfl, hp⟩)
      · cases hs
    · obtain ⟨t, ht, rfl⟩ := Option.map_eq_some_iff.1 hs
      exact ⟨x, hx, rfl, hp⟩

/-- A call of Worker or StopAndRemoveWorker. -/
def looksUp : Ev → Option Nat
  | .callWorker k _ | .callRemove k _ => some k
  | _ => none

/-- The new events of a step that does not take runner.mu. -/
def Free (s s' : State) : Prop := ∃ es, s'.tab.hist = es ++ s.tab.hist ∧ ∀ e ∈ es, needsMutex e = false ∧
  ∀ k, looksUp e = some k → ∃ c ∈ s'.clients, c.cid = k ∧ ∃ id, c.pc = .lock id

theorem Free.none {s s' : State} (h : s'.tab.hist = s.tab.hist) : Free s s' := ⟨[], h, by simp⟩

theorem Free.one {s s' : State} (e : Ev) (h : s'.tab.hist = e :: s.tab.hist) (h1 : needsMutex e = false) (h2 : looksUp e = Option.none) :
    Free s s' := ⟨[e], h, by simp [h1, h2]⟩

theorem Free.two {s s' : State} (e e' : Ev) (h : s'.tab.hist = e :: e' :: s.tab.hist) (h1 : needsMutex e = false) (h2 : looksUp e = Option.none)
    (h3 : needsMutex e' = false) (h4 : looksUp e' = Option.none) : Free s s' := ⟨[e, e'], h, by simp [h1, h2, h3, h4]⟩

theorem tab_free {s : State} {o : Op} {t : Tab} (ht : o.takesMu p s = false) (h : tabStep p s o = some t) :
    Free s (s.withTab t) := by
  cases o <;> first | (cases ht; done) | (simp only [tabStep] at h; cases h; done) | skip
  case act now =>
    simp only [tabStep] at h
    simp only [Op.takesMu] at ht
    split at h
    · rename_i m hm
      rw [hm] at ht
      simp only at ht
      split at h
      · cases h
        cases m with
        | start cid id sf =>
          simp only [needsMu, Bool.and_eq_false_iff, Bool.not_eq_false', Option.isNone_eq_false_iff] at ht
          simp only [act]
          split
          · exact .one (.ignored cid id) rfl rfl rfl
          · rename_i hd
            rw [if_pos (ht.resolve_left hd)]
            exact .one (.refused cid id) rfl rfl rfl
        | stop n => cases ht
        | started g n w => cases ht
        | done g n e =>
          simp only [needsMu] at ht
          simp only [act]
          unfold workerDone
          split at ht
          · rename_i info hi
            rw [hi]
            simp only
            split at ht
            · rename_i sf hf
              rw [hf]
              exact .two _ _ rfl rfl rfl rfl rfl
            · cases ht
          · cases ht
      · cases h
    · cases h
  all_goals
    simp only [tabStep] at h
    (repeat' split at h) <;> first
      | (cases h; done)
      | (cases h; exact .none rfl)
      | (cases h; exact .one _ rfl rfl rfl)

theorem step_free {s s' : State} {o : Op} (ht : o.takesMu p s = false) (hs : step p s o = some s') : Free s s' := by
  unfold Runner.step at hs
  split at hs
  · cases hs; exact .one _ rfl rfl rfl
  · cases hs; exact .one _ rfl rfl rfl
  · cases hs
    exact ⟨[_], rfl, fun e he => by
      cases List.mem_singleton.1 he
      exact ⟨rfl, fun k hk => by cases hk; exact ⟨_, .head _, rfl, _, rfl⟩⟩⟩
  · cases hs
    exact ⟨[_], rfl, fun e he => by
      cases List.mem_singleton.1 he
      exact ⟨rfl, fun k hk => by cases hk; exact ⟨_, .head _, rfl, _, rfl⟩⟩⟩
  · split at hs <;> cases hs <;> exact .one _ rfl rfl rfl
  · split at hs <;> cases hs; exact .none rfl
  · split at hs
    · rename_i cid hcid
      split at hs
      · rename_i c hg
        have hi : ∀ id r, Free s (afterInfo s c id r) := by
          intro id r; unfold afterInfo; split
          · exact .one _ rfl rfl rfl
          · split
            · exact .none rfl
            · exact .one _ rfl rfl rfl
        cases o <;> cases hcid <;> simp only [clientStep] at hs <;> first | (cases hs; done) | (cases ht; done) | skip
        all_goals (repeat' split at hs) <;> first
          | (cases hs; done)
          | contradiction
          | (cases hs; exact .none rfl)
          | (cases hs; exact .one _ rfl rfl rfl)
          | (cases hs; exact hi _ _)
      · cases hs
    · obtain ⟨t, h, rfl⟩ := Option.map_eq_some_iff.1 hs
      exact tab_free ht h

/-- Every operation but the return of the Report that is going on. -/
def notNext (o : HOp) : Bool := decide (o ≠ .rNext)

theorem report_still {h h' : HState} (hx : HExec p notNext h h') : HReach p h → ∀ {lines rest}, h.held = some (.report lines rest) →
    h'.held = h.held ∧ (∀ id, shown h'.s.tab id = shown h.s.tab id) ∧ Free h.s h'.s ∧
    ∀ x ∈ h.s.clients, ∀ id, x.pc = .lock id → ∃ c ∈ h'.s.clients, c.cid = x.cid ∧ c.pc = .lock id := by
  induction hx with
  | nil h => intro _ lines rest _; exact ⟨rfl, fun _ => rfl, .none rfl, fun x hx id hp => ⟨x, hx, rfl, hp⟩⟩
  | @one h h1 h2 o ho hs _ ih =>
    intro hr lines rest hh
    have hr1 := HReach.step o hr hs
    obtain ⟨hre, hi⟩ := hreach_inv hr
    simp only [HeldInv, hh] at hi
    cases o with
    | op o =>
      simp only [hstep] at hs
      split at hs
      · rename_i hc
        have hc := hc.2
        simp only [hh, Hold.lets, Bool.not_eq_true'] at hc
        split at hs
        · rename_i s' h3
          cases hs
          have hk : callsKill p h.s o s'.tab.hist = false := by
            cases hk : callsKill p h.s o s'.tab.hist with
            | false => rfl
            | true => rw [callsKill_takes hk] at hc; cases hc
          rw [hk] at ih hr1
          obtain ⟨i1, i2, i3, i4⟩ := ih hr1 hh
          obtain ⟨es, he, hq⟩ := step_free hc h3
          obtain ⟨fs, hf, hq'⟩ := i3
          have hsh := (step_unlocked hc h3 hi.1 hi.2.1).2.2
          refine ⟨i1, fun id => (i2 id).trans (hsh id), ⟨fs ++ es, by rw [hf, he, List.append_assoc], ?_⟩, ?_⟩
          · intro e hm
            rcases List.mem_append.1 hm with hm | hm
            · exact hq' e hm
            · refine ⟨(hq e hm).1, fun k hk => ?_⟩
              obtain ⟨c, hc, hck, id, hcp⟩ := (hq e hm).2 k hk
              obtain ⟨c', hc', h5, h6⟩ := i4 c hc id hcp
              exact ⟨c', hc', h5.trans hck, id, h6⟩
          · intro x hx id hp
            obtain ⟨c, hc, hck, hcp⟩ := lock_stays hre (by rintro k rfl; cases hc) h3 hx hp
            obtain ⟨c', hc', h5, h6⟩ := i4 c hc id hcp
            exact ⟨c', hc', h5.trans hck, h6⟩
        · cases hs
      · cases hs
    | rLock order => simp only [hstep, hh] at hs; simp at hs
    | rNext => simp [notNext] at ho
    | killReturns => simp [hstep, hh] at hs

/-- C90: while Report waits for the Report of a worker, whatever else happens: no StartWorker request is accepted and no
StopWorker request handled, the loop hears of no new worker, nobody is told to stop, no id is removed, no other Report or
WorkerNames returns, what Worker and Report look at does not change, and a call of Worker or StopAndRemoveWorker made
meanwhile does not return. -/
theorem C90_report {h h' : HState} (hr : HReach p h) {lines : List Line} {rest : List Name} (hh : h.held = some (.report lines rest))
    (hx : HExec p notNext h h') : h'.held = h.held ∧ (∀ id, knownH h'.s.tab.hist id = knownH h.s.tab.hist id ∧
      instH h'.s.tab.hist id = instH h.s.tab.hist id) ∧
    ∃ es, h'.s.tab.hist = es ++ h.s.tab.hist ∧ (∀ e ∈ es, needsMutex e = false) ∧
      ∀ k id, .callWorker k id ∈ es ∨ .callRemove k id ∈ es → ∀ r, .ret k r ∉ h'.s.tab.hist := by
  obtain ⟨h1, h2, ⟨es, he, hq⟩, _⟩ := report_still hx hr hh
  have hr' := C90_guarantees (hx.reach hr)
  refine ⟨h1, fun id => ?_, es, he, fun e hm => (hq e hm).1, ?_⟩
  · have hi := (C90_guarantees hr).tab.hinv
    have hi' := hr'.tab.hinv
    have := h2 id
    unfold shown at this
    rw [hi.kn, hi'.kn, hi.inst, hi'.inst]
    cases h3 : h.s.tab.workers.get? id <;> cases h4 : h'.s.tab.workers.get? id <;> simp_all
  · intro k id hc r
    have key : ∃ c ∈ h'.s.clients, c.cid = k ∧ ∃ id, c.pc = .lock id := by
      rcases hc with hc | hc
      · exact (hq _ hc).2 k rfl
      · exact (hq _ hc).2 k rfl
    obtain ⟨c, hcm, rfl, i, hk⟩ := key
    exact (hr'.cinv.ok c hcm).ret (fun r' hr' => by rw [hr'] at hk; cases hk) r

theorem hist_step {h h' : HState} {o : HOp} (hr : HReach p h) (hs : hstep p h o = some h') :
    ∃ es, h'.s.tab.hist = es ++ h.s.tab.hist := by
  obtain ⟨hre, hi⟩ := hreach_inv hr
  rcases hstep_step hi hs with ⟨o', h1⟩ | h1
  · obtain ⟨es, h2, _⟩ := hre.tab.emits (step_T h1)
    exact ⟨es, h2⟩
  · exact ⟨[], by rw [h1]; rfl⟩

theorem HExec.hist {ok : HOp → Bool} {h h' : HState} (hx : HExec p ok h h') (hr : HReach p h) :
    ∃ es, h'.s.tab.hist = es ++ h.s.tab.hist := by
  induction hx with
  | nil => exact ⟨[], rfl⟩
  | one o _ hs _ ih =>
    obtain ⟨es, h1⟩ := hist_step hr hs
    obtain ⟨fs, h2⟩ := ih (.step o hr hs)
    exact ⟨fs ++ es, by rw [h2, h1, List.append_assoc]⟩

theorem report_goes {ok : HOp → Bool} {h h' : HState} (hx : HExec p ok h h') : HReach p h → ∀ {lines rest},
    h.held = some (.report lines rest) → (∃ es r, h'.s.tab.hist = es ++ h.s.tab.hist ∧ .report r ∈ es) ∨
    ∃ mid rest', rest = mid ++ rest' ∧ h'.held = some (.report (lines ++ reportLines h.s.tab mid) rest') ∧
      ∀ id, shown h'.s.tab id = shown h.s.tab id := by
  induction hx with
  | nil h => intro _ lines rest hh; exact .inr ⟨[], rest, rfl, by rw [hh]; simp [reportLines], fun _ => rfl⟩
  | @one h h1 h2 o ho hs hx' ih =>
    intro hr lines rest hh
    have hr1 := HReach.step o hr hs
    cases hn : notNext o with
    | true =>
      obtain ⟨a, b, ⟨es, he, _⟩, _⟩ := report_still (.one o hn hs (.nil _)) hr hh
      rcases ih hr1 (a.trans hh) with ⟨fs, r, h3, h4⟩ | ⟨mid, rest', h3, h4, h5⟩
      · exact .inl ⟨fs ++ es, r, by rw [h3, he, List.append_assoc], List.mem_append_left _ h4⟩
      · exact .inr ⟨mid, rest', h3, by rw [h4, lines_of_shown b], fun id => (h5 id).trans (b id)⟩
    | false =>
      have ho : o = .rNext := by simpa [notNext] using hn
      subst ho
      cases rest with
      | nil =>
        simp only [hstep, hh] at hs
        cases hs
        obtain ⟨fs, h3⟩ := hx'.hist hr1
        exact .inl ⟨fs ++ [.report lines], lines, by rw [h3, List.append_assoc]; rfl, by simp⟩
      | cons id rest =>
        simp only [hstep, hh] at hs
        cases hs
        rcases ih hr1 rfl with h3 | ⟨mid, rest', h3, h4, h5⟩
        · exact .inl h3
        · refine .inr ⟨id :: mid, rest', by rw [h3]; rfl, ?_, h5⟩
          rw [h4, List.append_assoc]
          show some (Hold.report (lines ++ (reportLines h.s.tab [id] ++ reportLines h.s.tab mid)) rest') = _
          rw [← reportLines_append]; rfl

/-- C90: however long the workers' Reports take and whatever happens meanwhile, what Report returns is how things were
when it locked the mutex, in the order in which it visited the ids: one line for each id registered then, as started
if a worker was held for it then and as stopped otherwise. -/
theorem C90_snapshot {h h0 h' h'' : HState} (hr : HReach p h) {order : List Name} (hl : hstep p h (.rLock order) = some h0)
    (hx : HExec p (fun _ => true) h0 h') (hq : ∀ es r, h'.s.tab.hist = es ++ h.s.tab.hist → .report r ∉ es)
    (hs : hstep p h' .rNext = some h'') (hd : h''.held = none) :
    ∃ lines, h''.s.tab.hist = .report lines :: h'.s.tab.hist ∧ lines.map Line.id = order ∧ order.Nodup ∧
      (∀ id, id ∈ order ↔ (knownH h.s.tab.hist id).isSome = true) ∧
      ∀ l ∈ lines, l.status = (if (instH h.s.tab.hist l.id).isSome then .started else .stopped) ∧
        l.nested = (instH h.s.tab.hist l.id).isSome := by
  have hr0 := HReach.step _ hr hl
  simp only [hstep] at hl
  split at hl
  case isFalse => cases hl
  rename_i hc
  cases hl
  rcases report_goes hx hr0 rfl with ⟨es, r, h1, h2⟩ | ⟨mid, rest', h1, h2, h3⟩
  · exact absurd h2 (hq es r h1)
  rw [List.nil_append] at h2
  cases rest' with
  | cons id rest' =>
    simp only [hstep, h2] at hs
    cases hs; cases hd
  | nil =>
    rw [List.append_nil] at h1
    subst h1
    simp only [hstep, h2] at hs
    cases hs
    have ho := (isRangeOrder_iff _ _).1 hc.2.2
    have hre := C90_guarantees hr
    have hi := hre.tab.hinv
    have e1 := C28_report (hre.step (.report order) (s' := h.s.log (.report (reportLines h.s.tab order)))
      (by simp only [Runner.step, Op.cid?, tabStep]; rw [if_pos hc.2]; rfl)) (post := []) rfl
    have hids : (reportLines h.s.tab order).map Line.id = order := reportLines_ids ho
    rw [hids] at e1
    exact ⟨_, rfl, hids, e1⟩

/-- While nothing is held, this runner can do exactly what the other can. -/
theorem C90_enabled {h : HState} (hh : h.held = none) (o : Op) (ho : o.isReport = false) :
    (hstep p h (.op o)).map HState.s = step p h.s o := by
  simp only [hstep, ho, hh, Hold.lets]
  cases step p h.s o <;> rfl

/-! ## Tests -/

namespace HDemo

def run (p : Params) : HState → List HOp → Option HState
  | h, [] => some h
  | h, o :: ops => match hstep p h o with
    | some h' => run p h' ops
    | none => none

def after (p : Params) (ops : List HOp) : HState := (run p {} ops).getD {}

theorem run_reach {p : Params} : ∀ (ops : List HOp) {h h' : HState}, HReach p h → run p h ops = some h' → HReach p h' := by
  intro ops
  induction ops with
  | nil => intro h h' hr hx; cases hx; exact hr
  | cons o ops ih =>
    intro h h' hr hx
    simp only [run] at hx
    split at hx
    · rename_i s1 h1; exact ih (hr.step o h1) hx
    · cases hx

theorem after_reach (p : Params) (ops : List HOp) : HReach p (after p ops) := by
  unfold after
  cases h : run p {} ops with
  | none => exact .init
  | some s => exact run_reach ops .init h

theorem run_exec {p : Params} {ok : HOp → Bool} : ∀ (ops : List HOp) {h h' : HState}, run p h ops = some h' →
    (∀ o ∈ ops, ok o = true) → HExec p ok h h' := by
  intro ops
  induction ops with
  | nil => intro h h' hx _; cases hx; exact .nil _
  | cons o ops ih =>
    intro h h' hx ha
    simp only [run] at hx
    split at hx
    · rename_i s1 h1
      exact .one o (ha _ List.mem_cons_self) h1 (ih hx fun o ho => ha o (List.mem_cons_of_mem _ ho))
    · cases hx

/-- Ids 7 and 8 are running as 10 and 11; Report has visited 8 and is in the Report of 10. -/
def opsReporting : List HOp := RDemo.opsTwo.map .op ++ [.rLock [8, 7], .rNext, .rNext]

/-- 10's Report calls Worker of its own runner; 11 ends, and the loop hears of it, but does not get the mutex to tell. -/
def opsCallBack : List HOp := [.op (.callWorker 7), .op (.finish 11 none), .op (.gWaitRet 1), .op .loopTop, .op (.recvDone 1)]

/-- StopWorker has led to 10's Kill. -/
def opsInKill : List HOp := RDemo.opsTwo.map .op ++ [.op (.callStop 7), .op .loopTop, .op (.recvStop 2), .op (.act 103)]

/-- 10's Kill calls StopWorker of its own runner; 10 ends. -/
def opsCallStop : List HOp := [.op (.callStop 7), .op (.callWorker 8), .op (.finish 10 none), .op (.gWaitRet 0)]

end HDemo

open HDemo

/-- A worker whose Report calls Worker of its runner: the call waits for the mutex, which Report has, which waits for the worker. -/
example : (HDemo.after RDemo.prm opsReporting).held =
      some (.report [⟨8, .started, some 100, true⟩, ⟨7, .started, some 100, true⟩] []) ∧
    HExec RDemo.prm notNext (HDemo.after RDemo.prm opsReporting) (HDemo.after RDemo.prm (opsReporting ++ opsCallBack)) ∧
    (HDemo.after RDemo.prm (opsReporting ++ opsCallBack)).s.tab.hist =
      [.finished 11 none, .callWorker 2 7] ++ (HDemo.after RDemo.prm opsReporting).s.tab.hist ∧
    hstep RDemo.prm (HDemo.after RDemo.prm (opsReporting ++ opsCallBack)) (.op (.act 105)) = none ∧
    hstep RDemo.prm (HDemo.after RDemo.prm (opsReporting ++ opsCallBack)) (.op (.cLock 2)) = none ∧
    (hstep RDemo.prm (HDemo.after RDemo.prm (opsReporting ++ opsCallBack ++ [.rNext])) (.op (.cLock 2))).isSome = true :=
  ⟨by decide +kernel, run_exec opsCallBack (by decide +kernel) (by decide +kernel), by decide +kernel, by decide +kernel,
    by decide +kernel, by decide +kernel⟩

/-- A worker whose Kill calls StopWorker of its runner: the call waits for the loop, which is in the Kill. -/
example : (HDemo.after RDemo.prm opsInKill).held = some .kill ∧
    HExec RDemo.prm notReturns (HDemo.after RDemo.prm opsInKill) (HDemo.after RDemo.prm (opsInKill ++ opsCallStop)) ∧
    (HDemo.after RDemo.prm (opsInKill ++ opsCallStop)).s.tab.hist =
      [.finished 10 none, .callWorker 4 8, .callStop 3 7] ++ (HDemo.after RDemo.prm opsInKill).s.tab.hist :=
  ⟨by decide +kernel, run_exec opsCallStop (by decide +kernel) (by decide +kernel), by decide +kernel⟩

/-- 11 ends while Report is in 10's Report; the line of 8 says started. -/
example : ∃ h h0 h' h'' : HState, HReach RDemo.prm h ∧ hstep RDemo.prm h (.rLock [8, 7]) = some h0 ∧
    HExec RDemo.prm (fun _ => true) h0 h' ∧ hstep RDemo.prm h' .rNext = some h'' ∧ h''.held = none ∧
    .finished 11 none ∈ h'.s.tab.hist ∧ .finished 11 none ∉ h.s.tab.hist ∧
    h''.s.tab.hist.head? = some (.report [⟨8, .started, some 100, true⟩, ⟨7, .started, some 100, true⟩]) :=
  ⟨HDemo.after RDemo.prm (RDemo.opsTwo.map .op), HDemo.after RDemo.prm (RDemo.opsTwo.map .op ++ [.rLock [8, 7]]),
    HDemo.after RDemo.prm (opsReporting ++ opsCallBack), HDemo.after RDemo.prm (opsReporting ++ opsCallBack ++ [.rNext]),
    HDemo.after_reach _ _, by decide +kernel, run_exec ([.rNext, .rNext] ++ opsCallBack) (by decide +kernel) (by decide +kernel),
    by decide +kernel, by decide +kernel, by decide +kernel, by decide +kernel, by decide +kernel⟩

end Verif.Props
