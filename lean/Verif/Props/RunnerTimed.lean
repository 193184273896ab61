import Verif.Runner.Timed
import Verif.Props.RunnerDemo
import Verif.Props.RunnerHist

/-!
# Runner: delays and start times against a clock

`TReach p ts` (Runner/Timed.lean) are the states a runner can get into together with a clock; `ts.stamps` is the history
with the time of every event, newest first.
-/

namespace Verif.Props
open Verif.Spec Verif.Runner Verif.RSpec

variable {p : Params} {ts : TState}

/-! ## Concrete executions with times -/

namespace RDemo

/-- What `ClockOk` says, decidably. -/
def clockB (ts : TState) : Op → Bool
  | .act n => decide (n = ts.now)
  | .gTimer g => ts.stamps.all (fun x => match x with
    | (.begin _ g' d _, t0) => decide (g' ≠ g) || decide (t0 + d ≤ ts.now)
    | _ => true)
  | _ => true

theorem clockB_ok {ts : TState} {op : Op} (h : clockB ts op = true) : ClockOk ts op := by
  cases op with
  | act n => simpa [clockB, ClockOk] using h
  | gTimer g =>
    intro id d sf t0 hm
    have := List.all_eq_true.1 h _ hm
    simpa using this
  | _ => trivial

/-- Run operations at given times; `none` if one is not enabled, or not at that time. -/
def tRun (p : Params) : TState → List (Int × Op) → Option TState
  | ts, [] => some ts
  | ts, (t, op) :: ops =>
    if ts.now ≤ t then
      match step p ts.st op with
      | some s' =>
        let es := s'.tab.hist.take (s'.tab.hist.length - ts.st.tab.hist.length)
        if clockB { ts with now := t } op = true ∧ s'.tab.hist = es ++ ts.st.tab.hist then
          tRun p ⟨s', t, es.map (fun e => (e, t)) ++ ts.stamps⟩ ops
        else none
      | none => none
    else none

theorem tRun_reach {p : Params} : ∀ (ops : List (Int × Op)) {ts ts' : TState}, TReach p ts → tRun p ts ops = some ts' →
    TReach p ts' := by
  intro ops
  induction ops with
  | nil => intro ts ts' hr h; simp only [tRun, Option.some.injEq] at h; exact h ▸ hr
  | cons x ops ih =>
    intro ts ts' hr h
    obtain ⟨t, op⟩ := x
    simp only [tRun] at h
    split at h
    · rename_i hle
      split at h
      · rename_i s' hs
        split at h
        · rename_i hc
          exact ih (.step (ts := { ts with now := t }) op (hr.tick t hle) hs (clockB_ok hc.1) hc.2) h
        · cases h
      · cases h
    · cases h

def tAfter (p : Params) (ops : List (Int × Op)) : TState := (tRun p ⟨init, 0, []⟩ ops).getD ⟨init, 0, []⟩

theorem tAfter_reach (p : Params) (ops : List (Int × Op)) : TReach p (tAfter p ops) := by
  unfold tAfter
  cases h : tRun p ⟨init, 0, []⟩ ops with
  | none => exact .init 0
  | some s => exact tRun_reach ops (.init 0) h

/-- Id 7 is registered at time 5 and runs as worker 10; it fails at time 20; its second attempt calls its StartFunc at time
24 and the runner learns of worker 11 at time 25; then a report is made. -/
def opsTimed : List (Int × Op) :=
  [(5, .callStart 7 1), (5, .loopTop), (5, .recvStart 0), (5, .act 5), (5, .reply), (5, .bcast), (6, .gCall 0), (7, .gStartOk 0 10),
   (7, .loopTop), (7, .recvStarted 0), (7, .act 7), (7, .bcast), (20, .finish 10 (some (.user 1))), (20, .gWaitRet 0),
   (20, .loopTop), (20, .recvDone 0), (20, .act 20), (20, .bcast), (23, .gTimer 1), (24, .gCall 1), (25, .gStartOk 1 11),
   (25, .loopTop), (25, .recvStarted 1), (25, .act 25), (25, .bcast), (30, .report [7])]

end RDemo

/-! ## C71: the restart delay -/

/-- C71: the times of the events go up, and belong to the events of the history. -/
theorem C71_times (hr : TReach p ts) : ts.stamps.map Prod.fst = ts.st.tab.hist ∧
    ts.stamps.Pairwise (fun a b => b.2 ≤ a.2) ∧ ∀ x ∈ ts.stamps, x.2 ≤ ts.now :=
  ⟨hr.hist, hr.sorted, hr.le_now⟩

/-- C71: a StartFunc is not called before the delay of its attempt is over. -/
theorem C71_delay (hr : TReach p ts) {id id' g sf sf' : Nat} {d t0 t1 : Int}
    (h1 : (Ev.startCall id g sf, t1) ∈ ts.stamps) (h2 : (Ev.begin id' g d sf', t0) ∈ ts.stamps) : t0 + d ≤ t1 :=
  hr.tinv.call id g sf t1 h1 id' d sf' t0 h2

/-- What makes an attempt open after one has ended. -/
theorem begin_since {mid pre : List Ev} {id g g' : Nat} {e : Option Err} (ho : openH (mid ++ .ended id g e :: pre) id = some g') :
    ∃ m1 m2 d sf, mid = m1 ++ .begin id g' d sf :: m2 := by
  induction mid with
  | nil => simp [openH] at ho
  | cons a mid ih =>
    have old : openH (mid ++ .ended id g e :: pre) id = some g' → ∃ m1 m2 d sf, a :: mid = m1 ++ .begin id g' d sf :: m2 := by
      intro h
      obtain ⟨m1, m2, d, sf, h⟩ := ih h
      exact ⟨a :: m1, m2, d, sf, by rw [h]; rfl⟩
    cases a with
    | begin m k d sf =>
      simp only [List.cons_append, openH] at ho
      split at ho
      · rename_i he; subst he; cases ho; exact ⟨[], mid, d, sf, rfl⟩
      · exact old ho
    | ended m k x =>
      simp only [List.cons_append, openH] at ho
      split at ho
      · cases ho
      · exact old ho
    | _ => exact old ho

/-- C71: after the end of an attempt was handled, the StartFunc is not called again before the restart delay has passed
(unless the id was removed and registered anew). -/
theorem C71_restart (hr : TReach p ts) {post mid pre : List (Ev × Int)} {id g g' sf : Nat} {e : Option Err} {t0 t1 : Int}
    (hh : ts.stamps = post ++ (.startCall id g' sf, t1) :: (mid ++ (.ended id g e, t0) :: pre))
    (hn : ∀ cid rid sf' t, (Ev.accepted cid id rid sf', t) ∉ mid) : t0 + p.restartDelay ≤ t1 := by
  have hk := runner_evOk hr.reach
  rw [← hr.hist, hh] at hk
  simp only [List.map_append, List.map_cons] at hk
  have h1 := hk.split (e := Ev.startCall id g' sf)
  obtain ⟨m1, m2, d, sf', hm⟩ := begin_since h1.1
  obtain ⟨n1, n2, hm', hn1, hn2⟩ := List.map_eq_append_iff.1 hm
  obtain ⟨b, n3, hn3, hb, hn4⟩ := List.map_eq_cons_iff.1 hn2
  obtain ⟨b, tb⟩ := b
  simp only at hb
  subst hb
  have hk2 : AtEvery (EvOk p) (m2 ++ Ev.ended id g e :: pre.map Prod.fst) ∧
      EvOk p (.begin id g' d sf') (m2 ++ Ev.ended id g e :: pre.map Prod.fst) := by
    have := (AtEvery.drop hk).2
    rw [hm, List.append_assoc] at this
    exact ⟨(AtEvery.drop this).2, this.split⟩
  have hd : d = p.restartDelay := by
    rcases hk2.2.2.2.2.2.2.2 with ⟨cid, rid, hhd, _⟩ | ⟨_, _, _, _, h⟩
    · exfalso
      cases m2 with
      | nil => cases hhd
      | cons a m2 =>
        cases hhd
        obtain ⟨c, n5, hn5, hc, _⟩ := List.map_eq_cons_iff.1 hn4
        obtain ⟨c, tc⟩ := c
        simp only at hc
        subst hc
        exact hn cid rid sf' tc (by rw [hm', hn3, hn5]; simp)
    · exact h
  subst hd
  have hle := C71_delay hr (id := id) (g := g') (sf := sf) (t1 := t1) (by rw [hh]; simp)
    (h2 := by rw [hh, hm', hn3]; exact List.mem_append_right _ (.tail _ (List.mem_append_left _ (List.mem_append_right _ (.head _)))))
  have hso := hr.sorted
  rw [hh, hm', hn3, List.pairwise_append, List.pairwise_cons] at hso
  have h3 := hso.2.1.2
  rw [List.append_assoc, List.pairwise_append, List.cons_append, List.pairwise_cons] at h3
  have h4 : t0 ≤ tb := h3.2.1.1 (.ended id g e, t0) (by simp)
  omega

/-- An attempt begins once. -/
theorem begin_unique (hr : TReach p ts) {id id' g sf sf' : Nat} {d d' t t' : Int} (h1 : (Ev.begin id g d sf, t) ∈ ts.stamps)
    (h2 : (Ev.begin id' g d' sf', t') ∈ ts.stamps) : (Ev.begin id' g d' sf', t') = (Ev.begin id g d sf, t) := by
  have earlier : ∀ {post pre : List (Ev × Int)} {id id' sf sf' : Nat} {d d' t t' : Int},
      ts.stamps = post ++ (.begin id g d sf, t) :: pre → (Ev.begin id' g d' sf', t') ∉ pre := by
    intro post pre id id' sf sf' d d' t t' hh hm
    have hk := runner_evOk hr.reach
    rw [← hr.hist, hh] at hk
    simp only [List.map_append, List.map_cons] at hk
    have h := hk.split (e := Ev.begin id g d sf)
    exact phaseH_begin (List.mem_map.2 ⟨_, hm, rfl⟩) h.2.2.2.2.1
  obtain ⟨post, pre, hh⟩ := List.append_of_mem h1
  have h3 := h2
  rw [hh] at h3
  rcases List.mem_append.1 h3 with h3 | h3
  · obtain ⟨q1, q2, hq⟩ := List.append_of_mem h3
    rw [hq, List.append_assoc] at hh
    exact absurd (by simp) (earlier (id' := id) (sf' := sf) (d' := d) (t' := t) hh)
  · rcases List.mem_cons.1 h3 with h3 | h3
    · exact h3
    · exact absurd h3 (earlier hh)

/-- C71: and once the delay is over the attempt goes on, whatever the rest of the runner is doing. -/
theorem C71_goes_on (hr : TReach p ts) {g : G} (hg : g ∈ ts.st.tab.gs) (hp : g.pc = .delaying) {id sf : Nat} {d t0 t : Int}
    (hb : (Ev.begin id g.gid d sf, t0) ∈ ts.stamps) (hd : t0 + d ≤ t) (hn : ts.now ≤ t) :
    ∃ s', step p ts.st (.gTimer g.gid) = some s' ∧ TReach p ⟨s', t, ts.stamps⟩ := by
  have hget := getG_of hr.reach.tab.shape.gidNd hg
  have hs : ∃ s', step p ts.st (.gTimer g.gid) = some s' ∧ s'.tab.hist = ts.st.tab.hist := by
    refine ⟨{ ts.st with tab := ts.st.tab.gto g.gid .ready }, ?_, rfl⟩
    simp [step, Op.cid?, tabStep, hget, hp, State.withTab]
  obtain ⟨s', h1, h2⟩ := hs
  refine ⟨s', h1, ?_⟩
  refine TReach.step (ts := { ts with now := t }) (es := []) _ (hr.tick t hn) h1 ?_ h2
  intro id' d' sf' t0' hm
  cases begin_unique hr hb hm
  exact hd

example : ∃ post mid pre, (RDemo.tAfter RDemo.prm RDemo.opsTimed).stamps =
      post ++ (.startCall 7 1 1, 24) :: (mid ++ (.ended 7 0 (some (.user 1)), 20) :: pre) ∧
    RDemo.prm.restartDelay = 3 ∧ mid = [(.begin 7 1 3 1, 20)] :=
  ⟨(RDemo.tAfter RDemo.prm RDemo.opsTimed).stamps.take 3, [(.begin 7 1 3 1, 20)],
    (RDemo.tAfter RDemo.prm RDemo.opsTimed).stamps.drop 6, by decide +kernel, by decide +kernel, rfl⟩

/-- One unit too early the StartFunc is not called: the execution is not possible. -/
example : RDemo.tRun RDemo.prm ⟨init, 0, []⟩ (RDemo.opsTimed.take 18 ++ [(22, .gTimer 1)]) = none ∧
    (RDemo.tRun RDemo.prm ⟨init, 0, []⟩ (RDemo.opsTimed.take 18 ++ [(23, .gTimer 1)])).isSome = true := by decide +kernel

example : ∃ g ∈ (RDemo.tAfter RDemo.prm (RDemo.opsTimed.take 18)).st.tab.gs, g.pc = .delaying ∧
    (Ev.begin 7 g.gid 3 1, (20 : Int)) ∈ (RDemo.tAfter RDemo.prm (RDemo.opsTimed.take 18)).stamps := by decide +kernel

/-! ## C72: the time Report gives -/

/-- C72: the time a report gives for a worker is the time at which the StartWorker request was accepted that registered it
(left out if that is the zero time). -/
theorem C72_last_start (hr : TReach p ts) {post pre : List (Ev × Int)} {lines : List Line} {t : Int}
    (hh : ts.stamps = post ++ (.report lines, t) :: pre) : ∀ l ∈ lines, ∃ cid rid sf t0,
      knownH (pre.map Prod.fst) l.id = some rid ∧ (Ev.accepted cid l.id rid sf, t0) ∈ pre ∧
      l.lastStart = if t0 = 0 then none else some t0 := by
  have h := hr.tinv.reports
  rw [hh] at h
  exact h.split

/-- C72: so it is not the time at which the worker was last started, as documented (reporter.go:32): here the worker was
registered at time 5 and started again at time 25, and the report made at 30 gives 5. -/
theorem C72_not_updated : ∃ (p : Params) (ts : TState) (lines : List Line) (pre : List (Ev × Int)), TReach p ts ∧
    ts.stamps = (.report lines, 30) :: pre ∧ lines = [⟨7, .started, some 5, true⟩] ∧ instH (pre.map Prod.fst) 7 = some 11 ∧
    (Ev.startOk 7 1 11, (25 : Int)) ∈ pre :=
  ⟨RDemo.prm, RDemo.tAfter RDemo.prm RDemo.opsTimed, [⟨7, .started, some 5, true⟩],
    (RDemo.tAfter RDemo.prm RDemo.opsTimed).stamps.drop 1, RDemo.tAfter_reach .., by decide +kernel, rfl, by decide +kernel,
    by decide +kernel⟩

end Verif.Props
