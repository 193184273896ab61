import Verif.Runner.HistLemmas
import Verif.Props.RunnerDemo

/-!
# Runner properties that speak about the history of every execution

`Reach p s` ranges over every finite execution of a runner with arbitrary parameters and any number of clients;
`s.tab.hist` is its history, newest event first. The properties are written with the functions of
Verif/Spec/Runner.lean.
-/

namespace Verif.Props
open Verif.Spec Verif.Runner Verif.RSpec

variable {p : Params} {s : State}

theorem runner_evOk (hr : Reach p s) : AtEvery (EvOk p) s.tab.hist := hr.tab.evOk
theorem runner_after (hr : Reach p s) : Followed (After p) s.tab.hist := hr.tab.after

/-! ## C12: at most one instance per id -/

/-- C12: between two calls of StartFuncs for the same id the runner has processed the end of the first attempt. -/
theorem C12_one_call_at_a_time (hr : Reach p s) {post mid pre : List Ev} {id g g' sf sf' : Nat}
    (hh : s.tab.hist = post ++ .startCall id g' sf' :: (mid ++ .startCall id g sf :: pre)) :
    ∃ e, .ended id g e ∈ mid := by
  have hk := runner_evOk hr
  rw [hh] at hk
  have h2 := hk.split
  have hm : AtEvery (EvOk p) (mid ++ .startCall id g sf :: pre) := (AtEvery.drop hk).2
  have h1 : EvOk p (.startCall id g sf) pre := hm.split
  apply Classical.byContradiction
  intro hn
  have ho := open_stays hm (h0 := h1.1) (fun e he => hn ⟨e, he⟩)
  rw [h2.1] at ho
  cases ho
  exact phase_late (g := g) hm (by simp [phaseH]) (by simp [phaseH]) h2.2.1

/-- C12, second half: when the StartFunc of an id is called, every worker ever produced for the id has finished. -/
theorem C12_one_worker_at_a_time (hr : Reach p s) {post pre : List Ev} {id g' sf' : Nat}
    (hh : s.tab.hist = post ++ .startCall id g' sf' :: pre) {g w : Nat} (hw : .startOk id g w ∈ pre) :
    ∃ r, .finished w r ∈ pre := by
  have hk := runner_evOk hr
  rw [hh] at hk
  have h2 : EvOk p (.startCall id g' sf') pre := hk.split
  have fin : ∀ (l : List Ev), (finishedH l w).isSome = true → ∃ r, Ev.finished w r ∈ l := by
    intro l
    induction l with
    | nil => intro h; cases h
    | cons e l ih =>
      intro h
      have keep : (finishedH l w).isSome = true → ∃ r, Ev.finished w r ∈ e :: l := by
        intro h; obtain ⟨r, hr⟩ := ih h; exact ⟨r, List.mem_cons_of_mem _ hr⟩
      cases e with
      | finished w' r =>
        simp only [finishedH] at h
        split at h
        · rename_i hx; subst hx; exact ⟨r, List.mem_cons_self⟩
        · exact keep h
      | _ => exact keep h
  rcases startOk_open (AtEvery.drop hk).2 hw with ⟨ho, hp⟩ | hf
  · rw [h2.1] at ho; cases ho
    rw [h2.2.1] at hp; cases hp
  · exact fin _ hf

/-- Two calls for id 7, with the end of the first in between. -/
example : ∃ post mid pre, (RDemo.after RDemo.prm RDemo.opsTwice).tab.hist =
    post ++ .startCall 7 1 1 :: (mid ++ .startCall 7 0 1 :: pre) ∧ .startOk 7 0 10 ∈ mid := by
  refine ⟨[], [.begin 7 1 3 1, .ended 7 0 (some (.user 1)), .finished 10 (some (.user 1)), .learned 7 0 10,
    .startOk 7 0 10], [.ret 0 .ok, .begin 7 0 0 1, .accepted 0 7 0 1, .callStart 0 7 1], ?_, ?_⟩ <;> decide +kernel

/-! ## C13: StartWorker's outcome -/

/-- C13: the runner handles a StartWorker request. `s.tab.pc` says that the loop has received it; `mu` may delay the
step, but when it happens it is one of these. -/
theorem C13_startWorker (hr : Reach p s) {s' : State} {cid id sf : Nat} {now : Int}
    (hpc : s.tab.pc = .act (.start cid id sf)) (h : step p s (.act now) = some s') :
    (shutH s.tab.hist ∧ s'.tab = { s.tab with pc := .reply cid none, hist := .ignored cid id :: s.tab.hist }) ∨
    (¬ shutH s.tab.hist ∧ id ∈ s.tab.workers.keys ∧
      s'.tab = { s.tab with pc := .reply cid (some (.alreadyExists id)), hist := .refused cid id :: s.tab.hist }) ∨
    (¬ shutH s.tab.hist ∧ id ∉ s.tab.workers.keys ∧ s'.tab.pc = .reply cid none ∧
      (∀ x, x ∈ s'.tab.workers.keys ↔ x = id ∨ x ∈ s.tab.workers.keys) ∧
      (∃ rid g, s'.tab.hist = .begin id g 0 sf :: .accepted cid id rid sf :: s.tab.hist ∧
        s'.tab.gs = { gid := g, id := id, delay := 0, sf := sf, ctx := some cid, pc := .ready } :: s.tab.gs)) := by
  have hi := hr.tab.hinv
  have ht : s'.tab = Runner.act p s.tab now (.start cid id sf) := by
    simp only [step, Op.cid?, tabStep, hpc] at h
    split at h
    · simp only [Option.map_some, Option.some.injEq] at h; rw [← h]; rfl
    · cases h
  simp only [Runner.act] at ht
  split at ht
  · rename_i hd
    left
    exact ⟨hi.shut.1 hd, ht⟩
  · rename_i hd
    have hns : ¬ shutH s.tab.hist := fun hx => hd (hi.shut.2 hx)
    right
    split at ht
    · rename_i hw
      left
      exact ⟨hns, (AMap.mem_keys_iff _ _).2 hw, ht⟩
    · rename_i hw
      right
      refine ⟨hns, fun hx => hw ((AMap.mem_keys_iff _ _).1 hx), by rw [ht]; rfl, ?_, ?_⟩
      · intro x
        rw [ht, AMap.mem_keys_iff, AMap.mem_keys_iff]
        show ((s.tab.workers.set id _).get? x).isSome = true ↔ _
        rw [AMap.get?_set]
        split <;> simp_all
      · exact ⟨s.tab.nextR, s.tab.nextG, by rw [ht]; rfl, by rw [ht]; rfl⟩

/-- C13: what the loop replies is what the call returns. -/
theorem C13_reply {s' : State} {cid : Nat} {r : Option Err} (hpc : s.tab.pc = .reply cid r) (h : step p s .reply = some s') :
    s'.tab.hist = .ret cid (match r with | none => .ok | some e => .err e) :: s.tab.hist := by
  cases r <;> (simp only [step, hpc, Option.some.injEq] at h; rw [← h]; rfl)

/-- A request for a known id, one for an unknown id, and one while shutting down. -/
example : ∃ s', (RDemo.after RDemo.prm (RDemo.opsUp ++ [.callStart 7 2, .loopTop, .recvStart 1])).tab.pc =
      .act (.start 1 7 2) ∧
    step RDemo.prm (RDemo.after RDemo.prm (RDemo.opsUp ++ [.callStart 7 2, .loopTop, .recvStart 1])) (.act 5) = some s' ∧
    s'.tab.hist.head? = some (.refused 1 7) ∧
    (RDemo.after RDemo.prm (RDemo.opsStart 0 7 1)).tab.hist.take 3 = [.ret 0 .ok, .begin 7 0 0 1, .accepted 0 7 0 1] ∧
    (RDemo.after RDemo.prm (RDemo.opsUp ++ [.kill, .loopTop, .recvDying, .killAll [7], .killNext, .killNext, .bcast] ++
      RDemo.opsStart 1 8 2)).tab.hist.take 2 = [.ret 1 .ok, .ignored 1 8] := by
  refine ⟨_, by decide +kernel, Option.eq_some_of_isSome (by decide +kernel), ?_⟩ <;> decide +kernel

/-! ## C14: a clean exit removes the worker -/

/-- C14: a worker that ends with nil is removed, at once. -/
theorem C14_clean_exit_removes (hr : Reach p s) {post pre : List Ev} {id g : Nat}
    (hh : s.tab.hist = post ++ .ended id g none :: pre) :
    ∃ l rid, knownH pre id = some rid ∧ post = l ++ [.removed id rid] := by
  have h := runner_after hr post _ pre hh
  exact h.2.1 (by rintro ⟨⟨e, he, _⟩, _⟩; cases he)

/-- C14: and a removed id is not started again unless a StartWorker request for it is accepted. -/
theorem C14_removed_stays_removed (hr : Reach p s) {post mid pre : List Ev} {id rid g sf : Nat}
    (hh : s.tab.hist = post ++ .startCall id g sf :: (mid ++ .removed id rid :: pre)) :
    ∃ cid rid' sf', .accepted cid id rid' sf' ∈ mid := by
  have hk := runner_evOk hr
  rw [hh] at hk
  have h2 := hk.split
  have hm : AtEvery (EvOk p) (mid ++ .removed id rid :: pre) := (AtEvery.drop hk).2
  have h1 : EvOk p (.removed id rid) pre := hm.split
  apply Classical.byContradiction
  intro hn
  have hno : ∀ cid rid sf, Ev.accepted cid id rid sf ∉ mid := fun c r f hx => hn ⟨c, r, f, hx⟩
  have hnb : ∀ g d sf, Ev.begin id g d sf ∉ mid := by
    intro g' d sf' hx
    obtain ⟨a, b, rfl⟩ := mem_split hx
    have hb : AtEvery (EvOk p) (a ++ .begin id g' d sf' :: (b ++ .removed id rid :: pre)) := by simpa using hm
    have he := hb.split
    have hu := unknown_stays (mid := b) (pre := .removed id rid :: pre) (id := id) (by simp [knownH])
      (fun c r f hx => hno c r f (by simp [hx]))
    have := he.1
    rw [hu] at this; cases this
  have hc := closed_stays (mid := mid) (pre := .removed id rid :: pre) (id := id) (by simp only [openH]; exact h1.2.1) hnb
  rw [h2.1] at hc; cases hc

example : ∃ post pre, (RDemo.after RDemo.prm RDemo.opsClean).tab.hist = post ++ .ended 7 0 none :: pre ∧
    post = [.removed 7 0] :=
  ⟨[.removed 7 0], [.finished 10 none, .learned 7 0 10, .startOk 7 0 10, .startCall 7 0 1, .ret 0 .ok, .begin 7 0 0 1,
    .accepted 0 7 0 1, .callStart 0 7 1], by decide +kernel, rfl⟩

/-- Removed, registered again and started again. -/
example : ∃ post mid pre, (RDemo.after RDemo.prm (RDemo.opsClean ++ RDemo.opsStart 1 7 2 ++ [.gCall 1])).tab.hist =
    post ++ .startCall 7 1 2 :: (mid ++ .removed 7 0 :: pre) :=
  ⟨[], [.ret 1 .ok, .begin 7 1 0 2, .accepted 1 7 1 2, .callStart 1 7 2],
    [.ended 7 0 none, .finished 10 none, .learned 7 0 10, .startOk 7 0 10, .startCall 7 0 1, .ret 0 .ok, .begin 7 0 0 1,
    .accepted 0 7 0 1, .callStart 0 7 1], by decide +kernel⟩

/-! ## C15: restarts -/

/-- C15: an attempt that ends with an error that is neither fatal nor refused by ShouldRestart, of an id not told to
stop, is at once followed by a new attempt with the configured delay and the StartFunc of the registration. The id
stays known. -/
theorem C15_restart (hr : Reach p s) {post pre : List Ev} {id g : Nat} {err : Err}
    (hh : s.tab.hist = post ++ .ended id g (some err) :: pre) (hf : p.isFatal err = false)
    (hs : p.shouldRestart err = true) (ht : toldH pre id = false) :
    ∃ l g' sf, sfH pre id = some sf ∧ post = l ++ [.begin id g' p.restartDelay sf] ∧
      (knownH (.begin id g' p.restartDelay sf :: .ended id g (some err) :: pre) id).isSome = true := by
  obtain ⟨l, g', sf, h1, h2⟩ := (runner_after hr post _ pre hh).1 ⟨⟨err, rfl, hf, hs⟩, ht⟩
  refine ⟨l, g', sf, h1, h2, ?_⟩
  have hk := runner_evOk hr
  rw [hh] at hk
  exact (hk.split (e := Ev.ended id g (some err))).1

/-- C15: exactly one: the next attempt of the id begins only after the end of this one. -/
theorem C15_one_attempt (hr : Reach p s) {post mid pre : List Ev} {id g g' sf sf' : Nat} {d d' : Int}
    (hh : s.tab.hist = post ++ .begin id g' d' sf' :: (mid ++ .begin id g d sf :: pre)) :
    ∃ e, .ended id g e ∈ mid := by
  have hk := runner_evOk hr
  rw [hh] at hk
  have h2 := hk.split
  have hm : AtEvery (EvOk p) (mid ++ .begin id g d sf :: pre) := (AtEvery.drop hk).2
  apply Classical.byContradiction
  intro hn
  have ho := open_stays (id := id) (g := g) hm (h0 := by simp [openH]) (fun e he => hn ⟨e, he⟩)
  rw [h2.2.1] at ho; cases ho

/-- C15: the StartFunc that is called is the one the id was registered with, and it is called only for an attempt that
began. -/
theorem C15_same_func (hr : Reach p s) {post pre : List Ev} {id g sf : Nat}
    (hh : s.tab.hist = post ++ .startCall id g sf :: pre) :
    sfH pre id = some sf ∧ openH pre id = some g ∧ phaseH pre g = some .pending := by
  have hk := runner_evOk hr
  rw [hh] at hk
  have h := hk.split (e := Ev.startCall id g sf)
  exact ⟨h.2.2, h.1, h.2.1⟩

/-- C15, the other way round: an attempt only begins because a request was accepted, without delay, or because one
ended with such an error, after the configured delay. -/
theorem C15_only_then (hr : Reach p s) {post pre : List Ev} {id g sf : Nat} {d : Int}
    (hh : s.tab.hist = post ++ .begin id g d sf :: pre) :
    (∃ cid rid, pre.head? = some (.accepted cid id rid sf) ∧ d = 0) ∨
    (∃ g' err, pre.head? = some (.ended id g' (some err)) ∧ p.isFatal err = false ∧ p.shouldRestart err = true ∧
      d = p.restartDelay) := by
  have hk := runner_evOk hr
  rw [hh] at hk
  rcases (hk.split (e := Ev.begin id g d sf)).2.2.2.2.2.2 with h | ⟨g', e, h1, ⟨err, rfl, h2, h3⟩, h4⟩
  · exact Or.inl h
  · exact Or.inr ⟨g', err, h1, h2, h3, h4⟩

/-- The configured delay: what the caller gave, or three seconds if they gave zero. -/
theorem C15_delay (r : RawParams) :
    (applyDefaults r).restartDelay = if r.restartDelay = 0 then 3 * 10 ^ 9 else r.restartDelay := by
  simp [applyDefaults, defaultRestartDelay]

example : ∃ post pre, (RDemo.after RDemo.prm RDemo.opsTwice).tab.hist = post ++ .ended 7 0 (some (.user 1)) :: pre ∧
    RDemo.prm.isFatal (.user 1) = false ∧ RDemo.prm.shouldRestart (.user 1) = true ∧ toldH pre 7 = false ∧
    .begin 7 1 3 1 ∈ post :=
  ⟨[.startCall 7 1 1, .begin 7 1 3 1], [.finished 10 (some (.user 1)), .learned 7 0 10, .startOk 7 0 10,
    .startCall 7 0 1, .ret 0 .ok, .begin 7 0 0 1, .accepted 0 7 0 1, .callStart 0 7 1], by decide +kernel, by decide +kernel,
    by decide +kernel, by decide +kernel, by decide +kernel⟩

/-- An error that ShouldRestart refuses is followed by removal instead. -/
theorem C15_refused_is_removed (hr : Reach p s) {post pre : List Ev} {id g : Nat} {err : Err}
    (hh : s.tab.hist = post ++ .ended id g (some err) :: pre) (hs : p.shouldRestart err = false) :
    ∃ l rid, knownH pre id = some rid ∧ post = l ++ [.removed id rid] := by
  refine (runner_after hr post _ pre hh).2.1 ?_
  rintro ⟨⟨e, he, _, h2⟩, _⟩
  cases he; rw [hs] at h2; cases h2

example : ∃ post pre, (RDemo.after RDemo.prm (RDemo.opsUp ++ RDemo.opsEnd 0 10 (some (.user 5)))).tab.hist =
    post ++ .ended 7 0 (some (.user 5)) :: pre ∧ RDemo.prm.shouldRestart (.user 5) = false ∧ post = [.removed 7 0] :=
  ⟨[.removed 7 0], [.finished 10 (some (.user 5)), .learned 7 0 10, .startOk 7 0 10,
    .startCall 7 0 1, .ret 0 .ok, .begin 7 0 0 1, .accepted 0 7 0 1, .callStart 0 7 1], by decide +kernel,
    by decide +kernel, rfl⟩

/-! ## C18: a stopped worker stays stopped -/

/-- C18: handling StopWorker for a known id tells it to stop at once, and Kills its worker if there is one. -/
theorem C18_stop_kills (hr : Reach p s) {post pre : List Ev} {id : Name} (hh : s.tab.hist = post ++ .stopHandled id :: pre)
    (hkn : (knownH pre id).isSome = true) : ∃ l, post = l ++ [.told id] ∧
      ∀ w, instH pre id = some w → ∃ l, post = l ++ [.killW id w, .told id] := by
  obtain ⟨l, hl⟩ := runner_after hr post _ pre hh hkn
  refine ⟨l, hl, fun w hw => ?_⟩
  have h2 : s.tab.hist = l ++ .told id :: (.stopHandled id :: pre) := by rw [hh, hl]; simp
  obtain ⟨l', hl'⟩ := runner_after hr l _ _ h2 w (by simpa [instH] using hw)
  exact ⟨l', by rw [hl, hl']; simp⟩

/-- What C18 rests on: after StopWorker was handled for a known id, it counts as told until registered again. -/
theorem C18_told {p : Params} {post mid pre : List Ev} {id : Name} {e : Ev} (hk : Followed (After p) (post ++ e :: (mid ++ .stopHandled id :: pre)))
    (hne : e ≠ .told id) (hkn : (knownH pre id).isSome = true) (hno : ∀ cid rid sf, Ev.accepted cid id rid sf ∉ mid) :
    toldH (mid ++ .stopHandled id :: pre) id = true := by
  obtain ⟨l, hl⟩ := hk (post ++ e :: mid) (.stopHandled id) pre (by simp) hkn
  cases hm : mid.reverse with
  | nil =>
    rw [List.reverse_eq_nil_iff] at hm
    subst hm
    rw [List.append_inj_right' (s₁ := post) (t₁ := [e]) hl rfl |> List.cons.inj |>.1] at hne
    exact absurd rfl hne
  | cons x t =>
    have hm' : mid = t.reverse ++ [x] := by
      have := congrArg List.reverse hm; simpa using this
    rw [hm'] at hl hno ⊢
    have hx : x = .told id := by
      have h2 : (post ++ e :: t.reverse) ++ [x] = l ++ [.told id] := by rw [← hl]; simp
      simpa using (List.append_inj' h2 rfl).2
    subst hx
    rw [List.append_assoc]
    exact told_stays (by simp [toldH]) (fun c r f hx => hno c r f (by simp [hx]))

/-- C18: no new attempt is scheduled after that until the id is registered again. -/
theorem C18_no_new_attempt (hr : Reach p s) {post mid pre : List Ev} {id g sf : Nat} {d : Int}
    (hh : s.tab.hist = post ++ .begin id g d sf :: (mid ++ .stopHandled id :: pre))
    (hkn : (knownH pre id).isSome = true) : ∃ cid rid sf', .accepted cid id rid sf' ∈ mid := by
  have hk := runner_evOk hr
  have ha := runner_after hr
  rw [hh] at hk ha
  apply Classical.byContradiction
  intro hn
  have ht := C18_told ha nofun hkn (fun c r f hx => hn ⟨c, r, f, hx⟩)
  have := (hk.split (e := Ev.begin id g d sf)).2.2.1
  rw [ht] at this; cases this

/-- C18: only the attempt that was open when StopWorker was handled may still call the StartFunc (and by C12 only once). -/
theorem C18_only_open_attempt (hr : Reach p s) {post mid pre : List Ev} {id g sf : Nat}
    (hh : s.tab.hist = post ++ .startCall id g sf :: (mid ++ .stopHandled id :: pre))
    (hkn : (knownH pre id).isSome = true) (hno : ∀ cid rid sf', Ev.accepted cid id rid sf' ∉ mid) :
    openH pre id = some g ∧ phaseH pre g = some .pending := by
  have hk := runner_evOk hr
  rw [hh] at hk
  have he : EvOk p (.startCall id g sf) (mid ++ .stopHandled id :: pre) := hk.split
  have hm : AtEvery (EvOk p) (mid ++ .stopHandled id :: pre) := (AtEvery.drop hk).2
  have hnb : ∀ g d sf, Ev.begin id g d sf ∉ mid := by
    intro g' d sf' hx
    obtain ⟨a, b, rfl⟩ := mem_split hx
    obtain ⟨c, r, f, hx⟩ := C18_no_new_attempt (post := post ++ .startCall id g sf :: a) (mid := b) (g := g') (d := d)
      (sf := sf') hr (by rw [hh]; simp) hkn
    exact hno c r f (by simp [hx])
  have ho : openH pre id = some g := by
    cases ho : openH pre id with
    | none =>
      have hc := closed_stays (mid := mid) (pre := .stopHandled id :: pre) (id := id) (by simpa [openH] using ho) hnb
      rw [he.1] at hc; cases hc
    | some g0 =>
      by_cases hex : ∃ e, .ended id g0 e ∈ mid
      · obtain ⟨e, hx⟩ := hex
        obtain ⟨a, b, rfl⟩ := mem_split hx
        have hc := closed_stays (mid := a) (pre := .ended id g0 e :: (b ++ .stopHandled id :: pre)) (id := id)
          (by simp [openH]) (fun g d sf hx => hnb g d sf (by simp [hx]))
        have h1 := he.1
        rw [List.append_assoc, List.cons_append, hc] at h1; cases h1
      · have := open_stays (id := id) (g := g0) hm (h0 := by simpa [openH] using ho) (fun e hx => hex ⟨e, hx⟩)
        rw [he.1] at this; exact this.symm
  refine ⟨ho, ?_⟩
  have hb : AtEvery (EvOk p) (.stopHandled id :: pre) := AtEvery.drop hm
  obtain ⟨x, hx⟩ := open_phase hb.2 ho
  by_cases hp : x = .pending
  · rw [hx, hp]
  · exact absurd he.2.1 (phase_late (g := g) hm (by simp [phaseH, hx]) (by simp [phaseH, hx, hp]))

/-- C18: and a worker it produces is Kill()ed as soon as the runner learns of it. -/
theorem C18_killed_on_arrival (hr : Reach p s) {post mid pre : List Ev} {id g w : Nat}
    (hh : s.tab.hist = post ++ .learned id g w :: (mid ++ .stopHandled id :: pre))
    (hkn : (knownH pre id).isSome = true) (hno : ∀ cid rid sf', Ev.accepted cid id rid sf' ∉ mid) :
    ∃ l, post = l ++ [.killW id w, .told id] := by
  have ha := runner_after hr
  rw [hh] at ha
  exact ha post _ _ rfl (Or.inl (C18_told ha nofun hkn hno))

/-- StopWorker while the StartFunc runs; the worker it returns is Kill()ed on arrival. -/
def RDemo.opsStopStarting : List Op :=
  RDemo.opsStart 0 7 1 ++ [.gCall 0] ++ RDemo.opsStop 1 7 ++ [.gStartOk 0 10, .loopTop, .recvStarted 0, .act 5]

example : ∃ post mid pre, (RDemo.after RDemo.prm RDemo.opsStopStarting).tab.hist =
      post ++ .learned 7 0 10 :: (mid ++ .stopHandled 7 :: pre) ∧ (knownH pre 7).isSome = true ∧
      (∀ cid rid sf', Ev.accepted cid 7 rid sf' ∉ mid) ∧ post = [.killW 7 10, .told 7] :=
  ⟨[.killW 7 10, .told 7], [.startOk 7 0 10, .told 7], [.ret 1 .ok, .callStop 1 7, .startCall 7 0 1, .ret 0 .ok,
    .begin 7 0 0 1, .accepted 0 7 0 1, .callStart 0 7 1], by decide +kernel, by decide +kernel, by simp, rfl⟩

/-- StopWorker before the StartFunc of the first attempt is called: it is called all the same. -/
example : ∃ post mid pre, (RDemo.after RDemo.prm (RDemo.opsStart 0 7 1 ++ RDemo.opsStop 1 7 ++ [.gCall 0])).tab.hist =
      post ++ .startCall 7 0 1 :: (mid ++ .stopHandled 7 :: pre) ∧ (knownH pre 7).isSome = true ∧
      (∀ cid rid sf', Ev.accepted cid 7 rid sf' ∉ mid) :=
  ⟨[], [.told 7], [.ret 1 .ok, .callStop 1 7, .ret 0 .ok, .begin 7 0 0 1, .accepted 0 7 0 1, .callStart 0 7 1],
    by decide +kernel, by decide +kernel, by simp⟩

/-- Stopped, removed, registered again: a new attempt. -/
example : ∃ post mid pre, (RDemo.after RDemo.prm (RDemo.opsUp ++ RDemo.opsStop 1 7 ++ RDemo.opsEnd 0 10 none ++ [.bcast] ++
      RDemo.opsStart 2 7 4)).tab.hist = post ++ .begin 7 1 0 4 :: (mid ++ .stopHandled 7 :: pre) ∧
      (knownH pre 7).isSome = true :=
  ⟨[.ret 2 .ok], [.accepted 2 7 1 4, .callStart 2 7 4, .removed 7 0, .ended 7 0 none, .finished 10 none, .killW 7 10, .told 7],
    [.ret 1 .ok, .callStop 1 7, .learned 7 0 10, .startOk 7 0 10, .startCall 7 0 1, .ret 0 .ok,
    .begin 7 0 0 1, .accepted 0 7 0 1, .callStart 0 7 1], by decide +kernel, by decide +kernel⟩

/-! ## C19: a fatal error or Kill stops everything -/

/-- C19: once the runner is shutting down no id is registered and no attempt is scheduled. -/
theorem C19_nothing_new (hr : Reach p s) {post pre : List Ev} (hh : s.tab.hist = post ++ .shutdown :: pre) :
    (∀ id g d sf, Ev.begin id g d sf ∉ post) ∧ (∀ cid id rid sf, Ev.accepted cid id rid sf ∉ post) := by
  have hk := runner_evOk hr
  rw [hh] at hk
  have mem : ∀ b : List Ev, Ev.shutdown ∈ b ++ .shutdown :: pre := fun b => by simp
  constructor
  · intro id g d sf hx
    obtain ⟨a, b, rfl⟩ := mem_split hx
    have hb : AtEvery (EvOk p) (a ++ .begin id g d sf :: (b ++ .shutdown :: pre)) := by simpa using hk
    exact (hb.split (e := Ev.begin id g d sf)).2.2.2.1 (mem b)
  · intro cid id rid sf hx
    obtain ⟨a, b, rfl⟩ := mem_split hx
    have hb : AtEvery (EvOk p) (a ++ .accepted cid id rid sf :: (b ++ .shutdown :: pre)) := by simpa using hk
    exact (hb.split (e := Ev.accepted cid id rid sf)).2.2.2.1 (mem b)

/-- C19: every worker the runner has learned of has been Kill()ed or has finished. (`killAll` is the loop's next
action after the shutdown began, before it receives anything; it goes from one id to the next.) -/
theorem C19_all_killed (hr : Reach p s) (hs : shutH s.tab.hist) (hpc : s.tab.pc ≠ .killAll) {id g w : Nat}
    (hk : ∀ rest, s.tab.pc = .killing rest → id ∉ rest)
    (hl : .learned id g w ∈ s.tab.hist) : .killW id w ∈ s.tab.hist ∨ (finishedH s.tab.hist w).isSome = true := by
  have hi := hr.tab.hinv
  rcases learned_accounted (runner_evOk hr) hl with h | h | h
  · exfalso
    have hd := hi.shut.2 hs
    rw [hi.inst] at h
    cases hw : s.tab.workers.get? id with
    | none => rw [hw] at h; cases h
    | some i =>
      rw [hw] at h
      have hst : i.stopping = true := by
        rcases hr.tab.shape.dying hd with hx | hx
        · cases hp : s.tab.pc with
          | killAll => exact absurd hp hpc
          | killing rest => exact (hr.tab.shape.rest rest hp id i hw).resolve_right (hk rest hp)
          | _ => rw [hp] at hx; cases hx
        · exact hx id i hw
      have := hr.tab.shape.stopped id i hw hst
      simp [this] at h
  · exact Or.inl h
  · exact Or.inr h

/-- C19: a worker it learns of later is Kill()ed on arrival. -/
theorem C19_killed_on_arrival (hr : Reach p s) {post pre : List Ev} {id g w : Nat}
    (hh : s.tab.hist = post ++ .learned id g w :: pre) (hs : shutH pre) : ∃ l, post = l ++ [.killW id w, .told id] :=
  runner_after hr post _ pre hh (Or.inr hs)

/-- C19: the shutdown begins for no other reason than Kill or a fatal error, and a fatal error always begins it
if it has not begun. -/
theorem C19_why (hr : Reach p s) {post pre : List Ev} (hh : s.tab.hist = post ++ .shutdown :: pre) :
    Ev.kill ∈ pre ∨ ¬ shutH pre ∧ ∃ id rid g err tl, pre = .removed id rid :: .ended id g (some err) :: tl ∧ p.isFatal err = true := by
  have hk := runner_evOk hr
  rw [hh] at hk
  exact hk.split (e := Ev.shutdown)

theorem C19_fatal_shuts_down (hr : Reach p s) {post pre : List Ev} {id g : Nat} {err : Err}
    (hh : s.tab.hist = post ++ .ended id g (some err) :: pre) (hf : p.isFatal err = true) :
    shutH pre ∨ ∃ l rid, post = l ++ [.shutdown, .removed id rid] := by
  by_cases hs : shutH pre
  · exact Or.inl hs
  · exact Or.inr ((runner_after hr post _ pre hh).2.2 err rfl hf hs)

/-- The shutdown after a fatal error: the other worker is Kill()ed. -/
example : let s := RDemo.after RDemo.prm (RDemo.opsTwo ++ RDemo.opsEnd 0 10 (some (.user 91)) ++ [.killAll [8], .killNext])
    Ev.shutdown ∈ s.tab.hist ∧ s.tab.pc = .killing [] ∧ .learned 8 1 11 ∈ s.tab.hist ∧ .killW 8 11 ∈ s.tab.hist := by
  decide +kernel

/-- A worker that arrives after Kill. -/
example : let s := RDemo.after RDemo.prm (RDemo.opsStart 0 7 1 ++ [.gCall 0, .kill, .loopTop, .recvDying, .killAll [7], .killNext, .killNext, .bcast,
      .gStartOk 0 10, .loopTop, .recvStarted 0, .act 1])
    s.tab.hist.take 5 = [.killW 7 10, .told 7, .learned 7 0 10, .startOk 7 0 10, .told 7] ∧ Ev.shutdown ∈ s.tab.hist := by
  decide +kernel

/-! ## C20: no worker outlives the runner -/

/-- C20: when the loop has returned, every attempt has ended and every worker produced has finished; and nothing
happens to any worker of the runner any more. -/
theorem C20_exit (hr : Reach p s) {post pre : List Ev} (hh : s.tab.hist = post ++ .exit :: pre) :
    (∀ id g d sf, Ev.begin id g d sf ∈ pre → ∃ e, .ended id g e ∈ pre) ∧
    (∀ id g w, Ev.startOk id g w ∈ pre → (finishedH pre w).isSome = true) ∧
    (∀ id, (∀ cid rid sf, Ev.accepted cid id rid sf ∉ post) ∧ (∀ g d sf, Ev.begin id g d sf ∉ post) ∧
      (∀ g sf, Ev.startCall id g sf ∉ post) ∧ (∀ g w, Ev.startOk id g w ∉ post)) := by
  have hk := runner_evOk hr
  rw [hh] at hk
  have he := hk.split (e := Ev.exit)
  have hp : AtEvery (EvOk p) pre := (AtEvery.drop hk).2
  have mem : ∀ b : List Ev, Ev.shutdown ∈ b ++ .exit :: pre := fun b => by simp [show Ev.shutdown ∈ pre from he.1]
  have hnb : ∀ id g d sf, Ev.begin id g d sf ∉ post := by
    intro id g d sf hx
    obtain ⟨a, b, rfl⟩ := mem_split hx
    have hb : AtEvery (EvOk p) (a ++ .begin id g d sf :: (b ++ .exit :: pre)) := by simpa using hk
    exact (hb.split (e := Ev.begin id g d sf)).2.2.2.1 (mem b)
  have hcl : ∀ (b a : List Ev) id x, post = a ++ x :: b → openH (b ++ .exit :: pre) id = none := by
    intro b a id x hx
    exact closed_stays (by simpa [openH] using (he.2 id).2) (fun g d sf hm => hnb id g d sf (by rw [hx]; simp [hm]))
  refine ⟨?_, ?_, ?_⟩
  · intro id g d sf hm
    rcases begin_open hp hm with ho | hx
    · rw [(he.2 id).2] at ho; cases ho
    · exact hx
  · intro id g w hm
    rcases startOk_open hp hm with ⟨ho, _⟩ | hf
    · rw [(he.2 id).2] at ho; cases ho
    · exact hf
  · intro id
    refine ⟨?_, hnb id, ?_, ?_⟩
    · intro cid rid sf hx
      obtain ⟨a, b, rfl⟩ := mem_split hx
      have hb : AtEvery (EvOk p) (a ++ .accepted cid id rid sf :: (b ++ .exit :: pre)) := by simpa using hk
      exact (hb.split (e := Ev.accepted cid id rid sf)).2.2.2.1 (mem b)
    · intro g sf hx
      obtain ⟨a, b, rfl⟩ := mem_split hx
      have hb : AtEvery (EvOk p) (a ++ .startCall id g sf :: (b ++ .exit :: pre)) := by simpa using hk
      have := (hb.split (e := Ev.startCall id g sf)).1
      rw [hcl b a id _ rfl] at this; cases this
    · intro g w hx
      obtain ⟨a, b, rfl⟩ := mem_split hx
      have hb : AtEvery (EvOk p) (a ++ .startOk id g w :: (b ++ .exit :: pre)) := by simpa using hk
      have := (hb.split (e := Ev.startOk id g w)).1
      rw [hcl b a id _ rfl] at this; cases this

/-- Wait returns only after the loop has returned. -/
theorem wait_exit (hr : Reach p s) {r : Option Err} (hw : waitResult s = some r) : Ev.exit ∈ s.tab.hist := by
  have hi := hr.tab.hinv
  apply hi.exit.1
  apply Classical.byContradiction
  intro hpc
  unfold waitResult Tomb.wait at hw
  rw [hi.tomb hpc] at hw
  unfold aliveTomb at hw
  split at hw <;> cases hw

/-- C20, as a caller of Wait sees it. -/
theorem C20_wait (hr : Reach p s) {r : Option Err} (hw : waitResult s = some r) :
    (∀ id g d sf, Ev.begin id g d sf ∈ s.tab.hist → ∃ e, .ended id g e ∈ s.tab.hist) ∧
    (∀ id g w, Ev.startOk id g w ∈ s.tab.hist → (finishedH s.tab.hist w).isSome = true) := by
  obtain ⟨post, pre, hh⟩ := mem_split (wait_exit hr hw)
  obtain ⟨h1, h2, h3⟩ := C20_exit hr hh
  have hk := runner_evOk hr
  constructor
  · intro id g d sf hm
    rw [hh] at hm
    rcases List.mem_append.1 hm with hm | hm
    · exact absurd hm ((h3 id).2.1 g d sf)
    · rcases List.mem_cons.1 hm with hm | hm
      · cases hm
      · obtain ⟨e, he⟩ := h1 id g d sf hm
        exact ⟨e, by rw [hh]; simp [he]⟩
  · intro id g w hm
    rw [hh] at hm
    rcases List.mem_append.1 hm with hm | hm
    · exact absurd hm ((h3 id).2.2.2 g w)
    · rcases List.mem_cons.1 hm with hm | hm
      · cases hm
      · obtain ⟨r, hr⟩ := Option.isSome_iff_exists.1 (h2 id g w hm)
        rw [hh] at hk
        have := finished_stays (mid := post ++ [Ev.exit]) (pre := pre) (by simpa using hk) hr
        rw [hh, show post ++ Ev.exit :: pre = post ++ [Ev.exit] ++ pre by simp, this]; rfl

example : let s := RDemo.after RDemo.prm (RDemo.opsFatal 91 92)
    waitResult s = some (some (.user 92)) ∧ .startOk 8 1 11 ∈ s.tab.hist ∧ .begin 8 1 0 2 ∈ s.tab.hist := by
  decide +kernel

/-! ## C21: the loop never crashes or blocks on its own bookkeeping -/

/-- C21. `crashed` is set by a nil dereference in setWorker (runner.go:575) or workerDone (508), and by a send on a
`done` channel whose buffer is full (567). -/
theorem C21_never_crashes (hr : Reach p s) : s.tab.crashed = false := hr.tab.shape.fine

/-- C21, in terms of the messages: the loop knows every id that a notification it handles is about. -/
theorem C21_known (hr : Reach p s) :
    (∀ gid id w, s.tab.pc = .act (.started gid id w) → id ∈ s.tab.workers.keys) ∧
    (∀ gid id e, s.tab.pc = .act (.done gid id e) → id ∈ s.tab.workers.keys) := by
  have hs := hr.tab.shape
  constructor
  · intro gid id w h
    obtain ⟨g, hg, _, rfl⟩ := hs.actStarted _ _ _ h
    exact (AMap.mem_keys_iff _ _).2 ((hs.known g.id).2 (List.mem_map.2 ⟨g, hg, rfl⟩))
  · intro gid id e h
    obtain ⟨g, hg, _, rfl, _⟩ := hs.actDone _ _ _ h
    exact (AMap.mem_keys_iff _ _).2 ((hs.known g.id).2 (List.mem_map.2 ⟨g, hg, rfl⟩))

example : (RDemo.after RDemo.prm (RDemo.opsUp ++ [.finish 10 none, .gWaitRet 0, .loopTop, .recvDone 0])).tab.pc =
    .act (.done 0 7 none) ∧ (RDemo.after RDemo.prm (RDemo.opsFatal 91 92)).tab.tokens = [1, 0] := by decide +kernel

/-! ## C16, C17: what Wait returns -/

/-- The tomb once the loop has returned. -/
def EndTomb (t : Tab) : Prop :=
  (t.tomb.dead = true ∧ t.tomb.panicked = false ∧ t.finalError ≠ some .tombStillAlive ∧
    t.tomb.reason = some (if t.finalError = some .tombDying then none else t.finalError)) ∨
  (t.tomb.dead = false ∧ t.tomb.panicked = true ∧
    (t.finalError = some .tombStillAlive ∨ t.finalError = some .tombDying))

theorem endTomb (hr : ReachT p t) : t.pc = .exited → EndTomb t := by
  induction hr with
  | init => intro h; cases h
  | @step t t' hr hT ih =>
    have key : t'.pc = t.pc → t'.tomb = t.tomb → t'.finalError = t.finalError → t'.pc = .exited → EndTomb t' := by
      intro h1 h2 h3 h4
      have := ih (h1 ▸ h4)
      unfold EndTomb at *
      rw [h2, h3]; exact this
    cases hT with
    | same => exact ih
    | quiet e he hq => exact key rfl rfl rfl
    | kill =>
      intro hpc
      have h := ih hpc
      unfold EndTomb at *
      rcases h with ⟨h1, h2, h3, h4⟩ | ⟨h1, h2, h3⟩
      · left
        have : t.tomb.kill none = t.tomb := Tomb.kill_none_of_dying _ (by unfold Tomb.dying; rw [h4]; rfl)
        refine ⟨?_, ?_, h3, ?_⟩
        · show (t.tomb.kill none).dead = true; rw [this]; exact h1
        · show (t.tomb.kill none).panicked = false; rw [this]; exact h2
        · show (t.tomb.kill none).reason = _; rw [this]; exact h4
      · right
        refine ⟨?_, ?_, h3⟩
        · show (t.tomb.kill none).dead = false; rw [Tomb.kill_dead]; exact h1
        · show (t.tomb.kill none).panicked = true; rw [Tomb.kill_none_panicked]; exact h2
    | exit hpc hd hw =>
      intro _
      have ht := hr.hinv.tomb (by simp [hpc])
      unfold EndTomb
      show (let tb := t.tomb.finish t.finalError; _)
      simp only [Tab.goTo, Tab.log]
      rw [ht]
      generalize t.finalError = f
      generalize t.hist.contains .kill = k
      by_cases h1 : f = some .tombStillAlive
      · subst h1; right; cases k <;> decide
      · by_cases h2 : f = some .tombDying
        · subst h2; cases k
          · right; decide
          · left; simp [aliveTomb, Tomb.finish, Tomb.kill]
        · left
          cases k <;> simp [aliveTomb, Tomb.finish, Tomb.kill, h1, h2]
    | done gid id e hpc =>
      intro hx
      exfalso
      unfold workerDone at hx
      split at hx
      · simp [hpc] at hx
      · simp only at hx
        split at hx
        · simp [Tab.goTo] at hx
        · unfold beginShutdown at hx; split at hx <;> simp [Tab.goTo] at hx
        · simp [Tab.goTo] at hx
    | _ => first | exact key rfl rfl rfl | (intro hx; simp [Tab.goTo] at hx; done)

/-- The error Wait should return: the fatal errors that workers ended with, combined by MoreImportant in the order in
which they were processed. -/
def fatalResult (p : Params) (h : List Ev) : Option Err := pick p.moreImportant (fatals p.isFatal h)

/-- C16: what Wait returns. tomb.ErrDying as the final error counts as nil. -/
theorem C16_wait (hr : Reach p s) {r : Option Err} (hw : waitResult s = some r) :
    r = if fatalResult p s.tab.hist = some .tombDying then none else fatalResult p s.tab.hist := by
  have he := hr.tab.hinv.exit.2 (wait_exit hr hw)
  have hf : s.tab.finalError = fatalResult p s.tab.hist := hr.tab.hinv.final
  rw [← hf]
  unfold waitResult Tomb.wait at hw
  rcases endTomb hr.tab he with ⟨h1, _, _, h2⟩ | ⟨h1, _⟩
  · rw [h1, h2] at hw; simpa using hw.symm
  · rw [h1] at hw; cases hw

/-- C16: and Wait does return it once the loop has returned. -/
theorem C16_wait_returns (hr : Reach p s) (he : Ev.exit ∈ s.tab.hist) (ho : Tomb.Ordinary (fatalResult p s.tab.hist)) :
    waitResult s = some (fatalResult p s.tab.hist) := by
  have hf : s.tab.finalError = fatalResult p s.tab.hist := hr.tab.hinv.final
  unfold waitResult Tomb.wait
  rcases endTomb hr.tab (hr.tab.hinv.exit.2 he) with ⟨h1, _, _, h2⟩ | ⟨_, _, h3⟩
  · rw [h1, h2, hf, if_neg ho.2]; rfl
  · rw [hf] at h3
    rcases h3 with h3 | h3
    · exact absurd h3 ho.1
    · exact absurd h3 ho.2

/-- C16, the remaining case: tomb.ErrStillAlive as the final error panics in the tomb (and so does tomb.ErrDying when
the runner had not been killed), and Wait never returns. -/
theorem C16_still_alive (hr : Reach p s) (he : Ev.exit ∈ s.tab.hist)
    (hf : fatalResult p s.tab.hist = some .tombStillAlive) : waitResult s = none ∧ s.tab.tomb.panicked = true := by
  have hf' : s.tab.finalError = fatalResult p s.tab.hist := hr.tab.hinv.final
  unfold waitResult Tomb.wait
  rcases endTomb hr.tab (hr.tab.hinv.exit.2 he) with ⟨_, _, h1, _⟩ | ⟨h1, h2, _⟩
  · rw [hf'] at h1; exact absurd hf h1
  · rw [h1]; exact ⟨rfl, h2⟩

/-- The runner had been killed when its loop returned. -/
def killBefore : List Ev → Bool
  | [] => false
  | .exit :: h => h.contains .kill
  | _ :: h => killBefore h

theorem dyingTomb (hr : ReachT p t) : t.pc = .exited → t.finalError = some .tombDying →
    (t.tomb.panicked = true ↔ killBefore t.hist = false) := by
  induction hr with
  | init => intro h; cases h
  | @step t t' hr hT ih =>
    have key : t'.pc = t.pc → t'.tomb = t.tomb → t'.finalError = t.finalError → killBefore t'.hist = killBefore t.hist →
        t'.pc = .exited → t'.finalError = some .tombDying → (t'.tomb.panicked = true ↔ killBefore t'.hist = false) := by
      intro h1 h2 h3 h0 h4 h5
      rw [h2, h0]
      exact ih (h1 ▸ h4) (h3 ▸ h5)
    cases hT with
    | same => exact ih
    | quiet e he hq =>
      refine key rfl rfl rfl ?_
      cases e <;> first | rfl | cases he
    | kill =>
      intro hpc hf
      show (t.tomb.kill none).panicked = true ↔ killBefore (.kill :: t.hist) = false
      rw [Tomb.kill_none_panicked]
      exact ih hpc hf
    | exit hpc hd hw =>
      intro _
      have ht := hr.hinv.tomb (by simp [hpc])
      show t.finalError = some .tombDying →
        ((t.tomb.finish t.finalError).panicked = true ↔ t.hist.contains .kill = false)
      intro hf
      rw [ht, hf]
      generalize t.hist.contains .kill = k
      cases k <;> decide
    | done gid id e hpc =>
      intro hx
      exfalso
      unfold workerDone at hx
      split at hx
      · simp [hpc] at hx
      · simp only at hx
        split at hx
        · simp [Tab.goTo] at hx
        · unfold beginShutdown at hx; split at hx <;> simp [Tab.goTo] at hx
        · simp [Tab.goTo] at hx
    | _ => first | exact key rfl rfl rfl rfl | (intro hx; simp [Tab.goTo] at hx; done)

theorem killBefore_of (post : List Ev) {pre : List Ev} (hp : .exit ∉ post) : killBefore (post ++ .exit :: pre) = pre.contains .kill := by
  induction post with
  | nil => rfl
  | cons e l ih =>
    rw [List.mem_cons, not_or] at hp
    rw [← ih hp.2]
    cases e <;> first | rfl | exact absurd rfl hp.1

/-- C16, the last case: tomb.ErrDying as the final error. It is dropped if the runner had been killed before its loop returned;
otherwise it panics in the tomb, and Wait never returns. -/
theorem C16_dying (hr : Reach p s) {post pre : List Ev} (hh : s.tab.hist = post ++ .exit :: pre) (hp : .exit ∉ post)
    (hf : fatalResult p s.tab.hist = some .tombDying) :
    (.kill ∈ pre → waitResult s = some none) ∧ (.kill ∉ pre → waitResult s = none ∧ s.tab.tomb.panicked = true) := by
  have hf' : s.tab.finalError = some .tombDying := hr.tab.hinv.final.trans hf
  have he := hr.tab.hinv.exit.2 (hh ▸ List.mem_append_right _ List.mem_cons_self)
  have hk := dyingTomb hr.tab he hf'
  rw [hh, killBefore_of post hp] at hk
  unfold waitResult Tomb.wait
  rcases endTomb hr.tab he with ⟨h1, h2, _, h3⟩ | ⟨h1, h2, _⟩
  · rw [h1, h3, if_pos hf']
    refine ⟨fun _ => rfl, fun hn => ?_⟩
    rw [h2] at hk
    have := hk.2 (by simpa using hn)
    cases this
  · rw [h1]
    refine ⟨fun hm => ?_, fun _ => ⟨rfl, h2⟩⟩
    have := hk.1 h2
    simp [hm] at this

theorem mem_fatals (f : Err → Bool) (h : List Ev) (err : Err) :
    err ∈ fatals f h ↔ f err = true ∧ ∃ id g, .ended id g (some err) ∈ h := by
  induction h with
  | nil => simp [fatals]
  | cons e h ih =>
    have keep : fatals f (e :: h) = fatals f h → (∀ id g, e ≠ .ended id g (some err)) →
        (err ∈ fatals f (e :: h) ↔ f err = true ∧ ∃ id g, .ended id g (some err) ∈ e :: h) := by
      intro h2 h3
      rw [h2, ih]
      constructor
      · rintro ⟨h4, id, g, hm⟩; exact ⟨h4, id, g, List.mem_cons_of_mem _ hm⟩
      · rintro ⟨h4, id, g, hm⟩
        rcases List.mem_cons.1 hm with hm | hm
        · exact absurd hm.symm (h3 id g)
        · exact ⟨h4, id, g, hm⟩
    cases e with
    | ended m k r =>
      cases r with
      | none => exact keep rfl (by intros; nofun)
      | some err' =>
        by_cases hf : f err' = true
        · simp only [fatals, hf, if_true, List.mem_cons, ih]
          constructor
          · rintro (rfl | ⟨h4, id, g, hm⟩)
            · exact ⟨hf, m, k, Or.inl rfl⟩
            · exact ⟨h4, id, g, Or.inr hm⟩
          · rintro ⟨h4, id, g, hm | hm⟩
            · cases hm; exact Or.inl rfl
            · exact Or.inr ⟨h4, id, g, hm⟩
        · simp only [fatals, hf, Bool.false_eq_true, if_false, List.mem_cons, ih]
          constructor
          · rintro ⟨h4, id, g, hm⟩; exact ⟨h4, id, g, Or.inr hm⟩
          · rintro ⟨h4, id, g, hm | hm⟩
            · cases hm; exact absurd h4 hf
            · exact ⟨h4, id, g, hm⟩
    | _ => exact keep rfl (by intros; nofun)

/-- What `fatalResult` is made of: nil iff no worker ended with a fatal error, and otherwise one of those errors. -/
theorem C16_nil_iff (h : List Ev) :
    fatalResult p h = none ↔ ∀ id g err, .ended id g (some err) ∈ h → p.isFatal err = false := by
  have h1 : ∀ l : List Err, pick p.moreImportant l = none ↔ l = [] := by
    intro l
    cases l with
    | nil => simp [pick]
    | cons e l => simp only [pick]; split <;> simp
  rw [fatalResult, h1, List.eq_nil_iff_forall_not_mem]
  constructor
  · intro hx id g err hm
    cases hf : p.isFatal err with
    | false => rfl
    | true => exact absurd ((mem_fatals _ _ _).2 ⟨hf, id, g, hm⟩) (hx err)
  · intro hx err hm
    obtain ⟨hf, id, g, hm⟩ := (mem_fatals _ _ _).1 hm
    rw [hx id g err hm] at hf; cases hf

/-- C16: the result is one of the fatal errors workers ended with. -/
theorem C16_is_fatal (h : List Ev) {err : Err} (he : fatalResult p h = some err) :
    p.isFatal err = true ∧ ∃ id g, .ended id g (some err) ∈ h := by
  have h1 : ∀ (l : List Err) (e : Err), pick p.moreImportant l = some e → e ∈ l := by
    intro l
    induction l with
    | nil => intro e he; cases he
    | cons a l ih =>
      intro e he
      simp only [pick] at he
      split at he
      · cases he; exact List.mem_cons_self
      · rename_i f hf
        cases he
        split
        · exact List.mem_cons_self
        · exact List.mem_cons_of_mem _ (ih _ hf)
  exact (mem_fatals _ _ _).1 (h1 _ _ he)

/-- C16: if MoreImportant is a strict weak order, no fatal error was more important than the result. -/
theorem C16_most_important (h : List Ev) {err : Err} (he : fatalResult p h = some err)
    (asymm : ∀ a b, p.moreImportant a b = true → p.moreImportant b a = false)
    (trans : ∀ a b c, p.moreImportant a b = false → p.moreImportant b c = false → p.moreImportant a c = false)
    {id g : Nat} {x : Err} (hx : .ended id g (some x) ∈ h) (hf : p.isFatal x = true) : p.moreImportant x err = false := by
  have irr : ∀ a, p.moreImportant a a = false := by
    intro a
    cases hm : p.moreImportant a a with
    | false => rfl
    | true => have := asymm a a hm; rw [hm] at this; exact this
  have h1 : ∀ (l : List Err) (e : Err), pick p.moreImportant l = some e → ∀ x ∈ l, p.moreImportant x e = false := by
    intro l
    induction l with
    | nil => intro e he; cases he
    | cons a l ih =>
      intro e he x hx
      simp only [pick] at he
      split at he
      · rename_i hn
        cases he
        have : l = [] := by
          cases l with
          | nil => rfl
          | cons b l => simp only [pick] at hn; split at hn <;> cases hn
        subst this
        rcases List.mem_cons.1 hx with rfl | hx
        · exact irr _
        · cases hx
      · rename_i f hf
        cases he
        split
        · rename_i hm
          rcases List.mem_cons.1 hx with rfl | hx
          · exact irr _
          · exact trans _ _ _ (ih f hf x hx) (asymm _ _ hm)
        · rename_i hm
          rcases List.mem_cons.1 hx with rfl | hx
          · simpa using hm
          · exact ih f hf x hx
  exact h1 _ _ he x ((mem_fatals _ _ _).2 ⟨hf, id, g, hx⟩)

/-- Two fatal errors, in both orders; the more important one is returned. -/
example : waitResult (RDemo.after RDemo.prm (RDemo.opsFatal 91 92)) = some (some (.user 92)) ∧
    waitResult (RDemo.after RDemo.prm (RDemo.opsFatal 92 91)) = some (some (.user 92)) ∧
    Ev.exit ∈ (RDemo.after RDemo.prm (RDemo.opsFatal 92 91)).tab.hist := by decide +kernel

/-- Killed with nothing wrong: nil. -/
example : waitResult (RDemo.after RDemo.prm (RDemo.opsUp ++ [.kill, .loopTop, .recvDying, .killAll [7], .killNext, .killNext, .bcast] ++
    RDemo.opsEnd 0 10 none ++ [.bcast, .loopTop])) = some none := by decide +kernel

/-- A worker ends with tomb.ErrDying: Kill()ed, nil; otherwise, a panic in the tomb. -/
example : let p := { RDemo.prm with isFatal := fun _ => true }
    let s := RDemo.after p (RDemo.opsUp ++ [.kill, .loopTop, .recvDying, .killAll [7], .killNext, .killNext, .bcast] ++
      RDemo.opsEnd 0 10 (some .tombDying) ++ [.bcast, .loopTop])
    let s' := RDemo.after p (RDemo.opsUp ++ RDemo.opsEnd 0 10 (some .tombDying) ++
      [.killAll [], .killNext, .bcast, .loopTop])
    fatalResult p s.tab.hist = some .tombDying ∧ fatalResult p s'.tab.hist = some .tombDying ∧
    s.tab.hist.head? = some .exit ∧ s'.tab.hist.head? = some .exit ∧ waitResult s = some none ∧
    waitResult s' = none ∧ s'.tab.tomb.panicked = true := by decide +kernel

/-- The order of `RDemo.prm` on the errors it tells apart meets the hypotheses of `C16_most_important`. -/
example (a b c : Nat) : (RDemo.prm.moreImportant (.user a) (.user b) = true →
      RDemo.prm.moreImportant (.user b) (.user a) = false) ∧
    (RDemo.prm.moreImportant (.user a) (.user b) = false → RDemo.prm.moreImportant (.user b) (.user c) = false →
      RDemo.prm.moreImportant (.user a) (.user c) = false) := by
  simp only [RDemo.prm, decide_eq_true_eq, decide_eq_false_iff_not]; omega

/-- C17, what the code does: with MoreImportant nil, the last fatal error processed is returned. -/
theorem C17_last_wins (raw : RawParams) (hm : raw.moreImportant = none) (hr : Reach (applyDefaults raw) s) {r : Option Err}
    (hw : waitResult s = some r) :
    r = if (fatals (applyDefaults raw).isFatal s.tab.hist).head? = some .tombDying then none
      else (fatals (applyDefaults raw).isFatal s.tab.hist).head? := by
  have h1 : ∀ l, pick (applyDefaults raw).moreImportant l = l.head? := by
    intro l
    cases l with
    | nil => rfl
    | cons e l =>
      simp only [pick, List.head?_cons]
      split
      · rfl
      · simp [applyDefaults, hm]
  have := C16_wait hr hw
  rw [fatalResult, h1] at this
  exact this

/-- C17, the documented behaviour is not what happens: "If MoreImportant is nil, the first error reported will be
returned" (runner.go:168-171). Id 7 ends with `user 91` first, id 8 with `user 92` later; Wait returns the later one. -/
theorem C17_documented_false : ∃ (raw : RawParams) (s : State), raw.moreImportant = none ∧ Reach (applyDefaults raw) s ∧
    ∃ first last, fatals (applyDefaults raw).isFatal s.tab.hist = [last, first] ∧ first ≠ last ∧
      waitResult s = some (some last) :=
  ⟨RDemo.raw, RDemo.after (applyDefaults RDemo.raw) (RDemo.opsFatal 91 92), rfl, RDemo.after_reach _ _,
    .user 91, .user 92, by decide +kernel, by decide, by decide +kernel⟩

/-! ## C28: Report and WorkerNames -/

/-- C28: every report lists exactly the ids known to the runner, each once, as started if the runner holds a worker
for it and as stopped otherwise. -/
theorem C28_report (hr : Reach p s) {post pre : List Ev} {lines : List Line} (hh : s.tab.hist = post ++ .report lines :: pre) :
    (lines.map Line.id).Nodup ∧ (∀ id, id ∈ lines.map Line.id ↔ (knownH pre id).isSome = true) ∧
    ∀ l ∈ lines, l.status = (if (instH pre l.id).isSome then .started else .stopped) ∧
      l.nested = (instH pre l.id).isSome := by
  have hk := runner_evOk hr
  rw [hh] at hk
  exact hk.split (e := Ev.report lines)

/-- C28: in particular 'stopping' is never reported. -/
theorem C28_never_stopping (hr : Reach p s) {lines : List Line} (hm : .report lines ∈ s.tab.hist) :
    ∀ l ∈ lines, l.status ≠ .stopping := by
  obtain ⟨post, pre, hh⟩ := mem_split hm
  intro l hl
  rw [((C28_report hr hh).2.2 l hl).1]
  split <;> nofun

theorem C28_names (hr : Reach p s) {post pre : List Ev} {l : List Name} (hh : s.tab.hist = post ++ .names l :: pre) :
    l.Nodup ∧ ∀ id, id ∈ l ↔ (knownH pre id).isSome = true := by
  have hk := runner_evOk hr
  rw [hh] at hk
  exact hk.split (e := Ev.names l)

/-- 7 has a worker; 8 is registered without one; and 7 is reported as stopped once told to stop, while its worker runs. -/
example : (RDemo.after RDemo.prm (RDemo.opsUp ++ RDemo.opsStart 1 8 2 ++ [.report [7, 8], .names [8, 7]])).tab.hist.take 2 =
      [.names [8, 7], .report [⟨7, .started, some 100, true⟩, ⟨8, .stopped, some 100, false⟩]] ∧
    (RDemo.after RDemo.prm (RDemo.opsUp ++ RDemo.opsStop 1 7 ++ [.report [7]])).tab.hist.head? =
      some (.report [⟨7, .stopped, some 100, false⟩]) := by decide +kernel

end Verif.Props
