import Verif.Props.RunnerClients
import Verif.Runner.Requests

/-!
# Runner: decisions about StartWorker requests, and the contexts given to StartFuncs
-/

namespace Verif.Props
open Verif.Spec Verif.Runner Verif.RSpec

variable {p : Params} {s : State}

theorem runner_req (hr : Reach p s) {post pre : List Ev} {e : Ev} (hh : s.tab.hist = post ++ e :: pre) : ReqOk e pre := by
  have h := hr.rinv.req
  rw [hh] at h
  exact h.split

/-- C13: the runner only accepts, refuses or ignores a request that a StartWorker call has made and waits for, and
decides about each at most once. -/
theorem C13_decided (hr : Reach p s) {post pre : List Ev} {e : Ev} {cid : Nat} {id : Name}
    (hh : s.tab.hist = post ++ e :: pre)
    (he : (∃ rid sf, e = .accepted cid id rid sf) ∨ e = .refused cid id ∨ e = .ignored cid id) :
    ∃ sf, callH pre cid = some (.start id sf) ∧ (∀ rid sf', e = .accepted cid id rid sf' → sf' = sf) ∧
      (∀ r, .ret cid r ∉ pre) ∧
      (∀ id' rid sf', .accepted cid id' rid sf' ∉ pre) ∧ (∀ id', .refused cid id' ∉ pre) ∧ ∀ id', .ignored cid id' ∉ pre := by
  have h := runner_req hr hh
  rcases he with ⟨rid, sf, rfl⟩ | rfl | rfl
  · obtain ⟨h1, h2, h3⟩ := h
    exact ⟨sf, h1, fun _ _ hx => by cases hx; rfl, h2, h3⟩
  · obtain ⟨sf, h1, h2, h3⟩ := h
    exact ⟨sf, h1, nofun, h2, h3⟩
  · obtain ⟨sf, h1, h2, h3⟩ := h
    exact ⟨sf, h1, nofun, h2, h3⟩

/-- Two calls for the same id: the first is accepted, the second refused. -/
example : ∃ post mid pre, (RDemo.after RDemo.prm (RDemo.opsUp ++ RDemo.opsStart 1 7 2)).tab.hist =
    post ++ .refused 1 7 :: (mid ++ .accepted 0 7 0 1 :: pre) :=
  ⟨[.ret 1 (.err (.alreadyExists 7))],
   [.callStart 1 7 2, .learned 7 0 10, .startOk 7 0 10, .startCall 7 0 1, .ret 0 .ok, .begin 7 0 0 1],
   [.callStart 0 7 1], by decide +kernel⟩

/-! ## C64: the context given to a StartFunc -/

/-- C64: whenever the StartFunc of an attempt, or the worker it returned, looks at the context it was given, it finds it
done exactly if the runner has been killed, or the attempt is the first one for a StartWorker request and the context
given to StartWorker is done. -/
theorem C64_context (hr : Reach p s) {post pre : List Ev} {g : Nat} {b : Bool} (hh : s.tab.hist = post ++ .ctx g b :: pre) :
    (b = true ↔ .kill ∈ pre ∨ ∃ cid, parentH pre g = some cid ∧ .cancelled cid ∈ pre) :=
  (runner_req hr hh).2

/-- Killed: the context is done. Alive: it is not. -/
example : (∃ post pre, (RDemo.after RDemo.prm (RDemo.opsUp ++ [.gCtx 0, .kill, .gCtx 0])).tab.hist =
    post ++ .ctx 0 true :: .kill :: .ctx 0 false :: pre) :=
  ⟨[], [.learned 7 0 10, .startOk 7 0 10, .startCall 7 0 1, .ret 0 .ok, .begin 7 0 0 1, .accepted 0 7 0 1, .callStart 0 7 1],
   by decide +kernel⟩

/-- C64: it is looked at while the StartFunc is called or its worker has not been seen to end. -/
theorem C64_when (hr : Reach p s) {post pre : List Ev} {g : Nat} {b : Bool} (hh : s.tab.hist = post ++ .ctx g b :: pre) :
    phaseH pre g = some .calling ∨ ∃ w, phaseH pre g = some (.running w) :=
  (runner_req hr hh).1

/-- Which call an attempt's context belongs to is settled when the attempt begins. -/
theorem parentH_begin {h a c : List Ev} {id g sf : Nat} {d : Int} (hk : AtEvery (EvOk p) h)
    (hh : h = a ++ .begin id g d sf :: c) :
    parentH h g = match c.head? with
      | some (.accepted cid _ _ _) => some cid
      | _ => none := by
  rw [hh] at hk ⊢
  rw [parentH_append]
  · simp only [parentH, if_pos]
    rcases c.head? with _ | e
    · rfl
    · cases e <;> rfl
  · rintro id' g' d' sf' hm rfl
    obtain ⟨a1, a2, rfl⟩ := mem_split hm
    have hb : AtEvery (EvOk p) (a1 ++ .begin id' g' d' sf' :: (a2 ++ .begin id g' d sf :: c)) := by simpa using hk
    have := phaseH_append_none (hb.split (e := Ev.begin id' g' d' sf')).2.2.2.2.1
    simp [phaseH] at this

/-- C64: the contexts of restarts do not depend on any StartWorker call: they are done exactly if the runner has been
killed. -/
theorem C64_restart (hr : Reach p s) {post mid pre : List Ev} {id id' g g' sf : Nat} {e : Option Err} {d : Int} {b : Bool}
    (hh : s.tab.hist = post ++ .ctx g b :: (mid ++ .begin id g d sf :: .ended id' g' e :: pre)) :
    b = true ↔ Ev.kill ∈ mid ++ .begin id g d sf :: .ended id' g' e :: pre := by
  have h := C64_context hr hh
  have hk := runner_evOk hr
  rw [hh] at hk
  rw [h, parentH_begin (AtEvery.drop hk).2 rfl]
  simp

/-- C64: the context of a first attempt is done exactly if the runner has been killed or the context given to the
StartWorker call is done, whether that call has returned or not. -/
theorem C64_first (hr : Reach p s) {post mid pre : List Ev} {id id' cid rid g sf sf' : Nat} {d : Int} {b : Bool}
    (hh : s.tab.hist = post ++ .ctx g b :: (mid ++ .begin id g d sf :: .accepted cid id' rid sf' :: pre)) :
    b = true ↔ Ev.kill ∈ mid ++ .begin id g d sf :: .accepted cid id' rid sf' :: pre ∨
      Ev.cancelled cid ∈ mid ++ .begin id g d sf :: .accepted cid id' rid sf' :: pre := by
  have h := C64_context hr hh
  have hk := runner_evOk hr
  rw [hh] at hk
  rw [h, parentH_begin (AtEvery.drop hk).2 rfl]
  simp

/-- C64: a context that is done stays done. -/
theorem C64_stays (hr : Reach p s) {post mid pre : List Ev} {g : Nat} {b : Bool}
    (hh : s.tab.hist = post ++ .ctx g b :: (mid ++ .ctx g true :: pre)) : b = true := by
  have h2 := C64_context hr hh
  have h1 := C64_context hr (post := post ++ .ctx g b :: mid) (pre := pre) (g := g) (b := true) (by simpa using hh)
  have hw := C64_when hr (post := post ++ .ctx g b :: mid) (pre := pre) (g := g) (b := true) (by simpa using hh)
  have hk := runner_evOk hr
  rw [hh] at hk
  rw [h2]
  rcases h1.1 rfl with hx | ⟨cid, h3, h4⟩
  · exact Or.inl (by simp [hx])
  · refine Or.inr ⟨cid, ?_, by simp [h4]⟩
    have hn : phaseH pre g ≠ none := by
      rcases hw with h | ⟨w, h⟩ <;> simp [h]
    rw [parentH_append]
    · simpa [parentH] using h3
    · rintro id' g' d' sf' hm rfl
      obtain ⟨a1, a2, rfl⟩ := mem_split hm
      have hb : AtEvery (EvOk p) ((post ++ .ctx g' b :: a1) ++ .begin id' g' d' sf' :: (a2 ++ .ctx g' true :: pre)) := by
        simpa using hk
      have := phaseH_append_none (hb.split (e := Ev.begin id' g' d' sf')).2.2.2.2.1
      exact hn (by simpa [phaseH] using this)

/-- StartWorker has returned nil and the worker runs; its context becomes done when the caller's does. The next attempt's
is not. -/
theorem C64_witness : (∃ post pre, (RDemo.after RDemo.prm (RDemo.opsUp ++ [.gCtx 0, .cancel 0, .gCtx 0] ++
      RDemo.opsEnd 0 10 (some (.user 1)) ++ [.bcast, .gTimer 1, .gCall 1, .gCtx 1])).tab.hist =
    .ctx 1 false :: .startCall 7 1 1 :: .begin 7 1 3 1 :: .ended 7 0 (some (.user 1)) :: .finished 10 (some (.user 1)) ::
    .ctx 0 true :: .cancelled 0 :: .ctx 0 false :: (post ++ .ret 0 .ok :: pre)) :=
  ⟨[.learned 7 0 10, .startOk 7 0 10, .startCall 7 0 1], [.begin 7 0 0 1, .accepted 0 7 0 1, .callStart 0 7 1], by decide +kernel⟩

/-- A runner that shuts down because of a fatal error does not cancel the contexts: worker 11 has been told to stop, and
its context is not done. -/
theorem C64_fatal : ∃ post pre, (RDemo.after RDemo.prm (RDemo.opsTwo ++ RDemo.opsEnd 0 10 (some (.user 90)) ++
      [.killAll [8], .killNext, .killNext, .bcast, .gCtx 1])).tab.hist = .ctx 1 false :: .killW 8 11 :: (post ++ .shutdown :: pre) :=
  ⟨[.told 8], _, by rfl⟩

end Verif.Props
