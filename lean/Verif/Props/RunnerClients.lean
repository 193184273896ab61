import Verif.Props.RunnerHist
import Verif.Runner.Progress

/-!
# Runner: what callers of StartWorker, StopWorker, Worker and StopAndRemoveWorker see
-/

namespace Verif.Props
open Verif.Spec Verif.Runner Verif.RSpec

variable {p : Params} {s : State}

theorem runner_ret (hr : Reach p s) {post pre : List Ev} {cid : Nat} {r : Ret} (hh : s.tab.hist = post ++ .ret cid r :: pre) :
    (∀ r', .ret cid r' ∉ pre) ∧ ∃ call, callH pre cid = some call ∧ CallRet pre cid r call := by
  have h := hr.cinv.rets
  rw [hh] at h
  exact h.split (e := Ev.ret cid r)

theorem callH_suffix {d h : List Ev} {cid : Nat} (hn : callH (d ++ h) cid = none) : callH h cid = none := by
  induction d with
  | nil => exact hn
  | cons e d ih =>
    apply ih
    by_cases he : evCall e = some cid
    · cases e <;> simp_all [evCall, callH]
    · rw [List.cons_append, callH_cons he] at hn; exact hn

/-- C13: the answer of StartWorker. It is nil only if the request was accepted, or ignored because the runner was
shutting down, during the call; AlreadyExists only if it was refused; and ErrDead only if the caller's context was done
or the runner had returned. -/
theorem C13_answer (hr : Reach p s) {post pre : List Ev} {cid : Nat} {r : Ret} (hh : s.tab.hist = post ++ .ret cid r :: pre)
    {id : Name} {sf : Nat} (hc : callH pre cid = some (.start id sf)) : StartRet pre cid id sf r := by
  obtain ⟨_, call, h1, h2⟩ := runner_ret hr hh
  rw [hc] at h1; cases h1; exact h2

/-- C13: every call returns at most once. -/
theorem C13_once (hr : Reach p s) {post mid pre : List Ev} {cid : Nat} {r r' : Ret}
    (hh : s.tab.hist = post ++ .ret cid r :: (mid ++ .ret cid r' :: pre)) : False :=
  (runner_ret hr hh).1 r' (by simp)

example : ∃ post pre, (RDemo.after RDemo.prm (RDemo.opsUp ++ RDemo.opsStart 1 7 2)).tab.hist =
      post ++ .ret 1 (.err (.alreadyExists 7)) :: pre ∧ callH pre 1 = some (.start 7 2) :=
  ⟨[], (RDemo.after RDemo.prm (RDemo.opsUp ++ RDemo.opsStart 1 7 2)).tab.hist.tail, by decide +kernel⟩

/-- C13: where a call is and what the history says about its return agree. -/
theorem C13_returned (hr : Reach p s) {c : Client} (hc : c ∈ s.clients) (r : Ret) :
    c.pc = .returned r ↔ .ret c.cid r ∈ s.tab.hist := by
  have hco := hr.cinv.ok c hc
  constructor
  · intro hp; have := hco.pc; unfold PcOk at this; rw [hp] at this; exact this
  · intro hm
    by_cases hx : ∀ r, c.pc ≠ .returned r
    · exact absurd hm (hco.ret hx r)
    · obtain ⟨r', hr'⟩ := Classical.not_forall.1 hx
      have hr' : c.pc = .returned r' := Classical.not_not.1 hr'
      have hm' : .ret c.cid r' ∈ s.tab.hist := by have := hco.pc; unfold PcOk at this; rw [hr'] at this; exact this
      obtain ⟨a, b, hab⟩ := mem_split hm
      by_cases heq : r' = r
      · rw [hr', heq]
      · rw [hab] at hm'
        rcases List.mem_append.1 hm' with h | h
        · obtain ⟨a1, a2, rfl⟩ := mem_split h
          exact absurd (show Ev.ret c.cid r ∈ a2 ++ .ret c.cid r :: b by simp)
            ((runner_ret hr (post := a1) (pre := a2 ++ .ret c.cid r :: b) (cid := c.cid) (r := r') (by rw [hab]; simp)).1 r)
        · rcases List.mem_cons.1 h with h | h
          · cases h; exact absurd rfl heq
          · exact absurd h ((runner_ret hr hab).1 r')

example : (RDemo.after RDemo.prm RDemo.opsUp).clients.map (fun c => (c.cid, c.pc)) = [(0, .returned .ok)] := by decide +kernel

/-! ## C23: Worker -/

/-- C23: what Worker returns is true of some moment during the call. -/
theorem C23_worker (hr : Reach p s) {post pre : List Ev} {cid : Nat} {r : Ret} (hh : s.tab.hist = post ++ .ret cid r :: pre)
    {id : Name} (hc : callH pre cid = some (.worker id)) :
    (∃ w, r = .worker w ∧ During pre cid (fun h => instH h id = some w) ∧ MayHave pre cid id) ∨ LookupErr pre cid id r := by
  obtain ⟨_, call, h1, h2⟩ := runner_ret hr hh
  rw [hc] at h1; cases h1; exact h2

/-- A caller of Worker that arrives before the worker has started, and gets it. -/
def opsWorker : List Op := RDemo.opsStart 0 7 1 ++ [.callWorker 7, .cLock 1, .hCheck 1, .hEnter 1] ++ RDemo.opsOk 0 10 ++
  [.hWake 1, .cRecv 1, .cGotWc 1]

/-- A caller of Worker for an unknown id. -/
def opsUnknown : List Op := [.callWorker 7, .cLock 0, .cImmediate 0]

/-- A caller of Worker that gives up. -/
def opsAborted : List Op := RDemo.opsStart 0 7 1 ++ [.callWorker 7, .cLock 1, .hCheck 1, .hEnter 1, .cancel 1, .cAbort 1, .cClose 1,
  .cBcast 1]

/-- A caller of Worker while the runner is killed. -/
def opsDying : List Op := RDemo.opsStart 0 7 1 ++ [.callWorker 7, .cLock 1, .hCheck 1, .hEnter 1, .kill, .cDying 1]

example : (RDemo.after RDemo.prm opsWorker).tab.hist.head? = some (.ret 1 (.worker 10)) ∧
    callH (RDemo.after RDemo.prm opsWorker).tab.hist 1 = some (.worker 7) := by decide +kernel
example : (RDemo.after RDemo.prm opsUnknown).tab.hist.head? = some (.ret 0 (.err (.notFound 7))) ∧
    callH (RDemo.after RDemo.prm opsUnknown).tab.hist 0 = some (.worker 7) := by decide +kernel
example : (RDemo.after RDemo.prm opsAborted).tab.hist.head? = some (.ret 1 (.err .runnerAborted)) ∧
    callH (RDemo.after RDemo.prm opsAborted).tab.hist 1 = some (.worker 7) := by decide +kernel
example : (RDemo.after RDemo.prm opsDying).tab.hist.head? = some (.ret 1 (.err .runnerDead)) ∧
    callH (RDemo.after RDemo.prm opsDying).tab.hist 1 = some (.worker 7) := by decide +kernel

/-- A caller of Worker that has waited, and gets the worker although the runner has been killed meanwhile. -/
def opsWaited : List Op := RDemo.opsStart 0 7 1 ++ [.callWorker 7, .cLock 1, .hCheck 1, .hEnter 1] ++ RDemo.opsOk 0 10 ++
  [.hWake 1, .kill, .cRecv 1, .cGotWc 1]

example : (RDemo.after RDemo.prm opsWaited).tab.hist.head? = some (.ret 1 (.worker 10)) ∧
    Ev.kill ∈ (RDemo.after RDemo.prm opsWaited).tab.hist := by decide +kernel

/-- C23: a call of Worker or StopAndRemoveWorker made after the runner was killed, for an id whose worker is there all
the time or which is unknown all the time, does not return that: it can only return ErrDead or ErrAborted. -/
theorem C23_killed (hr : Reach p s) {post mid pre : List Ev} {cid : Nat} {r : Ret}
    (hh : s.tab.hist = post ++ .ret cid r :: (mid ++ .kill :: pre)) (hn : callH pre cid = none) {id : Name}
    (hc : callH (mid ++ .kill :: pre) cid = some (.worker id) ∨ callH (mid ++ .kill :: pre) cid = some (.remove id))
    (hw : ∀ d l, mid = l ++ d → knownH (d ++ .kill :: pre) id = none ∨ (instH (d ++ .kill :: pre) id).isSome = true) :
    r = .err .runnerDead ∨ (r = .err .runnerAborted ∧ .cancelled cid ∈ mid ++ .kill :: pre) := by
  have hmay : ∀ h', (∃ d l, mid = l ++ d ∧ h' = d ++ .kill :: pre) → ¬ MayHave h' cid id := by
    rintro h' ⟨d, l, hl, rfl⟩ (hx | hx)
    · exact hx (by simp)
    · obtain ⟨m, h2, h3, h4, h5⟩ := hx
      rcases List.append_eq_append_iff.1 h3 with ⟨e, _, g2⟩ | ⟨e, g1, g2⟩
      · have hne : callH (Ev.kill :: pre) cid = none := hn
        rw [g2] at hne
        rw [callH_suffix hne] at h4; cases h4
      · have := hw e (l ++ m) (by rw [hl, g1]; simp)
        rw [← g2] at this
        rcases this with h | h
        · rw [h] at h5; cases h5.1
        · rw [h5.2] at h; cases h
  obtain ⟨_, call, h1, h2⟩ := runner_ret hr hh
  have hlk : LookupErr (mid ++ .kill :: pre) cid id r → r = .err .runnerDead ∨ (r = .err .runnerAborted ∧ .cancelled cid ∈ mid ++ .kill :: pre) := by
    rintro (⟨_, _, h⟩ | ⟨h, _⟩ | ⟨h, h'⟩)
    · exact absurd (by simp) h
    · exact Or.inl h
    · exact Or.inr ⟨h, h'⟩
  rcases hc with hc | hc <;> rw [hc] at h1 <;> cases h1 <;> rcases h2 with h2 | h2
  · obtain ⟨w, _, _, hm⟩ := h2
    exact absurd hm (hmay _ ⟨mid, [], by simp, rfl⟩)
  · exact hlk h2
  · obtain ⟨e, _, w, rid, _, _, _, _, hd⟩ := h2
    obtain ⟨m, h', g1, g2, g3⟩ := hd
    rcases List.append_eq_append_iff.1 g1 with ⟨e, _, k2⟩ | ⟨e, k1, k2⟩
    · have hne : callH (Ev.kill :: pre) cid = none := hn
      rw [k2] at hne
      rw [callH_suffix hne] at g2; cases g2
    · exact absurd g3 (hmay _ ⟨e, m, k1, k2⟩)
  · exact hlk h2

example : ∃ pre, (RDemo.after RDemo.prm (RDemo.opsUp ++ [.kill, .callWorker 7, .cLock 1, .cImmediate 1])).tab.hist =
      [] ++ .ret 1 (.err .runnerDead) :: ([.callWorker 1 7] ++ .kill :: pre) ∧ callH pre 1 = none ∧
    (instH pre 7).isSome = true := ⟨(RDemo.after RDemo.prm RDemo.opsUp).tab.hist, by decide +kernel⟩

/-! ## C26: StopAndRemoveWorker -/

/-- C26: if StopAndRemoveWorker returns the worker's result, it Kill()ed a worker of the id, that worker has finished
with that result, and the runner has removed the registration the worker belonged to. -/
theorem C26_result (hr : Reach p s) {post pre : List Ev} {cid : Nat} {r : Ret} (hh : s.tab.hist = post ++ .ret cid r :: pre)
    {id : Name} (hc : callH pre cid = some (.remove id)) :
    (∃ e, r = .result e ∧ Removed pre cid id e) ∨ LookupErr pre cid id r := by
  obtain ⟨_, call, h1, h2⟩ := runner_ret hr hh
  rw [hc] at h1; cases h1; exact h2

/-- C26: only StopAndRemoveWorker returns a worker's result. -/
theorem C26_only (hr : Reach p s) {post pre : List Ev} {cid : Nat} {e : Option Err}
    (hh : s.tab.hist = post ++ .ret cid (.result e) :: pre) : ∃ id, callH pre cid = some (.remove id) ∧ Removed pre cid id e := by
  obtain ⟨_, call, h1, h2⟩ := runner_ret hr hh
  cases call with
  | start id sf => rcases h2 with h | h | h <;> exact absurd h.1 (by nofun)
  | stop id => rcases h2 with h | h <;> exact absurd h.1 (by nofun)
  | worker id => rcases h2 with ⟨w, h, _⟩ | h | h | h <;> first | exact absurd h (by nofun) | exact absurd h.1 (by nofun)
  | remove id =>
    rcases h2 with ⟨e', h, h3⟩ | h | h | h
    · cases h; exact ⟨id, h1, h3⟩
    all_goals exact absurd h.1 (by nofun)

/-- Id 7 runs as worker 10 and client call 1 stops and removes it. -/
def opsRemove : List Op := RDemo.opsUp ++ [.callRemove 7, .cLock 1, .cImmediate 1, .cKill 1] ++ RDemo.opsEnd 0 10 none ++
  [.bcast, .cWaitRet 1, .cRemoved 1]

example : (RDemo.after RDemo.prm opsRemove).tab.hist.head? = some (.ret 1 (.result none)) ∧
    callH (RDemo.after RDemo.prm opsRemove).tab.hist 1 = some (.remove 7) := by decide +kernel

/-! ## C29: a runner that has returned -/

/-- A moment of a call that was made after the runner returned. -/
theorem during_after_exit {h pre : List Ev} {cid : Nat} {P : List Ev → Prop} {post : List Ev} (hh : h = post ++ .exit :: pre)
    (hn : callH pre cid = none) (hd : During h cid P) : ∃ m d, h = m ++ (d ++ .exit :: pre) ∧ d ≠ [] ∧ P (d ++ .exit :: pre) := by
  obtain ⟨mid, h', h1, h2, h3⟩ := hd
  rw [hh] at h1
  have hne : callH (Ev.exit :: pre) cid = none := hn
  rcases List.append_eq_append_iff.1 h1 with ⟨d, _, h4⟩ | ⟨d, _, h4⟩
  · rw [h4] at hne
    rw [callH_suffix hne] at h2; cases h2
  · refine ⟨mid, d, by rw [hh, h1, h4], ?_, h4 ▸ h3⟩
    rintro rfl
    rw [h4, List.nil_append, hne] at h2; cases h2

/-- C29: a StartWorker or StopWorker call made after the runner has returned can only return ErrDead. -/
theorem C29_errDead (hr : Reach p s) {post mid pre : List Ev} {cid : Nat} {r : Ret}
    (hh : s.tab.hist = post ++ .ret cid r :: (mid ++ .exit :: pre)) (hn : callH pre cid = none)
    (hc : (∃ id sf, callH (mid ++ .exit :: pre) cid = some (.start id sf)) ∨ ∃ id, callH (mid ++ .exit :: pre) cid = some (.stop id)) :
    r = .err .runnerDead := by
  have hk := runner_evOk hr
  rw [hh] at hk
  have hm : AtEvery (EvOk p) (mid ++ .exit :: pre) := (AtEvery.drop hk).2
  have hx : EvOk p .exit pre := hm.split
  obtain ⟨_, call, h1, h2⟩ := runner_ret hr hh
  have key : ∀ P : List Ev → Prop, During (mid ++ .exit :: pre) cid P →
      ∃ e h', (∃ d, h' = d ++ .exit :: pre) ∧ P (e :: h') ∧ EvOk p e h' := by
    intro P hd
    obtain ⟨m, d, hmd, hne, hP⟩ := during_after_exit rfl hn hd
    cases d with
    | nil => exact absurd rfl hne
    | cons e d =>
      refine ⟨e, d ++ .exit :: pre, ⟨d, rfl⟩, hP, ?_⟩
      rw [hmd] at hm
      exact (AtEvery.drop hm).1
  have hsh : ∀ d, shutH (d ++ .exit :: pre) := fun d => List.mem_append_right _ (List.mem_cons_of_mem _ hx.1)
  rcases hc with ⟨id, sf, hc⟩ | ⟨id, hc⟩
  · rw [hc] at h1; cases h1
    rcases h2 with ⟨_, hd⟩ | ⟨_, hd⟩ | ⟨h2, _⟩
    · exfalso
      obtain ⟨e, h', ⟨d, rfl⟩, hP, he⟩ := key _ hd
      rcases hP with ⟨rid, hP⟩ | hP <;> simp only [List.head?_cons, Option.some.injEq] at hP <;> subst hP
      · exact he.2.2.2.1 (hsh d)
      · exact he.2 (by simp)
    · exfalso
      obtain ⟨e, h', ⟨d, rfl⟩, hP, he⟩ := key _ hd
      simp only [List.head?_cons, Option.some.injEq] at hP; subst hP
      exact he.2 (hsh d)
    · exact h2
  · rw [hc] at h1; cases h1
    rcases h2 with ⟨_, hd⟩ | ⟨h2, _⟩
    · exfalso
      obtain ⟨_, d, _, _, hP⟩ := during_after_exit rfl hn hd
      exact hP (by simp)
    · exact h2

example : ∃ mid pre, (RDemo.after RDemo.prm (RDemo.opsFatal 91 92 ++ [.callStart 9 3, .cDead 2])).tab.hist =
      [] ++ .ret 2 (.err .runnerDead) :: (mid ++ .exit :: pre) ∧ callH pre 2 = none ∧
      callH (mid ++ .exit :: pre) 2 = some (.start 9 3) :=
  ⟨[.callStart 2 9 3], (RDemo.after RDemo.prm (RDemo.opsFatal 91 92)).tab.hist.tail, by decide +kernel⟩

/-- C29: once the runner has returned, the loop receives no request. -/
theorem C29_not_received (hr : Reach p s) (hx : Ev.exit ∈ s.tab.hist) (cid : Nat) :
    step p s (.recvStart cid) = none ∧ step p s (.recvStop cid) = none := by
  have hp := hr.tab.hinv.exit.2 hx
  constructor
  · simp only [step, Op.cid?]
    split
    · simp only [clientStep, hp]; rfl
    · rfl
  · simp only [step, Op.cid?]
    split
    · simp only [clientStep, hp]; rfl
    · rfl

/-- C29: once Wait returns, StartWorker and StopWorker calls can return, with ErrDead. -/
theorem C29_returns (hr : Reach p s) {r : Option Err} (hw : waitResult s = some r) {c : Client} (hc : c ∈ s.clients)
    (hp : (∃ id sf, c.pc = .startSend id sf) ∨ ∃ id, c.pc = .stopSend id) :
    ∃ s', step p s (.cDead c.cid) = some s' ∧ s'.tab.hist = .ret c.cid (.err .runnerDead) :: s.tab.hist := by
  have hd : s.tab.tomb.dead = true := by
    unfold waitResult Tomb.wait at hw
    split at hw
    · assumption
    · cases hw
  have hg := getC_of hr.minv.nd hc
  rcases hp with ⟨id, sf, hp⟩ | ⟨id, hp⟩
  · refine ⟨s.return_ c.cid (.err .runnerDead), ?_, rfl⟩
    simp only [step, Op.cid?, hg, clientStep, hp, hd, or_true, if_true]
  · refine ⟨s.return_ c.cid (.err .runnerDead), ?_, rfl⟩
    simp only [step, Op.cid?, hg, clientStep, hp, hd, if_true]

example : waitResult (RDemo.after RDemo.prm (RDemo.opsFatal 91 92 ++ [.callStop 9])) = some (some (.user 92)) ∧
    ∃ c ∈ (RDemo.after RDemo.prm (RDemo.opsFatal 91 92 ++ [.callStop 9])).clients, c.pc = .stopSend 9 := by
  decide +kernel

/-- C29: before the runner has returned, StartWorker returns ErrDead only if its context is done. -/
theorem C29_only_if_cancelled (hr : Reach p s) {post pre : List Ev} {cid : Nat}
    (hh : s.tab.hist = post ++ .ret cid (.err .runnerDead) :: pre) {id : Name} {sf : Nat}
    (hc : callH pre cid = some (.start id sf)) (hx : .exit ∉ pre) : .cancelled cid ∈ pre := by
  rcases C13_answer hr hh hc with h | h | ⟨_, h⟩
  · exact absurd h.1 (by nofun)
  · exact absurd h.1 (by nofun)
  · exact h.resolve_right hx

/-- C29: ErrDead from StartWorker does not mean that the runner is dead: with its context done the call may return ErrDead
although the runner is alive. -/
theorem C29_alive : ∃ (p : Params) (s : State), Reach p s ∧ .ret 0 (.err .runnerDead) ∈ s.tab.hist ∧ s.tab.dying = false ∧
    ¬ shutH s.tab.hist ∧ .exit ∉ s.tab.hist :=
  ⟨RDemo.prm, _, RDemo.after_reach RDemo.prm [.callStart 7 1, .cancel 0, .cDead 0], by unfold shutH; decide +kernel⟩

end Verif.Props
