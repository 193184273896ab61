import Verif.Props.RunnerClients
import Verif.Runner.Tokens
import Verif.Runner.Helpers

/-!
# Runner: progress, termination and blocked callers

`CanStep p s` says that some goroutine of the runner or of one of its callers can go on by itself (delays elapse by
themselves; StartFuncs returning, workers finishing, and contexts being cancelled are up to the environment). Every
sequence of such steps is finite (`C58_quiesces`), so every execution comes to states without one unless the environment
does something.
-/

namespace Verif.Props
open Verif.Spec Verif.Runner Verif.RSpec

variable {p : Params} {s : State}

/-! ## Deciding whether a concrete state can go on (used for the witnesses below) -/

def candidates (s : State) : List Op :=
  [.loopTop, .recvDying, .act 0, .killAll s.tab.workers.keys, .killNext, .reply, .bcast] ++
  s.tab.gs.flatMap (fun g =>
    [.recvStarted g.gid, .recvDone g.gid, .gDying g.gid, .gTimer g.gid, .gCall g.gid, .gWaitRet g.gid]) ++
  s.clients.flatMap (fun c =>
    [.recvStart c.cid, .recvStop c.cid, .cDead c.cid, .cLock c.cid, .cImmediate c.cid, .cRecv c.cid, .cGotWc c.cid, .cDying c.cid,
     .cAbort c.cid, .cClose c.cid, .cBcast c.cid, .cKill c.cid, .cWaitRet c.cid, .cRemoveAbort c.cid, .cRemoved c.cid,
     .hCheck c.cid, .hEnter c.cid, .hWake c.cid])

def canStepB (p : Params) (s : State) : Bool := (candidates s).any (fun op => (step p s op).isSome)

theorem client_op {op : Op} {cid : Nat} {s' : State} (hc : op.cid? = some cid) (hs : step p s op = some s') :
    ∃ c ∈ s.clients, c.cid = cid := by
  have : (match s.getC cid with | some c => clientStep s c op | none => none) = some s' := by
    cases op <;> simp only [Op.cid?, reduceCtorEq, Option.some.injEq] at hc <;> subst hc <;> exact hs
  split at this
  · rename_i c hg
    exact ⟨c, getC_some hg⟩
  · cases this

theorem no_step (hr : Reach p s) {P : Op → Prop} (hP : ∀ o, (∀ g, o ≠ .gTimer g) → P o)
    (key : ∀ o ∈ candidates s, P o → step p s o = none) {op : Op} (hi : op.internal = true) (hop : P op) {s' : State}
    (hs : step p s op = some s') : False := by
  have no : op ∉ candidates s := fun ho => by rw [key op ho hop] at hs; cases hs
  cases hcid : op.cid? with
  | some cid =>
    obtain ⟨c, hc, rfl⟩ := client_op hcid hs
    apply no
    apply List.mem_append_right
    rw [List.mem_flatMap]
    refine ⟨c, hc, ?_⟩
    cases op <;> simp only [Op.cid?, reduceCtorEq, Option.some.injEq] at hcid <;> subst hcid <;>
      first | (cases hi; done) | simp
  | none =>
    have gop : ∀ gid, (s.tab.getG gid).isSome = true →
        op ∈ ([.recvStarted gid, .recvDone gid, .gDying gid, .gTimer gid, .gCall gid, .gWaitRet gid] : List Op) → False := by
      intro gid hg ho
      obtain ⟨g, hg⟩ := Option.isSome_iff_exists.1 hg
      obtain ⟨h1, rfl⟩ := getG_some hg
      exact no (List.mem_append_left _ (List.mem_append_right _ (List.mem_flatMap.2 ⟨g, h1, ho⟩)))
    have hk : ∀ o ∈ ([.loopTop, .recvDying, .act 0, .killAll s.tab.workers.keys, .killNext, .reply, .bcast] : List Op), step p s o = none :=
      fun o ho => key o (List.mem_append_left _ (List.mem_append_left _ ho)) (hP o (by
        rintro g rfl; simp at ho))
    cases op <;> first | (cases hi; done) | (cases hcid; done) | skip
    · rw [hk _ (by simp)] at hs; cases hs
    · rw [hk _ (by simp)] at hs; cases hs
    · rename_i gid
      refine gop gid ?_ (by simp)
      simp only [step, Op.cid?, tabStep] at hs
      cases hg : s.tab.getG gid with
      | some g => rfl
      | none => rw [hg] at hs; simp at hs
    · rename_i gid
      refine gop gid ?_ (by simp)
      simp only [step, Op.cid?, tabStep] at hs
      cases hg : s.tab.getG gid with
      | some g => rfl
      | none => rw [hg] at hs; simp at hs
    · have := hk (.act 0) (by simp)
      simp only [step, Op.cid?, tabStep] at hs this
      split at hs
      · split at hs
        · rename_i hm hc; simp [hm, hc] at this
        · cases hs
      · cases hs
    · have := hk (.killAll s.tab.workers.keys) (by simp)
      simp only [step, Op.cid?, tabStep] at hs this
      split at hs
      · rename_i hc; simp [hc.1, hc.2.1, keys_order hr.tab] at this
      · cases hs
    · rw [hk _ (by simp)] at hs; cases hs
    · rw [hk _ (by simp)] at hs; cases hs
    · rw [hk _ (by simp)] at hs; cases hs
    all_goals
      rename_i gid
      refine gop gid ?_ (by simp)
      simp only [step, Op.cid?, tabStep] at hs
      cases hg : s.tab.getG gid with
      | some g => rfl
      | none => rw [hg] at hs; simp at hs

theorem not_canStep (hr : Reach p s) (h : canStepB p s = false) : ¬ CanStep p s := by
  rintro ⟨op, s', hi, hs⟩
  refine no_step hr (P := fun _ => True) (fun _ _ => trivial) ?_ hi trivial hs
  intro o ho _
  have := List.any_eq_false.1 h o ho
  cases hx : step p s o with
  | none => rfl
  | some _ => rw [hx] at this; simp at this

/-- The same without waiting for the end of a delay. -/
def canStepNowB (p : Params) (s : State) : Bool := (candidates s).any (fun op => match op with
  | .gTimer _ => false
  | _ => (step p s op).isSome)

theorem not_canStepNow (hr : Reach p s) (h : canStepNowB p s = false) : ¬ CanStepNow p s := by
  rintro ⟨op, s', hi, hn, hs⟩
  refine no_step hr (P := fun o => ∀ g, o ≠ .gTimer g) (fun _ h => h) ?_ hi hn hs
  intro o ho hno
  have := List.any_eq_false.1 h o ho
  cases hx : step p s o with
  | none => rfl
  | some _ =>
    split at this
    · exact absurd rfl (hno _)
    · rw [hx] at this; simp at this

/-! ## C22: shutting down ends -/

/-- C22: a runner that is shutting down is never stuck: it can go on by itself, or a StartFunc has not returned yet, or a
worker it has Kill()ed has not finished yet. -/
theorem C22_never_stuck (hr : Reach p s) (hs : shutH s.tab.hist) (hx : .exit ∉ s.tab.hist) :
    CanStep p s ∨ (∃ id g, openH s.tab.hist id = some g ∧ phaseH s.tab.hist g = some .calling) ∨
    ∃ id w, .killW id w ∈ s.tab.hist ∧ finishedH s.tab.hist w = none := by
  have hi := hr.tab.hinv
  rcases hr.progress (hi.shut.2 hs) (fun h => hx (hi.exit.1 h)) with h | ⟨g, hg, hp⟩ | ⟨g, hg, w, hp, hf, hk⟩
  · exact Or.inl h
  · have := hi.ph g hg
    unfold PhaseOk at this
    rw [hp] at this
    exact Or.inr (Or.inl ⟨g.id, g.gid, (hi.opn _ _).2 ⟨g, hg, rfl, rfl⟩, this⟩)
  · exact Or.inr (Or.inr ⟨g.id, w, hk, by rw [← hi.fin]; exact hf⟩)

/-- C22: while it shuts down, the runner, its goroutines and its StartFuncs take a bounded number of steps, whatever
workers and callers that are already there do. (`meas` is the bound, a function of the state.) -/
theorem C22_bounded (hr : Reach p s) (hs : shutH s.tab.hist) {n : Nat} {s' : State}
    (h : Exec p (fun op => !op.newCall) (fun op => op.internal || op.startReturns) n s s') : n ≤ meas true s := by
  have := h.bounded hr (hr.tab.hinv.shut.2 hs); omega

/-- C22: from every state of a shutdown the end can be reached. -/
theorem C22_can_end (hr : Reach p s) (hs : shutH s.tab.hist) :
    ∃ n s', Exec p (fun op => !op.newCall) (fun op => op.internal || op.startReturns) n s s' ∧ .exit ∈ s'.tab.hist := by
  obtain ⟨n, s', h1, h2⟩ := hr.can_exit (hr.tab.hinv.shut.2 hs)
  exact ⟨n, s', h1, (h1.reach hr).tab.hinv.exit.1 h2⟩

/-- A runner with a running worker, and one in its restart delay, is shut down by a fatal error. -/
def opsShut : List Op := RDemo.opsTwo ++ RDemo.opsEnd 0 10 (some (.user 1)) ++ [.bcast] ++ RDemo.opsEnd 1 11 (some (.user 95))

example : shutH (RDemo.after RDemo.prm opsShut).tab.hist ∧ .exit ∉ (RDemo.after RDemo.prm opsShut).tab.hist ∧
    (RDemo.after RDemo.prm opsShut).tab.gs ≠ [] := by unfold shutH; decide +kernel

/-! ## C76: what a shutdown waits for -/

/-- C76: a runner that is shutting down can go on at once, or is waiting for a StartFunc to return or for a worker it has
Kill()ed to finish, or it has not been killed (a worker has ended with a fatal error) and is waiting for the end of a
restart delay. -/
theorem C76_shutdown_waits (hr : Reach p s) (hs : shutH s.tab.hist) (hx : .exit ∉ s.tab.hist) :
    CanStepNow p s ∨ (∃ id g, openH s.tab.hist id = some g ∧ phaseH s.tab.hist g = some .calling) ∨
    (∃ id w, .killW id w ∈ s.tab.hist ∧ finishedH s.tab.hist w = none) ∨
    (.kill ∉ s.tab.hist ∧ ∃ id g, openH s.tab.hist id = some g ∧ phaseH s.tab.hist g = some .pending) := by
  have hi := hr.tab.hinv
  have hne : s.tab.pc ≠ .exited := fun h => hx (hi.exit.1 h)
  have hd := hi.shut.2 hs
  by_cases hsel : s.tab.pc = .select
  · have hb := hr.tab.busy hsel
    have : ∃ id, s.tab.workers.get? id ≠ none := by
      apply Classical.byContradiction
      intro hx
      exact hb ⟨hd, fun id => Classical.byContradiction fun hy => hx ⟨id, hy⟩⟩
    obtain ⟨id, hid⟩ := this
    have hk := (hr.tab.shape.known id).1 (by cases h : s.tab.workers.get? id with
      | none => exact absurd h hid
      | some _ => rfl)
    obtain ⟨g, hg, rfl⟩ := List.mem_map.1 hk
    have hgg := getG_of hr.tab.shape.gidNd hg
    have hph := hi.ph g hg
    have ho : openH s.tab.hist g.id = some g.gid := (hi.opn _ _).2 ⟨g, hg, rfl, rfl⟩
    unfold PhaseOk at hph
    cases hp : g.pc with
    | delaying =>
      rw [hp] at hph
      by_cases hkill : Ev.kill ∈ s.tab.hist
      · left; refine now_of (.gDying g.gid) rfl (by simp) ?_
        have : s.tab.dying = true := by
          unfold Tab.dying
          rw [hi.tomb hne, List.contains_iff_mem.2 hkill]; rfl
        simp [step, Op.cid?, tabStep, hgg, hp, this]
      · exact Or.inr (Or.inr (Or.inr ⟨hkill, g.id, g.gid, ho, hph⟩))
    | ready =>
      left; refine now_of (.gCall g.gid) rfl (by simp) ?_
      simp [step, Op.cid?, tabStep, hgg, hp]
    | starting =>
      rw [hp] at hph
      exact Or.inr (Or.inl ⟨g.id, g.gid, ho, hph⟩)
    | sendStarted w =>
      left; refine now_of (.recvStarted g.gid) rfl (by simp) ?_
      simp [step, Op.cid?, tabStep, hgg, hp, hsel]
    | waiting w =>
      cases hf : s.tab.finished.get? w with
      | none => exact Or.inr (Or.inr (Or.inl ⟨g.id, w, hr.killed hd hsel hg hp hf, by rw [← hi.fin]; exact hf⟩))
      | some e =>
        left; refine now_of (.gWaitRet g.gid) rfl (by simp) ?_
        simp [step, Op.cid?, tabStep, hgg, hp, hf]
    | sendDone e =>
      left; refine now_of (.recvDone g.gid) rfl (by simp) ?_
      simp [step, Op.cid?, tabStep, hgg, hp, hsel]
    | gone e =>
      have := hr.tab.shape.goneAct g hg e hp
      rw [hsel] at this; cases this
  · exact Or.inl (hr.loop_now hsel hne)

/-- C76: and so Kill interrupts every restart delay. -/
theorem C76_kill_beats_delay (hr : Reach p s) (hk : .kill ∈ s.tab.hist) (hq : ¬ CanStepNow p s) {id : Name} {g : Nat}
    (ho : openH s.tab.hist id = some g) : phaseH s.tab.hist g ≠ some .pending := by
  have hi := hr.tab.hinv
  obtain ⟨G, hG, rfl, rfl⟩ := (hi.opn _ _).1 ho
  have hne : s.tab.pc ≠ .exited := by
    intro h
    have h1 := (hr.tab.shape.known G.id).2 (List.mem_map_of_mem hG)
    rw [(hr.tab.shape.exited h).2] at h1; cases h1
  have hsel : s.tab.pc = .select := Classical.byContradiction fun h => hq (hr.loop_now h hne)
  have hgg := getG_of hr.tab.shape.gidNd hG
  have hph := hi.ph G hG
  unfold PhaseOk at hph
  cases hp : G.pc with
  | delaying =>
    refine absurd (now_of (.gDying G.gid) rfl (by simp) ?_) hq
    have : s.tab.dying = true := by
      unfold Tab.dying
      rw [hi.tomb hne, List.contains_iff_mem.2 hk]; rfl
    simp [step, Op.cid?, tabStep, hgg, hp, this]
  | ready =>
    refine absurd (now_of (.gCall G.gid) rfl (by simp) ?_) hq
    simp [step, Op.cid?, tabStep, hgg, hp]
  | starting => rw [hp] at hph; rw [show phaseH s.tab.hist G.gid = _ from hph]; nofun
  | sendStarted w => rw [hp] at hph; rw [show phaseH s.tab.hist G.gid = _ from hph]; nofun
  | waiting w => rw [hp] at hph; rw [show phaseH s.tab.hist G.gid = _ from hph]; nofun
  | sendDone e =>
    refine absurd (now_of (.recvDone G.gid) rfl (by simp) ?_) hq
    simp [step, Op.cid?, tabStep, hgg, hp, hsel]
  | gone e =>
    have := hr.tab.shape.goneAct G hG e hp
    rw [hsel] at this; cases this

/-- C76, why the proviso: a fatal error does not interrupt restart delays. Here worker 8 has ended with a fatal error and
nothing can happen before the restart delay of worker 7 is over; -/
theorem C76_fatal_waits : ∃ (p : Params) (s : State), Reach p s ∧ shutH s.tab.hist ∧ .exit ∉ s.tab.hist ∧ ¬ CanStepNow p s ∧
    ∀ id g, openH s.tab.hist id = some g → phaseH s.tab.hist g = some .pending :=
  ⟨RDemo.prm, _, RDemo.after_reach RDemo.prm (opsShut ++ [.killAll [7], .killNext, .killNext, .bcast, .loopTop]), by unfold shutH; decide +kernel,
    by decide +kernel, not_canStepNow (RDemo.after_reach _ _) (by decide +kernel), by
      intro id g h
      have hi := (RDemo.after_reach RDemo.prm (opsShut ++ [.killAll [7], .killNext, .killNext, .bcast, .loopTop])).tab.hinv
      obtain ⟨G, hG, _, rfl⟩ := (hi.opn _ _).1 h
      have : ∀ x ∈ (RDemo.after RDemo.prm (opsShut ++ [.killAll [7], .killNext, .killNext, .bcast, .loopTop])).tab.gs,
        phaseH (RDemo.after RDemo.prm (opsShut ++ [.killAll [7], .killNext, .killNext, .bcast, .loopTop])).tab.hist x.gid = some .pending := by
        decide +kernel
      exact this G hG⟩

/-- The rest of that execution, to the end of the runner. -/
def opsShutLate : List Op := opsShut ++ [.killAll [7], .killNext, .killNext, .bcast, .loopTop, .gTimer 2, .gCall 2, .gStartOk 2 12, .recvStarted 2,
  .act 200, .bcast, .finish 12 none, .gWaitRet 2, .loopTop, .recvDone 2, .act 201, .bcast, .loopTop]

/-- and then the StartFunc of worker 7 is called, although the runner is shutting down and will Kill the worker. -/
theorem C76_started_to_be_killed : ∃ (p : Params) (s : State) (id : Name) (g sf w : Nat) (post pre : List Ev), Reach p s ∧
    s.tab.hist = post ++ .startCall id g sf :: pre ∧ shutH pre ∧ .kill ∉ pre ∧ .killW id w ∈ post :=
  ⟨RDemo.prm, _, 7, 2, 1, 12, (RDemo.after RDemo.prm opsShutLate).tab.hist.take 8,
    (RDemo.after RDemo.prm opsShutLate).tab.hist.drop 9, RDemo.after_reach RDemo.prm opsShutLate, by decide +kernel,
    by unfold shutH; decide +kernel, by decide +kernel, by decide +kernel⟩

/-- C76: nor does StopWorker: the request has been handled, but the worker is still known until its delay is over and its
StartFunc has been called. -/
theorem C76_stop_waits : ∃ (p : Params) (s : State) (id : Name) (g : Nat), Reach p s ∧ ¬ CanStepNow p s ∧
    .stopHandled id ∈ s.tab.hist ∧ (knownH s.tab.hist id).isSome = true ∧ openH s.tab.hist id = some g ∧
    phaseH s.tab.hist g = some .pending :=
  ⟨RDemo.prm, _, 7, 1, RDemo.after_reach RDemo.prm (RDemo.opsRestart ++ RDemo.opsStop 1 7 ++ [.loopTop]),
    not_canStepNow (RDemo.after_reach _ _) (by decide +kernel), by decide +kernel, by decide +kernel, by decide +kernel,
    by decide +kernel⟩

/-! ## C58: between inputs, the runner comes to rest -/

/-- C58: without new calls and without StartFuncs returning, the runner, its goroutines and its callers take a bounded
number of steps. -/
theorem C58_quiesces (hr : Reach p s) {n : Nat} {s' : State}
    (h : Exec p (fun op => !op.newCall && !op.startReturns) Op.internal n s s') : n ≤ meas false s := by
  have := h.quiesces hr; omega

/-- What a call that cannot go on is waiting for: a worker for its id; the end of the worker it has killed; or the removal
of the registration, which has not happened or which another call has been told of. -/
theorem C58_blocked (hr : Reach p s) (hq : ¬ CanStep p s) (hx : .exit ∈ s.tab.hist → (waitResult s).isSome = true)
    {c : Client} (hc : c ∈ s.clients) :
    (∃ r, c.pc = .returned r) ∨
    (∃ id, c.pc = .waiting id ∧ (knownH s.tab.hist id).isSome = true ∧ instH s.tab.hist id = none ∧ s.tab.dying = false ∧
      c.cancelled = false) ∨
    (∃ w rid, c.pc = .removeWait w rid ∧ finishedH s.tab.hist w = none) ∨
    (∃ w rid e id, c.pc = .removeSelect w rid e ∧ rid ∉ s.tab.tokens ∧ c.cancelled = false ∧
      callH s.tab.hist c.cid = some (.remove id) ∧
      (knownH s.tab.hist id = some rid ∨ ∃ cid', cid' ≠ c.cid ∧ GotResult s.tab.hist cid' id rid)) := by
  have hm := hr.minv
  have hg := getC_of hm.nd hc
  have hi := hr.tab.hinv
  have can : ∀ op, op.internal = true → (step p s op).isSome = true → False := fun op h1 h2 => hq (canStep_of op h1 h2)
  have hpc : s.tab.pc = .select ∨ s.tab.pc = .exited := by
    apply Classical.byContradiction
    intro h
    rw [not_or] at h
    exact hq (hr.loop_step h.1 h.2)
  have hmu := hr.mu_rest hq
  have hdead : s.tab.pc = .exited → s.tab.tomb.dead = true := by
    intro h
    have := hx (hi.exit.1 h)
    unfold waitResult Tomb.wait at this
    split at this
    · assumption
    · cases this
  cases hp : c.pc with
  | startSend id sf =>
    exfalso
    rcases hpc with h | h
    · exact can (.recvStart c.cid) rfl (by simp [step, Op.cid?, hg, clientStep, h, hp])
    · exact can (.cDead c.cid) rfl (by simp [step, Op.cid?, hg, clientStep, hp, hdead h])
  | startReply =>
    exfalso
    have h1 := (hr.cinv.ok c hc).pc
    unfold PcOk at h1
    rw [hp] at h1
    obtain ⟨id, sf, _, h2⟩ := h1
    have h3 := h2.startish
    rcases hpc with h | h <;> rw [h] at h3 <;> cases h3
  | stopSend id =>
    exfalso
    rcases hpc with h | h
    · exact can (.recvStop c.cid) rfl (by simp [step, Op.cid?, hg, clientStep, h, hp])
    · exact can (.cDead c.cid) rfl (by simp [step, Op.cid?, hg, clientStep, hp, hdead h])
  | lock id =>
    exfalso
    refine can (.cLock c.cid) rfl ?_
    simp only [step, Op.cid?, hg, clientStep, hp, hmu, if_true]
    split <;> rfl
  | immediate id r => exact (can (.cImmediate c.cid) rfl (by simp [step, Op.cid?, hg, clientStep, hp])).elim
  | waiting id =>
    right; left
    obtain ⟨h, hh, rfl, hst, hdn⟩ := hm.waits c hc id hp
    have hdy : s.tab.dying = false := by
      cases hd : s.tab.dying with
      | false => rfl
      | true => exact (can (.cDying c.cid) rfl (by simp [step, Op.cid?, hg, clientStep, hp, hd])).elim
    have hca : c.cancelled = false := by
      cases hd : c.cancelled with
      | false => rfl
      | true => exact (can (.cAbort c.cid) rfl (by simp [step, Op.cid?, hg, clientStep, hp, hd])).elim
    have hgw : getWorker s.tab h.id = none := by
      cases hhp : h.pc with
      | check => exact (hm.holder c hc h hh (Or.inl hhp)).2
      | enter => exact (hm.holder c hc h hh (Or.inr hhp)).2
      | sleep =>
        rcases hm.asleep c hc h hh hhp with hw | hw
        · exfalso
          rcases hpc with h2 | h2 <;> rcases hw with hw | hw <;> rw [h2] at hw <;> cases hw
        · exact hw
      | woken =>
        exfalso
        refine can (.hWake c.cid) rfl ?_
        simp only [step, Op.cid?, hg, clientStep, hh, hhp, hmu, and_self, if_true]
        split <;> rfl
      | done =>
        exfalso
        obtain ⟨r, hr⟩ := Option.isSome_iff_exists.1 (hdn hhp)
        refine can (.cRecv c.cid) rfl ?_
        simp [step, Op.cid?, hg, clientStep, hp, hh, hr]
    obtain ⟨i, h1, h2⟩ := getWorker_none.1 hgw
    exact ⟨h.id, rfl, by rw [hi.kn, h1]; rfl, by rw [hi.inst, h1]; exact h2, hdy, hca⟩
  | gotWc id r => exact (can (.cGotWc c.cid) rfl (by simp [step, Op.cid?, hg, clientStep, hp])).elim
  | closing id => exact (can (.cClose c.cid) rfl (by simp [step, Op.cid?, hg, clientStep, hp])).elim
  | bcasting id => exact (can (.cBcast c.cid) rfl (by simp [step, Op.cid?, hg, clientStep, hp])).elim
  | removeKill w rid => exact (can (.cKill c.cid) rfl (by simp [step, Op.cid?, hg, clientStep, hp])).elim
  | removeWait w rid =>
    right; right; left
    refine ⟨w, rid, rfl, ?_⟩
    rw [← hi.fin]
    cases hf : s.tab.finished.get? w with
    | none => rfl
    | some e => exact (can (.cWaitRet c.cid) rfl (by simp [step, Op.cid?, hg, clientStep, hp, hf])).elim
  | removeSelect w rid e =>
    right; right; right
    have hok := (hr.cinv.ok c hc).pc
    unfold PcOk at hok
    rw [hp] at hok
    obtain ⟨id, hcall, hfound, _⟩ := hok
    have htok : rid ∉ s.tab.tokens := by
      intro ht
      exact can (.cRemoved c.cid) rfl (by simp [step, Op.cid?, hg, clientStep, hp, ht])
    refine ⟨w, rid, e, id, rfl, htok, ?_, hcall, ?_⟩
    rotate_left
    · obtain ⟨mid, pre, hh, _, _, hkn⟩ := hfound
      by_cases hrm : .removed id rid ∈ s.tab.hist
      · right
        rcases hr.took hrm with ht | ⟨cid', id', hgot⟩
        · exact absurd ht htok
        · have hne : cid' ≠ c.cid := by
            rintro rfl
            obtain ⟨post, pre, w, e, h1, _⟩ := hgot
            exact (hr.cinv.ok c hc).ret (by rw [hp]; nofun) (.result e) (by rw [h1]; simp)
          have hid : id' = id := by
            obtain ⟨post, pre', w', e', h1, _, ⟨mid', pre'', h2, _, _, h3⟩, _⟩ := hgot
            obtain ⟨k1, f1, a1⟩ := known_accepted h3
            obtain ⟨k2, f2, a2⟩ := known_accepted hkn
            have b1 : Ev.accepted k1 id' rid f1 ∈ s.tab.hist := by
              rw [h1, h2]; exact List.mem_append_right _ (.tail _ (List.mem_append_right _ a1))
            have b2 : Ev.accepted k2 id rid f2 ∈ s.tab.hist := by
              rw [hh]; exact List.mem_append_right _ a2
            exact accepted_inj hr.tab.evOk b1 b2
          subst hid
          exact ⟨cid', hne, hgot⟩
      · left
        have hk := hr.tab.evOk
        rw [hh] at hk ⊢
        rw [hh] at hrm
        exact known_stays hk hkn (fun h => hrm (List.mem_append_left _ h))
    · cases hd : c.cancelled with
      | false => rfl
      | true => exact (can (.cRemoveAbort c.cid) rfl (by simp [step, Op.cid?, hg, clientStep, hp, hd])).elim
  | returned r => exact Or.inl ⟨r, rfl⟩

/-- A state at rest with a caller of Worker that waits. -/
def opsAsleep : List Op := RDemo.opsStart 0 7 1 ++ [.callWorker 7, .cLock 1, .hCheck 1, .hEnter 1, .gCall 0, .loopTop]

example : canStepB RDemo.prm (RDemo.after RDemo.prm opsAsleep) = false ∧
    ∃ c ∈ (RDemo.after RDemo.prm opsAsleep).clients, c.pc = .waiting 7 := by decide +kernel

/-! ## C24: no lost wakeup -/

/-- C24: while the helper of a Worker call is asleep with no broadcast coming, the id is known and has no worker. -/
theorem C24_asleep (hr : Reach p s) {c : Client} (hc : c ∈ s.clients) {h : Helper} (hh : c.helper = some h) (hp : h.pc = .sleep)
    (hb : s.tab.pc ≠ .bcast) (hk : s.tab.pc.busy = false) :
    (knownH s.tab.hist h.id).isSome = true ∧ instH s.tab.hist h.id = none := by
  rcases hr.minv.asleep c hc h hh hp with (hw | hw) | hw
  · exact absurd hw hb
  · rw [hk] at hw; cases hw
  · obtain ⟨i, h1, h2⟩ := getWorker_none.1 hw
    have hi := hr.tab.hinv
    exact ⟨by rw [hi.kn, h1]; rfl, by rw [hi.inst, h1]; exact h2⟩

/-- C24: a Worker or StopAndRemoveWorker call that stays blocked in its wait for the worker does so only while the id is
known, has no worker, the runner is not dying, and the call has not been aborted. -/
theorem C24_blocked (hr : Reach p s) (hq : ¬ CanStep p s) (hx : .exit ∈ s.tab.hist → (waitResult s).isSome = true) {c : Client}
    (hc : c ∈ s.clients) {id : Name} (hp : c.pc = .waiting id) :
    (knownH s.tab.hist id).isSome = true ∧ instH s.tab.hist id = none ∧ s.tab.dying = false ∧ c.cancelled = false := by
  rcases C58_blocked hr hq hx hc with ⟨r, h⟩ | ⟨id', h, h1⟩ | ⟨w, rid, h, _⟩ | ⟨w, rid, e, _, h, _⟩
  · rw [hp] at h; cases h
  · rw [hp] at h; cases h; exact h1
  · rw [hp] at h; cases h
  · rw [hp] at h; cases h

example : ∃ c ∈ (RDemo.after RDemo.prm opsAsleep).clients, (c.helper.map Helper.pc) = some .sleep ∧
    (RDemo.after RDemo.prm opsAsleep).tab.pc ≠ .bcast ∧ (RDemo.after RDemo.prm opsAsleep).tab.pc.busy = false := by
  decide +kernel

/-! ## C59: helper goroutines -/

/-- C59: once the runner has returned and everything has come to rest, no helper goroutine of workerInfo is left. -/
theorem C59_no_helper_left (hr : Reach p s) (hq : ¬ CanStep p s) (hx : .exit ∈ s.tab.hist) {c : Client} (hc : c ∈ s.clients)
    {h : Helper} (hh : c.helper = some h) : h.pc = .done := by
  have hm := hr.minv
  have hg := getC_of hm.nd hc
  have hpc := hr.tab.hinv.exit.2 hx
  have hmu := hr.mu_rest hq
  have can : ∀ op, op.internal = true → (step p s op).isSome = true → False := fun op h1 h2 => hq (canStep_of op h1 h2)
  cases hhp : h.pc with
  | done => rfl
  | check => have := (hm.holder c hc h hh (Or.inl hhp)).1; rw [mu_of_free hmu] at this; cases this
  | enter => have := (hm.holder c hc h hh (Or.inr hhp)).1; rw [mu_of_free hmu] at this; cases this
  | sleep =>
    rcases hm.asleep c hc h hh hhp with (hw | hw) | hw
    · rw [hpc] at hw; cases hw
    · rw [hpc] at hw; cases hw
    · obtain ⟨i, h1, _⟩ := getWorker_none.1 hw
      rw [(hr.tab.shape.exited hpc).2 h.id] at h1; cases h1
  | woken =>
    exfalso
    refine can (.hWake c.cid) rfl ?_
    simp only [step, Op.cid?, hg, clientStep, hh, hhp, hmu, and_self, if_true]
    split <;> rfl

example : Ev.exit ∈ (RDemo.after RDemo.prm (opsDying ++ [.loopTop, .recvDying, .killAll [7], .killNext, .killNext, .bcast, .gCall 0, .gStartErr 0 (.user 1),
      .loopTop, .recvDone 0, .act 1, .bcast, .loopTop, .hWake 1])).tab.hist ∧
    canStepB RDemo.prm (RDemo.after RDemo.prm (opsDying ++ [.loopTop, .recvDying, .killAll [7], .killNext, .killNext, .bcast, .gCall 0,
      .gStartErr 0 (.user 1), .loopTop, .recvDone 0, .act 1, .bcast, .loopTop, .hWake 1])) = false := by decide +kernel

/-- C59: but before that, a helper may be left behind asleep although its caller has given up and gone, because the
caller's broadcast does not hold runner.mu and may come before the helper's Cond.Wait. It sleeps until the loop's next
broadcast. -/
theorem C59_left_behind : ∃ (p : Params) (s : State), Reach p s ∧ ¬ CanStep p s ∧
    ∃ c ∈ s.clients, c.pc = .returned (.err .runnerAborted) ∧ c.helper = some { id := 7, pc := .sleep, stopped := true } :=
  ⟨RDemo.prm, _, RDemo.after_reach RDemo.prm (RDemo.opsStart 0 7 1 ++ [.callWorker 7, .cLock 1, .hCheck 1, .cancel 1, .cAbort 1,
      .cClose 1, .cBcast 1, .hEnter 1, .gCall 0, .loopTop]),
    not_canStep (RDemo.after_reach _ _) (by decide +kernel), by decide +kernel⟩

/-- C59: the broadcast of an aborted call gets rid of its helper if the helper is asleep: when everything has come to rest
after it, whatever else happens meanwhile, the helper has gone. -/
theorem C59_broadcast (hr : Reach p s) {c : Client} (hc : c ∈ s.clients) {id : Name} (hp : c.pc = .bcasting id) {h : Helper}
    (hh : c.helper = some h) (hs : h.pc = .sleep) {s1 s' : State} (h1 : step p s (.cBcast c.cid) = some s1) {n : Nat}
    (hx : Exec p (fun _ => true) (fun _ => true) n s1 s') (hq : ¬ CanStep p s') :
    ∃ c' ∈ s'.clients, c'.cid = c.cid ∧ ∃ h', c'.helper = some h' ∧ h'.pc = .done := by
  have hst : h.stopped = true := by have := hr.ainv c hc h hh; rw [hp] at this; exact this
  have hhas : Has s c.cid h := ⟨c, hc, rfl, by rw [hp]; nofun, hh⟩
  obtain ⟨h', g1, _, g3⟩ := hhas.step hr h1
  have hl : Leaving h' := by rw [g3 (Or.inr rfl)]; exact Resting.wake ⟨hst, Or.inl hs⟩
  have hr1 := hr.step _ h1
  obtain ⟨h2, g4, g5⟩ := hx.leaving hr1 g1 hl
  have hd := g4.gone (hx.reach hr1) hq g5
  obtain ⟨c', a, b, _, d⟩ := g4
  exact ⟨c', a, b, h2, d, hd⟩

/-- C59: and the loop's next broadcast gets rid of a helper that an aborted call left behind. -/
theorem C59_next_broadcast (hr : Reach p s) (hq0 : ¬ CanStep p s) {c : Client} (hc : c ∈ s.clients)
    (hp : c.pc = .returned (.err .runnerAborted)) {h : Helper} (hh : c.helper = some h) {n : Nat} {s' : State}
    (hx : Exec p (fun _ => true) (fun op => decide (op = .bcast)) n s s') (hn : n ≠ 0) (hq : ¬ CanStep p s') :
    ∃ c' ∈ s'.clients, c'.cid = c.cid ∧ ∃ h', c'.helper = some h' ∧ h'.pc = .done := by
  have hmu := hr.mu_rest hq0
  have hst : h.stopped = true ∨ h.pc = .done := by have := hr.ainv c hc h hh; rw [hp] at this; exact this rfl
  have hhas : Has s c.cid h := ⟨c, hc, rfl, by rw [hp]; nofun, hh⟩
  have key : ∃ h', Has s' c.cid h' ∧ h'.pc = .done := by
    rcases hst with hst | hst
    · have hrest : Resting h := by
        refine ⟨hst, ?_⟩
        cases hhp : h.pc with
        | sleep => exact Or.inl rfl
        | woken => exact Or.inr (Or.inl rfl)
        | check => exact Or.inr (Or.inr (Or.inl rfl))
        | done => exact Or.inr (Or.inr (Or.inr rfl))
        | enter => have := (hr.minv.holder c hc h hh (Or.inr hhp)).1; rw [mu_of_free hmu] at this; cases this
      obtain ⟨h2, g4, g5⟩ := hx.resting hr hhas hrest hn
      exact ⟨h2, g4, g4.gone (hx.reach hr) hq g5⟩
    · exact hx.finished hr hhas hst
  obtain ⟨h2, ⟨c', a, b, _, d⟩, hd⟩ := key
  exact ⟨c', a, b, h2, d, hd⟩

/-- A caller of Worker that gives up while its helper is asleep, up to its broadcast. -/
def opsGivesUp : List Op := RDemo.opsStart 0 7 1 ++ [.callWorker 7, .cLock 1, .hCheck 1, .hEnter 1, .gCall 0, .loopTop, .cancel 1,
  .cAbort 1, .cClose 1]

example : (RDemo.after RDemo.prm opsGivesUp).clients.any (fun c => c.cid = 1 ∧ c.pc = .bcasting 7 ∧
      c.helper = some { id := 7, pc := .sleep, stopped := true }) = true ∧
    (step RDemo.prm (RDemo.after RDemo.prm opsGivesUp) (.cBcast 1)).isSome = true ∧
    canStepB RDemo.prm (RDemo.after RDemo.prm (opsGivesUp ++ [.cBcast 1, .hWake 1, .hCheck 1])) = false := by decide +kernel

/-- The helper left behind in `C59_left_behind` and an execution with a broadcast of the loop. -/
example : canStepB RDemo.prm (RDemo.after RDemo.prm (RDemo.opsStart 0 7 1 ++ [.callWorker 7, .cLock 1, .hCheck 1, .cancel 1,
      .cAbort 1, .cClose 1, .cBcast 1, .hEnter 1, .gCall 0, .loopTop, .callStop 9, .recvStop 2, .act 1, .bcast, .loopTop,
      .hWake 1, .hCheck 1])) = false := by decide +kernel

/-! ## C25: Worker hands out dead workers -/

/-- C25 is false: a call of Worker made when the worker has finished, and the runner knows that, returns the finished
worker without waiting. -/
theorem C25_false : ∃ (p : Params) (s : State) (cid w : Nat) (id : Name) (pre mid post : List Ev), Reach p s ∧
    s.tab.hist = post ++ .ret cid (.worker w) :: (mid ++ .callWorker cid id :: pre) ∧
    (finishedH pre w).isSome = true ∧ ∃ g e, .ended id g e ∈ pre :=
  ⟨RDemo.prm, _, 1, 10, 7, (RDemo.after RDemo.prm RDemo.opsRestart).tab.hist, [], [],
    RDemo.after_reach RDemo.prm (RDemo.opsRestart ++ [.callWorker 7, .cLock 1, .cImmediate 1]), by decide +kernel,
    by decide +kernel, 0, some (.user 1), by decide +kernel⟩

/-! ## C27: StopAndRemoveWorker may not return -/

/-- C27 is false: if the worker ends with an error that calls for a restart when it is Kill()ed, it is restarted, and the
call of StopAndRemoveWorker waits while the next worker runs. -/
theorem C27_restarted : ∃ (p : Params) (s : State) (cid w w' : Nat) (id : Name), Reach p s ∧ ¬ CanStep p s ∧
    callH s.tab.hist cid = some (.remove id) ∧ (∀ r, .ret cid r ∉ s.tab.hist) ∧
    .clientKillW cid w ∈ s.tab.hist ∧ (finishedH s.tab.hist w).isSome = true ∧
    instH s.tab.hist id = some w' ∧ finishedH s.tab.hist w' = none :=
  ⟨RDemo.prm, _, 1, 10, 11, 7, RDemo.after_reach RDemo.prm (RDemo.opsUp ++ [.callRemove 7, .cLock 1, .cImmediate 1, .cKill 1] ++
      RDemo.opsEnd 0 10 (some (.user 1)) ++ [.cWaitRet 1, .bcast, .gTimer 1] ++ RDemo.opsOk 1 11 ++ [.loopTop]),
    not_canStep (RDemo.after_reach _ _) (by decide +kernel), by decide +kernel, fun r => by
      intro h
      have : ∀ e ∈ (RDemo.after RDemo.prm (RDemo.opsUp ++ [.callRemove 7, .cLock 1, .cImmediate 1, .cKill 1] ++
        RDemo.opsEnd 0 10 (some (.user 1)) ++ [.cWaitRet 1, .bcast, .gTimer 1] ++ RDemo.opsOk 1 11 ++ [.loopTop])).tab.hist,
        (match e with | .ret 1 _ => false | _ => true) = true := by decide +kernel
      exact absurd (this _ h) (by simp), by decide +kernel⟩

/-- Calls 1 and 2 of StopAndRemoveWorker for the same worker; it ends without an error and is removed. -/
def opsBoth : List Op := RDemo.opsUp ++ [.callRemove 7, .cLock 1, .cImmediate 1, .cKill 1, .callRemove 7, .cLock 2, .cImmediate 2,
  .cKill 2] ++ RDemo.opsEnd 0 10 none ++ [.cWaitRet 1, .cWaitRet 2, .bcast, .cRemoved 1, .loopTop]

/-- C27 is false: of two concurrent calls of StopAndRemoveWorker for the same worker only one is released; the other waits
although the worker is gone and the id unknown. -/
theorem C27_second_waits : ∃ (p : Params) (s : State) (cid w : Nat) (id : Name), Reach p s ∧ ¬ CanStep p s ∧
    callH s.tab.hist cid = some (.remove id) ∧ (∀ r, .ret cid r ∉ s.tab.hist) ∧
    .clientKillW cid w ∈ s.tab.hist ∧ (finishedH s.tab.hist w).isSome = true ∧ knownH s.tab.hist id = none :=
  ⟨RDemo.prm, _, 2, 10, 7, RDemo.after_reach RDemo.prm opsBoth,
    not_canStep (RDemo.after_reach _ _) (by decide +kernel), by decide +kernel, fun r => by
      intro h
      have : ∀ e ∈ (RDemo.after RDemo.prm opsBoth).tab.hist, (match e with | .ret 2 _ => false | _ => true) = true := by
        decide +kernel
      exact absurd (this _ h) (by simp), by decide +kernel⟩

/-- A caller that waits for the removal of a registration which has been removed already, and whose one value on `done` went
to somebody else, has not returned in any continuation in which its abort channel is not closed. -/
theorem C27_one_value {cid w rid n : Nat} {id : Name} {e : Option Err} {s' : State} (hr : Reach p s)
    (hw : ∃ c ∈ s.clients, c.cid = cid ∧ c.pc = .removeSelect w rid e ∧ c.cancelled = false)
    (hm : .removed id rid ∈ s.tab.hist) (ht : rid ∉ s.tab.tokens)
    (hx : Exec p (fun op => op != .cancel cid) (fun _ => true) n s s') : ∀ r, .ret cid r ∉ s'.tab.hist := by
  obtain ⟨c, hc, rfl, hpc, _⟩ := At.stuck_forever hr hw hm ht hx
  exact ((hx.reach hr).cinv.ok c hc).ret (by intro r; rw [hpc]; nofun)

/-- C27 is false: the second of two concurrent callers never returns, whatever happens afterwards (even if the runner is
stopped, or the id is used again), unless its abort channel is closed. -/
theorem C27_forever : ∃ (p : Params) (s : State) (cid w : Nat) (id : Name), Reach p s ∧
    callH s.tab.hist cid = some (.remove id) ∧ .clientKillW cid w ∈ s.tab.hist ∧ (finishedH s.tab.hist w).isSome = true ∧
    knownH s.tab.hist id = none ∧
    ∀ n s', Exec p (fun op => op != .cancel cid) (fun _ => true) n s s' → ∀ r, .ret cid r ∉ s'.tab.hist :=
  ⟨RDemo.prm, _, 2, 10, 7, RDemo.after_reach RDemo.prm opsBoth, by decide +kernel, by decide +kernel, by decide +kernel,
    by decide +kernel, fun _ _ hx => C27_one_value (w := 10) (rid := 0) (id := 7) (e := none) (RDemo.after_reach RDemo.prm opsBoth)
      (by decide +kernel) (by decide +kernel) (by decide +kernel) hx⟩

/-! ## C70: runner.mu -/

/-- C70: at most one helper is where it holds runner.mu; it holds it while it looks and until it is asleep. -/
theorem C70_exclusive (hr : Reach p s) {c c' : Client} (hc : c ∈ s.clients) (hc' : c' ∈ s.clients) {h h' : Helper}
    (hh : c.helper = some h) (hh' : c'.helper = some h') (hp : h.pc = .check ∨ h.pc = .enter)
    (hp' : h'.pc = .check ∨ h'.pc = .enter) : c.cid = c'.cid := by
  have h1 := (hr.minv.holder c hc h hh hp).1
  have h2 := (hr.minv.holder c' hc' h' hh' hp').1
  rw [h1] at h2; exact Option.some.inj h2

/-- C70: while a helper has looked and is not yet asleep, neither the registered ids change nor the workers the runner has
for them, and no report is made: whatever step is taken. -/
theorem C70_frozen (hr : Reach p s) {c : Client} (hc : c ∈ s.clients) {h : Helper} (hh : c.helper = some h)
    (hp : h.pc = .check ∨ h.pc = .enter) {op : Op} {s' : State} (hs : step p s op = some s') (id : Name) :
    knownH s'.tab.hist id = knownH s.tab.hist id ∧ instH s'.tab.hist id = instH s.tab.hist id ∧
    (∀ o, op ≠ .report o) ∧ ∀ o, op ≠ .names o := by
  have hmu : s.mu ≠ none := by rw [(hr.minv.holder c hc h hh hp).1]; nofun
  have h1 := shown_step hmu hr.excl hs id
  have hi := hr.tab.hinv
  have hi' := (hr.step op hs).tab.hinv
  have hrep : (∀ o, op ≠ .report o) ∧ ∀ o, op ≠ .names o := by
    constructor
    · rintro o rfl; simp [step, Op.cid?, tabStep, hmu, State.muFree] at hs
    · rintro o rfl; simp [step, Op.cid?, tabStep, hmu, State.muFree] at hs
  rw [hi.kn, hi'.kn, hi.inst, hi'.inst]
  unfold shown at h1
  cases h2 : s.tab.workers.get? id <;> cases h3 : s'.tab.workers.get? id <;> simp_all

/-- A helper has looked in vain and is about to sleep; another call waits for the lock; the loop is about to handle the end of
the start attempt, which it cannot until the helper is asleep. -/
example : ∃ c ∈ (RDemo.after RDemo.prm (RDemo.opsStart 0 7 1 ++ [.callWorker 7, .callWorker 7, .cLock 1, .gCall 0,
      .gStartOk 0 10, .loopTop, .recvStarted 0])).clients, ∃ h, c.helper = some h ∧ h.pc = .check ∧
    step RDemo.prm (RDemo.after RDemo.prm (RDemo.opsStart 0 7 1 ++ [.callWorker 7, .callWorker 7, .cLock 1, .gCall 0,
      .gStartOk 0 10, .loopTop, .recvStarted 0])) (.act 101) = none ∧
    (step RDemo.prm (RDemo.after RDemo.prm (RDemo.opsStart 0 7 1 ++ [.callWorker 7, .callWorker 7, .cLock 1, .gCall 0,
      .gStartOk 0 10, .loopTop, .recvStarted 0, .hCheck 1, .hEnter 1])) (.act 101)).isSome = true :=
  ⟨_, .tail _ (.head _), _, rfl, by decide +kernel, by decide +kernel, by decide +kernel⟩

end Verif.Props
