import Verif.Engine.Fine

/-!
Every execution of the engine with atomic arms is one of the engine whose loop is interrupted.
-/

namespace Verif.Engine
open State Verif.Spec

/-- The state without the note of an expected Kill. -/
def np (s : State) : State := { s with pend := none }

theorem np_idem {s : State} (h : s.pend = none) : np s = s := by cases s; cases h; rfl

theorem fine_tick {cfg : Config} {s : State} {ts : List Task} (h : FReach cfg ⟨np s, ts⟩) :
    FReach cfg ⟨np s.tick, ts⟩ := by
  rcases hp : s.pend with _ | k
  · rw [tick_none hp]; exact h
  · cases k with
    | zero =>
      have e : np s.tick = (np s).killNil := by unfold State.tick; rw [hp]; rfl
      rw [e]
      exact h.step (.env .kill) rfl
    | succ k =>
      have e : np s.tick = np s := by unfold State.tick; rw [hp]; rfl
      rw [e]; exact h

theorem fine_work {cfg : Config} {s : State} {t : Task} {ts : List Task} (h : FReach cfg ⟨s, t :: ts⟩) :
    FReach cfg ⟨(exec cfg s t).1, (exec cfg s t).2 ++ ts⟩ := h.step .work rfl

theorem killInternal_tick (s : State) (k : Nat) (n : Name) :
    (s.killInternal k n).tick = s.tick.killInternal k n := by
  have hp : (s.killInternal k n).pend = s.pend := rfl
  unfold State.tick
  rw [hp]
  rcases s.pend with _ | _ | j
  · rfl
  · have ht : (s.tomb.kill (some (.internal k n))).kill none = (s.tomb.kill none).kill (some (.internal k n)) := by
      unfold Tomb.kill
      rcases hr : s.tomb.reason with _ | _ | e <;> simp [hr]
    show ({ s with tomb := (s.tomb.kill (some (.internal k n))).kill none, pend := none, hist := .kill :: s.hist } : State)
      = { s with tomb := (s.tomb.kill none).kill (some (.internal k n)), pend := none, hist := .kill :: s.hist }
    rw [ht]
  · rfl

theorem np_requestStart (s : State) (n : Name) (d : Int) :
    np (requestStart s n d) = requestStart (np s.tick) n d := by
  -- the check may as well come first
  have e : requestStart s n d =
      let s1 := if (s.tick.manifolds.get? n).isNone then s.tick.killInternal 384 n else s.tick
      let s2 := if (s1.cur n).stopped then s1 else s1.killInternal 390 n
      if s2.dying then s2 else launch s2 n d := by
    unfold requestStart
    rw [tick_manifolds]
    have h1 : (if (s.manifolds.get? n).isNone then s.tick.killInternal 384 n else s.tick) =
        (if (s.manifolds.get? n).isNone then s.killInternal 384 n else s).tick := by
      split
      · rw [killInternal_tick]
      · rfl
    simp only [h1]
    generalize (if (s.manifolds.get? n).isNone then s.killInternal 384 n else s) = s1
    have h2 : (if (s1.tick.cur n).stopped then s1.tick else s1.tick.killInternal 390 n) =
        (if (s1.cur n).stopped then s1 else s1.killInternal 390 n).tick := by
      rw [tick_cur]
      split
      · rfl
      · rw [killInternal_tick]
    rw [h2]
  rw [e]
  generalize s.tick = s
  unfold requestStart
  have h1 : (if ((np s).manifolds.get? n).isNone then (np s).killInternal 384 n else np s) =
      np (if (s.manifolds.get? n).isNone then s.killInternal 384 n else s) := by
    show (if (s.manifolds.get? n).isNone then _ else _) = _
    split <;> rfl
  simp only [h1]
  generalize (if (s.manifolds.get? n).isNone then s.killInternal 384 n else s) = s1
  have h2 : (if ((np s1).cur n).stopped then np s1 else (np s1).killInternal 390 n) =
      np (if (s1.cur n).stopped then s1 else s1.killInternal 390 n) := by
    show (if (s1.cur n).stopped then _ else _) = _
    split <;> rfl
  simp only [h2]
  generalize (if (s1.cur n).stopped then s1 else s1.killInternal 390 n) = s2
  rw [tick_none (s := np s2) rfl]
  show np (if s2.dying then s2 else launch s2 n d) = if s2.dying then np s2 else launch (np s2) n d
  split <;> rfl

theorem np_requestStop (s : State) (n : Name) : np (requestStop s n) = requestStop (np s) n := by
  have h0 : State.cur (np s) n = s.cur n := rfl
  have h1 : markStopping (np s) n = np (markStopping s n) := by
    unfold markStopping
    simp only [h0]
    cases (s.cur n).cancel <;> rfl
  unfold requestStop
  simp only [h0, h1]
  split
  · rfl
  · cases (s.cur n).worker with
    | none => rfl
    | some w => cases w <;> rfl

theorem fine_bounces {cfg : Config} : ∀ (ds : List Name) (s : State) (ts : List Task),
    FReach cfg ⟨np s, ds.map .bounce ++ ts⟩ → FReach cfg ⟨np (bounceList cfg s ds), ts⟩ := by
  intro ds
  induction ds with
  | nil => intro s ts h; exact h
  | cons d ds ih =>
    intro s ts h
    unfold bounceList
    refine ih _ _ ?_
    by_cases hs : (s.cur d).stopped = true
    · rw [if_pos hs, np_requestStart]
      have hs' : ((np s.tick).cur d).stopped = true := by
        show (s.tick.cur d).stopped = true
        rw [tick_cur]; exact hs
      have e : (exec cfg (np s.tick) (.bounce d)).1 = requestStart (np s.tick) d cfg.bounceDelay := if_pos hs'
      rw [← e]
      exact fine_work (fine_tick h)
    · rw [if_neg hs, np_requestStop]
      have e : (exec cfg (np s) (.bounce d)).1 = requestStop (np s) d := if_neg hs
      rw [← e]
      exact fine_work h

theorem fine_bounceAll {cfg : Config} {s : State} {n : Name} {ts : List Task}
    (h : FReach cfg ⟨np s, .bounceAll n :: ts⟩) : FReach cfg ⟨np (bounceDependents cfg s n), ts⟩ :=
  fine_bounces _ s ts (fine_work h)

theorem fine_stops {cfg : Config} : ∀ (ns : List Name) (s : State) (ts : List Task),
    FReach cfg ⟨np s, ns.map .stop ++ ts⟩ → FReach cfg ⟨np (ns.foldl requestStop s), ts⟩ := by
  intro ns
  induction ns with
  | nil => intro s ts h; exact h
  | cons n ns ih =>
    intro s ts h
    rw [List.foldl_cons]
    refine ih _ _ ?_
    rw [np_requestStop]
    exact fine_work h

theorem fine_start {cfg : Config} {s : State} {n : Name} {d : Int} {ts : List Task}
    (h : FReach cfg ⟨np s, .start n d :: ts⟩) : FReach cfg ⟨np (requestStart s n d), ts⟩ := by
  rw [np_requestStart]
  exact fine_work (fine_tick h)

theorem fine_check {cfg : Config} {s : State} {ts : List Task} (h : FReach cfg ⟨np s, .check :: ts⟩) :
    FReach cfg ⟨endArm s, ts⟩ := by
  have e : endArm s = endArm (np s.tick) := by
    unfold endArm
    rw [tick_none (s := np s.tick) rfl]
    rfl
  rw [e]
  exact fine_work (fine_tick h)

theorem fine_report {cfg : Config} {s : State} {ts : List Task} (h : FReach cfg ⟨np s, .report :: ts⟩) :
    FReach cfg ⟨np (liveReport s), ts⟩ := by
  have e : np (liveReport s) = liveReport (np s.tick) := by
    unfold liveReport
    rw [tick_none (s := np s.tick) rfl]
    simp only
    have hd : (np s.tick).dying = s.tick.dying := rfl
    rw [hd]
    split <;> rfl
  rw [e]
  exact fine_work (fine_tick h)

theorem fine_react {cfg : Config} {s : State} {n : Name} {told b : Bool} {err : Option Err} {vals : Name → List Name}
    {ts : List Task} (h : FReach cfg ⟨np s, .react n told err vals b :: ts⟩) :
    FReach cfg ⟨np (if s.tick.dying then s.tick else
      let s4 := reactToStop cfg s.tick n told err vals
      if b then bounceDependents cfg s4 n else s4), ts⟩ := by
  have h := fine_work (fine_tick h)
  have hd : (np s.tick).dying = s.tick.dying := rfl
  simp only [exec, hd] at h
  generalize s.tick = s at *
  by_cases hd : s.dying = true
  · simp only [hd, if_true] at h ⊢; exact h
  · simp only [hd, Bool.false_eq_true, if_false, List.append_assoc] at h ⊢
    have fin : ∀ s4, FReach cfg ⟨np s4, (if b then [.bounceAll n] else []) ++ ts⟩ →
        FReach cfg ⟨np (if b then bounceDependents cfg s4 n else s4), ts⟩ := by
      intro s4 h
      cases b with
      | true => exact fine_bounceAll h
      | false => exact h
    apply fin
    unfold reactTasks at h
    unfold reactToStop
    repeat' split at h
    all_goals simp_all only [if_true, if_false]
    all_goals first
      | exact fine_start h
      | exact h
      | exact fine_work h

theorem np_beginStopped (cfg : Config) (s : State) (n : Name) (gid : Nat) (raw : Option Err) (now : Int)
    (vals : Name → List Name) :
    np (beginStopped cfg s n gid raw now vals).1 = (beginStopped cfg (np s) n gid raw now vals).1 := by
  unfold beginStopped
  simp only
  have h1 : ∀ (s : State) e, np (noteFatal cfg s n e) = noteFatal cfg (np s) n e := by
    intro s e; unfold noteFatal
    have : State.cur (np s) n = s.cur n := rfl
    rw [this]
    split
    · rfl
    · split <;> rfl
  have h2 : ∀ (s : State) i, np (resetInfo s n i) = resetInfo (np s) n i := by
    intro s i; rfl
  rw [h2, h1]
  rfl

theorem fine_env {cfg : Config} {s s' : State} {op : Op} {ts : List Task} (he : op.isEnv = true)
    (h : step cfg s op = some s') (hf : FReach cfg ⟨s, ts⟩) : FReach cfg ⟨s', ts⟩ :=
  hf.step (.env op) (by simp only [fstep]; rw [if_pos he, h]; rfl)

/-- Whatever the engine with atomic arms can do, the engine with an interrupted loop can do: it reaches the same state with
the same history, with the loop at its select. -/
theorem fine_of_reach {cfg : Config} {s : State} (hr : Reach cfg s) : s.pend = none ∧ FReach cfg ⟨s, []⟩ := by
  have hend : ∀ s : State, (endArm s).pend = none := by
    intro s; unfold endArm; simp only; split <;> rfl
  induction hr with
  | init => exact ⟨rfl, .init⟩
  | @step s s' op hr h ih =>
    obtain ⟨hp, hf⟩ := ih
    have hnp : ∀ p, np { s with pend := p } = s := fun p => by
      show { s with pend := none } = s
      exact np_idem hp
    cases op with
    | armDying order p =>
      simp only [step] at h
      split at h
      · rename_i hc
        simp only [Option.some.injEq] at h; subst h
        refine ⟨hend _, fine_check ?_⟩
        unfold dyingArm
        rw [foldl_requestStop_oneShot]
        have h1 : FReach cfg ⟨s, order.map .stop ++ [.clearOneShot, .check]⟩ :=
          hf.step (.dying order) (by simp only [fstep]; rw [if_pos ⟨rfl, hc⟩])
        rw [← hnp p] at h1
        exact fine_work (fine_stops order _ _ h1)
      · cases h
    | armReport p =>
      simp only [step] at h
      split at h
      · rename_i hc
        simp only [Option.some.injEq] at h; subst h
        refine ⟨hend _, fine_check (fine_report ?_)⟩
        rw [hnp p]
        exact hf.step .report (by simp only [fstep]; rw [if_pos ⟨rfl, hc⟩])
      · cases h
    | armInstall n m order p =>
      simp only [step] at h
      split at h
      · rename_i hc
        simp only [Option.some.injEq] at h; subst h
        refine ⟨hend _, fine_check ?_⟩
        have h1 : FReach cfg ⟨(beginInstall s n m order).1, (beginInstall s n m order).2⟩ :=
          hf.step (.install n m order) (by simp only [fstep]; rw [if_pos ⟨rfl, hc⟩])
        unfold beginInstall at h1
        unfold gotInstall
        have e : checkAcyclic { s with pend := p } n m order = checkAcyclic s n m order := rfl
        rw [e]
        show FReach cfg ⟨np (if (s.manifolds.get? n).isSome then _ else _), _⟩
        cases hn : (s.manifolds.get? n).isSome with
        | true =>
          simp only [hn, if_true] at h1 ⊢
          rw [← hnp p] at h1; exact h1
        | false =>
          simp only [hn, Bool.false_eq_true, if_false] at h1 ⊢
          cases hc : checkAcyclic s n m order with
          | some e => rw [hc] at h1; simp only at h1 ⊢; rw [← hnp p] at h1; exact h1
          | none =>
            rw [hc] at h1; simp only at h1 ⊢
            refine fine_start ?_
            rw [← hnp p] at h1; exact h1
      · cases h
    | armStarted gid now p =>
      simp only [step] at h
      split at h
      · cases h
      rename_i hc
      have hc : s.tomb.dead = false := by simpa using hc
      split at h
      · cases h
      · rename_i g hget
        split at h
        · rename_i w hpc
          simp only [Option.some.injEq] at h; subst h
          refine ⟨hend _, fine_check ?_⟩
          generalize hs1 : s.mapG gid (fun g => { g with pc := afterOffer w }) = s1
          have hp1 : s1.pend = none := by rw [← hs1]; exact hp
          have hnp1 : ∀ p, np { s1 with pend := p } = s1 := fun p => np_idem hp1
          -- the step of the interrupted loop, after the Kill that may have come before it
          have key : ∀ s0 : State, FReach cfg ⟨s0, []⟩ → s0.tomb.dead = false → s0.gs = s.gs →
              FReach cfg ⟨(beginStarted (s0.mapG gid (fun g => { g with pc := afterOffer w })) g.name gid w now).1,
                (beginStarted (s0.mapG gid (fun g => { g with pc := afterOffer w })) g.name gid w now).2⟩ := by
            intro s0 h0 hd0 hg0
            have hget0 : s0.getG gid = some g := by
              rw [← hget]; unfold State.getG; rw [hg0]
            exact h0.step (.started gid now) (by simp only [fstep]; rw [if_pos ⟨rfl, hd0⟩, hget0]; simp only [hpc])
          unfold gotStarted
          simp only
          show FReach cfg ⟨np (if (s1.cur g.name).worker.isSome then _ else if (s1.cur g.name).stopping then _ else _), _⟩
          cases hw : (s1.cur g.name).worker.isSome with
          | true =>
            have h1 := key s hf hc rfl
            rw [hs1] at h1
            unfold beginStarted at h1
            simp only [hw, if_true] at h1 ⊢
            have e : np ((State.killInternal { s1 with pend := p } 584 g.name).killWorker w) =
                (State.killInternal s1 584 g.name).killWorker w := by
              rw [← hnp1 p]; cases w <;> rfl
            rw [e]; exact h1
          | false =>
            cases hst : (s1.cur g.name).stopping with
            | true =>
              have h1 := key s hf hc rfl
              rw [hs1] at h1
              unfold beginStarted at h1
              simp only [hw, hst, Bool.false_eq_true, if_true, if_false] at h1 ⊢
              have e : np (State.killWorker { s1 with pend := p } w) = s1.killWorker w := by
                rw [← hnp1 p]; cases w <;> rfl
              rw [e]; exact h1
            | false =>
              simp only [Bool.false_eq_true, if_false]
              have hf' : FReach cfg ⟨np { s with pend := p }, []⟩ := by rw [hnp p]; exact hf
              have h1 := key _ (fine_tick hf') (by show (State.tick { s with pend := p }).tomb.dead = false
                                                   rw [tick_dead]; exact hc)
                (by show (State.tick { s with pend := p }).gs = s.gs
                    rw [tick_gs])
              have e : (np (State.tick { s with pend := p })).mapG gid (fun g => { g with pc := afterOffer w }) =
                  np (State.tick { s1 with pend := p }) := by
                rw [← hs1]
                have := tick_mapG { s with pend := p } gid (fun g => { g with pc := afterOffer w })
                show np ((State.tick { s with pend := p }).mapG gid (fun g => { g with pc := afterOffer w })) = _
                rw [← this]; rfl
              rw [e] at h1
              have hw2 : ((np (State.tick { s1 with pend := p })).cur g.name).worker.isSome = false := by
                show ((State.tick { s1 with pend := p }).cur g.name).worker.isSome = false
                rw [tick_cur]; exact hw
              have hst2 : ((np (State.tick { s1 with pend := p })).cur g.name).stopping = false := by
                show ((State.tick { s1 with pend := p }).cur g.name).stopping = false
                rw [tick_cur]; exact hst
              unfold beginStarted at h1
              simp only [hw2, hst2, Bool.false_eq_true, if_false] at h1
              generalize State.tick { s1 with pend := p } = s2 at *
              have hd : (np s2).dying = s2.dying := rfl
              rw [hd] at h1
              cases hd2 : s2.dying with
              | true =>
                simp only [hd2, if_true] at h1 ⊢
                have e : np (s2.killWorker w) = (np s2).killWorker w := by cases w <;> rfl
                rw [e]; exact h1
              | false =>
                simp only [hd2, Bool.false_eq_true, if_false] at h1 ⊢
                exact fine_bounceAll h1
        · cases h
    | armStopped gid now vals p =>
      simp only [step] at h
      split at h
      · cases h
      rename_i hc
      have hc : s.tomb.dead = false ∧ validVals s.dependents ((s.getG gid).map (·.name) |>.getD 0) vals = true := by
        simpa using hc
      split at h
      · cases h
      · rename_i g hget
        split at h
        · rename_i raw hpc
          simp only [Option.some.injEq] at h; subst h
          refine ⟨hend _, fine_check ?_⟩
          have h1 : FReach cfg ⟨(beginStopped cfg { s with gs := s.gs.filter (fun g => g.gid != gid) } g.name gid raw now
              vals).1, (beginStopped cfg { s with gs := s.gs.filter (fun g => g.gid != gid) } g.name gid raw now vals).2⟩ :=
            hf.step (.stopped gid now vals) (by simp only [fstep]; rw [if_pos ⟨rfl, hc⟩, hget]; simp only [hpc])
          have e : (beginStopped cfg { s with gs := s.gs.filter (fun g => g.gid != gid) } g.name gid raw now vals).1 =
              np (beginStopped cfg { s with gs := s.gs.filter (fun g => g.gid != gid), pend := p } g.name gid raw now
                vals).1 := by
            rw [np_beginStopped]
            have : ({ s with gs := s.gs.filter (fun g => g.gid != gid) } : State) =
                np { s with gs := s.gs.filter (fun g => g.gid != gid), pend := p } :=
              (np_idem (s := { s with gs := s.gs.filter (fun g => g.gid != gid) }) hp).symm
            rw [this]
          rw [e] at h1
          exact fine_react h1
        · cases h
    | kill => exact ⟨(env_frame rfl h).pend.trans hp, fine_env rfl h hf⟩
    | installRefused | gAbort | gTimer | gGet | gStartOk | gStartErr | gRegisterDying | gSelfDone | gWaitRet | finish =>
      exact ⟨(env_frame rfl h).pend.trans hp, fine_env rfl h hf⟩

end Verif.Engine
