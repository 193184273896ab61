import Verif.Engine.More

/-!
# The engine's loop, interrupted

In Verif/Engine/Model.lean one arm of the loop's select is one step. Here the loop goroutine does its work one piece at a
time, and between any two pieces every other goroutine and the environment may move: Start funcs are called and return,
workers finish, Get is called, Kill lands.

`Fine` is the state of the engine together with what the loop goroutine still has to do before it is back at its select
(engine.go:203). The pieces are: telling one attempt to stop (727-745), one requestStart with its isDying check (379-433),
one element of the range in bounceDependents (773-782), the isDying check of gotStopped and its switch (673-723), uninstall
(353-365), the report (271-290), the check after the arm (221-225), and for each arm the receive up to the first of these.

What remains in one piece: the receive of a ticket and what follows it up to the next isDying check or the next effect
outside the loop goroutine (nothing in between can be seen by or depends on anybody else), an isDying check and the
launch it guards, and cancelling an attempt's context together with the Kill of its worker. There is no `pend` here: a
Kill is just another step.
-/

namespace Verif.Engine
open State Verif.Spec

/-- A piece of the loop goroutine's work. -/
inductive Task
  /-- requestStart(n, delay), engine.go:379-433 -/
  | start (n : Name) (delay : Int)
  /-- engine.go:673-723: the check and what to do about manifold `n` and its dependents -/
  | react (n : Name) (told : Bool) (err : Option Err) (vals : Name → List Name) (lost : Bool)
  /-- uninstall(n), engine.go:353-365 -/
  | remove (n : Name) (vals : Name → List Name)
  /-- bounceDependents(n), engine.go:773-782: evaluate the range expression -/
  | bounceAll (n : Name)
  /-- engine.go:776-780 for one dependent -/
  | bounce (d : Name)
  /-- requestStop(n), engine.go:727-745 -/
  | stop (n : Name)
  /-- engine.go:206. Only the loop goroutine uses oneShotDying, and not before the arm is over, so it does not matter
  that the model changes it last. -/
  | clearOneShot
  /-- liveReport, engine.go:271-290 -/
  | report
  /-- engine.go:221-225 -/
  | check

/-- engine.go:680-716 without the work itself. -/
def reactTasks (cfg : Config) (n : Name) (told : Bool) (err : Option Err) (vals : Name → List Name) : List Task :=
  if told then [.start n cfg.bounceDelay]
  else if err = none ∨ errIs err .aborted then []
  else if errIs err .missing then []
  else if errIs err .bounce then [.start n cfg.bounceDelay]
  else if errIs err .uninstall then [.remove n vals]
  else [.start n cfg.errorDelay]

/-- Do one piece of work; the second component is what has to be done directly after it. -/
def exec (cfg : Config) (s : State) : Task → State × List Task
  | .start n delay => (requestStart s n delay, [])
  | .react n told err vals lost =>
    if s.dying then (s, [])
    else (s, reactTasks cfg n told err vals ++ if lost then [.bounceAll n] else [])
  | .remove n vals => (uninstall s n vals, [])
  | .bounceAll n => (s, ((s.dependents.get? n).getD []).map .bounce)
  | .bounce d => (if (s.cur d).stopped then requestStart s d cfg.bounceDelay else requestStop s d, [])
  | .stop n => (requestStop s n, [])
  | .clearOneShot => ({ s with oneShot := false }, [])
  | .report => (liveReport s, [])
  | .check => (endArm s, [])

/-- The engine, and what the loop goroutine has to do before it is back at its select. -/
structure Fine where
  s : State := init
  todo : List Task := []

/-- The steps. -/
inductive FOp
  /-- another goroutine or the environment moves -/
  | env (op : Op)
  /-- the loop goroutine does the next piece of its work -/
  | work
  /-- the oneShotDying arm -/
  | dying (order : List Name)
  /-- the report arm -/
  | report
  /-- the install arm -/
  | install (n : Name) (m : Manifold) (order : List Name)
  /-- the started arm -/
  | started (gid : Nat) (now : Int)
  /-- the stopped arm -/
  | stopped (gid : Nat) (now : Int) (vals : Name → List Name)

/-- engine.go:214-216, 335-348, up to requestStart. -/
def beginInstall (s : State) (n : Name) (m : Manifold) (order : List Name) : State × List Task :=
  if (s.manifolds.get? n).isSome then (s.log (.installFailed n (.alreadyInstalled n)), [.check])
  else match checkAcyclic s n m order with
    | some e => (s.log (.installFailed n (.wrap 0 e)), [.check])
    | none => (record s n m, [.start n 0, .check])

/-- engine.go:217-218, 578-605, up to bounceDependents; `s` is the state after the ticket was received. -/
def beginStarted (s : State) (n : Name) (gid : Nat) (w : WRef) (now : Int) : State × List Task :=
  let info := s.cur n
  if info.worker.isSome then ((s.killInternal 584 n).killWorker w, [.check])
  else if info.stopping then (s.killWorker w, [.check])
  else if s.dying then (s.killWorker w, [.check])
  else (register s n gid w now, [.bounceAll n, .check])

/-- engine.go:219-220, 615-672; `s` is the state after the ticket was received. -/
def beginStopped (cfg : Config) (s : State) (n : Name) (gid : Nat) (raw : Option Err) (now : Int)
    (vals : Name → List Name) : State × List Task :=
  let info := s.cur n
  let err := applyFilter cfg (s.man n) raw
  let s1 := noteFatal cfg (s.log (.ended n gid now raw err info.stopping info.worker)) n err
  let s2 := resetInfo s1 n
    { err := err, startAttempts := newAttempts info raw, startCount := info.startCount,
      recentErrors := newRecent cfg info raw now }
  (s2,
    [.react n info.stopping err vals info.worker.isSome, .check])

/-- One step; `none` means that it is not possible. -/
def fstep (cfg : Config) (f : Fine) : FOp → Option Fine
  | .env op => if op.isEnv then (step cfg f.s op).map (fun s' => { f with s := s' }) else none
  | .work => match f.todo with
    | [] => none
    | t :: ts => some ⟨(exec cfg f.s t).1, (exec cfg f.s t).2 ++ ts⟩
  | .dying order =>
    if f.todo.isEmpty = true ∧ f.s.tomb.dead = false ∧ f.s.oneShot = true ∧ f.s.dying = true ∧
        isRangeOrder f.s.current order = true then
      some ⟨f.s, order.map .stop ++ [.clearOneShot, .check]⟩
    else none
  | .report => if f.todo.isEmpty = true ∧ f.s.tomb.dead = false then some ⟨f.s, [.report, .check]⟩ else none
  | .install n m order =>
    if f.todo.isEmpty = true ∧ f.s.tomb.dead = false ∧ isRangeOrder (f.s.manifolds.set n m) order = true then
      some ⟨(beginInstall f.s n m order).1, (beginInstall f.s n m order).2⟩
    else none
  | .started gid now =>
    if f.todo.isEmpty = true ∧ f.s.tomb.dead = false then
      match f.s.getG gid with
      | none => none
      | some g => match g.pc with
        | .registering w =>
          let r := beginStarted (f.s.mapG gid (fun g => { g with pc := afterOffer w })) g.name gid w now
          some ⟨r.1, r.2⟩
        | _ => none
    else none
  | .stopped gid now vals =>
    if f.todo.isEmpty = true ∧ f.s.tomb.dead = false ∧
        validVals f.s.dependents ((f.s.getG gid).map (·.name) |>.getD 0) vals = true then
      match f.s.getG gid with
      | none => none
      | some g => match g.pc with
        | .sendStopped e =>
          let r := beginStopped cfg { f.s with gs := f.s.gs.filter (fun g => g.gid != gid) } g.name gid e now vals
          some ⟨r.1, r.2⟩
        | _ => none
    else none

/-- Every finite execution from a new engine. -/
inductive FReach (cfg : Config) : Fine → Prop
  | init : FReach cfg {}
  | step {f f' : Fine} (op : FOp) : FReach cfg f → fstep cfg f op = some f' → FReach cfg f'

/-! ## What others do while the loop is at work -/

theorem own_foreign {e : Ev} {h : List Ev} (he : foreign e = true) : own (e :: h) = own h := by
  unfold own; rw [List.dropWhile_cons, if_pos he]

theorem own_own {e : Ev} {h : List Ev} (he : foreign e = false) : own (e :: h) = e :: h := by
  unfold own; rw [List.dropWhile_cons, if_neg (by rw [he]; simp)]

/-- What the loop relies on between two pieces of its work. -/
structure Frame (s s' : State) : Prop where
  current : s'.current = s.current
  manifolds : s'.manifolds = s.manifolds
  dependents : s'.dependents = s.dependents
  pend : s'.pend = s.pend
  dead : s'.tomb.dead = s.tomb.dead
  dying : s.dying = true → s'.dying = true
  hist : own s'.hist = own s.hist

theorem Frame.killNil (s : State) : Frame s s.killNil :=
  ⟨rfl, rfl, rfl, rfl, Tomb.kill_dead _ _, fun _ => killNil_dying _, own_foreign rfl⟩

theorem Frame.killWorker (s : State) (w : WRef) : Frame s (s.killWorker w) := by
  cases w with
  | self =>
    exact ⟨rfl, rfl, rfl, rfl, Tomb.kill_dead _ _, fun _ => killNil_dying _, (own_foreign rfl).trans (own_foreign rfl)⟩
  | obj k => exact ⟨rfl, rfl, rfl, rfl, rfl, id, own_foreign rfl⟩

theorem env_frame {cfg : Config} {s s' : State} {op : Op} (he : op.isEnv = true) (h : step cfg s op = some s') :
    Frame s s' := by
  have m := env_micro (v := own) he h noDebt
  cases op with
  | armDying | armReport | armInstall | armStarted | armStopped => cases he
  | kill => simp only [step, Option.some.injEq] at h; subst h; exact Frame.killNil s
  | gRegisterDying gid =>
    simp only [step] at h
    split at h
    · split at h
      · rename_i w hpc
        split at h
        · simp only [Option.some.injEq] at h; subst h
          obtain ⟨a, b, c, d, e, f, g⟩ := Frame.killWorker (s.mapG gid (fun g => { g with pc := afterOffer w })) w
          exact ⟨a, b, c, d, e, f, g⟩
        · cases h
      · cases h
    · cases h
  | installRefused | gAbort | gTimer | gGet | gStartOk | gStartErr | gSelfDone | gWaitRet | finish =>
    simp only [step] at h
    repeat' split at h
    all_goals first
      | (simp only [Option.some.injEq] at h; subst h
         exact ⟨rfl, rfl, rfl, rfl, rfl, id, by first | rfl | exact own_foreign rfl⟩)
      | cases h

/-! ## The link with the micro steps -/

/-- What the loop still has to do is right for what it owes. -/
inductive Ready (cfg : Config) (s : State) (D : Debt) : List Task → Prop
  | idle (h : ∀ x, ¬ D x) : Ready cfg s D []
  | bounces (ds : List Name) (h : ∀ x, D x → x ∈ ds) (hi : ∀ d ∈ ds, (s.manifolds.get? d).isSome = true)
      (hD : ∀ d ∈ ds, D d ∨ ((s.cur d).stopped = false ∧ Dup s d) ∨ s.dying = true)
      (hu : ∀ d, 2 ≤ ds.count d → Dup s d) (hb : ∀ d ∈ ds, LaunchBase cfg (own s.hist) d cfg.bounceDelay) :
      Ready cfg s D (ds.map .bounce ++ [.check])
  | bounceAll (n : Name) (h : ∀ x, D x → Dep s n x) (hD : ∀ x, Dep s n x → D x ∨ s.dying = true)
      (hb : ∀ x, Dep s n x → LaunchBase cfg (own s.hist) x cfg.bounceDelay) :
      Ready cfg s D [.bounceAll n, .check]
  | start (n : Name) (d : Int) (b : Bool) (hi : (s.manifolds.get? n).isSome = true) (hs : (s.cur n).stopped = true)
      (hn : D n ∨ s.dying = true) (hl : LaunchBase cfg (own s.hist) n d)
      (h : ∀ x, D x → x = n ∨ (b = true ∧ Dep s n x)) (hD : b = true → ∀ x, Dep s n x → D x ∨ s.dying = true)
      (hb : b = true → ∀ x, Dep s n x → LaunchBase cfg (own s.hist) x cfg.bounceDelay) :
      Ready cfg s D (.start n d :: ((if b then [.bounceAll n] else []) ++ [.check]))
  | remove (n : Name) (vals : Name → List Name) (b : Bool) (hi : (s.manifolds.get? n).isSome = true)
      (hs : (s.cur n).stopped = true) (ht : (s.cur n).startedTime = 0)
      (hv : validVals s.dependents n vals = true)
      (hev : ∃ gid now raw f lost rest, own s.hist = .ended n gid now raw f false lost :: rest ∧
        WantsUninstall false f)
      (h : ∀ x, D x → x = n ∨ (b = true ∧ Dep s n x)) (hD : b = true → ∀ x, Dep s n x → D x ∨ s.dying = true) :
      Ready cfg s D (.remove n vals :: ((if b then [.bounceAll n] else []) ++ [.check]))
  | react (n : Name) (told : Bool) (err : Option Err) (vals : Name → List Name) (b : Bool)
      (hi : (s.manifolds.get? n).isSome = true)
      (hs : (s.cur n).stopped = true) (ht : (s.cur n).startedTime = 0)
      (hv : validVals s.dependents n vals = true)
      (hev : ∃ gid now raw lost rest, own s.hist = .ended n gid now raw err told lost :: rest)
      (hD : ∀ x, D x ↔ (b = true ∧ Dep s n x) ∨ (x = n ∧ (NeedsRestart told err ∨ WantsUninstall told err))) :
      Ready cfg s D [.react n told err vals b, .check]
  | stops (ns : List Name) (hd : s.dying = true) (h : ∀ x, ¬ D x)
      (ha : ∀ x, (s.cur x).stopped = true ∨ (s.cur x).stopping = true ∨ x ∈ ns) :
      Ready cfg s D (ns.map .stop ++ [.clearOneShot, .check])
  | report (h : ∀ x, ¬ D x) : Ready cfg s D [.report, .check]

theorem Ready.check {cfg : Config} {s : State} {D : Debt} (h : ∀ x, ¬ D x) : Ready cfg s D [.check] :=
  .bounces [] (fun x hx => (h x hx).elim) (fun _ h => by cases h) (fun _ h => by cases h) (fun _ h => by simp at h)
    (fun _ h => by cases h)

theorem Frame.cur {s s' : State} (f : Frame s s') (n : Name) : s'.cur n = s.cur n := by
  unfold State.cur; rw [f.current]

theorem Frame.dep {s s' : State} (f : Frame s s') {n x : Name} : Dep s' n x ↔ Dep s n x := by
  unfold Dep; rw [f.manifolds]

theorem Frame.dup {s s' : State} (f : Frame s s') {n : Name} : Dup s' n ↔ Dup s n := by
  unfold Dup; rw [f.dependents]

theorem Ready.frame {cfg : Config} {s s' : State} {D : Debt} {ts : List Task} (f : Frame s s')
    (h : Ready cfg s D ts) : Ready cfg s' D ts := by
  cases h with
  | idle h => exact .idle h
  | bounces ds h hi hD hu hb =>
    refine .bounces ds h ?_ ?_ ?_ ?_
    · rw [f.manifolds]; exact hi
    · intro d hd
      rw [f.cur, f.dup]
      rcases hD d hd with h | h | h
      · exact Or.inl h
      · exact Or.inr (Or.inl h)
      · exact Or.inr (Or.inr (f.dying h))
    · intro d hd; rw [f.dup]; exact hu d hd
    · rw [f.hist]; exact hb
  | bounceAll n h hD hb =>
    refine .bounceAll n (fun x hx => f.dep.2 (h x hx)) (fun x hx => (hD x (f.dep.1 hx)).imp id f.dying) ?_
    rw [f.hist]; exact fun x hx => hb x (f.dep.1 hx)
  | start n d b hi hs hn hl h hD hb =>
    refine .start n d b ?_ ?_ (hn.imp id f.dying) ?_ ?_ ?_ ?_
    · rw [f.manifolds]; exact hi
    · rw [f.cur]; exact hs
    · rw [f.hist]; exact hl
    · exact fun x hx => (h x hx).imp id (fun h => ⟨h.1, f.dep.2 h.2⟩)
    · exact fun e x hx => (hD e x (f.dep.1 hx)).imp id f.dying
    · rw [f.hist]; exact fun e x hx => hb e x (f.dep.1 hx)
  | remove n vals b hi hs ht hv hev h hD =>
    refine .remove n vals b ?_ ?_ ?_ ?_ ?_ ?_ ?_
    · rw [f.manifolds]; exact hi
    · rw [f.cur]; exact hs
    · rw [f.cur]; exact ht
    · rw [f.dependents]; exact hv
    · rw [f.hist]; exact hev
    · exact fun x hx => (h x hx).imp id (fun h => ⟨h.1, f.dep.2 h.2⟩)
    · exact fun e x hx => (hD e x (f.dep.1 hx)).imp id f.dying
  | react n told err vals b hi hs ht hv hev hD =>
    refine .react n told err vals b ?_ ?_ ?_ ?_ ?_ ?_
    · rw [f.manifolds]; exact hi
    · rw [f.cur]; exact hs
    · rw [f.cur]; exact ht
    · rw [f.dependents]; exact hv
    · rw [f.hist]; exact hev
    · intro x; rw [hD x, f.dep]
  | stops ns hd h ha =>
    refine .stops ns (f.dying hd) h ?_
    intro x; rw [f.cur]; exact ha x
  | report h => exact .report h

/-- The link: the state is one the micro steps lead to, and the loop still owes what it has noted to do. -/
def Link (cfg : Config) (f : Fine) (D : Debt) : Prop :=
  Ex own cfg f.s D ∧ f.s.pend = none ∧ (f.todo ≠ [] → f.s.tomb.dead = false) ∧ Ready cfg f.s D f.todo

theorem tick_none {s : State} (h : s.pend = none) : s.tick = s := by
  unfold State.tick; rw [h]

theorem requestStart_pend {s : State} {n : Name} {d : Int} (h : s.pend = none)
    (hi : (s.manifolds.get? n).isSome = true) (hs : (s.cur n).stopped = true) : (requestStart s n d).pend = none := by
  rw [requestStart_eq hi hs, tick_none h]
  split <;> exact h

theorem requestStop_pend {s : State} {n : Name} (h : s.pend = none) : (requestStop s n).pend = none := by
  have hm : (markStopping s n).pend = s.pend := by unfold markStopping; simp only; split <;> rfl
  rcases requestStop_cases s n with ⟨_, e⟩ | ⟨_, _, ⟨w, _, e⟩ | ⟨_, e⟩⟩ <;> rw [e]
  · exact h
  · cases w <;> exact hm.trans h
  · exact hm.trans h

theorem requestStart_own {cfg : Config} {s : State} {n x : Name} {d : Int} (hp : s.pend = none)
    (hi : (s.manifolds.get? n).isSome = true) (hs : (s.cur n).stopped = true)
    (h : LaunchBase cfg (own s.hist) x cfg.bounceDelay) :
    LaunchBase cfg (own (requestStart s n d).hist) x cfg.bounceDelay := by
  rw [requestStart_eq hi hs, tick_none hp]
  split
  · exact h
  · exact rfl

theorem requestStop_own {cfg : Config} {s : State} {n x : Name}
    (h : LaunchBase cfg (own s.hist) x cfg.bounceDelay) :
    LaunchBase cfg (own (requestStop s n).hist) x cfg.bounceDelay := by
  have hm : LaunchBase cfg (own (markStopping s n).hist) x cfg.bounceDelay := by
    unfold markStopping
    simp only
    split
    · exact rfl
    · exact h
  rcases requestStop_cases s n with ⟨_, e⟩ | ⟨_, _, ⟨w, _, e⟩ | ⟨_, e⟩⟩ <;> rw [e]
  · exact h
  · rw [(Frame.killWorker _ w).hist]; exact hm
  · exact hm

theorem Link.discharge {cfg : Config} {s : State} {ts : List Task} {D : Debt} (D' : Debt) (hx : Ex own cfg s D)
    (hp : s.pend = none) (hdead : s.tomb.dead = false) (h1 : ∀ n, D' n → D n)
    (h2 : ∀ n, D n → D' n ∨ s.dying = true ∨ (s.cur n).stopping = true) (hr : Ready cfg s D' ts) :
    ∃ D, Link cfg ⟨s, ts⟩ D :=
  ⟨D', .tail hx (.discharge _ _ _ h1 h2), hp, fun _ => hdead, hr⟩

theorem link_bounces {cfg : Config} {s : State} {D : Debt} (hx : Ex own cfg s D) (hp : s.pend = none)
    (hdead : s.tomb.dead = false) (d : Name) (ds : List Name) (h : ∀ x, D x → x ∈ d :: ds)
    (hi : ∀ x ∈ d :: ds, (s.manifolds.get? x).isSome = true)
    (hD : ∀ x ∈ d :: ds, D x ∨ ((s.cur x).stopped = false ∧ Dup s x) ∨ s.dying = true)
    (hu : ∀ x, 2 ≤ (d :: ds).count x → Dup s x)
    (hb : ∀ x ∈ d :: ds, LaunchBase cfg (own s.hist) x cfg.bounceDelay) :
    ∃ D', Link cfg ⟨if (s.cur d).stopped then requestStart s d cfg.bounceDelay else requestStop s d,
      ds.map .bounce ++ [.check]⟩ D' := by
  have hid := hi d (by simp)
  have hu' : ∀ x, 2 ≤ ds.count x → Dup s x := fun x hx => hu x (Nat.le_trans hx (List.count_le_count_cons))
  have hdd : d ∈ ds → Dup s d := fun h => hu d (by
    have := List.count_pos_iff.2 h
    rw [List.count_cons_self]; omega)
  have hin : ∀ x, D x ∧ x ≠ d → x ∈ ds := by
    rintro x ⟨h1, h2⟩
    exact (List.mem_cons.1 (h x h1)).resolve_left h2
  by_cases hs : (s.cur d).stopped = true
  · rw [if_pos hs]
    have hDd : D d ∨ s.dying = true := by
      rcases hD d (by simp) with h | h | h
      · exact Or.inl h
      · rw [hs] at h; cases h.1
      · exact Or.inr h
    refine ⟨_, Chain.trans hx (chain_requestStart cfg.bounceDelay hid hs hDd (hb d (by simp))),
      requestStart_pend hp hid hs, fun _ => by rw [requestStart_dead _ hid hs]; exact hdead,
      .bounces ds hin ?_ ?_ ?_ ?_⟩
    · intro x hx; rw [requestStart_manifolds]; exact hi x (by simp [hx])
    · intro x hx
      by_cases hxd : x = d
      · subst hxd
        rcases requestStart_notStopped hid hs cfg.bounceDelay with h | h
        · exact Or.inr (Or.inr h)
        · exact Or.inr (Or.inl ⟨h, requestStart_dup (hdd hx)⟩)
      · rw [requestStart_cur_ne hid hs _ hxd]
        rcases hD x (by simp [hx]) with h | h | h
        · exact Or.inl ⟨h, hxd⟩
        · exact Or.inr (Or.inl ⟨h.1, requestStart_dup h.2⟩)
        · exact Or.inr (Or.inr (requestStart_dying_mono _ hid hs h))
    · exact fun x hx => requestStart_dup (hu' x hx)
    · exact fun x hx => requestStart_own hp hid hs (hb x (by simp [hx]))
  · rw [if_neg hs]
    have hs' : (s.cur d).stopped = false := by simpa using hs
    refine ⟨_, Chain.trans hx (chain_requestStop_pay hs' ?_), requestStop_pend hp,
      fun _ => by rw [requestStop_dead]; exact hdead, .bounces ds hin ?_ ?_ ?_ ?_⟩
    · rcases hD d (by simp) with h | h | h
      · exact Or.inl h
      · exact Or.inr (Or.inl h.2)
      · exact Or.inr (Or.inr h)
    · intro x hx; rw [requestStop_manifolds]; exact hi x (by simp [hx])
    · intro x hx
      rw [requestStop_stopped]
      by_cases hxd : x = d
      · subst hxd; exact Or.inr (Or.inl ⟨hs', requestStop_dup (hdd hx)⟩)
      · rcases hD x (by simp [hx]) with h | h | h
        · exact Or.inl ⟨h, hxd⟩
        · exact Or.inr (Or.inl ⟨h.1, requestStop_dup h.2⟩)
        · exact Or.inr (Or.inr (requestStop_dying_mono _ h))
    · exact fun x hx => requestStop_dup (hu' x hx)
    · exact fun x hx => requestStop_own (hb x (by simp [hx]))

theorem link_check {cfg : Config} {s : State} {D : Debt} (hx : Ex own cfg s D) (hp : s.pend = none)
    (hdead : s.tomb.dead = false) (h : ∀ x, ¬ D x) : ∃ D', Link cfg ⟨endArm s, []⟩ D' := by
  have e : D = noDebt := by funext x; exact propext ⟨fun hx => (h x hx).elim, fun h => h.elim⟩
  subst e
  refine ⟨noDebt, Chain.trans hx (chain_endArm hdead), ?_, fun h => absurd rfl h, .idle (fun _ h => h)⟩
  show (endArm s).pend = none
  unfold endArm
  simp only
  split <;> rfl

theorem reactTasks_cases (cfg : Config) (n : Name) (told : Bool) (err : Option Err) (vals : Name → List Name) :
    (NeedsRestart told err ∧ reactTasks cfg n told err vals =
      [.start n (if told = false ∧ errIs err .bounce = false then cfg.errorDelay else cfg.bounceDelay)]) ∨
    (¬ NeedsRestart told err ∧ WantsUninstall told err ∧ reactTasks cfg n told err vals = [.remove n vals]) ∨
    (¬ NeedsRestart told err ∧ ¬ WantsUninstall told err ∧ reactTasks cfg n told err vals = []) := by
  unfold reactTasks NeedsRestart WantsUninstall
  cases told with
  | true => left; exact ⟨Or.inl rfl, by simp⟩
  | false =>
    cases err with
    | none => right; right; simp [errIs]
    | some e =>
      cases h1 : errIs (some e) .aborted
      · cases h2 : errIs (some e) .missing
        · cases h3 : errIs (some e) .bounce
          · cases h4 : errIs (some e) .uninstall
            · left; exact ⟨Or.inr ⟨by simp, rfl, rfl, Or.inr rfl⟩, by simp [h1, h2, h3, h4]⟩
            · right; left; simp
          · left; exact ⟨Or.inr ⟨by simp, rfl, rfl, Or.inl rfl⟩, by simp [h1, h2, h3]⟩
        · right; right; simp
      · right; right; simp

/-- After the manifold itself was dealt with, its dependents are next, if a worker was lost. -/
theorem link_rest {cfg : Config} {s : State} {D : Debt} {n : Name} {b : Bool} (hx : Ex own cfg s D)
    (hp : s.pend = none) (hdead : s.tomb.dead = false) (h : ∀ x, D x → b = true ∧ Dep s n x)
    (hD : b = true → ∀ x, Dep s n x → D x ∨ s.dying = true)
    (hb : b = true → ∀ x, Dep s n x → LaunchBase cfg (own s.hist) x cfg.bounceDelay) :
    ∃ D', Link cfg ⟨s, (if b then [.bounceAll n] else []) ++ [.check]⟩ D' := by
  refine ⟨D, hx, hp, fun _ => hdead, ?_⟩
  cases b with
  | true => exact .bounceAll n (fun x hx => (h x hx).2) (hD rfl) (hb rfl)
  | false => exact .check (fun x hx => by cases (h x hx).1)

theorem link_react {cfg : Config} {s : State} {D : Debt} {n : Name} {told : Bool} {err : Option Err}
    {vals : Name → List Name} {b : Bool} (hx : Ex own cfg s D) (hp : s.pend = none) (hdead : s.tomb.dead = false)
    (hi : (s.manifolds.get? n).isSome = true) (hs : (s.cur n).stopped = true) (ht : (s.cur n).startedTime = 0)
    (hv : validVals s.dependents n vals = true)
    (hev : ∃ gid now raw lost rest, own s.hist = .ended n gid now raw err told lost :: rest)
    (hD : ∀ x, D x ↔ (b = true ∧ Dep s n x) ∨ (x = n ∧ (NeedsRestart told err ∨ WantsUninstall told err))) :
    ∃ D', Link cfg ⟨(exec cfg s (.react n told err vals b)).1,
      (exec cfg s (.react n told err vals b)).2 ++ [.check]⟩ D' := by
  have c : Core s := (ex_hinv hx).1
  obtain ⟨gid, now, raw, lost, rest, hev⟩ := hev
  have hbase : ∀ x, Dep s n x → LaunchBase cfg (own s.hist) x cfg.bounceDelay := by
    intro x hx
    rw [hev]
    show cfg.bounceDelay = if _ then _ else _
    rw [if_neg]
    rintro ⟨rfl, _⟩
    exact c.not_self_dep _ hx
  unfold exec
  by_cases hd : s.dying = true
  · simp only [hd, if_true, List.nil_append]
    exact Link.discharge noDebt hx hp hdead (fun _ h => h.elim) (fun _ _ => Or.inr (Or.inl hd))
      (.check (fun _ h => h))
  · simp only [hd, Bool.false_eq_true, if_false, List.append_assoc]
    rcases reactTasks_cases cfg n told err vals with ⟨hnr, e⟩ | ⟨hnr, hwu, e⟩ | ⟨hnr, hnu, e⟩
    · rw [e]
      refine ⟨D, hx, hp, fun _ => hdead, .start n _ b hi hs ?_ ?_ ?_ ?_ (fun _ => hbase)⟩
      · exact Or.inl ((hD n).2 (Or.inr ⟨rfl, Or.inl hnr⟩))
      · rw [hev]; simp [LaunchBase]
      · intro x hx; exact ((hD x).1 hx).symm.imp And.left id
      · exact fun e x hx => Or.inl ((hD x).2 (Or.inl ⟨e, hx⟩))
    · rw [e]
      refine ⟨D, hx, hp, fun _ => hdead, .remove n vals b hi hs ht hv ?_ ?_ ?_⟩
      · have h0 : told = false := hwu.1
        rw [hev]; rw [h0] at hwu ⊢
        exact ⟨_, _, _, _, _, _, rfl, hwu⟩
      · intro x hx; exact ((hD x).1 hx).symm.imp And.left id
      · exact fun e x hx => Or.inl ((hD x).2 (Or.inl ⟨e, hx⟩))
    · rw [e, List.nil_append]
      refine link_rest hx hp hdead ?_ ?_ (fun _ => hbase)
      · intro x hx
        exact ((hD x).1 hx).resolve_right (fun h => absurd h.2 (not_or.2 ⟨hnr, hnu⟩))
      · exact fun e x hx => Or.inl ((hD x).2 (Or.inl ⟨e, hx⟩))

/-- Every piece of the loop's work keeps the link. -/
theorem link_work {cfg : Config} {f f' : Fine} {D : Debt} (hl : Link cfg f D)
    (h : fstep cfg f .work = some f') : ∃ D', Link cfg f' D' := by
  obtain ⟨s, todo⟩ := f
  obtain ⟨hx, hp, hdead, hr⟩ := hl
  simp only at hx hp hdead hr
  simp only [fstep] at h
  have c : Core s := (ex_hinv hx).1
  cases hr with
  | idle h0 => cases h
  | bounces ds h1 hi hD hu hb =>
    cases ds with
    | nil =>
      have hdead := hdead (by simp)
      simp only [List.map_nil, List.nil_append, Option.some.injEq] at h; subst h
      exact link_check hx hp hdead (fun x hx => by cases h1 x hx)
    | cons d ds =>
      have hdead := hdead (by simp)
      simp only [List.map_cons, List.cons_append, Option.some.injEq] at h; subst h
      exact link_bounces hx hp hdead d ds h1 hi hD hu hb
  | bounceAll n h1 hD hb =>
    have hdead := hdead (by simp)
    simp only [Option.some.injEq] at h; subst h
    refine ⟨D, hx, hp, fun _ => hdead, .bounces ((s.dependents.get? n).getD []) ?_ ?_ ?_ ?_ ?_⟩
    · exact fun x hx => (c.deps n x).2 (h1 x hx)
    · exact fun d hd => Core.dep_installed ((c.deps n d).1 hd)
    · exact fun d hd => (hD d ((c.deps n d).1 hd)).imp id Or.inr
    · exact fun d hd => ⟨n, hd⟩
    · exact fun d hd => hb d ((c.deps n d).1 hd)
  | start n d b hi hs hn hlb h1 hD hb =>
    have hdead := hdead (by simp)
    simp only [Option.some.injEq] at h; subst h
    have hdep : ∀ x, Dep (requestStart s n d) n x ↔ Dep s n x := by
      intro x; unfold Dep; rw [requestStart_manifolds]
    show ∃ D', Link cfg ⟨requestStart s n d, _⟩ D'
    refine link_rest (Chain.trans hx (chain_requestStart d hi hs hn hlb)) (requestStart_pend hp hi hs)
      (by rw [requestStart_dead _ hi hs]; exact hdead) ?_ ?_ ?_
    · rintro x ⟨hx, hne⟩; rw [hdep]; exact (h1 x hx).resolve_left hne
    · intro e x hx
      rw [hdep] at hx
      refine (hD e x hx).imp (fun h => ⟨h, ?_⟩) (requestStart_dying_mono _ hi hs)
      rintro rfl; exact c.not_self_dep _ hx
    · intro e x hx; rw [hdep] at hx; exact requestStart_own hp hi hs (hb e x hx)
  | remove n vals b hi hs ht hv hev h1 hD =>
    have hdead := hdead (by simp)
    simp only [Option.some.injEq] at h; subst h
    have hdep : ∀ x, Dep (uninstall s n vals) n x ↔ Dep s n x := by
      intro x; unfold Dep
      show (∃ m, (s.manifolds.erase n).get? x = some m ∧ _) ↔ _
      rw [AMap.get?_erase]
      by_cases hx : x = n
      · subst hx
        simp only [if_true, reduceCtorEq, false_and, exists_false, false_iff]
        exact c.not_self_dep x
      · simp [hx]
    show ∃ D', Link cfg ⟨uninstall s n vals, _⟩ D'
    refine link_rest (.tail hx (.uninstall _ _ n vals hs hi hv hdead ht hev)) hp hdead ?_ ?_ ?_
    · rintro x ⟨hx, hne⟩; rw [hdep]; exact (h1 x hx).resolve_left hne
    · intro e x hx
      rw [hdep] at hx
      refine (hD e x hx).imp (fun h => ⟨h, ?_⟩) id
      rintro rfl; exact c.not_self_dep _ hx
    · intro e x hx; exact rfl
  | react n told err vals b hi hs ht hv hev hD =>
    have hdead := hdead (by simp)
    simp only [Option.some.injEq] at h; subst h
    exact link_react hx hp hdead hi hs ht hv hev hD
  | stops ns hd h1 ha =>
    cases ns with
    | nil =>
      have hdead := hdead (by simp)
      simp only [List.map_nil, List.nil_append, Option.some.injEq] at h; subst h
      exact ⟨D, .tail hx (.oneShot _ _ hd (fun n => by simpa using ha n)), hp, fun _ => hdead, .check h1⟩
    | cons n ns =>
      have hdead := hdead (by simp)
      simp only [List.map_cons, List.cons_append, Option.some.injEq] at h; subst h
      refine ⟨D, Chain.trans hx (chain_requestStop cfg s D n (Or.inr (Or.inr hd))), requestStop_pend hp,
        fun _ => (requestStop_dead s n).trans hdead, .stops ns (requestStop_dying_mono n hd) h1 ?_⟩
      intro x
      show ((requestStop s n).cur x).stopped = true ∨ ((requestStop s n).cur x).stopping = true ∨ _
      rw [requestStop_stopped]
      rcases ha x with h | h | h
      · exact Or.inl h
      · exact Or.inr (Or.inl (requestStop_stopping_mono s n x h))
      · rcases List.mem_cons.1 h with rfl | h
        · rcases requestStop_done s x with h | h
          · rw [requestStop_stopped] at h; exact Or.inl h
          · exact Or.inr (Or.inl h)
        · exact Or.inr (Or.inr h)
  | report h1 =>
    have hdead := hdead (by simp)
    simp only [Option.some.injEq] at h; subst h
    have e : D = noDebt := by funext x; exact propext ⟨fun hx => (h1 x hx).elim, fun h => h.elim⟩
    subst e
    obtain ⟨k1, k2⟩ := chain_liveReport (v := own) (cfg := cfg) c
    refine ⟨noDebt, Chain.trans hx k1, ?_, fun _ => by rw [← hdead]; exact k2, .check h1⟩
    show (liveReport s).pend = none
    rw [liveReport_eq (by rw [tick_none hp]; exact c), tick_none hp]; exact hp

theorem Link.idle {cfg : Config} {s : State} {todo : List Task} {D : Debt} (hl : Link cfg ⟨s, todo⟩ D)
    (h : todo.isEmpty = true) : (∀ x, ¬ D x) ∧ Ex own cfg s D ∧ s.pend = none := by
  obtain ⟨hx, hp, hdead, hr⟩ := hl
  have h0 : todo = [] := by simpa using h
  subst h0
  refine ⟨?_, hx, hp⟩
  generalize e : ([] : List Task) = ts at hr
  cases hr with
  | idle h => exact h
  | bounces ds => simp at e
  | stops ns => simp at e
  | bounceAll | start | remove | react | report => cases e

theorem link_step {cfg : Config} {f f' : Fine} {D : Debt} {op : FOp} (hl : Link cfg f D)
    (h : fstep cfg f op = some f') : ∃ D', Link cfg f' D' := by
  cases op with
  | work => exact link_work hl h
  | env op =>
    obtain ⟨hx, hp, hdead, hr⟩ := hl
    simp only [fstep] at h
    split at h
    · rename_i he
      rw [Option.map_eq_some_iff] at h
      obtain ⟨s', hs, rfl⟩ := h
      have fr := env_frame he hs
      exact ⟨D, .tail hx (env_micro he hs D), fr.pend.trans hp, fun h => fr.dead.trans (hdead h), hr.frame fr⟩
    · cases h
  | dying order =>
    obtain ⟨s, todo⟩ := f
    simp only [fstep] at h
    split at h
    · rename_i hc
      obtain ⟨h0, h1, h2, h3, h4⟩ := hc
      obtain ⟨hD, hx, hp⟩ := hl.idle h0
      simp only [Option.some.injEq] at h; subst h
      refine ⟨D, hx, hp, fun _ => h1, .stops order h3 hD ?_⟩
      intro n
      have ho := (isRangeOrder_iff _ _).1 h4
      cases hc : s.current.get? n with
      | none => left; unfold State.cur; rw [hc]; rfl
      | some i => exact Or.inr (Or.inr ((ho.2 n).2 (AMap.mem_keys_of_get? hc)))
    · cases h
  | report =>
    obtain ⟨s, todo⟩ := f
    simp only [fstep] at h
    split at h
    · rename_i hc
      obtain ⟨hD, hx, hp⟩ := hl.idle hc.1
      simp only [Option.some.injEq] at h; subst h
      exact ⟨D, hx, hp, fun _ => hc.2, .report hD⟩
    · cases h
  | install n m order =>
    obtain ⟨s, todo⟩ := f
    simp only [fstep] at h
    split at h
    · rename_i hc
      obtain ⟨hD, hx, hp⟩ := hl.idle hc.1
      have ho := (isRangeOrder_iff _ _).1 hc.2.2
      have hdead : s.tomb.dead = false := hc.2.1
      simp only [Option.some.injEq] at h; subst h
      unfold beginInstall
      cases hn : s.manifolds.get? n with
      | some m' =>
        simp only [Option.isSome_some, if_true]
        exact ⟨D, .tail hx (.neutral _ _ _ (Or.inl ⟨_, _, rfl⟩)), hp, fun _ => hdead, .check hD⟩
      | none =>
        simp only [Option.isSome_none, Bool.false_eq_true, if_false]
        unfold checkAcyclic
        rcases Validate.validate_cases (inputs := inputsTable (s.manifolds.set n m)) order
          (fun k hk => by rw [inputsTable_keys] at hk; exact (ho.2 k).2 hk) with ⟨h1, h2⟩ | ⟨h1, h2⟩
        · rw [h1]
          refine ⟨_, .tail hx (.record s D n m hn h2 hdead hD), hp, fun _ => hdead,
            .start n 0 false ?_ ?_ (Or.inl (Or.inr rfl)) ⟨rfl, rfl⟩ ?_ ?_ ?_⟩
          · show ((s.manifolds.set n m).get? n).isSome = true
            simp
          · show (((s.current.set n {}).get? n).getD {}).stopped = true
            simp
          · exact fun x hx => Or.inl (hx.resolve_left (hD x))
          · intro h; cases h
          · intro h; cases h
        · rw [h1]
          exact ⟨D, .tail hx (.neutral _ _ _ (Or.inl ⟨_, _, rfl⟩)), hp, fun _ => hdead, .check hD⟩
    · cases h
  | started gid now =>
    obtain ⟨s, todo⟩ := f
    simp only [fstep] at h
    split at h
    · rename_i hc
      obtain ⟨hD, hx, hp⟩ := hl.idle hc.1
      have hdead : s.tomb.dead = false := hc.2
      have c : Core s := (ex_hinv hx).1
      split at h
      · cases h
      · rename_i g hget
        obtain ⟨hg, hgid⟩ := getG_some s gid hget
        subst hgid
        split at h
        · rename_i w hpc
          simp only [Option.some.injEq] at h; subst h
          have hnw : (s.cur g.name).worker = none := by
            cases hw : (s.cur g.name).worker with
            | none => rfl
            | some w' =>
              rcases ((c.rel g hg).worker w' hw).2 with hp | ⟨e, hp⟩
              · rw [hpc] at hp; cases w' <;> simp [afterOffer] at hp
              · rw [hpc] at hp; cases hp
          have hnw' : ((s.mapG g.gid (fun g => { g with pc := afterOffer w })).cur g.name).worker = none := hnw
          unfold beginStarted
          simp only [hnw', Option.isSome_none, Bool.false_eq_true, if_false]
          by_cases hst : ((s.mapG g.gid (fun g => { g with pc := afterOffer w })).cur g.name).stopping = true
          · rw [if_pos hst]
            exact ⟨D, .tail hx (.refuse s D g hg w hpc (Or.inl hst)), (Frame.killWorker _ _).pend.trans hp,
              fun _ => (Frame.killWorker _ _).dead.trans hdead, .check hD⟩
          · rw [if_neg hst]
            by_cases hd : (s.mapG g.gid (fun g => { g with pc := afterOffer w })).dying = true
            · rw [if_pos hd]
              exact ⟨D, .tail hx (.refuse s D g hg w hpc (Or.inr hd)), (Frame.killWorker _ _).pend.trans hp,
                fun _ => (Frame.killWorker _ _).dead.trans hdead, .check hD⟩
            · rw [if_neg hd]
              have hst : (s.cur g.name).stopping = false := by simpa using hst
              have hd : s.dying = false := by simpa using hd
              exact ⟨_, .tail hx (.register s D g hg w now hpc hd hst hD), hp, fun _ => hdead,
                .bounceAll g.name (fun x hx => hx.resolve_left (hD x)) (fun x hx => Or.inl (Or.inr hx))
                  (fun _ _ => rfl)⟩
        · cases h
    · cases h
  | stopped gid now vals =>
    obtain ⟨s, todo⟩ := f
    simp only [fstep] at h
    split at h
    · rename_i hc
      obtain ⟨hD, hx, hp⟩ := hl.idle hc.1
      have hdead : s.tomb.dead = false := hc.2.1
      have hv := hc.2.2
      have c : Core s := (ex_hinv hx).1
      split at h
      · cases h
      · rename_i g hget
        rw [hget] at hv
        have hv : validVals s.dependents g.name vals = true := hv
        obtain ⟨hg, hgid⟩ := getG_some s gid hget
        subst hgid
        split at h
        · rename_i raw hpc
          simp only [Option.some.injEq] at h; subst h
          have hns := (c.rel g hg).notStopped
          have m := Micro.stop (v := own) (cfg := cfg) s D g hg raw now hpc hdead hD
          obtain ⟨f1, f2, f3, f4, f5⟩ := stopState_facts cfg g raw now hns
          have f6 : own (stopState cfg s g raw now).hist =
              .ended g.name g.gid now raw (applyFilter cfg (s.man g.name) raw) (s.cur g.name).stopping
                (s.cur g.name).worker :: s.hist := by
            rw [stopState_eq cfg s g raw now hns]
            simp only
            split
            · exact own_foreign rfl
            · rfl
          have f7 : (stopState cfg s g raw now).pend = s.pend := by
            rw [stopState_eq cfg s g raw now hns]
            simp only
            split <;> rfl
          show ∃ D', Link cfg ⟨stopState cfg s g raw now, [.react g.name (s.cur g.name).stopping
            (applyFilter cfg (s.man g.name) raw) vals (s.cur g.name).worker.isSome, .check]⟩ D'
          refine ⟨_, .tail hx m, f7.trans hp, fun _ => f3.trans hdead, .react g.name _ _ vals _ ?_ ?_ ?_ ?_ ?_ ?_⟩
          · show ((stopState cfg s g raw now).manifolds.get? g.name).isSome = true
            rw [f1]; exact c.g_installed hg
          · show ((stopState cfg s g raw now).cur g.name).stopped = true
            rw [f5, if_pos rfl]; rfl
          · show ((stopState cfg s g raw now).cur g.name).startedTime = 0
            rw [f5, if_pos rfl]; rfl
          · show validVals (stopState cfg s g raw now).dependents g.name vals = true
            rw [f2]; exact hv
          · exact ⟨_, _, _, _, _, f6⟩
          · intro x
            have hdep : Dep (stopState cfg s g raw now) g.name x ↔ Dep s g.name x := by unfold Dep; rw [f1]
            show _ ↔ ((s.cur g.name).worker.isSome = true ∧ Dep (stopState cfg s g raw now) g.name x) ∨ _
            rw [hdep, Option.isSome_iff_ne_none]
            exact ⟨fun h => h.resolve_left (hD x), Or.inr⟩
        · cases h
    · cases h

/-- Every execution keeps the link. -/
theorem freach_link {cfg : Config} {f : Fine} (hr : FReach cfg f) : ∃ D, Link cfg f D := by
  induction hr with
  | init => exact ⟨noDebt, .refl _ _, rfl, fun h => absurd rfl h, .idle (fun _ h => h)⟩
  | step op _ h ih => obtain ⟨D, hl⟩ := ih; exact link_step hl h

end Verif.Engine
