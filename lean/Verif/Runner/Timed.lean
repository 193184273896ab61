import Verif.Runner.Progress

/-!
# Runner: time

`Runner.step` lets a delay be over whenever it likes, and takes the time of an entry as an argument. Here the runner runs
against a clock (clock.Clock, runner.go:80, 488, 632): time passes between the steps, an entry is given the time of the
step that makes it, and a delay is not over earlier than its length after the goroutine was begun. Every event is stamped
with the time at which it happens.

Simplified: a step takes no time; the times are integers, of any unit.
-/

namespace Verif.Runner
open Tab State RSpec Spec

/-- A runner, the time, and the history with the times. -/
structure TState where
  st : State
  now : Int
  stamps : List (Ev × Int)

/-- What the clock allows: the time given to an entry is the time (runner.go:488); the channel of clock.After(delay), made
after the goroutine has begun, has a value only when the delay is over (632). -/
def ClockOk (ts : TState) : Op → Prop
  | .act n => n = ts.now
  | .gTimer g => ∀ id d sf t0, (Ev.begin id g d sf, t0) ∈ ts.stamps → t0 + d ≤ ts.now
  | _ => True

/-- Reachable with a clock. -/
inductive TReach (p : Params) : TState → Prop
  | init (t0 : Int) : TReach p ⟨init, t0, []⟩
  | tick {ts : TState} (t : Int) : TReach p ts → ts.now ≤ t → TReach p { ts with now := t }
  | step {ts : TState} (op : Op) {s' : State} {es : List Ev} : TReach p ts → step p ts.st op = some s' → ClockOk ts op →
      s'.tab.hist = es ++ ts.st.tab.hist → TReach p ⟨s', ts.now, es.map (fun e => (e, ts.now)) ++ ts.stamps⟩

theorem TReach.reach {p : Params} {ts : TState} (h : TReach p ts) : Reach p ts.st := by
  induction h with
  | init t0 => exact .init
  | tick t _ _ ih => exact ih
  | step op _ hs _ _ ih => exact ih.step op hs

theorem TReach.hist {p : Params} {ts : TState} (h : TReach p ts) : ts.stamps.map Prod.fst = ts.st.tab.hist := by
  induction h with
  | init t0 => rfl
  | tick t _ _ ih => exact ih
  | step op _ hs _ hh ih => rw [hh, List.map_append, ih, List.map_map]; simp [Function.comp_def]

theorem TReach.le_now {p : Params} {ts : TState} (h : TReach p ts) : ∀ x ∈ ts.stamps, x.2 ≤ ts.now := by
  induction h with
  | init t0 => nofun
  | tick t _ hle ih => intro x hx; exact Int.le_trans (ih x hx) hle
  | step op _ hs _ hh ih =>
    intro x hx
    rcases List.mem_append.1 hx with hx | hx
    · obtain ⟨e, _, rfl⟩ := List.mem_map.1 hx
      exact Int.le_refl _
    · exact ih x hx

theorem TReach.sorted {p : Params} {ts : TState} (h : TReach p ts) : ts.stamps.Pairwise (fun a b => b.2 ≤ a.2) := by
  induction h with
  | init t0 => exact .nil
  | tick t _ hle ih => exact ih
  | @step ts op s' es hr hs _ hh ih =>
    rw [List.pairwise_append]
    refine ⟨?_, ih, ?_⟩
    · rw [List.pairwise_map]
      simp only [Int.le_refl]
      clear hh
      induction es with
      | nil => exact .nil
      | cons a l ih => exact .cons (fun _ _ => trivial) ih
    · intro a ha b hb
      obtain ⟨e, _, rfl⟩ := List.mem_map.1 ha
      exact hr.le_now b hb

/-! ## What a step does to the goroutines and the entries -/

/-- Neither the beginning of an attempt, nor the call of a StartFunc, nor a report. -/
def dull : Ev → Bool
  | .begin .. | .startCall .. | .report _ => false
  | _ => true

/-- The entries are those there were, with their numbers and times. -/
def Kept (t t' : Tab) : Prop :=
  ∀ id i', t'.workers.get? id = some i' → ∃ i, t.workers.get? id = some i ∧ i'.rid = i.rid ∧ i'.started = i.started

theorem Kept.refl {t t' : Tab} (h : t'.workers = t.workers) : Kept t t' := by
  intro id i' hi; rw [h] at hi; exact ⟨i', hi, rfl, rfl⟩

theorem Kept.trans {t t' t'' : Tab} (h1 : Kept t t') (h2 : Kept t' t'') : Kept t t'' := by
  intro id i hi
  obtain ⟨j, hj, a, b⟩ := h2 id i hi
  obtain ⟨k, hk, c, d⟩ := h1 id j hj
  exact ⟨k, hk, a.trans c, b.trans d⟩

/-- The goroutines that are ready to call their StartFunc were ready. -/
def Ready (t t' : Tab) : Prop := ∀ g ∈ t'.gs, g.pc = .ready → g ∈ t.gs

theorem Ready.refl {t t' : Tab} (h : t'.gs = t.gs) : Ready t t' := by intro g hg _; rw [h] at hg; exact hg

theorem Ready.gto {t t' : Tab} {gid : Nat} {pc : Pc} (h : t'.gs = (t.gto gid pc).gs) (hp : pc ≠ .ready) : Ready t t' := by
  intro g hg hgp
  rw [h] at hg
  obtain ⟨x, hx, rfl⟩ := List.mem_map.1 hg
  split at hgp
  · exact absurd hgp hp
  · rename_i hn; rw [if_neg hn]; exact hx

inductive TMove (t : Tab) (op : Op) (t' : Tab) : Prop
  | plain (es : List Ev) : t'.hist = es ++ t.hist → (∀ e ∈ es, dull e = true) → Ready t t' → Kept t t' → TMove t op t'
  | timer (gid : Nat) : op = .gTimer gid → t'.hist = t.hist → (∀ g ∈ t'.gs, g.pc = .ready → g ∈ t.gs ∨ g.gid = gid) →
      t'.workers = t.workers → TMove t op t'
  | call (g : G) : g ∈ t.gs → g.pc = .ready → t'.hist = .startCall g.id g.gid g.sf :: t.hist → Ready t t' →
      t'.workers = t.workers → TMove t op t'
  | report (order : List Name) : t'.hist = .report (reportLines t order) :: t.hist → Ready t t' → t'.workers = t.workers → TMove t op t'
  | begin_ (es : List Ev) (id : Name) (d : Int) (sf : Nat) : t'.hist = .begin id t.nextG d sf :: (es ++ t.hist) →
      (∀ e ∈ es, dull e = true) →
      (∀ g ∈ t'.gs, g.pc = .ready → g ∈ t.gs ∨ (g.gid = t.nextG ∧ d ≤ 0)) → Kept t t' → TMove t op t'
  | accept (now : Int) (cid id sf : Nat) : op = .act now →
      t'.hist = .begin id t.nextG 0 sf :: .accepted cid id t.nextR sf :: t.hist →
      (∀ g ∈ t'.gs, g.pc = .ready → g ∈ t.gs ∨ g.gid = t.nextG) →
      (∀ id' i', t'.workers.get? id' = some i' → (id' = id ∧ i'.rid = t.nextR ∧ i'.started = now) ∨
        ∃ i, t.workers.get? id' = some i ∧ i'.rid = i.rid ∧ i'.started = i.started) → TMove t op t'

theorem TMove.nil {t t' : Tab} {op : Op} (h : t'.hist = t.hist) (hr : Ready t t') (hw : t'.workers = t.workers) : TMove t op t' :=
  .plain [] h (by nofun) hr (.refl hw)

theorem TMove.one {t t' : Tab} {op : Op} (e : Ev) (he : dull e = true) (h : t'.hist = e :: t.hist) (hr : Ready t t')
    (hw : t'.workers = t.workers) : TMove t op t' :=
  .plain [e] h (by simpa using he) hr (.refl hw)

theorem killLocked_kept (t : Tab) (id : Name) : Kept t (killLocked t id) := by
  intro j i' hi
  rw [killLocked_get?] at hi
  split at hi
  · rename_i hj
    subst hj
    obtain ⟨i, h2, rfl⟩ := Option.map_eq_some_iff.1 hi
    exact ⟨i, h2, rfl, rfl⟩
  · exact ⟨i', hi, rfl, rfl⟩

theorem killEvs_dull {t : Tab} {id : Name} {e : Ev} (he : e ∈ killEvs t id) : dull e = true := by
  rcases mem_killEvs he with rfl | ⟨w, rfl⟩ <;> rfl

theorem act_tmove (p : Params) (t : Tab) (now : Int) (m : Msg) : TMove t (.act now) (act p t now m) := by
  cases m with
  | start cid id sf =>
    simp only [act]
    split
    · exact .one (.ignored cid id) rfl rfl (.refl rfl) rfl
    · split
      · exact .one (.refused cid id) rfl rfl (.refl rfl) rfl
      · refine .accept now cid id sf rfl rfl ?_ ?_
        · intro g hg _
          rcases List.mem_cons.1 hg with rfl | hg
          · exact Or.inr rfl
          · exact Or.inl hg
        · intro id' i' hi
          have hi : (t.workers.set id { rid := t.nextR, start := some sf, restartDelay := p.restartDelay, started := now }).get? id' = some i' := hi
          rw [AMap.get?_set] at hi
          split at hi
          · rename_i he; cases hi; exact Or.inl ⟨he, rfl, rfl⟩
          · exact Or.inr ⟨i', hi, rfl, rfl⟩
  | stop id =>
    refine .plain (killEvs (t.log (.stopHandled id)) id ++ [.stopHandled id]) ?_ ?_ (.refl (killLocked_rest _ _).gs)
      ((Kept.refl rfl).trans (killLocked_kept _ _))
    · show (killLocked (t.log (.stopHandled id)) id).hist = _
      rw [killLocked_hist, List.append_assoc]; rfl
    · intro e he
      rcases List.mem_append.1 he with he | he
      · exact killEvs_dull he
      · rw [List.mem_singleton] at he; subst he; rfl
  | started gid id w =>
    show TMove t _ ((setWorker t gid id w).goTo .bcast)
    unfold setWorker
    split
    · exact .nil rfl (.refl rfl) rfl
    · rename_i info hi
      have k1 : Kept t ((t.setInfo id { info with worker := some w }).log (.learned id gid w)) := by
        intro j i' hj
        have hk : (t.workers.set id { info with worker := some w }).get? j = some i' := hj
        clear hj
        rw [AMap.get?_set] at hk
        split at hk
        · rename_i he; subst he; cases hk; exact ⟨info, hi, rfl, rfl⟩
        · exact ⟨i', hk, rfl, rfl⟩
      simp only
      split
      · refine .plain (killEvs ((t.setInfo id { info with worker := some w }).log (.learned id gid w)) id ++ [.learned id gid w]) ?_ ?_
          (.refl (killLocked_rest _ _).gs) (k1.trans (killLocked_kept _ _))
        · show (killLocked _ id).hist = _
          rw [killLocked_hist, List.append_assoc]; rfl
        · intro e he
          rcases List.mem_append.1 he with he | he
          · exact killEvs_dull he
          · rw [List.mem_singleton] at he; subst he; rfl
      · exact .plain [.learned id gid w] rfl (by simp [dull]) (.refl rfl) k1
  | done gid id e =>
    simp only [act]
    unfold workerDone
    split
    · exact .nil rfl (.refl rfl) rfl
    · rename_i info hi
      have rdy : ∀ t' : Tab, t'.gs = (dropG t gid).gs → Ready t t' := by
        intro t' h g hg _
        rw [h] at hg
        exact (List.mem_filter.1 hg).1
      have era : ∀ t' : Tab, t'.workers = t.workers.erase id → Kept t t' := by
        intro t' h j i' hj
        rw [h] at hj
        rw [AMap.get?_erase] at hj
        split at hj
        · cases hj
        · exact ⟨i', hj, rfl, rfl⟩
      simp only
      split
      · exact .plain [.removed id info.rid, .ended id gid e] rfl (by simp [dull]) (rdy _ rfl) (era _ rfl)
      · unfold beginShutdown
        split
        · exact .plain [.removed id info.rid, .ended id gid e] rfl (by simp [dull]) (rdy _ rfl) (era _ rfl)
        · exact .plain [.shutdown, .removed id info.rid, .ended id gid e] rfl (by simp [dull]) (rdy _ rfl) (era _ rfl)
      · rename_i sf _
        refine .begin_ [.ended id gid e] id info.restartDelay sf rfl (by simp [dull]) ?_ ?_
        · intro g hg hp
          rcases List.mem_cons.1 hg with rfl | hg
          · right
            refine ⟨rfl, ?_⟩
            simp only at hp
            split at hp
            · cases hp
            · omega
          · exact Or.inl (rdy (dropG t gid) rfl g hg hp)
        · intro j i' hj
          have hk : (t.workers.set id { info with restartDelay := p.restartDelay }).get? j = some i' := hj
          clear hj
          rw [AMap.get?_set] at hk
          split at hk
          · rename_i he; subst he; cases hk; exact ⟨info, hi, rfl, rfl⟩
          · exact ⟨i', hk, rfl, rfl⟩

theorem tabStep_tmove {p : Params} {s : State} {op : Op} {t : Tab} (h : tabStep p s op = some t) : TMove s.tab op t := by
  unfold tabStep at h
  split at h
  · cases h; exact .one .kill rfl rfl (.refl rfl) rfl
  · split at h
    · split at h <;> cases h
      · exact .one .exit rfl rfl (.refl rfl) rfl
      · exact .nil rfl (.refl rfl) rfl
    · cases h
  · split at h <;> cases h
    exact .one .shutdown rfl rfl (.refl rfl) rfl
  · split at h
    · split at h
      · split at h <;> cases h
        exact .nil rfl (.gto (pc := .waiting _) rfl (by nofun)) rfl
      · cases h
    · cases h
  · split at h
    · split at h
      · split at h <;> cases h
        exact .nil rfl (.gto (pc := .gone _) rfl (by nofun)) rfl
      · cases h
    · cases h
  · split at h
    · split at h <;> cases h
      exact act_tmove ..
    · cases h
  · split at h <;> cases h
    exact .nil rfl (.refl rfl) rfl
  · split at h
    · cases h; exact .nil rfl (.refl rfl) rfl
    · rename_i id _ _; cases h
      exact .plain (killEvs s.tab id) (killLocked_hist _ _) (fun e => killEvs_dull) (.refl (killLocked_rest _ _).gs)
        (killLocked_kept _ _)
    · cases h
  · split at h
    · split at h <;> cases h
      exact .nil rfl (.gto (pc := .sendDone _) rfl (by nofun)) rfl
    · cases h
  · rename_i gid
    split at h
    · split at h <;> cases h
      refine .timer gid rfl rfl ?_ rfl
      intro g hg hp
      obtain ⟨x, hx, rfl⟩ := List.mem_map.1 hg
      split
      · rename_i he; exact Or.inr he
      · exact Or.inl hx
    · cases h
  · split at h
    · rename_i g hg
      split at h <;> cases h
      rename_i hp
      obtain ⟨hm, rfl⟩ := getG_some hg
      exact .call g hm hp rfl (.gto (pc := .starting) rfl (by nofun)) rfl
    · cases h
  · split at h
    · split at h <;> cases h
      exact .one (.startOk _ _ _) rfl rfl (.gto (pc := .sendStarted _) rfl (by nofun)) rfl
    · cases h
  · split at h
    · split at h <;> cases h
      exact .one (.startErr _ _ _) rfl rfl (.gto (pc := .sendDone _) rfl (by nofun)) rfl
    · cases h
  · split at h
    · split at h <;> cases h
      exact .one (.startErr _ _ _) rfl rfl (.gto (pc := .sendDone _) rfl (by nofun)) rfl
    · cases h
  · split at h
    · split at h
      · split at h <;> cases h
        exact .nil rfl (.gto (pc := .sendDone _) rfl (by nofun)) rfl
      · cases h
    · cases h
  · split at h
    · split at h <;> cases h
      exact .one (.ctx _ _) rfl rfl (.refl rfl) rfl
    · cases h
  · split at h <;> cases h
    exact .one (.finished _ _) rfl rfl (.refl rfl) rfl
  · split at h <;> cases h
    exact .report _ rfl (.refl rfl) rfl
  · split at h <;> cases h
    exact .one (.names _) rfl rfl (.refl rfl) rfl
  · cases h

theorem clientStep_tmove {s s' : State} {c : Client} {op : Op} (h : clientStep s c op = some s') : TMove s.tab op s'.tab := by
  have nil : ∀ {t' : Tab}, s'.tab = t' → t'.hist = s.tab.hist → t'.gs = s.tab.gs → t'.workers = s.tab.workers →
      TMove s.tab op s'.tab := by
    intro t' h h1 h2 h3; rw [h]; exact .nil h1 (.refl h2) h3
  have one : ∀ {t' : Tab} (e : Ev), s'.tab = t' → dull e = true → t'.hist = e :: s.tab.hist → t'.gs = s.tab.gs →
      t'.workers = s.tab.workers → TMove s.tab op s'.tab := by
    intro t' e h he h1 h2 h3; rw [h]; exact .one e he h1 (.refl h2) h3
  have info : ∀ {id : Name} {r : Found}, s' = afterInfo s c id r → TMove s.tab op s'.tab := by
    intro id r heq
    unfold afterInfo at heq
    split at heq
    · exact one (.ret _ _) (congrArg State.tab heq) rfl rfl rfl rfl
    · split at heq
      · exact nil (congrArg State.tab heq) rfl rfl rfl
      · exact one (.ret _ _) (congrArg State.tab heq) rfl rfl rfl rfl
  unfold clientStep at h
  split at h
  · cases h; exact one (.cancelled _) rfl rfl rfl rfl rfl
  · split at h
    · split at h <;> cases h
      exact nil rfl rfl rfl rfl
    · cases h
  · split at h
    · split at h <;> cases h
      exact one (.ret _ _) rfl rfl rfl rfl rfl
    · cases h
  · split at h
    · split at h <;> cases h
      exact one (.ret _ _) rfl rfl rfl rfl rfl
    · split at h <;> cases h
      exact one (.ret _ _) rfl rfl rfl rfl rfl
    · cases h
  · split at h
    · split at h
      · split at h <;> cases h
        · exact nil rfl rfl rfl rfl
        · exact nil rfl rfl rfl rfl
      · cases h
    · cases h
  · split at h
    · split at h <;> simp only [Option.some.injEq] at h
      · exact one (.ret _ _) (congrArg State.tab h.symm) rfl rfl rfl rfl
      · exact info h.symm
    · cases h
  · split at h
    · cases h; exact nil rfl rfl rfl rfl
    · cases h
  · split at h
    · split at h <;> simp only [Option.some.injEq] at h
      · exact one (.ret _ _) (congrArg State.tab h.symm) rfl rfl rfl rfl
      · exact info h.symm
    · cases h
  · split at h
    · split at h <;> cases h
      exact one (.ret _ _) rfl rfl rfl rfl rfl
    · cases h
  · split at h
    · split at h <;> cases h
      exact nil rfl rfl rfl rfl
    · cases h
  · split at h
    · cases h; exact nil rfl rfl rfl rfl
    · cases h
  · split at h
    · cases h; exact one (.ret _ _) rfl rfl rfl rfl rfl
    · cases h
  · split at h
    · cases h; exact one (.clientKillW _ _) rfl rfl rfl rfl rfl
    · cases h
  · split at h
    · split at h <;> cases h
      exact nil rfl rfl rfl rfl
    · cases h
  · split at h
    · split at h <;> cases h
      exact one (.ret _ _) rfl rfl rfl rfl rfl
    · cases h
  · split at h
    · split at h <;> cases h
      exact one (.ret _ _) rfl rfl rfl rfl rfl
    · cases h
  · split at h
    · split at h
      · split at h <;> cases h <;> exact nil rfl rfl rfl rfl
      · cases h
    · cases h
  · split at h
    · split at h <;> cases h
      exact nil rfl rfl rfl rfl
    · cases h
  · split at h
    · split at h
      · split at h <;> cases h <;> exact nil rfl rfl rfl rfl
      · cases h
    · cases h
  · cases h

theorem step_tmove {p : Params} {s s' : State} {op : Op} (h : Runner.step p s op = some s') : TMove s.tab op s'.tab := by
  unfold Runner.step at h
  split at h
  · cases h; exact .one (.callStart _ _ _) rfl rfl (.refl rfl) rfl
  · cases h; exact .one (.callStop _ _) rfl rfl (.refl rfl) rfl
  · cases h; exact .one (.callWorker _ _) rfl rfl (.refl rfl) rfl
  · cases h; exact .one (.callRemove _ _) rfl rfl (.refl rfl) rfl
  · split at h <;> cases h
    · exact .one (.ret _ _) rfl rfl (.refl rfl) rfl
    · exact .one (.ret _ _) rfl rfl (.refl rfl) rfl
  · split at h <;> cases h
    exact .nil rfl (.refl rfl) rfl
  · split at h
    · split at h
      · exact clientStep_tmove h
      · cases h
    · obtain ⟨t, ht, rfl⟩ := Option.map_eq_some_iff.1 h
      exact tabStep_tmove ht

/-! ## The invariant -/

/-- A line of a report is right about the time: it is the time at which the request that the entry was made for was
accepted (nothing is said if that is the zero time, runner.go:682). -/
def LineTime (l : Line) (pre : List (Ev × Int)) : Prop :=
  ∃ cid rid sf t0, knownH (pre.map Prod.fst) l.id = some rid ∧ (Ev.accepted cid l.id rid sf, t0) ∈ pre ∧
    l.lastStart = if t0 = 0 then none else some t0

/-- All reports are right about the times. -/
def RepTimes : List (Ev × Int) → Prop
  | [] => True
  | (e, _) :: pre => (∀ lines, e = .report lines → ∀ l ∈ lines, LineTime l pre) ∧ RepTimes pre

theorem RepTimes.append {l pre : List (Ev × Int)} (hl : ∀ x ∈ l, ∀ lines, x.1 ≠ .report lines) (h : RepTimes pre) : RepTimes (l ++ pre) := by
  induction l with
  | nil => exact h
  | cons a l ih =>
    exact ⟨fun lines he => absurd he (hl a List.mem_cons_self lines), ih (fun x hx => hl x (List.mem_cons_of_mem _ hx))⟩

theorem RepTimes.dull {es : List Ev} {t : Int} {pre : List (Ev × Int)} (hd : ∀ e ∈ es, Runner.dull e = true) (h : RepTimes pre) :
    RepTimes (es.map (fun e => (e, t)) ++ pre) := by
  refine h.append ?_
  intro x hx lines he
  obtain ⟨e, hm, rfl⟩ := List.mem_map.1 hx
  have := hd e hm
  simp only at he
  rw [he] at this; cases this

theorem RepTimes.split {post pre : List (Ev × Int)} {lines : List Line} {t : Int}
    (h : RepTimes (post ++ (.report lines, t) :: pre)) : ∀ l ∈ lines, LineTime l pre := by
  induction post with
  | nil => exact h.1 lines rfl
  | cons a post ih => exact ih h.2

structure TInv (ts : TState) : Prop where
  /-- the delay of a goroutine that is ready to call its StartFunc is over -/
  ready : ∀ g ∈ ts.st.tab.gs, g.pc = .ready → ∀ id d sf t0, (Ev.begin id g.gid d sf, t0) ∈ ts.stamps → t0 + d ≤ ts.now
  /-- and so it was for those that have called it -/
  call : ∀ id g sf t1, (Ev.startCall id g sf, t1) ∈ ts.stamps → ∀ id' d sf' t0, (Ev.begin id' g d sf', t0) ∈ ts.stamps → t0 + d ≤ t1
  /-- the time of an entry is the time it was accepted -/
  entry : ∀ id i, ts.st.tab.workers.get? id = some i → ∃ cid sf, (Ev.accepted cid id i.rid sf, i.started) ∈ ts.stamps
  reports : RepTimes ts.stamps

theorem phaseH_begin {h : List Ev} {id g sf : Nat} {d : Int} (hm : Ev.begin id g d sf ∈ h) : phaseH h g ≠ none := by
  induction h with
  | nil => cases hm
  | cons e h ih =>
    rcases List.mem_cons.1 hm with rfl | hm
    · simp [phaseH]
    · have := ih hm
      cases e <;> simp only [phaseH] <;> first | exact this | (split <;> first | exact this | simp)

theorem phaseH_call {h : List Ev} {id g sf : Nat} (hm : Ev.startCall id g sf ∈ h) : phaseH h g ≠ none := by
  induction h with
  | nil => cases hm
  | cons e h ih =>
    rcases List.mem_cons.1 hm with rfl | hm
    · simp [phaseH]
    · have := ih hm
      cases e <;> simp only [phaseH] <;> first | exact this | (split <;> first | exact this | simp)

/-- Nothing new of interest: dull events, no new ready goroutine. -/
theorem TInv.dull {ts : TState} (h : TInv ts) {s' : State} {es : List Ev} (hd : ∀ e ∈ es, dull e = true)
    (hr : ∀ g ∈ s'.tab.gs, g.pc = .ready → g ∈ ts.st.tab.gs) (hk : Kept ts.st.tab s'.tab) :
    TInv ⟨s', ts.now, es.map (fun e => (e, ts.now)) ++ ts.stamps⟩ := by
  have old : ∀ {e : Ev} {t : Int}, Runner.dull e = false → (e, t) ∈ es.map (fun e => (e, ts.now)) ++ ts.stamps → (e, t) ∈ ts.stamps := by
    intro e t he hm
    rcases List.mem_append.1 hm with hm | hm
    · obtain ⟨x, hx, heq⟩ := List.mem_map.1 hm
      cases heq
      rw [hd e hx] at he; cases he
    · exact hm
  refine ⟨?_, ?_, ?_, h.reports.dull hd⟩
  · intro g hg hp id d sf t0 hm
    exact h.ready g (hr g hg hp) hp id d sf t0 (old rfl hm)
  · intro id g sf t1 h1 id' d sf' t0 h2
    exact h.call id g sf t1 (old rfl h1) id' d sf' t0 (old rfl h2)
  · intro id i hi
    obtain ⟨j, hj, h1, h2⟩ := hk id i hi
    obtain ⟨cid, sf, hm⟩ := h.entry id j hj
    exact ⟨cid, sf, by rw [h1, h2]; exact List.mem_append_right _ hm⟩

theorem TReach.tinv {p : Params} {ts : TState} (h : TReach p ts) : TInv ts := by
  induction h with
  | init t0 => exact ⟨nofun, nofun, nofun, trivial⟩
  | tick t hr hle ih =>
    exact ⟨fun g hg hp id d sf t0 hm => Int.le_trans (ih.ready g hg hp id d sf t0 hm) hle, ih.call, ih.entry, ih.reports⟩
  | @step ts op s' es hr hs hc hh ih =>
    have hi := hr.reach.tab.hinv
    have inHist : ∀ {e : Ev} {t : Int}, (e, t) ∈ ts.stamps → e ∈ ts.st.tab.hist := by
      intro e t hm; rw [← hr.hist]; exact List.mem_map.2 ⟨_, hm, rfl⟩
    have entry : Kept ts.st.tab s'.tab → ∀ id i, s'.tab.workers.get? id = some i →
        ∃ cid sf, (Ev.accepted cid id i.rid sf, i.started) ∈ es.map (fun e => (e, ts.now)) ++ ts.stamps := by
      intro hk id i hi
      obtain ⟨j, hj, h1, h2⟩ := hk id i hi
      obtain ⟨cid, sf, hm⟩ := ih.entry id j hj
      exact ⟨cid, sf, by rw [h1, h2]; exact List.mem_append_right _ hm⟩
    -- an attempt begins
    have begin_ : ∀ (ds : List Ev) (id : Name) (d : Int) (sf : Nat), es = .begin id ts.st.tab.nextG d sf :: ds →
        (∀ e ∈ ds, Runner.dull e = true) →
        (∀ g ∈ s'.tab.gs, g.pc = .ready → g ∈ ts.st.tab.gs ∨ (g.gid = ts.st.tab.nextG ∧ d ≤ 0)) →
        (∀ id i, s'.tab.workers.get? id = some i →
          ∃ cid sf, (Ev.accepted cid id i.rid sf, i.started) ∈ es.map (fun e => (e, ts.now)) ++ ts.stamps) →
        TInv ⟨s', ts.now, es.map (fun e => (e, ts.now)) ++ ts.stamps⟩ := by
      intro ds id d sf hes hd hg hent
      have fresh := hi.fresh ts.st.tab.nextG (Nat.le_refl _)
      have newOrOld : ∀ {e : Ev} {t : Int}, Runner.dull e = false → (e, t) ∈ es.map (fun e => (e, ts.now)) ++ ts.stamps →
          (e = .begin id ts.st.tab.nextG d sf ∧ t = ts.now) ∨ (e, t) ∈ ts.stamps := by
        intro e t he hm
        rcases List.mem_append.1 hm with hm | hm
        · obtain ⟨x, hx, heq⟩ := List.mem_map.1 hm
          cases heq
          rw [hes] at hx
          rcases List.mem_cons.1 hx with hx | hx
          · exact Or.inl ⟨hx, rfl⟩
          · rw [hd _ hx] at he; cases he
        · exact Or.inr hm
      refine ⟨?_, ?_, hent, by rw [hes]; exact ⟨nofun, ih.reports.dull hd⟩⟩
      · intro g hgm hp id' d' sf' t0 hm
        rcases newOrOld rfl hm with ⟨h1, h2⟩ | hm
        · simp only [Ev.begin.injEq] at h1
          obtain ⟨_, hgid, rfl, _⟩ := h1
          rcases hg g hgm hp with hold | ⟨_, hle⟩
          · have hlt := hr.reach.tab.shape.gidLt g hold
            rw [hgid] at hlt; exact absurd hlt (Nat.lt_irrefl _)
          · subst h2
            show ts.now + _ ≤ ts.now
            omega
        · rcases hg g hgm hp with hold | ⟨hgid, _⟩
          · exact ih.ready g hold hp id' d' sf' t0 hm
          · rw [hgid] at hm
            exact absurd fresh (phaseH_begin (inHist hm))
      · intro id1 g sf1 t1 h1 id2 d2 sf2 t0 h2
        rcases newOrOld rfl h1 with ⟨h1, _⟩ | h1
        · cases h1
        · rcases newOrOld rfl h2 with ⟨h2, _⟩ | h2
          · simp only [Ev.begin.injEq] at h2
            rw [h2.2.1] at h1
            exact absurd fresh (phaseH_call (inHist h1))
          · exact ih.call id1 g sf1 t1 h1 id2 d2 sf2 t0 h2
    cases step_tmove hs with
    | plain es' hh' hd hrd hk =>
      have : es = es' := List.append_cancel_right (hh.symm.trans hh')
      subst this
      exact ih.dull hd hrd hk
    | timer gid hop hh' hrd hw =>
      have : es = [] := by
        have := hh.symm.trans hh'
        exact List.append_left_eq_self.1 this
      subst this hop
      refine ⟨?_, ih.call, entry (.refl hw), ih.reports⟩
      intro g hg hp id' d' sf' t0' hm
      rcases hrd g hg hp with hold | hgid
      · exact ih.ready g hold hp id' d' sf' t0' hm
      · rw [hgid] at hm
        exact hc id' d' sf' t0' hm
    | call g hg hp hh' hrd hw =>
      have : es = [.startCall g.id g.gid g.sf] := List.append_cancel_right (hh.symm.trans hh')
      subst this
      refine ⟨?_, ?_, entry (.refl hw), ⟨nofun, ih.reports⟩⟩
      · intro g' hg' hp' id d sf t0 hm
        rcases List.mem_cons.1 hm with hm | hm
        · cases hm
        · exact ih.ready g' (hrd g' hg' hp') hp' id d sf t0 hm
      · intro id1 g1 sf1 t1 h1 id2 d2 sf2 t0 h2
        have h2 : (Ev.begin id2 g1 d2 sf2, t0) ∈ ts.stamps := by
          rcases List.mem_cons.1 h2 with h2 | h2
          · cases h2
          · exact h2
        rcases List.mem_cons.1 h1 with h1 | h1
        · cases h1
          exact ih.ready g hg hp id2 d2 sf2 t0 h2
        · exact ih.call id1 g1 sf1 t1 h1 id2 d2 sf2 t0 h2
    | report order hh' hrd hw =>
      have : es = [.report (reportLines ts.st.tab order)] := List.append_cancel_right (hh.symm.trans hh')
      subst this
      refine ⟨?_, ?_, entry (.refl hw), ⟨?_, ih.reports⟩⟩
      · intro g' hg' hp' id d sf t0 hm
        rcases List.mem_cons.1 hm with hm | hm
        · cases hm
        · exact ih.ready g' (hrd g' hg' hp') hp' id d sf t0 hm
      · intro id1 g1 sf1 t1 h1 id2 d2 sf2 t0 h2
        rcases List.mem_cons.1 h1 with h1 | h1
        · cases h1
        · rcases List.mem_cons.1 h2 with h2 | h2
          · cases h2
          · exact ih.call id1 g1 sf1 t1 h1 id2 d2 sf2 t0 h2
      · intro lines hl l hm
        cases hl
        obtain ⟨info, hget, he⟩ := mem_reportLines hm
        obtain ⟨cid, sf, hacc⟩ := ih.entry _ _ hget
        exact ⟨cid, info.rid, sf, info.started, by
          show knownH (ts.stamps.map Prod.fst) l.id = _
          rw [hr.hist, hi.kn, hget]; rfl, hacc, by rw [he]; rfl⟩
    | begin_ ds id d sf hh' hd hg hk =>
      have : es = .begin id ts.st.tab.nextG d sf :: ds := List.append_cancel_right (hh.symm.trans hh')
      exact begin_ ds id d sf this hd hg (entry hk)
    | accept now cid id sf hop hh' hg hw =>
      have he : es = .begin id ts.st.tab.nextG 0 sf :: [.accepted cid id ts.st.tab.nextR sf] :=
        List.append_cancel_right (hh.symm.trans hh')
      subst hop
      have hc : now = ts.now := hc
      refine begin_ _ id 0 sf he (by simp [Runner.dull]) ?_ ?_
      · intro g hgm hp; exact (hg g hgm hp).imp (fun h => h) (fun h => ⟨h, Int.le_refl _⟩)
      · intro id' i' hi'
        rcases hw id' i' hi' with ⟨rfl, h1, h2⟩ | ⟨j, hj, h1, h2⟩
        · refine ⟨cid, sf, List.mem_append_left _ ?_⟩
          rw [he, h1, h2, hc]
          simp
        · obtain ⟨cid, sf, hm⟩ := ih.entry id' j hj
          exact ⟨cid, sf, by rw [h1, h2]; exact List.mem_append_right _ hm⟩

end Verif.Runner
