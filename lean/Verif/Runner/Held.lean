import Verif.Runner.Race
import Verif.Runner.Fair

/-!
# Runner: user code that runs while runner.mu is held

In `Model` a call of Report is one step, and so is the handling of a message during which a worker's Kill is called (killWorker
and setWorker; killAll is in several steps there). Both hold runner.mu while a method of a worker runs, which may take any
time: Report (runner.go:672-696) calls the workers' own Report, killWorkerLocked (603-617) their Kill. Here the time from the call
to the return is a state of its own, in which everybody else goes on as far as they need neither the mutex nor, in the second
case, the run goroutine.
-/

namespace Verif.Runner
open Tab State

/-- Who holds runner.mu while a method of a worker runs. -/
inductive Hold
  /-- Report, with the lines made and the ids to come (676-691) -/
  | report (lines : List Line) (rest : List Name)
  /-- the run goroutine, in a worker's Kill called by killWorker or setWorker (574-580, 596-600, 615) -/
  | kill
deriving DecidableEq, Repr

structure HState where
  s : State := {}
  held : Option Hold := none
deriving DecidableEq, Repr

inductive HOp
  /-- a step of `Model`, apart from Report -/
  | op (o : Op)
  /-- 674: Report locks mu; `order` is the iteration order of the map -/
  | rLock (order : List Name)
  /-- 676-691: the next id (the Report of the previous one's worker has returned), or 692-694: there is none; mu is unlocked
  and Report returns -/
  | rNext
  /-- 615: the Kill returns; mu is unlocked -/
  | killReturns
deriving DecidableEq, Repr

/-- The step takes runner.mu, or is one of somebody who has it. -/
def Op.takesMu (p : Params) (s : State) : Op → Bool
  | .act _ => match s.tab.pc with
    | .act m => needsMu p s.tab m
    | _ => true
  | .killAll _ | .killNext | .report _ | .names _ | .cLock _ | .hWake _ => true
  | _ => false

/-- The step has called a worker's Kill with runner.mu held, other than in killAll. -/
def callsKill (p : Params) (s : State) (o : Op) (hist : List Ev) : Bool :=
  match o, hist with
  | .act _, .killW _ _ :: _ => o.takesMu p s
  | _, _ => false

theorem callsKill_takes {p : Params} {s : State} {o : Op} {hist : List Ev} (h : callsKill p s o hist = true) : o.takesMu p s = true := by
  unfold callsKill at h
  split at h
  · exact h
  · cases h

/-- The step can be taken while `h` holds runner.mu. -/
def Hold.lets (p : Params) (s : State) (o : Op) : Option Hold → Bool
  | none => true
  | some (.report _ _) => !o.takesMu p s
  | some .kill => !o.takesMu p s && !o.byLoop

def Op.isReport : Op → Bool
  | .report _ => true
  | _ => false

def hstep (p : Params) (h : HState) : HOp → Option HState
  | .op o =>
    if o.isReport = false ∧ Hold.lets p h.s o h.held = true then
      match step p h.s o with
      | some s' => some ⟨s', if callsKill p h.s o s'.tab.hist then some .kill else h.held⟩
      | none => none
    else none
  | .rLock order =>
    if h.held = none ∧ h.s.muFree = true ∧ isRangeOrder h.s.tab.workers order = true then
      some ⟨h.s, some (.report [] order)⟩
    else none
  | .rNext =>
    match h.held with
    | some (.report lines (id :: rest)) =>
      some ⟨h.s, some (.report (lines ++ ((h.s.tab.workers.get? id).map (lineOf id)).toList) rest)⟩
    | some (.report lines []) => some ⟨h.s.log (.report lines), none⟩
    | _ => none
  | .killReturns => if h.held = some .kill then some ⟨h.s, none⟩ else none

inductive HReach (p : Params) : HState → Prop
  | init : HReach p {}
  | step {h h' : HState} (o : HOp) : HReach p h → hstep p h o = some h' → HReach p h'

/-! ## What does not take the mutex leaves what Report reads as it is -/

theorem tabStep_mu {p : Params} {s : State} {o : Op} (ht : o.takesMu p s = false) (m : Option Nat) :
    tabStep p { s with mu := m } o = tabStep p s o := by
  cases o <;> first | (cases ht; done) | rfl | skip
  simp only [tabStep]
  simp only [Op.takesMu] at ht
  split
  · rename_i hp
    rw [hp] at ht
    simp only at ht
    simp [ht]
  · rfl

theorem tabStep_lock {p : Params} {s : State} {o : Op} {t : Tab} (ht : o.takesMu p s = false) (h : tabStep p s o = some t)
    (hl : t.pc.locked = true) : s.tab.pc.locked = true := by
  rw [← tabStep_mu ht (some 0)] at h
  exact (tabStep_locked h hl).resolve_left nofun

theorem afterInfo_mu (s : State) (c : Client) (id : Name) (r : Found) : (afterInfo s c id r).mu = s.mu := by
  unfold afterInfo
  split
  · rfl
  · split <;> rfl

theorem clientStep_mu {s s' : State} {c : Client} {o : Op} (h1 : ∀ k, o ≠ .cLock k) (h2 : ∀ k, o ≠ .hWake k)
    (h : clientStep s c o = some s') (hm : s.mu = none) : s'.mu = none := by
  unfold clientStep at h
  split at h
  case h_5 => exact absurd rfl (h1 _)
  case h_19 => exact absurd rfl (h2 _)
  case h_6 =>
    split at h
    · cases h
      split
      · exact hm
      · rw [afterInfo_mu]; exact hm
    · cases h
  case h_8 =>
    split at h
    · cases h
      split
      · exact hm
      · rw [afterInfo_mu]; exact hm
    · cases h
  all_goals first
    | (cases h; exact hm)
    | (cases h; done)
    | ((repeat' split at h) <;> first | (cases h; exact hm) | (cases h; rfl) | (cases h; done))

theorem step_unlocked {p : Params} {s s' : State} {o : Op} (ht : o.takesMu p s = false) (hs : step p s o = some s')
    (hm : s.mu = none) (hl : s.tab.pc.locked = false) :
    s'.mu = none ∧ s'.tab.pc.locked = false ∧ ∀ id, shown s'.tab id = shown s.tab id := by
  unfold Runner.step at hs
  split at hs
  · cases hs; exact ⟨hm, hl, fun _ => rfl⟩
  · cases hs; exact ⟨hm, hl, fun _ => rfl⟩
  · cases hs; exact ⟨hm, hl, fun _ => rfl⟩
  · cases hs; exact ⟨hm, hl, fun _ => rfl⟩
  · split at hs <;> cases hs <;> exact ⟨hm, rfl, fun _ => rfl⟩
  · split at hs <;> cases hs; exact ⟨hm, rfl, fun _ => rfl⟩
  · split at hs
    · rename_i cid hcid
      split at hs
      · refine ⟨clientStep_mu ?_ ?_ hs hm, ?_, ?_⟩
        · rintro k rfl; cases ht
        · rintro k rfl; cases ht
        · cases hx : s'.tab.pc.locked with
          | false => rfl
          | true => rw [clientStep_locked hs hx] at hl; cases hl
        · intro id; unfold shown; rw [clientStep_workers hs]
      · cases hs
    · obtain ⟨t, h, rfl⟩ := Option.map_eq_some_iff.1 hs
      refine ⟨hm, ?_, fun id => ?_⟩
      · cases hx : t.pc.locked with
        | false => exact hx
        | true => rw [tabStep_lock ht h hx] at hl; cases hl
      · rw [← tabStep_mu ht (some 0)] at h
        exact tabStep_shown (s := { s with mu := some 0 }) nofun (fun h => by rw [show s.tab.pc.locked = true from h] at hl; cases hl) h id

theorem line_of_shown {t t' : Tab} {id : Name} (h : shown t' id = shown t id) :
    (t'.workers.get? id).map (lineOf id) = (t.workers.get? id).map (lineOf id) := by
  unfold shown at h
  cases h1 : t'.workers.get? id <;> cases h2 : t.workers.get? id <;> rw [h1, h2] at h <;> simp_all [lineOf]

theorem lines_of_shown {t t' : Tab} (h : ∀ id, shown t' id = shown t id) (order : List Name) :
    reportLines t' order = reportLines t order :=
  congrArg (fun f => order.filterMap f) (funext fun id => line_of_shown (h id))

theorem order_of_shown {t t' : Tab} (h : ∀ id, shown t' id = shown t id) {order : List Name} (ho : IsRangeOrder t.workers order) :
    IsRangeOrder t'.workers order := by
  refine ⟨ho.1, fun id => (ho.2 id).trans ?_⟩
  rw [AMap.mem_keys_iff, AMap.mem_keys_iff]
  have := h id
  unfold shown at this
  cases h1 : t'.workers.get? id <;> cases h2 : t.workers.get? id <;> rw [h1, h2] at this <;> simp_all

/-! ## The steps of this model are steps of `Model` -/

/-- What holds while a method of a worker runs. -/
def HeldInv (h : HState) : Prop :=
  match h.held with
  | none => True
  | some .kill => h.s.tab.pc = .bcast ∧ h.s.mu = none
  | some (.report lines rest) => h.s.mu = none ∧ h.s.tab.pc.locked = false ∧
      ∃ past, IsRangeOrder h.s.tab.workers (past ++ rest) ∧ lines = reportLines h.s.tab past

theorem reportLines_append (t : Tab) (a b : List Name) : reportLines t (a ++ b) = reportLines t a ++ reportLines t b :=
  List.filterMap_append ..

/-- A step of this model is one of `Model`, or changes nothing there. -/
theorem hstep_step {p : Params} {h h' : HState} {o : HOp} (hi : HeldInv h) (hs : hstep p h o = some h') :
    (∃ o', step p h.s o' = some h'.s) ∨ h'.s = h.s := by
  unfold hstep at hs
  split at hs
  · split at hs
    · split at hs
      · rename_i h1; cases hs; exact .inl ⟨_, h1⟩
      · cases hs
    · cases hs
  · split at hs <;> cases hs; exact .inr rfl
  · split at hs
    · cases hs; exact .inr rfl
    · rename_i lines hh
      cases hs
      simp only [HeldInv, hh] at hi
      obtain ⟨hm, hl, past, ho, rfl⟩ := hi
      rw [List.append_nil] at ho
      exact .inl ⟨.report past, by
        simp only [step, Op.cid?, tabStep]
        rw [if_pos ⟨muFree_iff.2 ⟨hm, hl⟩, (isRangeOrder_iff _ _).2 ho⟩]; rfl⟩
    · cases hs
  · split at hs <;> cases hs; exact .inr rfl

theorem act_killW {p : Params} {s s' : State} {o : Op} (hr : Reach p s) (hs : step p s o = some s') (hc : callsKill p s o s'.tab.hist = true) :
    s'.tab.pc = .bcast ∧ s'.mu = none ∧ s.tab.pc.locked = false := by
  have hfine : s'.tab.crashed = false := (Reach.step o hr hs).tab.shape.fine
  unfold callsKill at hc
  split at hc
  · rename_i now id w tl hh
    simp only [Runner.step, Op.cid?, tabStep] at hs
    split at hs
    · rename_i m hm
      split at hs
      · rename_i hn
        cases hs
        refine ⟨?_, ?_, by rw [hm]; rfl⟩
        all_goals
          cases m with
          | start cid n sf =>
            exfalso
            simp only [State.withTab, act] at hh
            split at hh
            · cases hh
            · split at hh <;> cases hh
          | stop n => first | rfl | exact hn.resolve_left nofun
          | started g n w' => first | rfl | exact hn.resolve_left nofun
          | done g n e =>
            exfalso
            simp only [State.withTab, act, workerDone] at hh
            split at hh
            · rename_i hg; simp [act, workerDone, hg, State.withTab] at hfine
            · split at hh
              · cases hh
              · unfold beginShutdown at hh; split at hh <;> cases hh
              · cases hh
      · cases hs
    · cases hs
  · cases hc

/-- Only the run goroutine moves the run goroutine. -/
theorem pc_other {p : Params} {s s' : State} {o : Op} (hl : o.byLoop = false) (hs : step p s o = some s') : s'.tab.pc = s.tab.pc := by
  have hi : ∀ c id r, (afterInfo s c id r).tab.pc = s.tab.pc := by
    intro c id r; unfold afterInfo; split
    · rfl
    · split <;> rfl
  cases o <;> first | (cases hl; done) | skip
  all_goals
    simp only [Runner.step, Op.cid?, tabStep, clientStep, newClient] at hs
    (repeat' split at hs) <;> first
      | (cases hs; done)
      | (simp at hs; done)
      | (cases hs; rfl)
      | (cases hs; exact hi ..)

theorem hstep_inv {p : Params} {h h' : HState} {o : HOp} (hr : Reach p h.s) (hi : HeldInv h) (hs : hstep p h o = some h') : HeldInv h' := by
  unfold hstep at hs
  split at hs
  · rename_i o
    split at hs
    · rename_i hc
      split at hs
      · rename_i s' h1
        cases hs
        cases hk : callsKill p h.s o s'.tab.hist with
        | true =>
          obtain ⟨h2, h3, _⟩ := act_killW hr h1 hk
          exact ⟨h2, h3⟩
        | false =>
          simp only [Bool.false_eq_true, if_false]
          cases hh : h.held with
          | none => trivial
          | some x => cases x with
            | kill =>
              simp only [HeldInv, hh] at hi
              have hc := hc.2
              simp only [hh, Hold.lets, Bool.and_eq_true, Bool.not_eq_true'] at hc
              refine ⟨?_, (step_unlocked hc.1 h1 hi.2 (by rw [hi.1]; rfl)).1⟩
              exact (pc_other hc.2 h1).trans hi.1
            | report lines rest =>
              simp only [HeldInv, hh] at hi
              obtain ⟨hm, hl, past, ho, rfl⟩ := hi
              have hc := hc.2
              simp only [hh, Hold.lets, Bool.not_eq_true'] at hc
              obtain ⟨a, b, c⟩ := step_unlocked hc h1 hm hl
              exact ⟨a, b, past, order_of_shown c ho, (lines_of_shown c past).symm⟩
      · cases hs
    · cases hs
  · rename_i order
    split at hs
    · rename_i hc
      cases hs
      exact ⟨(muFree_iff.1 hc.2.1).1, (muFree_iff.1 hc.2.1).2, [], (isRangeOrder_iff _ _).1 hc.2.2, rfl⟩
    · cases hs
  · split at hs
    · rename_i lines id rest hh
      cases hs
      simp only [HeldInv, hh] at hi
      obtain ⟨hm, hl, past, ho, rfl⟩ := hi
      refine ⟨hm, hl, past ++ [id], by simpa using ho, ?_⟩
      rw [reportLines_append]
      congr 1
    · cases hs; trivial
    · cases hs
  · split at hs <;> cases hs <;> trivial

theorem hreach_inv {p : Params} {h : HState} (hr : HReach p h) : Reach p h.s ∧ HeldInv h := by
  induction hr with
  | init => exact ⟨.init, trivial⟩
  | step o _ hs ih =>
    refine ⟨?_, hstep_inv ih.1 ih.2 hs⟩
    rcases hstep_step ih.2 hs with ⟨o', h1⟩ | h1
    · exact .step o' ih.1 h1
    · rw [h1]; exact ih.1

end Verif.Runner
