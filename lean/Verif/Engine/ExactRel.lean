import Verif.Engine.ExactInv
import Verif.Props.EngineHist

/-!
How what the loop is doing is seen from outside.
-/

namespace Verif.Engine
open State Verif.Spec

/-- The dependents of each manifold. -/
def depsOf (m : AMap (List Name)) : Name → List Name := fun i => (m.get? i).getD []

/-- The worker of the goroutine has been offered and not registered. -/
def Refused (h : List Ev) (w : Option WRef) (g : G) : Prop :=
  w = none ∧ match g.pc with
    | .selfWait | .waiting _ => True
    | .sendStopped _ => ∃ w, phaseH h g.name = .ok w
    | _ => False

def RefInv (s : State) (rf : Name → Bool) : Prop :=
  ∀ g ∈ s.gs, rf g.name = true ↔ Refused s.hist (s.cur g.name).worker g

/-- The tasks are these duties. -/
inductive Owed : AMap (List Name) → List Task → List Duty → Prop
  | done (m) : Owed m [.check] []
  | start {m ts l} (n d) (h : Owed m ts l) : Owed m (.start n d :: ts) (.start n d :: l)
  | remove {m ts l} (n vals) (h : Owed (dropDependent m vals) ts l) :
      Owed m (.remove n vals :: ts) (.remove n (depsOf (dropDependent m vals)) :: l)
  | bounceAll {m ts l} (n) (h : Owed m ts l) : Owed m (.bounceAll n :: ts) ((depsOf m n).map .tell ++ l)
  | bounce {m ts l} (n) (h : Owed m ts l) : Owed m (.bounce n :: ts) (.tell n :: l)
  | stop {m ts l} (n) (h : Owed m ts l) : Owed m (.stop n :: ts) (.tell n :: l)
  | clear {m ts l} (h : Owed m ts l) : Owed m (.clearOneShot :: ts) l

/-- What the loop still has to do, seen from outside. -/
inductive LoopRel (cfg : Config) (s : State) : List Task → Loop → Prop
  | idle (hd : s.tomb.dead = false) : LoopRel cfg s [] .idle
  | report (hd : s.tomb.dead = false) : LoopRel cfg s [.report, .check] .idle
  | check (hd : s.tomb.dead = false)
      (ha : allOthersStopped s = true → ∀ n, (s.cur n).stopped = true ∨ (s.cur n).stopping = true) : LoopRel cfg s [.check] .idle
  | stops (pre ns : List Name) (hd : s.tomb.dead = false) (ho : IsRangeOrder s.current (pre ++ ns))
      (hp : ∀ x ∈ pre, (s.cur x).stopped = true ∨ (s.cur x).stopping = true) :
      LoopRel cfg s (ns.map .stop ++ [.clearOneShot, .check]) .idle
  | look (n told err vals) (lost : Option WRef) (hd : s.tomb.dead = false) :
      LoopRel cfg s [.react n told err vals lost.isSome, .check]
        (.look (duties cfg (depsOf s.dependents) (depsOf (dropDependent s.dependents vals)) n told err lost))
  | busy {ts l} (hd : s.tomb.dead = false) (ho : Owed s.dependents ts l) : LoopRel cfg s ts (.busy l)
  | gone (hd : s.tomb.dead = true) : LoopRel cfg s [] .gone

theorem Owed.ne_nil {m : AMap (List Name)} {ts : List Task} {l : List Duty} (h : Owed m ts l) : ts ≠ [] := by
  cases h <;> simp

/-- The relation between the two. -/
structure Sim (cfg : Config) (f : Fine) (L : Hidden) : Prop where
  deps : L.deps = depsOf f.s.dependents
  ref : RefInv f.s L.refused
  loop : LoopRel cfg f.s f.todo L.loop

theorem LoopRel.frame {cfg : Config} {s s' : State} {ts : List Task} {l : Loop} (f : Frame s s') (h : LoopRel cfg s ts l) :
    LoopRel cfg s' ts l := by
  cases h with
  | idle hd => exact .idle (f.dead.trans hd)
  | report hd => exact .report (f.dead.trans hd)
  | check hd ha =>
    refine .check (f.dead.trans hd) (fun h n => ?_)
    rw [f.cur]
    refine ha ?_ n
    unfold allOthersStopped at h ⊢
    rw [f.current] at h
    simpa only [f.cur] using h
  | stops pre ns hd ho hp =>
    exact .stops pre ns (f.dead.trans hd) (by rw [f.current]; exact ho) (fun x hx => by rw [f.cur]; exact hp x hx)
  | look n told err vals lost hd => rw [← f.dependents]; exact .look n told err vals lost (f.dead.trans hd)
  | busy hd ho => exact .busy (f.dead.trans hd) (by rw [f.dependents]; exact ho)
  | gone hd => exact .gone (f.dead.trans hd)

/-! ## What the history says -/

variable {cfg : Config} {s : State}

theorem dying_iff (i : HInv cfg s) : s.dying = decide (Ev.kill ∈ s.hist) := by
  cases h : s.dying with
  | true => simp [i.dying.1 h]
  | false =>
    have : .kill ∉ s.hist := fun hk => by rw [i.dying.2 hk] at h; cases h
    simp [this]

theorem not_dying (i : HInv cfg s) : s.dying = false ↔ .kill ∉ s.hist := by
  rw [dying_iff i]; simp

theorem open_none_iff (c : Core s) (i : HInv cfg s) (n : Name) : openH s.hist n = none ↔ (s.cur n).stopped = true := by
  refine ⟨fun h => ?_, i.noOpen c⟩
  cases hs : (s.cur n).stopped with
  | true => rfl
  | false =>
    obtain ⟨g, hg, rfl⟩ := c.live n hs
    rw [i.openG g hg] at h; cases h

theorem told_iff (c : Core s) (i : HInv cfg s) (n : Name) :
    Told s.hist n ↔ (s.cur n).stopped = true ∨ (s.cur n).stopping = true := by
  constructor
  · intro h
    cases hs : (s.cur n).stopped with
    | true => exact Or.inl rfl
    | false =>
      obtain ⟨g, hg, rfl⟩ := c.live n hs
      exact Or.inr ((i.told c hg).2 (h _ (i.openG g hg)))
  · rintro (h | h) g ho
    · rw [i.noOpen c h] at ho; cases ho
    · obtain ⟨y, hy, rfl, rfl⟩ := i.openN n g ho
      exact (i.told c hy).1 h

theorem allStopped_iff (c : Core s) (i : HInv cfg s) : AllStopped s.hist ↔ allOthersStopped s = true := by
  unfold AllStopped allOthersStopped
  rw [List.all_eq_true]
  constructor
  · intro h n _
    rcases h n with h | h
    · rw [(open_none_iff c i n).1 h]; rfl
    · rw [← i.worker] at h; rw [h]; simp
  · intro h n
    cases hc : s.current.get? n with
    | none =>
      left
      rw [open_none_iff c i]
      unfold State.cur; rw [hc]; rfl
    | some inf =>
      have := h n (AMap.mem_keys_of_get? hc)
      rw [Bool.or_eq_true] at this
      rcases this with h | h
      · exact Or.inl ((open_none_iff c i n).2 h)
      · right
        rw [← i.worker]; simpa using h

theorem man_filter (i : HInv cfg s) {n : Name} {m : Manifold} (hm : manH s.hist n = some m) (raw : Option Err) :
    applyFilter cfg (s.man n) raw = filterOf cfg m raw := by
  rw [← i.man] at hm
  unfold applyFilter State.man
  rw [hm]; rfl

theorem snap_eq (i : HInv cfg s) {n : Name} {m : Manifold} (hm : manH s.hist n = some m) :
    launchSnap s n = snapH s.hist m.inputs := by
  have h0 : (s.man n).inputs = m.inputs := by
    rw [← i.man] at hm
    unfold State.man; rw [hm]; rfl
  unfold launchSnap takeSnapshot snapH
  rw [h0]
  congr 1
  funext sn j
  have h1 : ((s.setCur n { s.cur n with
    starting := true, startAttempts := (s.cur n).startAttempts + 1, err := none, cancel := some s.nextG }).cur j).worker =
      workerH s.hist j := by
    rw [setCur_cur, ← i.worker]
    split
    · rename_i h; rw [h]
    · rfl
  have h2 : (s.man j).output = (manH s.hist j).bind Manifold.output := by
    rw [← i.man]
    unfold State.man
    cases s.manifolds.get? j <;> rfl
  rw [h1]
  show Snapshot.mk _ (sn.outputs.set j (s.man j).output) = _
  rw [h2]

theorem launch_event (i : HInv cfg s) (x : XInv s) {n : Name} {m : Manifold} (hm : manH s.hist n = some m) (d : Int) :
    (launch s n d).hist = .begin n (beginsH s.hist) d (recentH cfg.backoffResetTime s.hist n) (snapH s.hist m.inputs) ::
      s.hist := by
  rw [← snap_eq i hm, ← i.recent, ← x.nextG]; rfl

theorem lines_eq (c : Core s) (i : HInv cfg s) : reportLines s = s.current.keys.map (lineH s.hist) := by
  unfold reportLines
  refine List.map_congr_left (fun n _ => ?_)
  unfold lineH
  congr 1
  · exact Props.state_eq c i n
  · rw [← i.man]; unfold State.man
    cases s.manifolds.get? n <;> rfl
  · exact i.count n
  · exact i.err n
  · rw [i.started]
  · rw [i.worker]
    cases workerH s.hist n with
    | none => rfl
    | some w => cases w <;> simp

theorem report_eq (c : Core s) (i : HInv cfg s) (x : XInv s) : reportEv s = reportH cfg s.hist := by
  unfold reportEv reportH
  rw [lines_eq c i, dying_iff i, x.keys, i.worst]
  by_cases h : Ev.kill ∈ s.hist <;> simp [h]

theorem answer_eq (cfg : Config) (sn : Snapshot) (res : Name) (out : Option Nat) :
    rawAccess cfg sn res out = answerH cfg sn res out := by
  unfold rawAccess answerH
  cases sn.workers.get? res with
  | none => rfl
  | some w => cases w with
    | none => rfl
    | some w => cases out with
      | none => rfl
      | some o =>
        cases h : sn.outputs.get? res with
        | none => simp
        | some f => cases f <;> simp

theorem cyclic_iff (i : HInv cfg s) (n : Name) (m : Manifold) :
    HasCycle (inputsTable (s.manifolds.set n m)) ↔ CyclicH (.installed n m :: s.hist) :=
  Props.hasCycle_iff (s.manifolds.set n m) (.installed n m :: s.hist) (fun x => by rw [AMap.get?_set, i.man]; rfl)

theorem acyclic_result (i : HInv cfg s) {n : Name} {m : Manifold} {order : List Name}
    (ho : IsRangeOrder (s.manifolds.set n m) order) :
    (checkAcyclic s n m order = none ∧ ¬ CyclicH (.installed n m :: s.hist)) ∨
    (checkAcyclic s n m order = some .cycle ∧ CyclicH (.installed n m :: s.hist)) := by
  rw [← cyclic_iff i]
  exact Validate.validate_cases (inputs := inputsTable (s.manifolds.set n m)) order
    (fun k hk => by rw [inputsTable_keys] at hk; exact (ho.2 k).2 hk)

theorem addDependents_deps (n : Name) : ∀ (is : List Name) (deps : AMap (List Name)),
    depsOf (addDependents deps n is) = fun i => depsOf deps i ++ List.replicate (is.count i) n := by
  intro is
  induction is with
  | nil => intro deps; funext i; simp [addDependents]
  | cons j is ih =>
    intro deps
    funext i
    rw [addDependents, ih]
    simp only [depsOf, AMap.get?_set]
    by_cases h : i = j
    · subst h
      simp [List.replicate_succ]
    · have h' : ¬ j = i := fun e => h e.symm
      simp [h, h']

/-! ## What the loop has to do when an attempt has ended -/

theorem reactTasks_duties (cfg : Config) (m : AMap (List Name)) (n : Name) (told : Bool) (f : Option Err)
    (vals : Name → List Name) (lost : Option WRef) :
    Owed m (reactTasks cfg n told f vals ++ ((if lost.isSome then [.bounceAll n] else []) ++ [.check]))
      (duties cfg (depsOf m) (depsOf (dropDependent m vals)) n told f lost) := by
  have rest : ∀ m', Owed m' ((if lost.isSome then [Task.bounceAll n] else []) ++ [.check])
      (if lost = none then [] else (depsOf m' n).map .tell) := by
    intro m'
    cases lost with
    | none => exact .done _
    | some w => simpa using Owed.bounceAll n (.done m')
  unfold duties
  have plain : removes told f = false → Owed m ((if lost.isSome then [Task.bounceAll n] else []) ++ [.check])
      (if lost = none then [] else (if removes told f then depsOf (dropDependent m vals) n else depsOf m n).map .tell) := by
    intro h; rw [h]; exact rest m
  unfold reactTasks reaction
  cases told with
  | true => exact .start _ _ (plain rfl)
  | false =>
    cases f with
    | none => simpa using plain rfl
    | some r =>
      have e : ∀ t, errIs (some r) t = decide (t ∈ r.tree) := by
        intro t
        have := errIs_iff r t
        cases h : errIs (some r) t <;> simp_all
      simp only [e, reduceCtorEq, false_or, decide_eq_true_eq, Bool.false_eq_true, if_false]
      by_cases h1 : Err.aborted ∈ r.tree
      · simpa [h1] using plain (by simp [removes, h1])
      · by_cases h2 : Err.missing ∈ r.tree
        · simpa [h1, h2] using plain (by simp [removes, h2])
        · by_cases h3 : Err.bounce ∈ r.tree
          · simpa [h1, h2, h3] using Owed.start n cfg.bounceDelay (plain (by simp [removes, h3]))
          · by_cases h4 : Err.uninstall ∈ r.tree
            · have hr : removes false (some r) = true := by simp [removes, h1, h2, h3, h4]
              simpa [h1, h2, h3, h4, hr] using Owed.remove n vals (rest (dropDependent m vals))
            · simpa [h1, h2, h3, h4] using Owed.start n cfg.errorDelay (plain (by simp [removes, h4]))

theorem drop_order {deps : AMap (List Name)} {n : Name} {vals : Name → List Name} (hv : validVals deps n vals = true) (i : Name) :
    (depsOf (dropDependent deps vals) i).Nodup ∧
      ∀ d, d ∈ depsOf (dropDependent deps vals) i ↔ d ∈ depsOf deps i ∧ d ≠ n := by
  unfold depsOf
  rw [dropDependent_get]
  cases h : deps.get? i with
  | none => simp
  | some l =>
    unfold validVals at hv
    rw [List.all_eq_true] at hv
    have hm : ∃ p ∈ deps.entries, p.1 = i := by
      have := AMap.mem_keys_of_get? h
      obtain ⟨p, hp, e⟩ := List.mem_map.1 this
      exact ⟨p, hp, e⟩
    obtain ⟨p, hp, rfl⟩ := hm
    have := hv p hp
    simp only [Bool.and_eq_true, decide_eq_true_eq, List.all_eq_true, List.contains_iff_mem, bne_iff_ne, ne_eq,
      Bool.or_eq_true, beq_iff_eq, h, Option.getD_some] at this
    obtain ⟨⟨h1, h2⟩, h3⟩ := this
    simp only [Option.map_some, Option.getD_some]
    exact ⟨h1, fun d => ⟨h2 d, fun hd => (h3 d hd.1).resolve_left hd.2⟩⟩

end Verif.Engine
