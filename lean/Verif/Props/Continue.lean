import Verif.Schedule
import Verif.Engine.ClientsRun
import Verif.Props.EngineFineFair
import Verif.Props.RunnerFair
import Verif.Props.CatacombFair
import Verif.Props.EngineClients
import Verif.Props.Enabled
import Mathlib.Tactic.DeriveCountable
import Mathlib.Logic.Equiv.List

/-!
# C103: every execution can be continued fairly

What C78, C79, C97 and C100 suppose of schedulers, Start funcs and workers excludes no finite execution: whatever has happened so
far, and whatever Start funcs are going to return and workers to end with, it can go on in a way that meets all of it.
-/

namespace Verif
deriving instance Countable for Err
deriving instance Countable for Catacomb.Plan
deriving instance Countable for Catacomb.WorkRes
deriving instance Countable for Catacomb.Op
deriving instance Countable for Runner.Op
deriving instance Countable for Engine.Kind
deriving instance Countable for Engine.FKind
deriving instance Countable for Engine.CKind
end Verif

namespace Verif.Props
open Verif.Schedule

/-! ## The engine -/

section
open Verif.Spec Verif.Engine

variable {cfg : Config} {f : Fine}

/-- What users of the engine do from some moment on: nobody calls; each Start func that is called returns what `sf` says, which may
depend on all that has happened; a worker that was Kill()ed, or is none of the engine's, ends as `fin` says. -/
def EUsers (sf : List Ev → Nat → WRef ⊕ Err) (fin : Nat → Option Err) (h : List Ev) : FOp → Prop
  | .env (.gStartOk g w) => sf h g = .inl w
  | .env (.gStartErr g e) => sf h g = .inr e
  | .env (.finish w e) => e = fin w ∧ (.killW (.obj w) ∈ h ∨ ∀ n g, .startOk n g (.obj w) ∉ h)
  | op => op.kind ≠ none

/-- The kinds of steps of the engine, of Start funcs and of workers. -/
def allKind : FOp → Option (FKind ⊕ Nat ⊕ Nat)
  | .env (.gStartOk g _) => some (.inr (.inl g))
  | .env (.gStartErr g _) => some (.inr (.inl g))
  | .env (.finish w _) => some (.inr (.inr w))
  | op => op.kind.map .inl

theorem allKind_own {op : FOp} {x : FKind} : allKind op = some (.inl x) ↔ op.kind = some x := by
  unfold allKind
  split
  · simp [FOp.kind, Op.kind]
  · simp [FOp.kind, Op.kind]
  · simp [FOp.kind, Op.kind]
  · cases op.kind <;> simp

theorem users_own {sf : List Ev → Nat → WRef ⊕ Err} {fin : Nat → Option Err} {h : List Ev} {op : FOp} {x : FKind}
    (hk : op.kind = some x) : EUsers sf fin h op := by
  unfold EUsers
  split
  · cases hk
  · cases hk
  · cases hk
  · rw [hk]; exact nofun

/-- There are workers that have nothing to do with the engine. -/
theorem fresh_worker : ∀ h : List Ev, ∃ b, ∀ w, b ≤ w → (∀ e, .finished w e ∉ h) ∧ ∀ n g, .startOk n g (.obj w) ∉ h
  | [] => ⟨0, fun _ _ => ⟨nofun, nofun⟩⟩
  | e :: h => by
    obtain ⟨b, hb⟩ := fresh_worker h
    have : ∃ c, ∀ w, c ≤ w → (∀ x, Ev.finished w x ≠ e) ∧ ∀ n g, Ev.startOk n g (.obj w) ≠ e := by
      cases e with
      | finished v x => exact ⟨v + 1, fun w hw => ⟨fun _ e => by injection e; omega, nofun⟩⟩
      | startOk n g v =>
        cases v with
        | self => exact ⟨0, fun w _ => ⟨nofun, nofun⟩⟩
        | obj v => exact ⟨v + 1, fun w hw => ⟨nofun, fun _ _ e => by injection e with _ _ e; injection e; omega⟩⟩
      | _ => exact ⟨0, fun _ _ => ⟨nofun, nofun⟩⟩
    obtain ⟨c, hc⟩ := this
    refine ⟨max b c, fun w hw => ⟨fun x hx => ?_, fun n g hx => ?_⟩⟩
    · rcases List.mem_cons.1 hx with h | h
      · exact (hc w (by omega)).1 x h
      · exact (hb w (by omega)).1 x h
    · rcases List.mem_cons.1 hx with h | h
      · exact (hc w (by omega)).2 n g h
      · exact (hb w (by omega)).2 n g h

theorem finish_enabled (hr : FReach cfg f) {w : Nat} (hw : ∀ e, .finished w e ∉ f.s.hist) (e : Option Err) :
    ∃ f', fstep cfg f (.env (.finish w e)) = some f' ∧ f'.s.hist = .finished w e :: f.s.hist := by
  have h : f.s.finished.get? w = none := by
    cases h : f.s.finished.get? w with
    | none => rfl
    | some x => exact absurd (((freach_hinv hr).2.fin w x).1 h) (hw x)
  refine ⟨{ f with s := { f.s with finished := f.s.finished.set w e }.log (.finished w e) }, ?_, rfl⟩
  simp only [fstep, Op.isEnv, if_true, Engine.step, h, Option.isNone_none, Option.map_some]

theorem start_enabled (hr : FReach cfg f) {n : Name} {g : Nat} (ho : openH f.s.hist n = some g) (hp : phaseH f.s.hist n = .inStart) :
    (∀ w, ∃ f', fstep cfg f (.env (.gStartOk g w)) = some f') ∧ ∀ e, ∃ f', fstep cfg f (.env (.gStartErr g e)) = some f' := by
  obtain ⟨hcore, hi⟩ := freach_hinv hr
  obtain ⟨x, hx, rfl, rfl⟩ := hi.openN n g ho
  have hph := hi.pc x hx
  have hpc : x.pc = .starting := by
    cases hpc : x.pc <;> simp only [PcOk, hpc, hp] at hph <;> first | rfl | (simp at hph)
  have hg := hcore.getG_eq hx
  exact ⟨fun w => by simp [fstep, Op.isEnv, Engine.step, hg, hpc], fun e => by simp [fstep, Op.isEnv, Engine.step, hg, hpc]⟩

theorem start_done (hr : FReach cfg f) {n : Name} {g : Nat} (ho : openH f.s.hist n = some g) {op : FOp} {f' : Fine}
    (hs : fstep cfg f op = some f') (hk : allKind op = some (.inr (.inl g))) : phaseH f'.s.hist n ≠ .inStart := by
  obtain ⟨hcore, hi⟩ := freach_hinv hr
  obtain ⟨x, hx, rfl, rfl⟩ := hi.openN n g ho
  have hg := hcore.getG_eq hx
  unfold allKind at hk
  split at hk
  · injection hk with hk; injection hk with hk; injection hk with hk; subst hk
    simp only [fstep, Op.isEnv, if_true, Engine.step, hg] at hs
    split at hs
    · simp only [Option.map_some, Option.some.injEq] at hs
      subst hs
      show phaseH (.startOk x.name x.gid _ :: _) x.name ≠ _
      simp [phaseH]
    · cases hs
  · injection hk with hk; injection hk with hk; injection hk with hk; subst hk
    simp only [fstep, Op.isEnv, if_true, Engine.step, hg] at hs
    split at hs
    · simp only [Option.map_some, Option.some.injEq] at hs
      subst hs
      show phaseH (.startErr x.name x.gid _ :: _) x.name ≠ _
      simp [phaseH]
    · cases hs
  · injection hk with hk; injection hk with hk; cases hk
  · cases hop : op.kind with
    | none => rw [hop] at hk; cases hk
    | some y => rw [hop] at hk; injection hk with hk; cases hk

theorem finish_done {w : Nat} {op : FOp} {f' : Fine} (hs : fstep cfg f op = some f') (hk : allKind op = some (.inr (.inr w))) :
    ∃ e, .finished w e ∈ f'.s.hist := by
  unfold allKind at hk
  split at hk
  · injection hk with hk; injection hk with hk; cases hk
  · injection hk with hk; injection hk with hk; cases hk
  · rename_i e
    injection hk with hk; injection hk with hk; injection hk with hk; subst hk
    simp only [fstep, Op.isEnv, if_true, Engine.step] at hs
    split at hs
    · simp only [Option.map_some, Option.some.injEq] at hs
      subst hs
      exact ⟨e, List.mem_cons_self⟩
    · cases hs
  · cases hop : op.kind with
    | none => rw [hop] at hk; cases hk
    | some y => rw [hop] at hk; injection hk with hk; cases hk

/-- C103: every finite execution of an engine can be continued in such a way that the scheduler is fair, delays end, every Start func
returns and every worker that is Kill()ed finishes, whatever Start funcs return and workers end with. -/
theorem C103_engine (hr : FReach cfg f) (sf : List Ev → Nat → WRef ⊕ Err) (fin : Nat → Option Err) :
    ∃ (r : FineRun cfg) (n : Nat), r.st n = f ∧ r.Fair ∧ r.DelaysEnd ∧ StartsReturn r.hist ∧ KilledFinish r.hist ∧
      ∀ k, n ≤ k → EUsers sf fin (r.hist k) (r.op k) := by
  let T : Fine → FOp → Fine → Prop := fun f op f' => fstep cfg f op = some f'
  let T' : Fine → FOp → Fine → Prop := fun f op f' => fstep cfg f op = some f' ∧ EUsers sf fin f.s.hist op
  have hp : ∀ {f}, FReach cfg f → Path T {} f := fun h => by
    induction h with
    | init => exact .nil
    | step op _ hs ih => exact ih.snoc hs
  obtain ⟨r⟩ := exists_through (T' := T') (kind := allKind) (P := FReach cfg) (hp hr) (fun _ _ _ h => h.1)
    (fun f hr => by
      obtain ⟨b, hb⟩ := fresh_worker f.s.hist
      obtain ⟨h1, h2⟩ := hb b (Nat.le_refl _)
      obtain ⟨f', hf, _⟩ := finish_enabled hr h1 (fin b)
      exact ⟨_, _, hf, rfl, .inr h2⟩)
    (fun _ _ _ hr h => .step _ hr h.1) hr
  let R : FineRun cfg := ⟨r.st, r.op, r.start, r.next⟩
  have own : ∀ x : FKind, InfOften (fun k => FCanDo cfg (R.st k) x) → InfOften (fun k => (R.op k).kind = some x) := fun x hx =>
    (r.fair (.inl x) (hx.mono (fun k ⟨op, f', h1, h2⟩ => ⟨op, f', allKind_own.2 h1, h2, users_own h1⟩))).mono
      (fun k h => allKind_own.1 h)
  refine ⟨R, r.n, r.at_n, fun x _ => own x, fun g => own _, fun k n g ho hp => ?_, fun k w hw => ?_, fun k hk => (r.later k hk).2⟩
  · refine Classical.byContradiction (fun hno => ?_)
    have hno : ∀ j, k ≤ j → openH (R.hist j) n = some g ∧ phaseH (R.hist j) n = .inStart := fun j hj =>
      Classical.byContradiction (fun h => hno ⟨j, hj, h⟩)
    obtain ⟨j, hj, hop⟩ := r.fair (.inr (.inl g)) (infOften_of_from k (fun j hj => by
      obtain ⟨h1, h2⟩ := hno j hj
      obtain ⟨h3, h4⟩ := start_enabled (R.reach j) h1 h2
      cases hsf : sf (R.hist j) g with
      | inl w => obtain ⟨f', hf⟩ := h3 w; exact ⟨_, f', rfl, hf, hsf⟩
      | inr e => obtain ⟨f', hf⟩ := h4 e; exact ⟨_, f', rfl, hf, hsf⟩)) k
    exact start_done (R.reach j) (hno j hj).1 (r.next j) hop (hno (j + 1) (by omega)).2
  · refine Classical.byContradiction (fun hno => ?_)
    have hno : ∀ j e, .finished w e ∉ R.hist j := fun j e h => hno ⟨j, e, h⟩
    obtain ⟨j, hj, hop⟩ := r.fair (.inr (.inr w)) (infOften_of_from k (fun j hj => by
      obtain ⟨f', hf, _⟩ := finish_enabled (R.reach j) (hno j) (fin w)
      exact ⟨_, f', rfl, hf, rfl, .inl (R.hist_mono hj hw)⟩)) k
    obtain ⟨e, h⟩ := finish_done (r.next j) hop
    exact hno (j + 1) e h

-- an engine that was killed while its loop reacts to the end of an attempt, which is not over yet: it can go on until it exits
example : ∃ (r : FineRun Demo.cfg) (n k : Nat), r.st n = FDemo.after Demo.cfg (FDemo.opsDown.take 34) ∧ .exit ∉ r.hist n ∧ .exit ∈ r.hist k := by
  obtain ⟨r, n, hn, h1, _, h3, h4, _⟩ := C103_engine (FDemo.after_reach Demo.cfg (FDemo.opsDown.take 34)) (fun _ _ => .inr (.user 1)) (fun _ => none)
  obtain ⟨k, hk⟩ := C97_killed_exits h1 (Demo.starts_heed h3) h4 (n := n)
    (show .kill ∈ (r.st n).s.hist by rw [hn]; decide +kernel)
  exact ⟨r, n, k, hn, show .exit ∉ (r.st n).s.hist by rw [hn]; decide +kernel, hk⟩

end

/-! ## The runner -/

section
open Verif.Runner Verif.RSpec
open Verif.Spec (InfOften infOften_of_from)

variable {p : Params} {s : State}

/-- What users of the runner do from some moment on: nobody calls; each StartFunc that is called returns what `sf` says, or calls Goexit;
a worker that was Kill()ed, or is none of the runner's, ends as `fin` says. -/
def RUsers (sf : List Ev → Nat → Nat ⊕ Option Err) (fin : Nat → Option Err) (h : List Ev) : Op → Prop
  | .gStartOk g w => sf h g = .inl w
  | .gStartErr g e => sf h g = .inr (some e)
  | .gGoexit g => sf h g = .inr none
  | .finish w e => e = fin w ∧ ((∃ id, .killW id w ∈ h) ∨ ∀ id g, .startOk id g w ∉ h)
  | op => op.internal = true

/-- The kinds of steps of the runner, of StartFuncs and of workers. -/
def runKind : Op → Option Op
  | .gStartOk g _ => some (.gGoexit g)
  | .gStartErr g _ => some (.gGoexit g)
  | .gGoexit g => some (.gGoexit g)
  | .finish w _ => some (.finish w none)
  | op => if op.internal then some op.kind else none

theorem runKind_own {op : Op} (hi : op.internal = true) : runKind op = some op.kind := by
  unfold runKind
  split <;> first | cases hi | rw [if_pos hi]

theorem kind_internal {op op' : Op} (hk : op'.kind = op.kind) (hi : op.internal = true) : op'.internal = true := by
  have h : ∀ op : Op, op.kind.internal = op.internal := fun op => by cases op <;> rfl
  rw [← h, hk, h]; exact hi

theorem runKind_inv {op op' : Op} (hi : op.internal = true) (hk : runKind op' = some op.kind) : op'.kind = op.kind := by
  have hki : op.kind.internal = true := by
    have h : ∀ op : Op, op.kind.internal = op.internal := fun op => by cases op <;> rfl
    rw [h]; exact hi
  unfold runKind at hk
  split at hk
  · exact absurd hki (by rw [← Option.some.inj hk]; exact nofun)
  · exact absurd hki (by rw [← Option.some.inj hk]; exact nofun)
  · exact absurd hki (by rw [← Option.some.inj hk]; exact nofun)
  · exact absurd hki (by rw [← Option.some.inj hk]; exact nofun)
  · split at hk
    · injection hk
    · cases hk

theorem rusers_own {sf : List Ev → Nat → Nat ⊕ Option Err} {fin : Nat → Option Err} {h : List Ev} {op : Op} (hi : op.internal = true) :
    RUsers sf fin h op := by
  unfold RUsers
  split <;> first | cases hi | exact hi

theorem rfresh_worker : ∀ h : List Ev, ∃ b, ∀ w, b ≤ w → finishedH h w = none ∧ ∀ id g, .startOk id g w ∉ h
  | [] => ⟨0, fun _ _ => ⟨rfl, nofun⟩⟩
  | e :: h => by
    obtain ⟨b, hb⟩ := rfresh_worker h
    cases e with
    | finished v x =>
      refine ⟨max b (v + 1), fun w hw => ⟨?_, fun id g hx => (hb w (by omega)).2 id g (by simpa using hx)⟩⟩
      simp only [finishedH, if_neg (show w ≠ v by omega)]
      exact (hb w (by omega)).1
    | startOk id' g' v =>
      refine ⟨max b (v + 1), fun w hw => ⟨(hb w (by omega)).1, fun id g hx => ?_⟩⟩
      rcases List.mem_cons.1 hx with h | h
      · injection h; omega
      · exact (hb w (by omega)).2 id g h
    | _ => exact ⟨b, fun w hw => ⟨(hb w hw).1, fun id g hx => (hb w hw).2 id g (by simpa using hx)⟩⟩

theorem rfinish_enabled (hr : Runner.Reach p s) {w : Nat} (hf : finishedH s.tab.hist w = none) (e : Option Err) :
    ∃ s', Runner.step p s (.finish w e) = some s' := by
  have h : s.tab.finished.get? w = none := by rw [hr.tab.hinv.fin]; exact hf
  simp [Runner.step, Op.cid?, tabStep, h]

theorem rfinish_done {s' : State} {op : Op} {w : Nat} (hs : Runner.step p s op = some s') (hk : runKind op = some (.finish w none)) :
    finishedH s'.tab.hist w ≠ none := by
  unfold runKind at hk
  split at hk
  · cases hk
  · cases hk
  · cases hk
  · injection hk with hk; injection hk with hk; subst hk
    simp only [Runner.step, Op.cid?, tabStep] at hs
    split at hs
    · simp only [Option.map_some, Option.some.injEq] at hs
      subst hs
      show finishedH (.finished _ _ :: _) _ ≠ none
      simp [finishedH]
    · cases hs
  · split at hk
    · rename_i hi
      injection hk with hk
      have h : ∀ op : Op, op.kind.internal = op.internal := fun op => by cases op <;> rfl
      rw [← h, hk] at hi; cases hi
    · cases hk

theorem rstart_enabled (hr : Runner.Reach p s) {g : Nat} (hp : phaseH s.tab.hist g = some .calling) :
    (∀ w, ∃ s', Runner.step p s (.gStartOk g w) = some s') ∧ (∀ e, ∃ s', Runner.step p s (.gStartErr g e) = some s') ∧
      ∃ s', Runner.step p s (.gGoexit g) = some s' := by
  obtain ⟨x, hx, rfl, hpc, ho⟩ := attempt_calling hr hp
  have hg := getG_of hr.tab.shape.gidNd hx
  exact ⟨fun w => by simp [Runner.step, Op.cid?, tabStep, hg, hpc], fun e => by simp [Runner.step, Op.cid?, tabStep, hg, hpc],
    by simp [Runner.step, Op.cid?, tabStep, hg, hpc]⟩

theorem rstart_done {s' : State} {op : Op} {g : Nat} (hs : Runner.step p s op = some s') (hk : runKind op = some (.gGoexit g)) :
    phaseH s'.tab.hist g ≠ some .calling := by
  unfold runKind at hk
  split at hk
  iterate 3
    · injection hk with hk; injection hk with hk; subst hk
      simp only [Runner.step, Op.cid?, tabStep] at hs
      split at hs
      · split at hs
        · simp only [Option.map_some, Option.some.injEq] at hs
          subst hs
          simp [Tab.log, phaseH]
        · cases hs
      · cases hs
  · cases hk
  · split at hk
    · rename_i hi
      injection hk with hk
      have h : ∀ op : Op, op.kind.internal = op.internal := fun op => by cases op <;> rfl
      rw [← h, hk] at hi; cases hi
    · cases hk

/-- C103: every finite execution of a runner can be continued in such a way that the scheduler is fair, every StartFunc returns and
every worker that is Kill()ed finishes, whatever StartFuncs return and workers end with. -/
theorem C103_runner (hr : Runner.Reach p s) (sf : List Ev → Nat → Nat ⊕ Option Err) (fin : Nat → Option Err) :
    ∃ (r : Run p) (n : Nat), r.st n = s ∧ r.Fair ∧ RSpec.StartsReturn r.hist ∧ RSpec.KilledFinish r.hist ∧
      ∀ k, n ≤ k → RUsers sf fin (r.hist k) (r.op k) := by
  let T : State → Op → State → Prop := fun s op s' => Runner.step p s op = some s'
  let T' : State → Op → State → Prop := fun s op s' => Runner.step p s op = some s' ∧ RUsers sf fin s.tab.hist op
  have hp : ∀ {s}, Runner.Reach p s → Path T Runner.init s := fun h => by
    induction h with
    | init => exact .nil
    | step op _ hs ih => exact ih.snoc hs
  obtain ⟨r⟩ := exists_through (T' := T') (kind := runKind) (P := Runner.Reach p) (hp hr) (fun _ _ _ h => h.1)
    (fun s hr => by
      obtain ⟨b, hb⟩ := rfresh_worker s.tab.hist
      obtain ⟨h1, h2⟩ := hb b (Nat.le_refl _)
      obtain ⟨f', hf⟩ := rfinish_enabled hr h1 (fin b)
      exact ⟨_, _, hf, rfl, .inr h2⟩)
    (fun _ _ _ hr h => .step _ hr h.1) hr
  let R : Run p := ⟨r.st, r.op, r.start, r.next⟩
  refine ⟨R, r.n, r.at_n, fun op hi he => ?_, fun k g hp => ?_, fun k id w hw => ?_, fun k hk => (r.later k hk).2⟩
  · exact (r.fair op.kind (he.mono (fun k ⟨op', s', h1, h2⟩ => ⟨op', s', by
      rw [runKind_own (kind_internal h1 hi), h1], h2, rusers_own (kind_internal h1 hi)⟩))).mono (fun k h => runKind_inv hi h)
  · refine Classical.byContradiction (fun hno => ?_)
    have hno : ∀ j, k ≤ j → phaseH (R.hist j) g = some .calling := fun j hj =>
      Classical.byContradiction (fun h => hno ⟨j, hj, h⟩)
    obtain ⟨j, hj, hop⟩ := r.fair (.gGoexit g) (infOften_of_from k (fun j hj => by
      obtain ⟨h3, h4, h5⟩ := rstart_enabled (R.reach j) (hno j hj)
      cases hsf : sf (R.hist j) g with
      | inl w => obtain ⟨f', hf⟩ := h3 w; exact ⟨_, f', rfl, hf, hsf⟩
      | inr e =>
        cases e with
        | none => obtain ⟨f', hf⟩ := h5; exact ⟨_, f', rfl, hf, hsf⟩
        | some e => obtain ⟨f', hf⟩ := h4 e; exact ⟨_, f', rfl, hf, hsf⟩)) k
    exact rstart_done (r.next j) hop (hno (j + 1) (by omega))
  · refine Classical.byContradiction (fun hno => ?_)
    have hno : ∀ j, k ≤ j → finishedH (R.hist j) w = none := fun j hj => by
      cases h : finishedH (R.hist j) w with
      | none => rfl
      | some e => exact absurd ⟨j, e, hj, h⟩ hno
    obtain ⟨j, hj, hop⟩ := r.fair (.finish w none) (infOften_of_from k (fun j hj => by
      obtain ⟨f', hf⟩ := rfinish_enabled (R.reach j) (hno j hj) (fin w)
      exact ⟨_, f', rfl, hf, rfl, .inl ⟨id, R.hist_mono hj hw⟩⟩)) k
    exact rfinish_done (r.next j) hop (hno (j + 1) (by omega))

-- a runner that is killed while a worker runs can go on until it exits, also if the worker fails
example : ∃ (r : Run RDemo.prm) (n k : Nat), r.st n = RDemo.after RDemo.prm (RDemo.opsUp ++ [.kill]) ∧ .exit ∉ r.hist n ∧ .exit ∈ r.hist k := by
  obtain ⟨r, n, hn, h1, h2, h3, _⟩ := C103_runner (RDemo.after_reach RDemo.prm (RDemo.opsUp ++ [.kill])) (fun _ _ => .inr none)
    (fun _ => some (.user 1))
  obtain ⟨k, hk⟩ := C78_shutdown_ends h1 h2 h3 (n := n) (.inl (show .kill ∈ (r.st n).tab.hist by rw [hn]; decide +kernel))
  exact ⟨r, n, k, hn, show .exit ∉ (r.st n).tab.hist by rw [hn]; decide +kernel, hk⟩

end

/-! ## The catacomb -/

section
open Verif.Catacomb Verif.CSpec
open Verif.Spec (InfOften infOften_of_from)

variable {own : Nat} {s : Catacomb.State}

/-- The worker has been Kill()ed: by its killer, or by an Invoke or Add call that does not take it over. -/
def KilledH (h : List Ev) (w : Nat) : Prop := (∃ g, .killT g w ∈ h) ∨ (∃ i, .killI i w ∈ h) ∨ ∃ c, .killA c w ∈ h

/-- An error that may be passed to any catacomb's Kill. -/
def Harmless (own : Nat) (e : Option Err) : Prop := ∀ x, e = some x → x ≠ .tombStillAlive ∧ own ∉ dyings x

/-- What users of the catacomb do from some moment on: nobody calls, except ErrDying; a worker that was Kill()ed ends as `fin` says; the
work func of a dying catacomb ends as `work` says. -/
def CUsers (fin : Nat → Option Err) (work : WorkRes) (h : List Ev) : Catacomb.Op → Prop
  | .finish w e => e = fin w ∧ KilledH h w
  | .workRet x => x = work ∧ Dying h
  | .callErrDying => True
  | op => op.internal = true

/-- The kinds of steps of the catacomb, of the work func and of workers. -/
def catKind : Catacomb.Op → Option Catacomb.Op
  | .finish w _ => some (.finish w none)
  | .workRet _ => some (.workRet .goexit)
  | op => if op.internal then some op else none

theorem catKind_own {op : Catacomb.Op} (hi : op.internal = true) : catKind op = some op := by
  unfold catKind
  split <;> first | cases hi | rw [if_pos hi]

theorem catKind_inv {op op' : Catacomb.Op} (hi : op.internal = true) (hk : catKind op' = some op) : op' = op := by
  unfold catKind at hk
  split at hk
  · exact absurd hi (by rw [← Option.some.inj hk]; exact nofun)
  · exact absurd hi (by rw [← Option.some.inj hk]; exact nofun)
  · split at hk
    · exact Option.some.inj hk
    · cases hk

theorem cusers_own {fin : Nat → Option Err} {work : WorkRes} {h : List Ev} {op : Catacomb.Op} (hi : op.internal = true) :
    CUsers fin work h op := by
  unfold CUsers
  split <;> first | cases hi | exact hi

theorem cfinish_enabled (hr : Catacomb.Reach own s) (hp : Proper own s.hist) {w : Nat} (hf : finishedH s.hist w = none)
    (e : Option Err) : ∃ s', Catacomb.step own s (.finish w e) = some s' := by
  have hc := hr.no_crash hp
  have h : s.fin.get? w = none := by rw [hr.hinv.fin]; exact hf
  simp [Catacomb.step, hc, Op.inv?, Op.add?, Op.track?, stepMain, h]

theorem cfinish_hist {s' : Catacomb.State} {w : Nat} {e : Option Err} (hs : Catacomb.step own s (.finish w e) = some s') :
    s'.hist = .finished w e :: s.hist := by
  simp only [Catacomb.step, Op.inv?, Op.add?, Op.track?, stepMain] at hs
  split at hs
  · cases hs
  · split at hs
    · injection hs with hs; subst hs; rfl
    · cases hs

theorem work_enabled (hr : Catacomb.Reach own s) (hp : Proper own s.hist) (hw : .workCall ∈ s.hist) (hn : ∀ r, .workRet r ∉ s.hist)
    (x : WorkRes) : ∃ s', Catacomb.step own s (.workRet x) = some s' := by
  have hc := hr.no_crash hp
  have hw' := work_running hr hw hn
  simp only [Catacomb.step, hc, Op.inv?, Op.add?, Op.track?, stepMain, hw']
  cases x.safely <;> exact ⟨_, rfl⟩

theorem work_hist {s' : Catacomb.State} {x : WorkRes} (hs : Catacomb.step own s (.workRet x) = some s') :
    s'.hist = .workRet x :: s.hist := by
  simp only [Catacomb.step, Op.inv?, Op.add?, Op.track?, stepMain] at hs
  split at hs
  · cases hs
  · split at hs
    · split at hs <;> (injection hs with hs; subst hs; rfl)
    · cases hs

theorem proper_cons {e : Ev} {h : List Ev} (hp : Proper own h) (he : ∀ x, supplied e = some x → x ≠ .tombStillAlive ∧ own ∉ dyings x) :
    Proper own (e :: h) := ⟨fun x hx => ⟨(he x hx).1, fun h => absurd h (he x hx).2⟩, hp⟩

theorem proper_of {h : List Ev} (hx : h.all (fun ev => match supplied ev with
      | some e => decide (e ≠ .tombStillAlive ∧ own ∉ dyings e)
      | none => true) = true) : Proper own h := by
  induction h with
  | nil => trivial
  | cons e h ih =>
    simp only [List.all_cons, Bool.and_eq_true] at hx
    refine proper_cons (ih hx.2) (fun x hs => ?_)
    have h1 := hx.1
    simp only [hs, decide_eq_true_eq] at h1
    exact h1

/-- Nobody but the work func makes it return. -/
theorem workRet_only {s' : Catacomb.State} {op : Catacomb.Op} {x : WorkRes} (hT : Catacomb.T own s op s') (hx : .workRet x ∈ s'.hist) :
    .workRet x ∈ s.hist ∨ op = .workRet x := by
  have w1 := fun s => (wgDone_tomb s).2
  have w2 := fun s d => (wgAdd_tomb s d).2
  cases hT <;> simp [State.emit, add, State.setInv, State.setTrack, State.setAdd, w1, w2] at hx ⊢ <;>
    first | exact hx | exact .inl hx | exact hx.symm.imp id Eq.symm

/-- C103: every finite execution of a catacomb whose users supply no forbidden errors can be continued in such a way that the scheduler
is fair, every worker that is Kill()ed finishes, and so does the work func once the catacomb is dying, whatever they end with. -/
theorem C103_catacomb (hr : Catacomb.Reach own s) (hp : Proper own s.hist) {fin : Nat → Option Err} {work : WorkRes}
    (hf : ∀ w, Harmless own (fin w)) (hw : ∀ e, work = .ret e → Harmless own e) :
    ∃ (r : Catacomb.Run own) (n : Nat), r.st n = s ∧ r.Fair ∧ (∀ k w, KilledH (r.hist k) w → ∃ j, (finishedH (r.hist j) w).isSome = true) ∧
      (∀ k, .workCall ∈ r.hist k → Dying (r.hist k) → (∃ x, .workRet x ∈ s.hist) ∨ ∃ j, .workRet work ∈ r.hist j) ∧
      ∀ k, n ≤ k → CUsers fin work (r.hist k) (r.op k) := by
  let T : Catacomb.State → Catacomb.Op → Catacomb.State → Prop := fun s op s' => Catacomb.step own s op = some s'
  let T' : Catacomb.State → Catacomb.Op → Catacomb.State → Prop := fun s op s' => Catacomb.step own s op = some s' ∧ CUsers fin work s.hist op
  let P : Catacomb.State → Prop := fun s => Catacomb.Reach own s ∧ Proper own s.hist
  have hpath : ∀ {s}, Catacomb.Reach own s → Path T Catacomb.init s := fun h => by
    induction h with
    | init => exact .nil
    | step op _ hs ih => exact ih.snoc hs
  have inv : ∀ s op s', P s → T' s op s' → P s' := by
    rintro s op s' ⟨hr, hp⟩ ⟨hs, hu⟩
    refine ⟨.step op hr hs, ?_⟩
    have intern : op.internal = true → Proper own s'.hist := fun hi => by
      rcases (Catacomb.step_T hs).2.benign (.inl hi) with h | ⟨e, h, h2, _⟩
      · rw [h]; exact hp
      · rw [h]; exact proper_cons hp (fun x hx => by rw [h2] at hx; cases hx)
    unfold CUsers at hu
    split at hu
    · obtain ⟨rfl, _⟩ := hu
      rw [cfinish_hist hs]
      exact proper_cons hp (fun x hx => hf _ x hx)
    · rw [work_hist hs, hu.1]
      refine proper_cons hp (fun x hx => ?_)
      cases hx' : work with
      | ret e => rw [hx'] at hx; exact hw e hx' x hx
      | panic v => rw [hx'] at hx; cases hx
      | goexit => rw [hx'] at hx; cases hx
    · simp only [Catacomb.step, Op.inv?, Op.add?, Op.track?, stepMain] at hs
      split at hs
      · cases hs
      · injection hs with hs; subst hs
        exact proper_cons hp nofun
    · exact intern hu
  obtain ⟨r⟩ := exists_through (T' := T') (kind := catKind) (P := P) (hpath hr) (fun _ _ _ h => h.1)
    (fun s ⟨hr, hp⟩ => by
      refine ⟨.callErrDying, s.emit (.errDying (errDying own s)), ?_, trivial⟩
      simp [Catacomb.step, hr.no_crash hp, Op.inv?, Op.add?, Op.track?, stepMain])
    inv ⟨hr, hp⟩
  let R : Catacomb.Run own := ⟨r.st, r.op, r.start, r.next⟩
  have proper : ∀ k, r.n ≤ k → P (r.st k) := Verif.Spec.kept (by rw [r.at_n]; exact ⟨hr, hp⟩) (fun k hk h => inv _ _ _ h (r.later k hk))
  refine ⟨R, r.n, r.at_n, fun op hi he => ?_, fun k w hk => ?_, fun k hc hd => ?_, fun k hk => (r.later k hk).2⟩
  · exact (r.fair op (he.mono (fun k h => by
      obtain ⟨s', hs⟩ := Option.isSome_iff_exists.1 h
      exact ⟨op, s', catKind_own hi, hs, cusers_own hi⟩))).mono (fun k h => catKind_inv hi h)
  · refine Classical.byContradiction (fun hno => ?_)
    have hno : ∀ j, finishedH (R.hist j) w = none := fun j => by
      cases h : finishedH (R.hist j) w with
      | none => rfl
      | some e => exact absurd ⟨j, by rw [h]; rfl⟩ hno
    obtain ⟨j, hj, hop⟩ := r.fair (.finish w none) (infOften_of_from (max k r.n) (fun j hj => by
      obtain ⟨f', hf'⟩ := cfinish_enabled (R.reach j) (proper j (by omega)).2 (hno j) (fin w)
      refine ⟨_, f', rfl, hf', rfl, ?_⟩
      have m : ∀ {e}, e ∈ R.hist k → e ∈ R.hist j := fun h => R.hist_mono (by omega) h
      rcases hk with ⟨g, h⟩ | ⟨i, h⟩ | ⟨c, h⟩
      · exact .inl ⟨g, m h⟩
      · exact .inr (.inl ⟨i, m h⟩)
      · exact .inr (.inr ⟨c, m h⟩))) k
    have hop' : ∃ e, r.op j = .finish w e := by
      unfold catKind at hop
      split at hop
      · rename_i h; injection hop with hop; injection hop with hop; subst hop; exact ⟨_, h⟩
      · cases hop
      · split at hop
        · rename_i hi
          rw [Option.some.inj hop] at hi; cases hi
        · cases hop
    obtain ⟨e, hop'⟩ := hop'
    have := r.next j
    rw [hop'] at this
    have h := hno (j + 1)
    rw [show R.hist (j + 1) = _ from cfinish_hist this] at h
    simp [finishedH] at h
  · refine Classical.byContradiction (fun hno => ?_)
    have h1 : ∀ x, .workRet x ∉ s.hist := fun x h => hno (.inl ⟨x, h⟩)
    have h2 : ∀ j, .workRet work ∉ R.hist j := fun j h => hno (.inr ⟨j, h⟩)
    have h3 : ∀ j, r.n ≤ j → ∀ x, .workRet x ∉ R.hist j := Verif.Spec.kept
      (fun x hx => h1 x (by rw [← r.at_n]; exact hx))
      (fun j hj h x hx => by
        rcases workRet_only (step_T (r.next j)).2 hx with h' | h'
        · exact h x h'
        · have hu := (r.later j hj).2
          rw [h'] at hu
          exact h2 (j + 1) (hu.1 ▸ hx))
    have hno : ∀ j x, .workRet x ∉ R.hist j := fun j x hx =>
      h3 (max j r.n) (by omega) x (R.hist_mono (by omega) hx)
    obtain ⟨j, hj, hop⟩ := r.fair (.workRet .goexit) (infOften_of_from (max k r.n) (fun j hj => by
      obtain ⟨s', hs⟩ := work_enabled (R.reach j) (proper j (by omega)).2 (R.hist_mono (by omega) hc) (hno j) work
      exact ⟨_, s', rfl, hs, rfl, R.dying_mono (by omega) hd⟩)) k
    have hop' : ∃ x, r.op j = .workRet x := by
      unfold catKind at hop
      split at hop
      · cases hop
      · rename_i h; exact ⟨_, h⟩
      · split at hop
        · rename_i hi
          rw [Option.some.inj hop] at hi; cases hi
        · cases hop
    obtain ⟨x, hop'⟩ := hop'
    have := r.next j
    rw [hop'] at this
    exact hno (j + 1) x (by rw [show R.hist (j + 1) = _ from work_hist this]; exact List.mem_cons_self)

-- a catacomb one worker of which has failed, with another one and the work func still running, can go on until it is dead
example : ∃ (r : Catacomb.Run 7) (n k : Nat), r.st n = CDemo.after 7 (CDemo.opsFailed (.user 5)) ∧ .dead ∉ r.hist n ∧ .dead ∈ r.hist k := by
  have hp := proper_of (h := (CDemo.after 7 (CDemo.opsFailed (.user 5))).hist) (own := 7) (by decide +kernel)
  obtain ⟨r, n, hn, h1, h2, h3, _⟩ := C103_catacomb (CDemo.after_reach 7 (CDemo.opsFailed (.user 5))) hp (fin := fun _ => some (.user 8))
    (work := .ret none) (fun w x hx => by injection hx with hx; subst hx; exact ⟨nofun, by decide⟩)
    (fun e he x hx => by injection he with he; subst he; cases hx)
  obtain ⟨j, hx⟩ := (h3 n (show .workCall ∈ (r.st n).hist by rw [hn]; decide +kernel)
    (show Dying (r.st n).hist by rw [hn]; exact ⟨.workerKill 1 (.user 5), by decide +kernel, rfl⟩)).resolve_left (by
      rintro ⟨x, hx⟩
      have : (CDemo.after 7 (CDemo.opsFailed (.user 5))).hist.any (fun | .workRet _ => true | _ => false) = false := by decide +kernel
      exact absurd (List.any_eq_true.2 ⟨_, hx, rfl⟩) (by rw [this]; exact nofun))
  obtain ⟨k, hk⟩ := C79_dies h1 (fun k g w hw => h2 k w (.inl ⟨g, hw⟩)) hx nofun
  exact ⟨r, n, k, hn, show .dead ∉ (r.st n).hist by rw [hn]; decide +kernel, hk⟩

end

/-! ## The engine and its clients -/

section
open Verif.Spec Verif.Engine

variable {cfg : Config} {s : Clients}

/-- What users of the engine do from some moment on: as `EUsers`, and nobody calls. -/
def ClUsers (sf : List Ev → Nat → WRef ⊕ Err) (fin : Nat → Option Err) (s : Clients) : COp → Prop
  | .call _ => False
  | .other op => EUsers sf fin s.f.s.hist op
  | _ => True

/-- The kinds of steps of the calls, of the engine, of Start funcs and of workers. -/
def clKind : COp → Option (CKind ⊕ FKind ⊕ Nat ⊕ Nat)
  | .other op => (allKind op).map .inr
  | op => op.kind.map .inl

theorem clKind_own {op : COp} {x : CKind} : clKind op = some (.inl x) ↔ op.kind = some x := by
  unfold clKind
  split
  · simp [COp.kind]
  · simp

theorem clKind_other {op : COp} {y : FKind ⊕ Nat ⊕ Nat} (h : clKind op = some (.inr y)) : ∃ o, op = .other o ∧ allKind o = some y := by
  unfold clKind at h
  split at h
  · exact ⟨_, rfl, by simpa using h⟩
  · simp at h

theorem other_step {op : FOp} {f' : Fine} (ho : op.ofCall = false) (h : fstep cfg s.f op = some f') :
    cstep cfg s (.other op) = some (s.move f') := by
  simp [cstep, ho, h]

/-- C103: every finite execution of an engine and its clients can be continued in such a way that the scheduler is fair, delays end,
every Start func returns, every worker that is Kill()ed finishes, and no further calls are made. -/
theorem C103_clients (hr : CReach cfg s) (sf : List Ev → Nat → WRef ⊕ Err) (fin : Nat → Option Err) :
    ∃ (r : CRun cfg) (n : Nat), r.st n = s ∧ r.Fair ∧ r.EngineFair ∧ r.DelaysEnd ∧ StartsReturn r.hist ∧ KilledFinish r.hist ∧
      ∀ k, n ≤ k → ClUsers sf fin (r.st k) (r.op k) := by
  let T : Clients → COp → Clients → Prop := fun s op s' => cstep cfg s op = some s'
  let T' : Clients → COp → Clients → Prop := fun s op s' => cstep cfg s op = some s' ∧ ClUsers sf fin s op
  have hp : ∀ {s}, CReach cfg s → Path T {} s := fun h => by
    induction h with
    | init => exact .nil
    | step op _ hs ih => exact ih.snoc hs
  obtain ⟨r⟩ := exists_through (T' := T') (kind := clKind) (P := CReach cfg) (hp hr) (fun _ _ _ h => h.1)
    (fun s hr => by
      obtain ⟨b, hb⟩ := fresh_worker s.f.s.hist
      obtain ⟨h1, h2⟩ := hb b (Nat.le_refl _)
      obtain ⟨f', hf, _⟩ := finish_enabled (C100_engine hr).1 h1 (fin b)
      exact ⟨_, _, other_step rfl hf, rfl, .inr h2⟩)
    (fun _ _ _ hr h => .step _ hr h.1) hr
  let R : CRun cfg := ⟨r.st, r.op, r.start, r.next⟩
  have reach : ∀ k, FReach cfg (R.st k).f := fun k => (C100_engine (R.reach k)).1
  have own : ∀ x : Kind, InfOften (fun k => FCanDo cfg (R.st k).f (.of x)) → InfOften (fun k => (R.op k).fkind = some (.of x)) := fun x hx =>
    (r.fair (.inr (.inl (.of x))) (hx.mono (fun k ⟨op, f', h1, h2⟩ => by
      have ho : op.ofCall = false := by
        cases op with
        | work | report | install _ _ _ => cases h1
        | env o => cases o <;> first | rfl | cases h1
        | _ => rfl
      exact ⟨_, _, by simp [clKind, allKind_own.2 h1], other_step ho h2, users_own h1⟩))).mono
      (fun k h => by
        obtain ⟨o, ho, hk⟩ := clKind_other h
        show (r.op k).fkind = _
        rw [ho]; exact allKind_own.1 hk)
  have other : ∀ {k o}, r.op k = .other o → fstep cfg (R.st k).f o = some (R.st (k + 1)).f := fun {k o} ho => by
    have h := R.next k
    rw [show R.op k = _ from ho] at h
    simp only [cstep] at h
    split at h
    · cases h
    · obtain ⟨f', hf, he⟩ := Option.map_eq_some_iff.1 h
      rw [← he]; exact hf
  refine ⟨R, r.n, r.at_n, fun x hx => ?_, fun x _ => own x, fun g => own _, fun k n g ho hp => ?_, fun k w hw => ?_,
    fun k hk => (r.later k hk).2⟩
  · exact (r.fair (.inl x) (hx.mono (fun k ⟨op, s', h1, h2⟩ => ⟨op, s', clKind_own.2 h1, h2, by
      cases op <;> first | trivial | cases h1⟩))).mono (fun k h => clKind_own.1 h)
  · refine Classical.byContradiction (fun hno => ?_)
    have hno : ∀ j, k ≤ j → openH (R.hist j) n = some g ∧ phaseH (R.hist j) n = .inStart := fun j hj =>
      Classical.byContradiction (fun h => hno ⟨j, hj, h⟩)
    obtain ⟨j, hj, hop⟩ := r.fair (.inr (.inr (.inl g))) (infOften_of_from k (fun j hj => by
      obtain ⟨h1, h2⟩ := hno j hj
      obtain ⟨h3, h4⟩ := start_enabled (reach j) h1 h2
      cases hsf : sf (R.hist j) g with
      | inl w => obtain ⟨f', hf⟩ := h3 w; exact ⟨_, _, rfl, other_step rfl hf, hsf⟩
      | inr e => obtain ⟨f', hf⟩ := h4 e; exact ⟨_, _, rfl, other_step rfl hf, hsf⟩)) k
    obtain ⟨o, ho, hk⟩ := clKind_other hop
    exact start_done (reach j) (hno j hj).1 (other ho) hk (hno (j + 1) (by omega)).2
  · refine Classical.byContradiction (fun hno => ?_)
    have hno : ∀ j e, .finished w e ∉ R.hist j := fun j e h => hno ⟨j, e, h⟩
    obtain ⟨j, hj, hop⟩ := r.fair (.inr (.inr (.inr w))) (infOften_of_from k (fun j hj => by
      obtain ⟨f', hf, _⟩ := finish_enabled (reach j) (hno j) (fin w)
      exact ⟨_, _, rfl, other_step rfl hf, rfl, .inl (R.hist_mono hj hw)⟩)) k
    obtain ⟨o, ho, hk⟩ := clKind_other hop
    obtain ⟨e, h⟩ := finish_done (other ho) hk
    exact hno (j + 1) e h

-- the loop works on a Report, an Install waits for its turn: both calls return
example : ∃ (r : CRun Demo.cfg) (n : Nat), r.st n = ClDemo.after Demo.cfg ClDemo.opsTwo ∧ (∃ k res, .ret 1 res ∈ (r.st k).log) ∧
    ∃ k res, .ret 3 res ∈ (r.st k).log := by
  obtain ⟨r, n, hn, h1, _⟩ := C103_clients (ClDemo.after_reach Demo.cfg ClDemo.opsTwo) (fun _ _ => .inr (.user 1)) (fun _ => none)
  exact ⟨r, n, hn, C100_returns h1 (k := n) (q := .install 0 {}) (by rw [hn]; decide +kernel) (.inl nofun),
    C100_returns h1 (k := n) (q := .report) (by rw [hn]; decide +kernel) (.inl nofun)⟩

end

end Verif.Props
