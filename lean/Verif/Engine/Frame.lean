import Verif.Engine.Model
import Verif.ValidateProofs
import Mathlib.Tactic.Tauto

/-!
Simplification lemmas: which fields each helper of the engine model leaves alone.
-/

namespace Verif.Engine
open State

section
variable (s : State) (e : Ev) (n : Name) (w : WRef) (k : Nat) (i : Info) (gid : Nat) (f : G → G)

@[simp] theorem log_tomb : (s.log e).tomb = s.tomb := rfl
@[simp] theorem log_worst : (s.log e).worst = s.worst := rfl
@[simp] theorem log_manifolds : (s.log e).manifolds = s.manifolds := rfl
@[simp] theorem log_dependents : (s.log e).dependents = s.dependents := rfl
@[simp] theorem log_current : (s.log e).current = s.current := rfl
@[simp] theorem log_gs : (s.log e).gs = s.gs := rfl
@[simp] theorem log_nextG : (s.log e).nextG = s.nextG := rfl
@[simp] theorem log_oneShot : (s.log e).oneShot = s.oneShot := rfl
@[simp] theorem log_pend : (s.log e).pend = s.pend := rfl
@[simp] theorem log_finished : (s.log e).finished = s.finished := rfl
@[simp] theorem log_hist : (s.log e).hist = e :: s.hist := rfl
@[simp] theorem log_cur (m : Name) : (s.log e).cur m = s.cur m := rfl
@[simp] theorem log_man (m : Name) : (s.log e).man m = s.man m := rfl
@[simp] theorem log_dying : (s.log e).dying = s.dying := rfl

@[simp] theorem killNil_tomb : s.killNil.tomb = s.tomb.kill none := rfl
@[simp] theorem killNil_worst : s.killNil.worst = s.worst := rfl
@[simp] theorem killNil_manifolds : s.killNil.manifolds = s.manifolds := rfl
@[simp] theorem killNil_dependents : s.killNil.dependents = s.dependents := rfl
@[simp] theorem killNil_current : s.killNil.current = s.current := rfl
@[simp] theorem killNil_gs : s.killNil.gs = s.gs := rfl
@[simp] theorem killNil_nextG : s.killNil.nextG = s.nextG := rfl
@[simp] theorem killNil_oneShot : s.killNil.oneShot = s.oneShot := rfl
@[simp] theorem killNil_pend : s.killNil.pend = s.pend := rfl
@[simp] theorem killNil_finished : s.killNil.finished = s.finished := rfl
@[simp] theorem killNil_hist : s.killNil.hist = .kill :: s.hist := rfl
@[simp] theorem killNil_cur (m : Name) : s.killNil.cur m = s.cur m := rfl
@[simp] theorem killNil_man (m : Name) : s.killNil.man m = s.man m := rfl
@[simp] theorem killNil_dying : s.killNil.dying = true := Tomb.kill_none_dying _

@[simp] theorem killWorker_worst : (s.killWorker w).worst = s.worst := by cases w <;> rfl
@[simp] theorem killWorker_manifolds : (s.killWorker w).manifolds = s.manifolds := by cases w <;> rfl
@[simp] theorem killWorker_dependents : (s.killWorker w).dependents = s.dependents := by cases w <;> rfl
@[simp] theorem killWorker_current : (s.killWorker w).current = s.current := by cases w <;> rfl
@[simp] theorem killWorker_gs : (s.killWorker w).gs = s.gs := by cases w <;> rfl
@[simp] theorem killWorker_nextG : (s.killWorker w).nextG = s.nextG := by cases w <;> rfl
@[simp] theorem killWorker_oneShot : (s.killWorker w).oneShot = s.oneShot := by cases w <;> rfl
@[simp] theorem killWorker_pend : (s.killWorker w).pend = s.pend := by cases w <;> rfl
@[simp] theorem killWorker_finished : (s.killWorker w).finished = s.finished := by cases w <;> rfl
@[simp] theorem killWorker_cur (m : Name) : (s.killWorker w).cur m = s.cur m := by cases w <;> rfl
@[simp] theorem killWorker_man (m : Name) : (s.killWorker w).man m = s.man m := by cases w <;> rfl

@[simp] theorem setCur_tomb : (s.setCur n i).tomb = s.tomb := rfl
@[simp] theorem setCur_worst : (s.setCur n i).worst = s.worst := rfl
@[simp] theorem setCur_manifolds : (s.setCur n i).manifolds = s.manifolds := rfl
@[simp] theorem setCur_dependents : (s.setCur n i).dependents = s.dependents := rfl
@[simp] theorem setCur_gs : (s.setCur n i).gs = s.gs := rfl
@[simp] theorem setCur_nextG : (s.setCur n i).nextG = s.nextG := rfl
@[simp] theorem setCur_oneShot : (s.setCur n i).oneShot = s.oneShot := rfl
@[simp] theorem setCur_pend : (s.setCur n i).pend = s.pend := rfl
@[simp] theorem setCur_finished : (s.setCur n i).finished = s.finished := rfl
@[simp] theorem setCur_hist : (s.setCur n i).hist = s.hist := rfl
@[simp] theorem setCur_man (m : Name) : (s.setCur n i).man m = s.man m := rfl
@[simp] theorem setCur_dying : (s.setCur n i).dying = s.dying := rfl
@[simp] theorem setCur_current : (s.setCur n i).current = s.current.set n i := rfl

theorem setCur_cur (m : Name) : (s.setCur n i).cur m = if m = n then i else s.cur m := by
  simp only [State.cur, setCur_current, AMap.get?_set]
  split <;> rfl

@[simp] theorem setCur_cur_self : (s.setCur n i).cur n = i := by simp [setCur_cur]
theorem setCur_cur_ne {m : Name} (h : m ≠ n) : (s.setCur n i).cur m = s.cur m := by simp [setCur_cur, h]

@[simp] theorem mapG_tomb : (s.mapG gid f).tomb = s.tomb := rfl
@[simp] theorem mapG_worst : (s.mapG gid f).worst = s.worst := rfl
@[simp] theorem mapG_manifolds : (s.mapG gid f).manifolds = s.manifolds := rfl
@[simp] theorem mapG_dependents : (s.mapG gid f).dependents = s.dependents := rfl
@[simp] theorem mapG_current : (s.mapG gid f).current = s.current := rfl
@[simp] theorem mapG_nextG : (s.mapG gid f).nextG = s.nextG := rfl
@[simp] theorem mapG_oneShot : (s.mapG gid f).oneShot = s.oneShot := rfl
@[simp] theorem mapG_pend : (s.mapG gid f).pend = s.pend := rfl
@[simp] theorem mapG_finished : (s.mapG gid f).finished = s.finished := rfl
@[simp] theorem mapG_hist : (s.mapG gid f).hist = s.hist := rfl
@[simp] theorem mapG_cur (m : Name) : (s.mapG gid f).cur m = s.cur m := rfl
@[simp] theorem mapG_man (m : Name) : (s.mapG gid f).man m = s.man m := rfl
@[simp] theorem mapG_dying : (s.mapG gid f).dying = s.dying := rfl

theorem mem_mapG {g : G} : g ∈ (s.mapG gid f).gs ↔ ∃ g₀ ∈ s.gs, g = if g₀.gid = gid then f g₀ else g₀ := by
  simp only [State.mapG, List.mem_map, eq_comm (a := g)]

theorem getG_some {g : G} (h : s.getG gid = some g) : g ∈ s.gs ∧ g.gid = gid := by
  unfold State.getG at h
  exact ⟨List.mem_of_find?_eq_some h, by simpa using List.find?_some h⟩

end

theorem killWorker_dying_mono {s : State} (w : WRef) (h : s.dying = true) : (s.killWorker w).dying = true := by
  cases w with
  | obj n => exact h
  | self => exact Tomb.kill_none_dying _

theorem dying_of_killWorker {s : State} {w : WRef} (h : (s.killWorker w).dying = false) : s.dying = false := by
  cases hd : s.dying with
  | false => rfl
  | true => rw [killWorker_dying_mono w hd] at h; cases h

theorem killWorker_hist_mem {s : State} (w : WRef) : .killW w ∈ (s.killWorker w).hist := by
  cases w with
  | obj n => simp [State.killWorker]
  | self => simp [State.killWorker]

theorem killWorker_hist_mono {s : State} (w : WRef) {e : Ev} (h : e ∈ s.hist) : e ∈ (s.killWorker w).hist := by
  cases w with
  | obj n => simp [State.killWorker, h]
  | self => simp [State.killWorker, h]

/-- The lookups that make up a snapshot. -/
theorem takeSnapshot_spec (s : State) (inputs : List Name) :
    (∀ i, (takeSnapshot s inputs).workers.get? i = if i ∈ inputs then some (s.cur i).worker else none) ∧
    (∀ i, (takeSnapshot s inputs).outputs.get? i = if i ∈ inputs then some (s.man i).output else none) := by
  have key : ∀ (l : List Name) (sn : Snapshot),
      (∀ i, (l.foldl (fun sn i =>
        ({ workers := sn.workers.set i (s.cur i).worker, outputs := sn.outputs.set i (s.man i).output } :
          Snapshot)) sn).workers.get? i = if i ∈ l then some (s.cur i).worker else sn.workers.get? i) ∧
      (∀ i, (l.foldl (fun sn i =>
        ({ workers := sn.workers.set i (s.cur i).worker, outputs := sn.outputs.set i (s.man i).output } :
          Snapshot)) sn).outputs.get? i = if i ∈ l then some (s.man i).output else sn.outputs.get? i) := by
    intro l
    induction l with
    | nil => intro sn; simp
    | cons a l ih =>
      intro sn
      simp only [List.foldl_cons]
      refine ⟨fun i => ?_, fun i => ?_⟩
      · rw [(ih _).1]
        by_cases hi : i ∈ l
        · simp [hi]
        · simp only [hi, if_false, AMap.get?_set, List.mem_cons, or_false]
          by_cases e : i = a <;> simp [e]
      · rw [(ih _).2]
        by_cases hi : i ∈ l
        · simp [hi]
        · simp only [hi, if_false, AMap.get?_set, List.mem_cons, or_false]
          by_cases e : i = a <;> simp [e]
  unfold takeSnapshot
  exact ⟨fun i => (key inputs {}).1 i, fun i => (key inputs {}).2 i⟩

theorem stopped_iff (i : Info) : i.stopped = true ↔ i.worker = none ∧ i.starting = false := by
  unfold Info.stopped
  cases i.worker <;> cases i.starting <;> simp

theorem not_stopped_iff (i : Info) : i.stopped = false ↔ i.worker ≠ none ∨ i.starting = true := by
  unfold Info.stopped
  cases i.worker <;> cases i.starting <;> simp

@[simp] theorem stopped_default : ({} : Info).stopped = true := rfl

theorem addDependents_spec (n : Name) : ∀ (is : List Name) (deps : AMap (List Name)) (i x : Name),
    x ∈ ((addDependents deps n is).get? i).getD [] ↔ x ∈ (deps.get? i).getD [] ∨ (x = n ∧ i ∈ is) := by
  intro is
  induction is with
  | nil => intro deps i x; simp [addDependents]
  | cons a is ih =>
    intro deps i x
    simp only [addDependents]
    rw [ih, AMap.get?_set]
    by_cases h : i = a
    · subst h; simp; tauto
    · simp [h]

theorem get?_mapEntries {α β : Type} (m : AMap α) (f : Name → α → β) (k : Name) :
    (⟨m.entries.map (fun p => (p.1, f p.1 p.2))⟩ : AMap β).get? k = (m.get? k).map (f k) := by
  obtain ⟨es⟩ := m
  unfold AMap.get?
  simp only
  induction es with
  | nil => rfl
  | cons p es ih =>
    rw [List.map_cons, AMap.lookup_cons', AMap.lookup_cons']
    by_cases h : k = p.1
    · simp [h]
    · simp only [h, if_false]; exact ih

theorem inputsTable_get (ms : AMap Manifold) (n : Name) :
    (inputsTable ms).get? n = (ms.get? n).map Manifold.inputs :=
  get?_mapEntries ms (fun _ m => m.inputs) n

theorem inputsTable_keys (ms : AMap Manifold) : (inputsTable ms).keys = ms.keys := by
  simp [inputsTable, AMap.keys]

theorem dropDependent_get (deps : AMap (List Name)) (vals : Name → List Name) (i : Name) :
    (dropDependent deps vals).get? i = (deps.get? i).map (fun _ => vals i) :=
  get?_mapEntries deps (fun k _ => vals k) i

theorem dropDependent_spec {deps : AMap (List Name)} {n : Name} {vals : Name → List Name}
    (h : validVals deps n vals = true) (i x : Name) :
    x ∈ ((dropDependent deps vals).get? i).getD [] ↔ x ∈ (deps.get? i).getD [] ∧ x ≠ n := by
  rw [dropDependent_get]
  cases hi : deps.get? i with
  | none => simp
  | some l =>
    have hmem : i ∈ deps.keys := AMap.mem_keys_of_get? hi
    obtain ⟨p, hp, hpi⟩ := List.mem_map.1 hmem
    unfold validVals at h
    have := List.all_eq_true.1 h p hp
    simp only [Bool.and_eq_true, List.all_eq_true, decide_eq_true_eq, bne_iff_ne, Bool.or_eq_true,
      beq_iff_eq, List.contains_iff_mem] at this
    rw [hpi, hi] at this
    simp only [Option.map_some, Option.getD_some] at this ⊢
    obtain ⟨⟨_, h1⟩, h2⟩ := this
    exact ⟨fun hx => ⟨(h1 x hx).1, (h1 x hx).2⟩, fun ⟨hx, hne⟩ => (h2 x hx).resolve_left hne⟩

end Verif.Engine
