import Verif.Engine.Converge
import Verif.Engine.Rest
import Verif.Props.EngineLive
import Mathlib.Data.Fintype.Card
import Mathlib.Data.Fintype.Sets
import Mathlib.Data.Fintype.EquivFin

/-!
# The engine settles (C65), and what rests (C40)

While its environment is calm, a live engine takes finitely many steps (`C65_bounded`), can always take one unless it
waits for user code or has settled (`C65_progress`), and when it has settled the manifolds that have a worker are exactly
those whose inputs, direct and indirect, are all installed (`C65_settled`).
-/

namespace Verif.Props
open Verif.Spec Verif.Engine Relation

variable {cfg : Config} {s s' : State}

/-! ## C40: what rests -/

theorem ex_rests {v : List Ev → List Ev} (hx : Ex v cfg s noDebt) (hk : .kill ∉ s.hist) {n : Name}
    (hi : manH s.hist n ≠ none) (ho : openH s.hist n = none) : waitsH s.hist n = true := by
  obtain ⟨c, i⟩ := ex_hinv hx
  rcases ex_rinv hx with h | h
  · exact absurd (i.dying.1 h) hk
  · have hi' : (s.manifolds.get? n).isSome = true := by rw [i.man]; exact Option.isSome_iff_ne_none.2 hi
    rcases h n hi' with h | h | h
    · exact h.elim
    · obtain ⟨g, hg, rfl⟩ := c.live n h
      rw [i.openG g hg] at ho; cases ho
    · exact h

/-- C40, the converse of `C40_waits`: while the engine is not dying, an installed manifold for which no attempt is open
came to rest: its latest attempt ended with nil, a missing dependency or an abort, it had not been told to stop, and no
input has changed since. -/
theorem C40_rests (hr : Reach cfg s) (hk : .kill ∉ s.hist) {n : Name} (hi : manH s.hist n ≠ none)
    (ho : openH s.hist n = none) : waitsH s.hist n = true := ex_rests (reach_ex hr) hk hi ho

example : Reach Demo.cfg (Demo.after Demo.cfg (Demo.opsDown.take 24)) ∧
    .kill ∉ (Demo.after Demo.cfg (Demo.opsDown.take 24)).hist ∧
    manH (Demo.after Demo.cfg (Demo.opsDown.take 24)).hist 1 ≠ none ∧
    openH (Demo.after Demo.cfg (Demo.opsDown.take 24)).hist 1 = none :=
  ⟨Demo.after_reach _ _, by decide +kernel, by decide +kernel, by decide +kernel⟩

/-! ## C65: calm environments -/

/-- The error the engine acts on: what the manifold's Filter makes of it. -/
def filtered (cfg : Config) (m : Manifold) (raw : Option Err) : Option Err := match m.filter with
  | some φ => cfg.filterFn φ raw
  | none => raw

/-- What a calm environment does: no Kill, no Install; no Kill lands while an arm runs; Start funcs return workers that
run, and unless they have been told to stop fail only with errors that are not retried at once; workers finish only
after all attempts they belong to have been told to stop. -/
def Calm (cfg : Config) (h : List Ev) : Op → Prop
  | .kill | .armInstall _ _ _ _ => False
  | .armDying _ p | .armReport p | .armStarted _ _ p | .armStopped _ _ _ p => p = none
  | .gStartOk _ w => ∀ k, w = .obj k → ∀ e, .finished k e ∉ h
  | .gStartErr g e => .cancelled g ∈ h ∨ ∀ n m, openH h n = some g → manH h n = some m →
      let r := reactionTo false (filtered cfg m (if .aborted ∈ e.tree then some .aborted else some e))
      r = .wait ∨ r = .remove
  | .finish k _ => ∀ n g, openH h n = some g → phaseH h n = .ok (.obj k) → .cancelled g ∈ h
  | _ => True

/-- An execution from a state in which the environment is calm and the engine stays alive. -/
inductive Calmly (cfg : Config) : State → List Op → State → Prop
  | nil (s : State) : Calmly cfg s [] s
  | cons {s s1 s' : State} {op : Op} {ops : List Op} : Calm cfg s.hist op → step cfg s op = some s1 →
      .kill ∉ s1.hist → Calmly cfg s1 ops s' → Calmly cfg s (op :: ops) s'

theorem rests_reaction (f : Option Err) : rests f = true ↔ reactionTo false f = .wait ∨ reactionTo false f = .remove := by
  rw [rests_iff]
  unfold NeedsRestart reactionTo
  cases f with
  | none => simp
  | some e =>
    have key : ∀ t, errIs (some e) t = decide (t ∈ e.tree) := by
      intro t
      cases h : errIs (some e) t with
      | true => exact (decide_eq_true ((errIs_iff e t).1 h)).symm
      | false =>
        refine (decide_eq_false (fun hm => ?_)).symm
        rw [(errIs_iff e t).2 hm] at h; cases h
    simp only [key]
    by_cases h1 : Err.aborted ∈ e.tree <;> by_cases h2 : Err.missing ∈ e.tree <;> by_cases h3 : Err.bounce ∈ e.tree <;>
      by_cases h4 : Err.uninstall ∈ e.tree <;> simp [h1, h2, h3, h4]

theorem calm_core {c : Name → Nat} (co : Core s) (i : HInv cfg s) (hw : Weight c s) {op : Op} (hc : Calm cfg s.hist op)
    (h : step cfg s op = some s') (hl : s'.dying = false) (hl0 : s.dying = false) :
    Weight c s' ∧ mu cfg c s' ≤ mu cfg c s ∧ (internal op = true → mu cfg c s' < mu cfg c s) := by
  -- the state in which an arm runs
  have cp : Core { s with pend := none } := co.congr rfl rfl rfl rfl rfl rfl
  have wp : Weight c { s with pend := none } := hw.congr rfl rfl
  have mp : mu cfg c { s with pend := none } = mu cfg c s := mu_congr rfl rfl rfl rfl
  -- a goroutine that moves, the infos being the same
  have move : ∀ {g : G} (_ : g ∈ s.gs) (p : Pc) {t : State}, t.gs = (s.mapG g.gid (fun g => { g with pc := p })).gs →
      t.manifolds = s.manifolds → t.dependents = s.dependents → t.finished = s.finished → t.current = s.current →
      val cfg c s { g with pc := p } < val cfg c s g → Weight c t ∧ mu cfg c t < mu cfg c s := by
    intro g hg p t h1 h2 h3 h4 h5 h6
    have hcur : ∀ n, t.cur n = s.cur n := fun n => by unfold State.cur; rw [h5]
    refine ⟨hw.congr h2 h3, ?_⟩
    have := mu_change (cfg := cfg) (c := c) co hg h1 (fun n _ => by unfold State.man; rw [h2]) h4 (fun n _ => hcur n)
    have e : val cfg c t { g with pc := p } = val cfg c s { g with pc := p } :=
      val_congr rfl rfl (by unfold State.man; rw [h2]) h4 (by rw [hcur]) (by rw [hcur])
    omega
  have noreg : ∀ {g : G}, g ∈ s.gs → (∀ w, g.pc ≠ afterOffer w) → (∀ e, g.pc ≠ .sendStopped e) →
      (s.cur g.name).worker.isSome = false := by
    intro g hg h1 h2
    cases hw : (s.cur g.name).worker with
    | none => rfl
    | some w =>
      rcases ((co.rel g hg).worker w hw).2 with h | ⟨e, h⟩
      · exact absurd h (h1 w)
      · exact absurd h (h2 e)
  cases op with
  | kill => exact hc.elim
  | armInstall => exact hc.elim
  | armDying order p =>
    simp only [step] at h
    split at h
    · rename_i hx; rw [hl0] at hx; cases hx.2.2.1
    · cases h
  | installRefused n =>
    simp only [step] at h
    rw [hl0] at h; cases h
  | armReport p =>
    have hp : p = none := hc
    subst hp
    simp only [step] at h
    split at h
    case isFalse => cases h
    simp only [Option.some.injEq] at h; subst h
    have e : (liveReport { s with pend := none }).pend = none ∧
        (liveReport { s with pend := none }).gs = s.gs ∧ (liveReport { s with pend := none }).manifolds = s.manifolds ∧
        (liveReport { s with pend := none }).dependents = s.dependents ∧
        (liveReport { s with pend := none }).finished = s.finished ∧
        (liveReport { s with pend := none }).current = s.current := by
      have e0 : ∃ ev, liveReport { s with pend := none } = State.log { s with pend := none } ev := by
        unfold liveReport
        rw [tick_none rfl]
        simp only
        split <;> exact ⟨_, rfl⟩
      obtain ⟨ev, e0⟩ := e0
      rw [e0]
      exact ⟨rfl, rfl, rfl, rfl, rfl, rfl⟩
    obtain ⟨e1, e2, e3, e4, e5, e6⟩ := e
    rw [endArm_live e1 hl]
    exact ⟨hw.congr e3 e4, Nat.le_of_eq (mu_congr e2 e3 e5 e6), by intro hx; cases hx⟩
  | armStarted gid now p =>
    have hp : p = none := hc
    subst hp
    simp only [step] at h
    split at h
    · cases h
    split at h
    · cases h
    rename_i g hget
    obtain ⟨hg, hgid⟩ := getG_some s gid hget
    subst hgid
    split at h
    case h_2 => cases h
    rename_i w hpc
    simp only [Option.some.injEq] at h; subst h
    generalize hz : gotStarted cfg
      { s.mapG g.gid (fun g => { g with pc := afterOffer w }) with pend := none } g.name g.gid w now = z at *
    have hzl : z.dying = false := by
      cases hd : z.dying with
      | false => rfl
      | true =>
        exfalso
        have := endArm_dying_mono hd
        rw [this] at hl; cases hl
    obtain ⟨a1, a2, a3⟩ := mu_started (cfg := cfg) (c := c) (s := { s with pend := none }) cp rfl wp hg hpc now hz.symm hzl
    rw [endArm_live a3 hl]
    rw [mp] at a2
    exact ⟨a1, Nat.le_of_lt a2, fun _ => a2⟩
  | armStopped gid now vals p =>
    have hp : p = none := hc
    subst hp
    simp only [step] at h
    split at h
    · cases h
    rename_i hdv
    split at h
    · cases h
    rename_i g hget
    obtain ⟨hg, hgid⟩ := getG_some s gid hget
    subst hgid
    rw [hget] at hdv
    simp only [Option.map_some, Option.getD_some, not_or, Bool.not_eq_true, Bool.not_eq_false] at hdv
    split at h
    case h_2 => cases h
    rename_i e hpc
    simp only [Option.some.injEq] at h; subst h
    generalize hz : gotStopped cfg
      { s with gs := s.gs.filter (fun x => x.gid != g.gid), pend := none } g.name g.gid e now vals = z at *
    have hzl : z.dying = false := by
      cases hd : z.dying with
      | false => rfl
      | true =>
        exfalso
        have := endArm_dying_mono hd
        rw [this] at hl; cases hl
    obtain ⟨a1, a2, a3⟩ := mu_stopped (cfg := cfg) (c := c) (s := { s with pend := none }) cp hdv.1 rfl wp hg hpc now hdv.2
      hz.symm hzl
    rw [endArm_live a3 hl]
    rw [mp] at a2
    exact ⟨a1, Nat.le_of_lt a2, fun _ => a2⟩
  | gAbort gid =>
    simp only [step] at h
    split at h
    case h_2 => cases h
    rename_i g hget
    obtain ⟨hg, hgid⟩ := getG_some s gid hget
    subst hgid
    split at h
    case isFalse => cases h
    rename_i hx
    simp only [Option.some.injEq] at h; subst h
    have hcan : g.cancelled = true := hx.2.resolve_left (by rw [hl0]; simp)
    have hst : (s.cur g.name).stopping = true := by rw [← (co.rel g hg).cancelled]; exact hcan
    have hnr := noreg hg (by rw [hx.1]; intro w; cases w <;> simp [afterOffer]) (by rw [hx.1]; simp)
    obtain ⟨a1, a2⟩ := move hg (.sendStopped (some .aborted)) rfl rfl rfl rfl rfl (by
      unfold val; simp only [hx.1, pot, hst, hnr, if_true, Bool.false_eq_true, if_false]; omega)
    exact ⟨a1, Nat.le_of_lt a2, fun _ => a2⟩
  | gTimer gid fuzz =>
    simp only [step] at h
    split at h
    case h_2 => cases h
    rename_i g hget
    obtain ⟨hg, hgid⟩ := getG_some s gid hget
    subst hgid
    split at h
    case isFalse => cases h
    rename_i hx
    simp only [Option.some.injEq] at h; subst h
    obtain ⟨a1, a2⟩ := move hg .starting rfl rfl rfl rfl rfl (by
      unfold val; simp only [hx.1, pot]; split <;> omega)
    exact ⟨a1, Nat.le_of_lt a2, fun _ => a2⟩
  | gGet gid res out =>
    simp only [step] at h
    split at h
    case h_2 => cases h
    split at h
    · cases h
    simp only [Option.some.injEq] at h; subst h
    exact ⟨hw.congr rfl rfl, Nat.le_of_eq (mu_congr rfl rfl rfl rfl), by intro hx; cases hx⟩
  | gStartOk gid w =>
    simp only [step] at h
    split at h
    case h_2 => cases h
    rename_i g hget
    obtain ⟨hg, hgid⟩ := getG_some s gid hget
    subst hgid
    split at h
    case isFalse => cases h
    rename_i hx
    simp only [Option.some.injEq] at h; subst h
    have hfin : finW s.finished w = false := by
      cases w with
      | self => rfl
      | obj k =>
        show (s.finished.get? k).isSome = false
        cases hf : s.finished.get? k with
        | none => rfl
        | some e => exact absurd ((i.fin k e).1 hf) (hc k rfl e)
    obtain ⟨a1, a2⟩ := move hg (.registering w) rfl rfl rfl rfl rfl (by
      unfold val; simp only [hx, pot, hfin, Bool.false_eq_true, if_false]; split <;> omega)
    exact ⟨a1, Nat.le_of_lt a2, fun _ => a2⟩
  | gStartErr gid e =>
    simp only [step] at h
    split at h
    case h_2 => cases h
    rename_i g hget
    obtain ⟨hg, hgid⟩ := getG_some s gid hget
    subst hgid
    split at h
    case isFalse => cases h
    rename_i hx
    simp only [Option.some.injEq] at h; subst h
    have hnr := noreg hg (by rw [hx]; intro w; cases w <;> simp [afterOffer]) (by rw [hx]; simp)
    obtain ⟨a1, a2⟩ := move hg (.sendStopped (startError e)) rfl rfl rfl rfl rfl (by
      unfold val
      rcases hc with hc | hc
      · have hst : (s.cur g.name).stopping = true := (i.told co hg).2 hc
        simp only [hx, pot, hst, hnr, if_true, Bool.false_eq_true, if_false]; omega
      · obtain ⟨m, hm⟩ := Option.isSome_iff_exists.1 (co.g_installed hg)
        have h1 := hc g.name m (i.openG g hg) (by rw [← i.man]; exact hm)
        have he : (if Err.aborted ∈ e.tree then some Err.aborted else some e) = startError e := by
          unfold startError
          by_cases ha : Err.aborted ∈ e.tree
          · rw [if_pos ha, if_pos ((Err.is_iff_mem_tree _ _).2 ha)]
          · rw [if_neg ha, if_neg (fun h => ha ((Err.is_iff_mem_tree _ _).1 h))]
        have hf : filtered cfg m (startError e) = applyFilter cfg (s.man g.name) (startError e) := by
          unfold applyFilter State.man filtered
          rw [hm]; rfl
        rw [he] at h1
        simp only at h1
        rw [hf] at h1
        have hre := (rests_reaction _).2 h1
        simp only [hx, pot, hnr, hre, if_true, Bool.false_eq_true, if_false]
        split <;> omega)
    exact ⟨a1, Nat.le_of_lt a2, fun _ => a2⟩
  | gRegisterDying gid =>
    simp only [step] at h
    split at h
    case h_2 => cases h
    split at h
    case h_2 => cases h
    rw [hl0] at h; cases h
  | gSelfDone gid =>
    simp only [step] at h
    split at h
    case h_2 => cases h
    split at h
    · rename_i hx; rw [hl0] at hx; cases hx.2
    · cases h
  | gWaitRet gid =>
    simp only [step] at h
    split at h
    case h_2 => cases h
    rename_i g hget
    obtain ⟨hg, hgid⟩ := getG_some s gid hget
    subst hgid
    split at h
    case h_2 => cases h
    rename_i w hpc
    split at h
    case h_2 => cases h
    rename_i e hf
    simp only [Option.some.injEq] at h; subst h
    obtain ⟨a1, a2⟩ := move hg (.sendStopped e) rfl rfl rfl rfl rfl (by
      unfold val
      simp only [hpc, pot, hf, Option.isSome_some, if_true]
      cases (s.cur g.name).stopping <;> cases (s.cur g.name).worker.isSome <;>
        simp only [if_true, Bool.false_eq_true, if_false] <;> (try split) <;> omega)
    exact ⟨a1, Nat.le_of_lt a2, fun _ => a2⟩
  | finish k e =>
    simp only [step] at h
    split at h
    case isFalse => cases h
    simp only [Option.some.injEq] at h; subst h
    refine ⟨hw.congr rfl rfl, ?_, by intro hx; cases hx⟩
    unfold mu
    refine sum_le (l := s.gs) ?_
    intro g hg
    have hph := i.pc g hg
    by_cases hst : (s.cur g.name).stopping = true
    · refine Nat.le_of_eq ?_
      unfold val
      show pot _ _ _ (s.cur g.name).stopping _ _ = pot _ _ _ (s.cur g.name).stopping _ _
      rw [hst]
      cases g.pc <;> rfl
    · have hnt : phaseH s.hist g.name ≠ .ok (.obj k) := fun hx =>
        hst ((i.told co hg).2 (hc g.name g.gid (i.openG g hg) hx))
      unfold PcOk at hph
      refine Nat.le_of_eq ?_
      unfold val
      show pot (fun e => rests (applyFilter cfg (s.man g.name) e)) (s.finished.set k e) (c g.name) (s.cur g.name).stopping
        (s.cur g.name).worker.isSome g.pc = _
      split at hph <;> rename_i hpc <;> rw [hpc]
      · rfl
      · rfl
      · rename_i w
        cases w with
        | self => rfl
        | obj j =>
          have hne : j ≠ k := by rintro rfl; exact hnt hph
          have hf : finW (s.finished.set k e) (.obj j) = finW s.finished (.obj j) := by
            simp only [finW, AMap.get?_set, if_neg hne]
          simp only [pot, hf]
      · rfl
      · rename_i j
        have hne : j ≠ k := by rintro rfl; exact hnt hph
        simp only [pot, AMap.get?_set, if_neg hne]
      · rfl

theorem calm_step {c : Name → Nat} (hr : Reach cfg s) (hw : Weight c s) {op : Op} (hc : Calm cfg s.hist op)
    (h : step cfg s op = some s') (hk : .kill ∉ s'.hist) :
    Weight c s' ∧ mu cfg c s' ≤ mu cfg c s ∧ (internal op = true → mu cfg c s' < mu cfg c s) := by
  obtain ⟨co, i⟩ := reach_hinv hr
  have i' := (reach_hinv (hr.step op h)).2
  have hl : s'.dying = false := by
    cases hd : s'.dying with
    | false => rfl
    | true => exact absurd (i'.dying.1 hd) hk
  have hk0 : .kill ∉ s.hist := by
    intro hx
    obtain ⟨d, hd⟩ := chain_hist (step_chain co h) co
    exact hk (by rw [hd]; exact List.mem_append_right _ hx)
  have hl0 : s.dying = false := by
    cases hd : s.dying with
    | false => rfl
    | true => exact absurd (i.dying.1 hd) hk0
  exact calm_core co i hw hc h hl hl0

/-! ### Weights -/

/-- An acyclic relation on a finite set is well-founded. -/
theorem wf_sub {r : Nat → Nat → Prop} (l : List Nat) (ha : ∀ n, ¬ TransGen r n n) :
    WellFounded (fun a b : { x // x ∈ l } => TransGen r a.1 b.1) := by
  haveI : IsTrans { x // x ∈ l } (fun a b => TransGen r a.1 b.1) := ⟨fun _ _ _ h1 h2 => h1.trans h2⟩
  haveI : Std.Irrefl (fun a b : { x // x ∈ l } => TransGen r a.1 b.1) := ⟨fun a h => ha a.1 h⟩
  haveI : Finite { x // x ∈ l } := @Finite.of_fintype _ (List.Subtype.fintype l)
  exact Finite.wellFounded_of_trans_of_irrefl _

/-- ... if the first component of each pair is in the set, ... -/
theorem wf_left {r : Nat → Nat → Prop} (l : List Nat) (hl : ∀ a b, r a b → a ∈ l) (ha : ∀ n, ¬ TransGen r n n) :
    WellFounded r := by
  have key : ∀ x : { x // x ∈ l }, Acc r x.1 := by
    intro x
    induction x using (wf_sub l ha).induction with
    | _ x ih => exact ⟨_, fun y hy => ih ⟨y, hl y _ hy⟩ (.single hy)⟩
  exact ⟨fun n => ⟨_, fun y hy => key ⟨y, hl y _ hy⟩⟩⟩

/-- ... and if the second component is. -/
theorem wf_right {r : Nat → Nat → Prop} (l : List Nat) (hl : ∀ a b, r a b → b ∈ l) (ha : ∀ n, ¬ TransGen r n n) :
    WellFounded r := by
  have out : ∀ y, y ∉ l → Acc r y := fun y hy => ⟨_, fun z hz => absurd (hl z y hz) hy⟩
  have key : ∀ x : { x // x ∈ l }, Acc r x.1 := by
    intro x
    induction x using (wf_sub l ha).induction with
    | _ x ih =>
      refine ⟨_, fun y hy => ?_⟩
      by_cases hy' : y ∈ l
      · exact ih ⟨y, hy'⟩ (.single hy)
      · exact out y hy'
  refine ⟨fun n => ?_⟩
  by_cases hn : n ∈ l
  · exact key ⟨n, hn⟩
  · exact out n hn

/-- The weights that make the cost of a manifold's dependents its weight. -/
theorem ex_weight {v : List Ev → List Ev} {D : Debt} (hx : Ex v cfg s D) : ∃ c, Weight c s := by
  obtain ⟨co, i⟩ := ex_hinv hx
  let L : Name → List Name := fun n => (s.dependents.get? n).getD []
  have hmem : ∀ d n, d ∈ L n ↔ Declares s.hist d n := fun d n => by
    show d ∈ (s.dependents.get? n).getD [] ↔ _
    rw [co.deps, i.dep]
  have hwf : WellFounded (fun d n => d ∈ L n) := by
    refine wf_left s.manifolds.keys ?_ ?_
    · intro d n h
      obtain ⟨m, hm, _⟩ := (hmem d n).1 h
      rw [← i.man] at hm
      exact AMap.mem_keys_of_get? hm
    · intro n h
      refine ex_acyclic hx ⟨n, ?_⟩
      exact TransGen.mono (fun a b => (hmem a b).1) _ _ h
  let c : Name → Nat := hwf.fix (fun n ih => ((L n).attach.map (fun d => 2 * ih d.1 d.2 + 5)).sum)
  have hc : ∀ n, c n = cost c (L n) := by
    intro n
    show hwf.fix _ n = _
    rw [hwf.fix_eq]
    unfold cost
    rw [← List.attach_map_subtype_val (L n), List.map_map, List.attach_map_subtype_val]
    rfl
  exact ⟨c, fun n _ => Nat.le_of_eq (hc n).symm⟩

theorem exists_weight (hr : Reach cfg s) : ∃ c, Weight c s := ex_weight (reach_ex hr)

/-- C65, bounded: from every reachable state of a live engine there is a bound on the number of internal steps that an
execution can take in which the environment is calm and the engine stays alive. -/
theorem C65_bounded (hr : Reach cfg s) : ∃ B, ∀ ops s', Calmly cfg s ops s' → (ops.filter internal).length ≤ B := by
  obtain ⟨c, hw⟩ := exists_weight hr
  refine ⟨mu cfg c s, fun ops s' h => ?_⟩
  induction h with
  | nil s => exact Nat.zero_le _
  | cons hc h1 hk _ ih =>
    obtain ⟨a1, a2, a3⟩ := calm_step hr hw hc h1 hk
    have := ih (hr.step _ h1) a1
    rename_i op _ _
    cases hi : internal op with
    | false => rw [List.filter_cons_of_neg (by simp [hi])]; omega
    | true =>
      have := a3 hi
      rw [List.filter_cons_of_pos hi, List.length_cons]; omega

/-! ### Settling -/

theorem killedH_mem {n : Name} {w : WRef} : ∀ {h : List Ev}, killedH h n = true → phaseH h n = .ok w → .killW w ∈ h := by
  intro h
  induction h with
  | nil => intro h; cases h
  | cons e h ih =>
    intro h1 h2
    cases e with
    | killW w' =>
      simp only [killedH] at h1
      split at h1
      · rename_i hp
        have h2 : phaseH h n = .ok w := h2
        rw [hp] at h2; cases h2
        exact List.mem_cons_self
      · exact List.mem_cons_of_mem _ (ih h1 h2)
    | startOk m g w' =>
      simp only [killedH, phaseH] at h1 h2
      split at h1
      · cases h1
      · rename_i hne; rw [if_neg hne] at h2; exact List.mem_cons_of_mem _ (ih h1 h2)
    | begin | startCall | startErr | ended =>
      simp only [killedH, phaseH] at h1 h2
      split at h2
      · cases h2
      · exact List.mem_cons_of_mem _ (ih h1 h2)
    | installed | installFailed | uninstalled | registered | get | finished | exit | report | kill | cancelled =>
      exact List.mem_cons_of_mem _ (ih h1 h2)

/-- Killing the worker of the self manifold kills the engine. -/
theorem ex_self_kill {v : List Ev → List Ev} {D : Debt} (hx : Ex v cfg s D) (he : .killW .self ∈ s.hist) :
    .kill ∈ s.hist := by
  revert he
  refine ex_induct2 (P := fun s _ => .killW .self ∈ s.hist → .kill ∈ s.hist)
    (by intro h; simp [init] at h) ?_ hx
  intro s D s' D' c i ih m he
  cases m with
  | stop g' hg raw' now' hpc hdead hD =>
    rw [stopState_eq cfg s g' raw' now' (c.rel g' hg).notStopped] at he ⊢
    simp only at he ⊢
    split
    · exact List.mem_cons_self
    · rename_i hnf
      rw [if_neg hnf] at he
      exact List.mem_cons_of_mem _ (ih ((List.mem_cons.1 he).resolve_left (by simp)))
  | reqStop n' hs hst =>
    obtain ⟨g', hg, hgn, h⟩ := requestStop_form c hs hst
    rcases h with ⟨_, e⟩ | ⟨k, _, e⟩ | ⟨_, e⟩ <;> rw [e] at he ⊢ <;>
      simp only [killNil_hist, log_hist, setCur_hist, mapG_hist, List.mem_cons, reduceCtorEq, false_or, true_or] at he ⊢
    · exact ih he
    · exact ih (he.resolve_left (by simp))
  | refuse g' hg w hpc h =>
    cases w with
    | self => exact List.mem_cons_self
    | obj k =>
      exact List.mem_cons_of_mem _ (ih ((List.mem_cons.1 he).resolve_left (by simp)))
  | kill => exact List.mem_cons_self
  | setPend | discharge | gAbort | gSelfDone | gWaitRet | oneShot => exact ih he
  | neutral e h =>
    rcases h with ⟨_, _, rfl⟩ | rfl <;>
      exact List.mem_cons_of_mem _ (ih ((List.mem_cons.1 he).resolve_left (by simp [reportEv])))
  | launch | record | register | uninstall | gTimer | gGet | gStartOk | gStartErr | finish | exit =>
    exact List.mem_cons_of_mem _ (ih ((List.mem_cons.1 he).resolve_left (by simp)))

theorem self_kill (hr : Reach cfg s) (he : .killW .self ∈ s.hist) : .kill ∈ s.hist := ex_self_kill (reach_ex hr) he

/-- The engine has settled: every open attempt is one whose worker has been registered, runs, and has not been told to
stop. -/
def Settled (h : List Ev) : Prop := ∀ n g, openH h n = some g →
  .cancelled g ∉ h ∧ ∃ w, workerH h n = some w ∧ ∀ k, w = .obj k → ∀ e, .finished k e ∉ h

/-- What a live engine may have to wait for: a Start func that has not returned, or a worker which has been Kill()ed but
has not finished. -/
def Busy (h : List Ev) : Prop :=
  (∃ n g, openH h n = some g ∧ phaseH h n = .inStart) ∨
  (∃ n g k, openH h n = some g ∧ phaseH h n = .ok (.obj k) ∧ killedH h n = true ∧ ∀ e, .finished k e ∉ h)

/-- C65, progress: a live engine that has not settled can take a step of its own, or is waiting for user code. -/
theorem C65_progress (hr : Reach cfg s) (hk : .kill ∉ s.hist) (hs : ¬ Settled s.hist) :
    (∃ op s', own op = true ∧ Calm cfg s.hist op ∧ step cfg s op = some s') ∨ Busy s.hist := by
  obtain ⟨c, i⟩ := reach_hinv hr
  have hl : s.dying = false := by
    cases hd : s.dying with
    | false => rfl
    | true => exact absurd (i.dying.1 hd) hk
  have hdead : s.tomb.dead = false := by
    cases h : s.tomb.dead with
    | false => rfl
    | true => rw [(c.dead h).1] at hl; cases hl
  refine Classical.byContradiction (fun hno => hs ?_)
  obtain ⟨hno, hnb⟩ := not_or.1 hno
  have stuck : ∀ op s1, own op = true → Calm cfg s.hist op → step cfg s op = some s1 → False :=
    fun op s1 h1 h2 h3 => hno ⟨op, s1, h1, h2, h3⟩
  intro n gid ho
  obtain ⟨g, hg, rfl, rfl⟩ := i.openN n gid ho
  have hgg := c.getG_eq hg
  have hpc := i.pc g hg
  have hcan : .cancelled g.gid ∈ s.hist ↔ (s.cur g.name).stopping = true := (i.told c hg).symm
  cases hp : g.pc with
  | delaying =>
    exact (stuck (.gTimer g.gid 0) _ rfl trivial (by simp only [step, hgg]; rw [if_pos ⟨hp, by decide, by decide⟩])).elim
  | starting =>
    unfold PcOk at hpc; rw [hp] at hpc
    exact (hnb (Or.inl ⟨_, _, ho, hpc⟩)).elim
  | registering w =>
    exact (stuck (.armStarted g.gid 0 none) _ rfl rfl (by
      simp only [step, hgg, hp]; rw [if_neg (by rw [hdead]; simp)])).elim
  | selfWait =>
    unfold PcOk at hpc; rw [hp] at hpc
    have hph : phaseH s.hist g.name = .ok .self := hpc
    have hst : ¬ (s.cur g.name).stopping = true := by
      intro hst
      rcases reach_kinv hr g hg _ hph with h | h | ⟨_, h⟩
      · exact hk (self_kill hr (killedH_mem h hph))
      · rw [hp] at h; cases h
      · rw [(c.rel g hg).cancelled, hst] at h; cases h
    refine ⟨fun h => hst (hcan.1 h), .self, ?_, by intro k h; cases h⟩
    rw [← i.worker]
    cases hw : (s.cur g.name).worker with
    | none =>
      rcases (c.rel g hg).noworker hw .self hp with h | h
      · exact absurd h hst
      · rw [hl] at h; cases h
    | some w =>
      rcases ((c.rel g hg).worker w hw).2 with h | ⟨e, h⟩
      · rw [hp] at h; cases w with
        | self => rfl
        | obj k => cases h
      · rw [hp] at h; cases h
  | waiting k =>
    unfold PcOk at hpc; rw [hp] at hpc
    have hph : phaseH s.hist g.name = .ok (.obj k) := hpc
    have hf : s.finished.get? k = none := by
      cases hf : s.finished.get? k with
      | none => rfl
      | some e => exact (stuck (.gWaitRet g.gid) _ rfl trivial (by simp only [step, hgg, hp, hf]; rfl)).elim
    have hfin : ∀ e, .finished k e ∉ s.hist := by
      intro e he
      rw [(i.fin k e).2 he] at hf; cases hf
    have hst : ¬ (s.cur g.name).stopping = true := by
      intro hst
      rcases reach_kinv hr g hg _ hph with h | h | ⟨_, h⟩
      · exact hnb (Or.inr ⟨_, _, k, ho, hph, h, hfin⟩)
      · rw [hp] at h; cases h
      · rw [(c.rel g hg).cancelled, hst] at h; cases h
    refine ⟨fun h => hst (hcan.1 h), .obj k, ?_, by intro k' h; cases h; exact hfin⟩
    rw [← i.worker]
    cases hw : (s.cur g.name).worker with
    | none =>
      rcases (c.rel g hg).noworker hw (.obj k) hp with h | h
      · exact absurd h hst
      · rw [hl] at h; cases h
    | some w =>
      rcases ((c.rel g hg).worker w hw).2 with h | ⟨e, h⟩
      · rw [hp] at h; cases w with
        | self => cases h
        | obj j => cases h; rfl
      · rw [hp] at h; cases h
  | sendStopped e =>
    obtain ⟨vals, hv⟩ := exists_validVals s.dependents g.name
    have hcond : ¬ (s.tomb.dead = true ∨ validVals s.dependents g.name vals = false) := by
      rw [hdead, hv]; simp
    exact (stuck (.armStopped g.gid 0 vals none) _ rfl rfl (by
      simp only [step, hgg, hp, Option.map_some, Option.getD_some]; rw [if_neg hcond])).elim

theorem atEvery_drop {α : Type} {P : α → List α → Prop} {mid pre : List α} (h : AtEvery P (mid ++ pre)) : AtEvery P pre := by
  induction mid with
  | nil => exact h
  | cons _ _ ih => exact ih h.2

/-- Manifolds that need all their inputs, for one event: unless it has been told to stop, a Start func fails only if the
engine has no worker for one of the inputs it was given; it succeeds only if the engine has a worker for each, and what
it returns has not finished; workers finish only after all attempts they belong to have been told to stop. -/
def NeedsInputs : Ev → List Ev → Prop := fun e h => match e with
  | .startErr n g _ => .cancelled g ∈ h ∨ ∀ g' sn, lastBegin h n = some (g', sn) → ∃ i, sn.workers.get? i = some none
  | .startOk n _ w => (∀ g' sn, lastBegin h n = some (g', sn) → ∀ i, sn.workers.get? i ≠ some none) ∧
      ∀ k, w = .obj k → ∀ e, .finished k e ∉ h
  | .finished k _ => ∀ n g, openH h n = some g → phaseH h n = .ok (.obj k) → .cancelled g ∈ h
  | _ => True

theorem needs_failed {n : Name} {g : Nat} {e0 : Err} : ∀ {h : List Ev}, AtEvery NeedsInputs h → AtEvery OneAtATime h →
    phaseH h n = .failed e0 → openH h n = some g →
    .cancelled g ∈ h ∨ ∀ g' sn, lastBegin h n = some (g', sn) → ∃ i, sn.workers.get? i = some none := by
  intro h
  induction h with
  | nil => intro _ _ h; cases h
  | cons e h ih =>
    intro a b h1 h2
    have old : phaseH h n = .failed e0 → openH h n = some g → lastBegin (e :: h) n = lastBegin h n →
        .cancelled g ∈ e :: h ∨ ∀ g' sn, lastBegin (e :: h) n = some (g', sn) → ∃ i, sn.workers.get? i = some none := by
      intro h1 h2 h3
      rw [h3]
      exact (ih a.2 b.2 h1 h2).imp_left (List.mem_cons_of_mem _)
    cases e with
    | startErr m g' e' =>
      simp only [phaseH] at h1
      split at h1
      · rename_i hm
        subst hm
        have ho : openH h n = some g := h2
        have ho' : openH h n = some g' := b.1.1
        rw [ho] at ho'; cases ho'
        exact a.1.imp_left (List.mem_cons_of_mem _)
      · exact old h1 h2 rfl
    | begin m g' bs r sn =>
      simp only [phaseH, openH] at h1 h2
      split at h1
      · cases h1
      · rename_i hm
        rw [if_neg hm] at h2
        exact old h1 h2 (by simp [lastBegin, hm])
    | ended m g' =>
      simp only [phaseH, openH] at h1 h2
      split at h1
      · cases h1
      · rename_i hm
        rw [if_neg hm] at h2
        exact old h1 h2 rfl
    | startCall m | startOk m =>
      simp only [phaseH] at h1
      split at h1
      · cases h1
      · exact old h1 h2 rfl
    | installed | installFailed | uninstalled | registered | get | finished | exit | report | kill | cancelled | killW =>
      exact old h1 h2 rfl

theorem needs_ok {n : Name} {w : WRef} : ∀ {h : List Ev}, AtEvery NeedsInputs h → phaseH h n = .ok w →
    ∀ g' sn, lastBegin h n = some (g', sn) → ∀ i, sn.workers.get? i ≠ some none := by
  intro h
  induction h with
  | nil => intro _ h; cases h
  | cons e h ih =>
    intro a h1
    cases e with
    | startOk m g' e' =>
      simp only [phaseH] at h1
      split at h1
      · rename_i hm
        subst hm
        exact a.1.1
      · exact ih a.2 h1
    | begin m g' bs r sn =>
      simp only [phaseH] at h1
      split at h1
      · cases h1
      · rename_i hm
        intro g'' sn' hl
        simp only [lastBegin, if_neg hm] at hl
        exact ih a.2 h1 g'' sn' hl
    | startCall m | startErr m | ended m =>
      simp only [phaseH] at h1
      split at h1
      · cases h1
      · exact ih a.2 h1
    | installed | installFailed | uninstalled | registered | get | finished | exit | report | kill | cancelled | killW =>
      exact ih a.2 h1

theorem needs_finished {n : Name} {g k : Nat} : ∀ {h : List Ev} {e : Option Err}, AtEvery NeedsInputs h →
    phaseH h n = .ok (.obj k) → openH h n = some g → .finished k e ∈ h → .cancelled g ∈ h := by
  intro h
  induction h with
  | nil => intro _ _ h; cases h
  | cons ev h ih =>
    intro e a h1 h2 h3
    cases ev with
    | finished k' e' =>
      rcases List.mem_cons.1 h3 with h3 | h3
      · cases h3
        exact List.mem_cons_of_mem _ (a.1 n g h2 h1)
      · exact List.mem_cons_of_mem _ (ih a.2 h1 h2 h3)
    | startOk m g' w =>
      have h4 := (List.mem_cons.1 h3).resolve_left (by simp)
      simp only [phaseH] at h1
      split at h1
      · cases h1
        exact absurd h4 (a.1.2 k rfl e)
      · exact List.mem_cons_of_mem _ (ih a.2 h1 h2 h4)
    | begin m =>
      have h3 := (List.mem_cons.1 h3).resolve_left (by simp)
      simp only [phaseH, openH] at h1 h2
      split at h1
      · cases h1
      · rename_i hm
        rw [if_neg hm] at h2
        exact List.mem_cons_of_mem _ (ih a.2 h1 h2 h3)
    | ended m =>
      have h3 := (List.mem_cons.1 h3).resolve_left (by simp)
      simp only [phaseH, openH] at h1 h2
      split at h1
      · cases h1
      · rename_i hm
        rw [if_neg hm] at h2
        exact List.mem_cons_of_mem _ (ih a.2 h1 h2 h3)
    | startCall m | startErr m =>
      have h3 := (List.mem_cons.1 h3).resolve_left (by simp)
      simp only [phaseH] at h1
      split at h1
      · cases h1
      · exact List.mem_cons_of_mem _ (ih a.2 h1 h2 h3)
    | installed | installFailed | uninstalled | registered | get | exit | report | kill | cancelled | killW =>
      have h3 := (List.mem_cons.1 h3).resolve_left (by simp)
      exact List.mem_cons_of_mem _ (ih a.2 h1 h2 h3)

/-- A manifold at rest: the event that ended its latest attempt. -/
theorem waits_ended {n : Name} : ∀ {h : List Ev}, waitsH h n = true → openH h n = none →
    ∃ post g now raw f lost pre, h = post ++ .ended n g now raw f false lost :: pre ∧ lastBegin h n = lastBegin pre n := by
  intro h
  induction h with
  | nil => intro h; cases h
  | cons e h ih =>
    intro h1 h2
    have old : waitsH h n = true → openH h n = none → lastBegin (e :: h) n = lastBegin h n →
        ∃ post g now raw f lost pre, e :: h = post ++ .ended n g now raw f false lost :: pre ∧
          lastBegin (e :: h) n = lastBegin pre n := by
      intro h1 h2 h3
      obtain ⟨post, g, now, raw, f, lost, pre, h4, h5⟩ := ih h1 h2
      exact ⟨e :: post, g, now, raw, f, lost, pre, by rw [h4]; rfl, h3.trans h5⟩
    cases e with
    | ended m g now raw f told lost =>
      simp only [waitsH, openH] at h1 h2
      by_cases hm : n = m
      · subst hm
        simp only [if_true, Bool.and_eq_true, Bool.not_eq_true'] at h1
        obtain ⟨rfl, _⟩ := h1
        exact ⟨[], g, now, raw, f, lost, h, rfl, rfl⟩
      · rw [if_neg hm] at h1 h2
        split at h1
        · cases h1
        · exact old h1 h2 rfl
    | begin m g b r sn =>
      simp only [waitsH, openH] at h1 h2
      split at h2
      · cases h2
      · rename_i hm
        exact old h1 h2 (by simp [lastBegin, hm])
    | installed m =>
      simp only [waitsH] at h1
      split at h1
      · cases h1
      · exact old h1 h2 rfl
    | registered m =>
      simp only [waitsH] at h1
      split at h1
      · cases h1
      · exact old h1 h2 rfl
    | startCall | startOk | startErr | installFailed | uninstalled | get | finished | exit | report | kill | cancelled | killW =>
      exact old h1 h2 rfl

theorem ex_settled {v : List Ev → List Ev} (hx : Ex v cfg s noDebt) (hk : .kill ∉ s.hist) (hs : Settled s.hist) (hn : AtEvery NeedsInputs s.hist)
    (n : Name) : workerH s.hist n ≠ none ↔
      manH s.hist n ≠ none ∧ ∀ i, TransGen (Declares s.hist) n i → manH s.hist i ≠ none := by
  obtain ⟨c, i⟩ := ex_hinv hx
  have hinst : ∀ {n}, workerH s.hist n ≠ none → manH s.hist n ≠ none := by
    intro n h
    rw [← i.worker] at h
    rw [← i.man]; exact Option.isSome_iff_ne_none.1 (c.installed_of_worker h)
  -- a manifold with a worker has inputs with workers
  have down : ∀ {n j}, workerH s.hist n ≠ none → Declares s.hist n j → workerH s.hist j ≠ none := by
    intro n j hw hd hj
    have hw' : (s.cur n).worker ≠ none := by rw [i.worker]; exact hw
    have hns : (s.cur n).stopped = false := by
      cases hs : (s.cur n).stopped with
      | false => rfl
      | true => exact absurd ((stopped_iff _).1 hs).1 hw'
    obtain ⟨g, hg, rfl⟩ := c.live n hns
    obtain ⟨h1, w, hw1, hw2⟩ := hs _ _ (i.openG g hg)
    obtain ⟨m, g', sn, u1, u2, u3, u4⟩ := (ex_inputs_current hx (i.openG g hg) h1 hk).resolve_left id
    obtain ⟨m', hm', hjm⟩ := hd
    rw [u1] at hm'; cases hm'
    have hph : phaseH s.hist g.name = .ok w := by
      have hpc := i.pc g hg
      rcases ((c.rel g hg).worker w (by rw [i.worker]; exact hw1)).2 with h | ⟨e, h⟩
      · unfold PcOk at hpc; rw [h] at hpc
        cases w <;> exact hpc
      · unfold PcOk at hpc; rw [h] at hpc
        exact ex_wphase hx _ _ hw1
    have := needs_ok hn hph g' sn u2 j
    rw [(u3 j hjm).1, hj] at this
    exact this rfl
  constructor
  · intro hw
    refine ⟨hinst hw, fun j hj => ?_⟩
    refine hinst (?_ : workerH s.hist j ≠ none)
    induction hj with
    | single h => exact down hw h
    | tail _ h ih => exact down ih h
  · have hwf : WellFounded (fun j n => Declares s.hist n j) := by
      refine wf_right s.manifolds.keys ?_ ?_
      · rintro j n ⟨m, hm, _⟩
        rw [← i.man] at hm
        exact AMap.mem_keys_of_get? hm
      · intro n h
        exact ex_acyclic hx ⟨n, transGen_swap.1 h⟩
    induction n using hwf.induction with
    | _ n ih =>
      rintro ⟨h1, h2⟩ hw
      cases ho : openH s.hist n with
      | some g =>
        obtain ⟨_, w, hw', _⟩ := hs n g ho
        rw [hw] at hw'; cases hw'
      | none =>
        obtain ⟨post, g, now, raw, f, lost, pre, e1, e2⟩ := waits_ended (ex_rests hx hk h1 ho) ho
        have ends := ex_ends_properly hx
        have one := ex_one_at_a_time hx
        rw [e1] at ends one hn
        have hopen : openH pre n = some g := one.split
        obtain ⟨_, p2, _, p4⟩ := ends.split
        have hpk : .kill ∉ pre := fun h => hk (by rw [e1]; simp [h])
        have hpc : .cancelled g ∉ pre := fun h => by cases p2.2 h
        have hnp : AtEvery NeedsInputs (_ :: pre) := atEvery_drop hn
        have hop : AtEvery OneAtATime (_ :: pre) := atEvery_drop one
        cases hph : phaseH pre n with
        | idle => rw [hph] at p4; exact p4
        | inStart => rw [hph] at p4; exact p4
        | delayed =>
          rw [hph] at p4
          rcases p4.2 with h | h
          · cases h
          · exact hpk h
        | ok w =>
          rw [hph] at p4
          cases w with
          | self => exact hpk p4.2
          | obj k => exact hpc (needs_finished hnp.2 hph hopen p4)
        | failed e0 =>
          rcases needs_failed hnp.2 hop.2 hph hopen with h | h
          · exact hpc h
          · obtain ⟨m, g', sn, u1, u2, u3, u4⟩ := (ex_stopped_not_stale hx h1 ho hk).resolve_left id
            rw [e2] at u2
            obtain ⟨j, hj⟩ := h g' sn u2
            by_cases hjm : j ∈ m.inputs
            · have hd : Declares s.hist n j := ⟨m, u1, hjm⟩
              have := (u3 j hjm).1
              rw [hj] at this
              refine ih j hd ⟨h2 j (.single hd), fun x hx => h2 x (.head hd hx)⟩ ?_
              simpa using this.symm
            · rw [u4 j hjm] at hj; cases hj

/-- C65: when a live engine whose manifolds need all their inputs has settled, the manifolds that have a worker are
exactly those which are installed and whose direct and indirect inputs are all installed. -/
theorem C65_settled (hr : Reach cfg s) (hk : .kill ∉ s.hist) (hs : Settled s.hist) (hn : AtEvery NeedsInputs s.hist)
    (n : Name) : workerH s.hist n ≠ none ↔
      manH s.hist n ≠ none ∧ ∀ i, TransGen (Declares s.hist) n i → manH s.hist i ≠ none :=
  ex_settled (reach_ex hr) hk hs hn n

/-! ### Concrete cases -/

namespace Demo

/-- No worker with this number has finished. -/
def noFinish (h : List Ev) (k : Nat) : Bool := h.all (fun | .finished k' _ => k' != k | _ => true)

theorem noFinish_spec {h : List Ev} {k : Nat} (hb : noFinish h k = true) (e : Option Err) : .finished k e ∉ h := by
  intro hm
  have := List.all_eq_true.1 hb _ hm
  simp at this

/-- A test for `NeedsInputs`. -/
def needsB (e : Ev) (h : List Ev) : Bool := match e with
  | .startErr n g _ => decide (.cancelled g ∈ h) || match lastBegin h n with
    | some (_, sn) => sn.workers.keys.any (fun i => decide (sn.workers.get? i = some none))
    | none => true
  | .startOk n _ w => (match lastBegin h n with
    | some (_, sn) => sn.workers.keys.all (fun i => decide (sn.workers.get? i ≠ some none))
    | none => true) && match w with
    | .obj k => noFinish h k
    | .self => true
  | .finished _ _ => false
  | _ => true

theorem needsB_spec {e : Ev} {h : List Ev} (hb : needsB e h = true) : NeedsInputs e h := by
  cases e with
  | startErr n g e =>
    simp only [needsB, Bool.or_eq_true, decide_eq_true_eq] at hb
    refine hb.imp_right (fun hb g' sn hl => ?_)
    rw [hl] at hb
    obtain ⟨i, _, hi⟩ := List.any_eq_true.1 hb
    exact ⟨i, of_decide_eq_true hi⟩
  | startOk n g w =>
    simp only [needsB, Bool.and_eq_true] at hb
    refine ⟨fun g' sn hl i hi => ?_, fun k hk => ?_⟩
    · have := hb.1
      rw [hl] at this
      exact of_decide_eq_true (List.all_eq_true.1 this i (AMap.mem_keys_of_get? hi)) hi
    · have := hb.2
      rw [hk] at this
      exact noFinish_spec this
  | finished => cases hb
  | installed | begin | startCall | get | registered | ended | installFailed | uninstalled | exit | report | kill | cancelled | killW =>
    trivial

def everyB : List Ev → Bool
  | [] => true
  | e :: h => needsB e h && everyB h

theorem everyB_spec : ∀ {h : List Ev}, everyB h = true → AtEvery NeedsInputs h := by
  intro h
  induction h with
  | nil => intro _; trivial
  | cons e h ih =>
    intro hb
    simp only [everyB, Bool.and_eq_true] at hb
    exact ⟨needsB_spec hb.1, ih hb.2⟩

def okWorker (h : List Ev) : Option WRef → Bool
  | some (.obj k) => noFinish h k
  | some .self => true
  | none => false

/-- A test for `Settled`. -/
theorem settled_of {cfg : Config} {s : State} (hr : Reach cfg s)
    (h : ∀ g ∈ s.gs, .cancelled g.gid ∉ s.hist ∧ okWorker s.hist (workerH s.hist g.name) = true) : Settled s.hist := by
  intro n gid ho
  obtain ⟨g, hg, rfl, rfl⟩ := (reach_hinv hr).2.openN n gid ho
  obtain ⟨h1, h2⟩ := h g hg
  refine ⟨h1, ?_⟩
  cases hw : workerH s.hist g.name with
  | none => rw [hw] at h2; cases h2
  | some w =>
    rw [hw] at h2
    refine ⟨w, rfl, fun k hk e => ?_⟩
    subst hk
    exact noFinish_spec h2 e

theorem getD_reach {cfg : Config} {s : State} {op : Op} (hr : Reach cfg s) : Reach cfg ((step cfg s op).getD s) := by
  cases h : step cfg s op with
  | none => exact hr
  | some s1 => exact hr.step op h

/-- A test for `Calm`. -/
theorem calm_err {cfg : Config} {s : State} {g : Nat} {e : Err} (hr : Reach cfg s) (n : Name) (m : Manifold)
    (h1 : ∀ x ∈ s.gs, x.gid = g → x.name = n) (h2 : manH s.hist n = some m)
    (h3 : let r := reactionTo false (filtered cfg m (if .aborted ∈ e.tree then some .aborted else some e))
      r = .wait ∨ r = .remove) : Calm cfg s.hist (.gStartErr g e) := by
  refine Or.inr (fun n' m' h4 h5 => ?_)
  obtain ⟨x, hx, rfl, h6⟩ := (reach_hinv hr).2.openN n' g h4
  rw [h1 x hx h6, h2] at h5
  cases h5
  exact h3

/-- 0 and 1 are up; 2 needs an input that is not installed. -/
def opsSettled : List Op := opsUp ++
  [ .armInstall 2 { inputs := [0, 9] } [2, 1, 0] none, .gTimer 3 0, .gStartErr 3 .missing, .armStopped 3 9 vals01 none ]

end Demo

-- in a settled engine 0 and 1 have workers; 2, whose input 9 is not installed, does not
example : let s := Demo.after Demo.cfg Demo.opsSettled
    Reach Demo.cfg s ∧ .kill ∉ s.hist ∧ Settled s.hist ∧ AtEvery NeedsInputs s.hist ∧ workerH s.hist 1 ≠ none ∧
    manH s.hist 2 ≠ none ∧ workerH s.hist 2 = none :=
  ⟨Demo.after_reach _ _, by decide +kernel, Demo.settled_of (Demo.after_reach _ _) (by decide +kernel),
    Demo.everyB_spec (by decide +kernel), by decide +kernel, by decide +kernel, by decide +kernel⟩

-- a live engine that has not settled
example : let s := Demo.after Demo.cfg Demo.opsBounce
    Reach Demo.cfg s ∧ .kill ∉ s.hist ∧ ¬ Settled s.hist := by
  refine ⟨Demo.after_reach _ _, by decide +kernel, fun h => ?_⟩
  obtain ⟨_, w, hw, _⟩ := h 0 3 (by decide +kernel)
  have : workerH (Demo.after Demo.cfg Demo.opsBounce).hist 0 = none := by decide +kernel
  rw [this] at hw; cases hw

theorem Calmly.one {op : Op} {ops : List Op} (hc : Calm cfg s.hist op) (h : (step cfg s op).isSome = true)
    (hk : .kill ∉ ((step cfg s op).getD s).hist) (hn : Calmly cfg ((step cfg s op).getD s) ops s') :
    Calmly cfg s (op :: ops) s' := by
  obtain ⟨s1, h1⟩ := Option.isSome_iff_exists.1 h
  rw [h1] at hk hn
  exact .cons hc h1 hk hn

-- from there, in a calm environment: 1 finds its input missing and waits; 0 starts; 1 is told and starts
example : ∃ s', Calmly Demo.cfg (Demo.after Demo.cfg Demo.opsBounce)
    [.gTimer 4 0, .gGet 4 0 none, .gStartErr 4 (.wrap 0 .missing), .armStopped 4 102 Demo.noVals none,
     .gTimer 3 0, .gStartOk 3 (.obj 12), .armStarted 3 103 none, .gTimer 5 0, .gStartOk 5 (.obj 13),
     .armStarted 5 104 none] s' := by
  refine ⟨_, .one trivial (by decide +kernel) (by decide +kernel) (.one trivial (by decide +kernel) (by decide +kernel)
    (.one ?_ (by decide +kernel) (by decide +kernel) (.one rfl (by decide +kernel) (by decide +kernel)
    (.one trivial (by decide +kernel) (by decide +kernel) (.one ?_ (by decide +kernel) (by decide +kernel)
    (.one rfl (by decide +kernel) (by decide +kernel) (.one trivial (by decide +kernel) (by decide +kernel)
    (.one ?_ (by decide +kernel) (by decide +kernel) (.one rfl (by decide +kernel) (by decide +kernel) (.nil _))))))))))⟩
  · exact Demo.calm_err (Demo.getD_reach (Demo.getD_reach (Demo.after_reach _ _))) 1 { inputs := [0] } (by decide +kernel)
      (by decide +kernel) (by decide +kernel)
  · intro k hk
    cases hk
    exact Demo.noFinish_spec (by decide +kernel)
  · intro k hk
    cases hk
    exact Demo.noFinish_spec (by decide +kernel)

end Verif.Props
