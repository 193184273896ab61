import Verif.Props.EngineStep
import Verif.Props.EngineDemo
import Mathlib.Data.List.Dedup

/-!
# Engine liveness (C43) and what is left behind (C48)

Liveness is split in two: no reachable dying state is stuck, and the number of internal steps left is bounded.
Together they say that every execution in which enabled steps are eventually taken, Start funcs return and Kill()ed
workers finish ends with the engine's exit; `C43_can_exit` spells out that from every reachable dying state.
-/

namespace Verif.Props
open Verif.Spec Verif.Engine

variable {cfg : Config} {s s' : State}

/-- The steps of the engine's own goroutines, including the return of a Start func; the other steps are calls made
by clients (Kill, Install, Report, Get) and workers finishing. -/
def internal : Op → Bool
  | .kill | .armReport _ | .armInstall _ _ _ _ | .installRefused _ | .gGet _ _ _ | .finish _ _ => false
  | _ => true

/-- The steps that need no user code: those of `internal` other than the return of a Start func. -/
def own : Op → Bool
  | .gStartOk _ _ | .gStartErr _ _ => false
  | op => internal op

/-- The steps that need neither user code nor the end of a delay. -/
def prompt : Op → Bool
  | .gTimer _ _ => false
  | op => own op

/-- How many steps a goroutine has left, at most. -/
def pcRank : Pc → Nat
  | .delaying => 5
  | .starting => 4
  | .registering _ => 3
  | .selfWait => 2
  | .waiting _ => 2
  | .sendStopped _ => 1

/-- How many internal steps a dying engine has left, at most. -/
def remaining (s : State) : Nat :=
  (if s.oneShot = true then 1 else 0) + (s.gs.map (fun g => pcRank g.pc)).sum

/-- The rank of a goroutine list. -/
def gsRank (gs : List G) : Nat := (gs.map (fun g => pcRank g.pc)).sum

theorem gsRank_map_le (f : G → G) : ∀ (gs : List G), (∀ g ∈ gs, pcRank (f g).pc ≤ pcRank g.pc) →
    gsRank (gs.map f) ≤ gsRank gs := by
  intro gs
  induction gs with
  | nil => intro _; exact Nat.le_refl _
  | cons a l ih =>
    intro h
    have h1 := h a (by simp)
    have h2 := ih (fun g hg => h g (by simp [hg]))
    simp only [gsRank, List.map_cons, List.sum_cons] at h2 ⊢
    omega

theorem gsRank_map_lt (f : G → G) : ∀ (gs : List G), (∀ g ∈ gs, pcRank (f g).pc ≤ pcRank g.pc) →
    ∀ x ∈ gs, pcRank (f x).pc < pcRank x.pc → gsRank (gs.map f) < gsRank gs := by
  intro gs
  induction gs with
  | nil => intro _ x hx; cases hx
  | cons a l ih =>
    intro h x hx hlt
    have h1 := h a (by simp)
    have h2 := gsRank_map_le f l (fun g hg => h g (by simp [hg]))
    rcases List.mem_cons.1 hx with rfl | hx
    · simp only [gsRank, List.map_cons, List.sum_cons] at h2 ⊢
      omega
    · have h3 := ih (fun g hg => h g (by simp [hg])) x hx hlt
      simp only [gsRank, List.map_cons, List.sum_cons] at h3 ⊢
      omega

theorem gsRank_mapG (c : Core s) {g : G} (hg : g ∈ s.gs) {p : Pc} (h : pcRank p < pcRank g.pc) :
    gsRank (s.mapG g.gid (fun g => { g with pc := p })).gs < gsRank s.gs := by
  refine gsRank_map_lt _ _ (fun x hx => ?_) g hg (by simpa using h)
  split
  · rename_i hx'
    rw [c.gid_inj hx hg hx']; exact Nat.le_of_lt h
  · exact Nat.le_refl _

theorem gsRank_filter : ∀ {gs : List G} {g : G}, g ∈ gs → gsRank (gs.filter (fun x => x.gid != g.gid)) < gsRank gs := by
  have hle : ∀ (gs : List G) (p : G → Bool), gsRank (gs.filter p) ≤ gsRank gs := by
    intro gs p
    induction gs with
    | nil => exact Nat.le_refl _
    | cons a l ih =>
      rw [List.filter_cons]
      split <;> simp only [gsRank, List.map_cons, List.sum_cons] at ih ⊢ <;> omega
  intro gs
  induction gs with
  | nil => intro g hg; cases hg
  | cons a l ih =>
    intro g hg
    by_cases hag : a.gid = g.gid
    · rw [List.filter_cons, if_neg (by simp [hag])]
      have := hle l (fun x => x.gid != g.gid)
      have hp : 0 < pcRank a.pc := by cases a.pc <;> simp [pcRank]
      simp only [gsRank, List.map_cons, List.sum_cons] at this ⊢
      omega
    · rw [List.filter_cons, if_pos (by simp [hag])]
      rcases List.mem_cons.1 hg with rfl | hg
      · exact absurd rfl hag
      · have := ih hg
        simp only [gsRank, List.map_cons, List.sum_cons] at this ⊢
        omega

/-- The pcs of all goroutines and the loop's oneShot variable are the same. -/
def SameG (a b : State) : Prop := gsRank b.gs = gsRank a.gs ∧ b.oneShot = a.oneShot ∧ (a.dying = true → b.dying = true)

theorem SameG.refl (a : State) : SameG a a := ⟨rfl, rfl, id⟩
theorem SameG.trans {a b c : State} (h : SameG a b) (k : SameG b c) : SameG a c :=
  ⟨k.1.trans h.1, k.2.1.trans h.2.1, fun x => k.2.2 (h.2.2 x)⟩

theorem sameG_killNil (a : State) : SameG a a.killNil := ⟨rfl, rfl, fun _ => killNil_dying _⟩

theorem sameG_tick (a : State) : SameG a a.tick := by
  rcases tick_cases a with h | ⟨p, h⟩ | h <;> rw [h]
  · exact .refl a
  · exact ⟨rfl, rfl, id⟩
  · exact ⟨rfl, rfl, fun _ => killNil_dying _⟩

theorem sameG_killWorker (a : State) (w : WRef) : SameG a (a.killWorker w) := by
  refine ⟨by rw [killWorker_gs], by cases w <;> rfl, killWorker_dying_mono w⟩

theorem sameG_requestStop (a : State) (n : Name) : SameG a (requestStop a n) := by
  have hm : SameG a (markStopping a n) := by
    refine ⟨?_, ?_, by rw [markStopping_dying]; exact id⟩
    · unfold markStopping
      cases hc : (a.cur n).cancel with
      | none => simp [hc]
      | some g =>
        simp only [hc, setCur_gs, log_gs]
        unfold State.mapG gsRank
        simp only [List.map_map]
        congr 1
        refine List.map_congr_left (fun x _ => ?_)
        simp only [Function.comp]
        split <;> rfl
    · unfold markStopping
      cases hc : (a.cur n).cancel <;> simp [hc, State.log, State.mapG, State.setCur]
  rcases requestStop_cases a n with ⟨_, e⟩ | ⟨_, _, ⟨w, _, e⟩ | ⟨_, e⟩⟩ <;> rw [e]
  · exact .refl a
  · exact hm.trans (sameG_killWorker _ w)
  · exact hm

theorem sameG_dyingArm (a : State) (order : List Name) : gsRank (dyingArm a order).gs = gsRank a.gs ∧
    (dyingArm a order).oneShot = false ∧ (a.dying = true → (dyingArm a order).dying = true) := by
  have : ∀ (l : List Name) (b : State), SameG b (l.foldl requestStop b) := by
    intro l
    induction l with
    | nil => exact .refl
    | cons x l ih => intro b; exact (sameG_requestStop b x).trans (ih _)
  exact this order { a with oneShot := false }

theorem sameG_endArm (a : State) : gsRank (endArm a).gs = gsRank a.gs ∧ (endArm a).oneShot = a.oneShot := by
  unfold endArm
  simp only
  split
  · exact ⟨(sameG_tick a).1, (sameG_tick a).2.1⟩
  · exact ⟨(sameG_tick a).1, (sameG_tick a).2.1⟩

/-- While dying, requestStart starts nothing. -/
theorem sameG_requestStart_dying (a : State) (n : Name) (d : Int) (h : a.dying = true) :
    SameG a (requestStart a n d) := by
  have hk : ∀ (b : State) l, SameG b (b.killInternal l n) := fun b l =>
    ⟨rfl, rfl, fun hb => by
      show Tomb.dying (Tomb.kill _ _) = true
      exact Tomb.kill_dying_of_dying _ _ hb⟩
  have h1 : SameG a (if (a.manifolds.get? n).isNone then a.killInternal 384 n else a) := by
    split
    · exact hk _ _
    · exact .refl _
  unfold requestStart
  simp only
  generalize (if (a.manifolds.get? n).isNone then a.killInternal 384 n else a) = s1 at *
  have h2 : SameG s1 (if (s1.cur n).stopped then s1 else s1.killInternal 390 n) := by
    split
    · exact .refl _
    · exact hk _ _
  generalize (if (s1.cur n).stopped then s1 else s1.killInternal 390 n) = s2 at *
  have h3 := h1.trans (h2.trans (sameG_tick s2))
  rw [if_pos (h3.2.2 h)]
  exact h3

theorem sameG_gotInstall_dying (a : State) (n : Name) (m : Manifold) (order : List Name) (h : a.dying = true) :
    SameG a (gotInstall a n m order) := by
  unfold gotInstall
  split
  · exact ⟨rfl, rfl, id⟩
  · split
    · exact ⟨rfl, rfl, id⟩
    · exact SameG.trans (b := record a n m) ⟨rfl, rfl, id⟩ (sameG_requestStart_dying _ _ _ h)

theorem sameG_gotStarted_dying (a : State) (n : Name) (gid : Nat) (w : WRef) (now : Int) (h : a.dying = true) :
    SameG a (gotStarted cfg a n gid w now) := by
  unfold gotStarted
  simp only
  split
  · exact SameG.trans (b := a.killInternal 584 n) ⟨rfl, rfl, fun hb => Tomb.kill_dying_of_dying _ _ hb⟩
      (sameG_killWorker _ _)
  · split
    · exact sameG_killWorker _ _
    · rw [if_pos ((sameG_tick a).2.2 h)]
      exact (sameG_tick a).trans (sameG_killWorker _ _)

theorem sameG_gotStopped_dying (a : State) (n : Name) (gid : Nat) (raw : Option Err) (now : Int)
    (vals : Name → List Name) (h : a.dying = true) : SameG a (gotStopped cfg a n gid raw now vals) := by
  have h1 : ∀ b e, SameG b (noteFatal cfg b n e) := by
    intro b e
    unfold noteFatal
    split
    · exact ⟨rfl, rfl, fun hb => Tomb.kill_dying_of_dying _ _ hb⟩
    · split
      · exact ⟨rfl, rfl, fun _ => killNil_dying _⟩
      · exact .refl _
  unfold gotStopped
  simp only
  have h2 := h1 (a.log (.ended n gid now raw (applyFilter cfg (a.man n) raw) (a.cur n).stopping (a.cur n).worker))
    (applyFilter cfg (a.man n) raw)
  generalize noteFatal cfg (a.log (.ended n gid now raw (applyFilter cfg (a.man n) raw) (a.cur n).stopping
    (a.cur n).worker)) n (applyFilter cfg (a.man n) raw) = b at *
  have h3 : SameG a b := SameG.trans (b := a.log _) ⟨rfl, rfl, id⟩ h2
  have h4 : ∀ i, SameG a (resetInfo b n i).tick := fun i =>
    h3.trans (SameG.trans (b := resetInfo b n i) ⟨rfl, rfl, id⟩ (sameG_tick _))
  rw [if_pos ((h4 _).2.2 h)]
  exact h4 _

theorem remaining_eq (s : State) : remaining s = (if s.oneShot = true then 1 else 0) + gsRank s.gs := rfl

theorem remaining_mapG (c : Core s) {g : G} (hg : g ∈ s.gs) {p : Pc} (h : pcRank p < pcRank g.pc) {t : State}
    (h1 : t.gs = (s.mapG g.gid (fun g => { g with pc := p })).gs) (h2 : t.oneShot = s.oneShot) :
    remaining t < remaining s := by
  have := gsRank_mapG c hg h
  rw [remaining_eq, remaining_eq, h1, h2]
  omega

/-- C43, bounded: once the engine is dying, no step of the engine or of its environment increases the number of
internal steps left, and every internal step decreases it. -/
theorem C43_bounded_step (hr : Reach cfg s) (hd : .kill ∈ s.hist) {op : Op} (h : step cfg s op = some s') :
    remaining s' ≤ remaining s ∧ (internal op = true → remaining s' < remaining s) := by
  obtain ⟨c, i⟩ := reach_hinv hr
  have hdy : s.dying = true := i.dying.2 hd
  have strict : remaining s' < remaining s →
      remaining s' ≤ remaining s ∧ (internal op = true → remaining s' < remaining s) :=
    fun h => ⟨Nat.le_of_lt h, fun _ => h⟩
  have same : remaining s' = remaining s → internal op = false →
      remaining s' ≤ remaining s ∧ (internal op = true → remaining s' < remaining s) :=
    fun h h' => ⟨Nat.le_of_eq h, fun h'' => by rw [h'] at h''; cases h''⟩
  cases op with
  | kill =>
    simp only [step, Option.some.injEq] at h; subst h
    exact same rfl rfl
  | armDying order pend =>
    simp only [step] at h
    split at h
    case isFalse => cases h
    rename_i hc
    simp only [Option.some.injEq] at h; subst h
    apply strict
    obtain ⟨e1, e2⟩ := sameG_endArm (dyingArm { s with pend := pend } order)
    obtain ⟨d1, d2, _⟩ := sameG_dyingArm { s with pend := pend } order
    rw [remaining_eq, remaining_eq, e1, e2, d1, d2, hc.2.1]
    simp
  | armReport pend =>
    simp only [step] at h
    split at h
    case isFalse => cases h
    simp only [Option.some.injEq] at h; subst h
    refine same ?_ rfl
    obtain ⟨e1, e2⟩ := sameG_endArm (liveReport { s with pend := pend })
    have hl : SameG s (liveReport { s with pend := pend }) := by
      refine SameG.trans (b := ({ s with pend := pend } : State).tick) (SameG.trans (b := { s with pend := pend })
        ⟨rfl, rfl, id⟩ (sameG_tick _)) ?_
      unfold liveReport
      simp only
      split <;> exact ⟨rfl, rfl, id⟩
    rw [remaining_eq, remaining_eq, e1, e2, hl.1, hl.2.1]
  | armInstall n m order pend =>
    simp only [step] at h
    split at h
    case isFalse => cases h
    simp only [Option.some.injEq] at h; subst h
    refine same ?_ rfl
    obtain ⟨e1, e2⟩ := sameG_endArm (gotInstall { s with pend := pend } n m order)
    have hl := sameG_gotInstall_dying { s with pend := pend } n m order hdy
    rw [remaining_eq, remaining_eq, e1, e2, hl.1, hl.2.1]
  | installRefused n =>
    simp only [step] at h
    rw [if_pos hdy] at h
    simp only [Option.some.injEq] at h; subst h
    exact same rfl rfl
  | armStarted gid now pend =>
    simp only [step] at h
    split at h
    · cases h
    split at h
    · cases h
    rename_i g hgg
    obtain ⟨hg, rfl⟩ := getG_some _ _ hgg
    split at h
    case h_2 => cases h
    rename_i w hpc
    simp only [Option.some.injEq] at h; subst h
    apply strict
    obtain ⟨e1, e2⟩ := sameG_endArm (gotStarted cfg
      { s.mapG g.gid (fun g => { g with pc := afterOffer w }) with pend := pend } g.name g.gid w now)
    have hl := sameG_gotStarted_dying (cfg := cfg)
      { s.mapG g.gid (fun g => { g with pc := afterOffer w }) with pend := pend } g.name g.gid w now hdy
    have hlt : gsRank (s.mapG g.gid (fun g => { g with pc := afterOffer w })).gs < gsRank s.gs :=
      gsRank_mapG c hg (by rw [hpc]; cases w <;> simp [pcRank, afterOffer])
    rw [remaining_eq, remaining_eq, e1, e2, hl.1, hl.2.1]
    exact Nat.add_lt_add_left hlt _
  | armStopped gid now vals pend =>
    simp only [step] at h
    split at h
    · cases h
    split at h
    · cases h
    rename_i g hgg
    obtain ⟨hg, rfl⟩ := getG_some _ _ hgg
    split at h
    case h_2 => cases h
    rename_i e hpc
    simp only [Option.some.injEq] at h; subst h
    apply strict
    obtain ⟨e1, e2⟩ := sameG_endArm (gotStopped cfg
      { s with gs := s.gs.filter (fun x => x.gid != g.gid), pend := pend } g.name g.gid e now vals)
    have hl := sameG_gotStopped_dying (cfg := cfg)
      { s with gs := s.gs.filter (fun x => x.gid != g.gid), pend := pend } g.name g.gid e now vals hdy
    have hlt := gsRank_filter hg
    rw [remaining_eq, remaining_eq, e1, e2, hl.1, hl.2.1]
    exact Nat.add_lt_add_left hlt _
  | gAbort gid =>
    simp only [step] at h
    split at h
    case h_2 => cases h
    rename_i g hgg
    obtain ⟨hg, rfl⟩ := getG_some _ _ hgg
    split at h
    case isFalse => cases h
    rename_i hc
    simp only [Option.some.injEq] at h; subst h
    exact strict (remaining_mapG c hg (by rw [hc.1]; simp [pcRank]) rfl rfl)
  | gTimer gid fuzz =>
    simp only [step] at h
    split at h
    case h_2 => cases h
    rename_i g hgg
    obtain ⟨hg, rfl⟩ := getG_some _ _ hgg
    split at h
    case isFalse => cases h
    rename_i hc
    simp only [Option.some.injEq] at h; subst h
    exact strict (remaining_mapG c hg (by rw [hc.1]; simp [pcRank]) rfl rfl)
  | gGet gid res out =>
    simp only [step] at h
    split at h
    case h_2 => cases h
    split at h
    · cases h
    simp only [Option.some.injEq] at h; subst h
    exact same rfl rfl
  | gStartOk gid w =>
    simp only [step] at h
    split at h
    case h_2 => cases h
    rename_i g hgg
    obtain ⟨hg, rfl⟩ := getG_some _ _ hgg
    split at h
    case isFalse => cases h
    rename_i hc
    simp only [Option.some.injEq] at h; subst h
    exact strict (remaining_mapG c hg (by rw [hc]; simp [pcRank]) rfl rfl)
  | gStartErr gid e =>
    simp only [step] at h
    split at h
    case h_2 => cases h
    rename_i g hgg
    obtain ⟨hg, rfl⟩ := getG_some _ _ hgg
    split at h
    case isFalse => cases h
    rename_i hc
    simp only [Option.some.injEq] at h; subst h
    exact strict (remaining_mapG c hg (by rw [hc]; simp [pcRank]) rfl rfl)
  | gRegisterDying gid =>
    simp only [step] at h
    split at h
    case h_2 => cases h
    rename_i g hgg
    obtain ⟨hg, rfl⟩ := getG_some _ _ hgg
    split at h
    case h_2 => cases h
    rename_i w hpc
    rw [if_pos hdy] at h
    simp only [Option.some.injEq] at h; subst h
    refine strict (remaining_mapG c hg (p := afterOffer w) (by rw [hpc]; cases w <;> simp [pcRank, afterOffer]) ?_ ?_)
    · rw [killWorker_gs]
    · cases w <;> rfl
  | gSelfDone gid =>
    simp only [step] at h
    split at h
    case h_2 => cases h
    rename_i g hgg
    obtain ⟨hg, rfl⟩ := getG_some _ _ hgg
    split at h
    case isFalse => cases h
    rename_i hc
    simp only [Option.some.injEq] at h; subst h
    exact strict (remaining_mapG c hg (by rw [hc.1]; simp [pcRank]) rfl rfl)
  | gWaitRet gid =>
    simp only [step] at h
    split at h
    case h_2 => cases h
    rename_i g hgg
    obtain ⟨hg, rfl⟩ := getG_some _ _ hgg
    split at h
    case h_2 => cases h
    rename_i w hpc
    split at h
    case h_2 => cases h
    simp only [Option.some.injEq] at h; subst h
    exact strict (remaining_mapG c hg (by rw [hpc]; simp [pcRank]) rfl rfl)
  | finish w e =>
    simp only [step] at h
    split at h
    case isFalse => cases h
    simp only [Option.some.injEq] at h; subst h
    exact same rfl rfl

/-- C43, bounded: whatever the schedule and whatever the clients do, a dying engine takes at most `remaining s`
more internal steps. -/
theorem C43_bounded (ops : List Op) : ∀ {s : State}, Reach cfg s → .kill ∈ s.hist →
    ∀ {s' : State}, Demo.run cfg s ops = some s' → (ops.filter internal).length ≤ remaining s := by
  induction ops with
  | nil => intro s _ _ s' _; exact Nat.zero_le _
  | cons op ops ih =>
    intro s hr hk s' h
    simp only [Demo.run] at h
    split at h
    case h_2 => cases h
    rename_i s1 h1
    obtain ⟨hle, hlt⟩ := C43_bounded_step hr hk h1
    have hk1 : .kill ∈ s1.hist := by
      obtain ⟨d, hd⟩ := chain_hist (step_chain (reach_hinv hr).1 h1) (reach_hinv hr).1
      rw [hd]; exact List.mem_append_right _ hk
    have := ih (hr.step op h1) hk1 h
    rw [List.filter_cons]
    split
    · rename_i hi
      have := hlt hi
      simp only [List.length_cons]
      omega
    · omega

-- a dying engine with two workers to stop has at most four steps left
example : Reach Demo.cfg (Demo.after Demo.cfg Demo.opsKilled) ∧ .kill ∈ (Demo.after Demo.cfg Demo.opsKilled).hist ∧
    remaining (Demo.after Demo.cfg Demo.opsKilled) = 4 :=
  ⟨Demo.after_reach _ _, by decide +kernel, by decide +kernel⟩

/-- A loop that has handled dying and is still running has some worker to wait for. -/
def Unfinished (s : State) : Prop := s.tomb.dead = false → s.oneShot = false →
  ∃ n, (s.cur n).stopped = false ∧ (s.cur n).worker ≠ some .self

theorem unfinished_endArm {x : State} (o : s' = endArm x) (oi : OInv s') (i : HInv cfg s') : Unfinished s' := by
  intro hdead hos
  have hdy := (oi hos).1
  have hcur : ∀ n, s'.cur n = x.tick.cur n := by
    intro n; rw [o]; unfold State.cur; rw [(endArm_facts x).2.1, tick_current]
  subst o
  have hx : Ev.exit ∉ (endArm x).hist := fun h => by rw [i.dead.2 h] at hdead; cases hdead
  unfold endArm at hx hdy
  simp only at hx hdy
  split at hx
  · exact absurd List.mem_cons_self hx
  · rename_i hc
    rw [if_neg hc] at hdy
    have hna : allOthersStopped { x.tick with pend := none } = false := by
      refine Bool.eq_false_iff.2 (fun h => hc ?_)
      rw [Bool.and_eq_true]
      exact ⟨hdy, h⟩
    unfold allOthersStopped at hna
    rw [List.all_eq_false] at hna
    obtain ⟨n, _, hn⟩ := hna
    refine ⟨n, ?_, ?_⟩
    · rw [hcur]
      have : ¬ (x.tick.cur n).stopped = true := fun h => hn (by rw [Bool.or_eq_true]; exact Or.inl h)
      simpa using this
    · rw [hcur]
      intro h
      apply hn
      rw [Bool.or_eq_true]; right
      show ((x.tick.cur n).worker == some .self) = true
      rw [h]; rfl

theorem reach_unfinished (hr : Reach cfg s) : Unfinished s := by
  induction hr with
  | init => intro _ h; cases h
  | step op hr h ih =>
    rename_i s0 s1
    have oi := reach_oinv (hr.step op h)
    have i' := (reach_hinv (hr.step op h)).2
    have keep : s1.current = s0.current → s1.tomb.dead = s0.tomb.dead → s1.oneShot = s0.oneShot →
        Unfinished s1 := by
      intro h1 h2 h3
      unfold Unfinished State.cur
      rw [h1, h2, h3]; exact ih
    cases op with
    | kill => simp only [step, Option.some.injEq] at h; subst h; exact keep rfl (Tomb.kill_dead _ _) rfl
    | armDying order pend =>
      simp only [step] at h
      split at h
      · exact unfinished_endArm (Option.some.inj h).symm oi i'
      · cases h
    | armReport pend =>
      simp only [step] at h
      split at h
      · exact unfinished_endArm (Option.some.inj h).symm oi i'
      · cases h
    | armInstall n m order pend =>
      simp only [step] at h
      split at h
      · exact unfinished_endArm (Option.some.inj h).symm oi i'
      · cases h
    | installRefused n =>
      simp only [step] at h
      split at h
      · obtain rfl := Option.some.inj h; exact keep rfl rfl rfl
      · cases h
    | armStarted gid now pend =>
      simp only [step] at h
      split at h
      · cases h
      split at h
      · cases h
      split at h
      · exact unfinished_endArm (Option.some.inj h).symm oi i'
      · cases h
    | armStopped gid now vals pend =>
      simp only [step] at h
      split at h
      · cases h
      split at h
      · cases h
      split at h
      · exact unfinished_endArm (Option.some.inj h).symm oi i'
      · cases h
    | gAbort gid =>
      simp only [step] at h
      split at h
      · split at h
        · obtain rfl := Option.some.inj h; exact keep rfl rfl rfl
        · cases h
      · cases h
    | gTimer gid fuzz =>
      simp only [step] at h
      split at h
      · split at h
        · obtain rfl := Option.some.inj h; exact keep rfl rfl rfl
        · cases h
      · cases h
    | gGet gid res out =>
      simp only [step] at h
      split at h
      · split at h
        · cases h
        · obtain rfl := Option.some.inj h; exact keep rfl rfl rfl
      · cases h
    | gStartOk gid w =>
      simp only [step] at h
      split at h
      · split at h
        · obtain rfl := Option.some.inj h; exact keep rfl rfl rfl
        · cases h
      · cases h
    | gStartErr gid e =>
      simp only [step] at h
      split at h
      · split at h
        · obtain rfl := Option.some.inj h; exact keep rfl rfl rfl
        · cases h
      · cases h
    | gRegisterDying gid =>
      simp only [step] at h
      split at h
      · split at h
        · split at h
          · rename_i w _ _
            obtain rfl := Option.some.inj h
            exact keep (by rw [killWorker_current]; rfl) (by rw [killWorker_dead]; rfl) (by cases w <;> rfl)
          · cases h
        · cases h
      · cases h
    | gSelfDone gid =>
      simp only [step] at h
      split at h
      · split at h
        · obtain rfl := Option.some.inj h; exact keep rfl rfl rfl
        · cases h
      · cases h
    | gWaitRet gid =>
      simp only [step] at h
      split at h
      · split at h
        · split at h
          · obtain rfl := Option.some.inj h; exact keep rfl rfl rfl
          · cases h
        · cases h
      · cases h
    | finish w e =>
      simp only [step] at h
      split at h
      · obtain rfl := Option.some.inj h; exact keep rfl rfl rfl
      · cases h

/-- Values of the dependents' sets can always be chosen. -/
theorem exists_validVals (deps : AMap (List Name)) (n : Name) : ∃ vals, validVals deps n vals = true := by
  refine ⟨fun d => (((deps.get? d).getD []).filter (fun x => x != n)).dedup, ?_⟩
  unfold validVals
  rw [List.all_eq_true]
  intro p _
  simp only [Bool.and_eq_true, List.all_eq_true, decide_eq_true_eq, bne_iff_ne, Bool.or_eq_true,
      beq_iff_eq, List.contains_iff_mem, List.mem_dedup, List.mem_filter]
  refine ⟨⟨List.nodup_dedup _, fun x hx => hx⟩, fun x hx => ?_⟩
  by_cases h : x = n
  · exact Or.inl h
  · exact Or.inr ⟨hx, h⟩

/-- What a dying engine may have to wait for: a Start func that has not returned (and whose context has been
cancelled), or a worker which has been Kill()ed but has not finished. -/
def UserCode (s : State) : Prop :=
  (∃ n g, openH s.hist n = some g ∧ phaseH s.hist n = .inStart ∧ .cancelled g ∈ s.hist) ∨
  (∃ n g k, openH s.hist n = some g ∧ phaseH s.hist n = .ok (.obj k) ∧ killedH s.hist n = true ∧ ∀ e, .finished k e ∉ s.hist)

/-- C43, progress: a dying engine that has not exited can take a step of its own, and need not wait for a delay to do so,
or is waiting for user code that has been told to stop. -/
theorem C43_progress (hr : Reach cfg s) (hk : .kill ∈ s.hist) (hx : .exit ∉ s.hist) :
    (∃ op s', prompt op = true ∧ step cfg s op = some s') ∨ UserCode s := by
  obtain ⟨c, i⟩ := reach_hinv hr
  have hdy : s.dying = true := i.dying.2 hk
  have hdead : s.tomb.dead = false := by
    cases h : s.tomb.dead with
    | false => rfl
    | true => exact absurd (i.dead.1 h) hx
  cases hos : s.oneShot with
  | true =>
    left
    have : isRangeOrder s.current s.current.keys = true := by
      rw [isRangeOrder_iff]; exact ⟨(reach_binv hr).1, fun _ => Iff.rfl⟩
    exact ⟨.armDying s.current.keys none, _, rfl, by simp only [step]; rw [if_pos ⟨hdead, hos, hdy, this⟩]⟩
  | false =>
    obtain ⟨n, hn, hw⟩ := reach_unfinished hr hdead hos
    obtain ⟨g, hg, rfl⟩ := c.live n hn
    have hgg := c.getG_eq hg
    have hst : (s.cur g.name).stopping = true := by
      rcases (reach_oinv hr hos).2 g.name with h | h
      · rw [hn] at h; cases h
      · exact h
    have hcan : g.cancelled = true := by rw [(c.rel g hg).cancelled]; exact hst
    have hpc := i.pc g hg
    cases hp : g.pc with
    | delaying =>
      left; exact ⟨.gAbort g.gid, _, rfl, by simp only [step, hgg]; rw [if_pos ⟨hp, Or.inl hdy⟩]⟩
    | starting =>
      right; left
      refine ⟨g.name, g.gid, i.openG g hg, ?_, (i.canc g hg).1 hcan⟩
      unfold PcOk at hpc; rw [hp] at hpc; exact hpc
    | registering w =>
      left; exact ⟨.gRegisterDying g.gid, _, rfl, by simp only [step, hgg, hp]; rw [if_pos hdy]⟩
    | selfWait =>
      left; exact ⟨.gSelfDone g.gid, _, rfl, by simp only [step, hgg]; rw [if_pos ⟨hp, hdy⟩]⟩
    | waiting k =>
      cases hf : s.finished.get? k with
      | some e => left; exact ⟨.gWaitRet g.gid, _, rfl, by simp only [step, hgg, hp, hf]; rfl⟩
      | none =>
        right; right
        have hph : phaseH s.hist g.name = .ok (.obj k) := by
          unfold PcOk at hpc; rw [hp] at hpc; exact hpc
        refine ⟨g.name, g.gid, k, i.openG g hg, hph, ?_, ?_⟩
        · rcases reach_kinv hr g hg _ hph with h | h | ⟨_, h⟩
          · exact h
          · rw [hp] at h; cases h
          · rw [hcan] at h; cases h
        · intro e he
          rw [(i.fin k e).2 he] at hf; cases hf
    | sendStopped e =>
      left
      obtain ⟨vals, hv⟩ := exists_validVals s.dependents g.name
      have hcond : ¬ (s.tomb.dead = true ∨ validVals s.dependents g.name vals = false) := by
        rw [hdead, hv]; simp
      exact ⟨.armStopped g.gid 0 vals none, _, rfl, by
        simp only [step, hgg, hp, Option.map_some, Option.getD_some]; rw [if_neg hcond]⟩

-- waiting for user code only
example : Reach Demo.cfg (Demo.after Demo.cfg Demo.opsKilled) ∧ .kill ∈ (Demo.after Demo.cfg Demo.opsKilled).hist ∧
    .exit ∉ (Demo.after Demo.cfg Demo.opsKilled).hist ∧ UserCode (Demo.after Demo.cfg Demo.opsKilled) :=
  ⟨Demo.after_reach _ _, by decide +kernel, by decide +kernel,
    Or.inr ⟨1, 2, 11, by decide +kernel, by decide +kernel, by decide +kernel, fun e he => by
      have : Demo.has (Demo.after Demo.cfg Demo.opsKilled) (fun e => match e with
        | .finished 11 _ => true
        | _ => false) = false := by decide +kernel
      have := List.any_eq_false.1 this _ he
      simp at this⟩⟩

/-- C43: a dying engine which can take no step of its own, but perhaps at the end of a delay, and for which no user code
is outstanding has exited. -/
theorem C43_exits (hr : Reach cfg s) (hk : .kill ∈ s.hist) (hu : ¬ UserCode s)
    (hn : ∀ op, prompt op = true → step cfg s op = none) : .exit ∈ s.hist := by
  by_cases hx : Ev.exit ∈ s.hist
  · exact hx
  · rcases C43_progress hr hk hx with ⟨op, s', h1, h2⟩ | h
    · rw [hn op h1] at h2; cases h2
    · exact absurd h hu

theorem internal_of_own {op : Op} (h : own op = true) : internal op = true := by
  cases op <;> first | exact h | cases h

theorem own_of_prompt {op : Op} (h : prompt op = true) : own op = true := by
  cases op <;> first | exact h | cases h

/-- C75: an attempt that has been told to stop, or whose engine has been killed, need not wait for the end of its delay: if
nothing can happen any more without user code or the end of a delay, then no attempt that is still delayed has been told to
stop, and the engine has not been killed. -/
theorem C75_stop_beats_delay (hr : Reach cfg s) (hn : ∀ op, prompt op = true → step cfg s op = none) {n : Name} {g : Nat}
    (ho : openH s.hist n = some g) (hp : phaseH s.hist n = .delayed) : .cancelled g ∉ s.hist ∧ .kill ∉ s.hist := by
  obtain ⟨c, i⟩ := reach_hinv hr
  obtain ⟨G, hG, rfl, rfl⟩ := i.openN n g ho
  have hgg := c.getG_eq hG
  have hpc := i.pc G hG
  have hd : s.tomb.dead = false := by
    cases h : s.tomb.dead with
    | false => rfl
    | true =>
      have := dead_self c i (reach_wphase hr) h hG
      rw [hp] at this; cases this
  have hpc' : G.pc = .delaying ∨ ∃ e, G.pc = .sendStopped e := by
    unfold PcOk at hpc
    split at hpc
    · rename_i h; exact Or.inl h
    · rw [hp] at hpc; cases hpc
    · rw [hp] at hpc; cases hpc
    · rw [hp] at hpc; cases hpc
    · rw [hp] at hpc; cases hpc
    · rename_i e h; exact Or.inr ⟨e, h⟩
  rcases hpc' with h | ⟨e, h⟩
  · have := hn (.gAbort G.gid) rfl
    simp only [step, hgg] at this
    split at this
    · cases this
    · rename_i hno
      have hno : ¬ (s.dying = true ∨ G.cancelled = true) := fun k => hno ⟨h, k⟩
      exact ⟨fun k => hno (Or.inr ((i.canc G hG).2 k)), fun k => hno (Or.inl (i.dying.2 k))⟩
  · exfalso
    obtain ⟨vals, hv⟩ := exists_validVals s.dependents G.name
    have := hn (.armStopped G.gid 0 vals none) rfl
    simp only [step, hgg, h, Option.map_some, Option.getD_some] at this
    rw [if_neg (by rw [hd, hv]; simp)] at this
    cases this

/-- A test for states in which nothing can happen without user code or the end of a delay. -/
def quietB (s : State) : Bool := (s.tomb.dead || !s.oneShot || !s.dying) && s.gs.all (fun g => match g.pc with
  | .delaying => !s.dying && !g.cancelled
  | .starting => true
  | .waiting w => (s.finished.get? w).isNone
  | .selfWait => !s.dying
  | .registering _ | .sendStopped _ => false)

theorem quiet_of_quietB (h : quietB s = true) : ∀ op, prompt op = true → step cfg s op = none := by
  unfold quietB at h
  rw [Bool.and_eq_true, List.all_eq_true] at h
  obtain ⟨h1, h2⟩ := h
  have hg : ∀ {gid g}, s.getG gid = some g → _ := fun hg => h2 _ (getG_some _ _ hg).1
  intro op ho
  cases op with
  | armDying order pend =>
    simp only [step]
    rw [if_neg]
    rintro ⟨a, b, c, _⟩
    rw [a, b, c] at h1; cases h1
  | armStarted gid now pend =>
    simp only [step]
    split
    · rfl
    · split
      · rfl
      · rename_i hgg
        have := hg hgg
        split
        · rename_i hp; rw [hp] at this; cases this
        · rfl
  | armStopped gid now vals pend =>
    simp only [step]
    split
    · rfl
    · split
      · rfl
      · rename_i hgg
        have := hg hgg
        split
        · rename_i hp; rw [hp] at this; cases this
        · rfl
  | gAbort gid =>
    simp only [step]
    split
    · rename_i hgg
      have := hg hgg
      rw [if_neg]
      rintro ⟨hp, hc⟩
      rw [hp] at this
      rcases hc with hc | hc <;> simp [hc] at this
    · rfl
  | gRegisterDying gid =>
    simp only [step]
    split
    · rename_i hgg
      have := hg hgg
      split
      · rename_i hp; rw [hp] at this; cases this
      · rfl
    · rfl
  | gSelfDone gid =>
    simp only [step]
    split
    · rename_i hgg
      have := hg hgg
      rw [if_neg]
      rintro ⟨hp, hc⟩
      rw [hp] at this
      simp [hc] at this
    · rfl
  | gWaitRet gid =>
    simp only [step]
    split
    · rename_i hgg
      have := hg hgg
      split
      · rename_i hp
        rw [hp] at this
        split
        · rename_i hf; simp [hf] at this
        · rfl
      · rfl
    · rfl
  | _ => cases ho

-- 0 has failed and waits for its ErrorDelay, 1 has been told to stop but its worker has not finished
example : Reach Demo.cfg (Demo.after Demo.cfg (Demo.opsUp ++ [.finish 10 (some (.user 1)), .gWaitRet 0,
      .armStopped 0 100 Demo.vals01 none])) ∧
    (∀ op, prompt op = true → step Demo.cfg (Demo.after Demo.cfg (Demo.opsUp ++ [.finish 10 (some (.user 1)), .gWaitRet 0,
      .armStopped 0 100 Demo.vals01 none])) op = none) ∧
    openH (Demo.after Demo.cfg (Demo.opsUp ++ [.finish 10 (some (.user 1)), .gWaitRet 0,
      .armStopped 0 100 Demo.vals01 none])).hist 0 = some 3 ∧
    phaseH (Demo.after Demo.cfg (Demo.opsUp ++ [.finish 10 (some (.user 1)), .gWaitRet 0,
      .armStopped 0 100 Demo.vals01 none])).hist 0 = .delayed :=
  ⟨Demo.after_reach _ _, quiet_of_quietB (by decide +kernel), by decide +kernel, by decide +kernel⟩

theorem run_append {cfg : Config} : ∀ (a b : List Op) (s : State), Demo.run cfg s (a ++ b) =
    (Demo.run cfg s a).bind (fun s => Demo.run cfg s b) := by
  intro a
  induction a with
  | nil => intro b s; rfl
  | cons op a ih =>
    intro b s
    simp only [List.cons_append, Demo.run]
    cases step cfg s op with
    | none => rfl
    | some s1 => exact ih b s1

/-- The operations by which a dying engine exits: its own but for ends of delays, Start funcs returning and Kill()ed workers
finishing. -/
def Shutdown (op : Op) : Prop := (internal op = true ∧ ∀ g f, op ≠ .gTimer g f) ∨ ∃ k e, op = .finish k e

/-- C43: from every reachable dying state the engine's own steps, with Start funcs returning and workers finishing,
lead to its exit. (With `C43_bounded`, which bounds the length of every such execution, and `C43_exits`, which says
where it can end, every such execution that is continued as long as possible ends with the exit.) -/
theorem C43_can_exit (hr : Reach cfg s) (hk : .kill ∈ s.hist) :
    ∃ ops s', (∀ op ∈ ops, Shutdown op) ∧ Demo.run cfg s ops = some s' ∧ .exit ∈ s'.hist := by
  generalize hN : remaining s = N
  induction N using Nat.strongRecOn generalizing s with
  | _ N ih =>
    by_cases hx : Ev.exit ∈ s.hist
    · exact ⟨[], s, by simp, rfl, hx⟩
    have kill_mono : ∀ {s s' : State} {op : Op}, Reach cfg s → .kill ∈ s.hist → step cfg s op = some s' →
        .kill ∈ s'.hist := by
      intro s s' op hr hk h
      obtain ⟨d, hd⟩ := chain_hist (step_chain (reach_hinv hr).1 h) (reach_hinv hr).1
      rw [hd]; exact List.mem_append_right _ hk
    have go : ∀ {op s1}, internal op = true → (∀ g f, op ≠ .gTimer g f) → step cfg s op = some s1 →
        ∃ ops s', (∀ op ∈ ops, Shutdown op) ∧ Demo.run cfg s ops = some s' ∧ .exit ∈ s'.hist := by
      intro op s1 hi hnt h1
      have hlt := (C43_bounded_step hr hk h1).2 hi
      obtain ⟨ops, s2, ho, hrun, hex⟩ := ih (remaining s1) (by omega) (hr.step op h1) (kill_mono hr hk h1) rfl
      refine ⟨op :: ops, s2, ?_, by simp only [Demo.run, h1]; exact hrun, hex⟩
      intro o ho'
      rcases List.mem_cons.1 ho' with rfl | ho'
      · exact Or.inl ⟨hi, hnt⟩
      · exact ho o ho'
    obtain ⟨c, i⟩ := reach_hinv hr
    have hdy : s.dying = true := i.dying.2 hk
    rcases C43_progress hr hk hx with ⟨op, s1, hi, h1⟩ | ⟨n, gid, ho, hp, _⟩ | ⟨n, gid, k, ho, hp, _, hf⟩
    · exact go (internal_of_own (own_of_prompt hi)) (fun g f h => by rw [h] at hi; cases hi) h1
    · obtain ⟨g, hg, rfl, rfl⟩ := i.openN n gid ho
      have hpc := i.pc g hg
      have : g.pc = .starting := by
        unfold PcOk at hpc
        split at hpc <;> simp_all
      exact go (op := .gStartErr g.gid (.user 0)) rfl (by simp) (by
        simp only [step, c.getG_eq hg]; rw [if_pos this])
    · obtain ⟨g, hg, rfl, rfl⟩ := i.openN n gid ho
      have hpc := i.pc g hg
      have hgg := c.getG_eq hg
      have : g.pc = .registering (.obj k) ∨ g.pc = .waiting k := by
        unfold PcOk at hpc
        split at hpc
        · rw [hp] at hpc; cases hpc
        · rw [hp] at hpc; cases hpc
        · rename_i w hw; rw [hp] at hpc; cases hpc; exact Or.inl hw
        · rw [hp] at hpc; cases hpc
        · rename_i w hw; rw [hp] at hpc; cases hpc; exact Or.inr hw
        · rename_i e hw
          rcases hpc with ⟨h, _⟩ | ⟨_, h, _⟩ | ⟨k', h, h'⟩ | ⟨h, _⟩
          · rw [hp] at h; cases h
          · rw [hp] at h; cases h
          · rw [hp] at h; cases h; exact absurd h' (hf _)
          · rw [hp] at h; cases h
      rcases this with hpc | hpc
      · exact go (op := .gRegisterDying g.gid) rfl (by simp) (by
          simp only [step, hgg, hpc]; rw [if_pos hdy])
      · have hfn : s.finished.get? k = none := by
          cases h : s.finished.get? k with
          | none => rfl
          | some e => exact absurd ((i.fin k e).1 h) (hf e)
        obtain ⟨s1, h1⟩ : ∃ s1, step cfg s (.finish k none) = some s1 := by
          simp only [step]; rw [if_pos (by rw [hfn]; rfl)]; exact ⟨_, rfl⟩
        have h1' := h1
        simp only [step] at h1'
        rw [if_pos (by rw [hfn]; rfl)] at h1'
        obtain ⟨s2, h2⟩ : ∃ s2, step cfg s1 (.gWaitRet g.gid) = some s2 := by
          have hg1 : s1.getG g.gid = some g := by rw [← Option.some.inj h1']; exact hgg
          have hf1 : s1.finished.get? k = some none := by
            rw [← Option.some.inj h1']
            show (s.finished.set k none).get? k = _
            simp
          simp only [step, hg1, hpc, hf1]; exact ⟨_, rfl⟩
        have hr1 := hr.step _ h1
        have hk1 := kill_mono hr hk h1
        have hle := (C43_bounded_step hr hk h1).1
        have hlt := (C43_bounded_step hr1 hk1 h2).2 rfl
        obtain ⟨ops, s3, ho, hrun, hex⟩ := ih (remaining s2) (by omega) (hr1.step _ h2) (kill_mono hr1 hk1 h2) rfl
        refine ⟨.finish k none :: .gWaitRet g.gid :: ops, s3, ?_, by simp only [Demo.run, h1, h2]; exact hrun, hex⟩
        intro o ho'
        rcases List.mem_cons.1 ho' with rfl | ho'
        · exact Or.inr ⟨k, none, rfl⟩
        rcases List.mem_cons.1 ho' with rfl | ho'
        · exact Or.inl ⟨rfl, by simp⟩
        · exact ho o ho'

/-! ## C48: what is left behind -/

theorem startOk_of_phase {h : List Ev} {n : Name} {w : WRef} (hp : phaseH h n = .ok w) :
    ∃ g, .startOk n g w ∈ h := by
  induction h with
  | nil => cases hp
  | cons e h ih =>
    have rest : phaseH h n = .ok w → ∃ g, .startOk n g w ∈ e :: h := fun hp =>
      let ⟨g, hg⟩ := ih hp
      ⟨g, List.mem_cons_of_mem _ hg⟩
    cases e with
    | startOk m g w' =>
      simp only [phaseH] at hp
      split at hp
      · rename_i hn; cases hp; exact ⟨g, by rw [hn]; simp⟩
      · exact rest hp
    | _ =>
      first
      | exact rest hp
      | (simp only [phaseH] at hp
         split at hp
         · cases hp
         · exact rest hp)

/-- C48, positive part: if no Start func returned the engine itself (as SelfManifold's does), then nothing of the
engine is left when its loop has returned: no attempt is open and no goroutine is running. -/
theorem C48_nothing_left (hr : Reach cfg s) (hx : .exit ∈ s.hist) (hs : ∀ n g, .startOk n g .self ∉ s.hist) :
    s.gs = [] ∧ ∀ n, openH s.hist n = none := by
  obtain ⟨c, i⟩ := reach_hinv hr
  have hgs : s.gs = [] := by
    cases h : s.gs with
    | nil => rfl
    | cons g l =>
      exfalso
      have hg : g ∈ s.gs := by rw [h]; simp
      rcases (c.dead (i.dead.2 hx)).2 g.name with h' | h'
      · rw [(c.rel g hg).notStopped] at h'; cases h'
      · rw [i.worker] at h'
        obtain ⟨gid, hm⟩ := startOk_of_phase (reach_wphase hr _ _ h')
        exact hs _ _ hm
  refine ⟨hgs, fun n => ?_⟩
  cases ho : openH s.hist n with
  | none => rfl
  | some gid =>
    obtain ⟨g, hg, _⟩ := i.openN n gid ho
    rw [hgs] at hg; cases hg

example : Reach Demo.cfg (Demo.after Demo.cfg Demo.opsDown) ∧ .exit ∈ (Demo.after Demo.cfg Demo.opsDown).hist ∧
    Demo.has (Demo.after Demo.cfg Demo.opsDown) (fun e => match e with
      | .startOk _ _ .self => true
      | _ => false) = false :=
  ⟨Demo.after_reach _ _, by decide +kernel, by decide +kernel⟩

/-- A goroutine sending its stop ticket to an engine whose loop has returned stays there forever. -/
theorem stuck_forever {g : G} {e : Option Err} (ops : List Op) : ∀ {s s' : State}, Reach cfg s → .exit ∈ s.hist →
    g ∈ s.gs → g.pc = .sendStopped e → Demo.run cfg s ops = some s' → g ∈ s'.gs := by
  induction ops with
  | nil =>
    intro s s' _ _ hg _ h
    simp only [Demo.run, Option.some.injEq] at h; exact h ▸ hg
  | cons op ops ih =>
    intro s s' hr hx hg hp h
    simp only [Demo.run] at h
    split at h
    case h_2 => cases h
    rename_i s1 h1
    obtain ⟨c, i⟩ := reach_hinv hr
    have hdead := i.dead.2 hx
    refine ih (hr.step op h1) ?_ ?_ hp h
    · obtain ⟨d, hd⟩ := chain_hist (step_chain c h1) c
      rw [hd]; exact List.mem_append_right _ hx
    have map : ∀ (g0 : G) (p : Pc), g0 ∈ s.gs → g0.pc ≠ g.pc →
        g ∈ (s.mapG g0.gid (fun g => { g with pc := p })).gs := by
      intro g0 p hg0 hne
      rw [mem_mapG]
      refine ⟨g, hg, ?_⟩
      rw [if_neg]
      intro hh
      exact hne (by rw [c.gid_inj hg hg0 hh])
    cases op with
    | kill => simp only [step, Option.some.injEq] at h1; subst h1; exact hg
    | armDying order pend => simp [step, hdead] at h1
    | armReport pend => simp [step, hdead] at h1
    | armInstall n m order pend => simp [step, hdead] at h1
    | armStarted gid now pend => simp [step, hdead] at h1
    | armStopped gid now vals pend => simp [step, hdead] at h1
    | installRefused n =>
      simp only [step] at h1
      split at h1
      · obtain rfl := Option.some.inj h1; exact hg
      · cases h1
    | gAbort gid =>
      simp only [step] at h1
      split at h1
      · rename_i g0 hgg
        obtain ⟨hg0, rfl⟩ := getG_some _ _ hgg
        split at h1
        · rename_i hc
          obtain rfl := Option.some.inj h1
          exact map g0 _ hg0 (by rw [hc.1, hp]; nofun)
        · cases h1
      · cases h1
    | gTimer gid fuzz =>
      simp only [step] at h1
      split at h1
      · rename_i g0 hgg
        obtain ⟨hg0, rfl⟩ := getG_some _ _ hgg
        split at h1
        · rename_i hc
          obtain rfl := Option.some.inj h1
          exact map g0 _ hg0 (by rw [hc.1, hp]; nofun)
        · cases h1
      · cases h1
    | gGet gid res out =>
      simp only [step] at h1
      split at h1
      · split at h1
        · cases h1
        · obtain rfl := Option.some.inj h1; exact hg
      · cases h1
    | gStartOk gid w =>
      simp only [step] at h1
      split at h1
      · rename_i g0 hgg
        obtain ⟨hg0, rfl⟩ := getG_some _ _ hgg
        split at h1
        · rename_i hc
          obtain rfl := Option.some.inj h1
          exact map g0 _ hg0 (by rw [hc, hp]; nofun)
        · cases h1
      · cases h1
    | gStartErr gid e =>
      simp only [step] at h1
      split at h1
      · rename_i g0 hgg
        obtain ⟨hg0, rfl⟩ := getG_some _ _ hgg
        split at h1
        · rename_i hc
          obtain rfl := Option.some.inj h1
          exact map g0 _ hg0 (by rw [hc, hp]; nofun)
        · cases h1
      · cases h1
    | gRegisterDying gid =>
      simp only [step] at h1
      split at h1
      · rename_i g0 hgg
        obtain ⟨hg0, rfl⟩ := getG_some _ _ hgg
        split at h1
        · rename_i w hc
          split at h1
          · obtain rfl := Option.some.inj h1
            rw [killWorker_gs]
            exact map g0 _ hg0 (by rw [hc, hp]; nofun)
          · cases h1
        · cases h1
      · cases h1
    | gSelfDone gid =>
      simp only [step] at h1
      split at h1
      · rename_i g0 hgg
        obtain ⟨hg0, rfl⟩ := getG_some _ _ hgg
        split at h1
        · rename_i hc
          obtain rfl := Option.some.inj h1
          exact map g0 _ hg0 (by rw [hc.1, hp]; nofun)
        · cases h1
      · cases h1
    | gWaitRet gid =>
      simp only [step] at h1
      split at h1
      · rename_i g0 hgg
        obtain ⟨hg0, rfl⟩ := getG_some _ _ hgg
        split at h1
        · rename_i w hc
          split at h1
          · obtain rfl := Option.some.inj h1
            exact map g0 _ hg0 (by rw [hc, hp]; nofun)
          · cases h1
        · cases h1
      · cases h1
    | finish w e =>
      simp only [step] at h1
      split at h1
      · obtain rfl := Option.some.inj h1; exact hg
      · cases h1

/-- C48, the negation of the property: an engine with the self manifold installed may exit while the goroutine of
the self manifold is sending its stop ticket, and in every continuation that goroutine is still there. -/
theorem C48_self_manifold_leaks : ∃ cfg s, Reach cfg s ∧ .exit ∈ s.hist ∧ ∃ g ∈ s.gs,
    ∀ ops s', Demo.run cfg s ops = some s' → g ∈ s'.gs := by
  refine ⟨Demo.cfg, Demo.after Demo.cfg Demo.opsSelf, Demo.after_reach _ _, by decide +kernel, ?_⟩
  have h : ∃ g ∈ (Demo.after Demo.cfg Demo.opsSelf).gs, g.pc = .sendStopped (some .tombDying) := by decide +kernel
  obtain ⟨g, hg, hp⟩ := h
  exact ⟨g, hg, fun ops s' hrun => stuck_forever ops (Demo.after_reach _ _) (by decide +kernel) hg hp hrun⟩

end Verif.Props
