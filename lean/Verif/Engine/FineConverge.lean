import Verif.Engine.FineFair
import Verif.Engine.Converge

/-!
The potential of `Verif.Engine.Converge` when the loop does its work piece by piece: what it still has to do costs
something too.
-/

namespace Verif.Engine
open State Verif.Spec

/-- What a piece of work may cost. -/
def tcost (c : Name → Nat) (s : State) : Task → Nat
  | .start n _ => c n + 3
  | .react n told err _ lost => (if told || !rests err then c n + 3 else 0) +
      if lost then cost c ((s.dependents.get? n).getD []) else 0
  | .bounceAll n => cost c ((s.dependents.get? n).getD [])
  | .bounce d | .stop d => 2 * c d + 5
  | .remove _ _ | .clearOneShot | .report | .check => 0

def tsum (c : Name → Nat) (s : State) (ts : List Task) : Nat := (ts.map (tcost c s)).sum

def fmu (cfg : Config) (c : Name → Nat) (f : Fine) : Nat := mu cfg c f.s + tsum c f.s f.todo

section
variable {cfg : Config} {c : Name → Nat} {s s' : State}

theorem tsum_cons (t : Task) (ts : List Task) : tsum c s (t :: ts) = tcost c s t + tsum c s ts := rfl

theorem tsum_append (a b : List Task) : tsum c s (a ++ b) = tsum c s a + tsum c s b := by
  unfold tsum; rw [List.map_append, List.sum_append]

theorem tsum_le (h : ∀ i, cost c ((s'.dependents.get? i).getD []) ≤ cost c ((s.dependents.get? i).getD []))
    (ts : List Task) : tsum c s' ts ≤ tsum c s ts := by
  induction ts with
  | nil => exact Nat.le_refl _
  | cons t ts ih =>
    rw [tsum_cons, tsum_cons]
    have : tcost c s' t ≤ tcost c s t := by
      cases t with
      | react n told err vals lost =>
        have := h n
        simp only [tcost]
        repeat' split
        all_goals omega
      | bounceAll n => exact h n
      | _ => exact Nat.le_refl _
    omega

theorem tsum_congr (h : s'.dependents = s.dependents) (ts : List Task) : tsum c s' ts = tsum c s ts :=
  Nat.le_antisymm (tsum_le (fun i => by rw [h]; exact Nat.le_refl _) ts)
    (tsum_le (fun i => by rw [h]; exact Nat.le_refl _) ts)

theorem tsum_bounces (ds : List Name) : tsum c s (ds.map .bounce) = cost c ds := by
  unfold tsum cost; rw [List.map_map]; rfl

theorem tsum_react (n : Name) (told : Bool) (err : Option Err) (vals : Name → List Name) :
    tsum c s (reactTasks cfg n told err vals) ≤ if told || !rests err then c n + 3 else 0 := by
  unfold reactTasks rests
  cases told with
  | true => simp [tsum, tcost]
  | false =>
    cases err with
    | none => simp [tsum]
    | some e =>
      cases errIs (some e) .aborted <;> cases errIs (some e) .missing <;> cases errIs (some e) .bounce <;>
        cases errIs (some e) .uninstall <;> simp [tsum, tcost]

theorem Ready.at_start {D : Debt} {l ts : List Task} {n : Name} {d : Int} (hr : Ready cfg s D l) (hts : l = .start n d :: ts) :
    (s.manifolds.get? n).isSome = true ∧ (s.cur n).stopped = true := by
  cases hr with
  | bounces ds => cases ds <;> cases hts
  | start n' d' b hi hs => cases hts; exact ⟨hi, hs⟩
  | stops ns => cases ns <;> cases hts
  | _ => cases hts

theorem Ready.at_remove {D : Debt} {l ts : List Task} {n : Name} {vals : Name → List Name} (hr : Ready cfg s D l)
    (hts : l = .remove n vals :: ts) : (s.cur n).stopped = true ∧ validVals s.dependents n vals = true := by
  cases hr with
  | bounces ds => cases ds <;> cases hts
  | remove n' d' b hi hs ht hv => cases hts; exact ⟨hs, hv⟩
  | stops ns => cases ns <;> cases hts
  | _ => cases hts

theorem Ready.at_bounce {D : Debt} {l ts : List Task} {d : Name} (hr : Ready cfg s D l) (hts : l = .bounce d :: ts) :
    (s.manifolds.get? d).isSome = true := by
  cases hr with
  | bounces ds h hi =>
    cases ds with
    | nil => cases hts
    | cons d' ds => cases hts; exact hi d (by simp)
  | stops ns => cases ns <;> cases hts
  | _ => cases hts

/-- A piece of work costs no more than it was counted for. -/
theorem fmu_work {f f' : Fine} {D : Debt} (hl : Link cfg f D) (hw : Weight c f.s) (h : fstep cfg f .work = some f')
    (h0 : f.s.dying = false) (h1 : f'.s.dying = false) : Weight c f'.s ∧ fmu cfg c f' ≤ fmu cfg c f := by
  obtain ⟨s, todo⟩ := f
  obtain ⟨hx, hp, _, hr⟩ := hl
  have co : Core s := (ex_hinv hx).1
  simp only [fstep] at h
  split at h
  · cases h
  rename_i t ts _
  simp only [Option.some.injEq] at h; subst h
  have goal : ∀ {s2 : State} {new : List Task}, (exec cfg s t) = (s2, new) → Weight c s2 →
      (∀ i, cost c ((s2.dependents.get? i).getD []) ≤ cost c ((s.dependents.get? i).getD [])) →
      mu cfg c s2 + tsum c s2 new ≤ mu cfg c s + tcost c s t →
      Weight c (exec cfg s t).1 ∧ fmu cfg c ⟨(exec cfg s t).1, (exec cfg s t).2 ++ ts⟩ ≤ fmu cfg c ⟨s, t :: ts⟩ := by
    intro s2 new e w hd hm
    rw [e]
    refine ⟨w, ?_⟩
    unfold fmu
    simp only
    rw [tsum_append, tsum_cons]
    have := tsum_le hd ts
    omega
  have same : ∀ {s2 : State}, s2.dependents = s.dependents →
      ∀ i, cost c ((s2.dependents.get? i).getD []) ≤ cost c ((s.dependents.get? i).getD []) :=
    fun h i => by rw [h]; exact Nat.le_refl _
  cases t with
  | start n d =>
    have := Ready.at_start hr rfl
    obtain ⟨a1, a2, a3, a4, a5⟩ := mu_requestStart (cfg := cfg) (c := c) co d hp this.1 this.2
    refine goal rfl (hw.congr (requestStart_manifolds _ _ _) a5) (same a5) ?_
    show _ + 0 ≤ mu cfg c s + (c n + 3)
    omega
  | react n told err vals lost =>
    have e : exec cfg s (.react n told err vals lost) =
        (s, reactTasks cfg n told err vals ++ if lost then [.bounceAll n] else []) := by
      simp only [exec]; rw [if_neg (by rw [show s.dying = false from h0]; simp)]
    refine goal e hw (same rfl) ?_
    rw [tsum_append]
    have := tsum_react (cfg := cfg) (c := c) (s := s) n told err vals
    have h2 : tsum c s (if lost then [.bounceAll n] else []) = if lost then cost c ((s.dependents.get? n).getD []) else 0 := by
      cases lost <;> simp [tsum, tcost]
    rw [h2]
    simp only [tcost]
    omega
  | remove n vals =>
    have := Ready.at_remove hr rfl
    obtain ⟨w1, w2⟩ := hw.uninstall this.2
    refine goal rfl w1 w2 ?_
    rw [mu_uninstall co vals this.1]
    exact Nat.le_refl _
  | bounceAll n =>
    refine goal rfl hw (same rfl) ?_
    rw [tsum_bounces]; exact Nat.le_refl _
  | bounce d =>
    have hi := Ready.at_bounce hr rfl
    by_cases hs : (s.cur d).stopped = true
    · obtain ⟨a1, a2, a3, a4, a5⟩ := mu_requestStart (cfg := cfg) (c := c) co cfg.bounceDelay hp hi hs
      have e : exec cfg s (.bounce d) = (requestStart s d cfg.bounceDelay, []) := by simp only [exec]; rw [if_pos hs]
      refine goal e (hw.congr (requestStart_manifolds _ _ _) a5) (same a5) ?_
      show _ + 0 ≤ mu cfg c s + (2 * c d + 5)
      omega
    · obtain ⟨a1, a2, a3, a4⟩ := mu_requestStop (cfg := cfg) (c := c) co d
      have e : exec cfg s (.bounce d) = (requestStop s d, []) := by simp only [exec]; rw [if_neg hs]
      refine goal e (hw.congr (requestStop_manifolds _ _) (requestStop_dependents _ _)) (same (requestStop_dependents _ _)) ?_
      show _ + 0 ≤ mu cfg c s + (2 * c d + 5)
      omega
  | stop n =>
    obtain ⟨a1, a2, a3, a4⟩ := mu_requestStop (cfg := cfg) (c := c) co n
    refine goal rfl (hw.congr (requestStop_manifolds _ _) (requestStop_dependents _ _)) (same (requestStop_dependents _ _)) ?_
    show _ + 0 ≤ mu cfg c s + (2 * c n + 5)
    omega
  | clearOneShot =>
    refine goal rfl (hw.congr rfl rfl) (same rfl) ?_
    rw [mu_congr (s := s) rfl rfl rfl rfl]; exact Nat.le_refl _
  | report =>
    have e : ∃ ev, liveReport s = s.log ev := by
      unfold liveReport
      rw [tick_none hp]
      simp only
      split <;> exact ⟨_, rfl⟩
    obtain ⟨ev, e⟩ := e
    refine goal (s2 := s.log ev) (new := []) (by simp only [exec]; rw [e]) (hw.congr rfl rfl) (same rfl) ?_
    rw [mu_congr (s := s) rfl rfl rfl rfl]; exact Nat.le_refl _
  | check =>
    have e : endArm s = s := endArm_live hp h1
    refine goal (s2 := s) (new := []) (by simp only [exec]; rw [e]) hw (same rfl) (Nat.le_refl _)

/-- The started arm. -/
theorem fmu_started {f f' : Fine} {D : Debt} (hl : Link cfg f D) (hw : Weight c f.s) {gid : Nat} {now : Int}
    (h : fstep cfg f (.started gid now) = some f') (h1 : f'.s.dying = false) :
    Weight c f'.s ∧ fmu cfg c f' < fmu cfg c f := by
  obtain ⟨s, todo⟩ := f
  simp only [fstep] at h
  split at h
  case isFalse => cases h
  rename_i hc
  obtain ⟨_, hx, hp⟩ := hl.idle hc.1
  have co : Core s := (ex_hinv hx).1
  have h0 : todo = [] := List.isEmpty_iff.1 hc.1
  subst h0
  split at h
  · cases h
  rename_i g hget
  obtain ⟨hg, hgid⟩ := getG_some s gid hget
  subst hgid
  split at h
  case h_2 => cases h
  rename_i w hpc
  simp only [Option.some.injEq] at h; subst h
  have hnw : (s.cur g.name).worker = none := by
    cases hw : (s.cur g.name).worker with
    | none => rfl
    | some w' =>
      rcases ((co.rel g hg).worker w' hw).2 with hp | ⟨e, hp⟩
      · rw [hpc] at hp; cases w' <;> simp [afterOffer] at hp
      · rw [hpc] at hp; cases hp
  have hnw' : ((s.mapG g.gid (fun g => { g with pc := afterOffer w })).cur g.name).worker = none := hnw
  unfold beginStarted at h1 ⊢
  simp only [hnw', Option.isSome_none, Bool.false_eq_true, if_false] at h1 ⊢
  by_cases hst : (s.cur g.name).stopping = true
  · have hst' : ((s.mapG g.gid (fun g => { g with pc := afterOffer w })).cur g.name).stopping = true := hst
    rw [if_pos hst'] at h1 ⊢
    cases w with
    | self =>
      have h1' := killNil_dying (s.mapG g.gid (fun g => { g with pc := afterOffer .self }))
      have h2 : (killNil (s.mapG g.gid (fun g => { g with pc := afterOffer .self }))).dying = false := h1
      rw [h1'] at h2; cases h2
    | obj k =>
      refine ⟨hw.congr rfl rfl, ?_⟩
      have := mu_change (cfg := cfg) (c := c) (s' := (s.mapG g.gid (fun g => { g with pc := afterOffer (.obj k) })).killWorker (.obj k))
        co hg (f := fun g => { g with pc := afterOffer (.obj k) }) rfl (fun _ _ => rfl) rfl (fun _ _ => rfl)
      have h1 : val cfg c s g = c g.name + 6 := by unfold val; simp [pot, hpc, hst]
      have h2 : val cfg c ((s.mapG g.gid (fun g => { g with pc := afterOffer (.obj k) })).killWorker (.obj k))
          { g with pc := afterOffer (.obj k) } = c g.name + 5 := by
        unfold val; simp [pot, afterOffer, hst, hnw]
      show mu cfg c ((s.mapG g.gid (fun g => { g with pc := afterOffer (.obj k) })).killWorker (.obj k)) + 0 < mu cfg c s + 0
      omega
  · have hst' : ¬ ((s.mapG g.gid (fun g => { g with pc := afterOffer w })).cur g.name).stopping = true := hst
    rw [if_neg hst'] at h1 ⊢
    have hst : (s.cur g.name).stopping = false := by simpa using hst
    by_cases hd : (s.mapG g.gid (fun g => { g with pc := afterOffer w })).dying = true
    · exfalso
      rw [if_pos hd] at h1
      have := killWorker_dying_mono w hd
      rw [this] at h1; cases h1
    rw [if_neg hd] at h1 ⊢
    simp only
    generalize hs2 : register (s.mapG g.gid (fun g => { g with pc := afterOffer w })) g.name g.gid w now = s2 at *
    have hm2 : s2.manifolds = s.manifolds := by rw [← hs2]; rfl
    have hd2 : s2.dependents = s.dependents := by rw [← hs2]; rfl
    have hf2 : s2.finished = s.finished := by rw [← hs2]; rfl
    refine ⟨hw.congr hm2 hd2, ?_⟩
    have hcost := hw g.name (co.g_installed hg)
    have hcost : cost c ((s.dependents.get? g.name).getD []) ≤ c g.name := hcost
    have hcur : ∀ n, s2.cur n = if n = g.name then { s.cur g.name with
        worker := some w, starting := false, startCount := (s.cur g.name).startCount + 1, startAttempts := 0,
        startedTime := now } else s.cur n := by
      intro n; rw [← hs2]; exact setCur_cur _ _ _ _
    have := mu_change (cfg := cfg) (c := c) (s' := s2) co hg (f := fun g => { g with pc := afterOffer w })
      (by rw [← hs2]; rfl) (fun n _ => by unfold State.man; rw [hm2]) hf2
      (fun n hn => by rw [hcur, if_neg hn])
    have h1 : val cfg c s2 { g with pc := afterOffer w } + c g.name < val cfg c s g := by
      unfold val
      simp only [hcur, if_true, hst, hpc, hf2]
      cases w with
      | self => simp [pot, afterOffer, finW]
      | obj k =>
        by_cases hfk : (s.finished.get? k).isSome = true
        · simp only [pot, afterOffer, finW, Bool.false_eq_true, if_false, hfk, if_true]; omega
        · simp only [pot, afterOffer, finW, Bool.false_eq_true, if_false, hfk]; omega
    show mu cfg c s2 + (cost c ((s2.dependents.get? g.name).getD []) + (0 + 0)) < mu cfg c s + 0
    rw [hd2]
    omega

/-- The stopped arm. -/
theorem fmu_stopped {f f' : Fine} {D : Debt} (hl : Link cfg f D) (hw : Weight c f.s) {gid : Nat} {now : Int}
    {vals : Name → List Name} (h : fstep cfg f (.stopped gid now vals) = some f') :
    Weight c f'.s ∧ fmu cfg c f' < fmu cfg c f := by
  obtain ⟨s, todo⟩ := f
  simp only [fstep] at h
  split at h
  case isFalse => cases h
  rename_i hc
  obtain ⟨_, hx, hp⟩ := hl.idle hc.1
  have co : Core s := (ex_hinv hx).1
  have h0 : todo = [] := List.isEmpty_iff.1 hc.1
  subst h0
  split at h
  · cases h
  rename_i g hget
  obtain ⟨hg, hgid⟩ := getG_some s gid hget
  subst hgid
  split at h
  case h_2 => cases h
  rename_i raw hpc
  simp only [Option.some.injEq] at h; subst h
  have hns := (co.rel g hg).notStopped
  obtain ⟨f1, f2, f3, f4, f5⟩ := stopState_facts cfg g raw now hns
  have f6 : (stopState cfg s g raw now).finished = s.finished := by
    rw [stopState_eq cfg s g raw now hns]
    simp only
    split <;> rfl
  show Weight c (stopState cfg s g raw now) ∧ fmu cfg c ⟨stopState cfg s g raw now, [.react g.name (s.cur g.name).stopping
    (applyFilter cfg (s.man g.name) raw) vals (s.cur g.name).worker.isSome, .check]⟩ < _
  have hrem := mu_remove (cfg := cfg) (c := c) (s' := stopState cfg s g raw now) co hg f4 f1 f6
    (fun m hm => by rw [f5, if_neg hm])
  generalize stopState cfg s g raw now = s1 at *
  refine ⟨hw.congr f1 f2, ?_⟩
  have hcost : cost c ((s.dependents.get? g.name).getD []) ≤ c g.name := hw g.name (co.g_installed hg)
  show mu cfg c s1 + ((_ + if (s.cur g.name).worker.isSome then cost c ((s1.dependents.get? g.name).getD []) else 0) + (0 + 0)) <
    mu cfg c s + 0
  rw [f2]
  have hval : (if (s.cur g.name).stopping || !rests (applyFilter cfg (s.man g.name) raw) then c g.name + 3 else 0) +
      (if (s.cur g.name).worker.isSome then c g.name else 0) < val cfg c s g := by
    unfold val
    rw [hpc]
    cases h1 : (s.cur g.name).stopping <;> cases h2 : rests (applyFilter cfg (s.man g.name) raw) <;>
      cases h3 : (s.cur g.name).worker.isSome <;>
      simp only [pot, h2, Bool.or_false, Bool.or_true, Bool.not_true, Bool.not_false, if_true, Bool.false_eq_true,
        if_false] <;> omega
  cases hwk : (s.cur g.name).worker.isSome with
  | false =>
    simp only [hwk, Bool.false_eq_true, if_false] at hval ⊢
    omega
  | true =>
    simp only [hwk, if_true] at hval ⊢
    omega

end

end Verif.Engine
