import Verif.Engine.Live
import Mathlib.Data.List.Perm.Subperm

/-!
A potential that decreases while the environment is calm: no Kill, no Install, workers finish only after they have been
told to stop, and Start funcs that fail do so with an error that is not retried.

`c n` is a weight of the manifold `n` which pays for the disturbance of its dependents when its worker appears or goes;
`Weight` says that it suffices. The potential of an attempt is a bound on what it will still cost.
-/

namespace Verif.Engine
open State Verif.Spec

/-- An error (after the manifold's Filter) after which the engine leaves the manifold alone. -/
def rests (err : Option Err) : Bool :=
  err.isNone || errIs err .aborted || errIs err .missing || (!errIs err .bounce && errIs err .uninstall)

theorem rests_iff (err : Option Err) : rests err = true ↔ ¬ NeedsRestart false err := by
  unfold rests NeedsRestart
  cases err with
  | none => simp
  | some e =>
    cases errIs (some e) .aborted <;> cases errIs (some e) .missing <;> cases errIs (some e) .bounce <;>
      cases errIs (some e) .uninstall <;> simp

def finW (f : AMap (Option Err)) : WRef → Bool
  | .self => false
  | .obj k => (f.get? k).isSome

/-- The potential of one attempt. -/
def pot (rest : Option Err → Bool) (f : AMap (Option Err)) (c : Nat) (stopping reg : Bool) : Pc → Nat
  | .delaying => if stopping then c + 8 else c + 3
  | .starting => if stopping then c + 7 else c + 2
  | .registering w => if stopping then c + 6 else if finW f w then 3 * c + 6 else c + 1
  | .selfWait => 0
  | .waiting w => if stopping then (if reg then 2 * c + 5 else c + 5) else if (f.get? w).isSome then 2 * c + 5 else 0
  | .sendStopped e => if stopping then (if reg then 2 * c + 4 else c + 4)
      else 1 + (if reg then c else 0) + (if rest e then 0 else c + 3)

def val (cfg : Config) (c : Name → Nat) (s : State) (g : G) : Nat :=
  pot (fun e => rests (applyFilter cfg (s.man g.name) e)) s.finished (c g.name) (s.cur g.name).stopping
    (s.cur g.name).worker.isSome g.pc

def mu (cfg : Config) (c : Name → Nat) (s : State) : Nat := (s.gs.map (val cfg c s)).sum

/-- What disturbing the given manifolds may cost. -/
def cost (c : Name → Nat) (ds : List Name) : Nat := (ds.map (fun d => 2 * c d + 5)).sum

/-- The weights pay for all dependents. -/
def Weight (c : Name → Nat) (s : State) : Prop :=
  ∀ n, (s.manifolds.get? n).isSome = true → cost c ((s.dependents.get? n).getD []) ≤ c n

theorem sum_le {l : List G} {v v' : G → Nat} (h : ∀ g ∈ l, v' g ≤ v g) : (l.map v').sum ≤ (l.map v).sum := by
  induction l with
  | nil => simp
  | cons a l ih =>
    simp only [List.map_cons, List.sum_cons]
    have := h a (by simp)
    have := ih (fun g hg => h g (by simp [hg]))
    omega

theorem sum_change {l : List G} (hn : l.Nodup) {g0 : G} (h0 : g0 ∈ l) {v v' : G → Nat}
    (h : ∀ g ∈ l, g ≠ g0 → v' g ≤ v g) : (l.map v').sum + v g0 ≤ (l.map v).sum + v' g0 := by
  induction l with
  | nil => cases h0
  | cons a l ih =>
    simp only [List.map_cons, List.sum_cons]
    rw [List.nodup_cons] at hn
    rcases List.mem_cons.1 h0 with rfl | h1
    · have := sum_le (l := l) (v := v) (v' := v') (fun g hg => h g (by simp [hg]) (fun he => hn.1 (he ▸ hg)))
      omega
    · have := ih hn.2 h1 (fun g hg => h g (by simp [hg]))
      have := h a (by simp) (fun he => hn.1 (he ▸ h1))
      omega

theorem Core.nodup {s : State} (c : Core s) : s.gs.Nodup :=
  (List.pairwise_map.1 c.gidNodup).imp (fun hne he => hne (by rw [he]))

section
variable {cfg : Config} {c : Name → Nat}

theorem val_congr {s s' : State} {g g' : G} (hn : g'.name = g.name) (hp : g'.pc = g.pc) (hm : s'.man g.name = s.man g.name)
    (hf : s'.finished = s.finished) (h1 : (s'.cur g.name).stopping = (s.cur g.name).stopping)
    (h2 : (s'.cur g.name).worker.isSome = (s.cur g.name).worker.isSome) : val cfg c s' g' = val cfg c s g := by
  unfold val; rw [hn, hp, hm, hf, h1, h2]

/-- One goroutine and its manifold's info change; the others do not. -/
theorem mu_change {s s' : State} (co : Core s) {g0 : G} (h0 : g0 ∈ s.gs) {f : G → G}
    (hg : s'.gs = (s.mapG g0.gid f).gs) (hm : ∀ n, n ≠ g0.name → s'.man n = s.man n) (hf : s'.finished = s.finished)
    (hc : ∀ n, n ≠ g0.name → s'.cur n = s.cur n) :
    mu cfg c s' + val cfg c s g0 ≤ mu cfg c s + val cfg c s' (f g0) := by
  have e : mu cfg c s' = (s.gs.map (fun g => val cfg c s' (if g.gid = g0.gid then f g else g))).sum := by
    unfold mu; rw [hg]; simp only [State.mapG, List.map_map]; rfl
  rw [e]
  have := sum_change (v := val cfg c s) (v' := fun g => val cfg c s' (if g.gid = g0.gid then f g else g)) co.nodup h0 (by
    intro g hg hne
    have h1 : g.gid ≠ g0.gid := fun he => hne (co.gid_inj hg h0 he)
    have h2 : g.name ≠ g0.name := fun he => hne (co.name_inj hg h0 he)
    simp only [if_neg h1]
    exact Nat.le_of_eq (val_congr rfl rfl (hm _ h2) hf (by rw [hc _ h2]) (by rw [hc _ h2])))
  simpa only [if_pos, mu] using this

theorem mu_congr {s s' : State} (hg : s'.gs = s.gs) (hm : s'.manifolds = s.manifolds) (hf : s'.finished = s.finished)
    (hc : s'.current = s.current) : mu cfg c s' = mu cfg c s := by
  unfold mu
  rw [hg]
  congr 1
  apply List.map_congr_left
  intro g _
  exact val_congr rfl rfl (by unfold State.man; rw [hm]) hf (by unfold State.cur; rw [hc]) (by unfold State.cur; rw [hc])

/-- Telling a manifold to stop. -/
theorem mu_requestStop {s : State} (co : Core s) (n : Name) :
    mu cfg c (requestStop s n) ≤ mu cfg c s + (2 * c n + 5) ∧ (requestStop s n).finished = s.finished ∧
    (requestStop s n).pend = s.pend ∧ Core (requestStop s n) := by
  have hco : Core (requestStop s n) := chain_core (chain_requestStop (v := id) cfg s (fun _ => True) n (Or.inl trivial)) co
  rcases requestStop_cases s n with ⟨_, e⟩ | ⟨h1, h2, _⟩
  · rw [e]; exact ⟨by omega, rfl, rfl, co⟩
  · obtain ⟨g, hg, rfl, h⟩ := requestStop_form co h2 h1
    have key : ∀ {s' : State}, s'.gs = (s.mapG g.gid (fun g => { g with cancelled := true })).gs →
        s'.manifolds = s.manifolds → s'.finished = s.finished →
        (∀ m, s'.cur m = if m = g.name then { s.cur g.name with stopping := true, cancel := none } else s.cur m) →
        mu cfg c s' ≤ mu cfg c s + (2 * c g.name + 5) := by
      intro s' hgs hm hf hc
      have := mu_change (cfg := cfg) (c := c) co hg hgs (fun n _ => by unfold State.man; rw [hm]) hf
        (fun n hn => by rw [hc, if_neg hn])
      have hv : val cfg c s' { g with cancelled := true } ≤ val cfg c s g + (2 * c g.name + 5) := by
        have hman : s'.man g.name = s.man g.name := by unfold State.man; rw [hm]
        unfold val
        simp only [hc, if_true, hf, h1, hman]
        cases g.pc <;> simp only [pot, if_true, Bool.false_eq_true, if_false]
        all_goals (repeat' split)
        all_goals omega
      omega
    rcases h with ⟨_, e⟩ | ⟨k, _, e⟩ | ⟨_, e⟩ <;> rw [e] at hco ⊢
    all_goals refine ⟨key rfl rfl rfl (fun m => ?_), rfl, rfl, hco⟩
    all_goals simp only [killNil_cur, log_cur, setCur_cur, mapG_cur]

/-- Scheduling an attempt. -/
theorem mu_launch {s : State} (co : Core s) {n : Name} (delay : Int) (hs : (s.cur n).stopped = true) :
    mu cfg c (launch s n delay) = mu cfg c s + (c n + 3) := by
  have hidle := co.idle n hs
  have hw := (stopped_iff _).1 hs
  obtain ⟨sn, h1⟩ : ∃ sn, mu cfg c (launch s n delay) = val cfg c (launch s n delay)
      { gid := s.nextG, name := n, base := delay, recent := (s.cur n).recentErrors, snap := sn } +
      (s.gs.map (val cfg c (launch s n delay))).sum := ⟨_, rfl⟩
  rw [h1]
  have h2 : (s.gs.map (val cfg c (launch s n delay))) = s.gs.map (val cfg c s) := by
    apply List.map_congr_left
    intro g hg
    have hne : g.name ≠ n := by
      intro he
      have := (co.rel g hg).notStopped
      rw [he, hs] at this; cases this
    exact val_congr rfl rfl rfl rfl (by rw [launch_cur_ne _ _ _ hne]) (by rw [launch_cur_ne _ _ _ hne])
  have h3 : val cfg c (launch s n delay)
      { gid := s.nextG, name := n, base := delay, recent := (s.cur n).recentErrors, snap := sn } = c n + 3 := by
    unfold val
    simp only [launch_cur, if_true, hidle, pot, Bool.false_eq_true, if_false]
  rw [h2, h3, Nat.add_comm]
  rfl

theorem tick_none {s : State} (hp : s.pend = none) : s.tick = s := by
  unfold State.tick; rw [hp]

/-- requestStart when no Kill is about to land. -/
theorem mu_requestStart {s : State} (co : Core s) {n : Name} (delay : Int) (hp : s.pend = none)
    (hi : (s.manifolds.get? n).isSome = true) (hs : (s.cur n).stopped = true) :
    mu cfg c (requestStart s n delay) ≤ mu cfg c s + (c n + 3) ∧ (requestStart s n delay).finished = s.finished ∧
    (requestStart s n delay).pend = none ∧ Core (requestStart s n delay) ∧
    (requestStart s n delay).dependents = s.dependents := by
  rw [requestStart_eq hi hs, tick_none hp]
  split
  · exact ⟨by omega, rfl, hp, co, rfl⟩
  · rename_i hd
    exact ⟨Nat.le_of_eq (mu_launch co delay hs), rfl, hp, co.launch' n delay (by simpa using hd) hi hs, rfl⟩

theorem mu_bounceList : ∀ (ds : List Name) {s : State}, Core s → s.pend = none →
    (∀ d ∈ ds, (s.manifolds.get? d).isSome = true) →
    mu cfg c (bounceList cfg s ds) ≤ mu cfg c s + cost c ds ∧ (bounceList cfg s ds).finished = s.finished ∧
    (bounceList cfg s ds).pend = none ∧ (bounceList cfg s ds).dependents = s.dependents ∧
    (bounceList cfg s ds).manifolds = s.manifolds := by
  intro ds
  induction ds with
  | nil => intro s _ hp _; exact ⟨by simp [bounceList, cost], rfl, hp, rfl, rfl⟩
  | cons d ds ih =>
    intro s co hp hi
    unfold bounceList
    have hd := hi d (by simp)
    have hc : cost c (d :: ds) = (2 * c d + 5) + cost c ds := by simp [cost]
    by_cases hs : (s.cur d).stopped = true
    · rw [if_pos hs]
      obtain ⟨a1, a2, a3, a4, a5⟩ := mu_requestStart (cfg := cfg) (c := c) co cfg.bounceDelay hp hd hs
      obtain ⟨b1, b2, b3, b4, b5⟩ := ih a4 a3 (fun x hx => by rw [requestStart_manifolds]; exact hi x (by simp [hx]))
      refine ⟨by omega, b2.trans a2, b3, b4.trans a5, b5.trans (requestStart_manifolds _ _ _)⟩
    · rw [if_neg hs]
      obtain ⟨a1, a2, a3, a4⟩ := mu_requestStop (cfg := cfg) (c := c) co d
      obtain ⟨b1, b2, b3, b4, b5⟩ := ih a4 (a3.trans hp) (fun x hx => by rw [requestStop_manifolds]; exact hi x (by simp [hx]))
      refine ⟨by omega, b2.trans a2, b3, b4.trans (requestStop_dependents _ _), b5.trans (requestStop_manifolds _ _)⟩

theorem mu_bounceDependents {s : State} (co : Core s) (hp : s.pend = none) (n : Name) :
    mu cfg c (bounceDependents cfg s n) ≤ mu cfg c s + cost c ((s.dependents.get? n).getD []) ∧
    (bounceDependents cfg s n).finished = s.finished ∧
    (bounceDependents cfg s n).pend = none ∧ (bounceDependents cfg s n).dependents = s.dependents ∧
    (bounceDependents cfg s n).manifolds = s.manifolds :=
  mu_bounceList _ co hp (fun d hd => Core.dep_installed ((co.deps n d).1 hd))

theorem finish_dying {t : Tomb} (h1 : t.dying = true) : (t.finish (some .tombDying)).dying = true := by
  have hk : ∀ t : Tomb, (t.kill (some .tombDying)).dying = t.dying := by
    intro t
    unfold Tomb.kill Tomb.dying
    rw [if_neg (by decide), if_pos rfl]
    split <;> rfl
  unfold Tomb.finish
  simp only [ne_eq, reduceCtorEq, not_false_eq_true, or_true, if_true]
  split
  · rw [hk]; exact h1
  · split
    · exact (hk _).trans h1
    · rw [hk]; exact h1

theorem endArm_dying_mono {s : State} (h : s.dying = true) : (endArm s).dying = true := by
  unfold endArm
  simp only
  have h1 : s.tick.dying = true := tick_dying_mono _ h
  split
  · exact finish_dying h1
  · exact h1

/-- The end of an arm in which the engine is not dying. -/
theorem endArm_live {s : State} (hp : s.pend = none) (hl : (endArm s).dying = false) : endArm s = s := by
  unfold endArm at hl ⊢
  rw [tick_none hp] at hl ⊢
  have e : { s with pend := none } = s := by
    cases s; simp only at hp; subst hp; rfl
  simp only [e] at hl ⊢
  split
  · rename_i h
    simp only [Bool.and_eq_true] at h
    rw [if_pos (by simpa using h)] at hl
    have : (Tomb.finish s.tomb (some .tombDying)).dying = true := by
      have h1 : s.tomb.dying = true := h.1
      exact finish_dying h1
    exact absurd this (by simpa [State.dying] using hl)
  · rfl

theorem Weight.congr {s s' : State} (h : Weight c s) (h1 : s'.manifolds = s.manifolds)
    (h2 : s'.dependents = s.dependents) : Weight c s' := by
  unfold Weight; rw [h1, h2]; exact h

/-- gotStarted. -/
theorem mu_started {s : State} (co : Core s) (hp : s.pend = none) (hw : Weight c s) {g : G} (hg : g ∈ s.gs) {w : WRef}
    (hpc : g.pc = .registering w) (now : Int)
    {s' : State} (hs' : s' = gotStarted cfg (s.mapG g.gid (fun g => { g with pc := afterOffer w })) g.name g.gid w now)
    (hl : s'.dying = false) : Weight c s' ∧ mu cfg c s' < mu cfg c s ∧ s'.pend = none := by
  have hnw : (s.cur g.name).worker = none := by
    cases hw : (s.cur g.name).worker with
    | none => rfl
    | some w' =>
      rcases ((co.rel g hg).worker w' hw).2 with hp | ⟨e, hp⟩
      · rw [hpc] at hp; cases w' <;> simp [afterOffer] at hp
      · rw [hpc] at hp; cases hp
  have e := gotStarted_eq cfg (s.mapG g.gid (fun g => { g with pc := afterOffer w })) g.name g.gid w now hnw
  rw [e] at hs'
  clear e
  by_cases hst : (s.cur g.name).stopping = true
  · rw [if_pos (show ((s.mapG g.gid (fun g => { g with pc := afterOffer w })).cur g.name).stopping = true from hst)] at hs'
    subst hs'
    cases w with
    | self =>
      have h1 := killNil_dying (s.mapG g.gid (fun g => { g with pc := afterOffer .self }))
      have h2 : (killNil (s.mapG g.gid (fun g => { g with pc := afterOffer .self }))).dying = false := hl
      rw [h1] at h2; cases h2
    | obj k =>
      refine ⟨hw.congr rfl rfl, ?_, hp⟩
      have := mu_change (cfg := cfg) (c := c) (s' := (s.mapG g.gid (fun g => { g with pc := afterOffer (.obj k) })).killWorker (.obj k))
        co hg (f := fun g => { g with pc := afterOffer (.obj k) }) rfl (fun _ _ => rfl) rfl (fun _ _ => rfl)
      have h1 : val cfg c s g = c g.name + 6 := by unfold val; simp [pot, hpc, hst]
      have h2 : val cfg c ((s.mapG g.gid (fun g => { g with pc := afterOffer (.obj k) })).killWorker (.obj k))
          { g with pc := afterOffer (.obj k) } = c g.name + 5 := by
        unfold val; simp [pot, afterOffer, hst, hnw]
      omega
  · rw [if_neg (show ¬ ((s.mapG g.gid (fun g => { g with pc := afterOffer w })).cur g.name).stopping = true from hst)] at hs'
    have hst : (s.cur g.name).stopping = false := by simpa using hst
    rw [tick_none (s := s.mapG g.gid (fun g => { g with pc := afterOffer w })) hp] at hs'
    split at hs'
    · rename_i hd
      exfalso
      rw [hs', killWorker_dying_mono w hd] at hl; cases hl
    rename_i hd
    subst hs'
    have hd : s.dying = false := by simpa using hd
    have m := Micro.register (v := id) (cfg := cfg) s noDebt g hg w now hpc hd hst (fun _ h => h)
    have co2 := micro_core m co
    generalize hs2 : register (s.mapG g.gid (fun g => { g with pc := afterOffer w })) g.name g.gid w now = s2 at *
    have hp2 : s2.pend = none := by rw [← hs2]; exact hp
    have hm2 : s2.manifolds = s.manifolds := by rw [← hs2]; rfl
    have hd2 : s2.dependents = s.dependents := by rw [← hs2]; rfl
    obtain ⟨b1, b2, b3, b4, b5⟩ := mu_bounceDependents (cfg := cfg) (c := c) co2 hp2 g.name
    refine ⟨hw.congr (b5.trans hm2) (b4.trans hd2), ?_, b3⟩
    have hcost := hw g.name (co.g_installed hg)
    rw [hd2] at b1
    have hcur : ∀ n, s2.cur n = if n = g.name then { s.cur g.name with
        worker := some w, starting := false, startCount := (s.cur g.name).startCount + 1, startAttempts := 0,
        startedTime := now } else s.cur n := by
      intro n; rw [← hs2]; exact setCur_cur _ _ _ _
    have := mu_change (cfg := cfg) (c := c) (s' := s2) co hg (f := fun g => { g with pc := afterOffer w })
      (by rw [← hs2]; rfl) (fun n _ => by unfold State.man; rw [hm2]) (by rw [← hs2]; rfl)
      (fun n hn => by rw [hcur, if_neg hn])
    have hf2 : s2.finished = s.finished := by rw [← hs2]; rfl
    have h1 : val cfg c s2 { g with pc := afterOffer w } + c g.name < val cfg c s g := by
      unfold val
      simp only [hcur, if_true, hst, hpc, hf2]
      cases w with
      | self => simp [pot, afterOffer, finW]
      | obj k =>
        by_cases hfk : (s.finished.get? k).isSome = true
        · simp only [pot, afterOffer, finW, Bool.false_eq_true, if_false, hfk, if_true]; omega
        · simp only [pot, afterOffer, finW, Bool.false_eq_true, if_false, hfk]; omega
    omega

theorem sum_sublist {l l' : List Nat} (h : l.Sublist l') : l.sum ≤ l'.sum := by
  induction h with
  | slnil => exact Nat.le_refl _
  | cons a _ ih => simp only [List.sum_cons]; omega
  | cons_cons a _ ih => simp only [List.sum_cons]; omega

/-- Weights still pay after an uninstall. -/
theorem Weight.uninstall {s : State} (h : Weight c s) {n : Name} {vals : Name → List Name}
    (hv : validVals s.dependents n vals = true) : Weight c (uninstall s n vals) ∧
    ∀ i, cost c (((uninstall s n vals).dependents.get? i).getD []) ≤ cost c ((s.dependents.get? i).getD []) := by
  have key : ∀ i, cost c (((Engine.uninstall s n vals).dependents.get? i).getD []) ≤ cost c ((s.dependents.get? i).getD []) := by
    intro i
    have hsub : ∀ x ∈ ((dropDependent s.dependents vals).get? i).getD [], x ∈ (s.dependents.get? i).getD [] :=
      fun x hx => ((dropDependent_spec hv i x).1 hx).1
    have hnd : (((dropDependent s.dependents vals).get? i).getD []).Nodup := by
      rw [dropDependent_get]
      cases hi : s.dependents.get? i with
      | none => simp
      | some l =>
        have hmem : i ∈ s.dependents.keys := AMap.mem_keys_of_get? hi
        obtain ⟨p, hp, hpi⟩ := List.mem_map.1 hmem
        unfold validVals at hv
        have := List.all_eq_true.1 hv p hp
        simp only [Bool.and_eq_true, decide_eq_true_eq] at this
        rw [hpi] at this
        simpa using this.1.1
    obtain ⟨l, hp, hs⟩ := hnd.subperm hsub
    unfold cost
    show (List.map _ (((dropDependent s.dependents vals).get? i).getD [])).sum ≤ _
    rw [← (hp.map _).sum_nat]
    exact sum_sublist (hs.map _)
  refine ⟨?_, key⟩
  intro m hm
  refine Nat.le_trans (key m) (h m ?_)
  simp only [Engine.uninstall, AMap.get?_erase] at hm
  split at hm
  · cases hm
  · exact hm

theorem filter_sum {l : List G} (hn : (l.map (·.gid)).Nodup) {g0 : G} (h0 : g0 ∈ l) {v v' : G → Nat}
    (h : ∀ g ∈ l, g.gid ≠ g0.gid → v' g = v g) :
    ((l.filter (fun x => x.gid != g0.gid)).map v').sum + v g0 = (l.map v).sum := by
  induction l with
  | nil => cases h0
  | cons a l ih =>
    simp only [List.map_cons, List.nodup_cons] at hn
    simp only [List.map_cons, List.sum_cons]
    rcases List.mem_cons.1 h0 with rfl | h1
    · have h2 : ∀ x ∈ l, x.gid ≠ g0.gid := fun x hx he => hn.1 (he ▸ List.mem_map.2 ⟨x, hx, rfl⟩)
      have h3 : l.filter (fun x => x.gid != g0.gid) = l := List.filter_eq_self.2 (fun x hx => by simpa using h2 x hx)
      have h4 : l.map v' = l.map v := List.map_congr_left (fun x hx => h x (by simp [hx]) (h2 x hx))
      rw [List.filter_cons_of_neg (by simp), h3, h4]
      omega
    · have hne : a.gid ≠ g0.gid := fun he => hn.1 (he ▸ List.mem_map.2 ⟨g0, h1, rfl⟩)
      have := ih hn.2 h1 (fun g hg => h g (by simp [hg]))
      rw [List.filter_cons_of_pos (by simpa using hne), List.map_cons, List.sum_cons, h a (by simp) hne]
      omega

/-- The end of an attempt, before the engine reacts. -/
theorem mu_remove {s s' : State} (co : Core s) {g : G} (hg : g ∈ s.gs)
    (hgs : s'.gs = s.gs.filter (fun x => x.gid != g.gid)) (hm : s'.manifolds = s.manifolds)
    (hf : s'.finished = s.finished) (hc : ∀ m, m ≠ g.name → s'.cur m = s.cur m) :
    mu cfg c s' + val cfg c s g = mu cfg c s := by
  unfold mu
  rw [hgs]
  refine filter_sum co.gidNodup hg ?_
  intro x hx hne
  have h2 : x.name ≠ g.name := fun he => hne (by rw [co.name_inj hx hg he])
  exact val_congr rfl rfl (by unfold State.man; rw [hm]) hf (by rw [hc _ h2]) (by rw [hc _ h2])

theorem mu_uninstall {s : State} (co : Core s) {n : Name} (vals : Name → List Name) (hs : (s.cur n).stopped = true) :
    mu cfg c (uninstall s n vals) = mu cfg c s := by
  unfold mu
  congr 1
  apply List.map_congr_left
  intro g hg
  have hne : g.name ≠ n := by
    intro he
    have := (co.rel g hg).notStopped
    rw [he, hs] at this; cases this
  have hcur : (uninstall s n vals).cur g.name = s.cur g.name := by
    simp only [uninstall, State.cur, AMap.get?_erase, if_neg hne]
  refine val_congr rfl rfl ?_ rfl (by rw [hcur]) (by rw [hcur])
  simp only [uninstall, State.man, AMap.get?_erase, if_neg hne]

/-- gotStopped. -/
theorem mu_stopped {s : State} (co : Core s) (hdead : s.tomb.dead = false) (hp : s.pend = none) (hw : Weight c s) {g : G}
    (hg : g ∈ s.gs) {raw : Option Err} (hpc : g.pc = .sendStopped raw) (now : Int) {vals : Name → List Name}
    (hv : validVals s.dependents g.name vals = true) {s' : State}
    (hs' : s' = gotStopped cfg { s with gs := s.gs.filter (fun x => x.gid != g.gid) } g.name g.gid raw now vals)
    (hl : s'.dying = false) : Weight c s' ∧ mu cfg c s' < mu cfg c s ∧ s'.pend = none := by
  have hns := (co.rel g hg).notStopped
  have m := Micro.stop (v := id) (cfg := cfg) s noDebt g hg raw now hpc hdead (fun _ h => h)
  have co1 := micro_core m co
  obtain ⟨f1, f2, f3, f4, f5⟩ := stopState_facts cfg g raw now hns
  have heq : gotStopped cfg { s with gs := s.gs.filter (fun x => x.gid != g.gid) } g.name g.gid raw now vals =
      if (stopState cfg s g raw now).tick.dying then (stopState cfg s g raw now).tick
      else if (s.cur g.name).worker.isSome then
          bounceDependents cfg (reactToStop cfg (stopState cfg s g raw now).tick g.name (s.cur g.name).stopping
            (applyFilter cfg (s.man g.name) raw) vals) g.name
        else reactToStop cfg (stopState cfg s g raw now).tick g.name (s.cur g.name).stopping
            (applyFilter cfg (s.man g.name) raw) vals := rfl
  rw [heq] at hs'
  clear heq m
  have hpf : (stopState cfg s g raw now).pend = none ∧ (stopState cfg s g raw now).finished = s.finished := by
    rw [stopState_eq cfg s g raw now hns]
    simp only
    split
    · exact ⟨hp, rfl⟩
    · exact ⟨hp, rfl⟩
  rw [tick_none hpf.1] at hs'
  generalize hs1 : stopState cfg s g raw now = s1 at *
  clear hs1
  have hrem := mu_remove (cfg := cfg) (c := c) (s' := s1) co hg f4 f1 hpf.2 (fun m hm => by rw [f5, if_neg hm])
  have hst : (s1.cur g.name).stopped = true := by rw [f5, if_pos rfl]; rfl
  have hi0 := co.g_installed hg
  have hi : (s1.manifolds.get? g.name).isSome = true := by rw [f1]; exact hi0
  have hw1 : Weight c s1 := hw.congr f1 f2
  split at hs'
  · rename_i hd
    exfalso; rw [hs', hd] at hl; cases hl
  -- what the reaction costs
  have hreact : ∃ k, k + (if (s.cur g.name).worker.isSome then c g.name else 0) < val cfg c s g ∧
      (∀ t, t = reactToStop cfg s1 g.name (s.cur g.name).stopping (applyFilter cfg (s.man g.name) raw) vals →
        mu cfg c t ≤ mu cfg c s1 + k ∧ Core t ∧ t.pend = none ∧ Weight c t ∧
        cost c ((t.dependents.get? g.name).getD []) ≤ c g.name) := by
    rcases reactToStop_uninstall_or cfg s1 g.name (s.cur g.name).stopping (applyFilter cfg (s.man g.name) raw) vals with
      ⟨hnr, e⟩ | ⟨hnr, hwu, e⟩ | ⟨hnr, _, e⟩
    · refine ⟨c g.name + 3, ?_, ?_⟩
      · unfold val
        rw [hpc]
        cases hstop : (s.cur g.name).stopping with
        | true =>
          simp only [pot, if_true]
          split <;> omega
        | false =>
          rw [hstop] at hnr
          have : rests (applyFilter cfg (s.man g.name) raw) = false := by
            cases hr : rests (applyFilter cfg (s.man g.name) raw) with
            | false => rfl
            | true => exact absurd hnr ((rests_iff _).1 hr)
          simp only [pot, this, Bool.false_eq_true, if_false]
          split <;> omega
      · rintro t rfl
        rw [e]
        obtain ⟨a1, a2, a3, a4, a5⟩ := mu_requestStart (cfg := cfg) (c := c) co1 _ hpf.1 hi hst
        exact ⟨a1, a4, a3, hw1.congr (requestStart_manifolds _ _ _) a5, by rw [a5]; exact hw1 _ hi⟩
    · refine ⟨0, ?_, ?_⟩
      · unfold val
        rw [hpc, hwu.1]
        simp only [pot, Bool.false_eq_true, if_false]
        split <;> omega
      · rintro t rfl
        rw [e]
        have hv1 : validVals s1.dependents g.name vals = true := by rw [f2]; exact hv
        refine ⟨Nat.le_of_eq (mu_uninstall co1 vals hst), co1.uninstall' _ vals hst hv1 (by rw [f3]; exact hdead), hpf.1,
          (hw1.uninstall hv1).1, Nat.le_trans ((hw1.uninstall hv1).2 _) (hw1 _ hi)⟩
    · refine ⟨0, ?_, ?_⟩
      · unfold val
        have hstop : (s.cur g.name).stopping = false := by
          cases hstop : (s.cur g.name).stopping with
          | false => rfl
          | true => exact absurd (Or.inl hstop) hnr
        rw [hpc, hstop]
        simp only [pot, Bool.false_eq_true, if_false]
        split <;> omega
      · rintro t rfl
        rw [e]
        exact ⟨Nat.le_refl _, co1, hpf.1, hw1, hw1 _ hi⟩
  obtain ⟨k, hk, ht⟩ := hreact
  obtain ⟨t1, t2, t3, t4, t5⟩ := ht _ rfl
  split at hs'
  · rename_i hwk
    rw [if_pos hwk] at hk
    obtain ⟨b1, b2, b3, b4, b5⟩ := mu_bounceDependents (cfg := cfg) (c := c) t2 t3 g.name
    rw [hs']
    exact ⟨t4.congr b5 b4, by omega, b3⟩
  · rename_i hwk
    rw [if_neg hwk] at hk
    rw [hs']
    exact ⟨t4, by omega, t3⟩

end

end Verif.Engine
