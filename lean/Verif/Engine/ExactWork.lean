import Verif.Engine.ExactSound

/-!
The loop's work does only what the specification allows.
-/

namespace Verif.Engine
open State Verif.Spec

variable {cfg : Config} {h0 : List Ev} {L0 : Hidden} {s t : State} {rf : Name → Bool} {D : Debt}

/-! ## What is known when the loop gets to a piece of its work -/

theorem ready_start {n : Name} {d : Int} {ts : List Task} (h : Ready cfg s D (.start n d :: ts)) :
    (s.manifolds.get? n).isSome = true ∧ (s.cur n).stopped = true := by
  generalize e : Task.start n d :: ts = todo at h
  cases h with
  | start n' d' b hi hs => injection e with e1 _; injection e1 with e2 _; subst e2; exact ⟨hi, hs⟩
  | bounces ds => cases ds <;> simp at e
  | stops ns => cases ns <;> simp at e
  | idle | bounceAll | remove | react | report => simp at e

theorem ready_bounce {n : Name} {ts : List Task} (h : Ready cfg s D (.bounce n :: ts)) :
    (s.manifolds.get? n).isSome = true := by
  generalize e : Task.bounce n :: ts = todo at h
  cases h with
  | bounces ds h hi =>
    cases ds with
    | nil => simp at e
    | cons d ds => injection e with e1 _; injection e1 with e2; subst e2; exact hi n (by simp)
  | stops ns => cases ns <;> simp at e
  | idle | bounceAll | start | remove | react | report => simp at e

theorem ready_stop {n : Name} {ts : List Task} (h : Ready cfg s D (.stop n :: ts)) : s.dying = true := by
  generalize e : Task.stop n :: ts = todo at h
  cases h with
  | stops ns hd => exact hd
  | bounces ds => cases ds <;> simp at e
  | idle | bounceAll | start | remove | react | report => simp at e

theorem ready_remove {n : Name} {vals : Name → List Name} {ts : List Task} (h : Ready cfg s D (.remove n vals :: ts)) :
    (s.cur n).stopped = true := by
  generalize e : Task.remove n vals :: ts = todo at h
  cases h with
  | remove n' vals' b hi hs => injection e with e1 _; injection e1 with e2 _; subst e2; exact hs
  | bounces ds => cases ds <;> simp at e
  | stops ns => cases ns <;> simp at e
  | idle | bounceAll | start | react | report => simp at e

theorem uninstall_ref (c : Core s) (r : RefInv s rf) {n : Name} (vals : Name → List Name) (hs : (s.cur n).stopped = true) :
    RefInv (uninstall s n vals) rf := by
  intro g hg
  have hg : g ∈ s.gs := hg
  have hne : g.name ≠ n := by
    rintro rfl
    have := (c.rel g hg).notStopped
    rw [hs] at this; cases this
  refine (r g hg).trans (Refused.congr rfl rfl rfl ?_).symm
  show (((s.current.erase n).get? g.name).getD {}).worker = _
  rw [AMap.get?_erase, if_neg hne]; rfl

theorem Half.silent {L : Hidden} {l : Loop} (h : Half cfg h0 L0 s L) (hs : Silent s.hist L.loop l) :
    Half cfg h0 L0 s { L with loop := l } := ⟨.silent h.1 h.2.1 hs, h.2.1, h.2.2.1, h.2.2.2⟩

theorem Half.refl {todo : List Task} {L : Hidden} (ha : From cfg h0 L0 s.hist L) (hu : urgent cfg s.hist = none)
    (sim : Sim cfg ⟨s, todo⟩ L) : Half cfg h0 L0 s L := ⟨ha, hu, sim.deps, sim.ref⟩

theorem urgent_cancelled (x : XInv s) {g : G} (hg : g ∈ s.gs) :
    urgent cfg (.cancelled g.gid :: s.hist) = (workerH s.hist g.name).map .killW := by
  simp only [urgent, x.name g hg]

/-- The loop tells an attempt to stop. -/
theorem half_stop {L L' : Hidden} (c : Core s) (i : HInv cfg s) (x : XInv s) (h : Half cfg h0 L0 s L) {n : Name}
    (hs : (s.cur n).stopped = false) (hst : (s.cur n).stopping = false)
    (hh : ∀ g, openH s.hist n = some g → .cancelled g ∉ s.hist → Happens cfg s.hist L (.cancelled g) L')
    (hd : L'.deps = L.deps) (hr : L'.refused = L.refused) : Half cfg h0 L0 (requestStop s n) L' := by
  obtain ⟨ha, hu, sd, r⟩ := h
  obtain ⟨g, hg, rfl, hf⟩ := requestStop_form c hs hst
  have hnc : .cancelled g.gid ∉ s.hist := fun hm => by rw [(i.told c hg).2 hm] at hst; cases hst
  have a1 : From cfg h0 L0 (.cancelled g.gid :: s.hist) L' := .event ha hu (hh g.gid (i.openG g hg) hnc)
  have hu1 := urgent_cancelled (cfg := cfg) x hg
  have r' : ∀ t : State, t.gs = (s.mapG g.gid (fun g => { g with cancelled := true })).gs → (∀ n, phaseH t.hist n = phaseH s.hist n) →
      (∀ n, (t.cur n).worker = (s.cur n).worker) → RefInv t L'.refused := by
    intro t h1 h2 h3 y hy
    rw [h1] at hy
    obtain ⟨z, hz, rfl⟩ := List.mem_map.1 hy
    rw [hr]
    have hz' := r z hz
    split
    · show L.refused z.name = true ↔ _
      rw [hz']
      exact (Refused.congr rfl rfl (h2 _) (h3 _)).symm
    · rw [hz']; exact (Refused.congr rfl rfl (h2 _) (h3 _)).symm
  have curw : ∀ m, ((requestStop s g.name).cur m).worker = (s.cur m).worker := by
    intro m
    rw [requestStop_cur]
    split
    · rename_i h; rw [h.1]
    · rfl
  have sd' : L'.deps = depsOf (requestStop s g.name).dependents := by rw [hd, requestStop_dependents]; exact sd
  simp only at hf
  rcases hf with ⟨hw, e⟩ | ⟨k, hw, e⟩ | ⟨hw, e⟩
  · rw [i.worker] at hw
    rw [hw] at hu1
    have hR := r' (requestStop s g.name) (by rw [e]; rfl) (by rw [e]; exact fun _ => rfl) curw
    have hh : (requestStop s g.name).hist = .cancelled g.gid :: s.hist := by rw [e]; rfl
    exact ⟨by rw [hh]; exact a1, by rw [hh]; exact hu1, sd', hR⟩
  · rw [i.worker] at hw
    rw [hw] at hu1
    have hR := r' (requestStop s g.name) (by rw [e]; rfl) (by rw [e]; exact fun _ => rfl) curw
    have hh : (requestStop s g.name).hist = .killW (.obj k) :: .cancelled g.gid :: s.hist := by rw [e]; rfl
    exact ⟨by rw [hh]; exact .forced a1 hu1, by rw [hh]; rfl, sd', hR⟩
  · rw [i.worker] at hw
    rw [hw] at hu1
    have hR := r' (requestStop s g.name) (by rw [e]; rfl) (by rw [e]; exact fun _ => rfl) curw
    have hh : (requestStop s g.name).hist = .kill :: .killW .self :: .cancelled g.gid :: s.hist := by rw [e]; rfl
    exact ⟨by rw [hh]; exact .forced (.forced a1 hu1) rfl, by rw [hh]; rfl, sd', hR⟩

/-- The loop begins an attempt. -/
theorem half_launch {L L' : Hidden} (c : Core s) (i : HInv cfg s) (x : XInv s) (h : Half cfg h0 L0 s L) {n : Name} {d : Int}
    {m : Manifold} (hm : manH s.hist n = some m) (hs : (s.cur n).stopped = true)
    (hh : Happens cfg s.hist L (.begin n (beginsH s.hist) d (recentH cfg.backoffResetTime s.hist n) (snapH s.hist m.inputs)) L')
    (hd : L'.deps = L.deps) (hr : L'.refused = put L.refused n false) : Half cfg h0 L0 (launch s n d) L' := by
  obtain ⟨ha, hu, sd, r⟩ := h
  have e := launch_event i x hm d
  refine ⟨by rw [e]; exact .event ha hu hh, by rw [e]; rfl, by rw [hd]; exact sd, ?_⟩
  intro g hg
  rcases List.mem_cons.1 hg with rfl | hg
  · rw [hr]
    show put L.refused n false n = true ↔ _
    rw [put_self]
    exact ⟨nofun, fun h => h.2.elim⟩
  · have hne : g.name ≠ n := by
      rintro rfl
      have := (c.rel g hg).notStopped
      rw [hs] at this; cases this
    rw [hr, put_ne hne, r g hg]
    refine (Refused.congr rfl rfl ?_ ?_).symm
    · rw [e]
      show (if g.name = n then _ else _) = _
      rw [if_neg hne]
    · rw [launch_cur_ne s n d hne]

theorem man_some (i : HInv cfg s) {n : Name} (hi : (s.manifolds.get? n).isSome = true) : ∃ m, manH s.hist n = some m := by
  rw [i.man] at hi; exact Option.isSome_iff_exists.1 hi

/-- The loop does its duty to tell a manifold. -/
theorem half_tell {L : Hidden} {l : List Duty} (c : Core s) (i : HInv cfg s) (x : XInv s) (hp : s.pend = none)
    (h : Half cfg h0 L0 s L) {n : Name} (hl : L.loop = .busy (.tell n :: l)) (hi : (s.manifolds.get? n).isSome = true) :
    ∃ L', Half cfg h0 L0 (if (s.cur n).stopped then requestStart s n cfg.bounceDelay else requestStop s n) L' ∧ L'.loop = .busy l := by
  by_cases hs : (s.cur n).stopped = true
  · rw [if_pos hs, requestStart_eq hi hs, tick_none hp]
    by_cases hd : s.dying = true
    · rw [if_pos hd]
      exact ⟨_, h.silent (l := .busy l) (by
        rw [hl]; exact .tell n l ((told_iff c i n).2 (Or.inl hs)) (fun _ => i.dying.1 hd)), rfl⟩
    · rw [if_neg hd]
      obtain ⟨m, hm⟩ := man_some i hi
      exact ⟨_, half_launch c i x h hm hs
        (.restart L n l m hl (i.noOpen c hs) ((not_dying i).1 (by simpa using hd)) hm) rfl rfl, rfl⟩
  · rw [if_neg hs]
    have hs' : (s.cur n).stopped = false := by simpa using hs
    by_cases hst : (s.cur n).stopping = true
    · have e : requestStop s n = s := by unfold requestStop; simp [hst]
      rw [e]
      exact ⟨_, h.silent (l := .busy l) (by
        rw [hl]; refine .tell n l ((told_iff c i n).2 (Or.inr hst)) (fun ho => ?_)
        rw [open_none_iff c i, hs'] at ho; cases ho), rfl⟩
    · have hst' : (s.cur n).stopping = false := by simpa using hst
      exact ⟨_, half_stop c i x h hs' hst' (fun g ho hc => .cancelled L n g l hl ho hc) rfl rfl, rfl⟩

theorem ite_tell_frame (n : Name) (d : Int) (hp : s.pend = none) (hi : (s.manifolds.get? n).isSome = true) :
    (if (s.cur n).stopped then requestStart s n d else requestStop s n).dependents = s.dependents ∧
    (if (s.cur n).stopped then requestStart s n d else requestStop s n).tomb.dead = s.tomb.dead := by
  by_cases hs : (s.cur n).stopped = true
  · rw [if_pos hs]
    refine ⟨?_, requestStart_dead _ hi hs⟩
    rw [requestStart_eq hi hs, tick_none hp]; split <;> rfl
  · rw [if_neg hs]; exact ⟨requestStop_dependents s n, requestStop_dead s n⟩

/-- requestStop of a dying engine does what telling does. -/
theorem stop_as_tell {n : Name} {d : Int} (hp : s.pend = none) (hd : s.dying = true)
    (hi : (s.manifolds.get? n).isSome = true) :
    requestStop s n = if (s.cur n).stopped then requestStart s n d else requestStop s n := by
  by_cases hs : (s.cur n).stopped = true
  · rw [if_pos hs, requestStart_eq hi hs, tick_none hp, if_pos hd]
    unfold requestStop; simp [hs]
  · rw [if_neg hs]

theorem half_stopTask {L : Hidden} {l : List Duty} (c : Core s) (i : HInv cfg s) (x : XInv s)
    (h : Half cfg h0 L0 s L) {n : Name} (hl : L.loop = .busy (.tell n :: l)) (hd : s.dying = true) :
    ∃ L', Half cfg h0 L0 (requestStop s n) L' ∧ L'.loop = .busy l := by
  by_cases hs : (s.cur n).stopped = true ∨ (s.cur n).stopping = true
  · have e : requestStop s n = s := by unfold requestStop; rcases hs with h | h <;> simp [h]
    rw [e]
    exact ⟨_, h.silent (l := .busy l) (by rw [hl]; exact .tell n l ((told_iff c i n).2 hs) (fun _ => i.dying.1 hd)), rfl⟩
  · obtain ⟨h1, h2⟩ := not_or.1 hs
    exact ⟨_, half_stop c i x h (by simpa using h1) (by simpa using h2) (fun g ho hc => .cancelled L n g l hl ho hc) rfl rfl, rfl⟩

theorem owed_bounces {m : AMap (List Name)} {ts : List Task} {l : List Duty} (h : Owed m ts l) :
    ∀ ns : List Name, Owed m (ns.map .bounce ++ ts) (ns.map .tell ++ l)
  | [] => h
  | n :: ns => .bounce n (owed_bounces h ns)

theorem owed_stops {m : AMap (List Name)} {ts : List Task} {l : List Duty} (h : Owed m ts l) :
    ∀ ns : List Name, Owed m (ns.map .stop ++ ts) (ns.map .tell ++ l)
  | [] => h
  | n :: ns => .stop n (owed_stops h ns)

theorem endArm_cases (hp : s.pend = none) : endArm s =
    if s.dying = true ∧ allOthersStopped s = true then
      { s with tomb := s.tomb.finish (some .tombDying), hist := .exit :: s.hist }
    else s := by
  have e : { s with pend := none } = s := by rw [← hp]
  unfold endArm
  rw [tick_none hp]
  simp only [e]
  by_cases h : s.dying = true ∧ allOthersStopped s = true
  · rw [if_pos h, if_pos (by rw [h.1, h.2]; rfl), hp]
  · rw [if_neg h, if_neg (by simpa using h)]

theorem half_exit {L : Hidden} (c : Core s) (i : HInv cfg s) (h : Half cfg h0 L0 s L) (hdead : s.tomb.dead = false)
    (hc : s.dying = true ∧ allOthersStopped s = true) (hh : Happens cfg s.hist L .exit { L with loop := .gone }) :
    Half cfg h0 L0 { s with tomb := s.tomb.finish (some .tombDying), hist := .exit :: s.hist } { L with loop := .gone } ∧
    (s.tomb.finish (some .tombDying)).dead = true :=
  ⟨⟨.event h.1 h.2.1 hh, rfl, h.2.2.1, h.2.2.2.same rfl (fun _ => rfl) (fun _ => rfl)⟩,
    (micro_hinv (Micro.exit (v := own) s noDebt hc.1 hdead hc.2) c i).dead.2 (List.mem_cons_self ..)⟩

/-- The check after each arm. -/
theorem good_check {L : Hidden} (c : Core s) (i : HInv cfg s) (hp : s.pend = none) (hdead : s.tomb.dead = false)
    (h : Half cfg h0 L0 s L)
    (hl : L.loop = .busy [] ∨ (L.loop = .idle ∧ (allOthersStopped s = true → ∀ n, (s.cur n).stopped = true ∨ (s.cur n).stopping = true))) :
    Good cfg h0 L0 ⟨endArm s, []⟩ := by
  rw [endArm_cases hp]
  by_cases hc : s.dying = true ∧ allOthersStopped s = true
  · rw [if_pos hc]
    have hh := Happens.exit (cfg := cfg) L (hl.imp id (fun h => ⟨h.1, fun n => (told_iff c i n).2 (h.2 hc.2 n)⟩)) (i.dying.1 hc.1) ((allStopped_iff c i).2 hc.2)
    obtain ⟨h1, h2⟩ := half_exit c i h hdead hc hh
    exact h1.good (.gone h2)
  · rw [if_neg hc]
    rcases hl with hl | ⟨hl, _⟩
    · exact (h.silent (l := .idle) (by
        rw [hl]; refine .ready (fun hn => hc ⟨i.dying.2 hn.1, (allStopped_iff c i).1 hn.2⟩))).good (.idle hdead)
    · exact h.good (by rw [hl]; exact .idle hdead)

theorem work_good {f f' : Fine} {L : Hidden} (hk : Link cfg f D) (x : XInv f.s) (ha : From cfg h0 L0 f.s.hist L)
    (hu : urgent cfg f.s.hist = none) (sim : Sim cfg f L) (h : fstep cfg f .work = some f') : Good cfg h0 L0 f' := by
  obtain ⟨s, todo⟩ := f
  obtain ⟨hx, hp, hdead, hr⟩ := hk
  obtain ⟨c, i⟩ := ex_hinv hx
  have hf := Half.refl ha hu sim
  have sl := sim.loop
  simp only at hx hp hdead hr sl x
  cases todo with
  | nil => simp [fstep] at h
  | cons tk ts =>
  replace hdead := hdead (by simp)
  simp only [fstep, Option.some.injEq] at h; subst h
  generalize hL : L.loop = lp at sl
  generalize ht : tk :: ts = todo at sl
  cases sl with
  | idle | gone => cases ht
  | report hd =>
    injection ht with h1 h2; subst h1 h2
    show Good cfg h0 L0 ⟨liveReport s, [.check]⟩
    rw [liveReport_eq (by rw [tick_none hp]; exact c), tick_none hp, report_eq c i x]
    exact .event ha hu (.report L hL) rfl rfl ⟨sim.deps, sim.ref.same rfl (fun _ => rfl) (fun _ => rfl), .busy hd (.done _)⟩
  | check hd hall =>
    injection ht with h1 h2; subst h1 h2
    exact good_check c i hp hdead hf (Or.inr ⟨hL, hall⟩)
  | stops pre ns hd ho hpre =>
    cases ns with
    | nil =>
      injection ht with h1 h2; subst h1 h2
      refine ⟨L, ha, hu, sim.deps, sim.ref.same rfl (fun _ => rfl) (fun _ => rfl), ?_⟩
      rw [hL]
      refine .check hd (fun _ n => ?_)
      rw [List.append_nil] at ho
      cases hn : s.current.get? n with
      | some inf => exact hpre n ((ho.2 n).2 (AMap.mem_keys_of_get? hn))
      | none =>
        left
        show (s.cur n).stopped = true
        unfold State.cur; rw [hn]; rfl
    | cons n ns =>
      injection ht with h1 h2; subst h1 h2
      have hdy := ready_stop hr
      show Good cfg h0 L0 ⟨requestStop s n, ns.map .stop ++ [.clearOneShot, .check]⟩
      by_cases hs : (s.cur n).stopped = true ∨ (s.cur n).stopping = true
      · have e : requestStop s n = s := by unfold requestStop; rcases hs with h | h <;> simp [h]
        rw [e]
        refine hf.good ?_
        rw [hL]
        refine .stops (pre ++ [n]) ns hd (by simpa using ho) ?_
        intro y hy
        rcases List.mem_append.1 hy with hy | hy
        · exact hpre y hy
        · rw [List.mem_singleton.1 hy]; exact hs
      · obtain ⟨h1, h2⟩ := not_or.1 hs
        refine (half_stop (L' := { L with loop := .busy (ns.map .tell) }) c i x hf (by simpa using h1) (by simpa using h2)
          (fun g hog hc => .dying L n g (pre ++ n :: ns) pre ns hL (i.dying.1 hdy) hog hc ho.1 ?_ rfl ?_) rfl rfl).good
          (.busy (by rw [requestStop_dead]; exact hd) ?_)
        · intro y
          rw [ho.2 y, AMap.mem_keys_iff, ← c.keys, ← i.man]
          exact Option.isSome_iff_ne_none
        · exact fun y hy => (told_iff c i y).2 (hpre y hy)
        · rw [requestStop_dependents]
          have := owed_stops (m := s.dependents) (.clear (.done _)) ns
          simpa using this
  | look n told err vals lost hd =>
    injection ht with h1 h2; subst h1 h2
    show Good cfg h0 L0 ⟨(if s.dying then (s, []) else (s, reactTasks cfg n told err vals ++ if lost.isSome then [.bounceAll n] else [])).1,
      (if s.dying then (s, []) else (s, reactTasks cfg n told err vals ++ if lost.isSome then [.bounceAll n] else [])).2 ++ [.check]⟩
    by_cases hdy : s.dying = true
    · simp only [hdy, if_true, List.nil_append]
      exact (hf.silent (l := .busy []) (by rw [hL]; exact .drop _ (i.dying.1 hdy))).good (.busy hd (.done _))
    · simp only [hdy, Bool.false_eq_true, if_false, List.append_assoc]
      exact (hf.silent (by rw [hL]; exact .look _ ((not_dying i).1 (by simpa using hdy)))).good
        (.busy hd (reactTasks_duties cfg s.dependents n told err vals lost))
  | busy hd ho =>
    subst ht
    cases ho with
    | done => exact good_check c i hp hdead hf (Or.inl hL)
    | start n d ho =>
      obtain ⟨hi, hs⟩ := ready_start hr
      show Good cfg h0 L0 ⟨requestStart s n d, ts⟩
      rw [requestStart_eq hi hs, tick_none hp]
      by_cases hdy : s.dying = true
      · rw [if_pos hdy]
        exact (hf.silent (by rw [hL]; exact .start n d _ (i.dying.1 hdy))).good (.busy hd ho)
      · rw [if_neg hdy]
        obtain ⟨m, hm⟩ := man_some i hi
        exact (half_launch c i x hf hm hs (.start L n d _ m hL ((not_dying i).1 (by simpa using hdy)) hm) rfl rfl).good
          (.busy hd ho)
    | remove n vals ho =>
      exact .event ha hu (.uninstalled L n _ _ hL) rfl rfl ⟨rfl, uninstall_ref c sim.ref vals (ready_remove hr), .busy hd ho⟩
    | bounceAll n ho =>
      refine hf.good ?_
      rw [hL]
      exact .busy hd (owed_bounces ho _)
    | bounce n ho =>
      have hi := ready_bounce hr
      obtain ⟨L', h1, h2⟩ := half_tell c i x hp hf hL hi
      obtain ⟨f1, f2⟩ := ite_tell_frame (s := s) n cfg.bounceDelay hp hi
      refine h1.good ?_
      rw [h2]
      exact .busy (f2.trans hd) (by rw [f1]; exact ho)
    | stop n ho =>
      obtain ⟨L', h1, h2⟩ := half_stopTask c i x hf hL (ready_stop hr)
      refine h1.good ?_
      rw [h2]
      exact .busy ((requestStop_dead s n).trans hd) (by rw [requestStop_dependents]; exact ho)
    | clear ho =>
      refine ⟨L, ha, hu, sim.deps, sim.ref.same rfl (fun _ => rfl) (fun _ => rfl), ?_⟩
      rw [hL]; exact .busy hd ho

end Verif.Engine
