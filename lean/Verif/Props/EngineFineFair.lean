import Verif.Engine.FineConverge
import Verif.Props.EngineFineRuns

/-!
# C97: what happens sooner or later, when the engine's loop can be interrupted anywhere

A `FineRun` is an infinite execution of a new engine whose loop goroutine does its work piece by piece (as for C81). It is
`Fair` if no step of the engine's own goroutines that is possible again and again is passed over for ever, the next piece
of the loop's work included. The theorems are those of C80.
-/

namespace Verif.Props
open Verif.Spec Verif.Engine Relation

variable {cfg : Config} {f f' : Fine}

theorem fine_dead {r : FineRun cfg} (hx : ∀ k, .exit ∉ r.hist k) (k : Nat) : (r.st k).s.tomb.dead = false := by
  cases h : (r.st k).s.tomb.dead with
  | false => rfl
  | true => exact absurd ((freach_hinv (r.reach k)).2.dead.1 h) (hx k)

/-- The step of another goroutine is possible whatever the loop is doing. -/
theorem canDo_env {x : Kind} (op : Op) (h1 : op.kind = some x) (he : op.isEnv = true)
    (h2 : (Engine.step cfg f.s op).isSome = true) : FCanDo cfg f (.of x) := by
  obtain ⟨s', hs⟩ := Option.isSome_iff_exists.1 h2
  exact ⟨.env op, { f with s := s' }, by simp [FOp.kind, h1], by simp only [fstep]; rw [if_pos he, hs]; rfl⟩

theorem canDo_started {g : G} (h0 : f.todo = []) (hd : f.s.tomb.dead = false) (hg : f.s.getG g.gid = some g) {w : WRef}
    (hp : g.pc = .registering w) : FCanDo cfg f (.of (.started g.gid)) := by
  have : (fstep cfg f (.started g.gid 0)).isSome = true := by
    simp only [fstep]
    rw [if_pos ⟨by rw [h0]; rfl, hd⟩]
    simp only [hg, hp]
    rfl
  obtain ⟨f', h⟩ := Option.isSome_iff_exists.1 this
  exact ⟨_, f', rfl, h⟩

theorem canDo_stopped {g : G} (h0 : f.todo = []) (hd : f.s.tomb.dead = false) (hg : f.s.getG g.gid = some g) {e : Option Err}
    (hp : g.pc = .sendStopped e) : FCanDo cfg f (.of (.stopped g.gid)) := by
  obtain ⟨vals, hv⟩ := exists_validVals f.s.dependents g.name
  have : (fstep cfg f (.stopped g.gid 0 vals)).isSome = true := by
    simp only [fstep]
    rw [if_pos ⟨by rw [h0]; rfl, hd, by rw [hg]; exact hv⟩]
    simp only [hg, hp]
    rfl
  obtain ⟨f', h⟩ := Option.isSome_iff_exists.1 this
  exact ⟨_, f', rfl, h⟩

theorem mover_of_kind {op : FOp} {x : Kind} {g : Nat} (h : op.kind = some (.of x))
    (hx : x ∈ [Kind.started g, .stopped g, .abort g, .timer g, .registerDying g, .selfDone g, .waitRet g]) :
    op.mover = some g := by
  cases op with
  | env op =>
    cases hk : op.kind with
    | none => simp [FOp.kind, hk] at h
    | some y =>
      simp only [FOp.kind, hk, Option.map_some, Option.some.injEq, FKind.of.injEq] at h
      subst h
      cases op <;> simp only [Op.kind, Option.some.injEq, reduceCtorEq] at hk <;> subst hk <;> simp_all [FOp.mover, Op.mover]
  | work => cases h
  | report => cases h
  | install => cases h
  | dying order =>
    simp only [FOp.kind, Option.some.injEq, FKind.of.injEq] at h
    subst h; simp at hx
  | started g' now =>
    simp only [FOp.kind, Option.some.injEq, FKind.of.injEq] at h
    subst h; simp_all [FOp.mover]
  | stopped g' now vals =>
    simp only [FOp.kind, Option.some.injEq, FKind.of.injEq] at h
    subst h; simp_all [FOp.mover]

/-- Where an attempt that stays open stays: in its delay, or as `Stays` says. -/
theorem FineRun.stuck {r : FineRun cfg} (hf : r.Fair) {n : Nat} {a : Name} {g : Nat}
    (hop : ∀ k, n ≤ k → openH (r.hist k) a = some g) : Stays r.hist a g ∨
      ∃ m, n ≤ m ∧ ∀ k, m ≤ k → (r.op k).mover ≠ some g ∧ ∃ x, (r.st k).s.getG g = some x ∧ x.pc = .delaying := by
  obtain ⟨G, hG, rfl, rfl⟩ := (freach_hinv (r.reach n)).2.openN a g (hop n (Nat.le_refl _))
  obtain ⟨m, pc, hm, hfol⟩ := FineRun.follow hop
  by_cases hx : ∃ k, .exit ∈ r.hist k
  · obtain ⟨k0, hx⟩ := hx
    refine Or.inl (.gone (max n k0) (fun k hk => ?_) (r.hist_mono (Nat.le_max_right _ _) hx))
    obtain ⟨c, i⟩ := freach_hinv (r.reach k)
    obtain ⟨D, hex⟩ := freach_ex (r.reach k)
    obtain ⟨x, hx', h1, h2⟩ := i.openN _ _ (hop k (by omega))
    have := dead_self c i (ex_wphase hex) (i.dead.2 (r.hist_mono (show k0 ≤ k by omega) hx)) hx'
    rw [h1] at this; exact this
  have hx : ∀ k, .exit ∉ r.hist k := fun k h => hx ⟨k, h⟩
  have dead := fine_dead hx
  -- no step of the goroutine is possible again and again
  have never : ∀ x : Kind, x.isTimer = false → x ∈ [Kind.started G.gid, .stopped G.gid, .abort G.gid, .timer G.gid,
      .registerDying G.gid, .selfDone G.gid, .waitRet G.gid] → ¬ InfOften (fun k => FCanDo cfg (r.st k) (.of x)) := by
    intro x hxt hx' hc
    obtain ⟨k, hk, h⟩ := hf (.of x) hxt hc m
    exact (hfol k hk).1 (mover_of_kind h hx')
  have at' : ∀ k, m ≤ k → ∃ x ∈ (r.st k).s.gs, (r.st k).s.getG G.gid = some x ∧ x.name = G.name ∧ x.pc = pc ∧
      PcOk (r.st k).s.hist x ∧ x.gid = G.gid := by
    intro k hk
    obtain ⟨_, x, hx', h1, h2, h3⟩ := hfol k hk
    obtain ⟨c, i⟩ := freach_hinv (r.reach k)
    exact ⟨x, hx', by rw [← h1]; exact c.getG_eq hx', h2, h3, i.pc x hx', h1⟩
  have kinv : ∀ k w, m ≤ k → pc ≠ .registering w → phaseH (r.hist k) G.name = .ok w →
      killedH (r.hist k) G.name = true ∨ (workerH (r.hist k) G.name = some w ∧ .cancelled G.gid ∉ r.hist k) := by
    intro k w hk hpc hp
    obtain ⟨_, x, hx', h1, h2, h3⟩ := hfol k hk
    obtain ⟨c, i⟩ := freach_hinv (r.reach k)
    obtain ⟨D, hex⟩ := freach_ex (r.reach k)
    rcases ex_kinv hex x hx' w (by rw [h2]; exact hp) with h | h | ⟨h, h'⟩
    · exact Or.inl (by rw [← h2]; exact h)
    · exact absurd (h3.symm.trans h) hpc
    · exact Or.inr ⟨by rw [← h2]; exact h, fun hc => by
        have := (i.canc x hx').2 (by rw [h1]; exact hc)
        rw [h'] at this; cases this⟩
  have idle : InfOften (fun k => m ≤ k ∧ (r.st k).todo = []) := (FineRun.idle_again hf).mono_from m (fun k h1 h2 => ⟨h1, h2⟩)
  cases hpc : pc with
  | delaying =>
    refine Or.inr ⟨m, hm, fun k hk => ⟨(hfol k hk).1, ?_⟩⟩
    obtain ⟨x, _, h1, _, h3, _⟩ := at' k hk
    exact ⟨x, h1, h3.trans hpc⟩
  | starting =>
    refine Or.inl (.start m (fun k hk => ?_))
    obtain ⟨x, _, _, h2, h3, h4, _⟩ := at' k hk
    unfold PcOk at h4; rw [h3, hpc, h2] at h4; exact h4
  | registering w =>
    refine (never (.started G.gid) rfl (by simp) (idle.mono (fun k ⟨hk, h0⟩ => ?_))).elim
    obtain ⟨x, _, h1, _, h3, _, h5⟩ := at' k hk
    rw [← h5]; exact canDo_started h0 (dead k) (by rw [h5]; exact h1) (h3.trans hpc)
  | selfWait =>
    have nokill : ∀ k0, .kill ∉ r.hist k0 := by
      intro k0 hk0
      refine never (.selfDone G.gid) rfl (by simp) (infOften_of_from (max m k0) (fun k hk => ?_))
      obtain ⟨x, _, h1, _, h3, _⟩ := at' k (by omega)
      refine canDo_env (.gSelfDone G.gid) rfl rfl ?_
      simp only [Engine.step, h1]
      rw [if_pos ⟨h3.trans hpc, (freach_hinv (r.reach k)).2.dying.2 (r.hist_mono (show k0 ≤ k by omega) hk0)⟩]; rfl
    refine Or.inl (.self m (fun k hk => ?_) nokill)
    obtain ⟨x, _, _, h2, h3, h4, _⟩ := at' k hk
    unfold PcOk at h4; rw [h3, hpc, h2] at h4
    refine ⟨h4, ?_⟩
    rcases kinv k .self hk (by rw [hpc]; nofun) h4 with h | h
    · obtain ⟨D, hex⟩ := freach_ex (r.reach k)
      exact absurd (ex_self_kill hex (killedH_mem h h4)) (nokill k)
    · exact h
  | waiting w =>
    refine Or.inl (.worker m w (fun k hk => ?_) (fun k0 e hk0 => ?_))
    · obtain ⟨x, _, _, h2, h3, h4, _⟩ := at' k hk
      unfold PcOk at h4; rw [h3, hpc, h2] at h4
      exact ⟨h4, kinv k (.obj w) hk (by rw [hpc]; nofun) h4⟩
    · refine never (.waitRet G.gid) rfl (by simp) (infOften_of_from (max m k0) (fun k hk => ?_))
      obtain ⟨x, _, h1, _, h3, _⟩ := at' k (by omega)
      have := ((freach_hinv (r.reach k)).2.fin w e).2 (r.hist_mono (show k0 ≤ k by omega) hk0)
      refine canDo_env (.gWaitRet G.gid) rfl rfl ?_
      simp only [Engine.step, h1, h3.trans hpc, this]; rfl
  | sendStopped e =>
    refine (never (.stopped G.gid) rfl (by simp) (idle.mono (fun k ⟨hk, h0⟩ => ?_))).elim
    obtain ⟨x, _, h1, _, h3, _, h5⟩ := at' k hk
    rw [← h5]; exact canDo_stopped h0 (dead k) (by rw [h5]; exact h1) (h3.trans hpc)

/-- C97, as C80: every attempt to start a manifold ends, unless its Start func does not return, its worker does not finish,
or its worker is the engine itself. -/
theorem C97_attempts_end {r : FineRun cfg} (hf : r.Fair) (hd : r.DelaysEnd) {n : Nat} {a : Name} {g : Nat}
    (ho : openH (r.hist n) a = some g) : (∃ k now raw f t l, .ended a g now raw f t l ∈ r.hist k) ∨
      ((∀ k, n ≤ k → openH (r.hist k) a = some g) ∧ Stays r.hist a g) := by
  by_cases hne : ∃ k now raw f t l, .ended a g now raw f t l ∈ r.hist k
  · exact Or.inl hne
  have hop := FineRun.stays_open ho (fun k now raw f t l h => hne ⟨k, now, raw, f, t, l, h⟩)
  refine Or.inr ⟨hop, (FineRun.stuck hf hop).resolve_right ?_⟩
  rintro ⟨m, _, h⟩
  obtain ⟨k, hk, hk'⟩ := hd g (infOften_of_from m (fun k hk => by
    obtain ⟨_, x, h1, h3⟩ := h k hk
    refine canDo_env (.gTimer g 0) rfl rfl ?_
    simp only [Engine.step, h1]
    rw [if_pos ⟨h3, by decide, by decide⟩]; rfl)) m
  exact (h k hk).1 (mover_of_kind hk' (by simp))

-- the first attempt for manifold 1 ends: its Start func is called while the loop is at work, and it is told to stop
example : FDemo.up.Fair ∧ FDemo.up.DelaysEnd ∧ (FDemo.up.st 10).todo ≠ [] ∧ openH (FDemo.up.hist 10) 1 = some 1 ∧
    openH (FDemo.up.hist 25) 1 = some 2 :=
  ⟨FDemo.up_fair.1, FDemo.up_fair.2, by decide +kernel, by decide +kernel, by decide +kernel⟩

-- the second stays, its worker not finishing
example : openH (FDemo.up.hist 25) 1 = some 2 ∧ ∀ k now raw f t l, .ended 1 2 now raw f t l ∉ FDemo.up.hist k := by
  refine ⟨by decide +kernel, fun k now raw f t l h => ?_⟩
  have h1 := FDemo.up.hist_mono (Nat.le_max_left k FDemo.opsUp.length) h
  have h3 := FDemo.up_stays (fun h => h.any (fun | .ended 1 2 _ _ _ _ _ => true | _ => false)) (fun _ _ _ _ => rfl)
    (Nat.le_max_right k FDemo.opsUp.length)
  have h4 := h3.symm.trans (List.any_eq_true.2 ⟨_, h1, rfl⟩)
  revert h4
  decide +kernel

/-- C97, as C80: every attempt that has been told to stop ends, or the engine exits, if every Start func returns whose
context has been cancelled and every worker that has been Kill()ed finishes. -/
theorem C97_told_ends {r : FineRun cfg} (hf : r.Fair) (hs : StartsHeed r.hist) (hw : KilledFinish r.hist)
    {n : Nat} {a : Name} {g : Nat} (ho : openH (r.hist n) a = some g) (hc : .cancelled g ∈ r.hist n) :
    ∃ k, .exit ∈ r.hist k ∨ ∃ now raw f t l, .ended a g now raw f t l ∈ r.hist k := by
  by_cases hne : ∃ k now raw f t l, .ended a g now raw f t l ∈ r.hist k
  · obtain ⟨k, h⟩ := hne
    exact ⟨k, Or.inr h⟩
  have hop := FineRun.stays_open ho (fun k now raw f t l h => hne ⟨k, now, raw, f, t, l, h⟩)
  rcases FineRun.stuck hf hop with h | ⟨m, hm, h⟩
  · cases h with
    | start m h =>
      have h1 := hop (max n m) (Nat.le_max_left _ _)
      obtain ⟨j, hj, hn⟩ := hs _ a g h1 (h _ (Nat.le_max_right _ _)) (r.hist_mono (Nat.le_max_left _ _) hc)
      exact absurd ⟨hop j (by omega), h j (by omega)⟩ hn
    | worker m w h hf =>
      obtain ⟨h1, h2⟩ := h (max n m) (Nat.le_max_right _ _)
      rcases h2 with h2 | ⟨_, h2⟩
      · obtain ⟨j, e, hj⟩ := hw _ w (killedH_mem h2 h1)
        exact absurd hj (hf j e)
      · exact absurd (r.hist_mono (Nat.le_max_left _ _) hc) h2
    | self m h _ => exact absurd (r.hist_mono (Nat.le_max_left _ _) hc) (h (max n m) (Nat.le_max_right _ _)).2.2
    | gone m _ h => exact ⟨m, Or.inl h⟩
  · exfalso
    obtain ⟨k, hk, hk'⟩ := hf (.of (.abort g)) rfl (infOften_of_from m (fun k hk => by
      obtain ⟨_, x, h1, h3⟩ := h k hk
      obtain ⟨hx, rfl⟩ := getG_some _ _ h1
      refine canDo_env (.gAbort x.gid) rfl rfl ?_
      simp only [Engine.step, h1]
      rw [if_pos ⟨h3, Or.inr (((freach_hinv (r.reach k)).2.canc x hx).2 (r.hist_mono (show n ≤ k by omega) hc))⟩]; rfl)) m
    exact (h k hk).1 (mover_of_kind hk' (by simp))

example : FDemo.up.Fair ∧ StartsHeed FDemo.up.hist ∧ KilledFinish FDemo.up.hist ∧
    openH (FDemo.up.hist 14) 1 = some 1 ∧ .cancelled 1 ∈ FDemo.up.hist 14 ∧ (FDemo.up.st 14).todo ≠ [] :=
  ⟨FDemo.up_fair.1,
    Demo.starts_heed (FDemo.mkRun_starts (cfg := Demo.cfg) (ops := FDemo.opsUp) (by decide +kernel)),
    FDemo.mkRun_killed (cfg := Demo.cfg) (ops := FDemo.opsUp) (x := FDemo.reportOps) (by unfold reportEv; rfl) (by decide +kernel),
    by decide +kernel, by decide +kernel, by decide +kernel⟩

/-! ## A killed engine exits -/

/-- The loop has told everything to stop, or is about to finish that arm. -/
def Handled (f : Fine) : Prop := f.s.oneShot = false ∨ .clearOneShot ∈ f.todo

theorem exec_oneShot (cfg : Config) (s : State) (t : Task) : (exec cfg s t).1.oneShot = s.oneShot ∨ (exec cfg s t).1.oneShot = false := by
  have ht : ∀ a : State, a.tick.oneShot = a.oneShot := fun a => (sameG_tick a).2.1
  have hs : ∀ (a : State) n d, (requestStart a n d).oneShot = a.oneShot := by
    intro a n d
    unfold requestStart
    simp only
    have h1 : (if (a.manifolds.get? n).isNone then a.killInternal 384 n else a).oneShot = a.oneShot := by split <;> rfl
    generalize (if (a.manifolds.get? n).isNone then a.killInternal 384 n else a) = s1 at *
    have h2 : (if (s1.cur n).stopped then s1 else s1.killInternal 390 n).oneShot = a.oneShot := by split <;> exact h1
    generalize (if (s1.cur n).stopped then s1 else s1.killInternal 390 n) = s2 at *
    split <;> exact (ht s2).trans h2
  cases t with
  | start n d => exact Or.inl (hs ..)
  | react n told err vals lost => left; simp only [exec]; split <;> rfl
  | remove n vals => exact Or.inl rfl
  | bounceAll n => exact Or.inl rfl
  | bounce d =>
    left
    simp only [exec]
    split
    · exact hs ..
    · exact (sameG_requestStop ..).2.1
  | stop n => exact Or.inl (sameG_requestStop s n).2.1
  | clearOneShot => exact Or.inr rfl
  | report =>
    left
    simp only [exec]
    unfold liveReport
    simp only
    split <;> exact ht s
  | check => exact Or.inl (sameG_endArm s).2

theorem handled_step {op : FOp} (h : fstep cfg f op = some f') (hh : Handled f) : Handled f' := by
  have arm : f.todo.isEmpty = true → f.s.oneShot = false := by
    intro h0
    rcases hh with h1 | h1
    · exact h1
    · rw [List.isEmpty_iff.1 h0] at h1; cases h1
  cases op with
  | env op =>
    simp only [fstep] at h
    split at h
    · rename_i he
      rw [Option.map_eq_some_iff] at h
      obtain ⟨s', hs, rfl⟩ := h
      exact hh.imp_left (fun h1 => (env_oneShot he hs).trans h1)
    · cases h
  | work =>
    simp only [fstep] at h
    split at h
    · cases h
    · rename_i t ts ht
      simp only [Option.some.injEq] at h; subst h
      rcases hh with h1 | h1
      · refine Or.inl ?_
        rcases exec_oneShot cfg f.s t with h2 | h2
        · exact h2.trans h1
        · exact h2
      · rw [ht] at h1
        rcases List.mem_cons.1 h1 with h2 | h2
        · subst h2; exact Or.inl rfl
        · exact Or.inr (List.mem_append_right _ h2)
  | dying order => simp only [fstep] at h; split at h <;> cases h; rename_i hc; exact Or.inl (arm hc.1)
  | report => simp only [fstep] at h; split at h <;> cases h; rename_i hc; exact Or.inl (arm hc.1)
  | install n m order =>
    simp only [fstep] at h
    split at h <;> cases h
    rename_i hc
    refine Or.inl ?_
    unfold beginInstall
    split
    · exact arm hc.1
    · split <;> exact arm hc.1
  | started gid now =>
    simp only [fstep] at h
    split at h
    case isFalse => cases h
    rename_i hc
    split at h
    · cases h
    split at h <;> cases h
    refine Or.inl ?_
    have hk : ∀ (a : State) w, (a.killWorker w).oneShot = a.oneShot := fun a w => (sameG_killWorker a w).2.1
    unfold beginStarted
    simp only
    split
    · exact (hk ..).trans (arm hc.1)
    · split
      · exact (hk ..).trans (arm hc.1)
      · split
        · exact (hk ..).trans (arm hc.1)
        · exact arm hc.1
  | stopped gid now vals =>
    simp only [fstep] at h
    split at h
    case isFalse => cases h
    rename_i hc
    split at h
    · cases h
    split at h <;> cases h
    refine Or.inl ?_
    have hn : ∀ (a : State) n e, (noteFatal cfg a n e).oneShot = a.oneShot := by
      intro a n e
      unfold noteFatal
      split
      · rfl
      · split <;> rfl
    exact (hn ..).trans (arm hc.1)

/-- A killed engine that does not exit tells everything to stop. -/
theorem FineRun.handled {r : FineRun cfg} (hf : r.Fair) (hx : ∀ k, .exit ∉ r.hist k) {n : Nat} (hk : .kill ∈ r.hist n) :
    ∃ m, n ≤ m ∧ ∀ k, m ≤ k → Handled (r.st k) := by
  have once : ∀ m, n ≤ m → Handled (r.st m) → ∃ m, n ≤ m ∧ ∀ k, m ≤ k → Handled (r.st k) := fun m hm h =>
    ⟨m, hm, kept h (fun k _ h => handled_step (r.next k) h)⟩
  by_cases hi : InfOften (fun k => (r.st k).todo = [] ∧ (r.st k).s.oneShot = true)
  · obtain ⟨k, hk1, h1⟩ := hf (.of .dying) rfl (hi.mono_from n (fun k hkn h => by
      obtain ⟨D, hex⟩ := freach_ex (r.reach k)
      have hdy : (r.st k).s.dying = true := (freach_hinv (r.reach k)).2.dying.2 (r.hist_mono hkn hk)
      have ho : isRangeOrder (r.st k).s.current (r.st k).s.current.keys = true := by
        rw [isRangeOrder_iff]; exact ⟨(ex_binv hex).1, fun _ => Iff.rfl⟩
      exact ⟨.dying (r.st k).s.current.keys, _, rfl, by
        simp only [fstep]; rw [if_pos ⟨by rw [h.1]; rfl, fine_dead hx k, h.2, hdy, ho⟩]⟩)) n
    refine once (k + 1) (by omega) ?_
    have hn := r.next k
    cases ho : r.op k with
    | dying order =>
      rw [ho] at hn
      simp only [fstep] at hn
      split at hn
      · simp only [Option.some.injEq] at hn
        rw [← hn]; exact Or.inr (by simp)
      · cases hn
    | env op =>
      exfalso
      rw [ho] at h1 hn
      simp only [fstep] at hn
      split at hn
      · rename_i he
        cases op <;> first | (cases he; done) | (cases h1; done)
      · cases hn
    | work | report | install _ _ _ | started _ _ | stopped _ _ _ => rw [ho] at h1; cases h1
  · obtain ⟨m, hm⟩ := not_infOften hi
    obtain ⟨k, hk1, h0⟩ := FineRun.idle_again hf (max n m)
    refine once k (by omega) (Or.inl ?_)
    cases h : (r.st k).s.oneShot with
    | false => rfl
    | true => exact absurd ⟨h0, h⟩ (hm k (by omega))

/-- Nothing is begun after Kill. -/
theorem FineRun.open_before {r : FineRun cfg} {n k : Nat} (hnk : n ≤ k) (hk : .kill ∈ r.hist n) {a : Name} {g : Nat}
    (ho : openH (r.hist k) a = some g) : openH (r.hist n) a = some g := by
  obtain ⟨d, hd⟩ := r.hist_append hnk
  rw [hd] at ho
  rcases openH_append ho with ⟨b, q, sn, hm⟩ | h
  · exfalso
    have hs := C81_nothing_started (r.reach k)
    have e : (r.st k).s.hist = d ++ r.hist n := hd
    rw [e] at hs
    obtain ⟨d1, d2, rfl⟩ := List.append_of_mem hm
    rw [List.append_assoc] at hs
    exact hs.split (List.mem_append_right _ hk)
  · exact h

/-- C97, as C80: an engine that has been killed exits, whatever its clients do meanwhile, if every Start func returns whose
context has been cancelled and every worker that has been Kill()ed finishes. No delay need end. -/
theorem C97_killed_exits {r : FineRun cfg} (hf : r.Fair) (hs : StartsHeed r.hist) (hw : KilledFinish r.hist) {n : Nat}
    (hk : .kill ∈ r.hist n) : ∃ k, .exit ∈ r.hist k := by
  refine Classical.byContradiction (fun hx => ?_)
  have hx : ∀ k, .exit ∉ r.hist k := fun k h => hx ⟨k, h⟩
  obtain ⟨m, hm, hh⟩ := FineRun.handled hf hx hk
  have one : ∀ k, m ≤ k → (r.st k).todo = [] → (r.st k).s.oneShot = false := by
    intro k hk1 h0
    rcases hh k hk1 with h | h
    · exact h
    · rw [h0] at h; cases h
  have idle : InfOften (fun k => m ≤ k ∧ (r.st k).todo = []) := (FineRun.idle_again hf).mono_from m (fun k h1 h2 => ⟨h1, h2⟩)
  -- whenever the loop is at its select, some attempt is open
  have some_open : ∀ k, m ≤ k → (r.st k).todo = [] → ∃ G ∈ (r.st n).s.gs, openH (r.hist k) G.name = some G.gid := by
    intro k hk1 h0
    have hwt := freach_waits (r.reach k) (one k hk1 h0) h0 (fine_dead hx k)
    unfold allOthersStopped at hwt
    obtain ⟨a, _, ha⟩ := List.all_eq_false.1 hwt
    simp only [Bool.or_eq_true, not_or, Bool.not_eq_true] at ha
    obtain ⟨c, i⟩ := freach_hinv (r.reach k)
    obtain ⟨x, hx', rfl⟩ := c.live a ha.1
    have ho := i.openG x hx'
    obtain ⟨y, hy, h1, h2⟩ := (freach_hinv (r.reach n)).2.openN _ _ (FineRun.open_before (show n ≤ k by omega) hk ho)
    exact ⟨y, hy, by rw [h1, h2]; exact ho⟩
  obtain ⟨G, _, hG⟩ := InfOften.of_list (P := fun (G : G) k => openH (r.hist k) G.name = some G.gid) (r.st n).s.gs
    (idle.mono (fun k ⟨h1, h2⟩ => some_open k h1 h2))
  have hop : ∀ k, m ≤ k → openH (r.hist k) G.name = some G.gid := by
    intro k hk1
    obtain ⟨j, hj, ho⟩ := hG k
    exact FineRun.open_before hj (r.hist_mono (show n ≤ k by omega) hk) ho
  -- and it has been told to stop
  obtain ⟨k0, _, hk0, h0⟩ := idle m
  have hc : .cancelled G.gid ∈ r.hist k0 := C81_told (r.reach k0) (one k0 hk0 h0) (hop k0 hk0)
  rcases FineRun.stuck hf hop with h | ⟨m', hm', h⟩
  · cases h with
    | start q h =>
      have h1 := hop (max k0 q) (by omega)
      obtain ⟨j, hj, hn⟩ := hs _ _ _ h1 (h _ (Nat.le_max_right _ _)) (r.hist_mono (Nat.le_max_left _ _) hc)
      exact absurd ⟨hop j (by omega), h j (by omega)⟩ hn
    | worker q w h hf =>
      obtain ⟨h1, h2⟩ := h (max k0 q) (Nat.le_max_right _ _)
      rcases h2 with h2 | ⟨_, h2⟩
      · obtain ⟨j, e, hj⟩ := hw _ w (killedH_mem h2 h1)
        exact absurd hj (hf j e)
      · exact absurd (r.hist_mono (Nat.le_max_left _ _) hc) h2
    | self q _ h => exact h n hk
    | gone q _ h => exact hx q h
  · obtain ⟨k, hk1, hk2⟩ := hf (.of (.abort G.gid)) rfl (infOften_of_from m' (fun k hk1 => by
      obtain ⟨_, x, h1, h3⟩ := h k hk1
      refine canDo_env (.gAbort G.gid) rfl rfl ?_
      simp only [Engine.step, h1]
      rw [if_pos ⟨h3, Or.inl ((freach_hinv (r.reach k)).2.dying.2 (r.hist_mono (show n ≤ k by omega) hk))⟩]; rfl)) m'
    exact (h k hk1).1 (mover_of_kind hk2 (by simp))

-- killed while the loop reacts to the end of an attempt
example : FDemo.down.Fair ∧ StartsHeed FDemo.down.hist ∧ KilledFinish FDemo.down.hist ∧ .kill ∈ FDemo.down.hist 34 ∧
    (FDemo.down.st 34).todo ≠ [] ∧ .exit ∉ FDemo.down.hist 34 :=
  ⟨FDemo.down_fair.1, Demo.starts_heed (FDemo.mkRun_starts (cfg := Demo.cfg) (ops := FDemo.opsDown) (by decide +kernel)),
    FDemo.mkRun_killed (cfg := Demo.cfg) (ops := FDemo.opsDown) rfl (by decide +kernel), by decide +kernel, by decide +kernel,
    by decide +kernel⟩

/-! ## Convergence -/

/-- What a calm environment does (as for C65): no Kill, no Install, and as `Calm` says. -/
def FCalm (cfg : Config) (h : List Ev) : FOp → Prop
  | .env op => Calm cfg h op
  | .install _ _ _ => False
  | _ => True

/-- The steps by which the engine makes progress. -/
def progress : FOp → Bool
  | .env op => internal op
  | .started _ _ | .stopped _ _ _ | .dying _ => true
  | .work | .report | .install _ _ _ => false

theorem fcalm_step {c : Name → Nat} (hr : FReach cfg f) (hw : Weight c f.s) {op : FOp} (hc : FCalm cfg f.s.hist op)
    (h : fstep cfg f op = some f') (hk : .kill ∉ f'.s.hist) :
    Weight c f'.s ∧ fmu cfg c f' ≤ fmu cfg c f ∧ (progress op = true → fmu cfg c f' < fmu cfg c f) := by
  obtain ⟨D, hl⟩ := freach_link hr
  have hr' : FReach cfg f' := .step op hr h
  have h1 : f'.s.dying = false := by
    cases hd : f'.s.dying with
    | false => rfl
    | true => exact absurd ((freach_hinv hr').2.dying.1 hd) hk
  have h0 : f.s.dying = false := by
    cases hd : f.s.dying with
    | false => rfl
    | true => exact absurd ((fstep_grows (freach_hinv hr).1 h).mem ((freach_hinv hr).2.dying.1 hd)) hk
  cases op with
  | env op =>
    simp only [fstep] at h
    split at h
    · rename_i he
      rw [Option.map_eq_some_iff] at h
      obtain ⟨s', hs, rfl⟩ := h
      obtain ⟨co, i⟩ := freach_hinv hr
      obtain ⟨a, b, d⟩ := calm_core co i hw hc hs h1 h0
      have e : tsum c s' f.todo = tsum c f.s f.todo := tsum_congr (env_frame he hs).dependents _
      refine ⟨a, ?_, fun hp => ?_⟩
      · show mu cfg c s' + tsum c s' f.todo ≤ mu cfg c f.s + tsum c f.s f.todo
        omega
      · have := d hp
        show mu cfg c s' + tsum c s' f.todo < mu cfg c f.s + tsum c f.s f.todo
        omega
    · cases h
  | work =>
    obtain ⟨a, b⟩ := fmu_work hl hw h h0 h1
    exact ⟨a, b, fun hp => by cases hp⟩
  | dying order =>
    simp only [fstep] at h
    split at h
    · rename_i hx; rw [h0] at hx; cases hx.2.2.2.1
    · cases h
  | report =>
    simp only [fstep] at h
    split at h
    · rename_i hx
      simp only [Option.some.injEq] at h; subst h
      refine ⟨hw, ?_, fun hp => by cases hp⟩
      unfold fmu
      rw [List.isEmpty_iff.1 hx.1]
      exact Nat.le_refl _
    · cases h
  | install n m order => exact hc.elim
  | started gid now =>
    obtain ⟨a, b⟩ := fmu_started hl hw h h1
    exact ⟨a, Nat.le_of_lt b, fun _ => b⟩
  | stopped gid now vals =>
    obtain ⟨a, b⟩ := fmu_stopped hl hw h
    exact ⟨a, Nat.le_of_lt b, fun _ => b⟩

/-- All the loop still has to do is to answer a report. -/
def Quiet (f : Fine) : Prop := ∀ t ∈ f.todo, t = .report ∨ t = .check

theorem quiet_step {op : FOp} (h : fstep cfg f op = some f') (hp : progress op = false)
    (hi : ∀ n m o, op ≠ .install n m o) (hq : Quiet f) : Quiet f' ∧ f'.s.gs = f.s.gs := by
  cases op with
  | env op =>
    simp only [fstep] at h
    split at h
    · rename_i he
      rw [Option.map_eq_some_iff] at h
      obtain ⟨s', hs, rfl⟩ := h
      exact ⟨hq, quiet_gs hs hp (Or.inr (fun n m o p e => by rw [e] at he; cases he))⟩
    · cases h
  | work =>
    simp only [fstep] at h
    split at h
    · cases h
    · rename_i t ts ht
      simp only [Option.some.injEq] at h; subst h
      have hts : ∀ x ∈ ts, x = .report ∨ x = .check := fun x hx => hq x (by rw [ht]; exact List.mem_cons_of_mem _ hx)
      rcases hq t (by rw [ht]; exact List.mem_cons_self) with rfl | rfl
      · refine ⟨hts, ?_⟩
        show (liveReport f.s).gs = f.s.gs
        unfold liveReport
        simp only
        split <;> exact tick_gs f.s
      · exact ⟨hts, endArm_gs _⟩
  | dying order => cases hp
  | report =>
    simp only [fstep] at h
    split at h
    · simp only [Option.some.injEq] at h; subst h
      exact ⟨by intro t ht; simpa using ht, rfl⟩
    · cases h
  | install n m o => exact absurd rfl (hi n m o)
  | started gid now => cases hp
  | stopped gid now vals => cases hp

/-- From some moment on everything of finitely many things. -/
theorem from_list {α : Type} {P : α → Nat → Prop} : ∀ (l : List α), (∀ x ∈ l, ∃ m, ∀ k, m ≤ k → P x k) →
    ∃ m, ∀ k, m ≤ k → ∀ x ∈ l, P x k := by
  intro l
  induction l with
  | nil => intro _; exact ⟨0, fun _ _ _ h => by cases h⟩
  | cons a l ih =>
    intro h
    obtain ⟨m1, h1⟩ := h a (by simp)
    obtain ⟨m2, h2⟩ := ih (fun x hx => h x (by simp [hx]))
    refine ⟨max m1 m2, fun k hk x hx => ?_⟩
    rcases List.mem_cons.1 hx with rfl | hx
    · exact h1 k (by omega)
    · exact h2 k (by omega) x hx

/-- A run of a live engine whose environment is calm: it comes to rest. -/
theorem FineRun.comes_to_rest {r : FineRun cfg} (hf : r.Fair) (hd : r.DelaysEnd) (hs : StartsReturn r.hist)
    (hw : KilledFinish r.hist) (hk : ∀ k, .kill ∉ r.hist k) {n : Nat} (hc : ∀ k, n ≤ k → FCalm cfg (r.hist k) (r.op k)) :
    ∃ m, ∀ k, m ≤ k → Settled (r.hist k) ∧ Quiet (r.st k) ∧ (r.st k).s.gs = (r.st m).s.gs := by
  obtain ⟨D, hex⟩ := freach_ex (r.reach n)
  obtain ⟨c, hw0⟩ := ex_weight hex
  have hwt : ∀ k, n ≤ k → Weight c (r.st k).s :=
    kept hw0 (fun k hk1 h => (fcalm_step (r.reach k) h (hc k hk1) (r.next k) (hk (k + 1))).1)
  have hstep : ∀ k, n ≤ k → fmu cfg c (r.st (k + 1)) ≤ fmu cfg c (r.st k) ∧
      (progress (r.op k) = true → fmu cfg c (r.st (k + 1)) < fmu cfg c (r.st k)) :=
    fun k hk1 => (fcalm_step (r.reach k) (hwt k hk1) (hc k hk1) (r.next k) (hk (k + 1))).2
  obtain ⟨m, hm, hcst⟩ := settles (f := fun k => fmu cfg c (r.st k)) (fun k hk1 => (hstep k hk1).1)
  have hq : ∀ k, m ≤ k → progress (r.op k) = false := by
    intro k hk1
    cases hp : progress (r.op k) with
    | false => rfl
    | true =>
      have h1 := (hstep k (by omega)).2 hp
      have h2 := hcst k hk1
      have h3 := hcst (k + 1) (by omega)
      omega
  obtain ⟨k0, hk0, h0⟩ := FineRun.idle_again hf m
  have hno : ∀ k, n ≤ k → ∀ a b d, r.op k ≠ .install a b d := fun k hk1 a b d h => by
    have := hc k hk1; rw [h] at this; exact this
  have hquiet : ∀ k, k0 ≤ k → Quiet (r.st k) := kept (fun t ht => by rw [h0] at ht; cases ht)
    (fun k hk1 h => (quiet_step (r.next k) (hq k (by omega)) (hno k (by omega)) h).1)
  have hgs : ∀ k, k0 ≤ k → (r.st k).s.gs = (r.st k0).s.gs := stays (f := fun k => (r.st k).s.gs)
    (fun k hk1 => (quiet_step (r.next k) (hq k (by omega)) (hno k (by omega)) (hquiet k hk1)).2)
  have hx : ∀ k, .exit ∉ r.hist k := fun k h => by
    obtain ⟨co, i⟩ := freach_hinv (r.reach k)
    exact hk k (i.dying.1 (co.dead (i.dead.2 h)).1)
  -- each attempt comes to rest
  have each : ∀ G ∈ (r.st k0).s.gs, ∃ m, ∀ k, m ≤ k → .cancelled G.gid ∉ r.hist k ∧ ∃ w, workerH (r.hist k) G.name = some w ∧
      ∀ q, w = .obj q → ∀ e, .finished q e ∉ r.hist k := by
    intro G hG
    have hop : ∀ k, k0 ≤ k → openH (r.hist k) G.name = some G.gid := fun k hk1 =>
      (freach_hinv (r.reach k)).2.openG G (by rw [hgs k hk1]; exact hG)
    rcases FineRun.stuck hf hop with h | ⟨m', hm', h⟩
    · cases h with
      | start q h =>
        obtain ⟨j, hj, hn⟩ := hs _ _ _ (hop (max k0 q) (by omega)) (h _ (Nat.le_max_right _ _))
        exact absurd ⟨hop j (by omega), h j (by omega)⟩ hn
      | worker q w h hfw =>
        refine ⟨q, fun k hk1 => ?_⟩
        obtain ⟨h1, h2⟩ := h k hk1
        rcases h2 with h2 | ⟨h2, h3⟩
        · obtain ⟨j, e, hj⟩ := hw _ w (killedH_mem h2 h1)
          exact absurd hj (hfw j e)
        · exact ⟨h3, _, h2, fun q' hq' e => by cases hq'; exact hfw k e⟩
      | self q h _ =>
        refine ⟨q, fun k hk1 => ?_⟩
        obtain ⟨_, h2, h3⟩ := h k hk1
        exact ⟨h3, _, h2, fun q' hq' => by cases hq'⟩
      | gone q _ h => exact absurd h (hx q)
    · exfalso
      obtain ⟨k, hk1, hk'⟩ := hd G.gid (infOften_of_from m' (fun k hk1 => by
        obtain ⟨_, x, h1, h3⟩ := h k hk1
        refine canDo_env (.gTimer G.gid 0) rfl rfl ?_
        simp only [Engine.step, h1]
        rw [if_pos ⟨h3, by decide, by decide⟩]; rfl)) m'
      exact (h k hk1).1 (mover_of_kind hk' (by simp))
  obtain ⟨m', h'⟩ := from_list _ each
  refine ⟨max k0 m', fun k hk1 => ⟨fun a g ho => ?_, hquiet k (by omega), (hgs k (by omega)).trans (hgs _ (by omega)).symm⟩⟩
  obtain ⟨G, hG, rfl, rfl⟩ := (freach_hinv (r.reach k)).2.openN a g ho
  exact h' k (by omega) G (by rw [← hgs k (by omega)]; exact hG)

/-- C97, as C80: if from some moment on the environment is calm, the Start funcs return, killed workers finish and delays
end, then from some moment on every attempt has a registered worker that runs and has not been told to stop. -/
theorem C97_settles {r : FineRun cfg} (hf : r.Fair) (hd : r.DelaysEnd) (hs : StartsReturn r.hist) (hw : KilledFinish r.hist)
    (hk : ∀ k, .kill ∉ r.hist k) {n : Nat} (hc : ∀ k, n ≤ k → FCalm cfg (r.hist k) (r.op k)) :
    ∃ m, ∀ k, m ≤ k → Settled (r.hist k) := by
  obtain ⟨m, h⟩ := FineRun.comes_to_rest hf hd hs hw hk hc
  exact ⟨m, fun k hk1 => (h k hk1).1⟩

namespace FDemo

theorem up_calm (k : Nat) (hk : 12 ≤ k) : FCalm Demo.cfg (up.hist k) (up.op k) := by
  by_cases h : k < opsUp.length
  · have : ∀ k, k < opsUp.length → 12 ≤ k → (match up.op k with
        | .env op => Demo.calmB (up.hist k) op | .install _ _ _ => false | _ => true) = true := by decide +kernel
    have := this k h hk
    cases ho : up.op k with
    | env op => rw [ho] at this; exact Demo.calmB_spec this
    | install => rw [ho] at this; cases this
    | _ => trivial
  · obtain ⟨d, rfl⟩ : ∃ d, k = opsUp.length + d := ⟨k - opsUp.length, by omega⟩
    rw [show up.op (opsUp.length + d) = reportOps (d % 3) from runOp_later _]
    unfold reportOps
    split <;> trivial

end FDemo

-- at first the engine has not settled
example : FDemo.up.Fair ∧ FDemo.up.DelaysEnd ∧ StartsReturn FDemo.up.hist ∧ KilledFinish FDemo.up.hist ∧
    (∀ k, .kill ∉ FDemo.up.hist k) ∧ (∀ k, 12 ≤ k → FCalm Demo.cfg (FDemo.up.hist k) (FDemo.up.op k)) ∧
    ¬ Settled (FDemo.up.hist 12) :=
  ⟨FDemo.up_fair.1, FDemo.up_fair.2, FDemo.mkRun_starts (cfg := Demo.cfg) (ops := FDemo.opsUp) (by decide +kernel),
    FDemo.mkRun_killed (cfg := Demo.cfg) (ops := FDemo.opsUp) (x := FDemo.reportOps) (by unfold reportEv; rfl) (by decide +kernel),
    FDemo.up_live, FDemo.up_calm, fun h => by
      obtain ⟨_, w, hw, _⟩ := h 1 1 (by decide +kernel)
      have : workerH (FDemo.up.hist 12) 1 = none := by decide +kernel
      rw [this] at hw; cases hw⟩

theorem quiet_noDebt {D : Debt} (hl : Link cfg f D) (hq : Quiet f) : D = noDebt := by
  obtain ⟨s, todo⟩ := f
  obtain ⟨_, _, _, hr⟩ := hl
  have hq : ∀ t ∈ todo, t = .report ∨ t = .check := hq
  have hr : Ready cfg s D todo := hr
  have : ∀ x, ¬ D x := by
    cases hr with
    | idle h => exact h
    | bounces ds h =>
      intro x hx
      rcases hq (.bounce x) (by simp [h x hx]) with e | e <;> cases e
    | bounceAll n => rcases hq (.bounceAll n) (by simp) with e | e <;> cases e
    | start n d b => rcases hq (.start n d) (by simp) with e | e <;> cases e
    | remove n vals b => rcases hq (.remove n vals) (by simp) with e | e <;> cases e
    | react n told err vals b => rcases hq (.react n told err vals b) (by simp) with e | e <;> cases e
    | stops ns hd h => exact h
    | report h => exact h
  funext x
  exact propext ⟨fun h => this x h, fun h => h.elim⟩

/-- C97, as C80: in the end the manifolds that have a worker are those whose inputs, direct and indirect, are all
installed. -/
theorem C97_converges {r : FineRun cfg} (hf : r.Fair) (hd : r.DelaysEnd) (hs : StartsReturn r.hist) (hw : KilledFinish r.hist)
    (hk : ∀ k, .kill ∉ r.hist k) {n : Nat} (hc : ∀ k, n ≤ k → FCalm cfg (r.hist k) (r.op k))
    (hn : ∀ k, AtEvery NeedsInputs (r.hist k)) : ∃ m, ∀ k, m ≤ k → ∀ a, workerH (r.hist k) a ≠ none ↔
      manH (r.hist k) a ≠ none ∧ ∀ i, TransGen (Declares (r.hist k)) a i → manH (r.hist k) i ≠ none := by
  obtain ⟨m, h⟩ := FineRun.comes_to_rest hf hd hs hw hk hc
  refine ⟨m, fun k hk1 a => ?_⟩
  obtain ⟨h1, h2, _⟩ := h k hk1
  obtain ⟨D, hl⟩ := freach_link (r.reach k)
  have e := quiet_noDebt hl h2
  subst e
  exact ex_settled hl.1 (hk k) h1 (hn k) a

example : (∀ k, AtEvery NeedsInputs (FDemo.up.hist k)) ∧ workerH (FDemo.up.hist 12) 1 = none ∧
    manH (FDemo.up.hist 12) 1 ≠ none :=
  ⟨FDemo.up_needs, by decide +kernel, by decide +kernel⟩

end Verif.Props
