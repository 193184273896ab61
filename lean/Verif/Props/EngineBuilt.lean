import Verif.Props.EngineFineFair
import Verif.Props.EngineContext

/-!
# What was built on a worker that has ended

A manifold's Start func is given the workers of its inputs. When one of them has ended, the attempt that was given it ends.
-/

namespace Verif.Props
open Verif.Spec Verif.Engine

variable {cfg : Config}

/-! ## Which steps make and end workers -/

/-- The event is neither the registration nor the end of a worker. -/
def mild : Ev → Bool
  | .registered _ _ _ _ | .ended _ _ _ _ _ _ _ => false
  | _ => true

/-- Only such events have been added. -/
def Mild (h h' : List Ev) : Prop := ∃ es, h' = es ++ h ∧ ∀ e ∈ es, mild e = true

theorem Mild.refl (h : List Ev) : Mild h h := ⟨[], rfl, nofun⟩

theorem Mild.cons {h h' : List Ev} {e : Ev} (m : Mild h h') (he : mild e = true) : Mild h (e :: h') := by
  obtain ⟨es, rfl, hes⟩ := m
  refine ⟨e :: es, rfl, fun x hx => ?_⟩
  rcases List.mem_cons.1 hx with rfl | hx
  · exact he
  · exact hes x hx

theorem Mild.worker {h h' : List Ev} (m : Mild h h') (n : Name) : workerH h' n = workerH h n := by
  obtain ⟨es, rfl, hes⟩ := m
  induction es with
  | nil => rfl
  | cons x es ih =>
    rw [← ih (fun e he => hes e (List.mem_cons_of_mem _ he))]
    have := hes x List.mem_cons_self
    cases x <;> first | rfl | cases this

theorem Mild.mem {h h' : List Ev} (m : Mild h h') {e : Ev} (hn : mild e = false) (he : e ∈ h') : e ∈ h := by
  obtain ⟨es, rfl, hes⟩ := m
  rcases List.mem_append.1 he with h | h
  · have := hes e h
    rw [hn] at this; cases this
  · exact h

theorem mild_tick {h : List Ev} {s : State} (m : Mild h s.hist) : Mild h s.tick.hist := by
  unfold State.tick
  split
  · exact m
  · exact m.cons rfl
  · exact m

theorem mild_killWorker {h : List Ev} {s : State} {w : WRef} (m : Mild h s.hist) : Mild h (s.killWorker w).hist := by
  cases w with
  | obj => exact m.cons rfl
  | self => exact (m.cons rfl).cons rfl

theorem mild_start {h : List Ev} {s : State} {n : Name} {d : Int} (m : Mild h s.hist) : Mild h (requestStart s n d).hist := by
  unfold requestStart
  simp only
  have h1 : Mild h (if (s.manifolds.get? n).isNone then s.killInternal 384 n else s).hist := by split <;> exact m
  generalize (if (s.manifolds.get? n).isNone then s.killInternal 384 n else s) = s1 at *
  have h2 : Mild h (if (s1.cur n).stopped then s1 else s1.killInternal 390 n).hist := by split <;> exact h1
  generalize (if (s1.cur n).stopped then s1 else s1.killInternal 390 n) = s2 at *
  have h3 := mild_tick h2
  split
  · exact h3
  · exact h3.cons rfl

theorem mild_stop {h : List Ev} {s : State} {n : Name} (m : Mild h s.hist) : Mild h (requestStop s n).hist := by
  have h1 : Mild h (markStopping s n).hist := by
    unfold markStopping
    simp only
    split
    · exact m.cons rfl
    · exact m
  unfold requestStop
  simp only
  split
  · exact m
  · split
    · exact mild_killWorker h1
    · exact h1

theorem mild_exec (s : State) (t : Task) : Mild s.hist (exec cfg s t).1.hist := by
  have m := Mild.refl s.hist
  cases t with
  | start n d => exact mild_start m
  | react n told err vals lost =>
    show Mild s.hist (if s.dying then (s, []) else (s, reactTasks cfg n told err vals ++ if lost then [.bounceAll n] else [])).1.hist
    split <;> exact m
  | remove n vals => exact m.cons rfl
  | bounceAll n => exact m
  | bounce d =>
    show Mild s.hist (if (s.cur d).stopped then requestStart s d cfg.bounceDelay else requestStop s d).hist
    split
    · exact mild_start m
    · exact mild_stop m
  | stop n => exact mild_stop m
  | clearOneShot => exact m
  | report =>
    have := mild_tick m
    show Mild s.hist (liveReport s).hist
    unfold liveReport
    simp only
    split <;> exact this.cons rfl
  | check =>
    have := mild_tick m
    show Mild s.hist (endArm s).hist
    unfold endArm
    simp only
    split
    · exact this.cons rfl
    · exact this

theorem mild_env {s s' : State} {op : Op} (c : Core s) (he : op.isEnv = true) (h : step cfg s op = some s') : Mild s.hist s'.hist := by
  have hw := (env_frame he h).hist
  obtain ⟨d, hd⟩ := fstep_grows (cfg := cfg) (f := ⟨s, []⟩) (f' := ⟨s', []⟩) c (op := .env op) (by simp only [fstep]; rw [if_pos he, h]; rfl)
  have hd : s'.hist = d ++ s.hist := hd
  refine ⟨d, hd, ?_⟩
  rw [hd] at hw
  clear hd h he
  have len : ∀ l : List Ev, (Spec.own l).length ≤ l.length := fun l => (List.dropWhile_suffix _).sublist.length_le
  have : ∀ d : List Ev, Spec.own (d ++ s.hist) = Spec.own s.hist → ∀ e ∈ d, mild e = true := by
    intro d
    induction d with
    | nil => exact fun _ => nofun
    | cons x d ih =>
      intro hx e hm
      by_cases hf : foreign x = true
      · rw [List.cons_append, own_foreign hf] at hx
        rcases List.mem_cons.1 hm with rfl | hm
        · cases e <;> first | rfl | cases hf
        · exact ih hx e hm
      · rw [List.cons_append, own_own (by simpa using hf)] at hx
        have := congrArg List.length hx
        have := len s.hist
        simp at *
        omega
  exact this d hw

/-- While the loop is at work no worker is registered or lost. -/
theorem busy_worker {f f' : Fine} {op : FOp} (hr : FReach cfg f) (h : fstep cfg f op = some f') (hb : f.todo ≠ []) (n : Name) :
    workerH f'.s.hist n = workerH f.s.hist n := by
  have hb' : f.todo.isEmpty ≠ true := fun h => hb (List.isEmpty_iff.1 h)
  cases op with
  | env op =>
    simp only [fstep] at h
    split at h
    · rename_i he
      obtain ⟨s', hs, rfl⟩ := Option.map_eq_some_iff.1 h
      exact (mild_env (freach_hinv hr).1 he hs).worker n
    · cases h
  | work =>
    simp only [fstep] at h
    split at h
    · cases h
    · rename_i t ts _
      injection h with h
      subst h
      exact (mild_exec f.s t).worker n
  | dying => simp [fstep, hb] at h
  | report => simp [fstep, hb] at h
  | install => simp [fstep, hb] at h
  | started => simp [fstep, hb] at h
  | stopped => simp [fstep, hb] at h

/-- When an attempt ends, its manifold has no worker. -/
theorem ended_worker {f f' : Fine} {op : FOp} (hr : FReach cfg f) (h : fstep cfg f op = some f') {n : Name} {g : Nat} {now : Int}
    {raw fe : Option Err} {t : Bool} {l : Option WRef} (he : .ended n g now raw fe t l ∈ f'.s.hist) :
    .ended n g now raw fe t l ∈ f.s.hist ∨ workerH f'.s.hist n = none := by
  cases op with
  | env op =>
    simp only [fstep] at h
    split at h
    · rename_i hv
      obtain ⟨s', hs, rfl⟩ := Option.map_eq_some_iff.1 h
      exact .inl ((mild_env (freach_hinv hr).1 hv hs).mem rfl he)
    · cases h
  | work =>
    simp only [fstep] at h
    split at h
    · cases h
    · rename_i t ts _
      injection h with h
      subst h
      exact .inl ((mild_exec f.s t).mem rfl he)
  | dying =>
    simp only [fstep] at h
    split at h
    · injection h with h; subst h; exact .inl he
    · cases h
  | report =>
    simp only [fstep] at h
    split at h
    · injection h with h; subst h; exact .inl he
    · cases h
  | install a m o =>
    simp only [fstep] at h
    split at h
    · injection h with h; subst h
      have : Mild f.s.hist (beginInstall f.s a m o).1.hist := by
        have m := Mild.refl f.s.hist
        unfold beginInstall
        split
        · exact m.cons rfl
        · split
          · exact m.cons rfl
          · exact m.cons rfl
      exact .inl (this.mem rfl he)
    · cases h
  | started gid nw =>
    simp only [fstep] at h
    split at h
    · split at h
      · cases h
      · rename_i G hG
        split at h
        · rename_i w hw
          injection h with h; subst h
          refine .inl ?_
          revert he
          simp only
          generalize hs : f.s.mapG gid (fun g => { g with pc := afterOffer w }) = s0
          have hs : s0.hist = f.s.hist := by rw [← hs]; rfl
          rw [← hs]
          unfold beginStarted
          simp only
          have m := Mild.refl s0.hist
          split
          · exact fun he => (mild_killWorker (s := s0.killInternal 584 G.name) m).mem rfl he
          · split
            · exact fun he => (mild_killWorker m).mem rfl he
            · split
              · exact fun he => (mild_killWorker m).mem rfl he
              · intro he
                rcases List.mem_cons.1 he with he | he
                · cases he
                · exact he
        · cases h
    · cases h
  | stopped gid nw vals =>
    simp only [fstep] at h
    split at h
    · split at h
      · cases h
      · rename_i G hG
        split at h
        · rename_i x hx
          injection h with h; subst h
          have key : ∃ e1 e2 e3 e4 e5, Mild (.ended G.name gid e1 e2 e3 e4 e5 :: f.s.hist)
              (beginStopped cfg { f.s with gs := f.s.gs.filter (fun g => g.gid != gid) } G.name gid x nw vals).1.hist := by
            refine ⟨nw, x, applyFilter cfg (f.s.man G.name) x, (f.s.cur G.name).stopping, (f.s.cur G.name).worker, ?_⟩
            unfold beginStopped resetInfo noteFatal
            simp only
            split
            · exact Mild.refl _
            · split
              · exact (Mild.refl _).cons rfl
              · exact Mild.refl _
          obtain ⟨e1, e2, e3, e4, e5, m⟩ := key
          rcases List.mem_cons.1 (m.mem rfl he) with h | h
          · refine .inr ((m.worker n).trans ?_)
            injection h with h
            rw [h]
            simp [workerH]
          · exact .inl h
        · cases h
    · cases h

/-! ## Attempts and what they were given -/

/-- An attempt is open, or has ended. -/
theorem begun {h : List Ev} (hx : AtEvery OneAtATime h) {x : Name} {g : Nat} {d : Int} {c : Nat} {sn : Snapshot} (hb : .begin x g d c sn ∈ h) :
    (∃ now raw f t l, .ended x g now raw f t l ∈ h) ∨ (openH h x = some g ∧ lastBegin h x = some (g, sn)) := by
  induction h with
  | nil => cases hb
  | cons e h ih =>
    have hx1 : OneAtATime e h := hx.1
    rcases List.mem_cons.1 hb with rfl | hb
    · exact .inr ⟨by simp [openH], by simp [lastBegin]⟩
    · rcases ih hx.2 hb with ⟨now, raw, f, t, l, h1⟩ | ⟨h1, h2⟩
      · exact .inl ⟨now, raw, f, t, l, List.mem_cons_of_mem _ h1⟩
      · cases e with
        | begin m g' d' c' sn' =>
          by_cases hm : x = m
          · subst hm
            have := hx1.1
            rw [h1] at this; cases this
          · exact .inr ⟨by simpa [openH, hm] using h1, by simpa [lastBegin, hm] using h2⟩
        | ended m g' now raw f t l =>
          by_cases hm : x = m
          · subst hm
            have : openH h x = some g' := hx1
            rw [h1] at this
            injection this with this; subst this
            exact .inl ⟨now, raw, f, t, l, by simp⟩
          · exact .inr ⟨by simpa [openH, hm] using h1, h2⟩
        | _ => exact .inr ⟨h1, h2⟩

theorem fine_one (r : FineRun cfg) (k : Nat) : AtEvery OneAtATime (r.hist k) := by
  obtain ⟨D, hx⟩ := freach_ex (r.reach k)
  exact ex_one_at_a_time hx

/-- C113: an attempt that was given a worker which has finished ends, or the engine exits. -/
theorem C113_attempt {r : FineRun cfg} (hf : r.Fair) (hs : StartsHeed r.hist) (hw : KilledFinish r.hist) {n : Nat} {x i : Name} {g : Nat}
    {d : Int} {c : Nat} {sn : Snapshot} (hb : .begin x g d c sn ∈ r.hist n) {w : Nat} (hi : sn.workers.get? i = some (some (.obj w)))
    {e : Option Err} (he : .finished w e ∈ r.hist n) : ∃ k, .exit ∈ r.hist k ∨ ∃ now raw f t l, .ended x g now raw f t l ∈ r.hist k := by
  refine Classical.byContradiction (fun hno => ?_)
  have hx : ∀ k, .exit ∉ r.hist k := fun k h => hno ⟨k, .inl h⟩
  have hne : ∀ k now raw f t l, .ended x g now raw f t l ∉ r.hist k := fun k now raw f t l h => hno ⟨k, .inr ⟨now, raw, f, t, l, h⟩⟩
  have nokill : ∀ k, .kill ∉ r.hist k := fun k hk => by
    obtain ⟨j, hj⟩ := C97_killed_exits hf hs hw hk
    exact hx j hj
  have hop : ∀ k, n ≤ k → openH (r.hist k) x = some g ∧ lastBegin (r.hist k) x = some (g, sn) := fun k hk =>
    (begun (fine_one r k) (r.hist_mono hk hb)).resolve_left (fun ⟨now, raw, f, t, l, h⟩ => hne k now raw f t l h)
  have nocancel : ∀ k, n ≤ k → .cancelled g ∉ r.hist k := fun k hk hc => hno (C97_told_ends hf hs hw (hop k hk).1 hc)
  -- at its select the loop has this worker for `i`
  have rest : ∀ k, n ≤ k → (r.st k).todo = [] → workerH (r.hist k) i = some (.obj w) := fun k hk h0 => by
    obtain ⟨m, g', sn', _, h2, h3, h4⟩ := C81_inputs_at_rest (r.reach k) h0 (hop k hk).1 (nocancel k hk) (nokill k)
    rw [show lastBegin (r.st k).s.hist x = some (g, sn) from (hop k hk).2] at h2
    injection h2 with h2; injection h2 with _ h2; subst h2
    by_cases him : i ∈ m.inputs
    · have := (h3 i him).1
      rw [hi] at this
      injection this with this
      exact this.symm
    · rw [h4 i him] at hi; cases hi
  -- and so it has in between
  have back : ∀ j k, k ≤ j → n ≤ k → (r.st j).todo = [] → workerH (r.hist k) i = some (.obj w) := by
    intro j k hkj
    induction hkj using Nat.decreasingInduction with
    | self => exact rest j
    | of_succ k hk ih =>
      intro hn h0
      by_cases ht : (r.st k).todo = []
      · exact rest k hn ht
      · exact (busy_worker (r.reach k) (r.next k) ht i).symm.trans (ih (by omega) h0)
  have always : ∀ k, n ≤ k → workerH (r.hist k) i = some (.obj w) := fun k hk => by
    obtain ⟨j, hj, h0⟩ := FineRun.idle_again hf k
    exact back j k hj hk h0
  have phase : ∀ k, n ≤ k → phaseH (r.hist k) i = .ok (.obj w) := fun k hk => by
    obtain ⟨D, hex⟩ := freach_ex (r.reach k)
    exact ex_wphase hex i _ (always k hk)
  -- its attempt ends
  obtain ⟨gi, hgi⟩ : ∃ gi, openH (r.hist n) i = some gi := by
    cases ho : openH (r.hist n) i with
    | some gi => exact ⟨gi, rfl⟩
    | none =>
      obtain ⟨cc, ii⟩ := freach_hinv (r.reach n)
      have h1 := (ii.worker i).trans (always n (Nat.le_refl _))
      obtain ⟨G, hG, hn⟩ := cc.live i (by unfold Info.stopped; simp [h1])
      have := ii.openG G hG
      rw [hn] at this
      exact ⟨_, ho.symm.trans this⟩
  have hend : ∃ k now raw f t l, .ended i gi now raw f t l ∈ r.hist k := by
    refine Classical.byContradiction (fun hnot => ?_)
    have hopi := FineRun.stays_open hgi (fun k now raw f t l h => hnot ⟨k, now, raw, f, t, l, h⟩)
    rcases FineRun.stuck hf hopi with h | ⟨m, hm, h⟩
    · cases h with
      | start m h =>
        have := phase (max n m) (Nat.le_max_left _ _)
        rw [h _ (Nat.le_max_right _ _)] at this; cases this
      | worker m w' h hfin =>
        have h1 := phase (max n m) (Nat.le_max_left _ _)
        rw [(h _ (Nat.le_max_right _ _)).1] at h1
        injection h1 with h1; injection h1 with h1; subst h1
        exact hfin _ _ he
      | self m h _ =>
        have := phase (max n m) (Nat.le_max_left _ _)
        rw [(h _ (Nat.le_max_right _ _)).1] at this; cases this
      | gone m _ h => exact hx m h
    · obtain ⟨_, y, h1, h2⟩ := h m (Nat.le_refl _)
      obtain ⟨hy, _⟩ := getG_some _ _ h1
      have h3 := (freach_hinv (r.reach m)).2
      have h4 := h3.pc y hy
      obtain ⟨G, hG, hn, hg⟩ := h3.openN i gi (hopi m hm)
      have : y.name = i := by
        have := (freach_hinv (r.reach m)).1.getG_eq hG
        rw [hg, h1] at this
        injection this with this; rw [this]; exact hn
      unfold PcOk at h4
      rw [h2, this] at h4
      have := phase m hm
      rw [show r.hist m = (r.st m).s.hist from rfl, h4] at this; cases this
  obtain ⟨K, now, raw, f, t, l, hK⟩ := hend
  have first : ∀ K, .ended i gi now raw f t l ∈ r.hist K → .ended i gi now raw f t l ∈ r.hist n := by
    intro K
    induction K with
    | zero => exact fun h => r.hist_mono (Nat.zero_le _) h
    | succ k ih =>
      intro h
      by_cases hk : k + 1 ≤ n
      · exact r.hist_mono hk h
      · rcases ended_worker (r.reach k) (r.next k) h with h | h
        · exact ih h
        · have := always (k + 1) (by omega)
          rw [show r.hist (k + 1) = (r.st (k + 1)).s.hist from rfl, h] at this; cases this
  exact ended_not_open (fine_one r n) (first K hK) hgi

/-- The Start func of an attempt was given worker `w`, and made `w'`. -/
def Built (h : List Ev) (w w' : Nat) : Prop := ∃ x i g d c sn, .begin x g d c sn ∈ h ∧ sn.workers.get? i = some (some (.obj w)) ∧
  .startOk x g (.obj w') ∈ h

theorem Built.mono {h h' : List Ev} (hh : ∀ e ∈ h, e ∈ h') {w w' : Nat} (hb : Built h w w') : Built h' w w' := by
  obtain ⟨x, i, g, d, c, sn, h1, h2, h3⟩ := hb
  exact ⟨x, i, g, d, c, sn, hh _ h1, h2, hh _ h3⟩

/-- The worker of an attempt that has ended, or of an engine that has exited, has finished. -/
theorem over_finished {f : Fine} (hr : FReach cfg f) {x : Name} {g w : Nat} (ho : .startOk x g (.obj w) ∈ f.s.hist)
    (h : .exit ∈ f.s.hist ∨ ∃ now raw fe t l, .ended x g now raw fe t l ∈ f.s.hist) : ∃ e, .finished w e ∈ f.s.hist := by
  obtain ⟨D, hex⟩ := freach_ex hr
  obtain ⟨c, i⟩ := freach_hinv hr
  refine (ex_accounted hex x g w ho).resolve_right (fun ⟨h1, h2⟩ => ?_)
  rcases h with h | ⟨now, raw, fe, t, l, h⟩
  · obtain ⟨G, hG, hn, _⟩ := i.openN x g h1
    have := dead_self c i (ex_wphase hex) (i.dead.2 h) hG
    rw [hn, h2] at this; cases this
  · exact ended_not_open (ex_one_at_a_time hex) h h1

/-- C113: whatever was built on a worker that has finished, directly or indirectly, finishes. -/
theorem C113_built {r : FineRun cfg} (hf : r.Fair) (hs : StartsHeed r.hist) (hw : KilledFinish r.hist) {n w w' : Nat}
    (hb : Relation.TransGen (Built (r.hist n)) w w') {e : Option Err} (he : .finished w e ∈ r.hist n) : ∃ k e', .finished w' e' ∈ r.hist k := by
  have one : ∀ {w w' : Nat}, Built (r.hist n) w w' → (∃ k e, .finished w e ∈ r.hist k) → ∃ k e', .finished w' e' ∈ r.hist k := by
    rintro w w' ⟨x, i, g, d, c, sn, h1, h2, h3⟩ ⟨k, e, he⟩
    obtain ⟨j, hj⟩ := C113_attempt hf hs hw (n := max n k) (r.hist_mono (Nat.le_max_left _ _) h1) h2 (r.hist_mono (Nat.le_max_right _ _) he)
    obtain ⟨e', he'⟩ := over_finished (r.reach (max n j)) (r.hist_mono (Nat.le_max_left n j) h3)
      (hj.imp (r.hist_mono (Nat.le_max_right n j)) (fun ⟨now, raw, fe, t, l, h⟩ => ⟨now, raw, fe, t, l, r.hist_mono (Nat.le_max_right n j) h⟩))
    exact ⟨_, e', he'⟩
  induction hb with
  | single h => exact one h ⟨n, e, he⟩
  | tail _ h ih => exact one h ih

/-! ## Concrete cases -/

namespace FDemo

/-- `Built`, decided over inputs among 0, 1 and 2. -/
def builtB (h : List Ev) (w w' : Nat) : Bool := h.any (fun e => match e with
  | .begin x g _ _ sn => [0, 1, 2].any (fun i => decide (sn.workers.get? i = some (some (.obj w)))) && decide (Ev.startOk x g (.obj w') ∈ h)
  | _ => false)

theorem builtB_spec {h : List Ev} {w w' : Nat} (hb : builtB h w w' = true) : Built h w w' := by
  obtain ⟨e, he, h1⟩ := List.any_eq_true.1 hb
  cases e with
  | begin x g d c sn =>
    obtain ⟨h2, h3⟩ := Bool.and_eq_true_iff.1 h1
    obtain ⟨i, _, h4⟩ := List.any_eq_true.1 h2
    exact ⟨x, i, g, d, c, sn, he, of_decide_eq_true h4, of_decide_eq_true h3⟩
  | _ => cases h1

end FDemo

-- worker 11 was built on worker 10, which has finished by itself
example : FDemo.down.Fair ∧ StartsHeed FDemo.down.hist ∧ KilledFinish FDemo.down.hist ∧
    (∃ n, Relation.TransGen (Built (FDemo.down.hist n)) 10 11 ∧ .finished 10 (some (.user 1)) ∈ FDemo.down.hist n ∧
      .kill ∉ FDemo.down.hist n ∧ ∀ e ∈ FDemo.down.hist n, (match e with | .finished 11 _ => False | _ => True)) :=
  ⟨FDemo.down_fair.1, Demo.starts_heed (FDemo.mkRun_starts (cfg := Demo.cfg) (ops := FDemo.opsDown) (by decide +kernel)),
    FDemo.mkRun_killed (cfg := Demo.cfg) (ops := FDemo.opsDown) rfl (by decide +kernel), FDemo.opsUp.length + 1,
    .single (FDemo.builtB_spec (by decide +kernel)), by decide +kernel, by decide +kernel, by
      have h : (FDemo.down.hist (FDemo.opsUp.length + 1)).all (fun e => match e with | .finished 11 _ => false | _ => true) = true := by
        decide +kernel
      intro e he
      have := List.all_eq_true.1 h e he
      split <;> simp_all⟩

end Verif.Props
