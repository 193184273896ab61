import Verif.Props.EngineBuilt
import Verif.Spec.EngineCount

/-!
# C114: an engine keeps its manifolds going

What becomes of an installed manifold in the long run, if nobody kills the engine. Nothing is supposed of the environment but that Start funcs
heed Abort and workers that have been Kill()ed finish.
-/

namespace Verif.Props
open Verif.Engine Verif.Spec

variable {cfg : Config}

/-- What may become of manifold `x`, installed at time `n`, in the long run. -/
inductive Kept (h : Nat → List Ev) (x : Name) (n : Nat) : Prop
  /-- it is uninstalled -/
  | removed (m : Nat) (_ : n ≤ m) (_ : manH (h m) x = none)
  /-- attempts are made again and again -/
  | again (_ : ∀ c, ∃ m, c ≤ attemptsH (h m) x)
  /-- its Start func never returns, and is not told to -/
  | starting (m g : Nat) (_ : ∀ k, m ≤ k → openH (h k) x = some g ∧ .cancelled g ∉ h k ∧ phaseH (h k) x = .inStart)
  /-- one and the same worker, registered and not told to stop, never finishes -/
  | running (m g : Nat) (w : WRef) (_ : ∀ k, m ≤ k → openH (h k) x = some g ∧ .cancelled g ∉ h k ∧ workerH (h k) x = some w ∧
      ∀ v e, w = .obj v → .finished v e ∉ h k)
  /-- its last attempt ended with nil or for lack of an input, without having been told to stop, and no input has changed since -/
  | waiting (m : Nat) (_ : ∀ k, m ≤ k → openH (h k) x = none ∧ waitsH (h k) x = true)

theorem attempts_le (d h : List Ev) (x : Name) : attemptsH h x ≤ attemptsH (d ++ h) x := by
  induction d with
  | nil => exact Nat.le_refl _
  | cons e d ih => cases e <;> simp only [List.cons_append, attemptsH] <;> omega

/-- Without an attempt, nothing but an attempt changes that a manifold does not wait. -/
theorem no_attempt {d h : List Ev} {x : Name} (ha : AtEvery OneAtATime (d ++ h)) (hc : attemptsH (d ++ h) x = attemptsH h x)
    (ho : openH h x = none) : openH (d ++ h) x = none ∧ (waitsH h x = false → waitsH (d ++ h) x = false) := by
  induction d with
  | nil => exact ⟨ho, id⟩
  | cons e d ih =>
    have hle := attempts_le d h x
    have hc' : attemptsH (d ++ h) x = attemptsH h x := by
      cases e <;> simp only [List.cons_append, attemptsH] at hc <;> omega
    obtain ⟨i1, i2⟩ := ih ha.2 hc'
    cases e with
    | begin m g b c sn =>
      by_cases hm : x = m
      · exfalso
        simp only [List.cons_append, attemptsH, if_pos hm] at hc; omega
      · exact ⟨by simp only [List.cons_append, openH, if_neg hm]; exact i1, fun hw => i2 hw⟩
    | ended m g now raw f t l =>
      by_cases hm : x = m
      · exfalso
        have h1 : openH (d ++ h) m = some g := ha.1
        rw [← hm, i1] at h1; cases h1
      · refine ⟨by simp only [List.cons_append, openH, if_neg hm]; exact i1, fun hw => ?_⟩
        simp only [List.cons_append, waitsH, if_neg hm]
        split
        · rfl
        · exact i2 hw
    | installed m man =>
      refine ⟨i1, fun hw => ?_⟩
      simp only [List.cons_append, waitsH]
      split
      · rfl
      · exact i2 hw
    | registered m g w now =>
      refine ⟨i1, fun hw => ?_⟩
      simp only [List.cons_append, waitsH]
      split
      · rfl
      · exact i2 hw
    | _ => exact ⟨i1, fun hw => i2 hw⟩

theorem fine_rests {f : Fine} (hr : FReach cfg f) (h0 : f.todo = []) (hk : .kill ∉ f.s.hist) {x : Name} (hi : manH f.s.hist x ≠ none)
    (ho : openH f.s.hist x = none) : waitsH f.s.hist x = true := by
  obtain ⟨D, hl⟩ := freach_link hr
  have e := quiet_noDebt hl (fun t ht => by rw [h0] at ht; cases ht)
  subst e
  exact ex_rests hl.1 hk hi ho

/-- C114: an installed manifold that has no attempt and no reason to wait gets one, or is uninstalled. -/
theorem C114_begins {r : FineRun cfg} (hf : r.Fair) (hk : ∀ k, .kill ∉ r.hist k) {n : Nat} {x : Name} (ho : openH (r.hist n) x = none)
    (hw : waitsH (r.hist n) x = false) : ∃ m, n ≤ m ∧ (manH (r.hist m) x = none ∨ attemptsH (r.hist n) x < attemptsH (r.hist m) x) := by
  refine Classical.byContradiction (fun hno => ?_)
  obtain ⟨k, hk1, h0⟩ := FineRun.idle_again hf n
  have hi : manH (r.hist k) x ≠ none := fun h => hno ⟨k, hk1, .inl h⟩
  have ha : ¬ attemptsH (r.hist n) x < attemptsH (r.hist k) x := fun h => hno ⟨k, hk1, .inr h⟩
  obtain ⟨d, hd⟩ := r.hist_append hk1
  have h1 := fine_one r k
  rw [hd] at h1 ha
  have hle := attempts_le d (r.hist n) x
  obtain ⟨i1, i2⟩ := no_attempt h1 (by omega) ho
  rw [← hd] at i1 i2
  have := fine_rests (r.reach k) h0 (hk k) hi i1
  rw [show waitsH (r.st k).s.hist x = false from i2 hw] at this; cases this

/-- C114: an engine that is not killed keeps an installed manifold going. -/
theorem C114_kept {r : FineRun cfg} (hf : r.Fair) (hd : r.DelaysEnd) (hs : StartsHeed r.hist) (hw : KilledFinish r.hist)
    (hk : ∀ k, .kill ∉ r.hist k) {n : Nat} {x : Name} (hi : manH (r.hist n) x ≠ none) : Kept r.hist x n := by
  by_cases hrem : ∃ m, n ≤ m ∧ manH (r.hist m) x = none
  · obtain ⟨m, h1, h2⟩ := hrem; exact .removed m h1 h2
  have hrem : ∀ m, n ≤ m → manH (r.hist m) x ≠ none := fun m h1 h2 => hrem ⟨m, h1, h2⟩
  by_cases hag : ∀ c, ∃ m, c ≤ attemptsH (r.hist m) x
  · exact .again hag
  have noexit : ∀ k, .exit ∉ r.hist k := fun k h => by
    obtain ⟨post, pre, he⟩ := List.append_of_mem h
    have := C81_clean_exit (r.reach k)
    rw [show (r.st k).s.hist = _ from he] at this
    refine hk k ?_
    rw [he]
    exact List.mem_append_right _ (List.mem_cons_of_mem _ this.split.1)
  -- the number of attempts does not change any more
  obtain ⟨m, hm, hcon⟩ : ∃ m, n ≤ m ∧ ∀ k, m ≤ k → attemptsH (r.hist k) x = attemptsH (r.hist m) x := by
    have hmono : ∀ {a b}, a ≤ b → attemptsH (r.hist a) x ≤ attemptsH (r.hist b) x := fun {a b} hab => by
      obtain ⟨d, hd⟩ := r.hist_append hab
      rw [hd]; exact attempts_le ..
    by_contra hno
    refine hag (fun c => ?_)
    have : ∃ m, n ≤ m ∧ c ≤ attemptsH (r.hist m) x := by
      induction c with
      | zero => exact ⟨n, Nat.le_refl _, Nat.zero_le _⟩
      | succ c ih =>
        obtain ⟨m, h1, h2⟩ := ih
        by_contra hc
        refine hno ⟨m, h1, fun k hk => ?_⟩
        have := hmono hk
        have : ¬ c + 1 ≤ attemptsH (r.hist k) x := fun h => hc ⟨k, by omega, h⟩
        omega
    obtain ⟨m, _, h⟩ := this
    exact ⟨m, h⟩
  -- once it has no attempt, it waits
  have waits : ∀ j, m ≤ j → openH (r.hist j) x = none → Kept r.hist x n := fun j hj ho => by
    have none : ∀ k, j ≤ k → openH (r.hist k) x = none := fun k hk => by
      obtain ⟨d, hd⟩ := r.hist_append hk
      have h1 := fine_one r k
      rw [hd] at h1 ⊢
      exact (no_attempt h1 (by rw [← hd, hcon k (by omega), hcon j hj]) ho).1
    refine .waiting j (fun k hk1 => ⟨none k hk1, ?_⟩)
    by_contra hc
    obtain ⟨k', h1, h2⟩ := C114_begins hf hk (none k hk1) (Bool.eq_false_iff.2 hc)
    rcases h2 with h2 | h2
    · exact hrem k' (by omega) h2
    · rw [hcon k' (by omega), hcon k (by omega)] at h2; omega
  cases ho : openH (r.hist m) x with
  | none => exact waits m (Nat.le_refl _) ho
  | some g =>
    rcases C97_attempts_end hf hd ho with ⟨k, now, raw, f, t, l, he⟩ | ⟨hop, hst⟩
    · by_cases hz : ∃ j, m ≤ j ∧ openH (r.hist j) x = none
      · obtain ⟨j, h1, h2⟩ := hz; exact waits j h1 h2
      · exfalso
        have he' := r.hist_mono (Nat.le_max_left k m) he
        cases ho' : openH (r.hist (max k m)) x with
        | none => exact hz ⟨_, Nat.le_max_right _ _, ho'⟩
        | some g' =>
          obtain ⟨d, hd⟩ := r.hist_append (Nat.le_max_right k m)
          have hg : g' = g := by
            have key : ∀ (d : List Ev), attemptsH (d ++ r.hist m) x = attemptsH (r.hist m) x → ∀ g', openH (d ++ r.hist m) x = some g' → g' = g := by
              intro d
              induction d with
              | nil => intro _ g' h; rw [List.nil_append, ho] at h; injection h with h; exact h.symm
              | cons e d ih =>
                intro hc g' h
                have hle := attempts_le d (r.hist m) x
                have hc' : attemptsH (d ++ r.hist m) x = attemptsH (r.hist m) x := by
                  cases e <;> simp only [List.cons_append, attemptsH] at hc <;> omega
                cases e with
                | begin y g0 b c sn =>
                  by_cases hm : x = y
                  · exfalso
                    simp only [List.cons_append, attemptsH, if_pos hm] at hc; omega
                  · simp only [List.cons_append, openH, if_neg hm] at h; exact ih hc' g' h
                | ended y g0 now raw f t l =>
                  by_cases hm : x = y
                  · simp only [List.cons_append, openH, if_pos hm] at h; cases h
                  · simp only [List.cons_append, openH, if_neg hm] at h; exact ih hc' g' h
                | _ => exact ih hc' g' h
            exact key d (by rw [← hd]; exact hcon _ (Nat.le_max_right _ _)) g' (by rw [← hd]; exact ho')
          subst hg
          exact ended_not_open (fine_one r _) he' ho'
    · have nc : ∀ k, m ≤ k → .cancelled g ∉ r.hist k := fun k hk1 hc => by
        obtain ⟨j, h1 | ⟨now, raw, f, t, l, he⟩⟩ := C97_told_ends hf hs hw (hop k hk1) hc
        · exact noexit j h1
        · exact ended_not_open (fine_one r _) (r.hist_mono (Nat.le_max_left j m) he) (hop _ (Nat.le_max_right j m))
      cases hst with
      | start m' h => exact .starting (max m m') g (fun k hk1 => ⟨hop k (by omega), nc k (by omega), h k (by omega)⟩)
      | worker m' w h hfin =>
        refine .running (max m m') g (.obj w) (fun k hk1 => ⟨hop k (by omega), nc k (by omega), ?_, fun v e hv => by
          injection hv with hv; subst hv; exact hfin k e⟩)
        obtain ⟨h1, h2⟩ := h k (by omega)
        rcases h2 with h2 | ⟨h2, _⟩
        · obtain ⟨j, e, hj⟩ := hw _ w (killedH_mem h2 h1)
          exact absurd hj (hfin j e)
        · exact h2
      | self m' h _ => exact .running (max m m') g .self (fun k hk1 => ⟨hop k (by omega), nc k (by omega), (h k (by omega)).2.1, nofun⟩)
      | gone m' _ h => exact absurd h (noexit _)

-- manifold 0 has been installed and the loop is going to make an attempt
example : FDemo.up.Fair ∧ (∀ k, .kill ∉ FDemo.up.hist k) ∧ manH (FDemo.up.hist 1) 0 ≠ none ∧ openH (FDemo.up.hist 1) 0 = none ∧
    waitsH (FDemo.up.hist 1) 0 = false :=
  ⟨FDemo.up_fair.1, FDemo.up_live, by decide +kernel, by decide +kernel, by decide +kernel⟩

-- manifold 1 has been told to stop, and runs in the end
example : FDemo.up.Fair ∧ FDemo.up.DelaysEnd ∧ StartsHeed FDemo.up.hist ∧ KilledFinish FDemo.up.hist ∧ (∀ k, .kill ∉ FDemo.up.hist k) ∧
    manH (FDemo.up.hist 14) 1 ≠ none ∧ openH (FDemo.up.hist 14) 1 = some 1 ∧ .cancelled 1 ∈ FDemo.up.hist 14 :=
  ⟨FDemo.up_fair.1, FDemo.up_fair.2,
    Demo.starts_heed (FDemo.mkRun_starts (cfg := Demo.cfg) (ops := FDemo.opsUp) (by decide +kernel)),
    FDemo.mkRun_killed (cfg := Demo.cfg) (ops := FDemo.opsUp) (x := FDemo.reportOps) (by unfold reportEv; rfl) (by decide +kernel),
    FDemo.up_live, by decide +kernel, by decide +kernel, by decide +kernel⟩

end Verif.Props
