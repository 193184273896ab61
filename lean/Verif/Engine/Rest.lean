import Verif.Engine.Live

/-!
An installed manifold for which nothing is going on is one that came to rest: its latest attempt ended with nil, a missing
dependency or an abort, it had not been told to stop, and no input has changed since.
-/

namespace Verif.Engine
open State Verif.Spec

def RInv (s : State) (D : Debt) : Prop := s.dying = true ∨ ∀ n, (s.manifolds.get? n).isSome = true →
  D n ∨ (s.cur n).stopped = false ∨ waitsH s.hist n = true

theorem RInv.same {s s' : State} {D : Debt} (r : RInv s D) (hd : s.dying = true → s'.dying = true)
    (hm : s'.manifolds = s.manifolds) (hc : ∀ n, (s.cur n).stopped = false → (s'.cur n).stopped = false)
    (hw : ∀ n, waitsH s'.hist n = waitsH s.hist n) : RInv s' D := by
  rcases r with h | h
  · exact Or.inl (hd h)
  · right; intro n hn
    rw [hm] at hn
    rcases h n hn with h | h | h
    · exact Or.inl h
    · exact Or.inr (Or.inl (hc n h))
    · exact Or.inr (Or.inr ((hw n).trans h))

theorem micro_rinv {cfg s D s' D'} (m : Micro v cfg s D s' D') (c : Core s) (i : HInv cfg s) (r : RInv s D) :
    RInv s' D' := by
  cases m with
  | setPend p => exact r.same id rfl (fun _ h => h) (fun _ => rfl)
  | kill => exact Or.inl (killNil_dying s)
  | discharge _ h1 h2 =>
    rcases r with h | h
    · exact Or.inl h
    · by_cases hd : s.dying = true
      · exact Or.inl hd
      right; intro n hn
      rcases h n hn with h | h | h
      · rcases h2 n h with h | h | h
        · exact Or.inl h
        · exact absurd h hd
        · right; left
          cases hs : (s.cur n).stopped with
          | false => rfl
          | true => rw [c.idle n hs] at h; cases h
      · exact Or.inr (Or.inl h)
      · exact Or.inr (Or.inr h)
  | launch n delay hd hi hs hD hb =>
    have hh : (launch s n delay).hist = .begin n s.nextG delay (s.cur n).recentErrors (launchSnap s n) :: s.hist := rfl
    rcases r with h | h
    · rw [hd] at h; cases h
    · right; intro x hx
      have hx' : (s.manifolds.get? x).isSome = true := hx
      rw [hh]
      by_cases hxn : x = n
      · subst hxn
        right; left
        simp [launch_cur, Info.stopped]
      · rcases h x hx' with h | h | h
        · exact Or.inl ⟨h, hxn⟩
        · right; left; rw [launch_cur_ne _ _ _ hxn]; exact h
        · exact Or.inr (Or.inr h)
  | reqStop n hs hst =>
    refine r.same (requestStop_dying_mono n) (requestStop_manifolds s n)
      (fun m hm => (requestStop_stopped s n m).trans hm) ?_
    intro x
    obtain ⟨g, hg, hgn, h⟩ := requestStop_form c hs hst
    rcases h with ⟨_, e⟩ | ⟨k, _, e⟩ | ⟨_, e⟩ <;> rw [e] <;> rfl
  | record n m hn ha hdead hD =>
    have hh : (record s n m).hist = .installed n m :: s.hist := rfl
    rcases r with h | h
    · exact Or.inl h
    · right; intro x hx
      by_cases hxn : x = n
      · exact Or.inl (Or.inr hxn)
      · have hx' : (s.manifolds.get? x).isSome = true := by
          have : ((s.manifolds.set n m).get? x).isSome = true := hx
          rwa [AMap.get?_set, if_neg hxn] at this
        have hcx : (record s n m).cur x = s.cur x := by
          show ((s.current.set n {}).get? x).getD {} = s.cur x
          rw [AMap.get?_set, if_neg hxn]; rfl
        rcases h x hx' with h | h | h
        · exact Or.inl (Or.inl h)
        · right; left; rw [hcx]; exact h
        · right; right
          rw [hh]; simpa [waitsH, hxn] using h
  | neutral e he =>
    rcases he with ⟨_, _, rfl⟩ | rfl <;> exact r.same id rfl (fun _ h => h) (fun _ => rfl)
  | register g hg w now hpc hd hst =>
    have hh : (register (s.mapG g.gid (fun g => { g with pc := afterOffer w })) g.name g.gid w now).hist =
      .registered g.name g.gid w now :: s.hist := rfl
    have hcur : ∀ m, (register (s.mapG g.gid (fun g => { g with pc := afterOffer w })) g.name g.gid w now).cur m =
        if m = g.name then { s.cur g.name with
          worker := some w, starting := false, startCount := (s.cur g.name).startCount + 1, startAttempts := 0,
          startedTime := now } else s.cur m := fun m => setCur_cur _ _ _ _
    rcases r with h | h
    · exact Or.inl h
    · right; intro x hx
      rw [hcur, hh]
      by_cases hdx : Dep s g.name x
      · exact Or.inl (Or.inr hdx)
      · rcases h x hx with h | h | h
        · exact Or.inl (Or.inl h)
        · right; left
          split
          · simp [Info.stopped]
          · exact h
        · right; right
          simp only [waitsH]
          rw [if_neg (fun hd => hdx ((i.dep _ _).2 hd))]
          exact h
  | refuse g hg w hpc h =>
    have hd : s.dying = true → ((s.mapG g.gid (fun g => { g with pc := afterOffer w })).killWorker w).dying = true :=
      fun h => killWorker_dying_mono w h
    have hc : ∀ n, (s.cur n).stopped = false →
        (((s.mapG g.gid (fun g => { g with pc := afterOffer w })).killWorker w).cur n).stopped = false :=
      fun n h => by rw [killWorker_cur]; exact h
    cases w with
    | self => exact r.same hd rfl hc (fun _ => rfl)
    | obj k => exact r.same hd rfl hc (fun _ => rfl)
  | stop g hg raw now hpc hdead hD =>
    have hns := (c.rel g hg).notStopped
    obtain ⟨f1, f2, f3, f4, f5⟩ := stopState_facts cfg g raw now hns
    have hhist : (stopState cfg s g raw now).dying = true ∨ (stopState cfg s g raw now).hist =
        .ended g.name g.gid now raw (applyFilter cfg (s.man g.name) raw) (s.cur g.name).stopping
          (s.cur g.name).worker :: s.hist := by
      rw [stopState_eq cfg s g raw now hns]
      simp only
      split
      · exact Or.inl (killNil_dying _)
      · exact Or.inr rfl
    have hdm : s.dying = true → (stopState cfg s g raw now).dying = true := by
      intro h
      rw [stopState_eq cfg s g raw now hns]
      simp only
      split
      · exact killNil_dying _
      · exact h
    generalize stopState cfg s g raw now = s' at *
    generalize applyFilter cfg (s.man g.name) raw = fe at *
    rcases r with h | h
    · exact Or.inl (hdm h)
    rcases hhist with hh | hh
    · exact Or.inl hh
    right; intro x hx
    rw [f1] at hx
    rw [hh, f5]
    by_cases hxg : x = g.name
    · subst hxg
      by_cases hre : NeedsRestart (s.cur g.name).stopping fe ∨ WantsUninstall (s.cur g.name).stopping fe
      · exact Or.inl (Or.inr (Or.inr ⟨rfl, hre⟩))
      · right; right
        obtain ⟨h1, h2⟩ := not_or.1 hre
        have hst : (s.cur g.name).stopping = false := by
          cases hs : (s.cur g.name).stopping with
          | false => rfl
          | true => exact absurd (Or.inl hs) h1
        rw [hst] at h1 h2 ⊢
        simp only [waitsH, if_true, Bool.not_false, Bool.true_and]
        cases fe with
        | none => rfl
        | some e =>
          simp only [decide_eq_true_eq]
          refine Classical.byContradiction (fun hno => ?_)
          obtain ⟨n1, n2⟩ := not_or.1 hno
          have a1 : errIs (some e) .missing = false := by
            cases hx : errIs (some e) .missing with
            | false => rfl
            | true => exact absurd ((errIs_iff e _).1 hx) n1
          have a2 : errIs (some e) .aborted = false := by
            cases hx : errIs (some e) .aborted with
            | false => rfl
            | true => exact absurd ((errIs_iff e _).1 hx) n2
          cases b : errIs (some e) .bounce with
          | true => exact h1 (Or.inr ⟨by simp, a2, a1, Or.inl b⟩)
          | false =>
            cases u : errIs (some e) .uninstall with
            | false => exact h1 (Or.inr ⟨by simp, a2, a1, Or.inr u⟩)
            | true => exact h2 ⟨rfl, a2, a1, b, u⟩
    · rw [if_neg hxg]
      rcases h x hx with h | h | h
      · exact absurd h (hD _)
      · exact Or.inr (Or.inl h)
      · by_cases hdx : (s.cur g.name).worker ≠ none ∧ Dep s g.name x
        · exact Or.inl (Or.inr (Or.inl hdx))
        · right; right
          simp only [waitsH, hxg, if_false]
          rw [if_neg (fun hd => hdx ⟨hd.1, (i.dep _ _).2 hd.2⟩)]
          exact h
  | uninstall n vals hs hi hv hdead ht hev =>
    have hh : (uninstall s n vals).hist = .uninstalled n :: s.hist := rfl
    have hcur : ∀ k, (uninstall s n vals).cur k = if k = n then {} else s.cur k := by
      intro k
      show ((s.current.erase n).get? k).getD {} = _
      rw [AMap.get?_erase]
      split <;> rfl
    rcases r with h | h
    · exact Or.inl h
    · right; intro x hx
      have hx' : ((s.manifolds.erase n).get? x).isSome = true := hx
      rw [AMap.get?_erase] at hx'
      have hxn : x ≠ n := by rintro rfl; simp at hx'
      rw [if_neg hxn] at hx'
      rcases h x hx' with h | h | h
      · exact Or.inl ⟨h, hxn⟩
      · right; left; rw [hcur, if_neg hxn]; exact h
      · exact Or.inr (Or.inr h)
  | gAbort g hg hpc h => exact r.same id rfl (fun _ h => h) (fun _ => rfl)
  | gTimer g hg hpc fuzz hf => exact r.same id rfl (fun _ h => h) (fun _ => rfl)
  | gGet g hg hpc res out => exact r.same id rfl (fun _ h => h) (fun _ => rfl)
  | gStartOk g hg hpc w => exact r.same id rfl (fun _ h => h) (fun _ => rfl)
  | gStartErr g hg hpc e => exact r.same id rfl (fun _ h => h) (fun _ => rfl)
  | gSelfDone g hg hpc hd => exact r.same id rfl (fun _ h => h) (fun _ => rfl)
  | gWaitRet g hg w hpc e he => exact r.same id rfl (fun _ h => h) (fun _ => rfl)
  | finish w e h => exact r.same id rfl (fun _ h => h) (fun _ => rfl)
  | oneShot hd h => exact r.same id rfl (fun _ h => h) (fun _ => rfl)
  | exit hd hdead ha =>
    refine r.same ?_ rfl (fun _ h => h) (fun _ => rfl)
    intro _; rw [exit_tomb c hd hdead]; exact hd

theorem RInv.init : RInv init noDebt := Or.inr (fun n h => by simp [Verif.Engine.init] at h)

theorem ex_rinv {v : List Ev → List Ev} {cfg : Config} {s : State} {D : Debt} (h : Ex v cfg s D) : RInv s D :=
  ex_induct2 (P := RInv) RInv.init (fun _ _ _ _ c i r m => micro_rinv m c i r) h

theorem reach_rinv {cfg : Config} {s : State} (hr : Reach cfg s) : RInv s noDebt := ex_rinv (reach_ex hr)

end Verif.Engine
