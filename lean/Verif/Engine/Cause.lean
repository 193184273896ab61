import Verif.Engine.More

/-!
Why an attempt is told to stop: the engine is shutting down, or one of the workers the attempt was given for its inputs is
not the present one any more. (An attempt whose manifold lists an input twice may also be told to stop for no reason.)
-/

namespace Verif.Engine
open State Verif.Spec

/-- How often a name is listed among the dependents of an input. -/
def DepInv (s : State) : Prop := ∀ i x, ((s.dependents.get? i).getD []).count x ≤ (s.man x).inputs.count i

theorem addDependents_count (n : Name) : ∀ (is : List Name) (deps : AMap (List Name)) (i x : Name),
    (((addDependents deps n is).get? i).getD []).count x =
      ((deps.get? i).getD []).count x + if x = n then is.count i else 0 := by
  intro is
  induction is with
  | nil => intro deps i x; simp [addDependents]
  | cons a is ih =>
    intro deps i x
    unfold addDependents
    rw [ih, AMap.get?_set]
    by_cases hia : i = a
    · subst hia
      by_cases hx : x = n
      · subst hx
        simp [List.count_append]; omega
      · have : (n == x) = false := by simpa using fun h => hx h.symm
        simp [List.count_append, hx, List.count_cons, this]
    · have : (a == i) = false := by simpa using fun h => hia h.symm
      by_cases hx : x = n <;> simp [hia, hx, List.count_cons, this]

theorem micro_depInv {cfg s D s' D'} (m : Micro v cfg s D s' D') (c : Core s) (d : DepInv s) : DepInv s' := by
  have same : ∀ {t : State}, t.dependents = s.dependents → t.manifolds = s.manifolds → DepInv t := by
    intro t h1 h2 i x
    unfold State.man
    rw [h1, h2]; exact d i x
  cases m with
  | record n m hn ha hdead hD =>
    intro i x
    show (((addDependents s.dependents n m.inputs).get? i).getD []).count x ≤ _
    rw [addDependents_count]
    have hman : (record s n m).man x = if x = n then m else s.man x := by
      show ((s.manifolds.set n m).get? x).getD {} = _
      rw [AMap.get?_set]
      split <;> rfl
    rw [hman]
    by_cases hx : x = n
    · subst hx
      have : ((s.dependents.get? i).getD []).count x = 0 := by
        refine List.count_eq_zero.2 (fun h => ?_)
        obtain ⟨m', hm', _⟩ := (c.deps i x).1 h
        rw [hn] at hm'; cases hm'
      simp [this]
    · simpa [hx] using d i x
  | uninstall n vals hs hi hv hdead ht hev =>
    intro i x
    show (((dropDependent s.dependents vals).get? i).getD []).count x ≤ _
    have hnd : (((dropDependent s.dependents vals).get? i).getD []).Nodup := by
      rw [dropDependent_get]
      cases hi : s.dependents.get? i with
      | none => simp
      | some l =>
        have hmem : i ∈ s.dependents.keys := AMap.mem_keys_of_get? hi
        obtain ⟨p, hp, hpi⟩ := List.mem_map.1 hmem
        unfold validVals at hv
        have := List.all_eq_true.1 hv p hp
        simp only [Bool.and_eq_true, decide_eq_true_eq] at this
        rw [hpi] at this
        simpa using this.1.1
    by_cases hx : x ∈ ((dropDependent s.dependents vals).get? i).getD []
    · obtain ⟨h1, h2⟩ := (dropDependent_spec hv i x).1 hx
      have hman : (uninstall s n vals).man x = s.man x := by
        show ((s.manifolds.erase n).get? x).getD {} = _
        rw [AMap.get?_erase, if_neg h2]; rfl
      have h3 := List.count_pos_iff.2 h1
      have h4 := List.nodup_iff_count.1 hnd x
      have := d i x
      rw [hman]; omega
    · rw [List.count_eq_zero.2 hx]; exact Nat.zero_le _
  | reqStop n => exact same (requestStop_dependents s n) (requestStop_manifolds s n)
  | refuse g hg w => cases w <;> exact same rfl rfl
  | stop g hg raw now hpc =>
    obtain ⟨f1, f2, f3, f4, f5⟩ := stopState_facts cfg g raw now (c.rel g hg).notStopped
    refine same ?_ ?_ <;> (rw [stopState_eq cfg s g raw now (c.rel g hg).notStopped]; simp only; split <;> rfl)
  | setPend | kill | discharge | launch | neutral | register | gAbort | gTimer | gGet | gStartOk | gStartErr | gSelfDone
  | gWaitRet | finish | oneShot | exit => exact same rfl rfl

def StaleInv (s : State) (D : Debt) : Prop := ∀ x, D x →
  s.dying = true ∨ (s.cur x).stopped = true ∨ (s.cur x).stopping = true ∨ Stale s.hist x

theorem stale_mono {h h' : List Ev} {x : Name} (a : Stale h x) (h1 : manH h' x = manH h x)
    (h2 : lastBegin h' x = lastBegin h x) (h3 : ∀ i, workerH h' i = workerH h i) : Stale h' x := by
  obtain ⟨m, g, sn, i, a1, a2, a3, a4⟩ := a
  exact ⟨m, g, sn, i, h1.trans a1, h2.trans a2, a3, by rw [h3]; exact a4⟩

theorem micro_stale {cfg s D s' D'} (m : Micro v cfg s D s' D') (c : Core s) (i : HInv cfg s) (f : FInv s D)
    (a : StaleInv s D) : StaleInv s' D' := by
  have same : ∀ {t : State}, (s.dying = true → t.dying = true) →
      (∀ n, (s.cur n).stopped = true → (t.cur n).stopped = true) →
      (∀ n, (s.cur n).stopping = true → (t.cur n).stopping = true) → (∀ n, manH t.hist n = manH s.hist n) →
      (∀ n, lastBegin t.hist n = lastBegin s.hist n) → (∀ n, workerH t.hist n = workerH s.hist n) → StaleInv t D := by
    intro t h1 h2 h3 h4 h5 h6 x hx
    rcases a x hx with h | h | h | h
    · exact Or.inl (h1 h)
    · exact Or.inr (Or.inl (h2 x h))
    · exact Or.inr (Or.inr (Or.inl (h3 x h)))
    · exact Or.inr (Or.inr (Or.inr (stale_mono h (h4 x) (h5 x) h6)))
  -- an input of a live attempt that has not been told to stop changes
  have change : ∀ {n : Name} {x : Name} {h' : List Ev}, (∀ x, ¬ D x) → Dep s n x → s.dying = false →
      (s.cur x).stopping = false → manH h' x = manH s.hist x → lastBegin h' x = lastBegin s.hist x →
      workerH h' n ≠ workerH s.hist n → Stale h' x := by
    intro n x h' hD hdep hd hst h1 h2 h3
    rcases f.fresh with h | h
    · rw [hd] at h; cases h
    rcases h x (Core.dep_installed hdep) with h | h | ⟨m, g, sn, u1, u2, u3, _⟩
    · exact absurd h (hD x)
    · rw [hst] at h; cases h
    obtain ⟨m', hm', hn⟩ := hdep
    rw [i.man, u1] at hm'; cases hm'
    refine ⟨m, g, sn, n, h1.trans u1, h2.trans u2, hn, ?_⟩
    rw [(u3 n hn).1]
    intro h; exact h3 (Option.some.inj h).symm
  cases m with
  | discharge _ h1 h2 => exact fun x hx => a x (h1 x hx)
  | kill => exact fun x _ => Or.inl (killNil_dying s)
  | launch n delay hd hi hs hD hb =>
    rintro x ⟨hx, hxn⟩
    rw [launch_cur_ne _ _ _ hxn]
    rcases a x hx with h | h | h | h
    · exact Or.inl h
    · exact Or.inr (Or.inl h)
    · exact Or.inr (Or.inr (Or.inl h))
    · refine Or.inr (Or.inr (Or.inr (stale_mono h rfl ?_ (fun _ => rfl))))
      show lastBegin (.begin n _ _ _ _ :: s.hist) x = _
      simp [lastBegin, hxn]
  | reqStop n hs hst =>
    obtain ⟨g, hg, hgn, h⟩ := requestStop_form c hs hst
    have hh : ∃ q, (∀ e ∈ q, Quiet e) ∧ (requestStop s n).hist = q ++ s.hist := by
      rcases h with ⟨_, e⟩ | ⟨k, _, e⟩ | ⟨_, e⟩ <;> rw [e]
      · exact ⟨[.cancelled g.gid], by simp [Quiet], rfl⟩
      · exact ⟨[.killW (.obj k), .cancelled g.gid], by simp [Quiet], rfl⟩
      · exact ⟨[.kill, .killW .self, .cancelled g.gid], by simp [Quiet], rfl⟩
    obtain ⟨q, hq, hh⟩ := hh
    have e1 : (∀ n, manH (q ++ s.hist) n = manH s.hist n) ∧ (∀ n, lastBegin (q ++ s.hist) n = lastBegin s.hist n) ∧
        (∀ n, workerH (q ++ s.hist) n = workerH s.hist n) := by
      clear hh
      induction q with
      | nil => exact ⟨fun _ => rfl, fun _ => rfl, fun _ => rfl⟩
      | cons e q ih =>
        obtain ⟨a1, a2, a3⟩ := ih (fun x hx => hq x (by simp [hx]))
        rcases hq e (by simp) with rfl | ⟨w, rfl⟩ | ⟨g, rfl⟩ <;> exact ⟨a1, a2, a3⟩
    rw [← hh] at e1
    refine same (requestStop_dying_mono n) (fun m h => by rw [requestStop_stopped]; exact h) ?_ e1.1 e1.2.1 e1.2.2
    intro m hm
    exact requestStop_stopping_mono s n m hm
  | record n m hn ha hdead hD =>
    have hcur : (record s n m).cur n = {} := by
      show ((s.current.set n {}).get? n).getD {} = _
      rw [AMap.get?_set, if_pos rfl]; rfl
    intro x hx
    by_cases hxn : x = n
    · subst hxn; right; left; rw [hcur]; rfl
    have hcx : (record s n m).cur x = s.cur x := by
      show ((s.current.set n {}).get? x).getD {} = _
      rw [AMap.get?_set, if_neg hxn]; rfl
    rw [hcx]
    rcases a x (hx.resolve_right hxn) with h | h | h | h
    · exact Or.inl h
    · exact Or.inr (Or.inl h)
    · exact Or.inr (Or.inr (Or.inl h))
    · refine Or.inr (Or.inr (Or.inr (stale_mono h ?_ rfl (fun _ => rfl))))
      show manH (.installed n m :: s.hist) x = _
      simp [manH, hxn]
  | neutral e he =>
    rcases he with ⟨_, _, rfl⟩ | rfl <;>
      exact same id (fun _ h => h) (fun _ h => h) (fun _ => rfl) (fun _ => rfl) (fun _ => rfl)
  | register g hg w now hpc hd hst hD =>
    rintro x (hx | hx)
    · exact absurd hx (hD x)
    have hne : x ≠ g.name := by rintro rfl; exact c.not_self_dep _ hx
    have hcur : (register (s.mapG g.gid (fun g => { g with pc := afterOffer w })) g.name g.gid w now).cur x = s.cur x := by
      have : (register (s.mapG g.gid (fun g => { g with pc := afterOffer w })) g.name g.gid w now).cur x =
        if x = g.name then { s.cur g.name with
          worker := some w, starting := false, startCount := (s.cur g.name).startCount + 1, startAttempts := 0,
          startedTime := now } else s.cur x := setCur_cur _ _ _ _
      rw [this, if_neg hne]
    rw [hcur]
    cases hsx : (s.cur x).stopping with
    | true => exact Or.inr (Or.inr (Or.inl rfl))
    | false =>
      refine Or.inr (Or.inr (Or.inr (change hD hx hd hsx rfl rfl ?_)))
      show workerH (.registered g.name g.gid w now :: s.hist) g.name ≠ _
      have hw : workerH s.hist g.name = none := by
        rw [← i.worker]
        cases hw : (s.cur g.name).worker with
        | none => rfl
        | some w' =>
          rcases ((c.rel g hg).worker w' hw).2 with h | ⟨e, h⟩
          · rw [hpc] at h; cases w' <;> cases h
          · rw [hpc] at h; cases h
      rw [hw]; simp [workerH]
  | refuse g hg w hpc h =>
    have hd : s.dying = true → ((s.mapG g.gid (fun g => { g with pc := afterOffer w })).killWorker w).dying = true :=
      fun h => killWorker_dying_mono w h
    have hc : ∀ n, ((s.mapG g.gid (fun g => { g with pc := afterOffer w })).killWorker w).cur n = s.cur n :=
      fun n => by rw [killWorker_cur]; rfl
    cases w <;> exact same hd (fun n h => by rw [hc]; exact h) (fun n h => by rw [hc]; exact h) (fun _ => rfl)
      (fun _ => rfl) (fun _ => rfl)
  | stop g hg raw now hpc hdead hD =>
    have hns := (c.rel g hg).notStopped
    obtain ⟨f1, f2, f3, f4, f5⟩ := stopState_facts cfg g raw now hns
    have hhist : ∃ q, (q = [] ∨ q = [.kill]) ∧ (stopState cfg s g raw now).hist = q ++
        .ended g.name g.gid now raw (applyFilter cfg (s.man g.name) raw) (s.cur g.name).stopping
          (s.cur g.name).worker :: s.hist := by
      rw [stopState_eq cfg s g raw now hns]
      simp only
      split
      · exact ⟨[.kill], Or.inr rfl, rfl⟩
      · exact ⟨[], Or.inl rfl, rfl⟩
    have hdm : s.dying = true → (stopState cfg s g raw now).dying = true := by
      intro h
      rw [stopState_eq cfg s g raw now hns]
      simp only
      split
      · exact killNil_dying _
      · exact h
    obtain ⟨q, hq, hh⟩ := hhist
    rintro x (hx | ⟨hw, hx⟩ | ⟨rfl, _⟩)
    · exact absurd hx (hD x)
    · have hne : x ≠ g.name := by rintro rfl; exact c.not_self_dep _ hx
      rw [f5, if_neg hne]
      cases hd : s.dying with
      | true => exact Or.inl (hdm hd)
      | false =>
        cases hsx : (s.cur x).stopping with
        | true => exact Or.inr (Or.inr (Or.inl rfl))
        | false =>
          refine Or.inr (Or.inr (Or.inr (change hD hx hd hsx ?_ ?_ ?_)))
          · rw [hh]; rcases hq with rfl | rfl <;> rfl
          · rw [hh]; rcases hq with rfl | rfl <;> rfl
          · rw [← i.worker]
            have : workerH (stopState cfg s g raw now).hist g.name = none := by
              rw [hh]; rcases hq with rfl | rfl <;> simp [workerH]
            rw [this]; exact fun h => hw h.symm
    · right; left; rw [f5, if_pos rfl]; rfl
  | uninstall n vals hs hi hv hdead ht hev =>
    rintro x ⟨hx, hxn⟩
    have hcx : (uninstall s n vals).cur x = s.cur x := by
      show ((s.current.erase n).get? x).getD {} = _
      rw [AMap.get?_erase, if_neg hxn]; rfl
    rw [hcx]
    rcases a x hx with h | h | h | h
    · exact Or.inl h
    · exact Or.inr (Or.inl h)
    · exact Or.inr (Or.inr (Or.inl h))
    · refine Or.inr (Or.inr (Or.inr (stale_mono h ?_ rfl (fun _ => rfl))))
      show manH (.uninstalled n :: s.hist) x = _
      simp [manH, hxn]
  | setPend | gAbort | gTimer | gGet | gStartOk | gStartErr | gSelfDone | gWaitRet | finish | oneShot =>
    exact same id (fun _ h => h) (fun _ h => h) (fun _ => rfl) (fun _ => rfl) (fun _ => rfl)
  | exit hd hdead ha =>
    refine same (fun h => ?_) (fun _ h => h) (fun _ h => h) (fun _ => rfl) (fun _ => rfl) (fun _ => rfl)
    rw [exit_tomb c hd hdead]; exact hd

theorem micro_caused {cfg s D s' D'} (m : Micro v cfg s D s' D') (c : Core s) (i : HInv cfg s) (w : WPhase s.hist)
    (d : DepInv s) (st : StaleInv s D) (a : AtEvery Caused s.hist) : AtEvery Caused s'.hist := by
  cases m with
  | reqStop n hs hst hD =>
    obtain ⟨g, hg, hgn, h⟩ := requestStop_form c hs hst
    have hopen : openH s.hist n = some g.gid := hgn ▸ i.openG g hg
    have hcause : Caused (.cancelled g.gid) s.hist := by
      by_cases hk : s.dying = true
      · exact Or.inl (i.dying.1 hk)
      have hi : (s.manifolds.get? n).isSome = true := by rw [c.keys]; exact isSome_cur_of_not_stopped hs
      obtain ⟨m, hm⟩ := Option.isSome_iff_exists.1 hi
      refine Or.inr ⟨n, m, hopen, (i.man n).symm.trans hm, fun hnd => ?_⟩
      rcases hD with h | ⟨j, h⟩ | h
      · rcases st n h with h | h | h | h
        · exact absurd h hk
        · rw [hs] at h; cases h
        · rw [hst] at h; cases h
        · exact h
      · have h1 := d j n
        have h2 : s.man n = m := by unfold State.man; rw [hm]; rfl
        rw [h2] at h1
        have := List.nodup_iff_count.1 hnd j
        omega
      · exact absurd h hk
    have kw : ∀ w, (s.cur n).worker = some w → Caused (.killW w) (.cancelled g.gid :: s.hist) := by
      intro v hv
      exact Or.inr ⟨n, g.gid, hopen, w n v ((i.worker n).symm.trans hv), by simp⟩
    rcases h with ⟨_, e⟩ | ⟨k, hw, e⟩ | ⟨hw, e⟩ <;> rw [e]
    · exact ⟨hcause, a⟩
    · exact ⟨kw _ hw, hcause, a⟩
    · exact ⟨trivial, kw _ hw, hcause, a⟩
  | refuse g hg v hpc h =>
    have hc : Caused (.killW v) s.hist := by
      rcases h with h | h
      · refine Or.inr ⟨g.name, g.gid, i.openG g hg, ?_, (i.told c hg).1 h⟩
        have := i.pc g hg
        unfold PcOk at this; rw [hpc] at this
        exact this
      · exact Or.inl (i.dying.1 h)
    cases v with
    | self => exact ⟨trivial, hc, a⟩
    | obj k => exact ⟨hc, a⟩
  | stop g hg raw now hpc hdead hD =>
    rw [stopState_eq cfg s g raw now (c.rel g hg).notStopped]
    simp only
    split
    · exact ⟨trivial, trivial, a⟩
    · exact ⟨trivial, a⟩
  | neutral e he => rcases he with ⟨_, _, rfl⟩ | rfl <;> exact ⟨trivial, a⟩
  | setPend | discharge | gAbort | gSelfDone | gWaitRet | oneShot => exact a
  | kill | launch | record | register | uninstall | gTimer | gGet | gStartOk | gStartErr | finish | exit =>
    exact ⟨trivial, a⟩

theorem ex_caused {v : List Ev → List Ev} {cfg : Config} {s : State} {D : Debt} (h : Ex v cfg s D) : AtEvery Caused s.hist :=
  (ex_induct2 (P := fun s D => FInv s D ∧ WPhase s.hist ∧ DepInv s ∧ StaleInv s D ∧ AtEvery Caused s.hist)
    ⟨FInv.init, by intro n w h; simp [init, workerH] at h, by intro i x; simp [init], fun _ h => h.elim, trivial⟩
    (fun _ _ _ _ c i p m => ⟨micro_finv m c i p.1, wphase_step m c i p.2.1, micro_depInv m c p.2.2.1,
      micro_stale m c i p.1 p.2.2.2.1, micro_caused m c i p.2.1 p.2.2.1 p.2.2.2.1 p.2.2.2.2⟩) h).2.2.2.2

theorem reach_caused {cfg : Config} {s : State} (hr : Reach cfg s) : AtEvery Caused s.hist := ex_caused (reach_ex hr)

end Verif.Engine
