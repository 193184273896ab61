import Verif.Props.SystemManifolds
import Verif.Props.SystemReason
import Verif.Props.EngineExact

/-!
# C118, C119: a manifold whose worker fails is started again, one that asks for it is uninstalled, in a program

An engine that nobody kills starts the worker of a manifold again when it has ended, unless its error, as the manifold's filter makes it, is one
after which nothing is tried again; and removes the manifold if the error is ErrUninstall.
-/

namespace Verif.Props
open Verif.Engine Verif.Spec

variable {cfg : Config}

/-- After an attempt that was told to stop, or whose error is one after which the manifold is tried again, nothing but a new attempt happens to
the manifold. -/
theorem again_rests {d pre : List Ev} {x : Name} {g : Nat} {now : Int} {raw f : Option Err} {t : Bool} {l : Option WRef}
    (h1 : AtEvery OneAtATime (d ++ .ended x g now raw f t l :: pre))
    (h2 : AtEvery (fun e h => match e with
      | .uninstalled n => manH h n ≠ none ∧ openH h n = none ∧ ∃ g now raw r lost rest,
          Spec.own h = .ended n g now raw (some r) false lost :: rest ∧ .uninstall ∈ r.tree ∧
          .aborted ∉ r.tree ∧ .missing ∉ r.tree ∧ .bounce ∉ r.tree
      | .begin n _ _ _ _ => manH h n ≠ none
      | _ => True) (d ++ .ended x g now raw f t l :: pre))
    (hm : manH pre x ≠ none) (hf : t = true ∨ retried f = true)
    (hc : attemptsH (d ++ .ended x g now raw f t l :: pre) x = attemptsH pre x) :
    manH (d ++ .ended x g now raw f t l :: pre) x ≠ none ∧ ∀ g' now' raw' f' t' l', .ended x g' now' raw' f' t' l' ∉ d := by
  have ho : openH (.ended x g now raw f t l :: pre) x = none := by simp [openH]
  induction d with
  | nil => exact ⟨hm, fun _ _ _ _ _ _ h => by cases h⟩
  | cons e d ih =>
    have hle := attempts_le d (.ended x g now raw f t l :: pre) x
    have hle : attemptsH pre x ≤ attemptsH (d ++ .ended x g now raw f t l :: pre) x := hle
    have hc' : attemptsH (d ++ .ended x g now raw f t l :: pre) x = attemptsH pre x := by
      cases e <;> simp only [List.cons_append, attemptsH] at hc <;> omega
    obtain ⟨i1, i2⟩ := ih h1.2 h2.2 hc'
    have hop := (no_attempt (x := x) h1.2 hc' ho).1
    refine ⟨?_, fun g' now' raw' f' t' l' h => ?_⟩
    · cases e with
      | installed m man =>
        simp only [List.cons_append, manH]
        split
        · simp
        · exact i1
      | uninstalled m =>
        simp only [List.cons_append, manH]
        split
        · rename_i he
          subst he
          exfalso
          obtain ⟨_, _, g', now', raw', r', lost', rest, hown, u1, u2, u3, u4⟩ := h2.1
          have key : ∀ d' : List Ev, (∀ g' now' raw' f' t' l', .ended x g' now' raw' f' t' l' ∉ d') →
              Spec.own (d' ++ .ended x g now raw f t l :: pre) = .ended x g' now' raw' (some r') false lost' :: rest →
              Ev.ended x g now raw f t l = .ended x g' now' raw' (some r') false lost' := by
            intro d' hd' h
            induction d' with
            | nil =>
              have : Spec.own (.ended x g now raw f t l :: pre) = .ended x g now raw f t l :: pre := rfl
              rw [List.nil_append, this] at h
              injection h
            | cons a d' ih' =>
              cases hfa : foreign a with
              | true =>
                refine ih' (fun g' now' raw' f' t' l' hh => hd' _ _ _ _ _ _ (List.mem_cons_of_mem _ hh)) ?_
                rw [← h]
                simp [Spec.own, List.dropWhile, hfa]
              | false =>
                have : Spec.own (a :: d' ++ .ended x g now raw f t l :: pre) = a :: (d' ++ .ended x g now raw f t l :: pre) := by
                  simp [Spec.own, List.dropWhile, hfa]
                rw [this] at h
                injection h with h _
                subst h
                exact absurd List.mem_cons_self (hd' _ _ _ _ _ _)
          have hk := key d i2 hown
          injection hk with _ _ _ _ k1 k2 _
          subst k1; subst k2
          rcases hf with hf | hf
          · cases hf
          · simp [retried, u1, u4] at hf
        · exact i1
      | _ => exact i1
    · rcases List.mem_cons.1 h with rfl | h
      · have : openH (d ++ .ended x g now raw f t l :: pre) x = some g' := h1.1
        rw [hop] at this; cases this
      · exact i2 _ _ _ _ _ _ h

/-- Neither the loop's doing nor an answer to a call. -/
def Aside (e : Ev) : Prop := foreign e = true ∧ ∀ n err, e ≠ .installFailed n err

/-- What has to follow at once is not the loop's. -/
theorem urgent_foreign {h : List Ev} {e : Ev} (hu : urgent cfg h = some e) : Aside e := by
  unfold urgent at hu
  split at hu
  · split at hu
    · obtain ⟨w, _, rfl⟩ := Option.map_eq_some_iff.1 hu; exact ⟨rfl, nofun⟩
    · cases hu
  · injection hu with hu; subst hu; exact ⟨rfl, nofun⟩
  · split at hu
    · injection hu with hu; subst hu; exact ⟨rfl, nofun⟩
    · cases hu
  · cases hu

/-- After an attempt has ended with ErrUninstall, the next thing the loop does is to remove the manifold, unless the engine is killed. -/
theorem removes_next {h : List Ev} {L : Hidden} (ha : After cfg h L) (hk : .kill ∉ h) {pre : List Ev} {n : Name} {g : Nat} {now : Int}
    {raw f : Option Err} {t : Bool} {l : Option WRef} (hf : removes t f = true) : ∀ {d : List Ev}, h = d ++ .ended n g now raw f t l :: pre →
    (∃ post mid, d = post ++ .uninstalled n :: mid ∧ ∀ e ∈ mid, Aside e) ∨
    ((∀ e ∈ d, Aside e) ∧ ∃ order l', L.loop = .look (.remove n order :: l') ∨ L.loop = .busy (.remove n order :: l')) := by
  induction ha with
  | new => intro d hd; cases d <;> cases hd
  | @event h L e L' ha hu hs ih =>
    intro d hd
    have hk' : .kill ∉ h := fun h => hk (List.mem_cons_of_mem _ h)
    have hke : e ≠ .kill := fun h => hk (h ▸ List.mem_cons_self)
    cases d with
    | nil =>
      rw [List.nil_append] at hd
      injection hd with h1 h2
      subst h1
      refine .inr ⟨fun e h => (List.not_mem_nil h).elim, ?_⟩
      cases hs with
      | ended _ _ _ _ m order =>
        simp only [removes, Bool.and_eq_true, Bool.not_eq_true'] at hf
        obtain ⟨h3, h4⟩ := hf
        have hre : reaction cfg n (decide (.cancelled g ∈ h)) (filterOf cfg m raw) order = [.remove n order] := by
          unfold reaction
          generalize filterOf cfg m raw = y at h4
          cases y with
          | none => cases h4
          | some y =>
            simp only [decide_eq_true_eq] at h4
            simp only [h3]
            simp [h4]
        refine ⟨order, if workerH h n = none then [] else (if removes (decide (.cancelled g ∈ h)) (filterOf cfg m raw) then order n else L.deps n).map .tell,
          .inl ?_⟩
        show Loop.look (duties ..) = _
        unfold duties
        rw [hre]; rfl
    | cons a d =>
      injection hd with h1 h2
      subst h1
      rcases ih hk' h2 with ⟨post, mid, h3, h4⟩ | ⟨h3, order, l', h4⟩
      · exact .inl ⟨e :: post, mid, by rw [h3]; rfl, h4⟩
      · have idle : L.loop ≠ .idle := fun h => by rcases h4 with h4 | h4 <;> rw [h] at h4 <;> cases h4
        have go : Aside e → L'.loop = L.loop → (∃ post mid, e :: d = post ++ .uninstalled n :: mid ∧ ∀ e ∈ mid, Aside e) ∨
            ((∀ e' ∈ e :: d, Aside e') ∧ ∃ order l', L'.loop = .look (.remove n order :: l') ∨ L'.loop = .busy (.remove n order :: l')) :=
          fun he hl => .inr ⟨fun e' he' => by
            rcases List.mem_cons.1 he' with rfl | he'
            · exact he
            · exact h3 _ he', order, l', by rw [hl]; exact h4⟩
        cases hs with
        | kill => exact absurd rfl hke
        | refuseInstall => exact absurd (a := .kill ∈ h) (by assumption) hk'
        | finished | startCall | get | getLate | startOk | startErr | refuse => exact go ⟨rfl, nofun⟩ rfl
        | installed _ _ hl | already _ hl | cycle _ _ hl | report hl | registered _ _ _ _ hl | ended _ _ _ _ _ _ hl
        | dying _ _ _ _ _ hl => exact absurd hl idle
        | start _ _ _ _ hl | restart _ _ _ hl | cancelled _ _ _ hl => rcases h4 with h4 | h4 <;> rw [hl] at h4 <;> cases h4
        | uninstalled _ _ _ hl =>
          rcases h4 with h4 | h4 <;> rw [hl] at h4 <;> cases h4
          exact .inl ⟨[], d, rfl, h3⟩
        | exit => exact absurd (a := .kill ∈ h) (by assumption) hk'
  | @forced h L e ha hu ih =>
    intro d hd
    have hk' : .kill ∉ h := fun h => hk (List.mem_cons_of_mem _ h)
    cases d with
    | nil =>
      rw [List.nil_append] at hd
      injection hd with h1 h2
      subst h1
      have := urgent_foreign hu
      cases this.1
    | cons a d =>
      injection hd with h1 h2
      subst h1
      rcases ih hk' h2 with ⟨post, mid, h3, h4⟩ | ⟨h3, h4⟩
      · exact .inl ⟨e :: post, mid, by rw [h3]; rfl, h4⟩
      · refine .inr ⟨fun e' he' => ?_, h4⟩
        rcases List.mem_cons.1 he' with rfl | he'
        · exact urgent_foreign hu
        · exact h3 _ he'
  | @silent h L l0 ha hu hs ih =>
    intro d hd
    rcases ih hk hd with h3 | ⟨h3, order, l', h4⟩
    · exact .inl h3
    · refine .inr ⟨h3, order, l', ?_⟩
      rcases h4 with h4 | h4 <;> rw [h4] at hs
      · cases hs with
        | look => exact .inr rfl
        | drop _ hk' => exact absurd hk' hk
      · cases hs

/-- If there are more attempts, there is one among what has been added. -/
theorem attempts_begin {d h : List Ev} {x : Name} (hc : attemptsH h x < attemptsH (d ++ h) x) :
    ∃ post mid g b c sn, d = post ++ .begin x g b c sn :: mid := by
  induction d with
  | nil => exact absurd hc (Nat.lt_irrefl _)
  | cons e d ih =>
    by_cases hc' : attemptsH h x < attemptsH (d ++ h) x
    · obtain ⟨post, mid, g, b, c, sn, rfl⟩ := ih hc'
      exact ⟨e :: post, mid, g, b, c, sn, rfl⟩
    · cases e with
      | begin m g b c sn =>
        simp only [List.cons_append, attemptsH] at hc
        split at hc
        · rename_i he
          subst he
          exact ⟨[], d, g, b, c, sn, rfl⟩
        · exact absurd hc hc'
      | _ => exact absurd hc hc'

/-- A manifold that is installed has been. -/
theorem man_installed {h : List Ev} {x : Name} {mf : Manifold} (hm : manH h x = some mf) : .installed x mf ∈ h := by
  induction h with
  | nil => cases hm
  | cons e h ih =>
    cases e with
    | installed m man =>
      simp only [manH] at hm
      split at hm
      · rename_i he
        subst he
        injection hm with hm
        subst hm
        exact List.mem_cons_self
      · exact List.mem_cons_of_mem _ (ih hm)
    | uninstalled m =>
      simp only [manH] at hm
      split at hm
      · cases hm
      · exact List.mem_cons_of_mem _ (ih hm)
    | _ => exact List.mem_cons_of_mem _ (ih hm)

open Verif.System

section
variable {I : Type} [DecidableEq I] {W : Wiring I}

/-- C118: when a worker of an engine that nobody kills has ended, with an error after which its manifold is tried again, then the manifold is
started again. -/
theorem C118_again {r : SysRun W} (hf : r.Fair) (hd : r.DelaysEnd) (hw : r.WaitsAll) (hu : r.Users)
    (wf : WellFounded (fun c i => ∃ k w, w ∈ (r.st k i).kills ∧ W.child i w = c)) {i : I} {cfg : Engine.Config} (hi : W.kind i = .engine cfg)
    (hk : ∀ k, .kill ∉ (r.st k i).ehist) {k w g : Nat} {x : Name} (hs : .startOk x g (.obj w) ∈ (r.st k i).ehist)
    (he : ∃ n, EndedW (r.st n (W.child i w)))
    (hr : ∀ n m e mf, (r.st n (W.child i w)).result = some e → Ev.installed x mf ∈ (r.st m i).ehist →
      retried (match mf.filter with
        | some φ => cfg.filterFn φ e
        | none => e) = true) :
    ∃ m e g' b c sn post pre, (r.st m i).ehist = post ++ .begin x g' b c sn :: pre ∧ .finished w e ∈ pre := by
  have hkept := fun n x hx => (C114_program hf hd hw hu wf hi hk (n := n) (x := x) hx).1
  obtain ⟨q, h1, h2⟩ := engine_part r hf hi
  have hh : ∀ n, (r.st n i).ehist = Engine.pausesHist q n := fun n => by rw [h2]; rfl
  have reach : ∀ k, Engine.FReach cfg (q.st k) := q.inv (P := Engine.FReach cfg) .init (fun _ _ _ h hs => .step _ h hs)
  have mono : ∀ {a b : Nat}, a ≤ b → ∀ e, e ∈ Engine.pausesHist q a → e ∈ Engine.pausesHist q b := fun {a b} hab e he => by
    obtain ⟨es, h⟩ := epauses_grow (q := q) hab
    rw [h]; exact List.mem_append_right _ he
  rw [hh] at hs
  obtain ⟨n, hn⟩ := he
  obtain ⟨j, e, hj⟩ := hw i w (max k n) (by rw [h2]; exact ⟨x, g, mono (Nat.le_max_left k n) _ hs⟩) (r.ended_stays (Nat.le_max_right k n) hn)
  rw [h2] at hj
  obtain ⟨m, now, raw, f, t, l, post, pre, hm, hph⟩ := engine_pauses_ended (q := q) h1 (k := max k j) (mono (Nat.le_max_left k j) _ hs)
    (mono (Nat.le_max_right k j) _ hj)
  have hm' : (q.st m).s.hist = post ++ .ended x g now raw f t l :: pre := hm
  obtain ⟨⟨mf, hmf, hfl⟩, _, _, hfin⟩ : EndsProperly cfg (.ended x g now raw f t l) pre := by
    have hp := C81_ends_properly (reach m)
    rw [hm'] at hp
    exact hp.split
  rw [hph] at hfin
  have hfin : .finished w raw ∈ pre := hfin
  have hfin : .finished w raw ∈ pre := hfin
  have hret : retried f = true := by
    have hsaw : SawW (r.st m i) w raw := by
      rw [h2]
      show Engine.Ev.finished w raw ∈ _
      rw [hm']; exact List.mem_append_right _ (List.mem_cons_of_mem _ hfin)
    obtain ⟨n', hn'⟩ := saw_then r hsaw
    rw [hfl]
    refine hr n' m raw mf hn' ?_
    rw [hh, hm]
    exact List.mem_append_right _ (List.mem_cons_of_mem _ (man_installed hmf))
  suffices hmore : ∃ m', m ≤ m' ∧ attemptsH pre x < attemptsH (Engine.pausesHist q m') x by
    obtain ⟨m', hmm, hlt⟩ := hmore
    obtain ⟨d, hd'⟩ := epauses_grow (q := q) hmm
    rw [hm, ← List.append_assoc] at hd'
    rw [hd'] at hlt
    obtain ⟨post', mid, g', b, c, sn, hb⟩ := attempts_begin (h := .ended x g now raw f t l :: pre) hlt
    refine ⟨m', raw, g', b, c, sn, post', mid ++ .ended x g now raw f t l :: pre, ?_, List.mem_append_right _ (List.mem_cons_of_mem _ hfin)⟩
    rw [hh, hd', hb]; simp
  by_contra hno
  -- there is no other attempt
  have rests : ∀ m', m ≤ m' → manH (Engine.pausesHist q m') x ≠ none ∧ openH (Engine.pausesHist q m') x = none ∧
      waitsH (Engine.pausesHist q m') x = false := fun m' hmm => by
    obtain ⟨d, hd'⟩ := epauses_grow (q := q) hmm
    rw [hm, ← List.append_assoc] at hd'
    have hc : attemptsH ((d ++ post) ++ .ended x g now raw f t l :: pre) x = attemptsH pre x := by
      have h3 := attempts_le (d ++ post) (.ended x g now raw f t l :: pre) x
      have h3 : attemptsH pre x ≤ _ := h3
      have h4 : ¬ attemptsH pre x < attemptsH (Engine.pausesHist q m') x := fun h => hno ⟨m', hmm, h⟩
      rw [hd'] at h4
      omega
    have a1 := C81_one_at_a_time (reach m')
    have a2 := C81_uninstall (reach m')
    have hd2 : (q.st m').s.hist = _ := hd'
    rw [hd2] at a1 a2
    have h5 := no_attempt (x := x) a1 hc (by simp [openH])
    refine ⟨?_, ?_, ?_⟩
    · rw [hd']; exact (again_rests a1 a2 (by rw [hmf]; simp) (.inr hret) hc).1
    · rw [hd']; exact h5.1
    · rw [hd']
      refine h5.2 ?_
      cases f with
      | none => simp [retried] at hret
      | some y =>
        simp [retried] at hret
        simp [waitsH, hret]
  have hK := hkept m x (by rw [hh]; exact (rests m (Nat.le_refl _)).1)
  rw [funext hh] at hK
  cases hK with
  | removed m' h3 h4 => exact (rests m' h3).1 h4
  | again h3 =>
    obtain ⟨m', h4⟩ := h3 (attemptsH pre x + 1)
    refine hno ⟨max m m', Nat.le_max_left _ _, ?_⟩
    obtain ⟨d, hd'⟩ := epauses_grow (q := q) (Nat.le_max_right m m')
    have := attempts_le d (Engine.pausesHist q m') x
    rw [← hd'] at this
    omega
  | starting m' g' h3 =>
    have := (h3 (max m m') (Nat.le_max_right _ _)).1
    rw [(rests _ (Nat.le_max_left m m')).2.1] at this; cases this
  | running m' g' w' h3 =>
    have := (h3 (max m m') (Nat.le_max_right _ _)).1
    rw [(rests _ (Nat.le_max_left m m')).2.1] at this; cases this
  | waiting m' h3 =>
    have := (h3 (max m m') (Nat.le_max_right _ _)).2
    rw [(rests _ (Nat.le_max_left m m')).2.2] at this; cases this

/-- C119: when a worker of an engine that nobody kills has ended with ErrUninstall, without having been told to stop, its manifold is uninstalled; the
loop does nothing else first. -/
theorem C119_uninstalled {r : SysRun W} (hf : r.Fair) (hd : r.DelaysEnd) (hw : r.WaitsAll) (hu : r.Users)
    (wf : WellFounded (fun c i => ∃ k w, w ∈ (r.st k i).kills ∧ W.child i w = c)) {i : I} {cfg : Engine.Config} (hi : W.kind i = .engine cfg)
    (hk : ∀ k, .kill ∉ (r.st k i).ehist) {k w g : Nat} {x : Name} (hs : .startOk x g (.obj w) ∈ (r.st k i).ehist)
    (he : ∃ n, EndedW (r.st n (W.child i w)))
    (hr : ∀ n m e mf, (r.st n (W.child i w)).result = some e → Ev.installed x mf ∈ (r.st m i).ehist → ∃ y,
      (match mf.filter with
        | some φ => cfg.filterFn φ e
        | none => e) = some y ∧ .uninstall ∈ y.tree ∧ .aborted ∉ y.tree ∧ .missing ∉ y.tree ∧ .bounce ∉ y.tree) :
    (∃ m, .cancelled g ∈ (r.st m i).ehist) ∨
    ∃ m now raw f l post mid pre, (r.st m i).ehist = post ++ .uninstalled x :: (mid ++ .ended x g now raw f false l :: pre) ∧ .finished w raw ∈ pre ∧
      ∀ e ∈ mid, Aside e := by
  have hkept := fun n x hx => (C114_program hf hd hw hu wf hi hk (n := n) (x := x) hx).1
  obtain ⟨q, h1, h2⟩ := engine_part r hf hi
  have hh : ∀ n, (r.st n i).ehist = Engine.pausesHist q n := fun n => by rw [h2]; rfl
  have reach : ∀ k, Engine.FReach cfg (q.st k) := q.inv (P := Engine.FReach cfg) .init (fun _ _ _ h hs => .step _ h hs)
  have mono : ∀ {a b : Nat}, a ≤ b → ∀ e, e ∈ Engine.pausesHist q a → e ∈ Engine.pausesHist q b := fun {a b} hab e he => by
    obtain ⟨es, h⟩ := epauses_grow (q := q) hab
    rw [h]; exact List.mem_append_right _ he
  rw [hh] at hs
  obtain ⟨n, hn⟩ := he
  obtain ⟨j, e, hj⟩ := hw i w (max k n) (by rw [h2]; exact ⟨x, g, mono (Nat.le_max_left k n) _ hs⟩) (r.ended_stays (Nat.le_max_right k n) hn)
  rw [h2] at hj
  obtain ⟨m, now, raw, f, t, l, post, pre, hm, hph⟩ := engine_pauses_ended (q := q) h1 (k := max k j) (mono (Nat.le_max_left k j) _ hs)
    (mono (Nat.le_max_right k j) _ hj)
  have hm' : (q.st m).s.hist = post ++ .ended x g now raw f t l :: pre := hm
  obtain ⟨⟨mf, hmf, hfl⟩, htold, _, hfin⟩ : EndsProperly cfg (.ended x g now raw f t l) pre := by
    have hp := C81_ends_properly (reach m)
    rw [hm'] at hp
    exact hp.split
  rw [hph] at hfin
  have hfin : .finished w raw ∈ pre := hfin
  cases t with
  | true =>
    refine .inl ⟨m, ?_⟩
    rw [hh, hm]
    exact List.mem_append_right _ (List.mem_cons_of_mem _ (htold.1 rfl))
  | false =>
  refine .inr ?_
  obtain ⟨y, hy, u1, u2, u3, u4⟩ : ∃ y, f = some y ∧ .uninstall ∈ y.tree ∧ .aborted ∉ y.tree ∧ .missing ∉ y.tree ∧ .bounce ∉ y.tree := by
    have hsaw : SawW (r.st m i) w raw := by
      rw [h2]
      show Engine.Ev.finished w raw ∈ _
      rw [hm']; exact List.mem_append_right _ (List.mem_cons_of_mem _ hfin)
    obtain ⟨n', hn'⟩ := saw_then r hsaw
    rw [hfl]
    refine hr n' m raw mf hn' ?_
    rw [hh, hm]
    exact List.mem_append_right _ (List.mem_cons_of_mem _ (man_installed hmf))
  subst hy
  have hrem : removes false (some y) = true := by simp [removes, u1, u2, u3, u4]
  by_contra hno
  -- the loop does nothing
  have rests : ∀ m', m ≤ m' → manH (Engine.pausesHist q m') x ≠ none ∧ openH (Engine.pausesHist q m') x = none ∧
      waitsH (Engine.pausesHist q m') x = false ∧ attemptsH (Engine.pausesHist q m') x = attemptsH pre x := fun m' hmm => by
    obtain ⟨d, hd'⟩ := epauses_grow (q := q) hmm
    rw [hm, ← List.append_assoc] at hd'
    obtain ⟨_, L, ha⟩ := C96_sound (reach m')
    have hd2 : (q.st m').s.hist = _ := hd'
    rcases removes_next ha (by have := hk m'; rw [hh] at this; exact this) hrem hd2 with ⟨post', mid, h3, h4⟩ | ⟨h3, _⟩
    · refine absurd ⟨m', now, raw, some y, l, post', mid, pre, ?_, hfin, h4⟩ hno
      rw [hh, hd', h3]; simp
    · have h3 : ∀ e ∈ d ++ post, foreign e = true := fun e he => (h3 e he).1
      rw [hd']
      have quiet : ∀ {α : Type} (F : List Ev → α), (∀ e h, foreign e = true → F (e :: h) = F h) →
          ∀ (d h : List Ev), (∀ e ∈ d, foreign e = true) → F (d ++ h) = F h := fun F hF d h hd => by
        induction d with
        | nil => rfl
        | cons a d ih => rw [List.cons_append, hF _ _ (hd _ List.mem_cons_self)]; exact ih (fun e he => hd e (List.mem_cons_of_mem _ he))
      rw [quiet (fun h => manH h x) (fun e h he => by cases e <;> first | rfl | cases he) _ _ h3,
        quiet (fun h => openH h x) (fun e h he => by cases e <;> first | rfl | cases he) _ _ h3,
        quiet (fun h => waitsH h x) (fun e h he => by cases e <;> first | rfl | cases he) _ _ h3,
        quiet (fun h => attemptsH h x) (fun e h he => by cases e <;> first | rfl | cases he) _ _ h3]
      refine ⟨by show manH pre x ≠ none; rw [hmf]; simp, by simp [openH], by simp [waitsH, u2, u3], rfl⟩
  have hK := hkept m x (by rw [hh]; exact (rests m (Nat.le_refl _)).1)
  rw [funext hh] at hK
  cases hK with
  | removed m' h3 h4 => exact (rests m' h3).1 h4
  | again h3 =>
    obtain ⟨m', h4⟩ := h3 (attemptsH pre x + 1)
    have h5 := (rests _ (Nat.le_max_left m m')).2.2.2
    obtain ⟨d, hd'⟩ := epauses_grow (q := q) (Nat.le_max_right m m')
    have := attempts_le d (Engine.pausesHist q m') x
    rw [← hd'] at this
    omega
  | starting m' g' h3 =>
    have := (h3 (max m m') (Nat.le_max_right _ _)).1
    rw [(rests _ (Nat.le_max_left m m')).2.1] at this; cases this
  | running m' g' w' h3 =>
    have := (h3 (max m m') (Nat.le_max_right _ _)).1
    rw [(rests _ (Nat.le_max_left m m')).2.1] at this; cases this
  | waiting m' h3 =>
    have := (h3 (max m m') (Nat.le_max_right _ _)).2
    rw [(rests _ (Nat.le_max_left m m')).2.2.1] at this; cases this

end

namespace ADemo
open SDemo (fn stepL stepL_some run fn_all idle idle_no)

/-- An engine, and two workers for it. -/
def kinds : List System.Kind := [.engine Demo.cfg, .leaf, .leaf]

def W : Wiring Nat where
  kind i := (kinds[i]?).getD .leaf
  child i w := match i, w with
    | 0, 10 => 1
    | 0, 11 => 2
    | n, _ => n + 3
  ne i w := by
    split <;> simp

/-- A manifold is installed and started; its worker fails; it is started again; the second worker asks for it to be uninstalled. -/
def ops : List (Nat × System.Op) := ([.install 0 {} [0], .work, .work, .env (.gTimer 0 0), .env (.gStartOk 0 (.obj 10)), .started 0 8, .work, .work].map
    (fun op => (0, .engine op))) ++ [(1, .leafEnd (some (.user 1)))] ++
  ([.env (.finish 10 (some (.user 1))), .env (.gWaitRet 0), .stopped 0 100 Demo.noVals, .work, .work, .work, .work, .env (.gTimer 1 0),
    .env (.gStartOk 1 (.obj 11)), .started 1 200, .work, .work].map (fun op => (0, .engine op))) ++
  [(2, .leafEnd (some .uninstall))] ++
  ([.env (.finish 11 (some .uninstall)), .env (.gWaitRet 1), .stopped 1 300 Demo.noVals, .work, .work, .work, .work].map (fun op => (0, .engine op)))

def after (k : Nat) : List Comp := (run ADemo.W (kinds.map System.Kind.new) (ops.take k)).getD []

theorem stay_some (k : Nat) : run ADemo.W (kinds.map System.Kind.new) (ops.take k) = some (after k) := by
  have h : (run ADemo.W (kinds.map System.Kind.new) ops).isSome = true := by decide +kernel
  rw [← List.take_append_drop k ops, SDemo.run_append] at h
  unfold after
  cases hr : run ADemo.W (kinds.map System.Kind.new) (ops.take k) with
  | none => rw [hr] at h; cases h
  | some L => rfl

theorem stay_step {k : Nat} (hk : k < ops.length) : stepL ADemo.W (after k) (ops[k]).1 (ops[k]).2 = some (after (k + 1)) := by
  have h := stay_some (k + 1)
  rw [List.take_succ_eq_append_getElem hk, SDemo.run_append, stay_some k] at h
  simp only [Option.bind_some, run, Option.bind_fun_some] at h
  exact h

theorem stay_more {k : Nat} (hk : ops.length ≤ k) : after k = after ops.length := by
  unfold after
  rw [List.take_of_length_le hk, List.take_of_length_le (Nat.le_refl _)]

/-- What holds after each of these steps, of every worker, holds for ever. -/
theorem stay_all {P : Comp → Bool} (key : ∀ k, k ≤ ops.length → (after k).all P = true) (h0 : P (.leaf false none) = true) (k i : Nat) :
    P (fn (after k) i) = true := by
  refine fn_all ?_ h0 i
  by_cases hk : k ≤ ops.length
  · exact key k hk
  · rw [stay_more (by omega)]; exact key _ (Nat.le_refl _)

theorem stay_one {P : Comp → Bool} {i : Nat} (key : ∀ k, k ≤ ops.length → P (fn (after k) i) = true) (k : Nat) : P (fn (after k) i) = true := by
  by_cases hk : k ≤ ops.length
  · exact key k hk
  · rw [stay_more (by omega)]; exact key _ (Nat.le_refl _)

/-- Then nothing happens any more. -/
def stay : SysRun ADemo.W where
  st k := fn (after k)
  act k := ops[k]?
  start := by
    funext i
    have : after 0 = kinds.map System.Kind.new := rfl
    rw [this]
    simp only [fn, Wiring.new, W, List.getElem?_map]
    cases kinds[i]? <;> rfl
  up k i := by
    have := stay_all (P := fun c => !c.crashed) (by decide +kernel) rfl k i
    simpa using this
  next k := by
    by_cases hk : k < ops.length
    · exact .inl ⟨_, _, List.getElem?_eq_getElem hk, stepL_some (stay_step hk)⟩
    · exact .inr ⟨List.getElem?_eq_none (Nat.le_of_not_lt hk), by rw [stay_more (by omega : ops.length ≤ k + 1), ← stay_more (Nat.le_of_not_lt hk)]⟩

theorem stay_last {k : Nat} (hk : ops.length ≤ k) : stay.st k = fn (after ops.length) := by
  show fn (after k) = _
  rw [stay_more hk]

theorem stay_idle (i : Nat) : idle (fn (after ops.length) i) = true :=
  fn_all (P := idle) (by decide +kernel) rfl i

theorem stay_fair : stay.Fair := by
  intro i x h
  exfalso
  obtain ⟨k, hk, hc⟩ := h ops.length
  refine idle_no (reach_of (stay.reach k) i) ?_ x hc
  rw [stay_last hk]; exact stay_idle i

theorem stay_delays : stay.DelaysEnd := by
  intro i g h
  exfalso
  obtain ⟨k, hk, d, hc⟩ := h ops.length
  have hi := stay_idle i
  rw [stay_last hk] at hc
  generalize fn (after ops.length) i = c at hi hc
  cases c with
  | engine cfg f =>
    simp only [idle, Bool.and_eq_true] at hi
    obtain ⟨c', hc⟩ := Option.isSome_iff_exists.1 hc
    obtain ⟨s', hs, _⟩ := Option.map_eq_some_iff.1 hc
    exact FDemo.quiet_no hi.1 (.timer g) ⟨_, s', rfl, hs⟩
  | _ => cases hc

theorem stay_kills (i w k : Nat) : w ∉ (stay.st k i).kills := by
  intro h
  have h := stay.kills_stay (Nat.le_max_left k ops.length) h
  rw [stay_last (Nat.le_max_right k ops.length)] at h
  have := fn_all (L := after ops.length) (P := fun c => c.kills.isEmpty) (by decide +kernel) rfl i
  rw [List.isEmpty_iff.1 this] at h; cases h

theorem stay_waits : stay.WaitsAll := by
  intro i w k hw he
  match i, w with
  | 0, w =>
    have key : ([(10, some (.user 1)), (11, some .uninstall)] : List (Nat × Option Err)).all (fun y => match fn (after ops.length) 0 with
      | .engine _ f => f.s.hist.contains (.finished y.1 y.2)
      | _ => false) = true := by
      decide +kernel
    have seen : ∀ y ∈ ([(10, some (.user 1)), (11, some .uninstall)] : List (Nat × Option Err)), SawW (stay.st ops.length 0) y.1 y.2 := fun y hy => by
      have := List.all_eq_true.1 key y hy
      show SawW (fn (after ops.length) 0) _ _
      generalize fn (after ops.length) 0 = c at this
      cases c with
      | engine => simpa [SawW] using this
      | _ => cases this
    by_cases h1 : w = 10
    · subst h1; exact ⟨_, _, seen (10, some (.user 1)) (by simp)⟩
    by_cases h2 : w = 11
    · subst h2; exact ⟨_, _, seen (11, some .uninstall) (by simp)⟩
    exfalso
    have key : ∀ k, k ≤ ops.length → (fn (after k) 3).result.isNone = true := by decide +kernel
    have all : ∀ k, (fn (after k) 3).result = none := fun k => by
      rw [← Option.isNone_iff_eq_none]
      by_cases hk : k ≤ ops.length
      · exact key k hk
      · rw [stay_more (by omega)]; exact key _ (Nat.le_refl _)
    unfold EndedW at he
    have hc : W.child 0 w = 3 := by
      unfold W
      simp only
      split <;> simp_all
    rw [hc] at he
    have h3 : (stay.st k 3).result = none := all k
    rw [h3] at he; cases he
  | n + 1, w =>
    exfalso
    have hr := reach_of (stay.reach k) (n + 1)
    have hk : ADemo.W.kind (n + 1) = .leaf := by
      match n with
      | 0 | 1 => rfl
      | n + 2 => rfl
    rw [hk] at hr
    generalize stay.st k (n + 1) = c at hw hr
    cases hr
    exact hw

theorem stay_starts : StartsReturn (fun k => (stay.st k 0).ehist) := by
  intro k n g _ _
  refine ⟨max k ops.length, Nat.le_max_left _ _, fun ⟨ho, hp⟩ => ?_⟩
  have ho : openH (stay.st (max k ops.length) 0).ehist n = some g := ho
  have hp : phaseH (stay.st (max k ops.length) 0).ehist n = .inStart := hp
  have hr := reach_of (stay.reach ops.length) 0
  rw [stay_last (Nat.le_max_right _ _)] at ho hp
  rw [stay_last (Nat.le_refl _)] at hr
  have key : (match fn (after ops.length) 0 with | .engine _ f => f.s.gs.all (fun g => g.pc != .starting) | _ => false) = true := by
    decide +kernel
  generalize fn (after ops.length) 0 = c at ho hp hr key
  cases hr with
  | engine hr =>
    obtain ⟨_, i⟩ := Engine.freach_hinv hr
    obtain ⟨G, hG, rfl, rfl⟩ := i.openN n g ho
    have hpc := i.pc G hG
    have hs := List.all_eq_true.1 key G hG
    simp only [Comp.ehist] at hp
    unfold Engine.PcOk at hpc
    split at hpc
    · rw [hp] at hpc; cases hpc
    · rename_i h; rw [h] at hs; simp at hs
    · rw [hp] at hpc; cases hpc
    · rw [hp] at hpc; cases hpc
    · rw [hp] at hpc; cases hpc
    · rw [hp] at hpc
      rcases hpc with ⟨h, _⟩ | ⟨_, h, _⟩ | ⟨_, h, _⟩ | ⟨h, _⟩ <;> cases h

theorem stay_users : stay.Users := by
  intro i
  have hc : ∀ k, (stay.st k i).chist.all (fun e => !(CSpec.killOf e).isSome) = true := fun k =>
    stay_all (P := fun c => c.chist.all (fun e => !(CSpec.killOf e).isSome)) (by decide +kernel) rfl k i
  have hl : ∀ k, (match stay.st k i with | .leaf b _ => !b | _ => true) = true := fun k =>
    stay_all (P := fun c => match c with | .leaf b _ => !b | _ => true) (by decide +kernel) rfl k i
  have hr : ∀ g, RSpec.phaseH (fn (after ops.length) i).rhist g ≠ some .calling := fun g hp => by
    have key : (after ops.length).all (fun c => (c.rhist.filterMap RDemo.calledG).all (fun g => RSpec.phaseH c.rhist g != some .calling)) = true := by
      decide +kernel
    have := List.all_eq_true.1 (fn_all key rfl i) g (RDemo.calling_mem hp)
    rw [hp] at this; simp at this
  split
  · intro k g _
    refine ⟨max k ops.length, Nat.le_max_left _ _, fun hp => ?_⟩
    have hp : RSpec.phaseH (stay.st (max k ops.length) i).rhist g = some .calling := hp
    rw [stay_last (Nat.le_max_right k ops.length)] at hp
    exact hr g hp
  · rintro k ⟨e, he, hd⟩
    have := List.all_eq_true.1 (hc k) _ he
    simp [hd] at this
  · rename_i hi
    match i, hi with
    | 0, _ => exact fun k n g ho hp _ => stay_starts k n g ho hp
    | 1, hi | 2, hi => cases hi
    | n + 3, hi => cases hi
  · intro k hs
    have := hl k
    have hr := reach_of (stay.reach k) i
    rename_i hi
    rw [hi] at hr
    generalize stay.st k i = c at hs this hr
    cases hr with
    | leaf b x =>
      have hs : b = true := hs
      subst hs; cases this

end ADemo

-- the worker of manifold 0 fails, and the engine has not noticed yet
example : ADemo.stay.Fair ∧ ADemo.stay.DelaysEnd ∧ ADemo.stay.WaitsAll ∧ ADemo.stay.Users ∧
    WellFounded (fun c i => ∃ k w, w ∈ (ADemo.stay.st k i).kills ∧ ADemo.W.child i w = c) ∧ ADemo.W.kind 0 = .engine Demo.cfg ∧
    (∀ k, .kill ∉ (ADemo.stay.st k 0).ehist) ∧ .startOk 0 0 (.obj 10) ∈ (ADemo.stay.st 9 0).ehist ∧ EndedW (ADemo.stay.st 9 (ADemo.W.child 0 10)) ∧
    (∀ e, .finished 10 e ∉ (ADemo.stay.st 9 0).ehist) ∧
    ∀ n m e mf, (ADemo.stay.st n (ADemo.W.child 0 10)).result = some e → Ev.installed 0 mf ∈ (ADemo.stay.st m 0).ehist →
      retried (match mf.filter with
        | some φ => Demo.cfg.filterFn φ e
        | none => e) = true := by
  have hist : ∀ {P : Ev → Bool}, (∀ k, k ≤ ADemo.ops.length → (ADemo.after k).all (fun c => c.ehist.all P) = true) →
      ∀ k e, e ∈ (ADemo.stay.st k 0).ehist → P e = true := fun {P} key k e he => by
    have := ADemo.stay_all (P := fun c => c.ehist.all P) key rfl k 0
    exact List.all_eq_true.1 this _ he
  refine ⟨ADemo.stay_fair, ADemo.stay_delays, ADemo.stay_waits, ADemo.stay_users,
    ⟨fun i => ⟨i, fun j ⟨k, w, h, _⟩ => absurd h (ADemo.stay_kills i w k)⟩⟩, rfl, fun k h => ?_, by decide +kernel, ?_, fun e h => ?_,
    fun n m e mf hn hm => ?_⟩
  · exact absurd (hist (P := fun e => match e with | .kill => false | _ => true) (by decide +kernel) k _ h) (by simp)
  · have : (ADemo.stay.st 9 (ADemo.W.child 0 10)).result = some (some (.user 1)) := by decide +kernel
    unfold EndedW; rw [this]; rfl
  · have key : (ADemo.stay.st 9 0).ehist.all (fun e => match e with | .finished _ _ => false | _ => true) = true := by decide +kernel
    exact absurd (List.all_eq_true.1 key _ h) (by simp)
  · have h1 := hist (P := fun e => match e with | .installed _ mf => mf.filter.isNone | _ => true) (by decide +kernel) m _ hm
    have h2 := ADemo.stay_one (P := fun c => match c.result with | some e => e == some (.user 1) | none => true) (i := ADemo.W.child 0 10)
      (by decide +kernel) n
    change (match (ADemo.stay.st n (ADemo.W.child 0 10)).result with | some e => e == some (.user 1) | none => true) = true at h2
    rw [hn] at h2
    have h1 : mf.filter = none := by simpa using h1
    have h2 : e = some (.user 1) := by simpa using h2
    rw [h1, h2]; decide

-- the second worker ends with ErrUninstall, and the engine has not noticed yet
example : ADemo.stay.Fair ∧ ADemo.stay.DelaysEnd ∧ ADemo.stay.WaitsAll ∧ ADemo.stay.Users ∧
    WellFounded (fun c i => ∃ k w, w ∈ (ADemo.stay.st k i).kills ∧ ADemo.W.child i w = c) ∧ ADemo.W.kind 0 = .engine Demo.cfg ∧
    (∀ k, .kill ∉ (ADemo.stay.st k 0).ehist) ∧ .startOk 0 1 (.obj 11) ∈ (ADemo.stay.st 22 0).ehist ∧ EndedW (ADemo.stay.st 22 (ADemo.W.child 0 11)) ∧
    (∀ e, .finished 11 e ∉ (ADemo.stay.st 22 0).ehist) ∧ (∀ m g, .cancelled g ∉ (ADemo.stay.st m 0).ehist) ∧
    ∀ n m e mf, (ADemo.stay.st n (ADemo.W.child 0 11)).result = some e → Ev.installed 0 mf ∈ (ADemo.stay.st m 0).ehist → ∃ y,
      (match mf.filter with
        | some φ => Demo.cfg.filterFn φ e
        | none => e) = some y ∧ .uninstall ∈ y.tree ∧ .aborted ∉ y.tree ∧ .missing ∉ y.tree ∧ .bounce ∉ y.tree := by
  have hist : ∀ {P : Ev → Bool}, (∀ k, k ≤ ADemo.ops.length → (ADemo.after k).all (fun c => c.ehist.all P) = true) →
      ∀ k e, e ∈ (ADemo.stay.st k 0).ehist → P e = true := fun {P} key k e he => by
    have := ADemo.stay_all (P := fun c => c.ehist.all P) key rfl k 0
    exact List.all_eq_true.1 this _ he
  refine ⟨ADemo.stay_fair, ADemo.stay_delays, ADemo.stay_waits, ADemo.stay_users,
    ⟨fun i => ⟨i, fun j ⟨k, w, h, _⟩ => absurd h (ADemo.stay_kills i w k)⟩⟩, rfl, fun k h => ?_, by decide +kernel, ?_, fun e h => ?_, fun m g h => ?_,
    fun n m e mf hn hm => ?_⟩
  · exact absurd (hist (P := fun e => match e with | .kill => false | _ => true) (by decide +kernel) k _ h) (by simp)
  · have : (ADemo.stay.st 22 (ADemo.W.child 0 11)).result = some (some .uninstall) := by decide +kernel
    unfold EndedW; rw [this]; rfl
  · have key : (ADemo.stay.st 22 0).ehist.all (fun e => match e with | .finished 11 _ => false | _ => true) = true := by decide +kernel
    exact absurd (List.all_eq_true.1 key _ h) (by simp)
  · exact absurd (hist (P := fun e => match e with | .cancelled _ => false | _ => true) (by decide +kernel) m _ h) (by simp)
  · have h1 := hist (P := fun e => match e with | .installed _ mf => mf.filter.isNone | _ => true) (by decide +kernel) m _ hm
    have h2 := ADemo.stay_one (P := fun c => match c.result with | some e => e == some .uninstall | none => true) (i := ADemo.W.child 0 11)
      (by decide +kernel) n
    change (match (ADemo.stay.st n (ADemo.W.child 0 11)).result with | some e => e == some .uninstall | none => true) = true at h2
    rw [hn] at h2
    have h1 : mf.filter = none := by simpa using h1
    have h2 : e = some .uninstall := by simpa using h2
    rw [h1, h2]; exact ⟨.uninstall, rfl, by decide, by decide, by decide, by decide⟩

end Verif.Props
