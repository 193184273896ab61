import Verif.Props.SystemHanded
import Verif.Props.Continue

/-!
# C108: programs can go on

Every program can go on from wherever it is in such a way that the hypotheses of C106 are met: its users need do no more than let start funcs
fail, work funcs return and leaves end. So every worker can be stopped, from every state.
-/

namespace Verif.Props
open Verif.System Verif.Spec Verif.Schedule

deriving instance Countable for SKind

variable {I : Type} [DecidableEq I] {W : Wiring I} {S S' : I → Comp} {G : Err → Prop} {e0 : Err}

/-- What users do from some moment on: start funcs fail with `e0`, work funcs return nil, leaves end with nil, and Wait of a worker returns. -/
def Extra (e0 : Err) (c : Comp) : Op → Prop
  | .runner (.gStartErr _ e) => e = e0
  | .runner (.finish w _) => Handed c w
  | .catacomb (.workRet r) => r = .ret none
  | .catacomb (.finish w _) => Handed c w
  | .engine (.env (.gStartErr _ e)) => e = e0
  | .engine (.env (.finish w _)) => Handed c w
  | .leafEnd e => e = none
  | _ => False

/-- The kinds of these steps. -/
def extra : Op → Option (Nat ⊕ Nat ⊕ Bool)
  | .runner (.gStartErr g _) | .engine (.env (.gStartErr g _)) => some (.inl g)
  | .runner (.finish w _) | .catacomb (.finish w _) | .engine (.env (.finish w _)) => some (.inr (.inl w))
  | .catacomb (.workRet _) => some (.inr (.inr false))
  | .leafEnd _ => some (.inr (.inr true))
  | _ => none

def gkind (op : Op) : Option (SKind ⊕ Nat ⊕ Nat ⊕ Bool) := match skind op with
  | some x => some (.inl x)
  | none => (extra op).map .inr

theorem gkind_own {op : Op} {x : SKind} : gkind op = some (.inl x) ↔ skind op = some x := by
  unfold gkind
  split
  · rename_i y h; simp [h]
  · rename_i h; simp [h]

theorem gkind_extra {op : Op} {x : Nat ⊕ Nat ⊕ Bool} (h : gkind op = some (.inr x)) : extra op = some x := by
  unfold gkind at h
  split at h
  · cases h
  · obtain ⟨y, h1, h2⟩ := Option.map_eq_some_iff.1 h
    injection h2 with h2; subst h2; exact h1

def GoOn (e0 : Err) (c : Comp) (op : Op) : Prop := (∃ x, skind op = some x) ∨ Extra e0 c op

/-- What a step leaves of what users have done. -/
structure Modest (e0 : Err) (c c' : Comp) : Prop where
  given : ∀ e, Given c' e → Given c e ∨ e = e0
  handed : ∀ w, Handed c' w → Handed c w
  work : ∀ r, .workRet r ∈ c'.chist → .workRet r ∈ c.chist ∨ r = .ret none

theorem Modest.refl (c : Comp) : Modest e0 c c := ⟨fun _ h => .inl h, fun _ h => h, fun _ h => .inl h⟩

theorem own_step {k : Kind} {c c' : Comp} {op : Op} {x : SKind} (ho : Of k c) (hk : skind op = some x) (hs : c.step op = some c') :
    c'.ends = c.ends ∧ Modest e0 c c' := by
  cases ho with
  | @runner p s hr =>
    cases op <;> simp only [Comp.step, reduceCtorEq] at hs
    rename_i op
    replace hs := Option.map_eq_some_iff.1 hs
    obtain ⟨s', hs, rfl⟩ := hs
    have hi : op.internal = true := by
      by_contra hi
      simp [skind, Runner.rkind, hi] at hk
    have hx := Runner.outer_internal hi hs
    refine ⟨?_, fun e ⟨id, g, h⟩ => .inl ⟨id, g, (Runner.outer_mem hx rfl).1 h⟩, fun w ⟨id, g, h⟩ => ⟨id, g, (Runner.outer_mem hx rfl).1 h⟩, nofun⟩
    have : ∀ h : List Runner.Ev, h.filterMap rendOf = (h.filter Runner.Ev.outer).filterMap rendOf := fun h => by
      rw [List.filterMap_filter]
      congr 1; funext e
      cases e <;> rfl
    show List.filterMap _ _ = List.filterMap _ _
    rw [this, this s.tab.hist]
    exact congrArg _ hx
  | @catacomb own s hr =>
    cases op <;> simp only [Comp.step, reduceCtorEq] at hs
    rename_i op
    replace hs := Option.map_eq_some_iff.1 hs
    obtain ⟨s', hs, rfl⟩ := hs
    have hi : op.internal = true := by
      by_contra hi
      simp [skind, Catacomb.ckind, hi] at hk
    have hm : ∀ {e : Catacomb.Ev}, e.outer = true → e ∈ s'.hist → e ∈ s.hist := fun ho h => (Catacomb.inner_mem hs hi ho).1 h
    refine ⟨?_, fun e h => .inl ?_, fun w h => ?_, fun r h => .inl (hm rfl h)⟩
    · show List.filterMap _ _ = List.filterMap _ _
      rcases (Catacomb.step_T hs).2.inner hi with h | ⟨x, h, hx⟩
      · rw [h]
      · rw [h, List.filterMap_cons_none]
        cases x <;> first | rfl | cases hx
    · rcases h with h | h | h | ⟨v, h, h'⟩
      · exact .inl (hm rfl h)
      · exact .inr (.inl (hm rfl h))
      · exact .inr (.inr (.inl (hm rfl h)))
      · exact .inr (.inr (.inr ⟨v, hm rfl h, h'⟩))
    · rcases h with ⟨c, h⟩ | ⟨i, p, h, h'⟩
      · exact .inl ⟨c, hm rfl h⟩
      · exact .inr ⟨i, p, hm rfl h, h'⟩
  | @engine cfg f hr =>
    cases op <;> simp only [Comp.step, reduceCtorEq] at hs
    rename_i op
    replace hs := Option.map_eq_some_iff.1 hs
    obtain ⟨f', hs, rfl⟩ := hs
    have hi : op.kind ≠ none := fun hn => by simp [skind, Engine.ekind, hn] at hk
    have hx := Engine.fstep_inner hi hs
    refine ⟨?_, fun e ⟨id, g, h⟩ => .inl ⟨id, g, (Engine.inner_mem hx rfl).1 h⟩, fun w ⟨id, g, h⟩ => ⟨id, g, (Engine.inner_mem hx rfl).1 h⟩, nofun⟩
    obtain ⟨d, hd, hd'⟩ := hx
    show List.filterMap _ _ = List.filterMap _ _
    rw [hd, List.filterMap_append, List.filterMap_eq_nil_iff.2 (fun e he => ?_), List.nil_append]
    have := hd' e he
    cases e <;> first | rfl | cases this
  | leaf killed res => cases op <;> simp [skind] at hk <;> simp [Comp.step] at hs

theorem rstart_hist {p : Runner.Params} {s s' : Runner.State} {g : Nat} {e : Err} (hs : Runner.step p s (.gStartErr g e) = some s') :
    ∃ id, s'.tab.hist = .startErr id g e :: s.tab.hist := by
  simp only [Runner.step, Runner.Op.cid?, Runner.tabStep] at hs
  split at hs
  · split at hs
    · simp only [Option.map_some, Option.some.injEq] at hs
      subst hs; exact ⟨_, rfl⟩
    · cases hs
  · cases hs

theorem rfinish_hist {p : Runner.Params} {s s' : Runner.State} {w : Nat} {e : Option Err} (hs : Runner.step p s (.finish w e) = some s') :
    s'.tab.hist = .finished w e :: s.tab.hist := by
  simp only [Runner.step, Runner.Op.cid?, Runner.tabStep] at hs
  split at hs
  · simp only [Option.map_some, Option.some.injEq] at hs
    subst hs; rfl
  · cases hs

theorem estart_hist {cfg : Engine.Config} {f f' : Engine.Fine} {g : Nat} {e : Err} (hs : Engine.fstep cfg f (.env (.gStartErr g e)) = some f') :
    ∃ n, f'.s.hist = .startErr n g e :: f.s.hist := by
  simp only [Engine.fstep, Engine.Op.isEnv, if_true, Engine.step] at hs
  split at hs
  · split at hs
    · simp only [Option.map_some, Option.some.injEq] at hs
      subst hs; exact ⟨_, rfl⟩
    · cases hs
  · cases hs

theorem efinish_hist {cfg : Engine.Config} {f f' : Engine.Fine} {w : Nat} {e : Option Err} (hs : Engine.fstep cfg f (.env (.finish w e)) = some f') :
    f'.s.hist = .finished w e :: f.s.hist := by
  simp only [Engine.fstep, Engine.Op.isEnv, if_true, Engine.step] at hs
  split at hs
  · simp only [Option.map_some, Option.some.injEq] at hs
    subst hs; rfl
  · cases hs

/-- What Wait of a worker returns in such a step. -/
def returned : Op → List (Nat × Option Err)
  | .runner (.finish w e) | .catacomb (.finish w e) | .engine (.env (.finish w e)) => [(w, e)]
  | _ => []

theorem extra_step {k : Kind} {c c' : Comp} {op : Op} (ho : Of k c) (hk : Extra e0 c op) (hs : c.step op = some c') :
    c'.ends = returned op ++ c.ends ∧ Modest e0 c c' := by
  cases ho with
  | @runner p s hr =>
    cases op <;> simp only [Comp.step, reduceCtorEq] at hs
    rename_i op
    replace hs := Option.map_eq_some_iff.1 hs
    obtain ⟨s', hs, rfl⟩ := hs
    cases op with
    | gStartErr g e =>
      cases (hk : e = e0)
      obtain ⟨id, hh⟩ := rstart_hist hs
      refine ⟨?_, fun e ⟨id', g, h⟩ => ?_, fun w ⟨id', g, h⟩ => ⟨id', g, ?_⟩, nofun⟩
      · show List.filterMap _ _ = List.filterMap _ _
        rw [hh]; rfl
      · rw [hh] at h
        rcases List.mem_cons.1 h with h | h
        · injection h with _ _ h; exact .inr h
        · exact .inl ⟨id', g, h⟩
      · rw [hh] at h; exact (List.mem_cons.1 h).resolve_left nofun
    | finish w e =>
      have hh := rfinish_hist hs
      refine ⟨?_, fun e ⟨id', g, h⟩ => .inl ⟨id', g, ?_⟩, fun w ⟨id', g, h⟩ => ⟨id', g, ?_⟩, nofun⟩
      · show List.filterMap _ _ = _ :: List.filterMap _ _
        rw [hh]; rfl
      · rw [hh] at h; exact (List.mem_cons.1 h).resolve_left nofun
      · rw [hh] at h; exact (List.mem_cons.1 h).resolve_left nofun
    | _ => exact False.elim hk
  | @catacomb own s hr =>
    cases op <;> simp only [Comp.step, reduceCtorEq] at hs
    rename_i op
    replace hs := Option.map_eq_some_iff.1 hs
    obtain ⟨s', hs, rfl⟩ := hs
    have key : ∀ x, s'.hist = x :: s.hist → (∀ r, x = .workRet r → r = .ret none) → (x.outer = true → (∃ w e, x = .finished w e) ∨ ∃ r, x = .workRet r) →
        Modest e0 (.catacomb own s) (.catacomb own s') := fun x hh h1 h2 => by
      have hm : ∀ {e : Catacomb.Ev}, (∀ w y, e ≠ .finished w y) → (e.outer = true) → (∀ r, e = .workRet r → r ≠ .ret none) → e ∈ s'.hist → e ∈ s.hist :=
        fun ha hb hc h => by
          rw [hh] at h
          refine (List.mem_cons.1 h).resolve_left ?_
          rintro rfl
          rcases h2 hb with ⟨w, y, h2⟩ | ⟨r, h2⟩
          · exact ha w y h2
          · exact hc r h2 (h1 r h2)
      refine ⟨fun e h => .inl ?_, fun w h => ?_, fun r h => ?_⟩
      · rcases h with h | h | h | ⟨v, h, h'⟩
        · exact .inl (hm nofun rfl nofun h)
        · exact .inr (.inl (hm nofun rfl nofun h))
        · exact .inr (.inr (.inl (hm nofun rfl (fun r hr => by injection hr with hr; subst hr; exact nofun) h)))
        · exact .inr (.inr (.inr ⟨v, hm nofun rfl (fun r hr => by injection hr with hr; subst hr; exact nofun) h, h'⟩))
      · rcases h with ⟨c, h⟩ | ⟨i, p, h, h'⟩
        · exact .inl ⟨c, hm nofun rfl nofun h⟩
        · exact .inr ⟨i, p, hm nofun rfl nofun h, h'⟩
      · change _ ∈ s'.hist at h
        rw [hh] at h
        rcases List.mem_cons.1 h with h | h
        · exact .inr (h1 r h.symm)
        · exact .inl h
    cases op with
    | workRet r =>
      cases (hk : r = .ret none)
      have hh := work_hist hs
      refine ⟨?_, key _ hh (fun r h => by injection h with h; exact h.symm) (fun _ => .inr ⟨_, rfl⟩)⟩
      show List.filterMap _ _ = List.filterMap _ _
      rw [hh]; rfl
    | finish w e =>
      have hh := cfinish_hist hs
      refine ⟨?_, key _ hh nofun (fun _ => .inl ⟨_, _, rfl⟩)⟩
      show List.filterMap _ _ = _ :: List.filterMap _ _
      rw [hh]; rfl
    | _ => exact False.elim hk
  | @engine cfg f hr =>
    cases op <;> simp only [Comp.step, reduceCtorEq] at hs
    rename_i op
    replace hs := Option.map_eq_some_iff.1 hs
    obtain ⟨f', hs, rfl⟩ := hs
    cases op with
    | work | dying | report | install | started | stopped => exact False.elim hk
    | env op =>
    cases op with
    | gStartErr g e =>
      cases (hk : e = e0)
      obtain ⟨id, hh⟩ := estart_hist hs
      refine ⟨?_, fun e ⟨id', g, h⟩ => ?_, fun w ⟨id', g, h⟩ => ⟨id', g, ?_⟩, nofun⟩
      · show List.filterMap _ _ = List.filterMap _ _
        rw [hh]; rfl
      · rw [hh] at h
        rcases List.mem_cons.1 h with h | h
        · injection h with _ _ h; exact .inr h
        · exact .inl ⟨id', g, h⟩
      · rw [hh] at h; exact (List.mem_cons.1 h).resolve_left nofun
    | finish w e =>
      have hh := efinish_hist hs
      refine ⟨?_, fun e ⟨id', g, h⟩ => .inl ⟨id', g, ?_⟩, fun w ⟨id', g, h⟩ => ⟨id', g, ?_⟩, nofun⟩
      · show List.filterMap _ _ = _ :: List.filterMap _ _
        rw [hh]; rfl
      · rw [hh] at h; exact (List.mem_cons.1 h).resolve_left nofun
      · rw [hh] at h; exact (List.mem_cons.1 h).resolve_left nofun
    | _ => exact False.elim hk
  | leaf killed res =>
    cases op <;> simp only [Comp.step, reduceCtorEq] at hs
    · exact False.elim hk
    · cases hk
      cases res <;> simp only [Comp.step, Option.some.injEq, reduceCtorEq] at hs
      subst hs
      exact ⟨rfl, fun e h => (by cases h), nofun, nofun⟩

theorem kill_modest {k : Kind} {c : Comp} (ho : Of k c) (hc : c.crashed = false) : Modest e0 c c.kill := by
  cases ho with
  | runner _ => exact ⟨fun e ⟨id, g, h⟩ => .inl ⟨id, g, (List.mem_cons.1 h).resolve_left nofun⟩, fun w ⟨id, g, h⟩ => ⟨id, g, (List.mem_cons.1 h).resolve_left nofun⟩, nofun⟩
  | catacomb _ =>
    rw [cat_kill hc]
    refine ⟨fun e h => .inl ?_, fun w h => ?_, fun r h => .inl ((List.mem_cons.1 h).resolve_left nofun)⟩
    · rcases h with h | h | h | ⟨v, h, h'⟩
      · exact .inl ((List.mem_cons.1 h).resolve_left nofun)
      · exact .inr (.inl ((List.mem_cons.1 h).resolve_left nofun))
      · exact .inr (.inr (.inl ((List.mem_cons.1 h).resolve_left nofun)))
      · exact .inr (.inr (.inr ⟨v, (List.mem_cons.1 h).resolve_left nofun, h'⟩))
    · rcases h with ⟨c, h⟩ | ⟨i, p, h, h'⟩
      · exact .inl ⟨c, (List.mem_cons.1 h).resolve_left nofun⟩
      · exact .inr ⟨i, p, (List.mem_cons.1 h).resolve_left nofun, h'⟩
  | engine _ => exact ⟨fun e ⟨id, g, h⟩ => .inl ⟨id, g, (List.mem_cons.1 h).resolve_left nofun⟩, fun w ⟨id, g, h⟩ => ⟨id, g, (List.mem_cons.1 h).resolve_left nofun⟩, nofun⟩
  | leaf killed res => exact ⟨fun e h => .inl h, nofun, nofun⟩

/-- A program that can go on. Every catacomb in use is running, and its work func has not called Goexit. One that is not has been handed to
nobody. -/
structure Going (W : Wiring I) (G : Err → Prop) (S : I → Comp) : Prop where
  reach : System.Reach W S
  given : ∀ i e, Given (S i) e → G e
  invoked : ∀ i own s, S i = .catacomb own s →
    (s = Catacomb.init ∧ ∀ j w, Handed (S j) w → W.child j w ≠ i) ∨ (.workCall ∈ s.hist ∧ .workRet .goexit ∉ s.hist)

theorem init_stuck {own : Nat} {s' : Catacomb.State} {op : Catacomb.Op} (hs : Catacomb.step own Catacomb.init op = some s')
    (hg : GoOn e0 (.catacomb own Catacomb.init) (.catacomb op)) : False := by
  rcases hg with ⟨x, hx⟩ | hx
  · have hi : op.internal = true := by
      by_contra hi
      simp [skind, Catacomb.ckind, hi] at hx
    cases op <;> first
      | (cases hi; done)
      | (simp [Catacomb.step, Catacomb.init, Catacomb.Op.inv?, Catacomb.Op.add?, Catacomb.Op.track?, Catacomb.stepMain] at hs; done)
      | (simp [Catacomb.step, Catacomb.init, Catacomb.Op.inv?, Catacomb.Op.add?, Catacomb.Op.track?, Catacomb.stepMain] at hs; change none = some s' at hs; cases hs)
  · cases op with
    | workRet r =>
      simp [Catacomb.step, Catacomb.init, Catacomb.Op.inv?, Catacomb.Op.add?, Catacomb.Op.track?, Catacomb.stepMain] at hs
      change none = some s' at hs
      cases hs
    | finish w e =>
      rcases (show Handed (.catacomb own Catacomb.init) w from hx) with ⟨c, h⟩ | ⟨i, p, h, _⟩ <;> cases h
    | _ => exact False.elim hx

theorem go_step {k : Kind} {c c' : Comp} {op : Op} (ho : Of k c) (hg : GoOn e0 c op) (hs : c.step op = some c') : Modest e0 c c' := by
  rcases hg with ⟨x, hx⟩ | hx
  · exact (own_step ho hx hs).2
  · exact (extra_step ho hx hs).2

theorem go_modest (hr : System.Reach W S) (hu : Up S) {i : I} {op : Op} (hs : W.step S i op = some S') (hg : GoOn e0 (S i) op) (j : I) :
    Modest e0 (S j) (S' j) := by
  obtain ⟨c, hc, rfl, _⟩ := wstep_inv hs
  unfold Wiring.after
  split
  · rename_i h; subst h
    exact go_step (reach_of hr _) hg hc
  · split
    · exact kill_modest (reach_of hr j) (hu j)
    · exact .refl _

theorem going_step (h : Going W G S) (h0 : G e0) (hu : Up S) {i : I} {op : Op} (hs : W.step S i op = some S') (hg : GoOn e0 (S i) op) : Going W G S' := by
  have hm := fun j => go_modest h.reach hu hs hg j
  refine ⟨.step i op h.reach hu hs, fun j e he => ?_, fun j own s' hj => ?_⟩
  · rcases (hm j).given e he with h' | rfl
    · exact h.given j e h'
    · exact h0
  · have ho := reach_of h.reach j
    have hmv := wstep_moves hs j
    have ho' := ho.moves hmv
    have hgr := ho.grows hmv
    have hmj := hm j
    rw [hj] at ho' hgr hmj
    generalize hk : W.kind j = k at ho ho'
    cases ho' with | catacomb hr' =>
    generalize hc : S j = c at ho hgr hmj
    cases ho with | @catacomb own s hr =>
    rcases h.invoked j own s hc with ⟨rfl, hno⟩ | ⟨h1, h2⟩
    · refine .inl ⟨?_, fun k w hw => hno k w ((hm k).handed w hw)⟩
      obtain ⟨c', hc', rfl, _⟩ := wstep_inv hs
      unfold Wiring.after at hj
      split at hj
      · rename_i hij; subst hij
        rw [hc] at hc' hg
        cases op <;> simp only [Comp.step, reduceCtorEq] at hc'
        obtain ⟨s'', hc', _⟩ := Option.map_eq_some_iff.1 hc'
        exact (init_stuck hc' hg).elim
      · rename_i hij
        split at hj
        · rename_i hk'
          obtain ⟨w, hw, hw'⟩ := List.any_eq_true.1 hk'
          have hw' := of_decide_eq_true hw'
          have ho := reach_of h.reach i
          refine absurd hw' (hno i w ((go_step ho hg hc').handed w (kills_handed (ho.step hc') ?_)))
          rw [ho.kills hc']; exact List.mem_append_left _ hw
        · rw [hc] at hj; injection hj with _ hj; exact hj.symm
    · obtain ⟨es, he⟩ := hgr.inC
      refine .inr ⟨(congrArg (Catacomb.Ev.workCall ∈ ·) he).mpr (List.mem_append_right es h1), fun hx => ?_⟩
      rcases hmj.work _ hx with hx | hx
      · exact h2 hx
      · cases hx

theorem wstep_of {i : I} {op : Op} {c : Comp} {es : List (Nat × Option Err)} (hs : (S i).step op = some c) (he : c.ends = es ++ (S i).ends)
    (hr : ∀ x ∈ es, (S (W.child i x.1)).result = some x.2) : W.step S i op = some (W.after S i c) := by
  unfold Wiring.step
  rw [hs]
  simp only [Option.bind_some]
  rw [if_pos]
  refine List.all_eq_true.2 (fun x hx => decide_eq_true (hr x ?_))
  unfold newEnds at hx
  rw [he] at hx
  simpa using hx

theorem handed_moves {k : Kind} {c c' : Comp} (ho : Of k c) (hm : Moves c c') {w : Nat} (h : Handed c w) : Handed c' w := by
  have hgr := ho.grows hm
  have ho' := ho.moves hm
  cases ho with
  | runner =>
    cases ho'; obtain ⟨id, g, h⟩ := h; obtain ⟨es, he⟩ := hgr.inR
    exact ⟨id, g, (congrArg (Runner.Ev.startOk id g w ∈ ·) he).mpr (List.mem_append_right es h)⟩
  | catacomb =>
    cases ho'; obtain ⟨es, he⟩ := hgr.inC
    rcases h with ⟨c, h⟩ | ⟨i, p, h, h'⟩
    · exact .inl ⟨c, (congrArg (Catacomb.Ev.callAdd c w ∈ ·) he).mpr (List.mem_append_right es h)⟩
    · exact .inr ⟨i, p, (congrArg (Catacomb.Ev.callInvoke i p ∈ ·) he).mpr (List.mem_append_right es h), h'⟩
  | engine =>
    cases ho'; obtain ⟨n, g, h⟩ := h; obtain ⟨es, he⟩ := hgr.inE
    exact ⟨n, g, (congrArg (Engine.Ev.startOk n g (.obj w) ∈ ·) he).mpr (List.mem_append_right es h)⟩
  | leaf => exact False.elim h

/-- Wait of a worker that has been handed to a component returns when the worker has ended. -/
def SysRun.WaitsAll (r : SysRun W) : Prop := ∀ i w k, Handed (r.st k i) w → EndedW (r.st k (W.child i w)) → ∃ j e, SawW (r.st j i) w e

theorem SysRun.WaitsAll.killed {r : SysRun W} (h : r.WaitsAll) : r.WaitsReturn :=
  fun i w k hk he => h i w k (kills_handed (reach_of (r.reach k) i) hk) he

/-- C108: a program can go on, from wherever it is, such that the scheduler is fair, Wait of workers that have ended returns, and users do what
they have to. -/
theorem C108_goes_on [Countable I] (hc : Closed W G) (hG : ∀ e, G e → Plain W e) (h0 : G e0) (hg : Going W G S) :
    ∃ (r : SysRun W) (n : Nat), r.st n = S ∧ r.Fair ∧ r.WaitsAll ∧ r.Users ∧ (∀ k i e, Given (r.st k i) e → G e) ∧
      ∀ k i w, w ∈ (r.st k i).kills → Handed (S i) w := by
  let T : (I → Comp) → Option (I × Op) → (I → Comp) → Prop := fun S a S' =>
    (∃ i op, a = some (i, op) ∧ Up S ∧ W.step S i op = some S') ∨ (a = none ∧ S' = S)
  let T' : (I → Comp) → Option (I × Op) → (I → Comp) → Prop := fun S a S' =>
    (∃ i op, a = some (i, op) ∧ Up S ∧ W.step S i op = some S' ∧ GoOn e0 (S i) op) ∨ (a = none ∧ S' = S)
  let kind : Option (I × Op) → Option (I × (SKind ⊕ Nat ⊕ Nat ⊕ Bool)) := fun a => a.bind (fun x => (gkind x.2).map (fun y => (x.1, y)))
  have hpath : ∀ {S}, System.Reach W S → Path T W.new S := fun h => by
    induction h with
    | init => exact .nil
    | step i op _ hu hs ih => exact ih.snoc (.inl ⟨i, op, rfl, hu, hs⟩)
  obtain ⟨r⟩ := exists_through (T' := T') (kind := kind) (P := Going W G) (hpath hg.reach)
    (fun S a S' h => h.imp (fun ⟨i, op, h1, h2, h3, _⟩ => ⟨i, op, h1, h2, h3⟩) id)
    (fun S _ => ⟨none, S, .inr ⟨rfl, rfl⟩⟩)
    (fun S a S' h hT => by
      rcases hT with ⟨i, op, _, hu, hs, hgo⟩ | ⟨_, rfl⟩
      · exact going_step h h0 hu hs hgo
      · exact h) hg
  have going : ∀ k, r.n ≤ k → Going W G (r.st k) := Verif.Spec.kept (by rw [r.at_n]; exact hg) (fun k hk h => by
    rcases r.later k hk with ⟨i, op, _, hu, hs, hgo⟩ | ⟨_, h'⟩
    · exact going_step h h0 hu hs hgo
    · rw [h']; exact h)
  have reach : ∀ k, System.Reach W (r.st k) := fun k => by
    induction k with
    | zero => rw [r.start]; exact .init
    | succ k ih =>
      rcases r.next k with ⟨i, op, _, hu, hs⟩ | ⟨_, h'⟩
      · exact .step i op ih hu hs
      · rw [h']; exact ih
  have moves : ∀ k i, Moves (r.st k i) (r.st (k + 1) i) := fun k i => by
    rcases r.next k with ⟨j, op, _, _, hs⟩ | ⟨_, h'⟩
    · exact wstep_moves hs i
    · rw [h']; exact .inl rfl
  have given : ∀ k j, k ≤ j → ∀ i e, Given (r.st k i) e → Given (r.st j i) e := fun k j hkj i e h => by
    induction hkj with
    | refl => exact h
    | @step m _ ih => exact given_moves (reach_of (reach m) i) (moves m i) ih
  have known : ∀ k i e, Given (r.st k i) e → G e := fun k i e h =>
    (going (max k r.n) (Nat.le_max_right _ _)).given i e (given k _ (Nat.le_max_left _ _) i e h)
  have up : ∀ k, Up (r.st k) := fun k => C107_no_panic (reach k) hc hG (known k)
  let R : SysRun W := ⟨r.st, r.op, r.start, up, fun k => (r.next k).imp (fun ⟨i, op, h1, _, h2⟩ => ⟨i, op, h1, h2⟩) id⟩
  have handed : ∀ k, r.n ≤ k → ∀ i w, Handed (r.st k i) w → Handed (S i) w := Verif.Spec.kept
    (by rw [r.at_n]; exact fun _ _ h => h) (fun k hk ih i w h => by
      rcases r.later k hk with ⟨j, op, _, hu, hs, hgo⟩ | ⟨_, h'⟩
      · exact ih i w ((go_modest (reach k) hu hs hgo i).handed w h)
      · rw [h'] at h; exact ih i w h)
  have handed_stays : ∀ {i : I} {w k j : Nat}, k ≤ j → Handed (r.st k i) w → Handed (r.st j i) w := fun {i w k j} hkj h => by
    induction hkj with
    | refl => exact h
    | @step m _ ih => exact handed_moves (reach_of (reach m) i) (moves m i) ih
  -- what is possible again and again is done
  have done : ∀ (i : I) (x : SKind ⊕ Nat ⊕ Nat ⊕ Bool) (m : Nat), (∀ k, m ≤ k → ∃ op c', gkind op = some x ∧ (r.st k i).step op = some c' ∧
      GoOn e0 (r.st k i) op ∧ ∃ es, c'.ends = es ++ (r.st k i).ends ∧ ∀ y ∈ es, (r.st k (W.child i y.1)).result = some y.2) →
      ∃ k op, m ≤ k ∧ gkind op = some x ∧ W.step (r.st k) i op = some (r.st (k + 1)) := fun i x m hx => by
    obtain ⟨k, hk, hop⟩ := r.fair (i, x) (infOften_of_from m (fun k hk => by
      obtain ⟨op, c', h1, h2, h3, es, h4, h5⟩ := hx k hk
      refine ⟨some (i, op), W.after (r.st k) i c', ?_, .inl ⟨i, op, rfl, up k, wstep_of h2 h4 h5, h3⟩⟩
      simp [kind, h1])) m
    rcases r.next k with ⟨j, op, ha, _, hs⟩ | ⟨ha, _⟩
    · simp only [ha, kind, Option.bind_some, Option.map_eq_some_iff, Prod.mk.injEq] at hop
      obtain ⟨y, hy, rfl, rfl⟩ := hop
      exact ⟨k, op, hk, hy, hs⟩
    · simp [ha, kind] at hop
  refine ⟨R, r.n, r.at_n, fun i x hx => ?_, fun i w k hw hend => ?_, fun i => ?_, known, fun k i w hw => ?_⟩
  · -- fairness
    refine (r.fair (i, .inl x) (hx.mono (fun k ⟨op, c', h1, h2⟩ => ?_))).mono (fun k hop => ?_)
    · refine ⟨some (i, op), W.after (r.st k) i c', by simp [kind, gkind_own.2 h1], .inl ⟨i, op, rfl, up k, ?_, .inl ⟨x, h1⟩⟩⟩
      exact wstep_of (es := []) h2 (own_step (e0 := e0) (reach_of (reach k) i) h1 h2).1 nofun
    · cases ha : r.op k with
      | none => simp [ha, kind] at hop
      | some a =>
        obtain ⟨j, op⟩ := a
        simp only [ha, kind, Option.bind_some, Option.map_eq_some_iff, Prod.mk.injEq] at hop
        obtain ⟨y, hy, rfl, rfl⟩ := hop
        exact ⟨op, ha, gkind_own.1 hy⟩
  · -- Wait returns
    by_contra hno
    have hno : ∀ j e, ¬ SawW (R.st j i) w e := fun j e h => hno ⟨j, e, h⟩
    have hres : ∀ j, k ≤ j → ∃ e, (r.st j (W.child i w)).result = some e := fun j hj => Option.isSome_iff_exists.1 (R.ended_stays hj hend)
    obtain ⟨j, op, _, hop, hs⟩ := done i (.inr (.inr (.inl w))) k (fun j hj => by
      obtain ⟨e, he⟩ := hres j hj
      have ho := reach_of (reach j) i
      have hh : Handed (r.st j i) w := handed_stays hj hw
      have hn : ∀ e, ¬ SawW (r.st j i) w e := hno j
      generalize hc : r.st j i = c at ho hh hn
      have ret : ∀ {op c'}, c.step op = some c' → Extra e0 c op → returned op = [(w, e)] → gkind op = some (.inr (.inr (.inl w))) → _ := fun {op c'} h1 h2 h3 h4 =>
        (⟨op, c', h4, h1, .inr h2, [(w, e)], by rw [← h3]; exact (extra_step ho h2 h1).1,
          fun y hy => by rw [List.mem_singleton.1 hy]; exact he⟩ :
          ∃ op c', gkind op = some (.inr (.inr (.inl w))) ∧ c.step op = some c' ∧ GoOn e0 c op ∧ ∃ es, c'.ends = es ++ c.ends ∧
            ∀ y ∈ es, (r.st j (W.child i y.1)).result = some y.2)
      generalize W.kind i = κ at ho
      cases ho with
      | @runner p s hr =>
        have hf : RSpec.finishedH s.tab.hist w = none := by
          cases hf : RSpec.finishedH s.tab.hist w with
          | none => rfl
          | some x => exact absurd (rfin_fin hf) (hn x)
        obtain ⟨s', hs'⟩ := rfinish_enabled hr hf e
        exact ret (op := .runner (.finish w e)) (c' := .runner p s') (by simp [Comp.step, hs']) hh rfl rfl
      | @catacomb own s hr =>
        have hf : CSpec.finishedH s.hist w = none := by
          cases hf : CSpec.finishedH s.hist w with
          | none => rfl
          | some x => exact absurd (cfin_fin hf) (hn x)
        have hcr := up j i
        rw [hc] at hcr
        have hfin : s.fin.get? w = none := by rw [hr.hinv.fin]; exact hf
        obtain ⟨s', hs'⟩ : ∃ s', Catacomb.step own s (.finish w e) = some s' := by
          have hcr : s.crashed = false := hcr
          simp [Catacomb.step, hcr, Catacomb.Op.inv?, Catacomb.Op.add?, Catacomb.Op.track?, Catacomb.stepMain, hfin]
        exact ret (op := .catacomb (.finish w e)) (c' := .catacomb own s') (by simp [Comp.step, hs']) hh rfl rfl
      | @engine cfg f hr =>
        obtain ⟨f', hf', _⟩ := finish_enabled hr hn e
        exact ret (op := .engine (.env (.finish w e))) (c' := .engine cfg f') (by simp [Comp.step, hf']) hh rfl rfl
      | leaf => exact hh.elim)
    replace hop := gkind_extra hop
    obtain ⟨c', hc', hS, _⟩ := wstep_inv hs
    have hS' : r.st (j + 1) i = c' := by rw [hS, after_self]
    have hn := hno (j + 1)
    change ∀ e, ¬ SawW (r.st (j + 1) i) w e at hn
    rw [hS'] at hn
    have ho := reach_of (reach j) i
    generalize r.st j i = c at ho hc'
    generalize W.kind i = κ at ho
    cases ho with
    | @runner p s hr =>
      cases op <;> simp only [Comp.step, reduceCtorEq] at hc'
      rename_i op
      replace hc' := Option.map_eq_some_iff.1 hc'
      obtain ⟨s', hc', rfl⟩ := hc'
      cases op <;> simp [extra] at hop
      subst hop
      exact hn _ (show _ ∈ s'.tab.hist by rw [rfinish_hist hc']; exact List.mem_cons_self)
    | @catacomb own s hr =>
      cases op <;> simp only [Comp.step, reduceCtorEq] at hc'
      rename_i op
      replace hc' := Option.map_eq_some_iff.1 hc'
      obtain ⟨s', hc', rfl⟩ := hc'
      cases op <;> simp [extra] at hop
      subst hop
      exact hn _ (show _ ∈ s'.hist by rw [cfinish_hist hc']; exact List.mem_cons_self)
    | @engine cfg f hr =>
      cases op <;> simp only [Comp.step, reduceCtorEq] at hc'
      rename_i op
      replace hc' := Option.map_eq_some_iff.1 hc'
      obtain ⟨f', hc', rfl⟩ := hc'
      cases op with
      | env op =>
        cases op <;> simp [extra] at hop
        subst hop
        exact hn _ (show _ ∈ f'.s.hist by rw [efinish_hist hc']; exact List.mem_cons_self)
      | _ => simp [extra] at hop
    | leaf => cases op <;> simp [extra] at hop <;> simp [Comp.step] at hc'
  · -- users
    cases hi : W.kind i with
    | runner p =>
      intro k g hk
      by_contra hno
      have hno : ∀ j, k ≤ j → RSpec.phaseH (r.st j i).rhist g = some .calling := fun j hj => by
        by_contra h; exact hno ⟨j, hj, h⟩
      obtain ⟨j, op, hj, hop, hs⟩ := done i (.inr (.inl g)) k (fun j hj => by
        have ho := reach_of (reach j) i
        have hp := hno j hj
        rw [hi] at ho
        generalize r.st j i = c at ho hp
        cases ho with | @runner p s hr =>
        obtain ⟨s', hs'⟩ := (rstart_enabled hr hp).2.1 e0
        have hs'' : (Comp.runner p s).step (.runner (.gStartErr g e0)) = some (.runner p s') := by simp [Comp.step, hs']
        have hx : Extra e0 (.runner p s) (.runner (.gStartErr g e0)) := rfl
        exact ⟨_, _, rfl, hs'', .inr hx, [], (extra_step (.runner hr) hx hs'').1, nofun⟩)
      replace hop := gkind_extra hop
      obtain ⟨c', hc', hS, _⟩ := wstep_inv hs
      have hS' : r.st (j + 1) i = c' := by rw [hS, after_self]
      have hn := hno (j + 1) (by omega)
      rw [hS'] at hn
      have ho := reach_of (reach j) i
      rw [hi] at ho
      generalize r.st j i = c at ho hc'
      cases ho with | @runner p s hr =>
      cases op <;> simp only [Comp.step, reduceCtorEq] at hc'
      rename_i op
      replace hc' := Option.map_eq_some_iff.1 hc'
      obtain ⟨s', hc', rfl⟩ := hc'
      cases op <;> simp [extra] at hop
      subst hop
      exact rstart_done hc' rfl hn
    | catacomb own =>
      intro k hd
      by_contra hno
      have hno : ∀ j x, .workRet x ∈ (r.st j i).chist → x = .goexit := fun j x h => by
        by_contra hx; exact hno ⟨j, x, h, hx⟩
      have inv : ∀ j, max k r.n ≤ j → ∃ s, r.st j i = .catacomb own s ∧ Catacomb.Reach own s ∧ .workCall ∈ s.hist ∧ ∀ x, .workRet x ∉ s.hist := fun j hj => by
        have ho := reach_of (reach j) i
        have hst : StoppingW (r.st j i) := by
          have : ∀ m, k ≤ m → StoppingW (r.st m i) := Verif.Spec.kept (by
              have ho := reach_of (reach k) i
              rw [hi] at ho
              change CSpec.Dying (r.st k i).chist at hd
              generalize r.st k i = c at ho hd
              cases ho; exact hd) (fun m _ h => stopping_moves (reach_of (reach m) i) (moves m i) h)
          exact this j (by omega)
        have hg := (going j (by omega)).invoked i
        have hno := hno j
        rw [hi] at ho
        generalize r.st j i = c at ho hst hg hno
        cases ho with | @catacomb _ s hr =>
        rcases hg own s rfl with ⟨rfl, _⟩ | ⟨h1, h2⟩
        · obtain ⟨e, h, _⟩ := hst; cases h
        · exact ⟨s, rfl, hr, h1, fun x hx => h2 (by rw [← hno x hx]; exact hx)⟩
      obtain ⟨j, op, hj, hop, hs⟩ := done i (.inr (.inr (.inr false))) (max k r.n) (fun j hj => by
        obtain ⟨s, hc, hr, h1, h2⟩ := inv j hj
        have hcr := up j i
        rw [hc] at hcr ⊢
        obtain ⟨s', hs'⟩ : ∃ s', Catacomb.step own s (.workRet (.ret none)) = some s' := by
          have hcr : s.crashed = false := hcr
          have hw := work_running hr h1 h2
          simp [Catacomb.step, hcr, Catacomb.Op.inv?, Catacomb.Op.add?, Catacomb.Op.track?, Catacomb.stepMain, hw, Catacomb.WorkRes.safely]
        have hs'' : (Comp.catacomb own s).step (.catacomb (.workRet (.ret none))) = some (.catacomb own s') := by simp [Comp.step, hs']
        have hx : Extra e0 (.catacomb own s) (.catacomb (.workRet (.ret none))) := rfl
        exact ⟨_, _, rfl, hs'', .inr hx, [], (extra_step (.catacomb hr) hx hs'').1, nofun⟩)
      replace hop := gkind_extra hop
      obtain ⟨s, hc, hr, h1, h2⟩ := inv j hj
      obtain ⟨s1, hc1, _, _, h3⟩ := inv (j + 1) (by omega)
      obtain ⟨c', hc', hS, _⟩ := wstep_inv hs
      have hS' : r.st (j + 1) i = c' := by rw [hS, after_self]
      rw [hc1] at hS'
      rw [hc, ← hS'] at hc'
      cases op <;> simp only [Comp.step, reduceCtorEq] at hc'
      rename_i op
      replace hc' := Option.map_eq_some_iff.1 hc'
      obtain ⟨s', hc', h'⟩ := hc'
      injection h' with _ h'; subst h'
      cases op <;> simp [extra] at hop
      exact h3 _ (by rw [work_hist hc']; exact List.mem_cons_self)
    | engine cfg =>
      intro k n g ho hp _
      by_contra hno
      have hno : ∀ j, k ≤ j → openH (r.st j i).ehist n = some g ∧ phaseH (r.st j i).ehist n = .inStart := fun j hj => by
        by_contra h; exact hno ⟨j, hj, h⟩
      obtain ⟨j, op, hj, hop, hs⟩ := done i (.inr (.inl g)) k (fun j hj => by
        have ho := reach_of (reach j) i
        have hp := hno j hj
        rw [hi] at ho
        generalize r.st j i = c at ho hp
        cases ho with | @engine cfg f hr =>
        obtain ⟨s', hs'⟩ := (start_enabled hr hp.1 hp.2).2 e0
        have hs'' : (Comp.engine cfg f).step (.engine (.env (.gStartErr g e0))) = some (.engine cfg s') := by simp [Comp.step, hs']
        have hx : Extra e0 (.engine cfg f) (.engine (.env (.gStartErr g e0))) := rfl
        exact ⟨_, _, rfl, hs'', .inr hx, [], (extra_step (.engine hr) hx hs'').1, nofun⟩)
      replace hop := gkind_extra hop
      obtain ⟨c', hc', hS, _⟩ := wstep_inv hs
      have hS' : r.st (j + 1) i = c' := by rw [hS, after_self]
      have hn := hno (j + 1) (by omega)
      have ho := (hno j hj).1
      rw [hS'] at hn
      have hof := reach_of (reach j) i
      rw [hi] at hof
      generalize r.st j i = c at hof hc' ho
      cases hof with | @engine cfg f hr =>
      cases op <;> simp only [Comp.step, reduceCtorEq] at hc'
      rename_i op
      replace hc' := Option.map_eq_some_iff.1 hc'
      obtain ⟨f', hc', rfl⟩ := hc'
      cases op with
      | env op =>
        cases op <;> simp [extra] at hop
        subst hop
        exact start_done hr ho hc' rfl hn.2
      | _ => simp [extra] at hop
    | leaf =>
      intro k hk
      by_contra hno
      have hno : ∀ j, ¬ EndedW (r.st j i) := fun j h => hno ⟨j, h⟩
      have inv : ∀ j, ∃ b, r.st j i = .leaf b none := fun j => by
        have ho := reach_of (reach j) i
        have hn := hno j
        rw [hi] at ho
        generalize r.st j i = c at ho hn
        cases ho with | leaf b res =>
        cases res with
        | none => exact ⟨b, rfl⟩
        | some x => exact absurd rfl hn
      obtain ⟨j, op, hj, hop, hs⟩ := done i (.inr (.inr (.inr true))) k (fun j hj => by
        obtain ⟨b, hb⟩ := inv j
        rw [hb]
        have hx : Extra e0 (.leaf b none) (.leafEnd none) := rfl
        exact ⟨.leafEnd none, _, rfl, rfl, .inr hx, [], rfl, nofun⟩)
      replace hop := gkind_extra hop
      obtain ⟨b, hb⟩ := inv j
      obtain ⟨b', hb'⟩ := inv (j + 1)
      obtain ⟨c', hc', hS, _⟩ := wstep_inv hs
      have hS' : r.st (j + 1) i = c' := by rw [hS, after_self]
      rw [hb'] at hS'
      rw [hb, ← hS'] at hc'
      cases op <;> simp [Comp.step] at hc' <;> simp [extra] at hop
  · exact handed (max k r.n) (Nat.le_max_right _ _) i w (kills_handed (reach_of (reach _) i) (R.kills_stay (Nat.le_max_left _ _) hw))

/-- A program gets from one state to another. -/
def Leads (W : Wiring I) : (I → Comp) → (I → Comp) → Prop := Relation.ReflTransGen (fun S S' => Up S ∧ ∃ i op, W.step S i op = some S')

theorem run_leads (r : SysRun W) {n m : Nat} (h : n ≤ m) : Leads W (r.st n) (r.st m) := by
  induction h with
  | refl => exact .refl
  | @step m _ ih =>
    rcases r.next m with ⟨i, op, _, hs⟩ | ⟨_, h⟩
    · exact ih.tail ⟨r.up m, i, op, hs⟩
    · rw [h]; exact ih

/-- C108: from wherever a program is, each of its workers can be stopped, and everything below it. -/
theorem C108_can_stop [Countable I] (hc : Closed W G) (hG : ∀ e, G e → Plain W e) (h0 : G e0) (hg : Going W G S)
    (wf : WellFounded (fun c i => ∃ w, Handed (S i) w ∧ W.child i w = c)) {i : I} (hs : StoppingW (S i)) :
    ∃ S', Leads W S S' ∧ EndedW (S' i) ∧ ∀ x, BelowW W S' x i → EndedW (S' x) := by
  obtain ⟨r, n, hn, h1, h2, h3, _, h4⟩ := C108_goes_on hc hG h0 hg
  obtain ⟨m, hm, hb⟩ := C106_all_stop h1 h2.killed h3
    (Subrelation.wf (fun {c i} ⟨k, w, hk, hw⟩ => ⟨w, h4 k i w hk, hw⟩) wf) (i := i) (k := n) (by rw [hn]; exact hs)
  refine ⟨r.st (max n m), hn ▸ run_leads r (Nat.le_max_left n m), r.ended_stays (Nat.le_max_right n m) hm, hb _ (Nat.le_max_right n m)⟩

theorem kill_ends {k : Kind} {c : Comp} (h : Of k c) (hc : c.crashed = false) : c.kill.ends = c.ends := by
  cases h with
  | catacomb _ => rw [cat_kill hc]; rfl
  | _ => rfl

/-- Somebody calls Kill of a worker that is not yet stopping. -/
theorem kill_going {i : I} (hg : Going W G S) (hu : Up S) (hi : ∀ own s, S i = .catacomb own s → .workCall ∈ s.hist) :
    ∃ S', Leads W S S' ∧ Going W G S' ∧ StoppingW (S' i) ∧ ∀ j w, Handed (S' j) w → Handed (S j) w := by
  have ho := reach_of hg.reach i
  have hst := kill_stopping ho (hu i)
  cases hk : (S i).step (S i).killOp with
  | none => exact ⟨S, .refl, hg, by simpa [Comp.kill, hk] using hst, fun _ _ h => h⟩
  | some c =>
    have hc : (S i).kill = c := by simp [Comp.kill, hk]
    rw [hc] at hst
    have hs : W.step S i (S i).killOp = some (W.after S i c) := wstep_of (es := []) hk (by rw [← hc]; exact kill_ends ho (hu i)) nofun
    have hsame : ∀ j, j ≠ i → W.after S i c j = S j := fun j hj => by
      have : newKills (S i) c = [] := by
        unfold newKills
        rw [← hc, kill_kills ho (hu i)]; simp
      unfold Wiring.after
      rw [if_neg hj, this]; rfl
    have hm : Modest (.user 0) (S i) c := hc ▸ kill_modest ho (hu i)
    have hgiv : ∀ e, Given c e → Given (S i) e := fun e he => by
      have h1 : Modest (.user 0) (S i) c := hc ▸ kill_modest ho (hu i)
      have h2 : Modest (.user 1) (S i) c := hc ▸ kill_modest ho (hu i)
      rcases h1.given e he with h | rfl
      · exact h
      · exact (h2.given _ he).resolve_right nofun
    have hhand : ∀ j w, Handed (W.after S i c j) w → Handed (S j) w := fun j w h => by
      by_cases hj : j = i
      · subst hj; rw [after_self] at h; exact hm.handed w h
      · rwa [hsame j hj] at h
    refine ⟨_, .single ⟨hu, i, _, hs⟩, ⟨.step i _ hg.reach hu hs, fun j e he => ?_, fun j own s hj => ?_⟩, by rw [after_self]; exact hst, hhand⟩
    · by_cases hj : j = i
      · subst hj; rw [after_self] at he; exact hg.given j e (hgiv e he)
      · rw [hsame j hj] at he; exact hg.given j e he
    · by_cases hji : j = i
      · subst hji
        rw [after_self] at hj
        subst hj
        have hcat : ∀ own s, S j = .catacomb own s → .workCall ∈ s.hist ∧ .workRet .goexit ∉ s.hist := fun own s h => by
          refine ⟨hi own s h, ?_⟩
          rcases hg.invoked j own s h with ⟨rfl, _⟩ | h'
          · cases hi own _ h
          · exact h'.2
        have hw := hm.work .goexit
        have hgr := ho.grows (.inr ⟨_, hk⟩)
        have ho' := ho.step hk
        generalize W.kind j = κ at ho ho'
        generalize S j = c at *
        cases ho' with | catacomb hr' =>
        cases ho with | @catacomb _ s0 hr =>
        obtain ⟨h1, h2⟩ := hcat _ _ rfl
        obtain ⟨es, he⟩ := hgr.inC
        exact .inr ⟨(congrArg (Catacomb.Ev.workCall ∈ ·) he).mpr (List.mem_append_right es h1), fun hx => (hw hx).elim h2 nofun⟩
      · rw [hsame j hji] at hj
        refine (hg.invoked j own s hj).imp (fun ⟨h1, h2⟩ => ⟨h1, fun k w hw => h2 k w (hhand k w hw)⟩) id

/-- C108: from wherever a program is, each of its workers can be stopped, and with it everybody below: by calling its Kill method, if its users
do no more than let start funcs fail, work funcs return and leaves end. -/
theorem C108_stoppable [Countable I] (hc : Closed W G) (hG : ∀ e, G e → Plain W e) (h0 : G e0) (hg : Going W G S)
    (wf : WellFounded (fun c i => ∃ w, Handed (S i) w ∧ W.child i w = c)) {i : I} (hi : ∀ own s, S i = .catacomb own s → .workCall ∈ s.hist) :
    ∃ S', Leads W S S' ∧ EndedW (S' i) ∧ ∀ x, BelowW W S' x i → EndedW (S' x) := by
  obtain ⟨S1, h1, hg1, hs1, hh⟩ := kill_going hg (C107_no_panic hg.reach hc hG hg.given) hi
  obtain ⟨S2, h2, h3⟩ := C108_can_stop hc hG h0 hg1 (Subrelation.wf (fun {c i} ⟨w, hw, hw'⟩ => ⟨w, hh i w hw, hw'⟩) wf) hs1
  exact ⟨S2, h1.trans h2, h3⟩

namespace SDemo

/-- The program of the examples with everything running. -/
def running : List Comp := (runUp SDemo.W (kinds.map Kind.new) opsUp).getD (kinds.map Kind.new)

theorem running_reach : System.Reach SDemo.W (fn running) := by
  have h : (runUp SDemo.W (kinds.map Kind.new) opsUp).isSome = true := by decide +kernel
  obtain ⟨L, hL⟩ := Option.isSome_iff_exists.1 h
  have h0 : System.Reach SDemo.W (fn (kinds.map Kind.new)) := by
    have : fn (kinds.map Kind.new) = SDemo.W.new := after_zero
    rw [this]; exact .init
  have := runUp_reach opsUp h0 hL
  unfold running
  rw [hL]; exact this

theorem fn_all {L : List Comp} {P : Comp → Bool} (h : L.all P = true) (h0 : P (.leaf false none) = true) (i : Nat) : P (fn L i) = true := by
  unfold fn
  cases hi : L[i]? with
  | none => exact h0
  | some c => exact List.all_eq_true.1 h c (List.mem_of_getElem? hi)

theorem running_given (i : Nat) (e : Err) (h : Given (fn running i) e) : known e := by
  have key : running.all (fun c => (givens c).all (fun e => e == .user 99 || e == .missing)) = true := by decide +kernel
  simpa [known] using List.all_eq_true.1 (fn_all key rfl i) e (given_mem h)

/-- The workers that a component has been handed. -/
def handeds : Comp → List Nat
  | .runner _ s => s.tab.hist.filterMap (fun e => match e with | .startOk _ _ w => some w | _ => none)
  | .catacomb _ s => s.hist.flatMap (fun e => match e with
    | .callAdd _ w => [w]
    | .callInvoke _ p => p.init.filterMap id
    | _ => [])
  | .engine _ f => f.s.hist.filterMap (fun e => match e with | .startOk _ _ (.obj w) => some w | _ => none)
  | .leaf _ _ => []

theorem handed_mem {c : Comp} {w : Nat} (h : Handed c w) : w ∈ handeds c := by
  cases c with
  | runner p s => obtain ⟨id, g, h⟩ := h; exact List.mem_filterMap.2 ⟨_, h, rfl⟩
  | engine p s => obtain ⟨id, g, h⟩ := h; exact List.mem_filterMap.2 ⟨_, h, rfl⟩
  | catacomb p s =>
    rcases h with ⟨c, h⟩ | ⟨i, p, h, h'⟩
    · exact List.mem_flatMap.2 ⟨_, h, List.mem_singleton.2 rfl⟩
    · exact List.mem_flatMap.2 ⟨_, h, List.mem_filterMap.2 ⟨_, h', rfl⟩⟩
  | leaf k res => exact False.elim h

theorem running_work (i own : Nat) (s : Catacomb.State) (h : fn running i = .catacomb own s) : .workCall ∈ s.hist ∧ .workRet .goexit ∉ s.hist := by
  have key : running.all (fun c => match c with
    | .catacomb _ s => s.hist.contains .workCall && !s.hist.contains (.workRet .goexit)
    | _ => true) = true := by decide +kernel
  have := fn_all key rfl i
  rw [h] at this
  simpa using this

theorem running_going : Going SDemo.W known (fn running) :=
  ⟨running_reach, running_given, fun i own s h => .inr (running_work i own s h)⟩

theorem running_wf : WellFounded (fun c i => ∃ w, Handed (fn running i) w ∧ SDemo.W.child i w = c) := by
  refine Subrelation.wf (r := fun a b : Nat => 5 - a < 5 - b) ?_ (measure (fun i => 5 - i)).wf
  rintro c i ⟨w, hw, rfl⟩
  have key : ∀ i, i < 5 → ((handeds (fn running i)).all (fun w => decide (5 - SDemo.W.child i w < 5 - i))) = true := by decide +kernel
  have h := handed_mem hw
  by_cases hi : i < 5
  · exact of_decide_eq_true (List.all_eq_true.1 (key i hi) w h)
  · rw [fn_more (by have : running.length = 5 := by decide +kernel
                    omega)] at h
    cases h

end SDemo

/-- The program of the examples, with an engine, a runner, a catacomb and two leaves running; it can be stopped. -/
example : SDemo.running.map Comp.result = [none, none, none, none, none] ∧ SDemo.running.map Comp.kills = [[], [], [], [], []] ∧ (SDemo.running.map SDemo.handeds = [[11, 10], [10], [1], [], []]) ∧
    ∃ S', Leads SDemo.W (SDemo.fn SDemo.running) S' ∧ EndedW (S' 0) ∧ ∀ x, BelowW SDemo.W S' x 0 → EndedW (S' x) :=
  ⟨by decide +kernel, by decide +kernel, by decide +kernel,
    C108_stoppable SDemo.known_closed SDemo.known_plain (e0 := .user 99) (.inl rfl) SDemo.running_going SDemo.running_wf
      (fun own s h => (SDemo.running_work 0 own s h).1)⟩

end Verif.Props
