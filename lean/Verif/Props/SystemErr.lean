import Verif.Props.SystemLive

/-!
# C107: errors in a program

No error is invented: every error that a Wait method of a worker of a program returns has been given to the program by a user, or has been made
from such errors by the functions an engine is configured with. So if users use none of the errors that have a meaning of their own, nothing
panics.
-/

namespace Verif.Props
open Verif.System Verif.Spec

/-- A user has given it this error: as result of a start func or of the work func, or as argument of Kill. A leaf has ended with it. -/
def Given : Comp → Err → Prop
  | .runner _ s, e => ∃ id g, .startErr id g e ∈ s.tab.hist
  | .catacomb _ s, e => .kill (some e) ∈ s.hist ∨ .killPanics .client (some e) ∈ s.hist ∨ .workRet (.ret (some e)) ∈ s.hist ∨
      ∃ v, .workRet (.panic v) ∈ s.hist ∧ e = .panicked v
  | .engine _ f, e => ∃ n g, .startErr n g e ∈ f.s.hist
  | .leaf _ res, e => res = some (some e)

/-- No error, or one of the set. -/
def Within (G : Err → Prop) (e : Option Err) : Prop := ∀ x, e = some x → G x

/-- A set of errors that components do not lead out of. A catacomb replaces some errors it is killed with (C07). An attempt of an engine may
also end with the abort, or with tomb.ErrDying if it is the engine's own manifold; filters, IsFatal and WorstError are functions that the
users supply. -/
structure Closed (W : Wiring I) (G : Err → Prop) : Prop where
  catacomb : ∀ i own, W.kind i = .catacomb own → ∀ e, G e → Within G (CSpec.effective own (some e))
  worst : ∀ i cfg, W.kind i = .engine cfg → ∀ raw f acc, (Within G raw ∨ raw = some .aborted ∨ raw = some .tombDying) →
    (f = raw ∨ ∃ φ, f = cfg.filterFn φ raw) → cfg.isFatal f = true → Within G acc → Within G (cfg.worstError f acc)
  filter : ∀ i cfg, W.kind i = .engine cfg → ∀ acc, Within G acc → Within G (cfg.filter.getD id acc)

variable {I : Type} [DecidableEq I] {W : Wiring I} {S S' : I → Comp} {G : Err → Prop}

theorem rfailed_mem {h : List Runner.Ev} {g : Nat} {e : Err} (hp : RSpec.phaseH h g = some (.failed e)) : ∃ id, .startErr id g e ∈ h := by
  induction h with
  | nil => cases hp
  | cons x h ih =>
    unfold RSpec.phaseH at hp
    cases x <;> simp only at hp <;> first
      | exact (ih hp).imp (fun _ hm => List.mem_cons_of_mem _ hm)
      | (split at hp
         · first
           | (rename_i hg; subst hg; injection hp with hp; injection hp with hp; subst hp; exact ⟨_, List.mem_cons_self⟩)
           | cases hp
         · obtain ⟨id, hm⟩ := ih hp; exact ⟨id, List.mem_cons_of_mem _ hm⟩)

theorem efailed_mem {h : List Engine.Ev} {n : Name} {e : Err} (hp : Spec.phaseH h n = .failed e) : ∃ g, .startErr n g e ∈ h := by
  induction h with
  | nil => cases hp
  | cons x h ih =>
    unfold Spec.phaseH at hp
    cases x <;> simp only at hp <;> first
      | exact (ih hp).imp (fun _ hm => List.mem_cons_of_mem _ hm)
      | (split at hp
         · first
           | (rename_i hg; subst hg; injection hp with hp; subst hp; exact ⟨_, List.mem_cons_self⟩)
           | cases hp
         · obtain ⟨id, hm⟩ := ih hp; exact ⟨id, List.mem_cons_of_mem _ hm⟩)

theorem pick_mem {m : Err → Err → Bool} {l : List Err} {e : Err} (h : RSpec.pick m l = some e) : e ∈ l := by
  induction l generalizing e with
  | nil => cases h
  | cons a l ih =>
    unfold RSpec.pick at h
    split at h
    · injection h with h; subst h; exact List.mem_cons_self
    · rename_i f hf
      injection h with h
      split at h
      · subst h; exact List.mem_cons_self
      · subst h; exact List.mem_cons_of_mem _ (ih hf)

theorem rfin_fin {h : List Runner.Ev} {w : Nat} {e : Option Err} (hf : RSpec.finishedH h w = some e) : .finished w e ∈ h := by
  induction h with
  | nil => cases hf
  | cons x h ih =>
    unfold RSpec.finishedH at hf
    cases x <;> simp only at hf <;> first
      | exact List.mem_cons_of_mem _ (ih hf)
      | (split at hf
         · rename_i hw; subst hw; injection hf with hf; subst hf; exact List.mem_cons_self
         · exact List.mem_cons_of_mem _ (ih hf))

theorem cfin_fin {h : List Catacomb.Ev} {w : Nat} {e : Option Err} (hf : CSpec.finishedH h w = some e) : .finished w e ∈ h := by
  induction h with
  | nil => cases hf
  | cons x h ih =>
    unfold CSpec.finishedH at hf
    cases x <;> simp only at hf <;> first
      | exact List.mem_cons_of_mem _ (ih hf)
      | (split at hf
         · rename_i hw; subst hw; injection hf with hf; subst hf; exact List.mem_cons_self
         · exact List.mem_cons_of_mem _ (ih hf))

theorem first_mem {own : Nat} {h : List Catacomb.Ev} {e : Err} (hf : CSpec.firstError own h = some e) :
    ∃ ev ∈ h, ∃ k, CSpec.killOf ev = some (some k) ∧ CSpec.effective own (some k) = some e := by
  induction h with
  | nil => cases hf
  | cons x h ih =>
    unfold CSpec.firstError at hf
    split at hf
    · rename_i y hy
      injection hf with hf; subst hf
      obtain ⟨ev, h1, h2⟩ := ih hy
      exact ⟨ev, List.mem_cons_of_mem _ h1, h2⟩
    · split at hf
      · rename_i k hk
        cases k with
        | none => cases hf
        | some k => exact ⟨x, List.mem_cons_self, k, hk, hf⟩
      · cases hf

/-- What a runner's attempts end with. -/
theorem runner_ended {p : Runner.Params} {s : Runner.State} (hr : Runner.Reach p s) (hg : ∀ e, Given (.runner p s) e → G e)
    (hs : ∀ w e, SawW (.runner p s) w (some e) → G e) {id g : Nat} {e : Err} (h : .ended id g (some e) ∈ s.tab.hist) : G e := by
  obtain ⟨post, pre, hh⟩ := List.append_of_mem h
  have hk := runner_evOk hr
  rw [hh] at hk
  have sub : ∀ x, x ∈ pre → x ∈ s.tab.hist := fun x hx => by rw [hh]; exact List.mem_append_right _ (List.mem_cons_of_mem _ hx)
  obtain ⟨_, _, hx⟩ : _ ∧ _ ∧ RSpec.EndsWith pre g (some e) := hk.split
  rcases hx with ⟨_, h, _⟩ | ⟨err, h1, h2⟩ | ⟨w, _, h1⟩
  · cases h
  · injection h2 with h2; subst h2
    obtain ⟨id', hm⟩ := rfailed_mem h1
    exact hg _ ⟨id', g, sub _ hm⟩
  · exact hs w e (sub _ (rfin_fin h1))

theorem final_in {p : Runner.Params} {s : Runner.State} (hr : Runner.Reach p s) (hg : ∀ e, Given (.runner p s) e → G e)
    (hs : ∀ w e, SawW (.runner p s) w (some e) → G e) : Within G (fatalResult p s.tab.hist) := fun e he => by
  obtain ⟨_, id, g, h⟩ := (mem_fatals p.isFatal s.tab.hist e).1 (pick_mem he)
  exact runner_ended hr hg hs h

/-- What the Kill method of a catacomb is called with. -/
theorem catacomb_kills {own : Nat} {s : Catacomb.State} (hr : Catacomb.Reach own s) (hg : ∀ e, Given (.catacomb own s) e → G e)
    (hs : ∀ w e, SawW (.catacomb own s) w (some e) → G e) {ev : Catacomb.Ev} (h : ev ∈ s.hist) {k : Err} (hk : CSpec.killOf ev = some (some k)) :
    G k := by
  obtain ⟨post, pre, hh⟩ := List.append_of_mem h
  have ho := hr.events
  rw [hh] at ho
  have sub : ∀ x, x ∈ pre → x ∈ s.hist := fun x hx => by rw [hh]; exact List.mem_append_right _ (List.mem_cons_of_mem _ hx)
  have ho : CSpec.EvOk own ev pre := ho.split
  cases ev with
  | kill e => injection hk with hk; subst hk; exact hg _ (.inl h)
  | workKill e =>
    injection hk with hk; subst hk
    obtain ⟨⟨r, h1, h2⟩, _⟩ := ho
    rcases h2 with rfl | ⟨v, rfl, h2⟩
    · exact hg _ (.inr (.inr (.inl (sub _ h1))))
    · injection h2 with h2
      exact hg _ (.inr (.inr (.inr ⟨v, sub _ h1, h2⟩)))
  | workerKill g e =>
    injection hk with hk; injection hk with hk; subst hk
    obtain ⟨⟨w, src, _, h1⟩, _⟩ := ho
    exact hs w _ (sub _ (cfin_fin h1))
  | _ => cases hk

omit [DecidableEq I] in
/-- What the errors of an engine's attempts amount to. -/
theorem engine_worst {cfg : Engine.Config} {i : I} (hc : Closed W G) (hi : W.kind i = .engine cfg) {h : List Engine.Ev}
    (he : AtEvery (EndsProperly cfg) h) (hg : ∀ n g e, .startErr n g e ∈ h → G e) (hs : ∀ w e, .finished w (some e) ∈ h → G e) :
    Within G (worstH cfg.isFatal cfg.worstError h) := by
  induction h with
  | nil => exact fun _ h => by cases h
  | cons x h ih =>
    have ih := ih he.2 (fun n g e hm => hg n g e (List.mem_cons_of_mem _ hm)) (fun w e hm => hs w e (List.mem_cons_of_mem _ hm))
    cases x with
    | ended n g now raw f told lost =>
      unfold worstH
      simp only
      split
      · rename_i hf
        obtain ⟨⟨m, _, h1⟩, _, _, h2⟩ := he.1
        refine hc.worst i cfg hi raw f _ ?_ ?_ hf ih
        · split at h2
          · exact .inr (.inl h2.1)
          · rename_i e0 hp
            split at h2
            · exact .inr (.inl h2)
            · obtain ⟨g', hm⟩ := efailed_mem hp
              exact .inl (fun x hx => by rw [h2] at hx; injection hx with hx; subst hx; exact hg n g' _ (List.mem_cons_of_mem _ hm))
          · exact .inl (fun x hx => by subst hx; exact hs _ x (List.mem_cons_of_mem _ h2))
          · exact .inr (.inr h2.1)
          · exact h2.elim
        · split at h1
          · exact .inr ⟨_, h1⟩
          · exact .inl h1
      · exact ih
    | _ => exact ih

omit [DecidableEq I] in
/-- What a worker ends with. -/
theorem result_in (hc : Closed W G) {i : I} {c : Comp} (ho : Of (W.kind i) c) (hg : ∀ e, Given c e → G e)
    (hs : ∀ w e, SawW c w (some e) → G e) {e : Err} (he : c.result = some (some e)) : G e := by
  generalize hi : W.kind i = k at ho
  cases ho with
  | runner hr =>
    have := C16_wait hr he
    split at this
    · cases this
    · exact final_in hr hg hs e this.symm
  | @catacomb own s hr =>
    have hd : Catacomb.Ev.dead ∈ s.hist := by
      by_contra hd
      have he : Catacomb.waitNow _ = some (some e) := he
      rw [(C67_wait hr).1 hd] at he; cases he
    obtain ⟨h1, h2⟩ := (C67_wait hr).2 hd
    have he : Catacomb.waitNow _ = some (some e) := he
    rw [h1, (C67_err hr).2 h2] at he
    injection he with he
    obtain ⟨ev, hm, k, hk, hx⟩ := first_mem he
    exact hc.catacomb i _ hi k (catacomb_kills hr hg hs hm hk) e hx
  | engine hr =>
    have he : Engine.waitResult _ _ = some (some e) := he
    rw [C81_wait_result hr] at he
    split at he
    · injection he with he
      exact hc.filter i _ hi _ (engine_worst hc hi (C81_ends_properly hr) (fun n g e hm => hg e ⟨n, g, hm⟩) (fun w e hm => hs w e hm)) e he
    · cases he
  | leaf => exact hg e he

/-- What has been given stays given. -/
theorem given_moves {k : Kind} {c c' : Comp} (ho : Of k c) (hm : Moves c c') {e : Err} (h : Given c e) : Given c' e := by
  have hg := ho.grows hm
  have ho' := ho.moves hm
  cases ho with
  | runner hr =>
    cases ho' with | runner hr' =>
    obtain ⟨id, g, h⟩ := h
    obtain ⟨es, hh⟩ := hg.inR
    exact ⟨id, g, (congrArg (Runner.Ev.startErr id g e ∈ ·) hh).mpr (List.mem_append_right es h)⟩
  | catacomb hr =>
    cases ho' with | catacomb hr' =>
    obtain ⟨es, hh⟩ := hg.inC
    have sub : ∀ x, x ∈ (Comp.catacomb _ _).chist → x ∈ (Comp.catacomb _ _).chist := fun x hx =>
      (congrArg (x ∈ ·) hh).mpr (List.mem_append_right es hx)
    rcases h with h | h | h | ⟨v, h, h'⟩
    · exact .inl (sub _ h)
    · exact .inr (.inl (sub _ h))
    · exact .inr (.inr (.inl (sub _ h)))
    · exact .inr (.inr (.inr ⟨v, sub _ h, h'⟩))
  | engine hr =>
    cases ho' with | engine hr' =>
    obtain ⟨id, g, h⟩ := h
    obtain ⟨es, hh⟩ := hg.inE
    exact ⟨id, g, (congrArg (Engine.Ev.startErr id g e ∈ ·) hh).mpr (List.mem_append_right es h)⟩
  | leaf killed res =>
    cases ho' with | leaf killed' res' =>
    have := (Of.leaf killed res).settled hm (e := some e) (.inl h)
    rcases this with this | ⟨_, _⟩
    · exact this
    · contradiction

/-- Every error that Wait of a worker has returned is one of the set. -/
theorem saw_in (hr : System.Reach W S) (hc : Closed W G) (hg : ∀ i e, Given (S i) e → G e) {i : I} {w : Nat} {e : Err}
    (h : SawW (S i) w (some e)) : G e := by
  induction hr generalizing i w e with
  | init =>
    refine absurd h ?_
    simp only [Wiring.new]
    cases W.kind i <;> exact nofun
  | @step S S' j op hr hu hs ih =>
    have hg' : ∀ i e, Given (S i) e → G e := fun i e h => hg i e (given_moves (reach_of hr i) (wstep_moves hs i) h)
    have ih := fun i w e => ih hg' (i := i) (w := w) (e := e)
    by_cases hold : SawW (S i) w (some e)
    · exact ih i w e hold
    · obtain ⟨c, hc', rfl, hf⟩ := wstep_inv hs
      by_cases hij : i = j
      · subst hij
        rw [after_self] at h
        rw [saw_iff, (reach_of hr i).ends hc'] at h
        exact result_in hc (reach_of hr _) (hg' _) (fun w e h => ih _ w e h)
          (hf w _ ((List.mem_append.1 h).resolve_right (fun h => hold (saw_iff.2 h))))
      · refine absurd ?_ hold
        unfold Wiring.after at h
        rw [if_neg hij] at h
        split at h
        · exact kill_saw (reach_of hr i) (hu i) h
        · exact h

/-- C107: no error is invented. -/
theorem C107_origin (hr : System.Reach W S) (hc : Closed W G) (hg : ∀ i e, Given (S i) e → G e) {i : I} {e : Err}
    (he : (S i).result = some (some e)) : G e :=
  result_in hc (reach_of hr i) (hg i) (fun _ _ h => saw_in hr hc hg h) he

/-- An error that means nothing special to any component. -/
def Plain (W : Wiring I) (e : Err) : Prop := e ≠ .tombStillAlive ∧ e ≠ .tombDying ∧ ∀ i own, W.kind i = .catacomb own → own ∉ CSpec.dyings e

theorem runner_calm {p : Runner.Params} {s : Runner.State} (hr : Runner.Reach p s) (hf : Tomb.Ordinary (fatalResult p s.tab.hist)) :
    s.tab.tomb.panicked = false := by
  by_cases hpc : s.tab.pc = .exited
  · rcases endTomb hr.tab hpc with ⟨_, h, _⟩ | ⟨_, _, h⟩
    · exact h
    · have h' : s.tab.finalError = fatalResult p s.tab.hist := hr.tab.hinv.final
      rw [h'] at h
      exact absurd h (fun h => h.elim hf.1 hf.2)
  · rw [hr.tab.hinv.tomb hpc]
    unfold Runner.aliveTomb
    split <;> rfl

theorem catacomb_proper {own : Nat} {s : Catacomb.State} (hG : ∀ e, G e → e ≠ .tombStillAlive ∧ own ∉ CSpec.dyings e)
    (hg : ∀ e, Given (.catacomb own s) e → G e) (hs : ∀ w e, SawW (.catacomb own s) w (some e) → G e) : CSpec.Proper own s.hist := by
  have key : ∀ h : List Catacomb.Ev, (∀ x ∈ h, x ∈ s.hist) → CSpec.Proper own h := by
    intro h
    induction h with
    | nil => exact fun _ => trivial
    | cons x h ih =>
      intro hh
      refine ⟨fun e he => ?_, ih (fun y hy => hh y (List.mem_cons_of_mem _ hy))⟩
      have hx := hh x List.mem_cons_self
      have : G e := by
        unfold CSpec.supplied at he
        split at he
        · subst he; exact hg e (.inl hx)
        · subst he; exact hg e (.inr (.inl hx))
        · subst he; exact hg e (.inr (.inr (.inl hx)))
        · subst he; exact hs _ e hx
        · cases he
      exact ⟨(hG e this).1, fun h => absurd h (hG e this).2⟩
  exact key _ (fun _ h => h)

/-- C107: if only plain errors are given, and the functions of engines make no others of them, nothing panics. -/
theorem C107_no_panic (hr : System.Reach W S) (hc : Closed W G) (hG : ∀ e, G e → Plain W e) (hg : ∀ i e, Given (S i) e → G e) : Up S := by
  intro i
  have hs := fun w e => saw_in hr hc hg (i := i) (w := w) (e := e)
  have ho := reach_of hr i
  have hg := hg i
  generalize hk : W.kind i = k at ho
  generalize S i = c at *
  cases ho with
  | runner hr' =>
    have := final_in hr' hg hs
    exact runner_calm hr' ⟨fun h => (hG _ (this _ h)).1 rfl, fun h => (hG _ (this _ h)).2.1 rfl⟩
  | catacomb hr' => exact C07_no_panic hr' (catacomb_proper (fun e he => ⟨(hG e he).1, (hG e he).2.2 i _ hk⟩) hg hs)
  | engine | leaf => rfl

namespace SDemo

/-- As `run`, as long as nobody has panicked. -/
def runUp (W : Wiring Nat) : List Comp → List (Nat × Op) → Option (List Comp)
  | L, [] => some L
  | L, (i, op) :: l => if L.all (fun c => !c.crashed) then (stepL W L i op).bind (fun L' => runUp W L' l) else none

theorem runUp_reach {W : Wiring Nat} : ∀ (l : List (Nat × Op)) {L L' : List Comp}, System.Reach W (fn L) → runUp W L l = some L' → System.Reach W (fn L')
  | [], L, L', hr, h => by simp only [runUp, Option.some.injEq] at h; exact h ▸ hr
  | (i, op) :: l, L, L', hr, h => by
    unfold runUp at h
    split at h
    · rename_i hu
      obtain ⟨L1, h1, h⟩ := Option.bind_eq_some_iff.1 h
      refine runUp_reach l (.step i op hr (fun j => ?_) (stepL_some h1)) h
      unfold fn
      cases hj : L[j]? with
      | none => rfl
      | some c => simpa using List.all_eq_true.1 hu c (List.mem_of_getElem? hj)
    · cases h

/-- The worker of the catacomb fails, and so do the catacomb and the engine. -/
def opsFail : List (Nat × Op) := opsUp ++ [(4, .leafEnd (some (.user 99)))] ++
  [.finish 1 (some (.user 99)), .tWaitRet 0, .tKill 0, .workRet (.ret none), .workKill, .tClose 0, .tExit 0, .kClosed 0, .lDying, .wgWait,
    .workEnd].map (fun op => (2, .catacomb op)) ++
  [.env (.finish 11 (some (.user 99))), .env (.gWaitRet 2), .stopped 2 101 Demo.noVals, .work, .work, .dying [1, 0], .work, .work, .work, .work].map
    (fun op => (0, .engine op)) ++ opsRunner ++
  [.env (.finish 10 none), .env (.gWaitRet 0), .stopped 0 102 Demo.vals01, .work, .work].map (fun op => (0, .engine op))

def failed : List Comp := (runUp SDemo.W (kinds.map Kind.new) opsFail).getD (kinds.map Kind.new)

theorem failed_reach : System.Reach SDemo.W (fn failed) := by
  have h : (runUp SDemo.W (kinds.map Kind.new) opsFail).isSome = true := by decide +kernel
  obtain ⟨L, hL⟩ := Option.isSome_iff_exists.1 h
  have h0 : System.Reach SDemo.W (fn (kinds.map Kind.new)) := by
    have : fn (kinds.map Kind.new) = SDemo.W.new := after_zero
    rw [this]; exact .init
  have := runUp_reach opsFail h0 hL
  unfold failed
  rw [hL]; exact this

/-- The errors a component has been given. -/
def givens : Comp → List Err
  | .runner _ s => s.tab.hist.filterMap (fun e => match e with | .startErr _ _ e => some e | _ => none)
  | .catacomb _ s => s.hist.filterMap (fun e => match e with
    | .kill e => e
    | .killPanics .client e => e
    | .workRet (.ret e) => e
    | .workRet (.panic v) => some (.panicked v)
    | _ => none)
  | .engine _ f => f.s.hist.filterMap (fun e => match e with | .startErr _ _ e => some e | _ => none)
  | .leaf _ res => res.toList.filterMap id

theorem given_mem {c : Comp} {e : Err} (h : Given c e) : e ∈ givens c := by
  cases c with
  | runner p s => obtain ⟨id, g, h⟩ := h; exact List.mem_filterMap.2 ⟨_, h, rfl⟩
  | engine p s => obtain ⟨id, g, h⟩ := h; exact List.mem_filterMap.2 ⟨_, h, rfl⟩
  | catacomb p s => rcases h with h | h | h | ⟨v, h, rfl⟩ <;> exact List.mem_filterMap.2 ⟨_, h, rfl⟩
  | leaf k res => cases (h : res = some (some e)); simp [givens]

/-- The errors that are used in this program, and those that the components make of them. -/
def known (e : Err) : Prop := e = .user 99 ∨ e = .missing

theorem failed_given (i : Nat) (e : Err) (h : Given (fn failed i) e) : known e := by
  have key : failed.all (fun c => (givens c).all (fun e => e == .user 99 || e == .missing)) = true := by decide +kernel
  have h := given_mem h
  unfold fn at h
  cases hi : failed[i]? with
  | none => rw [hi] at h; cases h
  | some c =>
    rw [hi] at h
    simpa [known] using List.all_eq_true.1 (List.all_eq_true.1 key c (List.mem_of_getElem? hi)) e h

theorem kind_cases {i : Nat} {k : Kind} (h : SDemo.W.kind i = k) : k = .engine Demo.cfg ∨ k = .runner RDemo.prm ∨ k = .catacomb 7 ∨ k = .leaf := by
  match i with
  | 0 => exact .inl h.symm
  | 1 => exact .inr (.inl h.symm)
  | 2 => exact .inr (.inr (.inl h.symm))
  | 3 | 4 | n + 5 => exact .inr (.inr (.inr h.symm))

theorem known_closed : Closed SDemo.W known where
  catacomb i own hi e he x hx := by
    rcases kind_cases hi with h | h | h | h <;> cases h
    rcases he with rfl | rfl <;> · cases hx; simp [known]
  worst i cfg hi raw f acc _ _ hf ha := by
    rcases kind_cases hi with h | h | h | h <;> cases h
    simp only [Demo.cfg, beq_iff_eq] at hf
    subst hf
    unfold Demo.cfg
    cases acc with
    | none => exact fun x hx => by cases hx; exact .inl rfl
    | some a => exact ha
  filter i cfg hi acc ha := by
    rcases kind_cases hi with h | h | h | h <;> cases h
    exact ha

theorem known_plain (e : Err) (h : known e) : Plain SDemo.W e := by
  rcases h with rfl | rfl <;> exact ⟨nofun, nofun, fun i own hi => by
    rcases kind_cases hi with h | h | h | h <;> cases h
    decide⟩

end SDemo

-- a leaf fails, and so do the catacomb and the engine above it, with the same error; the runner stops
example : System.Reach SDemo.W (SDemo.fn SDemo.failed) ∧ Closed SDemo.W SDemo.known ∧ (∀ e, SDemo.known e → Plain SDemo.W e) ∧
    (∀ i e, Given (SDemo.fn SDemo.failed i) e → SDemo.known e) ∧
    SDemo.failed.map Comp.result = [some (some (.user 99)), some none, some (some (.user 99)), some none, some (some (.user 99))] :=
  ⟨SDemo.failed_reach, SDemo.known_closed, SDemo.known_plain, SDemo.failed_given, by decide +kernel⟩

end Verif.Props
