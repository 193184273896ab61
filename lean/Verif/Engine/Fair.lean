import Verif.Engine.Live
import Verif.Engine.More
import Verif.Spec.Fair

/-!
# Engine: infinite executions, and what a step does to each goroutine
-/

namespace Verif.Engine
open Verif.Spec

/-- The steps of the engine's own goroutines that need no user code, without what is left open in them (when the clock is
read, in which order maps are walked, what other code does meanwhile). -/
inductive Kind
  | dying
  | started (gid : Nat)
  | stopped (gid : Nat)
  | abort (gid : Nat)
  | timer (gid : Nat)
  | registerDying (gid : Nat)
  | selfDone (gid : Nat)
  | waitRet (gid : Nat)
  deriving DecidableEq

/-- The kind of a step; `none` for what clients, Start funcs and workers do. -/
def Op.kind : Op → Option Kind
  | .armDying _ _ => some .dying
  | .armStarted g _ _ => some (.started g)
  | .armStopped g _ _ _ => some (.stopped g)
  | .gAbort g => some (.abort g)
  | .gTimer g _ => some (.timer g)
  | .gRegisterDying g => some (.registerDying g)
  | .gSelfDone g => some (.selfDone g)
  | .gWaitRet g => some (.waitRet g)
  | _ => none

/-- Whether a kind of step is the end of a delay. -/
def Kind.isTimer : Kind → Bool
  | .timer _ => true
  | _ => false

/-- An infinite execution of an engine. -/
structure Run (cfg : Config) where
  st : Nat → State
  op : Nat → Op
  start : st 0 = init
  next : ∀ k, step cfg (st k) (op k) = some (st (k + 1))

variable {cfg : Config}

theorem Run.reach (r : Run cfg) : ∀ k, Reach cfg (r.st k)
  | 0 => by rw [r.start]; exact .init
  | k + 1 => (r.reach k).step (r.op k) (r.next k)

/-- What has happened in the first `k` steps. -/
def Run.hist (r : Run cfg) (k : Nat) : List Ev := (r.st k).hist

/-- A step of the kind can be taken. -/
def CanDo (cfg : Config) (s : State) (x : Kind) : Prop := ∃ op s', op.kind = some x ∧ step cfg s op = some s'

/-- No kind of step of the engine's own, ends of delays aside, that is possible again and again is passed over for ever. -/
def Run.Fair (r : Run cfg) : Prop := ∀ x : Kind, x.isTimer = false → InfOften (fun k => CanDo cfg (r.st k) x) →
  InfOften (fun k => (r.op k).kind = some x)

/-- No delay goes on for ever. -/
def Run.DelaysEnd (r : Run cfg) : Prop := ∀ g, InfOften (fun k => CanDo cfg (r.st k) (.timer g)) →
  InfOften (fun k => (r.op k).kind = some (.timer g))

theorem Run.hist_mono (r : Run cfg) {k j : Nat} (h : k ≤ j) {e : Ev} (he : e ∈ r.hist k) : e ∈ r.hist j := by
  induction h with
  | refl => exact he
  | @step m _ ih =>
    have c := (reach_hinv (r.reach m)).1
    exact chain_hist_mem (step_chain c (r.next m)) c ih

theorem Run.hist_append (r : Run cfg) {k j : Nat} (h : k ≤ j) : ∃ d, r.hist j = d ++ r.hist k := by
  induction h with
  | refl => exact ⟨[], rfl⟩
  | @step m _ ih =>
    obtain ⟨d, hd⟩ := ih
    have c := (reach_hinv (r.reach m)).1
    obtain ⟨d', hd'⟩ := chain_hist (step_chain c (r.next m)) c
    exact ⟨d' ++ d, by rw [List.append_assoc, ← hd]; exact hd'⟩

/-! ## What a step does to each goroutine -/

/-- How many steps a goroutine has left, at most. -/
def Pc.rank : Pc → Nat
  | .delaying => 5
  | .starting => 4
  | .registering _ => 3
  | .selfWait => 2
  | .waiting _ => 2
  | .sendStopped _ => 1

/-- Every goroutine is still there and where it was. -/
def KeepsG (a b : State) : Prop := ∀ g ∈ a.gs, ∃ g' ∈ b.gs, g'.gid = g.gid ∧ g'.name = g.name ∧ g'.pc = g.pc

theorem KeepsG.of_eq {a b : State} (h : b.gs = a.gs) : KeepsG a b := fun g hg => ⟨g, by rw [h]; exact hg, rfl, rfl, rfl⟩

theorem KeepsG.refl (a : State) : KeepsG a a := .of_eq rfl

theorem KeepsG.trans {a b c : State} (h : KeepsG a b) (k : KeepsG b c) : KeepsG a c := by
  intro g hg
  obtain ⟨g1, h1, h2, h3, h4⟩ := h g hg
  obtain ⟨g2, k1, k2, k3, k4⟩ := k g1 h1
  exact ⟨g2, k1, k2.trans h2, k3.trans h3, k4.trans h4⟩

theorem keepsG_requestStop (a : State) (n : Name) : KeepsG a (requestStop a n) := by
  have hm : KeepsG a (markStopping a n) := by
    intro g hg
    unfold markStopping
    cases hc : (a.cur n).cancel with
    | none => exact ⟨g, by simpa [hc] using hg, rfl, rfl, rfl⟩
    | some i =>
      refine ⟨if g.gid = i then { g with cancelled := true } else g, ?_, ?_, ?_, ?_⟩
      · simp only [hc, setCur_gs, log_gs]
        exact List.mem_map.2 ⟨g, hg, rfl⟩
      all_goals split <;> rfl
  rcases requestStop_cases a n with ⟨_, e⟩ | ⟨_, _, ⟨w, _, e⟩ | ⟨_, e⟩⟩ <;> rw [e]
  · exact .refl a
  · exact hm.trans (.of_eq (killWorker_gs ..))
  · exact hm

theorem keepsG_requestStart (a : State) (n : Name) (d : Int) : KeepsG a (requestStart a n d) := by
  have hl : ∀ b : State, b.gs = a.gs → KeepsG a (launch b n d) := fun b hb g hg =>
    ⟨g, List.mem_cons_of_mem _ (by rw [setCur_gs, hb]; exact hg), rfl, rfl, rfl⟩
  have h0 : ∀ b : State, b.gs = a.gs → b.tick.gs = a.gs := fun b hb => (tick_gs b).trans hb
  have hk : ∀ (b : State) l, (b.killInternal l n).gs = b.gs := fun b l => rfl
  unfold requestStart
  simp only
  repeat' split
  all_goals first
    | exact .of_eq (h0 _ rfl)
    | exact hl _ (h0 _ rfl)

theorem keepsG_bounceList (cfg : Config) : ∀ (ds : List Name) (a : State), KeepsG a (bounceList cfg a ds) := by
  intro ds
  induction ds with
  | nil => exact .refl
  | cons d ds ih =>
    intro a
    refine .trans ?_ (ih _)
    split
    · exact keepsG_requestStart _ _ _
    · exact keepsG_requestStop _ _

theorem endArm_gs (a : State) : (endArm a).gs = a.gs := by
  unfold endArm
  simp only
  split <;> exact tick_gs a

theorem keepsG_dyingArm (order : List Name) : ∀ a : State, KeepsG a (dyingArm a order) := by
  have : ∀ (l : List Name) (b : State), KeepsG b (l.foldl requestStop b) := by
    intro l
    induction l with
    | nil => exact .refl
    | cons x l ih => intro b; exact (keepsG_requestStop b x).trans (ih _)
  exact fun a => this order { a with oneShot := false }

theorem keepsG_gotInstall (a : State) (n : Name) (m : Manifold) (order : List Name) : KeepsG a (gotInstall a n m order) := by
  unfold gotInstall
  split
  · exact .of_eq rfl
  · split
    · exact .of_eq rfl
    · exact KeepsG.trans (b := record a n m) (.of_eq rfl) (keepsG_requestStart _ _ _)

theorem keepsG_gotStarted (a : State) (n : Name) (gid : Nat) (w : WRef) (now : Int) :
    KeepsG a (gotStarted cfg a n gid w now) := by
  unfold gotStarted
  simp only
  repeat' split
  · exact .of_eq (killWorker_gs ..)
  · exact .of_eq (killWorker_gs ..)
  · exact .of_eq ((killWorker_gs ..).trans (tick_gs a))
  · exact KeepsG.trans (b := register a.tick n gid w now) (.of_eq (by rw [← tick_gs a]; rfl)) (keepsG_bounceList cfg _ _)

theorem keepsG_gotStopped (a : State) (n : Name) (gid : Nat) (raw : Option Err) (now : Int) (vals : Name → List Name) :
    KeepsG a (gotStopped cfg a n gid raw now vals) := by
  have h1 : ∀ (b : State) f, (noteFatal cfg b n f).gs = b.gs := by
    intro b f
    unfold noteFatal
    split
    · rfl
    · split <;> rfl
  have h2 : ∀ (b : State) told f, KeepsG b (reactToStop cfg b n told f vals) := by
    intro b told f
    unfold reactToStop
    repeat' split
    all_goals first
      | exact .refl _
      | exact keepsG_requestStart _ _ _
      | exact .of_eq rfl
  have h3 : ∀ (b : State) f i, (resetInfo (noteFatal cfg b n f) n i).tick.gs = b.gs := by
    intro b f i
    rw [tick_gs]
    exact h1 b f
  have h4 : KeepsG a (resetInfo (noteFatal cfg (a.log (.ended n gid now raw (applyFilter cfg (a.man n) raw)
      (a.cur n).stopping (a.cur n).worker)) n (applyFilter cfg (a.man n) raw)) n
      { err := applyFilter cfg (a.man n) raw, startAttempts := newAttempts (a.cur n) raw,
        startCount := (a.cur n).startCount, recentErrors := newRecent cfg (a.cur n) raw now }).tick := by
    refine .of_eq ?_
    rw [h3]
    rfl
  unfold gotStopped
  simp only
  split
  · exact h4
  · split
    · exact .trans (h4.trans (h2 _ _ _)) (keepsG_bounceList cfg _ _)
    · exact h4.trans (h2 _ _ _)

/-- The goroutine whose step an operation is. -/
def Op.mover : Op → Option Nat
  | .armStarted g _ _ | .armStopped g _ _ _ | .gAbort g | .gTimer g _ | .gStartOk g _ | .gStartErr g _ | .gRegisterDying g
  | .gSelfDone g | .gWaitRet g => some g
  | _ => none

/-- The goroutine is still there; it has gone on if the step is its own, and is where it was if not. -/
def GoesOn (op : Op) (g : G) (s' : State) : Prop := ∃ g' ∈ s'.gs, g'.gid = g.gid ∧ g'.name = g.name ∧
  (op.mover ≠ some g.gid → g'.pc = g.pc) ∧ (op.mover = some g.gid → g'.pc.rank < g.pc.rank)

/-- What a step does to a goroutine: it goes on, or the loop has received its last message. -/
theorem step_moves {s s' : State} {op : Op} (c : Core s) (h : step cfg s op = some s') {g : G} (hg : g ∈ s.gs) :
    GoesOn op g s' ∨ ∃ now vals pend, op = .armStopped g.gid now vals pend := by
  have keep : op.mover = none → KeepsG s s' → GoesOn op g s' := by
    intro h1 h2
    obtain ⟨g', a, b, d, e⟩ := h2 g hg
    exact ⟨g', a, b, d, fun _ => e, fun hx => by rw [h1] at hx; cases hx⟩
  have move : ∀ {x : G} (_ : x ∈ s.gs) (p : Pc) (t : State), t.gs = (s.mapG x.gid (fun g => { g with pc := p })).gs →
      KeepsG t s' → op.mover = some x.gid → p.rank < x.pc.rank → GoesOn op g s' := by
    intro x hx p t ht hk hm hp
    by_cases hxg : x.gid = g.gid
    · obtain rfl := c.gid_inj hx hg hxg
      obtain ⟨g', a, b, d, e⟩ := hk { x with pc := p } (by rw [ht]; exact List.mem_map.2 ⟨x, hg, by simp⟩)
      exact ⟨g', a, b, d, fun hn => absurd hm hn, fun _ => by rw [e]; exact hp⟩
    · obtain ⟨g', a, b, d, e⟩ := hk g (by rw [ht]; exact List.mem_map.2 ⟨g, hg, if_neg (fun hh => hxg (Eq.symm hh))⟩)
      exact ⟨g', a, b, d, fun _ => e, fun hx => by rw [hm] at hx; exact absurd (Option.some.inj hx) hxg⟩
  cases op with
  | kill =>
    simp only [step, Option.some.injEq] at h; subst h
    exact Or.inl (keep rfl (.of_eq rfl))
  | armDying order pend =>
    simp only [step] at h
    split at h <;> cases h
    exact Or.inl (keep rfl (.trans (b := { s with pend := pend }) (.of_eq rfl)
      ((keepsG_dyingArm order _).trans (.of_eq (endArm_gs _)))))
  | armReport pend =>
    simp only [step] at h
    split at h <;> cases h
    refine Or.inl (keep rfl (.of_eq ?_))
    rw [endArm_gs]
    unfold liveReport
    simp only
    split <;> exact tick_gs _
  | armInstall n m order pend =>
    simp only [step] at h
    split at h <;> cases h
    exact Or.inl (keep rfl (.trans (b := { s with pend := pend }) (.of_eq rfl)
      ((keepsG_gotInstall _ n m order).trans (.of_eq (endArm_gs _)))))
  | installRefused n =>
    simp only [step] at h
    split at h <;> cases h
    exact Or.inl (keep rfl (.of_eq rfl))
  | armStarted gid now pend =>
    simp only [step] at h
    split at h
    · cases h
    split at h
    · cases h
    rename_i x hxx
    obtain ⟨hx, rfl⟩ := getG_some _ _ hxx
    split at h <;> cases h
    rename_i w hpc
    refine Or.inl (move hx (afterOffer w) { s.mapG x.gid (fun g => { g with pc := afterOffer w }) with pend := pend } rfl
      ((keepsG_gotStarted _ _ _ _ _).trans (.of_eq (endArm_gs _))) rfl ?_)
    rw [hpc]; cases w <;> simp [Pc.rank, afterOffer]
  | armStopped gid now vals pend =>
    simp only [step] at h
    split at h
    · cases h
    split at h
    · cases h
    rename_i x hxx
    obtain ⟨hx, rfl⟩ := getG_some _ _ hxx
    split at h <;> cases h
    by_cases hxg : x.gid = g.gid
    · exact Or.inr ⟨now, vals, pend, by rw [hxg]⟩
    · obtain ⟨g', a, b, d, e⟩ := ((keepsG_gotStopped (cfg := cfg)
        { s with gs := s.gs.filter (fun y => y.gid != x.gid), pend := pend } x.name x.gid _ now vals).trans
        (.of_eq (endArm_gs _))) g (List.mem_filter.2 ⟨hg, by simpa using fun hh => hxg (Eq.symm hh)⟩)
      exact Or.inl ⟨g', a, b, d, fun _ => e, fun hm => absurd (Option.some.inj hm) hxg⟩
  | gAbort gid =>
    simp only [step] at h
    split at h
    case h_2 => cases h
    rename_i x hxx
    obtain ⟨hx, rfl⟩ := getG_some _ _ hxx
    split at h <;> cases h
    rename_i hc
    exact Or.inl (move hx _ _ rfl (.refl _) rfl (by rw [hc.1]; simp [Pc.rank]))
  | gTimer gid fuzz =>
    simp only [step] at h
    split at h
    case h_2 => cases h
    rename_i x hxx
    obtain ⟨hx, rfl⟩ := getG_some _ _ hxx
    split at h <;> cases h
    rename_i hc
    exact Or.inl (move hx .starting (s.mapG x.gid (fun g => { g with pc := .starting })) rfl (.of_eq rfl) rfl
      (by rw [hc.1]; simp [Pc.rank]))
  | gGet gid res out =>
    simp only [step] at h
    split at h
    case h_2 => cases h
    split at h <;> cases h
    exact Or.inl (keep rfl (.of_eq rfl))
  | gStartOk gid w =>
    simp only [step] at h
    split at h
    case h_2 => cases h
    rename_i x hxx
    obtain ⟨hx, rfl⟩ := getG_some _ _ hxx
    split at h <;> cases h
    rename_i hc
    exact Or.inl (move hx (.registering w) (s.mapG x.gid (fun g => { g with pc := .registering w })) rfl (.of_eq rfl) rfl
      (by rw [hc]; simp [Pc.rank]))
  | gStartErr gid e =>
    simp only [step] at h
    split at h
    case h_2 => cases h
    rename_i x hxx
    obtain ⟨hx, rfl⟩ := getG_some _ _ hxx
    split at h <;> cases h
    rename_i hc
    exact Or.inl (move hx (.sendStopped (startError e)) (s.mapG x.gid (fun g => { g with pc := .sendStopped (startError e) }))
      rfl (.of_eq rfl) rfl (by rw [hc]; simp [Pc.rank]))
  | gRegisterDying gid =>
    simp only [step] at h
    split at h
    case h_2 => cases h
    rename_i x hxx
    obtain ⟨hx, rfl⟩ := getG_some _ _ hxx
    split at h
    case h_2 => cases h
    rename_i w hpc
    split at h <;> cases h
    exact Or.inl (move hx (afterOffer w) (s.mapG x.gid (fun g => { g with pc := afterOffer w })) rfl
      (.of_eq (killWorker_gs ..)) rfl (by rw [hpc]; cases w <;> simp [Pc.rank, afterOffer]))
  | gSelfDone gid =>
    simp only [step] at h
    split at h
    case h_2 => cases h
    rename_i x hxx
    obtain ⟨hx, rfl⟩ := getG_some _ _ hxx
    split at h <;> cases h
    rename_i hc
    exact Or.inl (move hx _ _ rfl (.refl _) rfl (by rw [hc.1]; simp [Pc.rank]))
  | gWaitRet gid =>
    simp only [step] at h
    split at h
    case h_2 => cases h
    rename_i x hxx
    obtain ⟨hx, rfl⟩ := getG_some _ _ hxx
    split at h
    case h_2 => cases h
    rename_i w hpc
    split at h <;> cases h
    exact Or.inl (move hx _ _ rfl (.refl _) rfl (by rw [hpc]; simp [Pc.rank]))
  | finish w e =>
    simp only [step] at h
    split at h <;> cases h
    exact Or.inl (keep rfl (.of_eq rfl))

end Verif.Engine
