import Verif.Catacomb.Progress
import Verif.Spec.CatacombExact
import Mathlib.Tactic.ByContra

/-!
# Catacomb: exactly which histories there are
-/

namespace Verif.Catacomb
open State CSpec Verif.Spec

/-! ## Every history obeys `Possible` -/

/-- How far a failing Invoke call is, in terms of the history. -/
def InvX (h : List Ev) (i : Nat) (p : Plan) : IPc → Prop
  | .failing _ ws => (∃ done, workersOf p = done ++ ws.filterMap id ∧ done.length = killsI i h) ∧
      ∀ w', .killI i w' ∈ h → (finishedH h w').isSome = true
  | .failWait _ w ws => (∃ done, workersOf p = done ++ ws.filterMap id ∧ done.length = killsI i h) ∧
      ∀ w', .killI i w' ∈ h → w' = w ∨ (finishedH h w').isSome = true
  | .returned (some _) => True
  | _ => killsI i h = 0 ∧ ∀ w, .killI i w ∉ h

structure XInv (s : State) : Prop where
  nI : s.invs.length = invokes s.hist
  nA : s.adds.length = addCalls s.hist
  nT : s.tracks.length = trackings s.hist
  chan : ∀ (c : Nat) a, s.adds[c]? = some a → a.chan = true → ∃ post pre, s.hist = post ++ .callAdd c a.w :: pre ∧ ∃ i, .claimed i ∈ pre
  inv : ∀ (i : Nat) v, s.invs[i]? = some v → InvX s.hist i v.plan v.pc
  fresh : ∀ i w, .killI i w ∈ s.hist → i < s.invs.length
  pan : s.crashed = false → ∀ who x, .killPanics who x ∉ s.hist

theorem InvX.cons {own : Nat} {e : Ev} {h : List Ev} {i : Nat} {p : Plan} {pc : IPc} (hx : InvX h i p pc) (hk : EvOk own e h)
    (he : ∀ w, e ≠ .killI i w) : InvX (e :: h) i p pc := by
  have hn : killsI i (e :: h) = killsI i h := by
    cases e with
    | killI i' w => simp only [killsI]; rw [if_neg]; rintro rfl; exact he w rfl
    | _ => rfl
  have hm : ∀ w, .killI i w ∈ e :: h → .killI i w ∈ h := fun w hw => mem_cons_ne hw (fun hy => he w hy.symm)
  cases pc with
  | failing x ws => exact ⟨by rw [hn]; exact hx.1, fun w hw => finished_isSome hk (hx.2 w (hm w hw))⟩
  | failWait x u ws => exact ⟨by rw [hn]; exact hx.1, fun w hw => (hx.2 w (hm w hw)).imp_right (finished_isSome hk)⟩
  | returned r => cases r with
    | none => exact ⟨by rw [hn]; exact hx.1, fun w hw => hx.2 w (hm w hw)⟩
    | some => trivial
  | _ => exact ⟨by rw [hn]; exact hx.1, fun w hw => hx.2 w (hm w hw)⟩

/-- The event is of none of the kinds that are numbered. -/
def plain : Ev → Bool
  | .callInvoke .. | .callAdd .. | .tracked .. | .killI .. | .killPanics .. => false
  | _ => true

theorem XInv.same {s s' : State} (hX : XInv s) (hc : s.crashed = false) (hh : s'.hist = s.hist) (hA : s'.adds = s.adds)
    (hT : s'.tracks.length = s.tracks.length) (hI : s'.invs.length = s.invs.length)
    (hv : ∀ (i : Nat) v, s'.invs[i]? = some v → s.invs[i]? = some v ∨ InvX s'.hist i v.plan v.pc) : XInv s' := by
  refine ⟨by rw [hh, hI]; exact hX.nI, by rw [hh, hA]; exact hX.nA, by rw [hh, hT]; exact hX.nT, by rw [hh, hA]; exact hX.chan, ?_,
    by rw [hh, hI]; exact hX.fresh, ?_⟩
  · intro i v h
    rcases hv i v h with h | h
    · rw [hh]; exact hX.inv i v h
    · exact h
  · intro _; rw [hh]; exact hX.pan hc

theorem XInv.plain {own : Nat} {s s' : State} (hX : XInv s) (hc : s.crashed = false) {e : Ev} (hk : EvOk own e s.hist)
    (hp : plain e = true) (hh : s'.hist = e :: s.hist)
    (hA : s'.adds.length = s.adds.length)
    (ha : ∀ (c : Nat) a, s'.adds[c]? = some a → ∃ a', s.adds[c]? = some a' ∧ a'.w = a.w ∧ a'.chan = a.chan)
    (hT : s'.tracks.length = s.tracks.length) (hI : s'.invs.length = s.invs.length)
    (hv : ∀ (i : Nat) v, s'.invs[i]? = some v → s.invs[i]? = some v ∨ InvX s'.hist i v.plan v.pc) : XInv s' := by
  have n1 : invokes (e :: s.hist) = invokes s.hist := by cases e <;> first | rfl | cases hp
  have n2 : addCalls (e :: s.hist) = addCalls s.hist := by cases e <;> first | rfl | cases hp
  have n3 : trackings (e :: s.hist) = trackings s.hist := by cases e <;> first | rfl | cases hp
  refine ⟨by rw [hh, hI, n1]; exact hX.nI, by rw [hh, hA, n2]; exact hX.nA, by rw [hh, hT, n3]; exact hX.nT, ?_, ?_, ?_, ?_⟩
  · intro c a h hch
    obtain ⟨a', h1, h2, h3⟩ := ha c a h
    obtain ⟨post, pre, h4, h5⟩ := hX.chan c a' h1 (h3 ▸ hch)
    exact ⟨e :: post, pre, by rw [hh, h4, h2]; rfl, h5⟩
  · intro i v h
    rcases hv i v h with h | h
    · rw [hh]; exact (hX.inv i v h).cons hk (by rintro w rfl; cases hp)
    · exact h
  · intro i w h
    rw [hh] at h; rw [hI]
    exact hX.fresh i w (mem_cons_ne h (by rintro rfl; cases hp))
  · intro _ who x h
    rw [hh] at h
    exact hX.pan hc who x (mem_cons_ne h (by rintro rfl; cases hp))

theorem XInv.track {own : Nat} {s s' : State} (hX : XInv s) (hc : s.crashed = false) {k w : Nat} {src : Src}
    (hk : EvOk own (.tracked k w src) s.hist) (hh : s'.hist = .tracked k w src :: s.hist) (hA : s'.adds = s.adds)
    (hT : s'.tracks.length = s.tracks.length + 1) (hI : s'.invs.length = s.invs.length)
    (hv : ∀ (i : Nat) v, s'.invs[i]? = some v → s.invs[i]? = some v ∨ InvX s'.hist i v.plan v.pc) : XInv s' := by
  refine ⟨by rw [hh, hI]; exact hX.nI, by rw [hh, hA]; exact hX.nA, by rw [hh, hT, hX.nT]; rfl, ?_, ?_, ?_, ?_⟩
  · intro c a h hch
    rw [hA] at h
    obtain ⟨post, pre, h4, h5⟩ := hX.chan c a h hch
    exact ⟨_ :: post, pre, by rw [hh, h4]; rfl, h5⟩
  · intro i v h
    rcases hv i v h with h | h
    · rw [hh]; exact (hX.inv i v h).cons hk nofun
    · exact h
  · intro i w h; rw [hh] at h; rw [hI]; exact hX.fresh i w (mem_cons_ne h nofun)
  · intro _ who x h; rw [hh] at h; exact hX.pan hc who x (mem_cons_ne h nofun)

theorem killable_of {own : Nat} {s : State} {e : Option Err} (ht : TombH own s.tomb s.hist)
    (hk : (s.tomb.kill (killArg own e)).panicked = false) : Killable own e s.hist := by
  refine ⟨?_, ?_⟩
  · rintro rfl
    rw [show killArg own (some .tombStillAlive) = some .tombStillAlive by simp [killArg, Err.asDying]] at hk
    simp [Tomb.kill] at hk
  · intro ho
    rw [← ht.dying]
    rcases killArg_eq own e with ⟨_, h2, _⟩ | ⟨h1, _⟩
    · rw [h2] at hk
      unfold Tomb.kill at hk
      simp only [reduceCtorEq, if_false, Option.some.injEq, if_true] at hk
      split at hk
      · cases hk
      · rename_i h; cases hr : s.tomb.reason with
        | none => exact absurd hr h
        | some r => simp [Tomb.dying, hr]
    · exact absurd ho h1

theorem killsI_zero {i : Nat} {h : List Ev} (hno : ∀ w, .killI i w ∉ h) : killsI i h = 0 := by
  induction h with
  | nil => rfl
  | cons e h ih =>
    have := ih (fun w hw => hno w (List.mem_cons_of_mem _ hw))
    cases e with
    | killI i' w =>
      simp only [killsI]
      rw [if_neg, this]
      rintro rfl; exact hno w List.mem_cons_self
    | _ => exact this

theorem wgDone_rest (s : State) : (wgDone s).invs = s.invs ∧ (wgDone s).tracks = s.tracks ∧ (wgDone s).fin = s.fin ∧
    (wgDone s).listener = s.listener ∧ (wgDone s).goexit = s.goexit := by
  unfold wgDone; split <;> exact ⟨rfl, rfl, rfl, rfl, rfl⟩

theorem wgAdd_rest (s : State) (d : Nat) : (wgAdd s d).invs = s.invs ∧ (wgAdd s d).tracks = s.tracks ∧ (wgAdd s d).fin = s.fin ∧
    (wgAdd s d).listener = s.listener ∧ (wgAdd s d).goexit = s.goexit ∧ (wgAdd s d).work = s.work := by
  unfold wgAdd; split <;> exact ⟨rfl, rfl, rfl, rfl, rfl, rfl⟩

theorem set_get {α : Type} {l : List α} {k i : Nat} {x y : α} {P : Prop} (h : (l.set k x)[i]? = some y)
    (h1 : i = k → y = x → P) : l[i]? = some y ∨ P := by
  rcases get_set h with ⟨h2, h3⟩ | ⟨_, h⟩
  · exact .inr (h1 h2 h3)
  · exact .inl h

theorem filterMap_some_cons {w : Nat} {ws : List (Option Nat)} : (some w :: ws).filterMap id = w :: ws.filterMap id := rfl

theorem T.exact {own : Nat} {s s' : State} (hS : Shape s) (hH : HInv own s) (hE : AtEvery (EvOk own) s.hist) (hX : XInv s) (hc : s.crashed = false) {op : Op}
    (hT : T own s op s') : (∀ e, s'.hist = e :: s.hist → Extra own e s.hist) ∧ XInv s' := by
  have hok : ∀ {e}, s'.hist = e :: s.hist → EvOk own e s.hist := by
    intro e he
    rcases (hT.hist hS hH hc).1 with h | ⟨e', h, hk⟩
    · rw [he] at h; exact absurd (congrArg List.length h) (by simp)
    · rw [he] at h; cases h; exact hk
  have hvalid : ∀ (i : Nat) v, s.invs[i]? = some v → .claimed i ∈ s.hist → Valid v.plan := by
    intro i v hv hm
    obtain ⟨post, pre, he, ⟨p, h1, h2⟩, -⟩ := AtEvery.mem hE hm
    obtain ⟨v', h3, h4⟩ := hH.invs.all i p (by rw [he]; exact List.mem_append_right _ (List.mem_cons_of_mem _ h1))
    rw [hv] at h3; cases h3
    rw [h4]; exact h2
  have one : ∀ {e}, s'.hist = e :: s.hist → Extra own e s.hist → ∀ e', s'.hist = e' :: s.hist → Extra own e' s.hist := by
    intro e he hx e' he'
    rw [he] at he'; cases he'; exact hx
  have none' : s'.hist = s.hist → ∀ e', s'.hist = e' :: s.hist → Extra own e' s.hist := by
    intro he e' he'
    rw [he] at he'; exact absurd (congrArg List.length he') (by simp)
  have adds0 : s'.adds = s.adds → ∀ (c : Nat) a, s'.adds[c]? = some a → ∃ a', s.adds[c]? = some a' ∧ a'.w = a.w ∧ a'.chan = a.chan := by
    intro h c a ha; rw [h] at ha; exact ⟨a, ha, rfl, rfl⟩
  have invs0 : s'.invs = s.invs → ∀ (i : Nat) v, s'.invs[i]? = some v → s.invs[i]? = some v ∨ InvX s'.hist i v.plan v.pc := by
    intro h c a ha; rw [h] at ha; exact .inl ha
  have addsSet : ∀ {c : Nat} {a a1 : AddCall}, s.adds[c]? = some a → s'.adds = s.adds.set c a1 → a1.w = a.w → a1.chan = a.chan →
      ∀ (c : Nat) a, s'.adds[c]? = some a → ∃ a', s.adds[c]? = some a' ∧ a'.w = a.w ∧ a'.chan = a.chan := by
    intro c a a1 ha hs hw hch c' a' ha'
    rw [hs] at ha'
    rcases get_set ha' with ⟨rfl, rfl⟩ | ⟨_, ha'⟩
    · exact ⟨a, ha, hw.symm, hch.symm⟩
    · exact ⟨a', ha', rfl, rfl⟩
  have killed : (∃ who e, s'.hist = .killPanics who e :: s.hist) → s'.adds = s.adds → s'.tracks = s.tracks → s'.invs = s.invs → s'.crashed = true → XInv s' := by
    rintro ⟨who, e, hh⟩ hA hT hI hcr
    have hk := hok hh
    refine ⟨by rw [hh, hI]; exact hX.nI, by rw [hh, hA]; exact hX.nA, by rw [hh, hT]; exact hX.nT, ?_, ?_, ?_, by rw [hcr]; nofun⟩
    · intro c a h hch
      rw [hA] at h
      obtain ⟨post, pre, h4, h5⟩ := hX.chan c a h hch
      exact ⟨_ :: post, pre, by rw [hh, h4]; rfl, h5⟩
    · intro i v h; rw [hI] at h; rw [hh]; exact (hX.inv i v h).cons hk nofun
    · intro i w h; rw [hh] at h; rw [hI]; exact hX.fresh i w (mem_cons_ne h nofun)
  cases hT with
  | callInvoke p =>
    have hk := hok rfl
    refine ⟨one rfl hX.nI, ?_⟩
    have hl : (s.invs ++ [InvCall.mk p .start]).length = s.invs.length + 1 := by simp
    refine ⟨by show (s.invs ++ _).length = invokes (.callInvoke .. :: s.hist); rw [hl, hX.nI]; rfl, hX.nA, hX.nT, ?_, ?_, ?_, ?_⟩
    · intro c a h hch
      obtain ⟨post, pre, h4, h5⟩ := hX.chan c a h hch
      exact ⟨_ :: post, pre, by show _ :: s.hist = _; rw [h4]; rfl, h5⟩
    · intro i v h
      rcases get_append h with h | ⟨rfl, rfl⟩
      · exact (hX.inv i v h).cons hk nofun
      · have hno : ∀ w, .killI s.invs.length w ∉ s.hist := fun w h => Nat.lt_irrefl _ (hX.fresh _ _ h)
        refine ⟨?_, fun w hw => hno w (mem_cons_ne hw nofun)⟩
        show killsI s.invs.length s.hist = 0
        exact killsI_zero hno
    · intro i w h
      have := hX.fresh i w (mem_cons_ne h nofun)
      show i < (s.invs ++ _).length
      rw [hl]; omega
    · intro _ who x h; exact hX.pan hc who x (mem_cons_ne h nofun)
  | iInvalid i v e hv hp he =>
    refine ⟨none' rfl, hX.same hc rfl rfl rfl (by simp [setInv]) fun i' v' h => set_get h ?_⟩
    rintro rfl rfl
    have := hX.inv i' v hv
    rw [hp] at this
    exact ⟨⟨[], rfl, this.1.symm⟩, fun w hw => absurd hw (this.2 w)⟩
  | iUsed i v o hv hp he ho =>
    refine ⟨none' rfl, hX.same hc rfl rfl rfl (by simp [setInv]) fun i' v' h => set_get h ?_⟩
    rintro rfl rfl
    have := hX.inv i' v hv
    rw [hp] at this
    exact ⟨⟨[], rfl, this.1.symm⟩, fun w hw => absurd hw (this.2 w)⟩
  | iClaim i v hv hp he ho =>
    refine ⟨one rfl trivial, hX.plain hc (hok rfl) rfl rfl rfl (adds0 rfl) rfl (by simp [setInv, emit]) fun i' v' h => set_get h ?_⟩
    rintro rfl rfl
    have := hX.inv i' v hv
    rw [hp] at this
    exact ⟨this.1, fun w hw => this.2 w (mem_cons_ne hw nofun)⟩
  | iAdd i v j w ws hv hp =>
    have hh : ((add s w (.init i j)).setInv i { v with pc := .adding (j + 1) ws }).hist = .tracked s.tracks.length w (.init i j) :: s.hist := by
      simp only [add, setInv, wgAdd_tomb, wgAdd_rest]
    have hk := hok hh
    have hpc := (hH.invs.ok i v hv).pc
    rw [hp] at hpc
    refine ⟨one hh ⟨hX.nT, ?_⟩, ?_⟩
    · intro i' j' heq j'' hj
      cases heq
      have hv' := hvalid i v hv hpc.1
      have hlt : j'' < v.plan.init.length := by
        have : ¬ v.plan.init.length ≤ j := fun hn => by
          have := hpc.2.1
          rw [List.drop_eq_nil_of_le hn] at this
          cases this
        omega
      obtain ⟨y, hy⟩ : ∃ y, v.plan.init[j'']? = some y := ⟨_, List.getElem?_eq_getElem hlt⟩
      cases y with
      | none => exact absurd (List.mem_of_getElem? hy) hv'.2.2.2
      | some u =>
        obtain ⟨k, hk'⟩ := hpc.2.2.1 j'' u hj hy
        exact ⟨k, u, hk'⟩
    · refine hX.track hc hk hh (by simp [add, setInv, wgAdd_adds]) (by simp [add, setInv, wgAdd_rest]) (by simp [add, setInv, wgAdd_rest]) ?_
      intro i' v' h
      simp only [add, setInv, wgAdd_rest] at h
      refine set_get h ?_
      rintro rfl rfl
      have := hX.inv i' v hv
      rw [hp] at this
      rw [hh]
      exact ⟨this.1, fun w hw => this.2 w (mem_cons_ne hw nofun)⟩
  | iListen i v j hv hp =>
    refine ⟨none' (by simp [setInv, wgAdd_tomb]), hX.same hc (by simp [setInv, wgAdd_tomb]) (by simp [setInv, wgAdd_adds]) (by simp [setInv, wgAdd_rest])
      (by simp [setInv, wgAdd_rest]) fun i' v' h => ?_⟩
    simp only [setInv, wgAdd_rest] at h
    refine set_get h ?_
    rintro rfl rfl
    have := hX.inv i' v hv
    rw [hp] at this
    simp only [setInv, wgAdd_tomb]
    exact this
  | iGo i v hv hp =>
    refine ⟨one rfl trivial, hX.plain hc (hok rfl) rfl rfl rfl (adds0 rfl) rfl (by simp [setInv, emit]) fun i' v' h => set_get h ?_⟩
    rintro rfl rfl
    have := hX.inv i' v hv
    rw [hp] at this
    exact ⟨this.1, fun w hw => this.2 w (mem_cons_ne hw nofun)⟩
  | iOk i v hv hp =>
    refine ⟨one rfl trivial, hX.plain hc (hok rfl) rfl rfl rfl (adds0 rfl) rfl (by simp [setInv, emit]) fun i' v' h => set_get h ?_⟩
    rintro rfl rfl
    have := hX.inv i' v hv
    rw [hp] at this
    exact ⟨this.1, fun w hw => this.2 w (mem_cons_ne hw nofun)⟩
  | iSkip i v e ws hv hp =>
    refine ⟨none' rfl, hX.same hc rfl rfl rfl (by simp [setInv]) fun i' v' h => set_get h ?_⟩
    rintro rfl rfl
    have := hX.inv i' v hv
    rw [hp] at this
    exact this
  | iKill i v e w ws hv hp =>
    have hx := hX.inv i v hv
    rw [hp] at hx
    obtain ⟨⟨done, h1, h2⟩, h3⟩ := hx
    rw [filterMap_some_cons] at h1
    have hget : (workersOf v.plan)[killsI i s.hist]? = some w := by rw [h1, ← h2]; simp
    have hk := hok rfl
    refine ⟨one rfl ⟨⟨v.plan, (hH.invs.ok i v hv).call, hget⟩, h3⟩, ?_⟩
    refine ⟨by simpa [setInv, emit, invokes] using hX.nI, hX.nA, hX.nT, ?_, ?_, ?_, ?_⟩
    · intro c a h hch
      obtain ⟨post, pre, h4, h5⟩ := hX.chan c a h hch
      exact ⟨_ :: post, pre, by show _ :: s.hist = _; rw [h4]; rfl, h5⟩
    · intro i' v' h
      rcases get_set h with ⟨rfl, rfl⟩ | ⟨hne, h⟩
      · refine ⟨⟨done ++ [w], by simp [h1], ?_⟩, ?_⟩
        · show _ = killsI i' (.killI i' w :: s.hist)
          simp [killsI, h2]
        · intro w' hw'
          rcases List.mem_cons.1 hw' with hw' | hw'
          · cases hw'; exact .inl rfl
          · exact .inr (h3 w' hw')
      · exact (hX.inv i' v' h).cons hk (by rintro u hy; cases hy; exact hne rfl)
    · intro i' w' h
      show i' < (s.invs.set _ _).length
      rw [List.length_set]
      rcases List.mem_cons.1 h with h | h
      · cases h; exact (List.getElem?_eq_some_iff.1 hv).1
      · exact hX.fresh i' w' h
    · intro _ who x h; exact hX.pan hc who x (mem_cons_ne h nofun)
  | iWaitRet i v e w ws hv hp hf =>
    refine ⟨none' rfl, hX.same hc rfl rfl rfl (by simp [setInv]) fun i' v' h => set_get h ?_⟩
    rintro rfl rfl
    have := hX.inv i' v hv
    rw [hp] at this
    refine ⟨this.1, fun w' hw' => ?_⟩
    rcases this.2 w' hw' with rfl | h
    · rw [hH.fin] at hf; exact hf
    · exact h
  | iFail i v e hv hp =>
    have hx := hX.inv i v hv
    rw [hp] at hx
    obtain ⟨⟨done, h1, h2⟩, h3⟩ := hx
    refine ⟨one rfl ⟨⟨v.plan, (hH.invs.ok i v hv).call, ?_⟩, h3⟩,
      hX.plain hc (hok rfl) rfl rfl rfl (adds0 rfl) rfl (by simp [setInv, emit]) fun i' v' h => set_get h ?_⟩
    · rw [h1, ← h2]; simp
    · rintro rfl rfl; trivial
  | callAdd w =>
    have hk := hok rfl
    refine ⟨one rfl hX.nA, ?_⟩
    have hl : (s.adds ++ [AddCall.mk w s.owner.isSome .select]).length = s.adds.length + 1 := by simp
    refine ⟨hX.nI, by show (s.adds ++ _).length = addCalls (.callAdd .. :: s.hist); rw [hl, hX.nA]; rfl, hX.nT, ?_, ?_, ?_, ?_⟩
    · intro c a h hch
      rcases get_append h with h | ⟨rfl, rfl⟩
      · obtain ⟨post, pre, h4, h5⟩ := hX.chan c a h hch
        exact ⟨_ :: post, pre, by show _ :: s.hist = _; rw [h4]; rfl, h5⟩
      · obtain ⟨o, ho⟩ := Option.isSome_iff_exists.1 hch
        exact ⟨[], s.hist, rfl, o, (hH.invs.own o).1 ho⟩
    · intro i v h; exact (hX.inv i v h).cons hk nofun
    · intro i w h; exact hX.fresh i w (mem_cons_ne h nofun)
    · intro _ who x h; exact hX.pan hc who x (mem_cons_ne h nofun)
  | aDying c a ha hp hd =>
    exact ⟨one rfl trivial, hX.plain hc (hok rfl) rfl rfl (by simp [setAdd, emit]) (addsSet ha rfl rfl rfl) rfl rfl (invs0 rfl)⟩
  | aSend c a ha hp hch hl =>
    refine ⟨one rfl ⟨?_, ?_, ?_⟩, hX.plain hc (hok rfl) rfl rfl (by simp [setAdd, emit]) (addsSet ha rfl rfl rfl) rfl rfl (invs0 rfl)⟩
    · obtain ⟨post, pre, h1, h2⟩ := hX.chan c a ha hch
      exact ⟨post, pre, a.w, h1, h2⟩
    · have ho : s.owner ≠ none := fun ho => by
        have := (hS.noOwn ho).1
        rw [hl] at this; cases this
      obtain ⟨i, ho⟩ := Option.ne_none_iff_exists'.1 ho
      obtain ⟨v, hv, hact, hph⟩ := hS.own i ho
      have hI := hH.invs.ok i v hv
      refine ⟨i, v.plan, (hH.invs.own i).1 ho, hI.call, ?_⟩
      have hpc := hI.pc
      have hwork : s.work ≠ .none → ∀ j w, v.plan.init[j]? = some (some w) → ∃ k, .tracked k w (.init i j) ∈ s.hist := by
        intro hw j w hj
        have hm : Ev.workCall ∈ s.hist := Decidable.of_not_not (fun hn => hw (hH.work.call.2 hn))
        obtain ⟨post, pre, he, hk⟩ := AtEvery.mem hE hm
        obtain ⟨-, i', p', h1, h2, h3⟩ := hk
        have hsub : ∀ x ∈ pre, x ∈ s.hist := fun x hx => by rw [he]; exact List.mem_append_right _ (List.mem_cons_of_mem _ hx)
        have hi' : s.owner = some i' := (hH.invs.own i').2 (hsub _ h1)
        rw [ho] at hi'; cases hi'
        obtain ⟨v', hv', hpl⟩ := hH.invs.all i p' (hsub _ h2)
        rw [hv] at hv'; cases hv'
        obtain ⟨k, hk⟩ := h3 j w (hpl ▸ hj)
        exact ⟨k, hsub _ hk⟩
      cases hpc' : v.pc with
      | adding j ws => rw [hpc'] at hph; rw [hph.1] at hl; cases hl
      | go => rw [hpc'] at hpc; exact hpc.2
      | ok => rw [hpc'] at hph; exact hwork hph.2
      | returned r => rw [hpc'] at hph; exact hwork hph.2
      | _ => rw [hpc'] at hact; cases hact
    · intro c' hc'
      rcases hH.list.all c' hc' with ⟨k, w, _, h⟩ | ⟨w, h⟩
      · exact ⟨k, w, h⟩
      · rw [hl] at h; cases h
  | aErr c a e ha hp hf =>
    exact ⟨one rfl trivial, hX.plain hc (hok rfl) rfl rfl (by simp [setAdd, emit]) (addsSet ha rfl rfl rfl) rfl rfl (invs0 rfl)⟩
  | aNil c a ha hp hf =>
    exact ⟨one rfl trivial, hX.plain hc (hok rfl) rfl rfl (by simp [setAdd, emit]) (addsSet ha rfl rfl rfl) rfl rfl (invs0 rfl)⟩
  | lDying hl hd => exact ⟨none' (wgDone_tomb _).2, hX.same hc (wgDone_tomb _).2 (wgDone_adds _).1 (by rw [(wgDone_rest _).2.1]) (by rw [(wgDone_rest _).1]) (invs0 (wgDone_rest _).1)⟩
  | lAdd c w hl =>
    have hh : (add { s with listener := .select } w (.add c)).hist = .tracked s.tracks.length w (.add c) :: s.hist := by
      simp only [add, wgAdd_tomb, wgAdd_rest]
    refine ⟨one hh ⟨hX.nT, nofun⟩, hX.track hc (hok hh) hh (by simp [add, wgAdd_adds]) (by simp [add, wgAdd_rest]) (by simp [add, wgAdd_rest]) (invs0 ?_)⟩
    simp [add, wgAdd_rest]
  | tErr k t e ht hp hf => exact ⟨none' rfl, hX.same hc rfl rfl (by simp [setTrack]) rfl (invs0 rfl)⟩
  | tNil k t ht hp hf => exact ⟨none' rfl, hX.same hc rfl rfl (by simp [setTrack]) rfl (invs0 rfl)⟩
  | tKill k t e ht hp hk =>
    exact ⟨one rfl (killable_of hH.tomb hk), hX.plain hc (hok rfl) rfl rfl rfl (adds0 rfl) (by simp [setTrack]) rfl (invs0 rfl)⟩
  | tClose k t ht hp => exact ⟨none' rfl, hX.same hc rfl rfl (by simp [setTrack]) rfl (invs0 rfl)⟩
  | tExit k t ht hp => exact ⟨none' (wgDone_tomb _).2, hX.same hc (wgDone_tomb _).2 (wgDone_adds _).1 (by rw [(wgDone_rest _).2.1]; simp [setTrack]) (by rw [(wgDone_rest _).1]; rfl) (invs0 (wgDone_rest _).1)⟩
  | kDying k t ht hp hd => exact ⟨one rfl trivial, hX.plain hc (hok rfl) rfl rfl rfl (adds0 rfl) (by simp [setTrack, emit]) rfl (invs0 rfl)⟩
  | kWaitRet k t ht hp hf => exact ⟨none' (wgDone_tomb _).2, hX.same hc (wgDone_tomb _).2 (wgDone_adds _).1 (by rw [(wgDone_rest _).2.1]; simp [setTrack]) (by rw [(wgDone_rest _).1]; rfl) (invs0 (wgDone_rest _).1)⟩
  | kClosed k t ht hp hc' => exact ⟨none' (wgDone_tomb _).2, hX.same hc (wgDone_tomb _).2 (wgDone_adds _).1 (by rw [(wgDone_rest _).2.1]; simp [setTrack]) (by rw [(wgDone_rest _).1]; rfl) (invs0 (wgDone_rest _).1)⟩
  | workKill e hw hk => exact ⟨one rfl (killable_of hH.tomb hk), hX.plain hc (hok rfl) rfl rfl rfl (adds0 rfl) rfl rfl (invs0 rfl)⟩
  | killPanics who e hw hk =>
    refine ⟨one rfl ?_, killed ⟨who, e, rfl⟩ rfl rfl rfl (by simp [crashed, hk])⟩
    cases who with
    | client => trivial
    | work => exact hH.work.noKill (by rw [show s.work = .kill e from hw]; rfl)
    | waiter k =>
      obtain ⟨t, x, h1, h2, -⟩ := hw
      exact (hH.tracks.ok k t h1).noKill (.inr ⟨x, h2⟩)
  | wgPass | wgSleep | wgWake | wgReused | goexited => exact ⟨none' rfl, hX.same hc rfl rfl rfl rfl (invs0 rfl)⟩
  | workRet | workExit | dead | killCall | callErrDying | waitCall | finish =>
    exact ⟨one rfl trivial, hX.plain hc (hok rfl) rfl rfl rfl (adds0 rfl) rfl rfl (invs0 rfl)⟩

/-- Every history of a catacomb obeys `Possible`. -/
theorem Reach.xinv {own : Nat} {s : State} (hr : Reach own s) : XInv s ∧ AtEvery (Possible own) s.hist := by
  induction hr with
  | init => exact ⟨⟨rfl, rfl, rfl, nofun, nofun, nofun, nofun⟩, trivial⟩
  | @step s s' op hr hs ih =>
    obtain ⟨hc, hT⟩ := step_T hs
    obtain ⟨h1, h2⟩ := hT.exact hr.shape hr.hinv hr.events ih.1 hc
    refine ⟨h2, ?_⟩
    rcases (hT.hist hr.shape hr.hinv hc).1 with h | ⟨e, h, hk⟩
    · rw [h]; exact ih.2
    · rw [h]; exact ⟨⟨hk, h1 e h, ih.1.pan hc⟩, ih.2⟩

/-! ## Every history that obeys `Possible` is one of a catacomb -/

theorem step_inv {own : Nat} {s : State} {op : Op} {i : Nat} {v : InvCall} (hc : s.crashed = false) (ho : op.inv? = some i)
    (hv : s.invs[i]? = some v) : step own s op = stepInv s i v op := by
  simp only [step, hc, Bool.false_eq_true, if_false, ho, hv, Option.bind_some]

theorem step_add {own : Nat} {s : State} {op : Op} {c : Nat} {a : AddCall} (hc : s.crashed = false) (h1 : op.inv? = none)
    (ho : op.add? = some c) (ha : s.adds[c]? = some a) : step own s op = stepAdd own s c a op := by
  simp only [step, hc, Bool.false_eq_true, if_false, h1, ho, ha, Option.bind_some]

theorem step_track {own : Nat} {s : State} {op : Op} {k : Nat} {t : Track} (hc : s.crashed = false) (h1 : op.inv? = none)
    (h2 : op.add? = none) (ho : op.track? = some k) (ht : s.tracks[k]? = some t) : step own s op = stepTrack own s k t op := by
  simp only [step, hc, Bool.false_eq_true, if_false, h1, h2, ho, ht, Option.bind_some]

theorem step_main {own : Nat} {s : State} {op : Op} (hc : s.crashed = false) (h1 : op.inv? = none)
    (h2 : op.add? = none) (h3 : op.track? = none) : step own s op = stepMain own s op := by
  simp only [step, hc, Bool.false_eq_true, if_false, h1, h2, h3]

/-- Only Invoke and Add calls have moved. -/
structure Same (s s' : State) : Prop where
  hist : s'.hist = s.hist
  listener : s'.listener = s.listener
  work : s'.work = s.work
  tracks : s'.tracks = s.tracks
  tomb : s'.tomb = s.tomb

theorem nocrash {own : Nat} {s s' : State} (hr : Reach own s') (ht : s'.tomb = s.tomb) (hc : s.crashed = false) : s'.crashed = false := by
  simp only [crashed, Bool.or_eq_false_iff] at *
  exact ⟨by rw [ht]; exact hc.1, hr.shape.noPanic⟩

/-- The nil workers are skipped. -/
theorem skip_nils {own : Nat} {i : Nat} {p : Plan} {e : InvErr} (ws : List (Option Nat)) {s : State} (hr : Reach own s)
    (hc : s.crashed = false) (hv : s.invs[i]? = some ⟨p, .failing e ws⟩) :
    ∃ s' ws', Reach own s' ∧ Same s s' ∧ s'.invs[i]? = some ⟨p, .failing e ws'⟩ ∧ (ws' = [] ∨ ∃ w ws'', ws' = some w :: ws'') := by
  induction ws generalizing s with
  | nil => exact ⟨s, [], hr, ⟨rfl, rfl, rfl, rfl, rfl⟩, hv, .inl rfl⟩
  | cons x ws ih => cases x with
    | some w => exact ⟨s, _, hr, ⟨rfl, rfl, rfl, rfl, rfl⟩, hv, .inr ⟨w, ws, rfl⟩⟩
    | none =>
      have hs : step own s (.iKill i) = some (s.setInv i ⟨p, .failing e ws⟩) := by rw [step_inv hc rfl hv]; rfl
      have hr1 := hr.step _ hs
      obtain ⟨s', ws', h1, h2, h3, h4⟩ := ih hr1 (nocrash hr1 rfl hc) (get_set_self hv)
      exact ⟨s', ws', h1, ⟨h2.hist, h2.listener, h2.work, h2.tracks, h2.tomb⟩, h3, h4⟩

/-- An Invoke call that cannot succeed gets to where it Kill()s the next worker, or returns. -/
theorem to_failing {own : Nat} {s : State} (hr : Reach own s) (hc : s.crashed = false) {i : Nat} {v : InvCall} (hv : s.invs[i]? = some v)
    (href : Refused s.hist i v.plan) (hcl : .claimed i ∉ s.hist) (hret : ∀ r, .invokeRet i r ∉ s.hist)
    (hfin : ∀ w, .killI i w ∈ s.hist → (finishedH s.hist w).isSome = true) :
    ∃ s' e ws, Reach own s' ∧ Same s s' ∧ s'.invs[i]? = some ⟨v.plan, .failing e ws⟩ ∧ (ws = [] ∨ ∃ w ws', ws = some w :: ws') := by
  have hpc := (hr.hinv.invs.ok i v hv).pc
  obtain ⟨p, pc⟩ := v
  have fin : ∀ {s1 : State} {e ws}, Reach own s1 → Same s s1 → s1.invs[i]? = some ⟨p, .failing e ws⟩ →
      ∃ s' e ws, Reach own s' ∧ Same s s' ∧ s'.invs[i]? = some ⟨p, .failing e ws⟩ ∧ (ws = [] ∨ ∃ w ws', ws = some w :: ws') := by
    intro s1 e ws hr1 hsm hv1
    obtain ⟨s', ws', h1, h2, h3, h4⟩ := skip_nils ws hr1 (nocrash hr1 hsm.tomb hc) hv1
    exact ⟨s', e, ws', h1, ⟨h2.hist.trans hsm.hist, h2.listener.trans hsm.listener, h2.work.trans hsm.work,
      h2.tracks.trans hsm.tracks, h2.tomb.trans hsm.tomb⟩, h3, h4⟩
  cases pc with
  | start =>
    cases he : p.validate with
    | some e =>
      have hs : step own s (.iBegin i) = some (s.setInv i ⟨p, .failing (.invalid e) p.init⟩) := by
        rw [step_inv hc rfl hv]; simp only [stepInv, he]
      exact fin (hr.step _ hs) ⟨rfl, rfl, rfl, rfl, rfl⟩ (get_set_self hv)
    | none =>
      obtain ⟨j, -, hj⟩ := href.resolve_left (fun h => h (validate_iff.1 he))
      have ho := (hr.hinv.invs.own j).2 hj
      have hs : step own s (.iBegin i) = some (s.setInv i ⟨p, .failing .used p.init⟩) := by
        rw [step_inv hc rfl hv]; simp only [stepInv, he, ho]
      exact fin (hr.step _ hs) ⟨rfl, rfl, rfl, rfl, rfl⟩ (get_set_self hv)
  | failing e ws => exact fin hr ⟨rfl, rfl, rfl, rfl, rfl⟩ hv
  | failWait e w ws =>
    have hf := hfin w hpc.2.2.2.2.1
    rw [← hr.hinv.fin] at hf
    have hs : step own s (.iWaitRet i) = some (s.setInv i ⟨p, .failing e ws⟩) := by
      rw [step_inv hc rfl hv]; simp only [stepInv, hf, if_true]
    exact fin (hr.step _ hs) ⟨rfl, rfl, rfl, rfl, rfl⟩ (get_set_self hv)
  | adding j ws => exact absurd hpc.1 hcl
  | go => exact absurd hpc.1 hcl
  | ok => exact absurd hpc hcl
  | returned r => exact absurd hpc (hret r)

/-- The Invoke call that got past the used check gets to where it starts the work goroutine. -/
theorem to_go {own : Nat} {s : State} (hr : Reach own s) (hc : s.crashed = false) (hd : InitDone s.hist) (hw : s.work = .none) :
    ∃ (s' : State) (i : Nat) (v : InvCall), Reach own s' ∧ s'.hist = s.hist ∧ s'.work = .none ∧ s'.tracks = s.tracks ∧ s'.tomb = s.tomb ∧ s'.adds = s.adds ∧
      s'.invs[i]? = some v ∧ v.pc = .go ∧ (s'.listener = s.listener ∨ s.listener = .none ∧ s'.listener = .select) := by
  obtain ⟨i, p, h1, h2, h3⟩ := hd
  have ho := (hr.hinv.invs.own i).2 h1
  obtain ⟨v, hv, hact, hph⟩ := hr.shape.own i ho
  obtain ⟨v', hv', hpl⟩ := hr.hinv.invs.all i p h2
  rw [hv] at hv'; cases hv'
  have hpc := (hr.hinv.invs.ok i v hv).pc
  cases hp : v.pc with
  | adding j ws =>
    rw [hp] at hpc hph
    have hws : ws = [] := by
      cases ws with
      | nil => rfl
      | cons x ws =>
        have hx := hr.shape.plans i v hv j _ hp x List.mem_cons_self
        obtain ⟨w, rfl⟩ := Option.ne_none_iff_exists'.1 hx
        have hj : v.plan.init[j]? = some (some w) := by
          have := hpc.2.1
          rw [← List.head?_drop, this]; rfl
        obtain ⟨k, hk⟩ := h3 j w (hpl ▸ hj)
        exact absurd hk (hpc.2.2.2 j k w (Nat.le_refl _))
    subst hws
    have hs : step own s (.iListen i) = some ({ wgAdd s 1 with listener := .select }.setInv i { v with pc := .go }) := by
      rw [step_inv hc rfl hv]; simp only [stepInv, hp]
    exact ⟨_, i, _, hr.step _ hs, by simp [setInv, wgAdd_tomb], by simp [setInv, wgAdd_rest, hw], by simp [setInv, wgAdd_rest],
      by simp [setInv, wgAdd_tomb], by simp [setInv, wgAdd_adds], by simp only [setInv, wgAdd_rest]; exact get_set_self hv, rfl, .inr ⟨hph.1, rfl⟩⟩
  | go => exact ⟨s, i, v, hr, rfl, hw, rfl, rfl, rfl, hv, hp, .inl rfl⟩
  | ok => rw [hp] at hph; exact absurd hw hph.2
  | returned r => rw [hp] at hph; exact absurd hw hph.2
  | _ => rw [hp] at hact; cases hact

theorem set_same {α : Type} {l : List α} {k : Nat} {x : α} (h : l[k]? = some x) : l.set k x = l := by
  refine List.ext_getElem? fun i => ?_
  by_cases hi : i = k
  · subst hi; rw [get_set_self h, h]
  · rw [get_set_ne hi]

theorem wgDone_work_awake {s : State} (h : s.work ≠ .asleep) : (wgDone s).work = s.work := by
  unfold wgDone
  split
  · simp [h]
  · rfl

/-- The state has moved on only in goroutine pair `k`, which is done. -/
structure TrackDone (s s' : State) (k w : Nat) : Prop where
  hist : s'.hist = s.hist
  listener : s'.listener = s.listener
  work : s'.work = s.work
  tracks : s'.tracks = s.tracks.set k ⟨w, .done, .done⟩
  tomb : s'.tomb = s.tomb
  fin : s'.fin = s.fin
  goexit : s'.goexit = s.goexit

theorem finish_track {own : Nat} {s : State} (hr : Reach own s) (hc : s.crashed = false) {k : Nat} {t : Track} (ht : s.tracks[k]? = some t)
    (hw : s.work ≠ .asleep) (h1 : t.waiter = .wait ∨ t.waiter = .close) (h2 : t.killer = .select ∨ t.killer = .stop) {r : Option Err}
    (hf : s.fin.get? t.w = some r) (hn : t.waiter = .wait → r = none) : ∃ s', Reach own s' ∧ TrackDone s s' k t.w := by
  obtain ⟨w, wt, kl⟩ := t
  simp only at h1 h2 hf hn
  -- the waiter is about to close workerDone
  obtain ⟨s1, hr1, hs1⟩ : ∃ s1, Reach own s1 ∧ s1 = s.setTrack k ⟨w, .close, kl⟩ := by
    rcases h1 with rfl | rfl
    · have hs : step own s (.tWaitRet k) = some (s.setTrack k ⟨w, .close, kl⟩) := by
        rw [step_track hc rfl rfl rfl ht]; simp only [stepTrack, hf, hn rfl]
      exact ⟨_, hr.step _ hs, rfl⟩
    · refine ⟨s, hr, ?_⟩
      simp only [setTrack, set_same ht]
  have ht1 : s1.tracks[k]? = some ⟨w, .close, kl⟩ := by rw [hs1]; exact get_set_self ht
  have hc1 : s1.crashed = false := nocrash hr1 (by rw [hs1]; rfl) hc
  have hs2 : step own s1 (.tClose k) = some (s1.setTrack k ⟨w, .exit, kl⟩) := by
    rw [step_track hc1 rfl rfl rfl ht1]; rfl
  have hr2 := hr1.step _ hs2
  have ht2 : (s1.setTrack k ⟨w, .exit, kl⟩).tracks[k]? = some ⟨w, .exit, kl⟩ := get_set_self ht1
  have hc2 := nocrash (s := s1) hr2 rfl hc1
  have hs3 : step own (s1.setTrack k ⟨w, .exit, kl⟩) (.tExit k) = some (wgDone ((s1.setTrack k ⟨w, .exit, kl⟩).setTrack k ⟨w, .done, kl⟩)) := by
    rw [step_track hc2 rfl rfl rfl ht2]; rfl
  have hr3 := hr2.step _ hs3
  generalize hs3' : wgDone ((s1.setTrack k ⟨w, .exit, kl⟩).setTrack k ⟨w, .done, kl⟩) = s3 at *
  have hw1 : s1.work = s.work := by rw [hs1]; rfl
  have f3 : s3.tomb = s.tomb ∧ s3.hist = s.hist ∧ s3.tracks = s.tracks.set k ⟨w, .done, kl⟩ ∧ s3.fin = s.fin ∧ s3.listener = s.listener ∧
      s3.goexit = s.goexit ∧ s3.work = s.work := by
    rw [← hs3', (wgDone_tomb _).1, (wgDone_tomb _).2, (wgDone_rest _).2.1, (wgDone_rest _).2.2.1, (wgDone_rest _).2.2.2.1,
      (wgDone_rest _).2.2.2.2, wgDone_work_awake (by show s1.work ≠ _; rw [hw1]; exact hw), hs1]
    exact ⟨rfl, rfl, by simp [setTrack], rfl, rfl, rfl, rfl⟩
  obtain ⟨a1, a2, a3, a4, a5, a6, a7⟩ := f3
  have hc3 := nocrash (s := s) hr3 a1 hc
  have ht3 : s3.tracks[k]? = some ⟨w, .done, kl⟩ := by rw [a3]; exact get_set_self ht
  have hs4 : ∃ op, step own s3 op = some (wgDone (s3.setTrack k ⟨w, .done, .done⟩)) := by
    rcases h2 with rfl | rfl
    · exact ⟨.kClosed k, by rw [step_track hc3 rfl rfl rfl ht3]; simp [stepTrack]⟩
    · exact ⟨.kWaitRet k, by rw [step_track hc3 rfl rfl rfl ht3]; simp only [stepTrack, a4, hf]; rfl⟩
  obtain ⟨op, hs4⟩ := hs4
  refine ⟨_, hr3.step _ hs4, ?_⟩
  refine ⟨by rw [(wgDone_tomb _).2]; exact a2, by rw [(wgDone_rest _).2.2.2.1]; exact a5,
    by rw [wgDone_work_awake (by show s3.work ≠ _; rw [a7]; exact hw)]; exact a7, ?_, by rw [(wgDone_tomb _).1]; exact a1,
    by rw [(wgDone_rest _).2.2.1]; exact a4, by rw [(wgDone_rest _).2.2.2.2]; exact a6⟩
  rw [(wgDone_rest _).2.1]
  simp [setTrack, a3]

/-- All the goroutines of tracked workers come to their end. -/
theorem finish_tracks {own : Nat} {s : State} (hr : Reach own s) (hc : s.crashed = false) (hw : s.work ≠ .asleep)
    (h : ∀ (k : Nat) t, s.tracks[k]? = some t → (t.waiter = .wait ∨ t.waiter = .close) ∧ (t.killer = .select ∨ t.killer = .stop) ∧
      ∃ r, s.fin.get? t.w = some r ∧ (t.waiter = .wait → r = none)) (n : Nat) :
    ∃ s' : State, Reach own s' ∧ s'.hist = s.hist ∧ s'.listener = s.listener ∧ s'.work = s.work ∧ s'.tomb = s.tomb ∧ s'.fin = s.fin ∧
      s'.goexit = s.goexit ∧ (∀ (k : Nat) t, k < n → s'.tracks[k]? = some t → tcount t = 0) ∧ ∀ k, n ≤ k → s'.tracks[k]? = s.tracks[k]? := by
  induction n with
  | zero => exact ⟨s, hr, rfl, rfl, rfl, rfl, rfl, rfl, fun _ _ h => absurd h (Nat.not_lt_zero _), fun _ _ => rfl⟩
  | succ n ih =>
    obtain ⟨s1, hr1, a1, a2, a3, a4, a5, a6, a7, a8⟩ := ih
    cases ht : s.tracks[n]? with
    | none =>
      refine ⟨s1, hr1, a1, a2, a3, a4, a5, a6, ?_, fun k hk => a8 k (by omega)⟩
      intro k t hk hkt
      by_cases hkn : k < n
      · exact a7 k t hkn hkt
      · have : k = n := by omega
        subst this
        rw [a8 k (Nat.le_refl _), ht] at hkt; cases hkt
    | some t =>
      obtain ⟨h1, h2, r, h3, h4⟩ := h n t ht
      have ht1 : s1.tracks[n]? = some t := by rw [a8 n (Nat.le_refl _), ht]
      obtain ⟨s2, hr2, d⟩ := finish_track hr1 (nocrash hr1 a4 hc) ht1 (by rw [a3]; exact hw) h1 h2 (by rw [a5]; exact h3) h4
      refine ⟨s2, hr2, d.hist.trans a1, d.listener.trans a2, d.work.trans a3, d.tomb.trans a4, d.fin.trans a5, d.goexit.trans a6, ?_, ?_⟩
      · intro k t' hk hkt
        rw [d.tracks] at hkt
        rcases get_set hkt with ⟨_, rfl⟩ | ⟨hne, hkt⟩
        · rfl
        · exact a7 k t' (by omega) hkt
      · intro k hk
        rw [d.tracks, get_set_ne (by omega)]
        exact a8 k (by omega)

theorem tsum_zero {α : Type} (f : α → Nat) {l : List α} (h : ∀ (k : Nat) x, l[k]? = some x → f x = 0) : (l.map f).sum = 0 := by
  by_contra hn
  obtain ⟨x, hx, h0⟩ := sum_ne_zero f hn
  obtain ⟨k, hk⟩ := List.mem_iff_getElem?.1 hx
  exact h0 (h k x hk)

/-- Nobody has done anything that is not seen and need not be done. -/
structure Lazy (s : State) : Prop where
  listener : s.listener ≠ .done
  work : s.work = .none ∨ s.work = .running ∨ (∃ e, s.work = .kill e) ∨ s.work = .wait
  track : ∀ (k : Nat) t, s.tracks[k]? = some t → (t.waiter = .wait ∨ t.waiter = .close) ∧ (t.killer = .select ∨ t.killer = .stop)

def Lz (s : State) : Prop := s.crashed = true ∨ s.tomb.dead = true ∨ Lazy s

theorem Lazy.congr {s s' : State} (h : Lazy s) (h1 : s'.listener = s.listener) (h2 : s'.work = s.work) (h3 : s'.tracks = s.tracks) : Lazy s' :=
  ⟨by rw [h1]; exact h.listener, by rw [h2]; exact h.work, by rw [h3]; exact h.track⟩

theorem Lazy.set {s s' : State} (h : Lazy s) {k : Nat} {t : Track} (h1 : s'.listener = s.listener) (h2 : s'.work = s.work)
    (h3 : s'.tracks = s.tracks.set k t) (h4 : (t.waiter = .wait ∨ t.waiter = .close) ∧ (t.killer = .select ∨ t.killer = .stop)) : Lazy s' := by
  refine ⟨by rw [h1]; exact h.listener, by rw [h2]; exact h.work, ?_⟩
  intro k' t' ht'
  rw [h3] at ht'
  rcases get_set ht' with ⟨_, rfl⟩ | ⟨_, ht'⟩
  · exact h4
  · exact h.track k' t' ht'

theorem Lazy.append {s s' : State} (h : Lazy s) {w : Nat} (h1 : s'.listener ≠ .done) (h2 : s'.work = s.work)
    (h3 : s'.tracks = s.tracks ++ [Track.mk w .wait .select]) : Lazy s' := by
  refine ⟨h1, by rw [h2]; exact h.work, ?_⟩
  intro k' t' ht'
  rw [h3] at ht'
  rcases get_append ht' with ht' | ⟨_, rfl⟩
  · exact h.track k' t' ht'
  · exact ⟨.inl rfl, .inl rfl⟩

theorem kill_fine {own : Nat} {s next : State} {e : Option Err} {who : Caller} {ev : Ev} (ht : TombH own s.tomb s.hist) (hc : s.crashed = false)
    (hk : Killable own e s.hist) :
    kill own s next e who ev = { next with tomb := s.tomb.kill (killArg own e), hist := ev :: next.hist } := by
  have hp : s.tomb.panicked = false := by simp only [crashed, Bool.or_eq_false_iff] at hc; exact hc.1
  have : (s.tomb.kill (killArg own e)).panicked = false := by
    rcases killArg_eq own e with ⟨h1, h2, _⟩ | ⟨h1, h2, h3, h4⟩
    · have hd := ht.dying.2 (hk.2 h1)
      rw [h2]
      unfold Tomb.kill
      simp only [reduceCtorEq, if_false, Option.some.injEq, if_true]
      rw [if_neg (by intro h; simp [Tomb.dying, h] at hd)]
      exact hp
    · rw [Tomb.kill_panicked _ ⟨fun h => hk.1 (h4.1 h), h3⟩]; exact hp
  simp only [kill, this, Bool.false_eq_true, if_false]

theorem kill_bad {own : Nat} {s next : State} {e : Option Err} {who : Caller} {ev : Ev} (ht : TombH own s.tomb s.hist)
    (hk : e = some .tombStillAlive ∨ (OwnDying own e ∧ ¬ Dying s.hist)) :
    kill own s next e who ev = { s with tomb := s.tomb.kill (killArg own e), hist := .killPanics who e :: s.hist } ∧
    (s.tomb.kill (killArg own e)).panicked = true := by
  have : (s.tomb.kill (killArg own e)).panicked = true := by
    rcases hk with rfl | ⟨h1, h2⟩
    · rw [show killArg own (some .tombStillAlive) = some .tombStillAlive by simp [killArg, Err.asDying]]
      simp [Tomb.kill]
    · rcases killArg_eq own e with ⟨_, h3, _⟩ | ⟨h3, _⟩
      · rw [h3]
        unfold Tomb.kill
        simp only [reduceCtorEq, if_false, Option.some.injEq, if_true]
        rw [if_pos]
        cases hr : s.tomb.reason with
        | none => rfl
        | some r => exact absurd (ht.dying.1 (by simp [Tomb.dying, hr])) h2
      · exact absurd h1 h3
  exact ⟨by simp only [kill, this, if_true], this⟩

theorem errFits_unique {p : Plan} {a b : InvErr} (ha : ErrFits p a) (hb : ErrFits p b) : a = b := by
  cases a with
  | used => cases b with
    | used => rfl
    | invalid x => exact absurd ha (Fault.not_valid hb)
  | invalid x => cases b with
    | used => exact absurd hb (Fault.not_valid ha)
    | invalid y =>
      have hx : Fault p x := ha
      have hy : Fault p y := hb
      congr 1
      cases x with
      | nilInit i => cases y with
        | nilInit j =>
          obtain ⟨-, -, -, h1, h2⟩ := hx
          obtain ⟨-, -, -, h3, h4⟩ := hy
          rcases Nat.lt_trichotomy i j with h | h | h
          · exact absurd h1 (h4 i h)
          · rw [h]
          · exact absurd h3 (h2 j h)
        | _ => simp_all [Fault]
      | _ => cases y <;> simp_all [Fault]

/-- An Add call is made once. -/
theorem once_split {own : Nat} {h post pre post' pre' : List Ev} {c w : Nat} (hE : AtEvery (EvOk own) h)
    (h1 : h = post ++ .callAdd c w :: pre) (h2 : h = post' ++ .callAdd c w :: pre') : pre = pre' := by
  subst h1
  rcases List.append_eq_append_iff.1 h2 with ⟨as, rfl, hh⟩ | ⟨bs, rfl, hh⟩
  · cases as with
    | nil => cases hh; rfl
    | cons x as =>
      simp only [List.cons_append, List.cons.injEq] at hh
      obtain ⟨rfl, rfl⟩ := hh
      exact absurd (show Ev.callAdd c w ∈ as ++ .callAdd c w :: pre' by simp) (hE.split w)
  · cases bs with
    | nil => cases hh; rfl
    | cons x bs =>
      simp only [List.cons_append, List.cons.injEq] at hh
      obtain ⟨rfl, rfl⟩ := hh
      have := (AtEvery.split (P := EvOk own) (post := post') (e := Ev.callAdd c w) (pre := bs ++ Ev.callAdd c w :: pre) (by simpa using hE)) w
      exact absurd (show Ev.callAdd c w ∈ bs ++ .callAdd c w :: pre by simp) this

theorem workRet_once {own : Nat} {h : List Ev} (hE : AtEvery (EvOk own) h) {r r' : WorkRes} (h1 : .workRet r ∈ h) (h2 : .workRet r' ∈ h) :
    r = r' := by
  induction h with
  | nil => cases h1
  | cons e h ih =>
    rcases List.mem_cons.1 h1 with h3 | h3
    · rcases List.mem_cons.1 h2 with h4 | h4
      · rw [← h3] at h4; cases h4; rfl
      · subst h3; exact absurd h4 (hE.1.2 r')
    · rcases List.mem_cons.1 h2 with h4 | h4
      · subst h4; exact absurd h3 (hE.1.2 r)
      · exact ih hE.2 h3 h4

/-- The work func has returned and Kill has not been called with the result: it is about to be. -/
theorem work_at_kill {own : Nat} {s : State} (hr : Reach own s) {r : WorkRes} {e : Option Err} (h1 : .workRet r ∈ s.hist) (h2 : WorkErr r e)
    (h3 : ∀ e', .workKill e' ∉ s.hist) : s.work = .kill e := by
  have hH := hr.hinv
  have hrg : r ≠ .goexit := by rcases h2 with rfl | ⟨v, rfl, _⟩ <;> nofun
  cases hp : s.work with
  | none => exact absurd h1 (hH.work.ret (.inl hp) r)
  | running => exact absurd h1 (hH.work.ret (.inr hp) r)
  | kill e' =>
    obtain ⟨r', h4, h5⟩ := hH.work.kill e' hp
    cases workRet_once hr.events h1 h4
    congr 1
    rcases h2 with rfl | ⟨v, rfl, rfl⟩
    · rcases h5 with h5 | ⟨v, h5, _⟩
      · cases h5; rfl
      · cases h5
    · rcases h5 with h5 | ⟨v', h5, rfl⟩
      · cases h5
      · cases h5; rfl
  | _ =>
    exfalso
    cases hg : s.goexit with
    | true => exact hrg (workRet_once hr.events h1 (hH.work.exit.1 hg))
    | false =>
      obtain ⟨e', h4⟩ := hH.work.killed (by rw [hp]; rfl) hg
      exact h3 e' h4

/-- Every history that obeys `Possible` is one of a catacomb. -/
theorem possible_reach {own : Nat} (h : List Ev) (hp : AtEvery (Possible own) h) : ∃ s, Reach own s ∧ s.hist = h ∧ Lz s := by
  induction h with
  | nil => exact ⟨Catacomb.init, .init, rfl, .inr (.inr ⟨nofun, .inl rfl, nofun⟩)⟩
  | cons e h ih =>
    obtain ⟨⟨hk, hx, hnp⟩, hp'⟩ := hp
    obtain ⟨s, hr, rfl, hL⟩ := ih hp'
    have hc : s.crashed = false := by
      cases hc : s.crashed with
      | false => rfl
      | true =>
        obtain ⟨who, x, h', he⟩ := hr.crash hc
        exact absurd (by rw [he]; exact List.mem_cons_self) (hnp who x)
    replace hL : s.tomb.dead = true ∨ Lazy s := hL.resolve_left (by rw [hc]; nofun)
    have hS := hr.shape
    have hH := hr.hinv
    have hX := hr.xinv.1
    have hE := hr.events
    have lazy' : .dead ∉ s.hist → Lazy s := fun hd => hL.resolve_left (fun h => hd (hH.tomb.dead.1 h))
    have keep : ∀ {s' : State}, s'.listener = s.listener → s'.work = s.work → s'.tracks = s.tracks → s'.tomb.dead = s.tomb.dead → Lz s' :=
      fun h1 h2 h3 h4 => .inr (hL.imp (fun h => h4.trans h) (fun h => h.congr h1 h2 h3))
    cases e with
    | callInvoke i p =>
      have hx : i = invokes s.hist := hx
      subst hx
      have hs : step own s (.callInvoke p) = some ({ s with invs := s.invs ++ [InvCall.mk p .start] }.emit (.callInvoke s.invs.length p)) := by
        rw [step_main hc rfl rfl rfl]; rfl
      exact ⟨_, hr.step _ hs, by rw [← hX.nI]; rfl, keep rfl rfl rfl rfl⟩
    | claimed i =>
      obtain ⟨⟨p, h1, h2⟩, h3⟩ := hk
      obtain ⟨v, hv, rfl⟩ := hH.invs.all i p h1
      have hpc := (hH.invs.ok i v hv).pc
      have ho : s.owner = none := by
        cases ho : s.owner with
        | none => rfl
        | some j => exact absurd ((hH.invs.own j).1 ho) (h3 j)
      have href : ¬ Refused s.hist i v.plan := by
        rintro (h | ⟨j, -, h⟩)
        · exact h h2
        · exact h3 j h
      have hst : v.pc = .start := by
        cases hp : v.pc with
        | start => rfl
        | adding j ws => rw [hp] at hpc; exact absurd hpc.1 (h3 i)
        | go => rw [hp] at hpc; exact absurd hpc.1 (h3 i)
        | ok => rw [hp] at hpc; exact absurd hpc (h3 i)
        | failing e ws => rw [hp] at hpc; exact absurd hpc.1 href
        | failWait e w ws => rw [hp] at hpc; exact absurd hpc.1 href
        | returned r =>
          rw [hp] at hpc
          obtain ⟨post, pre, he, hk'⟩ := AtEvery.mem hE (show .invokeRet i r ∈ s.hist from hpc)
          have hsub : ∀ x ∈ pre, x ∈ s.hist := fun x hx => by rw [he]; exact List.mem_append_right _ (List.mem_cons_of_mem _ hx)
          cases r with
          | none => exact absurd (hsub _ hk'.1) (h3 i)
          | some e =>
            obtain ⟨-, p', h4, h5, -⟩ := hk'
            obtain ⟨v', hv', h6⟩ := hH.invs.all i p' (hsub _ h4)
            rw [hv] at hv'; cases hv'
            exfalso
            apply href
            rw [h6]
            exact h5.imp id fun ⟨j, h7, h8⟩ => ⟨j, h7, hsub _ h8⟩
      have hs : step own s (.iBegin i) = some ({ s with owner := some i }.setInv i { v with pc := .adding 0 v.plan.init } |>.emit (.claimed i)) := by
        rw [step_inv hc rfl hv]; simp only [stepInv, hst, validate_iff.2 h2, ho]
      exact ⟨_, hr.step _ hs, rfl, keep rfl rfl rfl rfl⟩
    | invokeRet i r => cases r with
      | none =>
        obtain ⟨h1, h2, h3⟩ := hk
        obtain ⟨v, hv, hact, hph⟩ := hS.own i ((hH.invs.own i).2 h1)
        have hw : s.work ≠ .none := fun h => hH.work.call.1 h h2
        have hpc : v.pc = .ok := by
          cases hp : v.pc with
          | adding j ws => rw [hp] at hph; exact absurd hph.2 hw
          | go => rw [hp] at hph; exact absurd hph.2 hw
          | ok => rfl
          | returned r =>
            have := (hH.invs.ok i v hv).pc
            rw [hp] at this
            exact absurd this (h3 r)
          | _ => rw [hp] at hact; cases hact
        have hs : step own s (.iOk i) = some (s.setInv i { v with pc := .returned none } |>.emit (.invokeRet i none)) := by
          rw [step_inv hc rfl hv]; simp only [stepInv, hpc]
        exact ⟨_, hr.step _ hs, rfl, keep rfl rfl rfl rfl⟩
      | some e =>
        obtain ⟨h1, p, h2, h3, h4, h5, h6⟩ := hk
        obtain ⟨⟨p', h7, h8⟩, h9⟩ := hx
        obtain ⟨v, hv, rfl⟩ := hH.invs.all i p h2
        obtain ⟨v', hv', rfl⟩ := hH.invs.all i p' h7
        rw [hv] at hv'; cases hv'
        obtain ⟨s1, e', ws, hr1, hsm, hv1, hws⟩ := to_failing hr hc hv h3 h5 h1 h9
        have hx1 := hr1.xinv.1.inv i _ hv1
        obtain ⟨⟨done, h10, h11⟩, -⟩ := hx1
        rw [hsm.hist] at h11
        have hnil : ws = [] := by
          rcases hws with h | ⟨w, ws', rfl⟩
          · exact h
          · have hl := congrArg List.length h10
            simp only [filterMap_some_cons, List.length_append, List.length_cons, h8, h11] at hl
            omega
        subst hnil
        have hfit : ErrFits v.plan e' := (hr1.hinv.invs.ok i _ hv1).pc.2.1
        cases errFits_unique h4 hfit
        have hc1 := nocrash hr1 hsm.tomb hc
        have hs : step own s1 (.iFail i) = some (s1.setInv i ⟨v.plan, .returned (some e)⟩ |>.emit (.invokeRet i (some e))) := by
          rw [step_inv hc1 rfl hv1]; rfl
        exact ⟨_, hr1.step _ hs, congrArg _ hsm.hist, keep hsm.listener hsm.work hsm.tracks (congrArg _ hsm.tomb)⟩
    | killI i w =>
      obtain ⟨h1, p, h2, h3, h4, h5⟩ := hk
      obtain ⟨⟨p', h7, h8⟩, h9⟩ := hx
      obtain ⟨v, hv, rfl⟩ := hH.invs.all i p h2
      obtain ⟨v', hv', rfl⟩ := hH.invs.all i p' h7
      rw [hv] at hv'; cases hv'
      obtain ⟨s1, e', ws, hr1, hsm, hv1, hws⟩ := to_failing hr hc hv h4 h5 h1 h9
      have hx1 := hr1.xinv.1.inv i _ hv1
      obtain ⟨⟨done, h10, h11⟩, -⟩ := hx1
      rw [hsm.hist] at h11
      rw [h10, ← h11] at h8
      obtain ⟨ws', rfl⟩ : ∃ ws', ws = some w :: ws' := by
        rcases hws with rfl | ⟨u, ws', rfl⟩
        · simp at h8
        · simp [filterMap_some_cons] at h8; exact ⟨ws', by rw [h8]⟩
      have hc1 := nocrash hr1 hsm.tomb hc
      have hs : step own s1 (.iKill i) = some (s1.setInv i ⟨v.plan, .failWait e' w ws'⟩ |>.emit (.killI i w)) := by
        rw [step_inv hc1 rfl hv1]; rfl
      exact ⟨_, hr1.step _ hs, congrArg _ hsm.hist, keep hsm.listener hsm.work hsm.tracks (congrArg _ hsm.tomb)⟩
    | callAdd c w =>
      have hx : c = addCalls s.hist := hx
      subst hx
      have hs : step own s (.callAdd w) = some ({ s with adds := s.adds ++ [AddCall.mk w s.owner.isSome .select] }.emit (.callAdd s.adds.length w)) := by
        rw [step_main hc rfl rfl rfl]; rfl
      exact ⟨_, hr.step _ hs, by rw [← hX.nA]; rfl, keep rfl rfl rfl rfl⟩
    | killA c w =>
      obtain ⟨h1, h2, h3, h4⟩ := hk
      obtain ⟨a, ha, rfl⟩ := hH.adds.all c w h1
      have hA := hH.adds.ok c a ha
      have hpc : a.pc = .select := by
        cases hp : a.pc with
        | select => rfl
        | stop => exact absurd (hA.stop hp) h4
        | returned r => exact absurd (hA.done r hp) (h3 r)
      have hs : step own s (.aDying c) = some (s.setAdd c { a with pc := .stop } |>.emit (.killA c a.w)) := by
        rw [step_add hc rfl rfl ha]; simp only [stepAdd, hpc, dying, hH.tomb.dying.2 h2, if_true]
      exact ⟨_, hr.step _ hs, rfl, keep rfl rfl rfl rfl⟩
    | addRet c r => cases r with
      | none =>
        obtain ⟨⟨w, h1, h2⟩, h3, h4⟩ := hk
        obtain ⟨⟨post, pre, w', h5, i, h6⟩, h7, h8⟩ := hx
        have hz := lazy' h3
        obtain ⟨a, ha, rfl⟩ := hH.adds.all c w h1
        have hA := hH.adds.ok c a ha
        have hpc : a.pc = .select := by
          cases hp : a.pc with
          | select => rfl
          | stop => exact absurd (hA.stop hp) h2
          | returned r => exact absurd (hA.done r hp) (h4 r)
        have hch : a.chan = true := by
          cases hch : a.chan with
          | true => rfl
          | false =>
            obtain ⟨post', pre', h9, h10⟩ := hA.chan hch
            have : pre' = pre := by
              have hw' : w' = a.w := by
                obtain ⟨a', ha', rfl⟩ := hH.adds.all c w' (by rw [h5]; simp)
                rw [ha] at ha'; cases ha'; rfl
              subst hw'
              exact once_split hE h9 h5
            subst this
            exact absurd h6 (h10 i)
        -- the listen goroutine is at its select
        obtain ⟨s1, hr1, b1, b2, b3, b4, b5, b6⟩ : ∃ s1, Reach own s1 ∧ s1.hist = s.hist ∧ s1.work = s.work ∧ s1.tracks = s.tracks ∧
            s1.tomb = s.tomb ∧ s1.adds = s.adds ∧ s1.listener = .select := by
          cases hl : s.listener with
          | select => exact ⟨s, hr, rfl, rfl, rfl, rfl, rfl, hl⟩
          | done => exact absurd hl hz.listener
          | adding c' w' =>
            obtain ⟨h11, h12, h13⟩ := hH.list.cur c' w' hl
            obtain ⟨k, u, h14⟩ := h8 c' h12
            exact absurd h14 (h13 k u)
          | none =>
            have hw : s.work = .none := by
              obtain ⟨i', p', h11, _⟩ := h7
              obtain ⟨v, hv, hact, hph⟩ := hS.own i' ((hH.invs.own i').2 h11)
              cases hp : v.pc with
              | adding j ws => rw [hp] at hph; exact hph.2
              | go => rw [hp] at hph; exact hph.2
              | ok => rw [hp] at hph; exact absurd hl hph.1
              | returned r => rw [hp] at hph; exact absurd hl hph.1
              | _ => rw [hp] at hact; cases hact
            obtain ⟨s1, i', v, hr1, c1, c2, c3, c4, c5, c6, c7, c8⟩ := to_go hr hc h7 hw
            refine ⟨s1, hr1, c1, c2.trans hw.symm, c3, c4, c5, ?_⟩
            rcases c8 with c8 | ⟨_, c8⟩
            · obtain ⟨v', hv', hact, hph⟩ := hr1.shape.own i' (hr1.shape.act i' v c6 (by rw [c7]; rfl))
              rw [c6] at hv'; cases hv'
              rw [c7] at hph
              exact absurd (c8.trans hl) hph.1
            · exact c8
        have hc1 := nocrash hr1 b4 hc
        have hs : step own s1 (.aSend c) =
            some ({ s1 with listener := .adding c a.w }.setAdd c { a with pc := .returned none } |>.emit (.addRet c none)) := by
          rw [step_add hc1 rfl rfl (by rw [b5]; exact ha)]; simp only [stepAdd, hpc, hch, b6, true_and, if_true]
        refine ⟨_, hr1.step _ hs, congrArg _ b1, .inr (.inr ⟨nofun, ?_, ?_⟩)⟩
        · show s1.work = _ ∨ s1.work = _ ∨ (∃ e, s1.work = _) ∨ s1.work = _
          rw [b2]; exact hz.work
        · show ∀ (k : Nat) t, s1.tracks[k]? = some t → _
          rw [b3]; exact hz.track
      | some e =>
        obtain ⟨h1, w, h2, h3, h4⟩ := hk
        obtain ⟨a, ha, rfl⟩ := hH.adds.all c w h2
        have hA := hH.adds.ok c a ha
        have hpc : a.pc = .stop := by
          cases hp : a.pc with
          | select => exact absurd h3 (hA.sel hp)
          | stop => rfl
          | returned r => exact absurd (hA.done r hp) (h1 r)
        rcases h4 with ⟨x, h4, rfl⟩ | ⟨h4, rfl⟩
        · rw [← hH.fin] at h4
          have hs : step own s (.aWaitRet c) = some (s.setAdd c { a with pc := .returned (some (trace x)) } |>.emit (.addRet c (some (trace x)))) := by
            rw [step_add hc rfl rfl ha]; simp only [stepAdd, hpc, h4]
          exact ⟨_, hr.step _ hs, rfl, keep rfl rfl rfl rfl⟩
        · rw [← hH.fin] at h4
          have hd : s.dying = true := hS.stop c a ha hpc
          have hs : step own s (.aWaitRet c) = some (s.setAdd c { a with pc := .returned (some (.catDying own)) } |>.emit (.addRet c (some (.catDying own)))) := by
            rw [step_add hc rfl rfl ha]; simp only [stepAdd, hpc, h4, errDying, hd, if_true]
          exact ⟨_, hr.step _ hs, rfl, keep rfl rfl rfl rfl⟩
    | tracked k w src =>
      obtain ⟨h1, h2, h3, h4⟩ := hk
      obtain ⟨rfl, h5⟩ := hx
      have hz := lazy' h3
      cases src with
      | init i j =>
        obtain ⟨h6, h7, p, h8, h9⟩ := h4
        obtain ⟨v, hv, hact, hph⟩ := hS.own i ((hH.invs.own i).2 h6)
        obtain ⟨v', hv', rfl⟩ := hH.invs.all i p h8
        rw [hv] at hv'; cases hv'
        have hpc := (hH.invs.ok i v hv).pc
        have hw : s.work = .none := hH.work.call.2 h7
        obtain ⟨ws, hp⟩ : ∃ ws, v.pc = .adding j (some w :: ws) := by
          cases hp : v.pc with
          | adding j0 ws0 =>
            rw [hp] at hpc
            have hj : j0 = j := by
              rcases Nat.lt_trichotomy j0 j with h | h | h
              · obtain ⟨k', w', h10⟩ := h5 i j rfl j0 h
                exact absurd h10 (hpc.2.2.2 j0 k' w' (Nat.le_refl _))
              · exact h
              · obtain ⟨k', h10⟩ := hpc.2.2.1 j w h h9
                exact absurd h10 (h2 k' w)
            subst hj
            have := hpc.2.1
            cases ws0 with
            | nil =>
              rw [List.drop_eq_nil_iff] at this
              rw [List.getElem?_eq_none this] at h9; cases h9
            | cons x ws =>
              have hh : v.plan.init[j0]? = some x := by rw [← List.head?_drop, this]; rfl
              rw [hh] at h9; cases h9
              exact ⟨ws, rfl⟩
          | go =>
            rw [hp] at hpc
            obtain ⟨k', h10⟩ := hpc.2 j w h9
            exact absurd h10 (h2 k' w)
          | ok => rw [hp] at hph; exact absurd hw hph.2
          | returned r => rw [hp] at hph; exact absurd hw hph.2
          | _ => rw [hp] at hact; cases hact
        have hs : step own s (.iAdd i) = some ((add s w (.init i j)).setInv i { v with pc := .adding (j + 1) ws }) := by
          rw [step_inv hc rfl hv]; simp only [stepInv, hp]
        refine ⟨_, hr.step _ hs, ?_, .inr (.inr (hz.append (w := w) ?_ ?_ ?_))⟩
        · simp only [add, setInv, wgAdd_tomb, wgAdd_rest, hX.nT]
        · simp only [add, setInv, wgAdd_rest]; exact hz.listener
        · simp only [add, setInv, wgAdd_rest]
        · simp only [add, setInv, wgAdd_rest]
      | add c =>
        obtain ⟨h6, h7⟩ := h4
        have hl : s.listener = .adding c w := by
          rcases hH.list.all c h7 with ⟨k, w', _, h⟩ | ⟨w', h⟩
          · exact absurd h (h2 k w')
          · obtain ⟨a, ha, ha'⟩ := hH.adds.all c w' (hH.list.cur c w' h).1
            obtain ⟨b, hb, hb'⟩ := hH.adds.all c w h6
            rw [ha] at hb; cases hb
            rw [h, ← ha', hb']
        have hs : step own s .lAdd = some (add { s with listener := .select } w (.add c)) := by
          rw [step_main hc rfl rfl rfl]; simp only [stepMain, hl]
        refine ⟨_, hr.step _ hs, ?_, .inr (.inr (hz.append (w := w) ?_ ?_ ?_))⟩
        · simp only [add, wgAdd_tomb, wgAdd_rest, hX.nT]
        · simp only [add, wgAdd_rest]; nofun
        · simp only [add, wgAdd_rest]
        · simp only [add, wgAdd_rest]
    | killT k w =>
      obtain ⟨⟨src, h1⟩, h2, h3, h4⟩ := hk
      have hz := lazy' h4
      obtain ⟨t, ht, rfl⟩ := hH.tracks.all k w src h1
      have hpc : t.killer = .select := by
        rcases (hz.track k t ht).2 with h | h
        · exact h
        · exact absurd ((hH.tracks.ok k t ht).stop h) h3
      have hs : step own s (.kDying k) = some (s.setTrack k { t with killer := .stop } |>.emit (.killT k t.w)) := by
        rw [step_track hc rfl rfl rfl ht]; simp only [stepTrack, hpc, dying, hH.tomb.dying.2 h2, if_true]
      exact ⟨_, hr.step _ hs, rfl, .inr (.inr (hz.set rfl rfl rfl ⟨(hz.track k t ht).1, .inr rfl⟩))⟩
    | workerKill k x =>
      obtain ⟨⟨w, src, h1, h2⟩, h3, h4⟩ := hk
      have hz := lazy' h4
      obtain ⟨t, ht, rfl⟩ := hH.tracks.all k w src h1
      have hpc : t.waiter = .wait := by
        rcases (hz.track k t ht).1 with h | h
        · exact h
        · obtain ⟨r, h5, h6⟩ := (hH.tracks.ok k t ht).killed (by rw [h]; nofun) (by rw [h]; nofun)
          rw [h2] at h5; cases h5
          exact absurd (h6 x rfl) (h3 x)
      rw [← hH.fin] at h2
      have hs1 : step own s (.tWaitRet k) = some (s.setTrack k { t with waiter := .kill x }) := by
        rw [step_track hc rfl rfl rfl ht]; simp only [stepTrack, hpc, h2]
      have hr1 := hr.step _ hs1
      have hc1 := nocrash (s := s) hr1 rfl hc
      have ht1 : (s.setTrack k { t with waiter := .kill x }).tracks[k]? = some { t with waiter := .kill x } := get_set_self ht
      have hs2 : step own (s.setTrack k { t with waiter := .kill x }) (.tKill k) =
          some { (s.setTrack k { t with waiter := .kill x }).setTrack k { t with waiter := .close } with
            tomb := s.tomb.kill (killArg own (some x)), hist := .workerKill k x :: s.hist } := by
        rw [step_track hc1 rfl rfl rfl ht1]
        simp only [stepTrack]
        rw [kill_fine hr1.hinv.tomb hc1 (show Killable own (some x) s.hist from hx)]
        rfl
      refine ⟨_, hr1.step _ hs2, rfl, .inr (.inr (hz.set (k := k) (t := { t with waiter := .close }) rfl rfl ?_ ⟨.inr rfl, (hz.track k t ht).2⟩))⟩
      simp [setTrack]
    | workCall =>
      obtain ⟨h1, h2⟩ := hk
      have hw : s.work = .none := hH.work.call.2 h1
      have hd : .dead ∉ s.hist := fun hd => by
        have := (hS.dead.1 (hH.tomb.dead.2 hd)).1
        rw [hw] at this; cases this
      have hz := lazy' hd
      obtain ⟨s1, i, v, hr1, c1, c2, c3, c4, c5, c6, c7, c8⟩ := to_go hr hc h2 hw
      have hc1 := nocrash hr1 c4 hc
      have hs : step own s1 (.iGo i) = some ({ s1 with work := .running, tomb := s1.tomb.go }.setInv i { v with pc := .ok } |>.emit .workCall) := by
        rw [step_inv hc1 rfl c6]; simp only [stepInv, c7]
      refine ⟨_, hr1.step _ hs, congrArg _ c1, .inr (.inr ⟨?_, .inr (.inl rfl), ?_⟩)⟩
      · show s1.listener ≠ .done
        rcases c8 with c8 | ⟨_, c8⟩
        · rw [c8]; exact hz.listener
        · rw [c8]; nofun
      · show ∀ (k : Nat) t, s1.tracks[k]? = some t → _
        rw [c3]; exact hz.track
    | workRet r =>
      obtain ⟨h1, h2⟩ := hk
      have hpc : s.work = .running := by
        cases hp : s.work with
        | none => exact absurd h1 (hH.work.call.1 hp)
        | running => rfl
        | kill e =>
          obtain ⟨r', h3, _⟩ := hH.work.kill e hp
          exact absurd h3 (h2 r')
        | _ =>
          exfalso
          cases hg : s.goexit with
          | true => exact h2 _ (hH.work.exit.1 hg)
          | false =>
            obtain ⟨e, h3⟩ := hH.work.killed (by rw [hp]; rfl) hg
            obtain ⟨post, pre, he, ⟨r', h4, _⟩, _⟩ := AtEvery.mem hE h3
            exact h2 r' (by rw [he]; exact List.mem_append_right _ (List.mem_cons_of_mem _ h4))
      have hd : .dead ∉ s.hist := fun hd => by
        have := (hS.dead.1 (hH.tomb.dead.2 hd)).1
        rw [hpc] at this; cases this
      have hz := lazy' hd
      cases hsf : r.safely with
      | some e =>
        have hs : step own s (.workRet r) = some ({ s with work := .kill e }.emit (.workRet r)) := by
          rw [step_main hc rfl rfl rfl]; simp only [stepMain, hpc, hsf]
        exact ⟨_, hr.step _ hs, rfl, .inr (.inr ⟨hz.listener, .inr (.inr (.inl ⟨e, rfl⟩)), hz.track⟩)⟩
      | none =>
        have hs : step own s (.workRet r) = some ({ s with work := .wait, goexit := true }.emit (.workRet r)) := by
          rw [step_main hc rfl rfl rfl]; simp only [stepMain, hpc, hsf]
        exact ⟨_, hr.step _ hs, rfl, .inr (.inr ⟨hz.listener, .inr (.inr (.inr rfl)), hz.track⟩)⟩
    | workKill e =>
      obtain ⟨⟨r, h1, h2⟩, h3⟩ := hk
      have hpc := work_at_kill hr h1 h2 h3
      have hd : .dead ∉ s.hist := fun hd => by
        have := (hS.dead.1 (hH.tomb.dead.2 hd)).1
        rw [hpc] at this; cases this
      have hz := lazy' hd
      have hs : step own s .workKill = some { s with work := .wait, tomb := s.tomb.kill (killArg own e), hist := .workKill e :: s.hist } := by
        rw [step_main hc rfl rfl rfl]
        simp only [stepMain, hpc]
        rw [kill_fine hH.tomb hc (show Killable own e s.hist from hx)]
      exact ⟨_, hr.step _ hs, rfl, .inr (.inr ⟨hz.listener, .inr (.inr (.inr rfl)), hz.track⟩)⟩
    | kill e =>
      have hs : step own s (.killCall e) = some { s with tomb := s.tomb.kill (killArg own e), hist := .kill e :: s.hist } := by
        rw [step_main hc rfl rfl rfl]
        simp only [stepMain]
        rw [kill_fine hH.tomb hc (show Killable own e s.hist from hk)]
      exact ⟨_, hr.step _ hs, rfl, keep rfl rfl rfl (Tomb.kill_dead _ _)⟩
    | killPanics who e =>
      obtain ⟨h1, h2⟩ := hk
      cases who with
      | client =>
        obtain ⟨h3, h4⟩ := kill_bad (next := s) (who := .client) (ev := .kill e) hH.tomb h1
        have hs : step own s (.killCall e) = some { s with tomb := s.tomb.kill (killArg own e), hist := .killPanics .client e :: s.hist } := by
          rw [step_main hc rfl rfl rfl]; simp only [stepMain]; rw [h3]
        exact ⟨_, hr.step _ hs, rfl, .inl (by simp [crashed, h4])⟩
      | work =>
        obtain ⟨r, h5, h6⟩ := h2
        have hpc := work_at_kill hr h5 h6 hx
        obtain ⟨h3, h4⟩ := kill_bad (next := { s with work := .wait }) (who := .work) (ev := .workKill e) hH.tomb h1
        have hs : step own s .workKill = some { s with tomb := s.tomb.kill (killArg own e), hist := .killPanics .work e :: s.hist } := by
          rw [step_main hc rfl rfl rfl]; 
          rw [show stepMain own s .workKill = some (kill own s { s with work := .wait } e .work (.workKill e)) by simp only [stepMain, hpc], h3]
        exact ⟨_, hr.step _ hs, rfl, .inl (by simp [crashed, h4])⟩
      | waiter k =>
        obtain ⟨w, src, x, h5, rfl, h6⟩ := h2
        have hx : ∀ e, .workerKill k e ∉ s.hist := hx
        obtain ⟨t, ht, rfl⟩ := hH.tracks.all k w src h5
        have hd : .dead ∉ s.hist := fun hd => by
          have hn := hS.waited (by rw [(hS.dead.1 (hH.tomb.dead.2 hd)).1]; rfl)
          have hz : tcount t = 0 := Classical.byContradiction fun hx => hS.count_track ht hx hn
          have hdone : t.waiter = .done := Classical.byContradiction fun hx => by simp [tcount, hx] at hz
          obtain ⟨r, h7, h8⟩ := (hH.tracks.ok k t ht).killed (by rw [hdone]; nofun) (by rw [hdone]; nofun)
          rw [h6] at h7; cases h7
          exact hx x (h8 x rfl)
        have hz := lazy' hd
        have hpc : t.waiter = .wait := by
          rcases (hz.track k t ht).1 with h | h
          · exact h
          · obtain ⟨r, h7, h8⟩ := (hH.tracks.ok k t ht).killed (by rw [h]; nofun) (by rw [h]; nofun)
            rw [h6] at h7; cases h7
            exact absurd (h8 x rfl) (hx x)
        rw [← hH.fin] at h6
        have hs1 : step own s (.tWaitRet k) = some (s.setTrack k { t with waiter := .kill x }) := by
          rw [step_track hc rfl rfl rfl ht]; simp only [stepTrack, hpc, h6]
        have hr1 := hr.step _ hs1
        have hc1 := nocrash (s := s) hr1 rfl hc
        have ht1 : (s.setTrack k { t with waiter := .kill x }).tracks[k]? = some { t with waiter := .kill x } := get_set_self ht
        obtain ⟨h3, h4⟩ := kill_bad (s := s.setTrack k { t with waiter := .kill x })
          (next := (s.setTrack k { t with waiter := .kill x }).setTrack k { t with waiter := .close }) (who := .waiter k) (ev := .workerKill k x) hr1.hinv.tomb h1
        have hs2 : step own (s.setTrack k { t with waiter := .kill x }) (.tKill k) = some { s.setTrack k { t with waiter := .kill x } with
            tomb := s.tomb.kill (killArg own (some x)), hist := .killPanics (.waiter k) (some x) :: s.hist } := by
          rw [step_track hc1 rfl rfl rfl ht1]
          simp only [stepTrack]
          rw [h3]
          rfl
        exact ⟨_, hr1.step _ hs2, rfl, .inl (by simp only [crashed]; rw [show (s.tomb.kill (killArg own (some x))).panicked = true from h4]; rfl)⟩
    | errDying e =>
      have he : e = Catacomb.errDying own s := by
        unfold Catacomb.errDying
        rcases hk with ⟨h1, rfl⟩ | ⟨h1, rfl⟩
        · rw [if_pos (show s.dying = true from hH.tomb.dying.2 h1)]
        · rw [if_neg (show ¬ s.dying = true from fun h => h1 (hH.tomb.dying.1 h))]
      subst he
      exact ⟨s.emit (.errDying (Catacomb.errDying own s)), hr.step .callErrDying (by rw [step_main hc rfl rfl rfl]; rfl), rfl, keep rfl rfl rfl rfl⟩
    | dead =>
      obtain ⟨h1, ⟨e, h2⟩, h3, h4⟩ := hk
      have hz := lazy' h1
      have hg : s.goexit = false := by
        cases hg : s.goexit with
        | false => rfl
        | true => exact absurd h2 (hH.work.exitNoKill hg e)
      have hov : s.work.over = true := by
        cases ho : s.work.over with
        | true => rfl
        | false => exact absurd h2 (hH.work.noKill ho e)
      have hw : s.work = .wait := by
        rcases hz.work with h | h | ⟨e', h⟩ | h
        · rw [h] at hov; cases hov
        · rw [h] at hov; cases hov
        · rw [h] at hov; cases hov
        · exact h
      have hdy : s.dying = true := (hS.over hov).resolve_left (by rw [hg]; nofun)
      have hl : s.listener = .select := by
        cases hl : s.listener with
        | select => rfl
        | done => exact absurd hl hz.listener
        | adding c w =>
          obtain ⟨h5, h6, h7⟩ := hH.list.cur c w hl
          obtain ⟨k, w', _, h8⟩ := h3 c h6
          exact absurd h8 (h7 k w')
        | none =>
          exfalso
          cases ho : s.owner with
          | none => have := (hS.noOwn ho).2.1; rw [hw] at this; cases this
          | some i =>
            obtain ⟨v, hv, hact, hph⟩ := hS.own i ho
            cases hp : v.pc with
            | adding j ws => rw [hp] at hph; have := hph.2; rw [hw] at this; cases this
            | go => rw [hp] at hph; have := hph.2; rw [hw] at this; cases this
            | ok => rw [hp] at hph; exact hph.1 hl
            | returned r => rw [hp] at hph; exact hph.1 hl
            | _ => rw [hp] at hact; cases hact
      obtain ⟨s1, hr1, a1, a2, a3, a4, a5, a6, a7, a8⟩ := finish_tracks hr hc (by rw [hw]; nofun) (fun k t ht => by
        refine ⟨(hz.track k t ht).1, (hz.track k t ht).2, ?_⟩
        obtain ⟨src, h5⟩ := (hH.tracks.ok k t ht).tr
        obtain ⟨r, h6, h7⟩ := h4 k t.w src h5
        refine ⟨r, by rw [hH.fin]; exact h6, fun h8 => ?_⟩
        cases r with
        | none => rfl
        | some x => exact absurd (h7 x rfl) ((hH.tracks.ok k t ht).noKill (.inl h8) x)) s.tracks.length
      have hS1 := hr1.shape
      have hc1 := nocrash hr1 a4 hc
      have hsum : (s1.tracks.map tcount).sum = 0 := tsum_zero tcount fun k t ht => by
        by_cases hk : k < s.tracks.length
        · exact a7 k t hk ht
        · rw [a8 k (by omega), List.getElem?_eq_none (by omega)] at ht; cases ht
      have hs2 : step own s1 .lDying = some (wgDone { s1 with listener := .done }) := by
        rw [step_main hc1 rfl rfl rfl]
        simp only [stepMain, a2.trans hl]
        rw [if_pos (show s1.dying = true by rw [dying, a4]; exact hdy)]
      have hr2 := hr1.step _ hs2
      have hw1 : s1.work = .wait := a3.trans hw
      have hn1 : s1.wg.n = 1 := by rw [hS1.count, hsum, a2, hl]; rfl
      have he2 : wgDone { s1 with listener := .done } = { s1 with listener := .done, wg := ⟨0, s1.wg.waiters⟩ } := by
        have hw0 : s1.wg.waiters = 0 := by rw [hS1.waiters, hw1]; rfl
        rw [wgDone_eq (s := { s1 with listener := .done }) (by show s1.wg.n ≠ 0; omega) hS1.waiters]
        simp [hn1, hw0, hw1]
      rw [he2] at hr2
      have hs3 : step own { s1 with listener := .done, wg := ⟨0, s1.wg.waiters⟩ } .wgWait =
          some { s1 with listener := .done, wg := ⟨0, s1.wg.waiters⟩, work := .ret } := by
        rw [step_main (nocrash hr2 rfl hc1) rfl rfl rfl]
        simp only [stepMain, hw1, if_true]
      have hr3 := hr2.step _ hs3
      have hs4 : step own { s1 with listener := .done, wg := ⟨0, s1.wg.waiters⟩, work := .ret } .workEnd =
          some ({ s1 with listener := .done, wg := ⟨0, s1.wg.waiters⟩, work := .done, tomb := s1.tomb.finish none }.emit .dead) := by
        rw [step_main (nocrash hr3 rfl hc1) rfl rfl rfl]
        simp only [stepMain, a6.trans hg]; rfl
      have hr4 := hr3.step _ hs4
      exact ⟨_, hr4, congrArg _ a1, .inr (.inl (hr4.hinv.tomb.dead.2 List.mem_cons_self))⟩
    | waitRet r =>
      obtain ⟨h1, h2⟩ := hk
      have hd := hH.tomb.dead.2 h1
      have hw : s.tomb.wait = some r := by
        unfold Tomb.wait
        rw [if_pos hd]
        have := (hS.dead.1 hd)
        have hdy : s.dying = true := (hS.over (by rw [this.1]; rfl)).resolve_left (by rw [this.2]; nofun)
        cases hre : s.tomb.reason with
        | none => simp [dying, Tomb.dying, hre] at hdy
        | some q => rw [h2, hH.tomb.reason q hre]
      have hs : step own s .waitCall = some (s.emit (.waitRet r)) := by
        rw [step_main hc rfl rfl rfl]; simp only [stepMain, hw]
      exact ⟨_, hr.step _ hs, rfl, keep rfl rfl rfl rfl⟩
    | finished w r =>
      exact ⟨_, hr.step _ (step_finish hc (by rw [hH.fin]; exact hk) r), rfl, keep rfl rfl rfl rfl⟩

end Verif.Catacomb
