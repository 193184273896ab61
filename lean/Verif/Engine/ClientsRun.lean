import Verif.Engine.ClientsLive
import Verif.Engine.Pauses

/-!
# An infinite execution of an engine and its clients, seen from the engine

Some steps of an execution with clients are none of the engine: a call, the return of a call, a call that finds the engine dead. For the
engine they are pauses.
-/

namespace Verif.Engine
open State Verif.Spec Verif.Schedule

variable {cfg : Config}

/-- The kind of a step, as the engine sees it. -/
def COp.fkind : COp → Option FKind
  | .other op => op.kind
  | .work => some .work
  | _ => none

/-- Whether a step is one of the engine. -/
def COp.real : COp → Bool
  | .other _ | .work | .take _ _ | .refuse _ => true
  | _ => false

/-- What has happened to the engine in the first `k` steps. -/
def CRun.hist (r : CRun cfg) (k : Nat) : List Ev := (r.st k).f.s.hist

/-- No kind of step of the engine's goroutines, ends of delays aside, that is possible again and again is passed over for ever. For the
work of the loop this is part of `CRun.Fair`. -/
def CRun.EngineFair (r : CRun cfg) : Prop := ∀ x : Kind, x.isTimer = false → InfOften (fun k => FCanDo cfg (r.st k).f (.of x)) →
  InfOften (fun k => (r.op k).fkind = some (.of x))

/-- No delay goes on for ever. -/
def CRun.DelaysEnd (r : CRun cfg) : Prop := ∀ g, InfOften (fun k => FCanDo cfg (r.st k).f (.of (.timer g))) →
  InfOften (fun k => (r.op k).fkind = some (.of (.timer g)))

theorem cstep_real {s s' : Clients} {op : COp} (h : cstep cfg s op = some s') (hr : op.real = true) :
    ∃ o, fstep cfg s.f o = some s'.f ∧ o.kind = op.fkind := by
  cases op with
  | call q => cases hr
  | reply => cases hr
  | atEnd c => cases hr
  | other op =>
    simp only [cstep] at h
    split at h
    · cases h
    · obtain ⟨f', hf, rfl⟩ := Option.map_eq_some_iff.1 h
      exact ⟨op, hf, rfl⟩
  | work =>
    simp only [cstep] at h
    split at h
    · cases h
    · obtain ⟨f', hf, rfl⟩ := Option.map_eq_some_iff.1 h
      exact ⟨.work, hf, rfl⟩
  | take c order =>
    simp only [cstep] at h
    split at h
    · obtain ⟨f', hf, rfl⟩ := Option.map_eq_some_iff.1 h
      exact ⟨_, hf, rfl⟩
    · obtain ⟨f', hf, rfl⟩ := Option.map_eq_some_iff.1 h
      exact ⟨_, hf, rfl⟩
    · cases h
  | refuse c =>
    simp only [cstep] at h
    split at h
    · obtain ⟨f', hf, rfl⟩ := Option.map_eq_some_iff.1 h
      exact ⟨_, hf, rfl⟩
    · cases h

theorem cstep_unreal {s s' : Clients} {op : COp} (h : cstep cfg s op = some s') (hr : op.real = false) : s'.f = s.f := by
  cases op with
  | other _ | work | take _ _ | refuse _ => cases hr
  | call q => simp only [cstep, Option.some.injEq] at h; subst h; rfl
  | reply => obtain ⟨x, hx, rfl⟩ := Option.map_eq_some_iff.1 h; rfl
  | atEnd c =>
    simp only [cstep] at h
    split at h
    · obtain ⟨x, hx, rfl⟩ := Option.map_eq_some_iff.1 h; rfl
    · obtain ⟨x, hx, rfl⟩ := Option.map_eq_some_iff.1 h; rfl
    · cases h

theorem fkind_real {op : COp} {x : FKind} (h : op.fkind = some x) : op.real = true := by
  cases op <;> first | rfl | cases h

/-- The loop's work is not passed over for ever either. -/
theorem CRun.work_again {r : CRun cfg} (hf : r.Fair) (h : InfOften (fun k => FCanDo cfg (r.st k).f .work)) :
    InfOften (fun k => (r.op k).fkind = some .work) := by
  intro n
  refine Classical.byContradiction (fun hno => ?_)
  have hno : ∀ k, n ≤ k → r.op k ≠ .work := fun k hk he => hno ⟨k, hk, by show (r.op k).fkind = _; rw [he]; rfl⟩
  obtain ⟨k, hk, op, f', hop, hs⟩ := h n
  have ht : (r.st k).f.todo ≠ [] := by
    intro h0
    cases op with
    | work => simp [fstep, h0] at hs
    | env o => cases hk : o.kind <;> simp [FOp.kind, hk] at hop
    | _ => simp [FOp.kind] at hop
  have stay : ∀ j, k ≤ j → (r.st j).f.todo ≠ [] := by
    intro j hj
    induction hj with
    | refl => exact ht
    | @step m hm ih =>
      replace hm := Nat.le_trans hk hm
      cases hr : (r.op m).real with
      | false => rw [cstep_unreal (r.next m) hr]; exact ih
      | true =>
        obtain ⟨o, ho, hk'⟩ := cstep_real (r.next m) hr
        have hw : o ≠ .work := by
          rintro rfl
          have hne := hno m hm
          cases hop' : r.op m with
          | work => exact hne hop'
          | other op' =>
            rw [hop'] at hk'
            have hn := r.next m
            rw [hop'] at hn
            cases op' with
            | work => simp [cstep, FOp.ofCall] at hn
            | env o' => cases hk'' : o'.kind <;> simp [FOp.kind, COp.fkind, hk''] at hk'
            | _ => simp [FOp.kind, COp.fkind] at hk'
          | _ => rw [hop'] at hk'; cases hk'
        have := fstep_todo ho ih hw
        rw [this]; exact ih
  obtain ⟨j, hj, h0⟩ := CRun.idle_again hf k
  exact stay j hj h0

/-- The engine's part of an execution with clients. -/
theorem CRun.engine (r : CRun cfg) (hf : r.Fair) (he : r.EngineFair) : ∃ q : Pauses cfg, q.Fair ekind ∧ ∀ k, q.st k = (r.st k).f := by
  have ex : ∀ k, ∃ o : Option FOp, o.bind FOp.kind = (r.op k).fkind ∧
      ((∃ a, o = some a ∧ ftrans cfg (r.st k).f a (r.st (k + 1)).f) ∨ (o = none ∧ (r.st (k + 1)).f = (r.st k).f)) := fun k => by
    cases hr : (r.op k).real with
    | false =>
      refine ⟨none, ?_, .inr ⟨rfl, cstep_unreal (r.next k) hr⟩⟩
      cases hk : (r.op k).fkind with
      | none => rfl
      | some x => rw [fkind_real hk] at hr; cases hr
    | true =>
      obtain ⟨o, ho, hk⟩ := cstep_real (r.next k) hr
      exact ⟨some o, hk, .inl ⟨o, rfl, ho⟩⟩
  choose op hop using ex
  refine ⟨⟨fun k => (r.st k).f, op, by rw [r.start], fun k => (hop k).2⟩, fun x hx => ?_, fun _ => rfl⟩
  have ⟨hx1, hx2⟩ := ekind_can hx
  have := (show InfOften (fun k => (r.op k).fkind = some x) from match x, hx1, hx2 with
    | .work, _, h => CRun.work_again hf h
    | .of y, h1, h2 => he y h1 h2)
  refine this.mono (fun k hk => ?_)
  obtain ⟨h1, h2⟩ := hop k
  rw [hk] at h1
  show (op k).bind ekind = _
  cases ho : op k with
  | none => rw [ho] at h1; cases h1
  | some o => rw [ho] at h1; exact ekind_of h1 hx1

end Verif.Engine
