import Verif.Engine.ClientsInv
import Mathlib.Data.List.Dedup

/-!
# Calls on an engine: each call is answered
-/

namespace Verif.Engine
open State Verif.Spec

variable {cfg : Config}

/-! ## What is possible -/

/-- The steps that are needed for the calls to be answered. -/
inductive CKind
  | work
  | take (c : Nat)
  | reply
  | refuse (c : Nat)
  | atEnd (c : Nat)
deriving DecidableEq

/-- The kind of a step. -/
def COp.kind : COp → Option CKind
  | .call _ | .other _ => none
  | .work => some .work
  | .take c _ => some (.take c)
  | .reply => some .reply
  | .refuse c => some (.refuse c)
  | .atEnd c => some (.atEnd c)

/-- A step of the kind can be taken. -/
def CCanDo (cfg : Config) (s : Clients) (x : CKind) : Prop := ∃ op s', op.kind = some x ∧ cstep cfg s op = some s'

/-- While the loop is at work it can go on, or hand its result over. -/
theorem busy_can {s : Clients} (ht : s.f.todo ≠ []) :
    (s.handing = none ∧ CCanDo cfg s .work) ∨ (s.handing.isSome = true ∧ CCanDo cfg s .reply) := by
  cases hh : s.handing with
  | some x => exact .inr ⟨rfl, .reply, { s with serving := none }.answer x.1 x.2, rfl, by simp only [cstep, hh, Option.map_some]⟩
  | none =>
    cases hd : s.f.todo with
    | nil => exact absurd hd ht
    | cons t ts =>
      refine .inl ⟨rfl, .work, { s.move ⟨(exec cfg s.f.s t).1, (exec cfg s.f.s t).2 ++ ts⟩ with serving := s.noted }, rfl, ?_⟩
      simp only [cstep, hh, Option.isSome_none, Bool.false_eq_true, if_false, fstep, hd, Option.map_some]

/-- When the loop is at its select, it can receive any ticket. -/
theorem idle_can {s : Clients} (ht : s.f.todo = []) (hd : s.f.s.tomb.dead = false) {c : Nat} {q : Req}
    (hc : s.calls[c]? = some ⟨q, .asking⟩) (hq : q ≠ .wait) : CCanDo cfg s (.take c) := by
  cases q with
  | wait => exact absurd rfl hq
  | report =>
    refine ⟨.take c [], { (s.move ⟨s.f.s, [.report, .check]⟩).setPc c .served with serving := some (c, none) }, rfl, ?_⟩
    simp only [cstep, hc, fstep, ht, hd, List.isEmpty_nil, and_self, if_true, Option.map_some]
  | install n m =>
    have ho : isRangeOrder (s.f.s.manifolds.set n m) (s.f.s.manifolds.set n m).keys.dedup = true := by
      rw [isRangeOrder_iff]
      exact ⟨List.nodup_dedup _, fun k => List.mem_dedup⟩
    have : (cstep cfg s (.take c (s.f.s.manifolds.set n m).keys.dedup)).isSome = true := by
      simp only [cstep, hc, fstep, ht, hd, List.isEmpty_nil, ho, and_self, if_true, Option.map_some]
      rfl
    obtain ⟨s', hs'⟩ := Option.isSome_iff_exists.1 this
    exact ⟨.take c (s.f.s.manifolds.set n m).keys.dedup, s', rfl, hs'⟩

/-- When the engine is dead, nothing but the call itself is needed. -/
theorem dead_can {s : Clients} (i : CInv cfg s) (hd : s.f.s.tomb.dead = true) {c : Nat} {q : Req}
    (hc : s.calls[c]? = some ⟨q, .asking⟩) : CCanDo cfg s (.refuse c) ∨ CCanDo cfg s (.atEnd c) := by
  obtain ⟨D, hx⟩ := freach_ex i.reach
  obtain ⟨core, hi⟩ := ex_hinv hx
  have hw : ∃ e, waitResult cfg s.f.s = some e := by
    rw [Props.ex_wait_result hx, if_pos (hi.dead.1 hd)]
    exact ⟨_, rfl⟩
  obtain ⟨e, hw⟩ := hw
  cases q with
  | install n m =>
    refine .inl ⟨.refuse c, (s.move ⟨s.f.s.log (.installFailed n .shuttingDown), s.f.todo⟩).answer c (.err .shuttingDown), rfl, ?_⟩
    simp only [cstep, hc, fstep, Op.isEnv, if_true, Engine.step, (core.dead hd).1, Option.map_some]
  | report =>
    refine .inr ⟨.atEnd c, s.answer c (.stopped e (reportLines s.f.s)), rfl, ?_⟩
    simp only [cstep, hc, deadReport, hw, Option.map_some]
  | wait =>
    refine .inr ⟨.atEnd c, s.answer c (.waited e), rfl, ?_⟩
    simp only [cstep, hc, hw, Option.map_some]

/-! ## What a step does to a call -/

def CPc.rank : CPc → Nat
  | .asking => 0
  | .served => 1
  | .returned => 2

theorem modify_rank {l : List Call} {c d : Nat} {q : Req} {p p' : CPc} (h : l[d]? = some ⟨q, p⟩)
    (hr : ∀ q' p0, l[c]? = some ⟨q', p0⟩ → p0.rank ≤ p'.rank) :
    ∃ p1, (l.modify c (fun x => { x with pc := p' }))[d]? = some ⟨q, p1⟩ ∧ p.rank ≤ p1.rank := by
  by_cases hd : d = c
  · subst hd
    exact ⟨p', modify_getElem?.2 (.inr ⟨rfl, _, h, rfl⟩), hr _ _ h⟩
  · exact ⟨p, modify_getElem?.2 (.inl ⟨hd, h⟩), Nat.le_refl _⟩

theorem rank_returned (p : CPc) : p.rank ≤ CPc.returned.rank := by cases p <;> decide

/-- A call never goes back. -/
theorem cstep_calls {s s' : Clients} {op : COp} (h : cstep cfg s op = some s') {d : Nat} {q : Req} {p : CPc}
    (hd : s.calls[d]? = some ⟨q, p⟩) : ∃ p', s'.calls[d]? = some ⟨q, p'⟩ ∧ p.rank ≤ p'.rank := by
  cases op with
  | call q' =>
    simp only [cstep, Option.some.injEq] at h; subst h
    refine ⟨p, ?_, Nat.le_refl _⟩
    obtain ⟨hlt, _⟩ := List.getElem?_eq_some_iff.1 hd
    show (s.calls ++ _)[d]? = _
    rw [List.getElem?_append_left hlt, hd]
  | other op =>
    simp only [cstep] at h
    split at h
    · cases h
    · obtain ⟨f', hf, rfl⟩ := Option.map_eq_some_iff.1 h
      exact ⟨p, hd, Nat.le_refl _⟩
  | work =>
    simp only [cstep] at h
    split at h
    · cases h
    · obtain ⟨f', hf, rfl⟩ := Option.map_eq_some_iff.1 h
      exact ⟨p, hd, Nat.le_refl _⟩
  | take c order =>
    simp only [cstep] at h
    split at h
    · rename_i hc
      obtain ⟨f', hf, rfl⟩ := Option.map_eq_some_iff.1 h
      exact modify_rank hd (fun _ _ h => by change s.calls[c]? = _ at h; rw [hc] at h; cases h; decide)
    · rename_i hc
      obtain ⟨f', hf, rfl⟩ := Option.map_eq_some_iff.1 h
      exact modify_rank hd (fun _ _ h => by change s.calls[c]? = _ at h; rw [hc] at h; cases h; decide)
    · cases h
  | reply =>
    obtain ⟨⟨c, r⟩, hx, rfl⟩ := Option.map_eq_some_iff.1 h
    exact modify_rank hd (fun _ _ _ => rank_returned _)
  | refuse c =>
    simp only [cstep] at h
    split at h
    · obtain ⟨f', hf, rfl⟩ := Option.map_eq_some_iff.1 h
      exact modify_rank hd (fun _ _ _ => rank_returned _)
    · cases h
  | atEnd c =>
    simp only [cstep] at h
    split at h
    · obtain ⟨x, hx, rfl⟩ := Option.map_eq_some_iff.1 h
      exact modify_rank hd (fun _ _ _ => rank_returned _)
    · obtain ⟨e, he, rfl⟩ := Option.map_eq_some_iff.1 h
      exact modify_rank hd (fun _ _ _ => rank_returned _)
    · cases h

/-- While the loop is at work, only its work changes what it has to do, and the result it has to hand over is only ever handed
over. -/
theorem cstep_todo {s s' : Clients} {op : COp} (h : cstep cfg s op = some s') (hne : s.f.todo ≠ []) (hw : op ≠ .work) :
    s'.f.todo = s.f.todo ∧ (s'.serving = s.serving ∨ s'.serving = none) ∧ (op = .reply → s'.serving = none) := by
  cases op with
  | call q' => simp only [cstep, Option.some.injEq] at h; subst h; exact ⟨rfl, .inl rfl, nofun⟩
  | other op =>
    simp only [cstep] at h
    split at h
    · cases h
    · rename_i ho
      obtain ⟨f', hf, rfl⟩ := Option.map_eq_some_iff.1 h
      exact ⟨fstep_todo hf hne (fun e => by subst e; exact ho rfl), .inl rfl, nofun⟩
  | work => exact absurd rfl hw
  | take c order =>
    simp only [cstep] at h
    split at h
    · obtain ⟨f', hf, rfl⟩ := Option.map_eq_some_iff.1 h
      simp only [fstep] at hf
      split at hf
      · rename_i hc; exact absurd (List.isEmpty_iff.1 hc.1) hne
      · cases hf
    · obtain ⟨f', hf, rfl⟩ := Option.map_eq_some_iff.1 h
      simp only [fstep] at hf
      split at hf
      · rename_i hc; exact absurd (List.isEmpty_iff.1 hc.1) hne
      · cases hf
    · cases h
  | reply =>
    obtain ⟨⟨c, r⟩, hx, rfl⟩ := Option.map_eq_some_iff.1 h
    exact ⟨rfl, .inr rfl, fun _ => rfl⟩
  | refuse c =>
    simp only [cstep] at h
    split at h
    · obtain ⟨f', hf, rfl⟩ := Option.map_eq_some_iff.1 h
      exact ⟨fstep_todo (cfg := cfg) hf hne nofun, .inl rfl, nofun⟩
    · cases h
  | atEnd c =>
    simp only [cstep] at h
    split at h
    · obtain ⟨x, hx, rfl⟩ := Option.map_eq_some_iff.1 h
      exact ⟨rfl, .inl rfl, nofun⟩
    · obtain ⟨e, he, rfl⟩ := Option.map_eq_some_iff.1 h
      exact ⟨rfl, .inl rfl, nofun⟩
    · cases h

theorem handing_none {s s' : Clients} (ht : s'.f.todo = s.f.todo) (hs : s'.serving = s.serving ∨ s'.serving = none)
    (h : s.handing = none) : s'.handing = none := by
  rcases hs with hs | hs
  · unfold Clients.handing at h ⊢; rw [hs, ht]; exact h
  · unfold Clients.handing; rw [hs]

/-! ## Infinite executions -/

/-- An infinite execution of an engine and its clients. -/
structure CRun (cfg : Config) where
  st : Nat → Clients
  op : Nat → COp
  start : st 0 = {}
  next : ∀ k, cstep cfg (st k) (op k) = some (st (k + 1))

theorem CRun.reach (r : CRun cfg) : ∀ k, CReach cfg (r.st k)
  | 0 => by rw [r.start]; exact .init
  | k + 1 => (r.reach k).step (r.op k) (r.next k)

/-- No step that is needed to answer the calls and is possible again and again is passed over for ever. -/
def CRun.Fair (r : CRun cfg) : Prop := ∀ x, InfOften (fun k => CCanDo cfg (r.st k) x) → InfOften (fun k => (r.op k).kind = some x)

/-- The loop gets back to its select again and again. -/
theorem CRun.idle_again {r : CRun cfg} (hf : r.Fair) : InfOften (fun k => (r.st k).f.todo = []) := by
  have wf : WellFounded (Prod.Lex (· < ·) (Prod.Lex (· < ·) (· < ·)) : Nat × Nat × Nat → Nat × Nat × Nat → Prop) :=
    (Prod.lex Nat.lt_wfRel (Prod.lex Nat.lt_wfRel Nat.lt_wfRel)).wf
  have main : ∀ (x : Nat × Nat × Nat) k, ((r.st k).f.todo.countP Task.isReact, (r.st k).f.todo.countP Task.isBounceAll,
      (r.st k).f.todo.length) = x → ∃ j, k ≤ j ∧ (r.st j).f.todo = [] := by
    intro x
    induction x using wf.induction with
    | h x ih =>
      intro k hx
      by_cases h0 : (r.st k).f.todo = []
      · exact ⟨k, Nat.le_refl _, h0⟩
      by_cases hw : ∃ j, k ≤ j ∧ r.op j = .work
      · obtain ⟨j, ⟨hj, hop⟩, hmin⟩ : ∃ j, (k ≤ j ∧ r.op j = .work) ∧ ∀ i, k ≤ i → i < j → r.op i ≠ .work := by
          obtain ⟨j, hj⟩ := hw
          induction j using Nat.strongRecOn with
          | ind j ih =>
            by_cases hlt : ∃ i, i < j ∧ k ≤ i ∧ r.op i = .work
            · obtain ⟨i, hi, h⟩ := hlt
              exact ih i hi h
            · exact ⟨j, hj, fun i hi hij he => hlt ⟨i, hij, hi, he⟩⟩
        have hsame : ∀ i, k ≤ i → i ≤ j → (r.st i).f.todo = (r.st k).f.todo := by
          intro i hi
          induction hi with
          | refl => intro; rfl
          | @step i hi ih' =>
            intro hle
            have e := ih' (by omega)
            rw [(cstep_todo (r.next i) (by rw [e]; exact h0) (hmin i hi (by omega))).1, e]
        have hn := r.next j
        rw [hop] at hn
        have e := hsame j hj (Nat.le_refl _)
        simp only [cstep] at hn
        split at hn
        · cases hn
        obtain ⟨f', hn, h2⟩ := Option.map_eq_some_iff.1 hn
        have hf' : (r.st (j + 1)).f = f' := by rw [← h2]; rfl
        simp only [fstep] at hn
        split at hn
        · cases hn
        · rename_i t ts ht
          simp only [Option.some.injEq] at hn
          obtain ⟨i, hi, h⟩ := ih _ (by
            rw [← hx, ← e, ht]
            exact exec_less cfg (r.st j).f.s t ts) (j + 1) (by rw [hf', ← hn])
          exact ⟨i, by omega, h⟩
      · exfalso
        have hsame : ∀ i, k ≤ i → (r.st i).f.todo = (r.st k).f.todo := by
          intro i hi
          induction hi with
          | refl => rfl
          | @step i hi ih' =>
            rw [(cstep_todo (r.next i) (by rw [ih']; exact h0) (fun h => hw ⟨i, hi, h⟩)).1, ih']
        have hne : ∀ i, k ≤ i → (r.st i).f.todo ≠ [] := fun i hi => by rw [hsame i hi]; exact h0
        have stay : ∀ i, k ≤ i → (r.st i).handing = none → ∀ j, i ≤ j → (r.st j).handing = none := by
          intro i hi hn j hj
          induction hj with
          | refl => exact hn
          | @step j hj ih' =>
            have hj' : k ≤ j := Nat.le_trans hi hj
            obtain ⟨h1, h2, _⟩ := cstep_todo (r.next j) (hne j hj') (fun h => hw ⟨j, hj', h⟩)
            exact handing_none h1 h2 ih'
        obtain ⟨i, hi, hn⟩ : ∃ i, k ≤ i ∧ (r.st i).handing = none := by
          by_cases hall : ∃ i, k ≤ i ∧ (r.st i).handing = none
          · exact hall
          have hsome : ∀ i, k ≤ i → CCanDo cfg (r.st i) .reply := fun i hi =>
            ((busy_can (cfg := cfg) (hne i hi)).resolve_left (fun h => hall ⟨i, hi, h.1⟩)).2
          obtain ⟨i, hi, h⟩ := hf .reply (infOften_of_from k hsome) k
          have hop : r.op i = .reply := by
            cases ho : r.op i <;> rw [ho] at h <;> simp [COp.kind] at h ⊢
          refine ⟨i + 1, by omega, ?_⟩
          have := (cstep_todo (r.next i) (hne i hi) (fun h => hw ⟨i, hi, h⟩)).2.2 hop
          unfold Clients.handing
          rw [this]
        obtain ⟨j, hj, h⟩ := hf .work (infOften_of_from i (fun j hj => by
          rcases busy_can (cfg := cfg) (hne j (Nat.le_trans hi hj)) with h | h
          · exact h.2
          · rw [stay i hi hn j hj] at h; cases h.1)) i
        refine hw ⟨j, Nat.le_trans hi hj, ?_⟩
        cases ho : r.op j <;> rw [ho] at h <;> simp [COp.kind] at h ⊢
  intro n
  obtain ⟨j, hj, h⟩ := main _ n rfl
  exact ⟨j, hj, h⟩

theorem CRun.calls (r : CRun cfg) {k j : Nat} (h : k ≤ j) {c : Nat} {q : Req} {p : CPc} (hc : (r.st k).calls[c]? = some ⟨q, p⟩) :
    ∃ p', (r.st j).calls[c]? = some ⟨q, p'⟩ ∧ p.rank ≤ p'.rank := by
  induction h with
  | refl => exact ⟨p, hc, Nat.le_refl _⟩
  | @step m _ ih =>
    obtain ⟨p1, h1, h2⟩ := ih
    obtain ⟨p2, h3, h4⟩ := cstep_calls (r.next m) h1
    exact ⟨p2, h3, Nat.le_trans h2 h4⟩

/-- The engine's history only grows. -/
theorem cstep_hist {s s' : Clients} {op : COp} (i : CInv cfg s) (h : cstep cfg s op = some s') : Grows s.f.s s'.f.s := by
  have c := (freach_hinv i.reach).1
  cases op with
  | call q' => simp only [cstep, Option.some.injEq] at h; subst h; exact .refl _
  | other op =>
    simp only [cstep] at h
    split at h
    · cases h
    · obtain ⟨f', hf, rfl⟩ := Option.map_eq_some_iff.1 h
      exact fstep_grows c hf
  | work =>
    simp only [cstep] at h
    split at h
    · cases h
    · obtain ⟨f', hf, rfl⟩ := Option.map_eq_some_iff.1 h
      exact fstep_grows c hf
  | take c' order =>
    simp only [cstep] at h
    split at h
    · obtain ⟨f', hf, rfl⟩ := Option.map_eq_some_iff.1 h
      exact fstep_grows c hf
    · obtain ⟨f', hf, rfl⟩ := Option.map_eq_some_iff.1 h
      exact fstep_grows c hf
    · cases h
  | reply =>
    obtain ⟨⟨c, r⟩, hx, rfl⟩ := Option.map_eq_some_iff.1 h
    exact .refl _
  | refuse c' =>
    simp only [cstep] at h
    split at h
    · obtain ⟨f', hf, rfl⟩ := Option.map_eq_some_iff.1 h
      exact fstep_grows c hf
    · cases h
  | atEnd c' =>
    simp only [cstep] at h
    split at h
    · obtain ⟨x, hx, rfl⟩ := Option.map_eq_some_iff.1 h
      exact .refl _
    · obtain ⟨e, he, rfl⟩ := Option.map_eq_some_iff.1 h
      exact .refl _
    · cases h

theorem CRun.hist_mono (r : CRun cfg) {k j : Nat} (h : k ≤ j) {e : Ev} (he : e ∈ (r.st k).f.s.hist) : e ∈ (r.st j).f.s.hist := by
  induction h with
  | refl => exact he
  | @step m _ ih => exact (cstep_hist (creach_inv (r.reach m)) (r.next m)).mem ih

/-- A call that is taken, refused or answered at the end has gone on. -/
theorem taken_rank {s s' : Clients} {op : COp} {c : Nat} (h : cstep cfg s op = some s')
    (hk : op.kind = some (.take c) ∨ op.kind = some (.refuse c) ∨ op.kind = some (.atEnd c)) :
    (∃ q, s.calls[c]? = some ⟨q, .asking⟩) ∧ ∃ q p, s'.calls[c]? = some ⟨q, p⟩ ∧ 0 < p.rank ∧
      (op.kind ≠ some (.take c) → p = .returned) := by
  cases op with
  | take c' order =>
    have hcc : c' = c := by rcases hk with h | h | h <;> simpa [COp.kind] using h
    subst hcc
    simp only [cstep] at h
    split at h
    · rename_i hc
      obtain ⟨f', hf, rfl⟩ := Option.map_eq_some_iff.1 h
      exact ⟨⟨_, hc⟩, _, .served, modify_getElem?.2 (.inr ⟨rfl, _, hc, rfl⟩), by decide, fun h => absurd rfl h⟩
    · rename_i hc
      obtain ⟨f', hf, rfl⟩ := Option.map_eq_some_iff.1 h
      exact ⟨⟨_, hc⟩, _, .served, modify_getElem?.2 (.inr ⟨rfl, _, hc, rfl⟩), by decide, fun h => absurd rfl h⟩
    · cases h
  | refuse c' =>
    have hcc : c' = c := by rcases hk with h | h | h <;> simpa [COp.kind] using h
    subst hcc
    simp only [cstep] at h
    split at h
    · rename_i hc
      obtain ⟨f', hf, rfl⟩ := Option.map_eq_some_iff.1 h
      exact ⟨⟨_, hc⟩, _, .returned, modify_getElem?.2 (.inr ⟨rfl, _, hc, rfl⟩), by decide, fun _ => rfl⟩
    · cases h
  | atEnd c' =>
    have hcc : c' = c := by rcases hk with h | h | h <;> simpa [COp.kind] using h
    subst hcc
    simp only [cstep] at h
    split at h
    · rename_i hc
      obtain ⟨x, hx, rfl⟩ := Option.map_eq_some_iff.1 h
      exact ⟨⟨_, hc⟩, _, .returned, modify_getElem?.2 (.inr ⟨rfl, _, hc, rfl⟩), by decide, fun _ => rfl⟩
    · rename_i hc
      obtain ⟨e, he, rfl⟩ := Option.map_eq_some_iff.1 h
      exact ⟨⟨_, hc⟩, _, .returned, modify_getElem?.2 (.inr ⟨rfl, _, hc, rfl⟩), by decide, fun _ => rfl⟩
    · cases h
  | _ => rcases hk with h | h | h <;> simp [COp.kind] at h

/-- Every call returns, except a Wait on an engine that never ends. -/
theorem CRun.returns {r : CRun cfg} (hf : r.Fair) {k c : Nat} {q : Req} {p : CPc} (hc : (r.st k).calls[c]? = some ⟨q, p⟩)
    (hq : q ≠ .wait ∨ .exit ∈ (r.st k).f.s.hist) : ∃ j, (r.st j).calls[c]? = some ⟨q, .returned⟩ := by
  by_cases hne : ∃ j, (r.st j).calls[c]? = some ⟨q, .returned⟩
  · exact hne
  exfalso
  have notServed : ∀ i, (r.st i).f.todo = [] → (r.st i).calls[c]? ≠ some ⟨q, .served⟩ := by
    intro i ht hs
    obtain ⟨x, hx⟩ := (creach_inv (r.reach i)).served c q hs
    rw [serving_idle (creach_inv (r.reach i)) ht] at hx
    cases hx
  have asking : ∀ i, k ≤ i → (r.st i).f.todo = [] → (r.st i).calls[c]? = some ⟨q, .asking⟩ := by
    intro i hi ht
    obtain ⟨p', h, _⟩ := r.calls hi hc
    cases p' with
    | asking => exact h
    | served => exact absurd h (notServed i ht)
    | returned => exact absurd ⟨i, h⟩ hne
  by_cases hd : ∃ j, .exit ∈ (r.st j).f.s.hist
  · obtain ⟨j, hj⟩ := hd
    have can : ∀ i, max k j ≤ i → CCanDo cfg (r.st i) (.refuse c) ∨ CCanDo cfg (r.st i) (.atEnd c) := by
      intro i hi
      have hinv := creach_inv (r.reach i)
      have hdead := (freach_hinv hinv.reach).2.dead.2 (r.hist_mono (show j ≤ i by omega) hj)
      have ht : (r.st i).f.todo = [] := by
        obtain ⟨D, hl⟩ := freach_link hinv.reach
        by_cases h0 : (r.st i).f.todo = []
        · exact h0
        · rw [hl.2.2.1 h0] at hdead; cases hdead
      exact dead_can hinv hdead (asking i (by omega) ht)
    have fin : ∀ x, (x = CKind.refuse c ∨ x = CKind.atEnd c) → InfOften (fun i => CCanDo cfg (r.st i) x) → False := by
      intro x hx hinf
      obtain ⟨i, hi, h⟩ := hf x hinf k
      obtain ⟨⟨q', h1⟩, q'', p', h2, _, h3⟩ := taken_rank (r.next i) (c := c) (by
        rcases hx with rfl | rfl
        · exact .inr (.inl h)
        · exact .inr (.inr h))
      obtain ⟨p1, h4, _⟩ := r.calls (show k ≤ i + 1 by omega) hc
      rw [h4] at h2
      cases h2
      exact hne ⟨i + 1, by rw [h4, h3 (by rw [h]; rcases hx with rfl | rfl <;> simp)]⟩
    rcases (infOften_of_from (max k j) can).or with h | h
    · exact fin _ (.inl rfl) h
    · exact fin _ (.inr rfl) h
  · have hq' : q ≠ .wait := hq.elim id (fun h => absurd ⟨k, h⟩ hd)
    have hinf : InfOften (fun i => CCanDo cfg (r.st i) (.take c)) := by
      refine (r.idle_again hf).mono_from k (fun i hi ht => idle_can ht ?_ (asking i hi ht) hq')
      cases h : (r.st i).f.s.tomb.dead with
      | false => rfl
      | true => exact absurd ⟨i, (freach_hinv (creach_inv (r.reach i)).reach).2.dead.1 h⟩ hd
    obtain ⟨i, hi, h⟩ := hf _ hinf k
    obtain ⟨_, q', p', h2, h3, _⟩ := taken_rank (r.next i) (.inl h)
    obtain ⟨j, hj, ht⟩ := r.idle_again hf (i + 1)
    obtain ⟨p2, h4, h5⟩ := r.calls hj h2
    have ha := asking j (by omega) ht
    rw [ha] at h4
    cases h4
    have : CPc.asking.rank = 0 := rfl
    omega

end Verif.Engine
