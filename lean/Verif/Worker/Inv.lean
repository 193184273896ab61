import Verif.Spec.Worker

/-!
Invariant of the model of worker.Stop, worker.Dead and the workertest functions (proofs only).
-/

namespace Verif.Worker
open Verif.Spec Verif.WSpec

/-- The call an event belongs to. -/
def evId : Ev → Option Nat
  | .called c _ | .kill c | .timeout c | .notNil c | .failed c | .stopRet c _ | .ownDead c _ | .deadRet c _ | .closed c | .checkRet c _ => some c
  | .finished _ => none

structure CallOk (fin : Option (Option Err)) (h : List Ev) (c : Nat) (x : Call) : Prop where
  called : .called c x.kind ∈ h
  killed : x.pc ≠ .start → Kills x.kind → .kill c ∈ h
  nokill : x.pc = .start → .kill c ∉ h
  nonil : x.pc = .start → .notNil c ∉ h
  nofail : x.pc ≠ .returned → .failed c ∉ h
  nostop : x.pc ≠ .returned → ∀ r, .stopRet c r ∉ h
  nocheck : x.pc ≠ .returned → ∀ r, .checkRet c r ∉ h
  nodead : x.pc ≠ .returned → ∀ b, .deadRet c b ∉ h
  sel : x.pc = .select → TimesOut x.kind ∧ x.g ≠ .none
  wait : x.pc = .wait → x.kind = .stop
  got : ∀ r, x.g = .got r → fin = some r
  buf : ∀ r, x.buf = some r → fin = some r
  empty : x.g ≠ .done → x.buf = none
  full : x.g = .done → x.pc = .select → ∃ r, x.buf = some r
  timer : x.timer = true → .timeout c ∈ h
  dead : x.kind = .dead → x.g ≠ .none → .deadRet c false ∈ h
  nclosed : x.g ≠ .done → .closed c ∉ h
  closed : x.kind = .dead → x.g = .done → .closed c ∈ h
  fresh : .deadRet c false ∈ h → x.g ≠ .none
  none : (x.pc = .start ∨ x.pc = .killed ∨ x.pc = .wait) → x.g = .none
  rstop : x.pc = .returned → x.kind = .stop → ∃ r, .stopRet c r ∈ h
  rdead : x.pc = .returned → x.kind = .dead → ∃ b, .deadRet c b ∈ h
  rcheck : x.pc = .returned → TimesOut x.kind → ∃ r, .checkRet c r ∈ h

structure Inv (s : State) : Prop where
  ok : ∀ (c : Nat) x, s.calls[c]? = some x → CallOk s.fin s.hist c x
  fin : ∀ r, s.fin = some r ↔ .finished r ∈ s.hist
  ids : ∀ e ∈ s.hist, ∀ c, evId e = some c → c < s.calls.length
  all : ∀ c k, .called c k ∈ s.hist → ∃ x, s.calls[c]? = some x ∧ x.kind = k
  events : AtEvery EvOk s.hist

theorem kills_iff (k : Kind) : k.kills = true ↔ Kills k := by cases k <;> simp [Kind.kills, Kills]
theorem selects_iff (k : Kind) : k.selects = true ↔ TimesOut k := by cases k <;> simp [Kind.selects, TimesOut]
theorem fails_iff (k : Kind) (r : Option Err) : k.fails r = true ↔ FailsWith k r := by
  cases k <;> simp [Kind.fails, FailsWith] <;> cases r <;> simp
theorem failsLate_iff (k : Kind) : k.failsLate = true ↔ k ≠ .checkAlive := by cases k <;> simp [Kind.failsLate]

theorem nm {e x : Ev} {h : List Ev} (hm : x ∉ h) (hne : x ≠ e) : x ∉ e :: h := by
  intro hx
  rcases List.mem_cons.1 hx with hx | hx
  · exact hne hx
  · exact hm hx

/-- Another call's event, or the worker's end. -/
theorem CallOk.cons {f f' : Option (Option Err)} {h : List Ev} {c : Nat} {x : Call} {e : Ev} (hx : CallOk f h c x) (he : evId e ≠ some c)
    (hf : ∀ r, f = some r → f' = some r) : CallOk f' (e :: h) c x := by
  have mm : ∀ {y : Ev}, y ∈ h → y ∈ e :: h := List.mem_cons_of_mem _
  have nn : ∀ {y : Ev}, evId y = some c → y ∉ h → y ∉ e :: h := fun h1 h2 => nm h2 (by rintro rfl; exact he h1)
  exact ⟨mm hx.called, fun h1 h2 => mm (hx.killed h1 h2), fun h1 => nn rfl (hx.nokill h1), fun h1 => nn rfl (hx.nonil h1), fun h1 => nn rfl (hx.nofail h1),
    fun h1 r => nn rfl (hx.nostop h1 r), fun h1 r => nn rfl (hx.nocheck h1 r), fun h1 r => nn rfl (hx.nodead h1 r), hx.sel, hx.wait,
    fun r h1 => hf r (hx.got r h1), fun r h1 => hf r (hx.buf r h1), hx.empty, hx.full, fun h1 => mm (hx.timer h1), fun h1 h2 => mm (hx.dead h1 h2),
    fun h1 => nn rfl (hx.nclosed h1), fun h1 h2 => mm (hx.closed h1 h2),
    fun h1 => hx.fresh (by
      rcases List.mem_cons.1 h1 with h1 | h1
      · subst h1; exact absurd rfl he
      · exact h1),
    hx.none, fun h1 h2 => (hx.rstop h1 h2).imp fun _ => mm, fun h1 h2 => (hx.rdead h1 h2).imp fun _ => mm,
    fun h1 h2 => (hx.rcheck h1 h2).imp fun _ => mm⟩

theorem CallOk.append {f : Option (Option Err)} {h : List Ev} {c : Nat} {x : Call} {es : List Ev} (hx : CallOk f h c x)
    (he : ∀ e ∈ es, evId e ≠ some c) : CallOk f (es ++ h) c x := by
  induction es with
  | nil => exact hx
  | cons e es ih => exact (ih (fun e he' => he e (List.mem_cons_of_mem _ he'))).cons (he e List.mem_cons_self) (fun _ h => h)

theorem lt_of_get {α : Type} {l : List α} {i : Nat} {x : α} (h : l[i]? = some x) : i < l.length := by
  rcases Nat.lt_or_ge i l.length with h1 | h1
  · exact h1
  · rw [List.getElem?_eq_none h1] at h; cases h

/-- A step of call `c` with the events `es`. -/
theorem Inv.set {s : State} (hI : Inv s) {c : Nat} {x x' : Call} {es : List Ev} (hx : s.calls[c]? = some x) (hk : x'.kind = x.kind)
    (hid : ∀ e ∈ es, evId e = some c) (hes : ∀ e ∈ es, ∀ k, e ≠ .called c k) (hev : AtNew EvOk es s.hist)
    (hok : CallOk s.fin (es ++ s.hist) c x') : Inv { s with calls := s.calls.set c x', hist := es ++ s.hist } := by
  have hlt := lt_of_get hx
  refine ⟨?_, ?_, ?_, ?_, AtEvery.append hev hI.events⟩
  · intro c' y hy
    by_cases hc : c' = c
    · subst hc
      rw [List.getElem?_set_self hlt] at hy
      cases hy; exact hok
    · have hy' : s.calls[c']? = some y := by
        have : (s.calls.set c x')[c']? = s.calls[c']? := List.getElem?_set_ne (fun h => hc h.symm)
        rw [← this]; exact hy
      exact (hI.ok c' y hy').append (fun e he h1 => by
        rw [hid e he] at h1; cases h1; exact hc rfl)
  · intro r
    rw [hI.fin r]
    constructor
    · intro h; exact List.mem_append_right _ h
    · intro h
      rcases List.mem_append.1 h with h | h
      · have := hid _ h; cases this
      · exact h
  · intro e he c' hc'
    simp only [List.length_set]
    rcases List.mem_append.1 he with he | he
    · rw [hid e he] at hc'; cases hc'; exact hlt
    · exact hI.ids e he c' hc'
  · intro c' k hm
    rcases List.mem_append.1 hm with hm | hm
    · have := hid _ hm
      cases this
      exact absurd rfl (hes _ hm k)
    · obtain ⟨y, h1, h2⟩ := hI.all c' k hm
      by_cases hc : c' = c
      · subst hc
        rw [hx] at h1; cases h1
        exact ⟨x', List.getElem?_set_self hlt, hk.trans h2⟩
      · exact ⟨y, by rw [List.getElem?_set_ne (fun h => hc h.symm)]; exact h1, h2⟩

theorem Reach.inv {s : State} (hr : Reach s) : Inv s := by
  induction hr with
  | init =>
    refine ⟨nofun, fun r => ⟨nofun, nofun⟩, nofun, nofun, trivial⟩
  | @step s s' op hr hs hI =>
    cases op with
    | call k =>
      simp only [Worker.step, Op.id?, Option.some.injEq] at hs
      subst hs
      refine ⟨?_, ?_, ?_, ?_, ⟨?_, hI.events⟩⟩
      · intro c y hy
        have hfr : ∀ e ∈ s.hist, evId e ≠ some s.calls.length := fun e he h1 => Nat.lt_irrefl _ (hI.ids e he _ h1)
        simp only [State.emit] at hy ⊢
        rcases Nat.lt_trichotomy c s.calls.length with h | h | h
        · rw [List.getElem?_append_left h] at hy
          exact (hI.ok c y hy).cons (by simp [evId]; omega) (fun _ h => h)
        · subst h
          rw [List.getElem?_append_right (Nat.le_refl _), Nat.sub_self] at hy
          cases hy
          have nn : ∀ {y : Ev}, evId y = some s.calls.length → (∀ k, y ≠ .called s.calls.length k) → y ∉ .called s.calls.length k :: s.hist :=
            fun h1 h2 => nm (fun h3 => hfr _ h3 h1) (h2 k)
          exact ⟨List.mem_cons_self, fun h => absurd rfl h, fun _ => nn rfl nofun, fun _ => nn rfl nofun, fun _ => nn rfl nofun, fun _ _ => nn rfl nofun,
            fun _ _ => nn rfl nofun, fun _ _ => nn rfl nofun, nofun, nofun, nofun, nofun, fun _ => rfl, nofun, nofun, fun _ h => absurd rfl h,
            fun _ => nn rfl nofun, nofun, fun h => absurd h (nn rfl nofun), fun _ => rfl, nofun, nofun, nofun⟩
        · rw [List.getElem?_eq_none (by simp; omega)] at hy; cases hy
      · intro r
        refine (hI.fin r).trans ?_
        exact ⟨List.mem_cons_of_mem _, fun h => (List.mem_cons.1 h).resolve_left nofun⟩
      · intro e he c hc
        simp only [State.emit, List.length_append, List.length_singleton] at he ⊢
        rcases List.mem_cons.1 he with rfl | he
        · cases hc; omega
        · exact Nat.lt_succ_of_lt (hI.ids e he c hc)
      · intro c k' hm
        simp only [State.emit] at hm ⊢
        rcases List.mem_cons.1 hm with hm | hm
        · cases hm
          exact ⟨_, by rw [List.getElem?_append_right (Nat.le_refl _), Nat.sub_self]; rfl, rfl⟩
        · obtain ⟨y, h1, h2⟩ := hI.all c k' hm
          exact ⟨y, by rw [List.getElem?_append_left (lt_of_get h1)]; exact h1, h2⟩
      · intro k' hm
        exact Nat.lt_irrefl _ (hI.ids _ hm _ rfl)
    | finish r =>
      simp only [Worker.step, Op.id?] at hs
      split at hs
      · rename_i hf
        cases hs
        refine ⟨?_, ?_, ?_, ?_, ⟨?_, hI.events⟩⟩
        · intro c y hy
          refine (hI.ok c y hy).cons nofun ?_
          intro r' hr'; rw [hf] at hr'; cases hr'
        · intro r'
          constructor
          · intro h; cases h; exact List.mem_cons_self
          · intro h
            rcases List.mem_cons.1 h with h | h
            · cases h; rfl
            · have := (hI.fin r').2 h; rw [hf] at this; cases this
        · intro e he c hc
          rcases List.mem_cons.1 he with rfl | he
          · cases hc
          · exact hI.ids e he c hc
        · intro c k hm
          exact hI.all c k ((List.mem_cons.1 hm).resolve_left nofun)
        · intro r' hm
          have := (hI.fin r').2 hm; rw [hf] at this; cases this
      · cases hs
    | timeout c =>
      simp only [Worker.step, Op.id?, Option.bind_eq_some_iff] at hs
      obtain ⟨x, hx, hs⟩ := hs
      have hc := hI.ok c x hx
      simp only [stepCall] at hs
      split at hs
      · rename_i h1
        cases hs
        refine hI.set (es := [.timeout c]) hx rfl (by simp [evId]) (by simp) ⟨⟨x.kind, hc.called, (selects_iff _).1 h1.1⟩, trivial⟩ ?_
        have mm : ∀ {y : Ev}, y ∈ s.hist → y ∈ .timeout c :: s.hist := List.mem_cons_of_mem _
        exact { hc with
          called := mm hc.called
          killed := fun h1 h2 => mm (hc.killed h1 h2)
          nokill := fun h1 => nm (hc.nokill h1) nofun
          nonil := fun h1 => nm (hc.nonil h1) nofun
          nofail := fun h1 => nm (hc.nofail h1) nofun
          nostop := fun h1 r => nm (hc.nostop h1 r) nofun
          nocheck := fun h1 r => nm (hc.nocheck h1 r) nofun
          nodead := fun h1 r => nm (hc.nodead h1 r) nofun
          timer := fun _ => List.mem_cons_self
          dead := fun h1 h2 => mm (hc.dead h1 h2)
          nclosed := fun h1 => nm (hc.nclosed h1) nofun
          closed := fun h1 h2 => mm (hc.closed h1 h2)
          fresh := fun h => hc.fresh ((List.mem_cons.1 h).resolve_left nofun)
          rstop := fun h1 h2 => (hc.rstop h1 h2).imp fun _ => mm
          rdead := fun h1 h2 => (hc.rdead h1 h2).imp fun _ => mm
          rcheck := fun h1 h2 => (hc.rcheck h1 h2).imp fun _ => mm }
      · cases hs
    | kill c =>
      simp only [Worker.step, Op.id?, Option.bind_eq_some_iff] at hs
      obtain ⟨x, hx, hs⟩ := hs
      have hc := hI.ok c x hx
      simp only [stepCall] at hs
      split at hs
      · rename_i hp
        have hg := hc.none (Or.inl hp)
        by_cases hn : x.kind = .nilOrKill
        · rw [if_pos hn] at hs
          cases hs
          refine hI.set (es := [.kill c, .notNil c]) hx rfl (by simp [evId]) (by simp)
            ⟨⟨⟨x.kind, List.mem_cons_of_mem _ hc.called, (kills_iff _).1 (by rw [hn]; rfl), fun _ => hn, fun _ => List.mem_cons_self⟩,
              nm (hc.nokill hp) nofun⟩, ⟨hn ▸ hc.called, hc.nonil hp, hc.nokill hp⟩, trivial⟩ ?_
          have mm : ∀ {y : Ev}, y ∈ s.hist → y ∈ .kill c :: .notNil c :: s.hist := fun h => List.mem_cons_of_mem _ (List.mem_cons_of_mem _ h)
          exact { hc with
            called := mm hc.called
            killed := fun _ _ => List.mem_cons_self
            nokill := nofun
            nonil := nofun
            nofail := fun _ => nm (nm (hc.nofail (by rw [hp]; nofun)) nofun) nofun
            nostop := fun _ r => nm (nm (hc.nostop (by rw [hp]; nofun) r) nofun) nofun
            nocheck := fun _ r => nm (nm (hc.nocheck (by rw [hp]; nofun) r) nofun) nofun
            nodead := fun _ r => nm (nm (hc.nodead (by rw [hp]; nofun) r) nofun) nofun
            sel := nofun
            wait := nofun
            full := nofun
            timer := fun h => mm (hc.timer h)
            dead := fun _ h => absurd hg h
            nclosed := fun h1 => nm (nm (hc.nclosed h1) nofun) nofun
            closed := fun h1 h2 => mm (hc.closed h1 h2)
            fresh := fun h => hc.fresh ((List.mem_cons.1 ((List.mem_cons.1 h).resolve_left nofun)).resolve_left nofun)
            none := fun _ => hg
            rstop := nofun
            rdead := nofun
            rcheck := nofun }
        rw [if_neg hn] at hs
        split at hs
        · rename_i hk
          cases hs
          refine hI.set (es := [.kill c]) hx rfl (by simp [evId]) (by simp) ⟨⟨⟨x.kind, hc.called, (kills_iff _).1 hk, fun h => absurd h (hc.nonil hp), fun h => absurd h hn⟩, hc.nokill hp⟩, trivial⟩ ?_
          have mm : ∀ {y : Ev}, y ∈ s.hist → y ∈ .kill c :: s.hist := List.mem_cons_of_mem _
          exact { hc with
            called := mm hc.called
            killed := fun _ _ => List.mem_cons_self
            nokill := nofun
            nonil := nofun
            nofail := fun _ => nm (hc.nofail (by rw [hp]; nofun)) nofun
            nostop := fun _ r => nm (hc.nostop (by rw [hp]; nofun) r) nofun
            nocheck := fun _ r => nm (hc.nocheck (by rw [hp]; nofun) r) nofun
            nodead := fun _ r => nm (hc.nodead (by rw [hp]; nofun) r) nofun
            sel := nofun
            wait := nofun
            full := nofun
            timer := fun h => mm (hc.timer h)
            dead := fun _ h => absurd hg h
            nclosed := fun h1 => nm (hc.nclosed h1) nofun
            closed := fun h1 h2 => mm (hc.closed h1 h2)
            fresh := fun h => hc.fresh ((List.mem_cons.1 h).resolve_left nofun)
            none := fun _ => hg
            rstop := nofun
            rdead := nofun
            rcheck := nofun }
        · rename_i hk
          cases hs
          refine hI.set (es := []) hx rfl nofun nofun trivial ?_
          exact { hc with
            killed := fun _ h => absurd ((kills_iff _).2 h) hk
            nokill := nofun
            nonil := nofun
            nofail := fun _ => hc.nofail (by rw [hp]; nofun)
            nostop := fun _ => hc.nostop (by rw [hp]; nofun)
            nocheck := fun _ => hc.nocheck (by rw [hp]; nofun)
            nodead := fun _ => hc.nodead (by rw [hp]; nofun)
            sel := nofun
            wait := nofun
            full := nofun
            none := fun _ => hg
            rstop := nofun
            rdead := nofun
            rcheck := nofun }
      · cases hs
    | go c d =>
      simp only [Worker.step, Op.id?, Option.bind_eq_some_iff] at hs
      obtain ⟨x, hx, hs⟩ := hs
      have hc := hI.ok c x hx
      simp only [stepCall] at hs
      split at hs
      · rename_i hp
        have hg := hc.none (Or.inr (Or.inl hp))
        have hne : x.pc ≠ .returned := by rw [hp]; nofun
        have hst : x.pc ≠ .start := by rw [hp]; nofun
        have hbuf := hc.empty (by rw [hg]; nofun)
        split at hs
        · rename_i hk
          cases hs
          refine hI.set (es := []) hx rfl nofun nofun trivial ?_
          exact { hc with
            killed := fun _ => hc.killed hst
            nokill := nofun
            nonil := nofun
            nofail := fun _ => hc.nofail hne
            nostop := fun _ => hc.nostop hne
            nocheck := fun _ => hc.nocheck hne
            nodead := fun _ => hc.nodead hne
            sel := nofun
            wait := fun _ => hk
            full := nofun
            none := fun _ => hg
            rstop := nofun
            rdead := nofun
            rcheck := nofun }
        · rename_i hk
          have hkl : ¬ Kills x.kind := by rw [hk]; simp [Kills]
          have hto : ¬ TimesOut x.kind := by rw [hk]; simp [TimesOut]
          have hcl : .called c .dead ∈ s.hist := hk ▸ hc.called
          split at hs
          · rename_i hd
            cases hs
            refine hI.set (es := [.deadRet c true, .ownDead c d]) hx rfl (by simp [evId]) (by simp)
              ⟨⟨d, List.mem_cons_self, by simp [hd]⟩, hcl, trivial⟩ ?_
            have mm : ∀ {y : Ev}, y ∈ s.hist → y ∈ .deadRet c true :: .ownDead c d :: s.hist :=
              fun h => List.mem_cons_of_mem _ (List.mem_cons_of_mem _ h)
            exact { hc with
              called := mm hc.called
              killed := fun _ h => absurd h hkl
              nokill := nofun
              nonil := nofun
              nofail := fun h => absurd rfl h
              nostop := fun h => absurd rfl h
              nocheck := fun h => absurd rfl h
              nodead := fun h => absurd rfl h
              sel := nofun
              wait := nofun
              full := nofun
              timer := fun h => mm (hc.timer h)
              dead := fun _ h => absurd hg h
              nclosed := fun h1 => nm (nm (hc.nclosed h1) nofun) nofun
              closed := fun h1 h2 => mm (hc.closed h1 h2)
              fresh := fun h => by
                rcases List.mem_cons.1 h with h | h
                · cases h
                · exact absurd ((List.mem_cons.1 h).resolve_left nofun) (hc.nodead hne _)
              none := fun _ => hg
              rstop := fun _ h => by rw [hk] at h; cases h
              rdead := fun _ _ => ⟨true, List.mem_cons_self⟩
              rcheck := fun _ h => absurd h hto }
          · rename_i hd
            cases hs
            refine hI.set (es := [.deadRet c false, .ownDead c d]) hx rfl (by simp [evId]) (by simp)
              ⟨⟨d, List.mem_cons_self, by simp [hd]⟩, hcl, trivial⟩ ?_
            have mm : ∀ {y : Ev}, y ∈ s.hist → y ∈ .deadRet c false :: .ownDead c d :: s.hist :=
              fun h => List.mem_cons_of_mem _ (List.mem_cons_of_mem _ h)
            exact { hc with
              called := mm hc.called
              killed := fun _ h => absurd h hkl
              nokill := nofun
              nonil := nofun
              nofail := fun h => absurd rfl h
              nostop := fun h => absurd rfl h
              nocheck := fun h => absurd rfl h
              nodead := fun h => absurd rfl h
              sel := nofun
              wait := nofun
              got := nofun
              empty := fun _ => hbuf
              full := nofun
              timer := fun h => mm (hc.timer h)
              dead := fun _ _ => List.mem_cons_self
              nclosed := fun _ => nm (nm (hc.nclosed (by rw [hg]; nofun)) nofun) nofun
              closed := nofun
              fresh := fun _ => nofun
              none := fun h => by rcases h with h | h | h <;> cases h
              rstop := fun _ h => by rw [hk] at h; cases h
              rdead := fun _ _ => ⟨false, List.mem_cons_self⟩
              rcheck := fun _ h => absurd h hto }
        · rename_i h1 h2
          have hto : TimesOut x.kind := by
            cases hk : x.kind with
            | stop => exact absurd hk h1
            | dead => exact absurd hk h2
            | _ => simp [TimesOut]
          cases hs
          refine hI.set (es := []) hx rfl nofun nofun trivial ?_
          exact { hc with
            killed := fun _ => hc.killed hst
            nokill := nofun
            nonil := nofun
            nofail := fun _ => hc.nofail hne
            nostop := fun _ => hc.nostop hne
            nocheck := fun _ => hc.nocheck hne
            nodead := fun _ => hc.nodead hne
            sel := fun _ => ⟨hto, nofun⟩
            wait := nofun
            got := nofun
            empty := fun _ => hbuf
            full := nofun
            dead := fun h => absurd h h2
            nclosed := fun _ => hc.nclosed (by rw [hg]; nofun)
            closed := nofun
            fresh := fun _ => nofun
            none := fun h => by rcases h with h | h | h <;> cases h
            rstop := nofun
            rdead := nofun
            rcheck := nofun }
      · cases hs
    | gWait c =>
      simp only [Worker.step, Op.id?, Option.bind_eq_some_iff] at hs
      obtain ⟨x, hx, hs⟩ := hs
      have hc := hI.ok c x hx
      simp only [stepCall] at hs
      split at hs
      · rename_i r hg hf
        cases hs
        refine hI.set (es := []) hx rfl nofun nofun trivial ?_
        exact { hc with
          sel := fun h => ⟨(hc.sel h).1, nofun⟩
          got := fun r' h => by cases h; exact hf
          empty := fun _ => hc.empty (by rw [hg]; nofun)
          full := nofun
          dead := fun h _ => hc.dead h (by rw [hg]; nofun)
          nclosed := fun _ => hc.nclosed (by rw [hg]; nofun)
          closed := nofun
          fresh := fun _ => nofun
          none := fun h => by have := hc.none h; rw [hg] at this; cases this }
      · cases hs
    | gSend c =>
      simp only [Worker.step, Op.id?, Option.bind_eq_some_iff] at hs
      obtain ⟨x, hx, hs⟩ := hs
      have hc := hI.ok c x hx
      simp only [stepCall] at hs
      split at hs
      · rename_i r hg
        have hng : x.g ≠ .none := by rw [hg]; nofun
        have hnd : x.g ≠ .done := by rw [hg]; nofun
        have hnp : ∀ {p : Prop}, (x.pc = .start ∨ x.pc = .killed ∨ x.pc = .wait) → p := by
          intro p h; have := hc.none h; rw [hg] at this; cases this
        split at hs
        · rename_i hk
          cases hs
          have hns : x.pc ≠ .select := by
            intro h
            have := (hc.sel h).1
            rw [hk] at this; simp [TimesOut] at this
          refine hI.set (es := [.closed c]) hx rfl (by simp [evId]) (by simp)
            ⟨⟨hc.dead hk hng, ⟨r, (hI.fin r).1 (hc.got r hg)⟩, hc.nclosed hnd⟩, trivial⟩ ?_
          have mm : ∀ {y : Ev}, y ∈ s.hist → y ∈ .closed c :: s.hist := List.mem_cons_of_mem _
          exact { hc with
            called := mm hc.called
            killed := fun h1 h2 => mm (hc.killed h1 h2)
            nokill := fun h1 => nm (hc.nokill h1) nofun
            nonil := fun h1 => nm (hc.nonil h1) nofun
            nofail := fun h1 => nm (hc.nofail h1) nofun
            nostop := fun h1 r => nm (hc.nostop h1 r) nofun
            nocheck := fun h1 r => nm (hc.nocheck h1 r) nofun
            nodead := fun h1 r => nm (hc.nodead h1 r) nofun
            sel := fun h => absurd h hns
            got := nofun
            empty := fun h => absurd rfl h
            full := fun _ h => absurd h hns
            timer := fun h => mm (hc.timer h)
            dead := fun h _ => mm (hc.dead h hng)
            nclosed := fun h => absurd rfl h
            closed := fun _ _ => List.mem_cons_self
            fresh := fun _ => nofun
            none := hnp
            rstop := fun h1 h2 => (hc.rstop h1 h2).imp fun _ => mm
            rdead := fun h1 h2 => (hc.rdead h1 h2).imp fun _ => mm
            rcheck := fun h1 h2 => (hc.rcheck h1 h2).imp fun _ => mm }
        · rename_i hk
          split at hs
          · rename_i hb
            cases hs
            refine hI.set (es := []) hx rfl nofun nofun trivial ?_
            exact { hc with
              sel := fun h => ⟨(hc.sel h).1, nofun⟩
              got := nofun
              buf := fun r' h => by cases h; exact hc.got r hg
              empty := fun h => absurd rfl h
              full := fun _ _ => ⟨r, rfl⟩
              dead := fun h => absurd h hk
              nclosed := fun h => absurd rfl h
              closed := fun h => absurd h hk
              fresh := fun _ => nofun
              none := hnp }
          · cases hs
      · cases hs
    | stopRet c =>
      simp only [Worker.step, Op.id?, Option.bind_eq_some_iff] at hs
      obtain ⟨x, hx, hs⟩ := hs
      have hc := hI.ok c x hx
      simp only [stepCall] at hs
      split at hs
      · rename_i r hp hf
        cases hs
        have hk := hc.wait hp
        have hst : x.pc ≠ .start := by rw [hp]; nofun
        have hne : x.pc ≠ .returned := by rw [hp]; nofun
        have hto : ¬ TimesOut x.kind := by rw [hk]; simp [TimesOut]
        have hg := hc.none (Or.inr (Or.inr hp))
        have hkl := hc.killed hst (by rw [hk]; exact Or.inl rfl)
        refine hI.set (es := [.stopRet c r]) hx rfl (by simp [evId]) (by simp)
          ⟨⟨hk ▸ hc.called, hkl, (hI.fin r).1 hf, hc.nostop hne⟩, trivial⟩ ?_
        have mm : ∀ {y : Ev}, y ∈ s.hist → y ∈ .stopRet c r :: s.hist := List.mem_cons_of_mem _
        exact { hc with
          called := mm hc.called
          killed := fun _ _ => mm hkl
          nokill := nofun
          nonil := nofun
          nofail := fun h => absurd rfl h
          nostop := fun h => absurd rfl h
          nocheck := fun h => absurd rfl h
          nodead := fun h => absurd rfl h
          sel := nofun
          wait := nofun
          full := nofun
          timer := fun h => mm (hc.timer h)
          dead := fun _ h => absurd hg h
          nclosed := fun h1 => nm (hc.nclosed h1) nofun
          closed := fun h1 h2 => mm (hc.closed h1 h2)
          fresh := fun h => hc.fresh ((List.mem_cons.1 h).resolve_left nofun)
          none := fun _ => hg
          rstop := fun _ _ => ⟨r, List.mem_cons_self⟩
          rdead := fun _ h => by rw [hk] at h; cases h
          rcheck := fun _ h => absurd h hto }
      · cases hs
    | recv c =>
      simp only [Worker.step, Op.id?, Option.bind_eq_some_iff] at hs
      obtain ⟨x, hx, hs⟩ := hs
      have hc := hI.ok c x hx
      simp only [stepCall] at hs
      split at hs
      · rename_i r hp hb
        have hst : x.pc ≠ .start := by rw [hp]; nofun
        have hne : x.pc ≠ .returned := by rw [hp]; nofun
        have hto := (hc.sel hp).1
        have hfin := (hI.fin r).1 (hc.buf r hb)
        have key : ∀ {es : List Ev}, (∀ e ∈ es, e = .failed c) → CallOk s.fin (.checkRet c (some r) :: es ++ s.hist) c { x with pc := .returned, buf := none } := by
          intro es hes
          have mm : ∀ {y : Ev}, y ∈ s.hist → y ∈ .checkRet c (some r) :: es ++ s.hist := fun h => List.mem_append_right _ h
          have nn : ∀ {y : Ev}, y ∉ s.hist → y ≠ .failed c → y ≠ .checkRet c (some r) → y ∉ .checkRet c (some r) :: es ++ s.hist := by
            intro y h1 h2 h3 h
            rcases List.mem_append.1 h with h | h
            · rcases List.mem_cons.1 h with h | h
              · exact h3 h
              · exact h2 (hes y h)
            · exact h1 h
          exact { hc with
            called := mm hc.called
            killed := fun _ h => mm (hc.killed hst h)
            nokill := nofun
            nonil := nofun
            nofail := fun h => absurd rfl h
            nostop := fun h => absurd rfl h
            nocheck := fun h => absurd rfl h
            nodead := fun h => absurd rfl h
            sel := nofun
            wait := nofun
            buf := nofun
            empty := fun _ => rfl
            full := nofun
            timer := fun h => mm (hc.timer h)
            dead := fun h1 h2 => mm (hc.dead h1 h2)
            nclosed := fun h1 => nn (hc.nclosed h1) nofun nofun
            closed := fun h1 h2 => mm (hc.closed h1 h2)
            fresh := fun h => by
              refine Classical.byContradiction fun hx => ?_
              exact nn (fun h' => hx (hc.fresh h')) nofun nofun h
            none := fun h => by rcases h with h | h | h <;> cases h
            rstop := fun _ h => by have h' : x.kind = .stop := h; rw [h'] at hto; simp [TimesOut] at hto
            rdead := fun _ h => by have h' : x.kind = .dead := h; rw [h'] at hto; simp [TimesOut] at hto
            rcheck := fun _ _ => ⟨some r, List.mem_cons_self⟩ }
        by_cases hfl : x.kind.fails r = true
        · rw [if_pos hfl] at hs
          cases hs
          refine hI.set (es := [.checkRet c (some r), .failed c]) hx rfl (by simp [evId]) (by simp) ⟨⟨?_, x.kind, ?_, hto, ?_, ?_, ?_⟩, ⟨?_, ?_⟩, trivial⟩ (key (es := [.failed c]) (by simp))
          · exact List.mem_cons_of_mem _ hfin
          · exact List.mem_cons_of_mem _ hc.called
          · exact fun h => List.mem_cons_of_mem _ (hc.killed hst h)
          · exact ⟨fun _ => (fails_iff _ _).1 hfl, fun _ => List.mem_cons_self⟩
          · exact fun r' => nm (hc.nocheck hne r') nofun
          · exact hc.nofail hne
          · exact ⟨x.kind, hc.called, Or.inl ⟨r, hfin, (fails_iff _ _).1 hfl⟩⟩
        · rw [if_neg hfl] at hs
          cases hs
          refine hI.set (es := [.checkRet c (some r)]) hx rfl (by simp [evId]) (by simp) ⟨⟨hfin, x.kind, hc.called, hto, hc.killed hst, ?_, hc.nocheck hne⟩, trivial⟩ (key (es := []) (by simp))
          exact ⟨fun h => absurd h (hc.nofail hne), fun h => absurd ((fails_iff _ _).2 h) hfl⟩
      · cases hs
    | late c =>
      simp only [Worker.step, Op.id?, Option.bind_eq_some_iff] at hs
      obtain ⟨x, hx, hs⟩ := hs
      have hc := hI.ok c x hx
      simp only [stepCall] at hs
      split at hs
      · rename_i hpt
        obtain ⟨hp, ht⟩ := hpt
        have hst : x.pc ≠ .start := by rw [hp]; nofun
        have hne : x.pc ≠ .returned := by rw [hp]; nofun
        have hto := (hc.sel hp).1
        have htm := hc.timer ht
        have key : ∀ {es : List Ev}, (∀ e ∈ es, e = .failed c) → CallOk s.fin (.checkRet c none :: es ++ s.hist) c { x with pc := .returned } := by
          intro es hes
          have mm : ∀ {y : Ev}, y ∈ s.hist → y ∈ .checkRet c none :: es ++ s.hist := fun h => List.mem_append_right _ h
          have nn : ∀ {y : Ev}, y ∉ s.hist → y ≠ .failed c → y ≠ .checkRet c none → y ∉ .checkRet c none :: es ++ s.hist := by
            intro y h1 h2 h3 h
            rcases List.mem_append.1 h with h | h
            · rcases List.mem_cons.1 h with h | h
              · exact h3 h
              · exact h2 (hes y h)
            · exact h1 h
          exact { hc with
            called := mm hc.called
            killed := fun _ h => mm (hc.killed hst h)
            nokill := nofun
            nonil := nofun
            nofail := fun h => absurd rfl h
            nostop := fun h => absurd rfl h
            nocheck := fun h => absurd rfl h
            nodead := fun h => absurd rfl h
            sel := nofun
            wait := nofun
            full := nofun
            timer := fun h => mm (hc.timer h)
            dead := fun h1 h2 => mm (hc.dead h1 h2)
            nclosed := fun h1 => nn (hc.nclosed h1) nofun nofun
            closed := fun h1 h2 => mm (hc.closed h1 h2)
            fresh := fun h => by
              refine Classical.byContradiction fun hx => ?_
              exact nn (fun h' => hx (hc.fresh h')) nofun nofun h
            none := fun h => by rcases h with h | h | h <;> cases h
            rstop := fun _ h => by have h' : x.kind = .stop := h; rw [h'] at hto; simp [TimesOut] at hto
            rdead := fun _ h => by have h' : x.kind = .dead := h; rw [h'] at hto; simp [TimesOut] at hto
            rcheck := fun _ _ => ⟨none, List.mem_cons_self⟩ }
        by_cases hfl : x.kind.failsLate = true
        · rw [if_pos hfl] at hs
          cases hs
          have hna := (failsLate_iff _).1 hfl
          refine hI.set (es := [.checkRet c none, .failed c]) hx rfl (by simp [evId]) (by simp) ⟨⟨?_, x.kind, ?_, hto, ?_, ?_, ?_⟩, ⟨?_, ?_⟩, trivial⟩ (key (es := [.failed c]) (by simp))
          · exact List.mem_cons_of_mem _ htm
          · exact List.mem_cons_of_mem _ hc.called
          · exact fun h => List.mem_cons_of_mem _ (hc.killed hst h)
          · exact ⟨fun _ => hna, fun _ => List.mem_cons_self⟩
          · exact fun r' => nm (hc.nocheck hne r') nofun
          · exact hc.nofail hne
          · exact ⟨x.kind, hc.called, Or.inr ⟨hna, htm⟩⟩
        · rw [if_neg hfl] at hs
          cases hs
          refine hI.set (es := [.checkRet c none]) hx rfl (by simp [evId]) (by simp) ⟨⟨htm, x.kind, hc.called, hto, hc.killed hst, ?_, hc.nocheck hne⟩, trivial⟩ (key (es := []) (by simp))
          exact ⟨fun h => absurd h (hc.nofail hne), fun h => absurd ((failsLate_iff _).2 h) hfl⟩
      · cases hs

/-- A timeout that has fired stays fired. -/
theorem Reach.timer {s : State} (hr : Reach s) {c : Nat} {x : Call} (hx : s.calls[c]? = some x) (ht : .timeout c ∈ s.hist) : x.timer = true := by
  induction hr generalizing c x with
  | init => cases ht
  | @step s s' op hr hs ih =>
    have key : ∀ {c' : Nat} {y y' : Call} {es : List Ev}, s.calls[c']? = some y → (y.timer = true → y'.timer = true) →
        (∀ e ∈ es, ∀ c, e = .timeout c → c = c' ∧ y'.timer = true) → s'.calls = s.calls.set c' y' → s'.hist = es ++ s.hist → x.timer = true := by
      intro c' y y' es hy ht' hes h1 h2
      rw [h1] at hx
      rw [h2] at ht
      by_cases hc : c = c'
      · subst hc
        rw [List.getElem?_set_self (lt_of_get hy)] at hx
        cases hx
        rcases List.mem_append.1 ht with h | h
        · exact (hes _ h c rfl).2
        · exact ht' (ih hy h)
      · rw [List.getElem?_set_ne (fun h => hc h.symm)] at hx
        rcases List.mem_append.1 ht with h | h
        · exact absurd (hes _ h c rfl).1 hc
        · exact ih hx h
    cases op with
    | call k =>
      simp only [Worker.step, Op.id?, Option.some.injEq] at hs
      subst hs
      have ht := (List.mem_cons.1 ht).resolve_left nofun
      have hlt := hr.inv.ids _ ht c rfl
      simp only [State.emit] at hx
      rw [List.getElem?_append_left hlt] at hx
      exact ih hx ht
    | finish r =>
      simp only [Worker.step, Op.id?] at hs
      split at hs
      · cases hs
        exact ih hx ((List.mem_cons.1 ht).resolve_left nofun)
      · cases hs
    | _ =>
      simp only [Worker.step, Op.id?, Option.bind_eq_some_iff] at hs
      obtain ⟨y, hy, hs⟩ := hs
      simp only [stepCall] at hs
      repeat' split at hs
      all_goals first
        | (cases hs; done)
        | (cases hs
           refine key (es := []) hy ?_ ?_ rfl rfl
           · exact id
           · exact nofun)
        | (cases hs
           refine key (es := [_]) hy ?_ ?_ rfl rfl
           · first
              | exact id
              | exact fun _ => rfl
           · simp
             try exact fun _ h => h.symm)
        | (cases hs
           refine key (es := [_, _]) hy ?_ ?_ rfl rfl
           · exact id
           · simp)
        | skip

end Verif.Worker
