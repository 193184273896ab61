import Verif.Engine.ClientsExact

/-!
# Calls on an engine: every log that the specification allows is one of an engine and its clients
-/

namespace Verif.Engine
open State Verif.Spec

variable {cfg : Config}

/-- `h'` is `h` with what has to follow at once. -/
inductive CExt (cfg : Config) : List CEv → List CEv → Prop
  | refl {h} (hu : urgent cfg (engOf h) = none) : CExt cfg h h
  | step {h h' e} (hu : urgent cfg (engOf h) = some e) (hx : CExt cfg (.eng e :: h) h') : CExt cfg h h'

theorem CExt.eq {h h' : List CEv} (x : CExt cfg h h') (hu : urgent cfg (engOf h) = none) : h' = h := by
  cases x with
  | refl => rfl
  | step hu' => rw [hu] at hu'; cases hu'

theorem CExt.forced {h h' : List CEv} {e : Ev} (x : CExt cfg h h') (hu : urgent cfg (engOf h) = some e) : CExt cfg (.eng e :: h) h' := by
  cases x with
  | refl hu' => rw [hu] at hu'; cases hu'
  | step hu' hx => rw [hu] at hu'; cases hu'; exact hx

theorem CExt.of {h h' : List Ev} (x : Ext cfg h h') : ∀ {log : List CEv}, engOf log = h →
    ∃ es : List Ev, h' = es ++ h ∧ CExt cfg log (es.map .eng ++ log) := by
  induction x with
  | refl hu => rintro log rfl; exact ⟨[], rfl, .refl hu⟩
  | @step h h' e hu hx ih =>
    rintro log rfl
    obtain ⟨es, rfl, h2⟩ := ih (log := .eng e :: log) rfl
    refine ⟨es ++ [e], by simp, .step hu ?_⟩
    simpa using h2

/-! ## What the loop and others do -/

/-- States of the engine that are reached while the calls stay as they are. -/
def During (cfg : Config) (s : Clients) (f : Fine) : Prop :=
  ∃ es : List Ev, f.s.hist = es ++ engOf s.log ∧ CReach cfg { s with f := f, log := es.map .eng ++ s.log }

theorem During.refl {s : Clients} (hr : CReach cfg s) : During cfg s s.f := ⟨[], (creach_inv hr).hist.symm, hr⟩

theorem During.move {s : Clients} {f f' : Fine} {op : COp} {es : List Ev} (h : During cfg s f) (hh : f'.s.hist = es ++ f.s.hist)
    (hs : ∀ l, cstep cfg { s with f := f, log := l } op = some { s with f := f', log := news f.s f'.s ++ l }) :
    During cfg s f' := by
  obtain ⟨es0, h1, h2⟩ := h
  refine ⟨es ++ es0, by rw [hh, h1, List.append_assoc], ?_⟩
  have := CReach.step op h2 (hs _)
  rw [news_eq hh, ← List.append_assoc, ← List.map_append] at this
  exact this

theorem during_work {s : Clients} (hn : ∀ c, s.serving ≠ some (c, none)) {t : State} {tk : Task} {ts : List Task}
    (h : During cfg s ⟨t, tk :: ts⟩) (hk : tk ≠ .report) (hts : s.serving = none ∨ ts ≠ []) :
    During cfg s ⟨(exec cfg t tk).1, (exec cfg t tk).2 ++ ts⟩ := by
  obtain ⟨es, hh, _⟩ := mute_exec cfg t hk
  refine h.move (op := .work) (es := es) hh (fun l => ?_)
  have h1 : Clients.handing { s with f := ⟨t, tk :: ts⟩, log := l } = none := by
    unfold Clients.handing
    rcases hts with e | e
    · simp only [e]
    · split
      · rename_i h2
        injection h2 with _ h2
        exact absurd h2 e
      · rfl
  have h2 : Clients.noted { s with f := ⟨t, tk :: ts⟩, log := l } = s.serving := by
    unfold Clients.noted
    split
    · rename_i c _ h2 _
      exact absurd h2 (hn c)
    · rfl
  simp only [cstep, h1, h2, fstep, Option.isSome_none, Bool.false_eq_true, if_false, Option.map_some]
  rfl

theorem during_moves {s : Clients} (hn : ∀ c, s.serving ≠ some (c, none)) : Moves cfg (During cfg s) where
  reach h := let ⟨_, _, h⟩ := h; (creach_inv h).reach
  work h hk hts := during_work hn h hk (.inr hts)
  env {t t' ts op} h he hni hs := by
    obtain ⟨es, hh, _⟩ := env_aside he hni hs
    refine h.move (op := .other (.env op)) (es := es) hh (fun l => ?_)
    have hc : FOp.ofCall (.env op) = false := by
      cases op <;> first | rfl | exact absurd rfl (hni _)
    simp only [cstep, hc, Bool.false_eq_true, if_false, fstep, he, if_true, hs, Option.map_some]
    rfl

theorem during_loose {s : Clients} (hn : s.serving = none) : Loose cfg (During cfg s) where
  toMoves := during_moves (fun c h => by rw [hn] at h; cases h)
  check h := during_work (fun c h => by rw [hn] at h; cases h) h nofun (.inl hn)
  arm {f f' op} h ha hs := by
    have hc : op.ofCall = false := by cases op <;> first | rfl | cases ha
    obtain ⟨⟨es, hh, _⟩, _⟩ := other_mute hc hs
    refine h.move (op := .other op) (es := es) hh (fun l => ?_)
    simp only [cstep, hc, Bool.false_eq_true, if_false, hs, Option.map_some]
    rfl

/-! ## The state to be in -/

/-- A state of the engine and its clients for a log. -/
structure CCanon (cfg : Config) (s : Clients) (L : Hidden) (o : Option (Nat × Res)) : Prop where
  reach : CReach cfg s
  fit : Fit cfg s.f L
  owes : s.serving = o.map (fun x => (x.1, some x.2))

theorem CCanon.not_report {s : Clients} {L : Hidden} {o : Option (Nat × Res)} (k : CCanon cfg s L o) (c : Nat) :
    s.serving ≠ some (c, none) := by
  rw [k.owes]
  cases o <;> simp

theorem CCanon.canon {s : Clients} {L : Hidden} {o : Option (Nat × Res)} (k : CCanon cfg s L o) :
    Canon cfg (During cfg s) ⟨s.f.s, s.f.todo⟩ L := ⟨.refl k.reach, k.fit⟩

theorem CCanon.of {s : Clients} {L L' : Hidden} {o : Option (Nat × Res)} (k : CCanon cfg s L o) {f' : Fine}
    (h : Canon cfg (During cfg s) f' L') : ∃ es : List Ev, f'.s.hist = es ++ engOf s.log ∧
      CCanon cfg { s with f := f', log := es.map .eng ++ s.log } L' o := by
  obtain ⟨⟨es, h1, h2⟩, h3⟩ := h
  exact ⟨es, h1, h2, h3, k.owes⟩

theorem CCanon.asking {s : Clients} {L : Hidden} {o : Option (Nat × Res)} (k : CCanon cfg s L o) {c : Nat} {q : Req}
    (ho : Open s.log c q) (hc : ∀ r, o ≠ some (c, r)) : s.calls[c]? = some ⟨q, .asking⟩ := by
  have i := creach_inv k.reach
  obtain ⟨p, hp⟩ := (i.called c q).1 ho.1
  cases p with
  | asking => exact hp
  | returned =>
    obtain ⟨r, hr⟩ := (i.ret c).2 ⟨q, hp⟩
    exact absurd hr (ho.2 r)
  | served =>
    obtain ⟨r, hr⟩ := i.served c q hp
    rw [k.owes] at hr
    cases o with
    | none => cases hr
    | some x =>
      obtain ⟨c', r'⟩ := x
      simp only [Option.map_some, Option.some.injEq, Prod.mk.injEq] at hr
      exact absurd (by rw [hr.1]) (hc r')

/-- While a call is being answered, the loop is at work. -/
theorem cafter_busy {h : List CEv} {L : Hidden} {o : Option (Nat × Res)} (ha : CAfter cfg h L o) :
    o ≠ none → ∃ l, L.loop = .busy l := by
  induction ha with
  | new => exact fun h => absurd rfl h
  | call _ _ _ ih => exact ih
  | forced _ _ ih => exact ih
  | refused _ _ _ _ _ ih => exact ih
  | stopped _ _ _ _ ih => exact ih
  | waited _ _ _ _ ih => exact ih
  | handed => exact fun h => absurd rfl h
  | event _ _ hs hn hx ih =>
    intro h
    obtain ⟨l, hl⟩ := ih h
    have hne : Hidden.loop _ ≠ .idle := fun e => by rw [hl] at e; cases e
    cases hs <;> first
      | exact ⟨l, hl⟩
      | exact ⟨_, rfl⟩
      | (exact absurd (hx rfl) h)
      | (exact absurd ‹_› hne)
  | silent _ _ hs hx ih =>
    intro h
    obtain ⟨l, hl⟩ := ih h
    rw [hl] at hs
    cases hs with
    | start | tell => exact ⟨_, rfl⟩
    | ready => exact absurd (hx rfl) h
  | @taken h L e L' c q r _ _ hs _ hr _ =>
    intro _
    cases hs <;> first
      | exact ⟨_, rfl⟩
      | (cases q <;> cases r <;> exact hr.elim)
      | (cases q <;> cases r <;> first | exact hr.elim | (obtain ⟨_, _, ⟨h, _⟩ | ⟨h, _⟩⟩ := hr <;> cases h))

/-- The log is longer, and the calls are as they were. -/
theorem during_log {s : Clients} {L L' : Hidden} {o : Option (Nat × Res)} (k : CCanon cfg s L o) {f' : Fine}
    (h : Canon cfg (During cfg s) f' L') {h0 : List CEv} {es : List Ev} (he : h0 = es.map .eng ++ s.log)
    (hx : Ext cfg (engOf h0) f'.s.hist) : ∃ s', CCanon cfg s' L' o ∧ CExt cfg h0 s'.log := by
  subst he
  obtain ⟨es1, h1, h2⟩ := CExt.of hx rfl
  obtain ⟨es2, h3, h4⟩ := k.of h
  refine ⟨_, h4, ?_⟩
  have : es2 = es1 ++ es := by
    rw [engOf_news, ← List.append_assoc] at h1
    exact List.append_cancel_right (h3.symm.trans h1)
  subst this
  show CExt cfg _ ((es1 ++ es).map .eng ++ s.log)
  rw [List.map_append, List.append_assoc]
  exact h2

theorem answerFor {s : State} (hr : FReach cfg ⟨s, []⟩) {n : Name} {m : Manifold} {order : List Name}
    (ho : IsRangeOrder (s.manifolds.set n m) order) :
    (manH s.hist n ≠ none → installAnswer s n m order = .err (.alreadyInstalled n)) ∧
    (manH s.hist n = none → ¬ CyclicH (.installed n m :: s.hist) → installAnswer s n m order = .ok) ∧
    (manH s.hist n = none → CyclicH (.installed n m :: s.hist) → installAnswer s n m order = .err (.wrap 0 .cycle)) := by
  obtain ⟨D, hlk, c, i, x, hp⟩ := freach_exec hr
  have hman : s.manifolds.get? n = manH s.hist n := i.man n
  unfold installAnswer
  rw [hman]
  refine ⟨fun h => ?_, fun h hc => ?_, fun h hc => ?_⟩
  · rw [if_pos (Option.isSome_iff_ne_none.2 h)]
  · rw [h]
    simp [((acyclic_result i ho).resolve_right (fun h => hc h.2)).1]
  · rw [h]
    simp [((acyclic_result i ho).resolve_left (fun h => h.2 hc)).1]

/-- The loop receives a ticket, and decides. -/
theorem canon_taken {s : Clients} {L L' : Hidden} (k : CCanon cfg s L none) {e : Ev} {c : Nat} {q : Req} {r : Res}
    (hs : Happens cfg (engOf s.log) L e L') (ho : Open s.log c q) (hr : Right cfg s.log q e r) :
    ∃ s', CCanon cfg s' L' (some (c, r)) ∧ s'.log = .eng e :: s.log := by
  have i := creach_inv k.reach
  have hask := k.asking ho nofun
  obtain ⟨hreach, fit, howes⟩ := k
  obtain ⟨⟨st, todo⟩, calls, serving, log⟩ := s
  have hist : engOf log = st.hist := i.hist
  have hfr : FReach cfg ⟨st, todo⟩ := i.reach
  have hserv : serving = none := howes
  subst hserv
  rw [show engOf (Clients.log ⟨⟨st, todo⟩, calls, none, log⟩) = st.hist from hist] at hs
  have install : ∀ n m, q = .install n m → L.loop = .idle → (∀ order, IsRangeOrder (st.manifolds.set n m) order →
      installAnswer st n m order = r ∧ ∃ f', fstep cfg ⟨st, todo⟩ (.install n m order) = some f' ∧ f'.s.hist = e :: st.hist ∧
        Fit cfg f' L') →
      ∃ s', CCanon cfg s' L' (some (c, r)) ∧ s'.log = .eng e :: log := by
    rintro n m rfl hl h
    obtain ⟨order, hord⟩ := exists_order (st.manifolds.set n m)
    obtain ⟨h0, f', h1, h2, h3⟩ := h order hord
    have hst : cstep cfg ⟨⟨st, todo⟩, calls, none, log⟩ (.take c order) =
        some { (Clients.move ⟨⟨st, todo⟩, calls, none, log⟩ f').setPc c .served with
          serving := some (c, some (installAnswer st n m order)) } := by
      simp only [cstep, show calls[c]? = _ from hask, h1, Option.map_some]
    refine ⟨_, ⟨.step (.take c order) hreach hst, h3, ?_⟩, ?_⟩
    · show some (c, some (installAnswer st n m order)) = _
      rw [h0]; rfl
    · show news st f'.s ++ log = _
      rw [news_eq (es := [e]) h2]; rfl
  have ht : L.loop = .idle → todo = [] := fit.idle
  cases hs with
  | installed n m hl hm hc =>
    have := ht hl; subst this
    cases q with
    | report | wait => exact hr.elim
    | install n' m' =>
      cases r with
      | err | live | stopped | waited => exact hr.elim
      | ok =>
        obtain ⟨rfl, rfl, _⟩ := hr
        exact install _ _ rfl hl (fun order ho => ⟨(answerFor hfr ho).2.1 hm hc, fit_installed hfr fit hl hm hc ho⟩)
  | already n hl hm =>
    have := ht hl; subst this
    cases q with
    | report | wait => exact hr.elim
    | install n' m' =>
      cases r with
      | ok | live | stopped | waited => exact hr.elim
      | err e' =>
        obtain ⟨rfl, rfl, _⟩ := hr
        exact install _ _ rfl hl (fun order ho => ⟨(answerFor hfr ho).1 hm, fit_already hfr fit m' hl hm ho⟩)
  | cycle n m hl hm hc =>
    have := ht hl; subst this
    cases q with
    | report | wait => exact hr.elim
    | install n' m' =>
      cases r with
      | ok | live | stopped | waited => exact hr.elim
      | err e' =>
        obtain ⟨rfl, rfl, h⟩ := hr
        rcases h with ⟨h, _⟩ | ⟨_, _, hc'⟩
        · cases h
        rw [hist] at hc'
        exact install _ _ rfl hl (fun order ho => ⟨(answerFor hfr ho).2.2 hm hc', fit_cycle hfr fit hl hm hc' ho⟩)
  | report hl =>
    have := ht hl; subst this
    cases q with
    | install | wait => exact hr.elim
    | report =>
      cases r with
      | ok | err | stopped | waited => exact hr.elim
      | live d er l =>
        obtain ⟨rfl, rfl, rfl, _⟩ := hr
        obtain ⟨h1, h2, h3⟩ := fit_report hfr fit hl
        have hr1 : CReach cfg ⟨⟨st, [.report, .check]⟩, (Clients.setPc ⟨⟨st, []⟩, calls, none, log⟩ c .served).calls, some (c, none), log⟩ := by
          refine .step (.take c []) hreach ?_
          simp only [cstep, show calls[c]? = _ from hask, h1, Option.map_some]
          rw [Option.some.injEq]
          show (⟨_, _, _, news st st ++ log⟩ : Clients) = _
          rw [news_eq (es := []) rfl]
          rfl
        have hst : ∀ cs, cstep cfg ⟨⟨st, [.report, .check]⟩, cs, some (c, none), log⟩ .work =
            some { Clients.move ⟨⟨st, [.report, .check]⟩, cs, some (c, none), log⟩ ⟨liveReport st, [.check]⟩ with
              serving := Clients.noted ⟨⟨st, [.report, .check]⟩, cs, some (c, none), log⟩ } := by
          intro cs
          simp only [cstep, Clients.handing, Option.isSome_none, Bool.false_eq_true, if_false, fstep, Option.map_some]
          rfl
        refine ⟨_, ⟨.step .work hr1 (hst _), h3, ?_⟩, ?_⟩
        · show some (c, liveAnswer st) = _
          unfold liveAnswer
          simp only [h2]
          rfl
        · show news st (liveReport st) ++ log = _
          rw [news_eq (es := [_]) h2]; rfl
  | refuseInstall n hk =>
    cases q with
    | report | wait => exact hr.elim
    | install n' m' =>
      cases r with
      | ok | live | stopped | waited => exact hr.elim
      | err e' =>
        obtain ⟨_, _, ⟨h, _⟩ | ⟨h, _⟩⟩ := hr <;> cases h
  | _ => cases q <;> cases r <;> exact hr.elim

/-- The loop hands its answer over. -/
theorem canon_handed {s : Clients} {L : Hidden} {c : Nat} {r : Res} (k : CCanon cfg s L (some (c, r))) (hl : L.loop = .busy []) :
    ∃ s', CCanon cfg s' L none ∧ s'.log = .ret c r :: s.log := by
  have M := during_moves (cfg := cfg) k.not_report
  obtain ⟨hd, ho⟩ := k.fit.loop.of_busy hl
  obtain ⟨o, es, h1, h2⟩ := advance_nil M (During.refl k.reach) ho
  have hes : es = [] := by
    rw [(creach_inv k.reach).hist] at h1
    have h1 : s.f.s.hist = es ++ s.f.s.hist := h1
    simpa using h1
  subst hes
  obtain ⟨⟨a1, a2, a3, a4⟩, a5, a6, a7⟩ := k.fit
  have hst : ∀ f cs l, f.todo = [.check] → cstep cfg ⟨f, cs, s.serving, l⟩ .reply =
      some (Clients.answer ⟨f, cs, none, l⟩ c r) := by
    intro f cs l hf
    simp only [cstep, Clients.handing, k.owes, hf, Option.map_some]
  refine ⟨_, ⟨.step .reply h2 (hst _ _ _ rfl), ?_, ?_⟩, ?_⟩
  · refine ⟨⟨a1, a2, a3, a4.same rfl (fun _ => rfl) (fun _ => rfl)⟩, ?_, a6, fun h => by rw [hl] at h; cases h⟩
    rw [hl]; exact .busy hd (.done _)
  · rfl
  · rfl

/-- An Install finds the engine dying. -/
theorem canon_refused {s : Clients} {L : Hidden} {o : Option (Nat × Res)} (k : CCanon cfg s L o) {c : Nat} {n : Name} {m : Manifold}
    (ho : Open s.log c (.install n m)) (hc : ∀ r, o ≠ some (c, r)) (hk : .kill ∈ engOf s.log) :
    ∃ s', CCanon cfg s' L o ∧ s'.log = .ret c (.err .shuttingDown) :: .eng (.installFailed n .shuttingDown) :: s.log := by
  have i := creach_inv k.reach
  rw [i.hist] at hk
  obtain ⟨f', h1, h2, h3⟩ := fit_refused (s := s.f.s) (todo := s.f.todo) i.reach k.fit n hk
  have hst : cstep cfg s (.refuse c) = some ((s.move f').answer c (.err .shuttingDown)) := by
    simp only [cstep, k.asking ho hc, show fstep cfg s.f _ = _ from h1, Option.map_some]
  refine ⟨_, ⟨.step (.refuse c) k.reach hst, h3, k.owes⟩, ?_⟩
  · show _ :: (s.move f').log = _
    rw [news_append s (es := [_]) h2]; rfl

/-- A call finds the engine dead. -/
theorem canon_atEnd {s : Clients} {L : Hidden} {o : Option (Nat × Res)} (k : CCanon cfg s L o) {c : Nat} (hx : .exit ∈ engOf s.log) :
    (Open s.log c .wait → ∃ s', CCanon cfg s' L o ∧ s'.log = .ret c (.waited (waitedH cfg (engOf s.log))) :: s.log) ∧
    (Open s.log c .report → ∃ s', CCanon cfg s' L o ∧
      s'.log = .ret c (.stopped (waitedH cfg (engOf s.log)) ((orderH (engOf s.log)).map (lineH (engOf s.log)))) :: s.log) := by
  have i := creach_inv k.reach
  obtain ⟨D, hex⟩ := freach_ex i.reach
  obtain ⟨core, hi⟩ := ex_hinv hex
  have hr := Props.ex_wait_result hex
  rw [i.hist] at hx ⊢
  rw [if_pos hx] at hr
  have hr : waitResult cfg s.f.s = some (waitedH cfg s.f.s.hist) := hr
  have hd : s.f.s.tomb.dead = true := hi.dead.2 hx
  have hne : ∀ r, o ≠ some (c, r) := by
    rintro r rfl
    have hsv := i.serving
    unfold Serving at hsv
    rw [k.owes] at hsv
    obtain ⟨q, x, a, y, _, _, _, _, h⟩ := hsv
    obtain ⟨_, hk⟩ := freach_link i.reach
    have := hk.2.2.1 (by rcases h with ⟨_, _, _, h, _⟩ | ⟨h, _⟩ <;> rw [h] <;> simp)
    rw [hd] at this; cases this
  constructor
  · intro ho
    have hst : cstep cfg s (.atEnd c) = some (s.answer c (.waited (waitedH cfg s.f.s.hist))) := by
      simp only [cstep, k.asking ho hne, hr, Option.map_some]
    exact ⟨_, ⟨.step (.atEnd c) k.reach hst, k.fit, k.owes⟩, rfl⟩
  · intro ho
    have hst : cstep cfg s (.atEnd c) = some (s.answer c (.stopped (waitedH cfg s.f.s.hist) (reportLines s.f.s))) := by
      simp only [cstep, k.asking ho hne, deadReport, hr, Option.map_some]
    refine ⟨_, ⟨.step (.atEnd c) k.reach hst, k.fit, k.owes⟩, ?_⟩
    show CEv.ret c (.stopped (waitedH cfg s.f.s.hist) (reportLines s.f.s)) :: s.log = _
    rw [lines_eq core hi, (ex_xinv hex).2.keys]

/-- Every log that is allowed is one of an engine and its clients. -/
theorem cafter_canon {log : List CEv} {L : Hidden} {o : Option (Nat × Res)} (ha : CAfter cfg log L o) :
    ∃ s, CCanon cfg s L o ∧ CExt cfg log s.log := by
  induction ha with
  | new => exact ⟨{}, ⟨.init, ⟨⟨.new, rfl, rfl, nofun⟩, .idle rfl, nofun, fun _ => rfl⟩, rfl⟩, .refl rfl⟩
  | call ha hu q ih =>
    obtain ⟨s, k, x⟩ := ih
    have e := x.eq hu
    subst e
    refine ⟨_, ⟨.step (.call q) k.reach rfl, k.fit, k.owes⟩, ?_⟩
    simp only [creach_calls k.reach]
    exact .refl hu
  | event ha hu hs hn hx ih =>
    obtain ⟨s, k, x⟩ := ih
    have e := x.eq hu
    subst e
    rw [(creach_inv k.reach).hist] at hs
    have hb := cafter_busy ha
    obtain ⟨f', k', x'⟩ := canon_event (during_moves k.not_report) k.canon hs (fun h => by
      refine during_loose ?_
      rw [k.owes]
      rcases h with h | h
      · cases ho : ‹Option (Nat × Res)› with
        | none => rfl
        | some y =>
          obtain ⟨l, hl⟩ := hb (by rw [ho]; simp)
          rw [h] at hl; cases hl
      · rw [hx h]; rfl) hn
    refine during_log k k' (es := [_]) rfl ?_
    show Ext cfg (_ :: engOf s.log) _
    rw [(creach_inv k.reach).hist]; exact x'
  | forced ha hu ih =>
    obtain ⟨s, k, x⟩ := ih
    exact ⟨s, k, x.forced hu⟩
  | silent ha hu hs hx ih =>
    obtain ⟨s, k, x⟩ := ih
    have e := x.eq hu
    subst e
    rw [(creach_inv k.reach).hist] at hs
    obtain ⟨f', k', e⟩ := canon_silent (during_moves k.not_report) k.canon hs (fun h => during_loose (by rw [k.owes, hx h]; rfl))
    refine during_log k k' (es := []) rfl ?_
    rw [e]
    show Ext cfg (engOf s.log) _
    rw [(creach_inv k.reach).hist]
    exact .refl (by rw [← (creach_inv k.reach).hist]; exact hu)
  | taken ha hu hs ho hr ih =>
    obtain ⟨s, k, x⟩ := ih
    have e := x.eq hu
    subst e
    obtain ⟨s', k', e⟩ := canon_taken k hs ho hr
    refine ⟨s', k', ?_⟩
    rw [e]
    refine .refl ?_
    rw [← e, (creach_inv k'.reach).hist]
    exact k'.fit.half.2.1
  | handed ha hu hl ih =>
    obtain ⟨s, k, x⟩ := ih
    have e := x.eq hu
    subst e
    obtain ⟨s', k', e⟩ := canon_handed k hl
    exact ⟨s', k', by rw [e]; exact .refl hu⟩
  | refused ha hu ho hc hk ih =>
    obtain ⟨s, k, x⟩ := ih
    have e := x.eq hu
    subst e
    obtain ⟨s', k', e⟩ := canon_refused k ho hc hk
    exact ⟨s', k', by rw [e]; exact .refl rfl⟩
  | stopped ha hu ho hx ih =>
    obtain ⟨s, k, x⟩ := ih
    have e := x.eq hu
    subst e
    obtain ⟨s', k', e⟩ := (canon_atEnd k hx).2 ho
    exact ⟨s', k', by rw [e]; exact .refl hu⟩
  | waited ha hu ho hx ih =>
    obtain ⟨s, k, x⟩ := ih
    have e := x.eq hu
    subst e
    obtain ⟨s', k', e⟩ := (canon_atEnd k hx).1 ho
    exact ⟨s', k', by rw [e]; exact .refl hu⟩

end Verif.Engine
