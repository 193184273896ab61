import Verif.Runner.Progress

/-!
# Runner: a `done` channel gets one value
-/

namespace Verif.Runner
open Tab State RSpec Verif.Spec

/-- A removed registration is not in use for any id, ever again. -/
theorem removed_unknown {p : Params} {h : List Ev} (hk : AtEvery (EvOk p) h) {id rid : Nat} (hm : .removed id rid ∈ h) (id' : Name) :
    knownH h id' ≠ some rid := by
  induction h with
  | nil => cases hm
  | cons e h ih =>
    have he := hk.1
    have hk' := hk.2
    cases e with
    | removed m r =>
      have he : knownH h m = some r ∧ _ := he
      simp only [knownH]
      split
      · nofun
      · rename_i hne
        intro hx
        rcases List.mem_cons.1 hm with heq | hm
        · cases heq
          obtain ⟨_, _, h1⟩ := known_accepted hx
          obtain ⟨_, _, h2⟩ := known_accepted he.1
          exact hne (accepted_inj hk' h1 h2)
        · exact ih hk' hm hx
    | accepted cid m r sf =>
      have hm' : Ev.removed id rid ∈ h := by
        rcases List.mem_cons.1 hm with heq | hm
        · cases heq
        · exact hm
      simp only [knownH]
      split
      · intro hx
        cases hx
        obtain ⟨_, sf', h1⟩ := removed_accepted hk' hm'
        exact he.2.2.2.2 ⟨_, _, _, h1⟩
      · exact ih hk' hm'
    | _ =>
      have hm' : Ev.removed id rid ∈ h := by
        rcases List.mem_cons.1 hm with heq | hm
        · cases heq
        · exact hm
      exact ih hk' hm'

/-- Once the value of a registration's `done` channel has been received there is no other. -/
theorem T.tokens {p : Params} {t t' : Tab} (hr : ReachT p t) (hT : T p t t') {id rid : Nat} (hm : .removed id rid ∈ t.hist)
    (ht : rid ∉ t.tokens) : rid ∉ t'.tokens := by
  have hun : ∀ id i, t.workers.get? id = some i → i.rid ≠ rid := by
    intro id' i hi he
    have := hr.hinv.kn id'
    rw [hi] at this
    exact removed_unknown hr.evOk hm id' (by rw [this, ← he]; rfl)
  cases hT with
  | stop j hp => show rid ∉ (killLocked _ j).tokens; rw [(killLocked_rest _ _).tokens]; exact ht
  | started gid j w hp =>
    show rid ∉ (setWorker t gid j w).tokens
    unfold setWorker
    split
    · exact ht
    · dsimp only
      split
      · rw [(killLocked_rest _ _).tokens]; exact ht
      · exact ht
  | done gid j e hp =>
    unfold workerDone
    split
    · exact ht
    · rename_i info hi
      have hne := hun j info hi
      have key : rid ∉ info.rid :: t.tokens := by
        intro hx
        rcases List.mem_cons.1 hx with hx | hx
        · exact hne hx.symm
        · exact ht hx
      dsimp only
      split
      · exact key
      · unfold beginShutdown
        split <;> exact key
      · exact ht
  | killNext id rest hp => show rid ∉ (killLocked t id).tokens; rw [(killLocked_rest _ _).tokens]; exact ht
  | take r cid ret hr => exact fun hx => ht (List.mem_of_mem_erase hx)
  | _ => exact ht

/-- A client with this number is there, at this place, and has not been cancelled. -/
def At (s : State) (cid : Nat) (pc : CPc) : Prop := ∃ c ∈ s.clients, c.cid = cid ∧ c.pc = pc ∧ c.cancelled = false

theorem At.mapC {s : State} {cid k : Nat} {pc : CPc} {f : Client → Client} (h : At s cid pc) (hne : k ≠ cid) :
    At (s.mapC k f) cid pc := by
  obtain ⟨c, hc, rfl, h1, h2⟩ := h
  exact ⟨c, List.mem_map.2 ⟨c, hc, by rw [if_neg (Ne.symm hne)]⟩, rfl, h1, h2⟩

theorem At.broadcast {s : State} {cid : Nat} {pc : CPc} (h : At s cid pc) : At (broadcast s) cid pc := by
  obtain ⟨c, hc, rfl, h1, h2⟩ := h
  exact ⟨_, List.mem_map.2 ⟨c, hc, rfl⟩, rfl, h1, h2⟩

theorem At.mapH {s : State} {cid k : Nat} {pc : CPc} {f : Helper → Helper} (h : At s cid pc) : At (s.mapH k f) cid pc := by
  obtain ⟨c, hc, rfl, h1, h2⟩ := h
  refine ⟨if c.cid = k then { c with helper := c.helper.map f } else c, List.mem_map.2 ⟨c, hc, rfl⟩, ?_, ?_, ?_⟩ <;> split <;> first | rfl | assumption

theorem At.eq {s : State} (hnd : (s.clients.map Client.cid).Nodup) {c : Client} (hc : c ∈ s.clients) {pc : CPc} (h : At s c.cid pc) :
    c.pc = pc ∧ c.cancelled = false := by
  obtain ⟨c', hc', h1, h2, h3⟩ := h
  rw [cid_inj hnd hc' hc h1] at h2 h3
  exact ⟨h2, h3⟩

theorem At.afterInfo {s : State} {c : Client} {cid : Nat} {pc : CPc} {id : Name} {r : Found} (h : At s cid pc) (hne : c.cid ≠ cid) :
    At (afterInfo s c id r) cid pc := by
  unfold Runner.afterInfo
  split
  · exact h.mapC hne
  · split
    · exact h.mapC hne
    · exact h.mapC hne

/-- A step of another client's call. -/
theorem At.other {s s' : State} {c : Client} {op : Op} {cid : Nat} {pc : CPc} (h : At s cid pc) (hop : op.cid? = some c.cid)
    (hne : c.cid ≠ cid) (hs : clientStep s c op = some s') : At s' cid pc := by
  unfold Runner.clientStep at hs
  split at hs <;> simp only [Op.cid?, Option.some.injEq, reduceCtorEq] at hop <;> (try subst hop)
  all_goals
    repeat' (split at hs)
    all_goals
      first
      | (cases hs; done)
      | (cases hs; exact h.mapC hne)
      | (cases hs; exact h.mapH)
      | (cases hs; exact h.broadcast.mapC hne)
      | (cases hs; exact h.afterInfo hne)

/-- A caller of StopAndRemoveWorker that waits for a value that will not come. -/
theorem At.stuck {p : Params} {s s' : State} {op : Op} {cid w rid : Nat} {e : Option Err} (hr : Reach p s)
    (h : At s cid (.removeSelect w rid e)) (ht : rid ∉ s.tab.tokens) (hop : op ≠ .cancel cid) (hs : step p s op = some s') :
    At s' cid (.removeSelect w rid e) := by
  have hnd := hr.minv.nd
  unfold Runner.step at hs
  split at hs
  · cases hs; obtain ⟨c, hc, h1⟩ := h; exact ⟨c, List.mem_cons_of_mem _ hc, h1⟩
  · cases hs; obtain ⟨c, hc, h1⟩ := h; exact ⟨c, List.mem_cons_of_mem _ hc, h1⟩
  · cases hs; obtain ⟨c, hc, h1⟩ := h; exact ⟨c, List.mem_cons_of_mem _ hc, h1⟩
  · cases hs; obtain ⟨c, hc, h1⟩ := h; exact ⟨c, List.mem_cons_of_mem _ hc, h1⟩
  · have key : ∀ k r, s.tab.pc = .reply k r → k ≠ cid := by
      rintro k r hp rfl
      obtain ⟨c, hc, rfl, hcp⟩ := hr.cinv.reply k (Or.inr ⟨_, hp⟩)
      have := (h.eq hnd hc).1
      rw [hcp] at this; cases this
    split at hs
    · rename_i k hp; cases hs; exact h.mapC (key _ _ hp)
    · rename_i k x hp; cases hs; exact h.mapC (key _ _ hp)
    · cases hs
  · split at hs
    · cases hs; exact h.broadcast
    · cases hs
  · split at hs
    · rename_i k hcid
      split at hs
      · rename_i c hg
        obtain ⟨hc, rfl⟩ := getC_some hg
        by_cases hne : c.cid = cid
        · subst hne
          obtain ⟨h1, h2⟩ := h.eq hnd hc
          unfold Runner.clientStep at hs
          split at hs <;> simp only [Op.cid?, Option.some.injEq, reduceCtorEq] at hcid <;> (try subst hcid)
          · exact absurd rfl hop
          all_goals
            try simp only [h1, h2] at hs
            try (cases hs; done)
            try (split at hs <;> cases hs; done)
          · rename_i hx; simp [ht] at hs
          · repeat' (split at hs)
            all_goals first | (cases hs; done) | (cases hs; exact h.mapH)
          · repeat' (split at hs)
            all_goals first | (cases hs; done) | (cases hs; exact h.mapH)
          · repeat' (split at hs)
            all_goals first | (cases hs; done) | (cases hs; exact h.mapH)
        · exact h.other hcid hne hs
      · cases hs
    · obtain ⟨t, _, rfl⟩ := Option.map_eq_some_iff.1 hs
      exact h

/-- … and goes on waiting, whatever happens, unless its abort channel is closed. -/
theorem At.stuck_forever {p : Params} {s s' : State} {n : Nat} {cid w rid id : Nat} {e : Option Err} {count : Op → Bool} (hr : Reach p s)
    (h : At s cid (.removeSelect w rid e)) (hm : .removed id rid ∈ s.tab.hist) (ht : rid ∉ s.tab.tokens)
    (hx : Exec p (fun op => op != .cancel cid) count n s s') : At s' cid (.removeSelect w rid e) := by
  induction hx with
  | nil => exact h
  | one op hok hs _ ih =>
    have hT := step_T hs
    obtain ⟨es, h2, _⟩ := hr.tab.emits hT
    exact ih (hr.step op hs) (h.stuck hr ht (by simpa using hok) hs) (by rw [h2]; exact List.mem_append_right _ hm)
      (hT.tokens hr.tab hm ht)

/-! ## Who has received the value -/

theorem GotResult.mono {h es : List Ev} {cid id rid : Nat} (ht : GotResult h cid id rid) : GotResult (es ++ h) cid id rid := by
  obtain ⟨post, pre, w, e, hh, rest⟩ := ht
  exact ⟨es ++ post, pre, w, e, by rw [hh, List.append_assoc], rest⟩

/-- What is registered stays so until it is removed. -/
theorem known_stays {p : Params} {mid pre : List Ev} {id rid : Nat} (hk : AtEvery (EvOk p) (mid ++ pre)) (h0 : knownH pre id = some rid)
    (hn : .removed id rid ∉ mid) : knownH (mid ++ pre) id = some rid := by
  induction mid with
  | nil => exact h0
  | cons e mid ih =>
    have h1 := ih hk.2 (fun h => hn (.tail _ h))
    have he := hk.1
    cases e with
    | removed m r =>
      simp only [List.cons_append, knownH]
      split
      · rename_i hm
        subst hm
        have he : knownH (mid ++ pre) id = some r ∧ _ := he
        rw [h1] at he
        cases he.1
        exact absurd (.head _) hn
      · exact h1
    | accepted cid m r sf =>
      simp only [List.cons_append, knownH]
      split
      · rename_i hm
        subst hm
        have he : knownH (mid ++ pre) id = none ∧ _ := he
        rw [h1] at he
        cases he.1
      · exact h1
    | _ => exact h1

/-- Registrations that are removed leave a value in their channel. -/
theorem T.left {p : Params} {t t' : Tab} (hT : T p t t') {id rid : Nat} (hm : .removed id rid ∈ t'.hist) :
    .removed id rid ∈ t.hist ∨ rid ∈ t'.tokens := by
  have log : ∀ {e : Ev} {h : List Ev}, .removed id rid ∈ e :: h → (∀ a b, e ≠ .removed a b) → .removed id rid ∈ h := by
    intro e h hm hne
    rcases List.mem_cons.1 hm with hm | hm
    · exact absurd hm.symm (hne _ _)
    · exact hm
  have app : ∀ {es h : List Ev}, .removed id rid ∈ es ++ h → (∀ e ∈ es, ∀ a b, e ≠ .removed a b) → .removed id rid ∈ h := by
    intro es h hm hne
    rcases List.mem_append.1 hm with hm | hm
    · exact absurd rfl (hne _ hm _ _)
    · exact hm
  have kill : ∀ (t : Tab) (j : Name), .removed id rid ∈ (killLocked t j).hist → .removed id rid ∈ t.hist := by
    intro t j hm
    rw [killLocked_hist] at hm
    refine app hm ?_
    intro e he a b
    rcases mem_killEvs he with rfl | ⟨w, rfl⟩ <;> nofun
  cases hT with
  | same => exact Or.inl hm
  | quiet e hq _ => exact Or.inl (log hm (by rintro a b rfl; cases hq))
  | stop j hp => exact Or.inl (log (kill _ _ hm) (by nofun))
  | started gid j w hp =>
    left
    have hm : .removed id rid ∈ (setWorker t gid j w).hist := hm
    unfold setWorker at hm
    split at hm
    · exact hm
    · dsimp only at hm
      split at hm
      · exact log (kill _ _ hm) (by nofun)
      · exact log hm (by nofun)
  | done gid j e hp =>
    unfold workerDone at hm ⊢
    split at hm
    · exact Or.inl hm
    · rename_i info hi
      simp only [hi]
      dsimp only at hm
      split at hm
      · rename_i hnr
        have hm : .removed id rid ∈ Ev.removed j info.rid :: .ended j gid e :: t.hist := hm
        rcases List.mem_cons.1 hm with hm | hm
        · cases hm; right; exact List.mem_cons_self
        · exact Or.inl (log hm (by nofun))
      · unfold beginShutdown at hm ⊢
        split at hm
        · have hm : .removed id rid ∈ Ev.removed j info.rid :: .ended j gid e :: t.hist := hm
          rcases List.mem_cons.1 hm with hm | hm
          · cases hm; right; split <;> exact List.mem_cons_self
          · exact Or.inl (log hm (by nofun))
        · have hm : .removed id rid ∈ Ev.shutdown :: Ev.removed j info.rid :: .ended j gid e :: t.hist := hm
          have hm := log hm (by nofun)
          rcases List.mem_cons.1 hm with hm | hm
          · cases hm; right; split <;> exact List.mem_cons_self
          · exact Or.inl (log hm (by nofun))
      · left
        exact log (log hm (by nofun)) (by nofun)
  | killNext id' rest hp => exact Or.inl (kill _ _ hm)
  | accepted => exact Or.inl (log (log hm (by nofun)) (by nofun))
  | _ => exact Or.inl (by first | exact hm | exact log hm (by nofun))

theorem afterInfo_tokens (s : State) (c : Client) (id : Name) (r : Found) : (afterInfo s c id r).tab.tokens = s.tab.tokens := by
  unfold afterInfo
  split
  · rfl
  · split <;> rfl

theorem clientStep_tokens {s s' : State} {c : Client} {op : Op} (hs : clientStep s c op = some s') (hn : ∀ k, op ≠ .cRemoved k) :
    s'.tab.tokens = s.tab.tokens := by
  unfold clientStep at hs
  split at hs
  case h_6 =>
    split at hs
    · cases hs
      split
      · rfl
      · exact afterInfo_tokens ..
    · cases hs
  case h_8 =>
    split at hs
    · cases hs
      split
      · rfl
      · exact afterInfo_tokens ..
    · cases hs
  all_goals first
    | exact absurd rfl (hn _)
    | (cases hs; rfl)
    | (cases hs; done)
    | (split at hs <;> first
        | (cases hs; rfl)
        | cases hs
        | (split at hs <;> first
          | (cases hs; rfl)
          | cases hs
          | (split at hs <;> first | (cases hs; rfl) | cases hs)))

theorem act_tokens (p : Params) (t : Tab) (now : Int) (m : Msg) {x : Nat} (hx : x ∈ t.tokens) : x ∈ (act p t now m).tokens := by
  cases m with
  | start cid n sf =>
    simp only [act]
    split
    · exact hx
    · split <;> exact hx
  | stop n => show x ∈ (killLocked _ n).tokens; rw [(killLocked_rest _ _).tokens]; exact hx
  | started g n w =>
    show x ∈ (setWorker t g n w).tokens
    unfold setWorker
    split
    · exact hx
    · dsimp only
      split
      · rw [(killLocked_rest _ _).tokens]; exact hx
      · exact hx
  | done g n e =>
    simp only [act]
    unfold workerDone
    split
    · exact hx
    · dsimp only
      split
      · exact List.mem_cons_of_mem _ hx
      · unfold beginShutdown
        split <;> exact List.mem_cons_of_mem _ hx
      · exact hx

theorem tabStep_tokens {p : Params} {s : State} {op : Op} {t : Tab} (h : tabStep p s op = some t) {x : Nat} (hx : x ∈ s.tab.tokens) :
    x ∈ t.tokens := by
  unfold tabStep at h
  split at h
  case h_6 =>
    split at h
    · split at h <;> cases h
      exact act_tokens _ _ _ _ hx
    · cases h
  case h_8 =>
    split at h
    · cases h; exact hx
    · rename_i id _ _; cases h
      show x ∈ (killLocked s.tab id).tokens
      rw [(killLocked_rest _ _).tokens]; exact hx
    · cases h
  all_goals first
    | (cases h; exact hx)
    | (cases h; done)
    | (split at h <;> first
        | (cases h; exact hx)
        | cases h
        | (split at h <;> first
          | (cases h; exact hx)
          | cases h
          | (split at h <;> first | (cases h; exact hx) | cases h)))

theorem step_tokens {p : Params} {s s' : State} {op : Op} (hs : Runner.step p s op = some s') (hn : ∀ k, op ≠ .cRemoved k) {x : Nat}
    (hx : x ∈ s.tab.tokens) : x ∈ s'.tab.tokens := by
  unfold Runner.step at hs
  split at hs
  · cases hs; exact hx
  · cases hs; exact hx
  · cases hs; exact hx
  · cases hs; exact hx
  · split at hs <;> cases hs <;> exact hx
  · split at hs <;> cases hs; exact hx
  · split at hs
    · split at hs
      · rw [clientStep_tokens hs hn]; exact hx
      · cases hs
    · obtain ⟨t, ht, rfl⟩ := Option.map_eq_some_iff.1 hs
      exact tabStep_tokens ht hx

/-- The value of a removed registration is in its channel, or a call has received it. -/
theorem Reach.took {p : Params} {s : State} (hr : Reach p s) {id rid : Nat} (hm : .removed id rid ∈ s.tab.hist) :
    rid ∈ s.tab.tokens ∨ ∃ cid id', GotResult s.tab.hist cid id' rid := by
  induction hr with
  | init => cases hm
  | @step s s' op hr hs ih =>
    obtain ⟨es, hes⟩ := T.grows hr.tab hr.tab.learn (step_T hs)
    by_cases hop : ∃ k, op = .cRemoved k
    · obtain ⟨k, rfl⟩ := hop
      unfold Runner.step at hs
      simp only [Op.cid?] at hs
      split at hs
      · rename_i c hc
        obtain ⟨hcm, rfl⟩ := getC_some hc
        unfold clientStep at hs
        dsimp only at hs
        split at hs
        · rename_i w rid' e hp
          split at hs
          · rename_i hct
            cases hs
            have hok := (hr.cinv.ok c hcm).pc
            unfold PcOk at hok
            rw [hp] at hok
            obtain ⟨id', h1, h2, h3, h4, _⟩ := hok
            have hm : .removed id rid ∈ Ev.ret c.cid (.result e) :: s.tab.hist := hm
            have hm : .removed id rid ∈ s.tab.hist := by
              rcases List.mem_cons.1 hm with hm | hm
              · cases hm
              · exact hm
            rcases ih hm with ht | ht
            · by_cases hrr : rid = rid'
              · subst hrr
                exact Or.inr ⟨c.cid, id', [], s.tab.hist, w, e, rfl, h1, h2, h3, h4⟩
              · exact Or.inl ((List.mem_erase_of_ne hrr).2 ht)
            · obtain ⟨a, b, ht⟩ := ht
              exact Or.inr ⟨a, b, GotResult.mono (es := [_]) ht⟩
          · cases hs
        · cases hs
      · cases hs
    · have hn : ∀ k, op ≠ .cRemoved k := fun k hk => hop ⟨k, hk⟩
      rcases T.left (step_T hs) hm with hm | hm
      · rcases ih hm with ht | ht
        · exact Or.inl (step_tokens hs hn ht)
        · obtain ⟨a, b, ht⟩ := ht
          rw [hes]; exact Or.inr ⟨a, b, GotResult.mono ht⟩
      · exact Or.inl hm

end Verif.Runner
