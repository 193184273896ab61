import Verif.Runner.Helpers
import Verif.Runner.Tokens
import Verif.Runner.Requests
import Verif.Spec.Fair

/-!
# Runner: infinite executions in which nothing that can go on is passed over for ever
-/

namespace Verif.Runner
open Tab State RSpec Verif.Spec

/-! ## What a step does to each client call -/

/-- The steps by which a client call goes on. -/
def Op.mover : Op → Option Nat
  | .recvStart c | .recvStop c | .cDead c | .cLock c | .cImmediate c | .cRecv c | .cGotWc c | .cDying c
  | .cAbort c | .cClose c | .cBcast c | .cKill c | .cWaitRet c | .cRemoveAbort c | .cRemoved c => some c
  | _ => none

/-- What a step may do to a client call. -/
structure CMove (x y : Client) : Prop where
  cid : y.cid = x.cid
  remove : y.remove = x.remove
  cancelled : x.cancelled = true → y.cancelled = true
  pc : y.pc = x.pc ∨ y.pc.rank < x.pc.rank

theorem CMove.refl (x : Client) : CMove x x := ⟨rfl, rfl, id, Or.inl rfl⟩

theorem CMove.to (x : Client) (pc : CPc) (h : pc.rank < x.pc.rank) : CMove x { x with pc := pc } := ⟨rfl, rfl, id, Or.inr h⟩

theorem clientStep_moves {s s' : State} {c : Client} {op : Op} (hnd : (s.clients.map Client.cid).Nodup) (hc : c ∈ s.clients)
    (hop : op.cid? = some c.cid) (hs : clientStep s c op = some s') {x : Client} (hx : x ∈ s.clients) :
    ∃ y ∈ s'.clients, CMove x y ∧ (op.mover = some x.cid → y.pc.rank < x.pc.rank) := by
  have mv : ∀ (f : Client → Client), s'.clients = s.clients.map (fun x => if x.cid = c.cid then f x else x) →
      CMove c (f c) → (op.mover = some c.cid → (f c).pc.rank < c.pc.rank) →
      ∃ y ∈ s'.clients, CMove x y ∧ (op.mover = some x.cid → y.pc.rank < x.pc.rank) := by
    intro f hcl h1 h2
    by_cases hk : x.cid = c.cid
    · obtain rfl := cid_inj hnd hx hc hk
      exact ⟨f x, by rw [hcl]; exact List.mem_map.2 ⟨x, hx, by simp⟩, h1, h2⟩
    · refine ⟨x, by rw [hcl]; exact List.mem_map.2 ⟨x, hx, by simp [hk]⟩, .refl x, fun hm => ?_⟩
      have : op.mover = some x.cid → op.cid? = some x.cid := by cases op <;> simp [Op.mover, Op.cid?]
      rw [this hm] at hop; exact absurd (Option.some.inj hop) hk
  have to : ∀ (pc : CPc), s'.clients = s.clients.map (fun x => if x.cid = c.cid then { x with pc := pc } else x) →
      pc.rank < c.pc.rank → ∃ y ∈ s'.clients, CMove x y ∧ (op.mover = some x.cid → y.pc.rank < x.pc.rank) :=
    fun pc hcl h => mv (fun x => { x with pc := pc }) hcl (.to c pc h) (fun _ => h)
  have hmap : ∀ (f : Helper → Helper), s'.clients = (s.mapH c.cid f).clients → op.mover = none →
      ∃ y ∈ s'.clients, CMove x y ∧ (op.mover = some x.cid → y.pc.rank < x.pc.rank) :=
    fun f hcl hn => mv (fun x => { x with helper := x.helper.map f }) hcl ⟨rfl, rfl, id, Or.inl rfl⟩ (by rw [hn]; nofun)
  have info : ∀ (id : Name) (r : Found), s' = Runner.afterInfo s c id r → 3 < c.pc.rank →
      ∃ y ∈ s'.clients, CMove x y ∧ (op.mover = some x.cid → y.pc.rank < x.pc.rank) := by
    intro id r he h
    cases r with
    | notFound => exact to (.returned (.err (.notFound id))) (by rw [he]; rfl) (Nat.lt_of_le_of_lt (Nat.zero_le 3) h)
    | worker w rid =>
      by_cases hrm : c.remove = true
      · exact to (.removeKill w rid) (by rw [he]; simp only [Runner.afterInfo, hrm, if_true]; rfl) h
      · exact to (.returned (.worker w)) (by rw [he]; simp only [Runner.afterInfo, hrm]; rfl)
          (Nat.lt_of_le_of_lt (Nat.zero_le 3) h)
  unfold clientStep at hs
  split at hs <;> simp only [Op.cid?, Option.some.injEq, reduceCtorEq] at hop <;> (try subst hop)
  · cases hs
    exact mv (fun c => { c with cancelled := true }) rfl ⟨rfl, rfl, fun _ => rfl, Or.inl rfl⟩ nofun
  · split at hs
    · split at hs <;> cases hs
      rename_i hp
      exact to .startReply rfl (by rw [hp]; simp [CPc.rank])
    · cases hs
  · split at hs
    · split at hs <;> cases hs
      rename_i hp
      exact to (.returned .ok) rfl (by rw [hp]; simp [CPc.rank])
    · cases hs
  · split at hs
    · rename_i hp
      split at hs <;> cases hs
      exact to (.returned (.err .runnerDead)) rfl (by rw [hp]; simp [CPc.rank])
    · rename_i hp
      split at hs <;> cases hs
      exact to (.returned (.err .runnerDead)) rfl (by rw [hp]; simp [CPc.rank])
    · cases hs
  · split at hs
    · rename_i id hp
      split at hs
      · split at hs <;> cases hs
        · exact to (.immediate id _) rfl (by rw [hp]; simp [CPc.rank])
        · exact mv (fun c => { c with pc := .waiting id, helper := some { id := id } }) rfl
            ⟨rfl, rfl, fun h => h, Or.inr (by rw [hp]; simp [CPc.rank])⟩ (fun _ => by rw [hp]; simp [CPc.rank])
      · cases hs
    · cases hs
  · split at hs
    · rename_i id r hp
      have hs := Option.some.inj hs
      split at hs
      · subst hs; exact to (.returned (.err .runnerDead)) rfl (by rw [hp]; simp [CPc.rank])
      · exact info id r hs.symm (by rw [hp]; simp [CPc.rank])
    · cases hs
  · split at hs
    · rename_i id r hp _
      cases hs
      exact mv (fun c => { c with pc := .gotWc id r, helper := c.helper.map (fun h => { h with wc := none }) }) rfl
        ⟨rfl, rfl, fun h => h, Or.inr (by rw [hp]; simp [CPc.rank])⟩ (fun _ => by rw [hp]; simp [CPc.rank])
    · cases hs
  · split at hs
    · rename_i id r hp
      have hs := Option.some.inj hs
      split at hs
      · subst hs; exact to (.returned (.err .runnerDead)) rfl (by rw [hp]; simp [CPc.rank])
      · exact info id r hs.symm (by rw [hp]; simp [CPc.rank])
    · cases hs
  · split at hs
    · rename_i hp
      split at hs <;> cases hs
      exact to (.returned (.err .runnerDead)) rfl (by rw [hp]; simp [CPc.rank])
    · cases hs
  · split at hs
    · rename_i hp
      split at hs <;> cases hs
      exact to (.closing _) rfl (by rw [hp]; simp [CPc.rank])
    · cases hs
  · split at hs
    · rename_i id hp
      cases hs
      exact mv (fun c => { c with pc := .bcasting id, helper := c.helper.map (fun h => { h with stopped := true }) }) rfl
        ⟨rfl, rfl, fun h => h, Or.inr (by rw [hp]; simp [CPc.rank])⟩ (fun _ => by rw [hp]; simp [CPc.rank])
    · cases hs
  · split at hs
    · rename_i id hp
      cases hs
      by_cases hk : x.cid = c.cid
      · obtain rfl := cid_inj hnd hx hc hk
        refine ⟨{ x with helper := x.helper.map Helper.wake, pc := .returned (.err .runnerAborted) }, ?_,
          ⟨rfl, rfl, fun h => h, Or.inr (by rw [hp]; simp [CPc.rank])⟩, fun _ => by rw [hp]; simp [CPc.rank]⟩
        exact List.mem_map.2 ⟨{ x with helper := x.helper.map Helper.wake }, List.mem_map.2 ⟨x, hx, rfl⟩, by simp⟩
      · refine ⟨{ x with helper := x.helper.map Helper.wake }, ?_, ⟨rfl, rfl, fun h => h, Or.inl rfl⟩, fun hm => ?_⟩
        · exact List.mem_map.2 ⟨{ x with helper := x.helper.map Helper.wake }, List.mem_map.2 ⟨x, hx, rfl⟩, by simp [hk]⟩
        · exact absurd (Option.some.inj hm).symm hk
    · cases hs
  · split at hs
    · rename_i hp
      cases hs
      exact to (.removeWait _ _) rfl (by rw [hp]; simp [CPc.rank])
    · cases hs
  · split at hs
    · rename_i hp
      split at hs <;> cases hs
      exact to (.removeSelect _ _ _) rfl (by rw [hp]; simp [CPc.rank])
    · cases hs
  · split at hs
    · rename_i hp
      split at hs <;> cases hs
      exact to (.returned (.err .runnerAborted)) rfl (by rw [hp]; simp [CPc.rank])
    · cases hs
  · split at hs
    · rename_i hp
      split at hs <;> cases hs
      exact to (.returned (.result _)) rfl (by rw [hp]; simp [CPc.rank])
    · cases hs
  · split at hs
    · split at hs
      · split at hs <;> cases hs
        · exact hmap (fun h => { h with pc := .done }) rfl rfl
        · exact hmap (fun h => { h with pc := .enter }) rfl rfl
      · cases hs
    · cases hs
  · split at hs
    · split at hs <;> cases hs
      exact hmap (fun h => { h with pc := .sleep }) rfl rfl
    · cases hs
  · split at hs
    · split at hs
      · split at hs <;> cases hs
        · exact hmap (fun h => { h with pc := .done, wc := some _ }) rfl rfl
        · exact hmap (fun h => { h with pc := .check }) rfl rfl
      · cases hs
    · cases hs

theorem step_moves {p : Params} {s s' : State} {op : Op} (hr : Reach p s) (hs : Runner.step p s op = some s') {x : Client}
    (hx : x ∈ s.clients) : ∃ y ∈ s'.clients, CMove x y ∧ (op.mover = some x.cid → y.pc.rank < x.pc.rank) := by
  have new : ∀ c e, s' = newClient s c e → op.mover = none →
      ∃ y ∈ s'.clients, CMove x y ∧ (op.mover = some x.cid → y.pc.rank < x.pc.rank) := by
    rintro c e rfl hm
    exact ⟨x, List.mem_cons_of_mem _ hx, .refl x, by rw [hm]; nofun⟩
  unfold Runner.step at hs
  split at hs
  · cases hs; exact new _ _ rfl rfl
  · cases hs; exact new _ _ rfl rfl
  · cases hs; exact new _ _ rfl rfl
  · cases hs; exact new _ _ rfl rfl
  · have key : ∀ cid r ret, s.tab.pc = .reply cid r →
        ∃ y ∈ (s.cto cid (.returned ret)).clients, CMove x y ∧ ((Op.reply).mover = some x.cid → y.pc.rank < x.pc.rank) := by
      intro cid r ret hp
      obtain ⟨c, hc, rfl, hcp⟩ := hr.cinv.reply cid (Or.inr ⟨_, hp⟩)
      by_cases hk : x.cid = c.cid
      · obtain rfl := cid_inj hr.minv.nd hx hc hk
        exact ⟨{ x with pc := .returned ret }, List.mem_map.2 ⟨x, hx, by simp⟩, .to x _ (by rw [hcp]; simp [CPc.rank]), nofun⟩
      · exact ⟨x, List.mem_map.2 ⟨x, hx, by simp [hk]⟩, .refl x, nofun⟩
    split at hs
    · rename_i cid hp; cases hs; exact key cid _ _ hp
    · rename_i cid e hp; cases hs; exact key cid _ _ hp
    · cases hs
  · split at hs
    · cases hs
      exact ⟨{ x with helper := x.helper.map Helper.wake }, List.mem_map.2 ⟨x, hx, rfl⟩, ⟨rfl, rfl, fun h => h, Or.inl rfl⟩, nofun⟩
    · cases hs
  · split at hs
    · rename_i cid hcid
      split at hs
      · rename_i c hg
        obtain ⟨hc, rfl⟩ := getC_some hg
        exact clientStep_moves hr.minv.nd hc hcid hs hx
      · cases hs
    · rename_i hcid
      obtain ⟨t, ht, rfl⟩ := Option.map_eq_some_iff.1 hs
      refine ⟨x, hx, .refl x, fun hm => ?_⟩
      have : op.mover = some x.cid → op.cid? = some x.cid := by cases op <;> simp [Op.mover, Op.cid?]
      rw [this hm] at hcid; cases hcid

/-! ## What a step does to runner.mu -/

theorem step_mu {p : Params} {s s' : State} {op : Op} {cid : Nat} (hs : Runner.step p s op = some s') (hm : s.mu = some cid) :
    s'.mu = some cid ∨ s'.mu = none := by
  unfold Runner.step at hs
  split at hs
  · cases hs; exact Or.inl hm
  · cases hs; exact Or.inl hm
  · cases hs; exact Or.inl hm
  · cases hs; exact Or.inl hm
  · split at hs <;> cases hs <;> exact Or.inl hm
  · split at hs <;> cases hs; exact Or.inl hm
  · split at hs
    · split at hs
      · unfold clientStep at hs
        have hfree : s.muFree = false := by unfold State.muFree; rw [hm]; rfl
        have hi : ∀ c id r, (Runner.afterInfo s c id r).mu = s.mu := by
          intro c id r; unfold Runner.afterInfo; split
          · rfl
          · split <;> rfl
        split at hs <;>
          first
          | (cases hs; done)
          | (cases hs; exact Or.inl hm)
          | (split at hs
             · first
               | (cases hs; done)
               | (cases hs; exact Or.inl hm)
               | (cases hs; exact Or.inr rfl)
               | (split at hs <;> cases hs <;> first | exact Or.inl hm | exact Or.inr rfl)
               | (cases hs; split
                  · exact Or.inl hm
                  · rw [hi]; exact Or.inl hm)
               | (simp [hfree] at hs; done)
               | (split at hs
                  · split at hs <;> cases hs <;> first | exact Or.inl hm | exact Or.inr rfl
                  · cases hs)
             · first
               | (cases hs; done)
               | (split at hs <;> cases hs <;> exact Or.inl hm)
             · cases hs)
          | (split at hs
             · first
               | (cases hs; done)
               | (cases hs; exact Or.inl hm)
               | (cases hs; exact Or.inr rfl)
               | (split at hs <;> cases hs <;> first | exact Or.inl hm | exact Or.inr rfl)
               | (cases hs; split
                  · exact Or.inl hm
                  · rw [hi]; exact Or.inl hm)
               | (simp [hfree] at hs; done)
               | (split at hs
                  · split at hs <;> cases hs <;> first | exact Or.inl hm | exact Or.inr rfl
                  · cases hs)
             · cases hs)
      · cases hs
    · obtain ⟨t, ht, rfl⟩ := Option.map_eq_some_iff.1 hs
      exact Or.inl hm

/-! ## What a step does to the place of the loop -/

/-- How far the loop is from rest, with `n` goroutines. -/
def LoopPc.far (n : Nat) : LoopPc → Nat
  | .act _ => n + 5
  | pc => pc.rank n

theorem T.loop {p : Params} {t t' : Tab} (hsh : Shape p t) (h : T p t t') (h1 : t.pc ≠ .select) (h2 : t.pc ≠ .exited) :
    (t'.pc = t.pc ∧ t'.gs.length = t.gs.length) ∨ t'.pc.far t'.gs.length < t.pc.far t.gs.length := by
  cases h with
  | exit h _ _ => right; rw [h]; simp [LoopPc.far, LoopPc.rank, goTo]
  | select h _ => right; rw [h]; simp [LoopPc.far, LoopPc.rank, goTo]
  | recvDying h _ _ => exact absurd h h1
  | recvStart cid id sf h => exact absurd h h1
  | recvStop cid id h => exact absurd h h1
  | recvStarted g w h _ _ => exact absurd h h1
  | recvDone g e h _ _ => exact absurd h h1
  | ignored cid id sf h _ => right; rw [h]; simp [LoopPc.far, LoopPc.rank, goTo]
  | refused cid id sf i h _ _ => right; rw [h]; simp [LoopPc.far, LoopPc.rank, goTo]
  | accepted cid id sf now h _ _ => right; rw [h]; simp [LoopPc.far, LoopPc.rank, goTo]
  | stop id h => right; rw [h]; simp [LoopPc.far, LoopPc.rank, goTo]
  | started gid id w h => right; rw [h]; simp [LoopPc.far, LoopPc.rank, goTo]
  | done gid id e h =>
    obtain ⟨g, hg, rfl, rfl, hge⟩ := hsh.actDone gid id e h
    have hlen := dropG_length hsh.gidNd hg
    unfold workerDone
    split
    · exact Or.inl ⟨rfl, rfl⟩
    · right; rw [h]; dsimp only
      split
      · simp [LoopPc.far, LoopPc.rank, goTo]
      · unfold beginShutdown
        split
        · simp [LoopPc.far, LoopPc.rank, goTo]
        · show (dropG t g.gid).gs.length + 4 < t.gs.length + 5; omega
      · simp [LoopPc.far, LoopPc.rank, goTo]
  | killAll order h ho =>
    right; rw [h]
    have := range_length hsh ho
    show order.length + 3 < t.gs.length + 4; omega
  | killNext id rest h => right; rw [h]; simp [LoopPc.far, LoopPc.rank, goTo]
  | killDone h => right; rw [h]; simp [LoopPc.far, LoopPc.rank, goTo]
  | reply cid r ret h => right; rw [h]; simp [LoopPc.far, LoopPc.rank, goTo]
  | bcast h => right; rw [h]; simp [LoopPc.far, LoopPc.rank, goTo]
  | _ => exact Or.inl ⟨rfl, by first | rfl | exact List.length_map _⟩

theorem act_moves {p : Params} {t : Tab} (hs : Shape p t) {now : Int} {m : Msg} (hp : t.pc = .act m) :
    (act p t now m).pc ≠ t.pc := by
  rw [hp]
  cases m with
  | start cid id sf =>
    simp only [act]
    split
    · nofun
    · split <;> nofun
  | stop id => nofun
  | started gid id w => nofun
  | done gid id e =>
    obtain ⟨g, hg, rfl, rfl, hge⟩ := hs.actDone gid id e hp
    obtain ⟨info, hi⟩ := Option.isSome_iff_exists.1 ((hs.known g.id).2 (List.mem_map.2 ⟨g, hg, rfl⟩))
    simp only [act]
    unfold workerDone
    rw [hi]
    dsimp only
    split
    · nofun
    · unfold beginShutdown; split <;> nofun
    · nofun

/-- A step of the loop moves the loop. -/
theorem loop_moves {p : Params} {s s' : State} {op : Op} (hr : Reach p s) (hs : Runner.step p s op = some s')
    (hop : op = .loopTop ∨ (∃ now, op = .act now) ∨ (∃ o, op = .killAll o) ∨ op = .reply ∨ op = .bcast ∨
      op = .killNext) :
    s'.tab.pc ≠ s.tab.pc := by
  rcases hop with rfl | ⟨now, rfl⟩ | ⟨o, rfl⟩ | rfl | rfl | rfl
  · simp only [Runner.step, Op.cid?, tabStep] at hs
    split at hs
    · rename_i h
      rw [h]
      split at hs <;> cases hs <;> nofun
    · cases hs
  · simp only [Runner.step, Op.cid?, tabStep] at hs
    split at hs
    · rename_i h
      split at hs
      · cases hs; exact act_moves hr.tab.shape h
      · cases hs
    · cases hs
  · simp only [Runner.step, Op.cid?, tabStep] at hs
    split at hs
    · rename_i h; cases hs; rw [h.1]; nofun
    · cases hs
  · simp only [Runner.step] at hs
    split at hs
    · rename_i h; cases hs; rw [h]; nofun
    · rename_i h; cases hs; rw [h]; nofun
    · cases hs
  · simp only [Runner.step] at hs
    split at hs
    · rename_i h; cases hs; rw [h]; nofun
    · cases hs
  · simp only [Runner.step, Op.cid?, tabStep] at hs
    split at hs
    · rename_i h; cases hs; rw [h]; nofun
    · rename_i h; cases hs; rw [h]
      intro he
      have := congrArg (fun pc => match pc with | .killing r => r.length | _ => 0) he
      simp [goTo] at this
    · cases hs

theorem loop_rank {p : Params} {s s' : State} {op : Op} (hr : Reach p s) (hs : Runner.step p s op = some s')
    (h1 : s.tab.pc ≠ .select) (h2 : s.tab.pc ≠ .exited) : (s'.tab.pc = s.tab.pc ∧ s'.tab.gs.length = s.tab.gs.length) ∨
      s'.tab.pc.far s'.tab.gs.length < s.tab.pc.far s.tab.gs.length :=
  (step_T hs).loop hr.tab.shape h1 h2

/-! ## What a step does to the goroutines of a runner that is shutting down -/

/-- How much the goroutines have left to do. -/
def gmeas (t : Tab) : Nat := gsum true t + t.gs.length

theorem gmeas_gto {t t' : Tab} {g : G} {pc : Pc} (hnd : (t.gs.map G.gid).Nodup) (hg : g ∈ t.gs)
    (h1 : t'.gs = (t.gto g.gid pc).gs) (h2 : t'.finished = t.finished)
    (hlt : pc.rank true t.fin < g.pc.rank true t.fin) : gmeas t' < gmeas t := by
  have h := gsum_gto (b := true) hnd hg pc
  have h3 : gsum true t' = gsum true (t.gto g.gid pc) := by
    unfold gsum Tab.fin; rw [h1, h2]; rfl
  have h4 : t'.gs.length = t.gs.length := by rw [h1]; exact List.length_map _
  unfold gmeas
  rw [h3, h4]; omega

theorem gmeas_drop {t t' : Tab} {g : G} (hnd : (t.gs.map G.gid).Nodup) (hg : g ∈ t.gs)
    (h1 : t'.gs = (dropG t g.gid).gs) (h2 : t'.finished = t.finished) : gmeas t' < gmeas t := by
  have h := gsum_dropG (b := true) hnd hg
  have h3 : gsum true t' = gsum true (dropG t g.gid) := by
    unfold gsum Tab.fin; rw [h1, h2]; rfl
  have h4 : t'.gs.length < t.gs.length := by
    rw [h1]
    exact List.length_filter_lt_length_iff_exists.2 ⟨g, hg, by simp⟩
  unfold gmeas
  rw [h3]; omega

theorem killLocked_gs (t : Tab) (id : Name) : (killLocked t id).gs = t.gs ∧ (killLocked t id).finished = t.finished := by
  unfold killLocked
  split
  · exact ⟨rfl, rfl⟩
  · dsimp only; split <;> exact ⟨rfl, rfl⟩

theorem setWorker_gs (t : Tab) (gid : Nat) (id : Name) (w : Nat) :
    (setWorker t gid id w).gs = t.gs ∧ (setWorker t gid id w).finished = t.finished := by
  unfold setWorker
  split
  · exact ⟨rfl, rfl⟩
  · dsimp only; split
    · rw [(killLocked_gs _ _).1, (killLocked_gs _ _).2]; exact ⟨rfl, rfl⟩
    · exact ⟨rfl, rfl⟩

theorem beginShutdown_gs (t : Tab) : (beginShutdown t).gs = t.gs ∧ (beginShutdown t).finished = t.finished := by
  unfold beginShutdown
  split <;> exact ⟨rfl, rfl⟩

theorem T.gmeas {p : Params} {t t' : Tab} (hs : Shape p t) (hd : t.isDying = true) (h : T p t t') :
    (t'.gs = t.gs ∧ gmeas t' ≤ gmeas t) ∨ gmeas t' < gmeas t := by
  have same : t'.gs = t.gs → t'.finished = t.finished → (t'.gs = t.gs ∧ Runner.gmeas t' ≤ Runner.gmeas t) ∨ Runner.gmeas t' < Runner.gmeas t := by
    intro h1 h2
    refine Or.inl ⟨h1, Nat.le_of_eq ?_⟩
    unfold Runner.gmeas gsum Tab.fin; rw [h1, h2]
  cases h with
  | recvStarted g w _ hg hp => right; exact gmeas_gto hs.gidNd hg rfl rfl (by rw [hp]; simp only [Pc.rank]; split <;> omega)
  | recvDone g e _ hg hp => right; exact gmeas_gto hs.gidNd hg rfl rfl (by rw [hp]; cases e <;> simp [Pc.rank])
  | accepted cid id sf now _ h _ => rw [hd] at h; cases h
  | stop id h => exact same (killLocked_gs _ _).1 (killLocked_gs _ _).2
  | started gid id w h => exact same (setWorker_gs _ _ _ _).1 (setWorker_gs _ _ _ _).2
  | killNext id rest h => exact same (killLocked_gs _ _).1 (killLocked_gs _ _).2
  | done gid id e h =>
    right
    obtain ⟨g, hg, rfl, rfl, hge⟩ := hs.actDone gid id e h
    obtain ⟨info, hi⟩ := Option.isSome_iff_exists.1 ((hs.known g.id).2 (List.mem_map.2 ⟨g, hg, rfl⟩))
    unfold workerDone
    rw [hi]
    dsimp only
    cases hf : fate p info e with
    | remove => exact gmeas_drop hs.gidNd hg rfl rfl
    | fatal err => exact gmeas_drop hs.gidNd hg (beginShutdown_gs _).1 (beginShutdown_gs _).2
    | restart sf =>
      exfalso
      have h1 := fate_restart hf
      rcases hs.dying hd with hx | hx
      · rw [h] at hx; cases hx
      · rw [(hs.noStart _ _ hi).1 (hx _ _ hi)] at h1; cases h1
  | gDying g hg hp _ => right; exact gmeas_gto hs.gidNd hg rfl rfl (by rw [hp]; simp [Pc.rank])
  | gTimer g hg hp => right; exact gmeas_gto hs.gidNd hg rfl rfl (by rw [hp]; simp [Pc.rank])
  | gCall g hg hp => right; exact gmeas_gto hs.gidNd hg rfl rfl (by rw [hp]; simp [Pc.rank])
  | gStartOk g w hg hp => right; exact gmeas_gto hs.gidNd hg rfl rfl (by rw [hp]; simp [Pc.rank])
  | gStartErr g e hg hp => right; exact gmeas_gto hs.gidNd hg rfl rfl (by rw [hp]; simp [Pc.rank])
  | gWaitRet g w e hg hp hf =>
    right; exact gmeas_gto hs.gidNd hg rfl rfl (by rw [hp]; cases e <;> simp only [Pc.rank] <;> split <;> omega)
  | finish w e _ =>
    left
    refine ⟨rfl, Nat.add_le_add_right ?_ _⟩
    exact sum_le _ _ _ (fun g _ => rank_mono (fun v hv => fin_set v hv) g.pc)
  | _ => exact same rfl rfl

/-! ## Fair executions -/

/-- Steps that differ only in what the environment chooses: the time, and the order of a map. -/
def Op.kind : Op → Op
  | .act _ => .act 0
  | .killAll _ => .killAll []
  | op => op

/-- Such a step can be taken. -/
def Enabled (p : Params) (s : State) (op : Op) : Prop := ∃ op' s', op'.kind = op.kind ∧ step p s op' = some s'

/-- An infinite execution. -/
structure Run (p : Params) where
  st : Nat → State
  op : Nat → Op
  start : st 0 = init
  next : ∀ k, step p (st k) (op k) = some (st (k + 1))

/-- Nothing the runner, its goroutines or its clients could do again and again is passed over for ever: locks, selects,
timers and the scheduler are fair. -/
def Run.Fair {p : Params} (r : Run p) : Prop :=
  ∀ op, op.internal = true → InfOften (fun k => Enabled p (r.st k) op) → InfOften (fun k => (r.op k).kind = op.kind)

/-- What has happened up to a moment. -/
def Run.hist {p : Params} (r : Run p) (k : Nat) : List Ev := (r.st k).tab.hist

theorem kind_eq {op op' : Op} (h : op'.kind = op.kind) (h1 : ∀ x, op ≠ .act x) (h2 : ∀ x, op ≠ .killAll x) : op' = op := by
  have h3 : op.kind = op := by
    cases op <;> first | rfl | exact absurd rfl (h1 _) | exact absurd rfl (h2 _)
  rw [h3] at h
  cases op' <;> first | exact h | exact absurd h.symm (h1 _) | exact absurd h.symm (h2 _)

variable {p : Params} {r : Run p}

theorem Run.reach (r : Run p) (k : Nat) : Reach p (r.st k) := by
  induction k with
  | zero => rw [r.start]; exact .init
  | succ k ih => exact ih.step _ (r.next k)

theorem Run.taken (hf : r.Fair) {op : Op} (hi : op.internal = true) (h1 : ∀ x, op ≠ .act x) (h2 : ∀ x, op ≠ .killAll x)
    (he : InfOften (fun k => (step p (r.st k) op).isSome = true)) (n : Nat) : ∃ k, n ≤ k ∧ r.op k = op := by
  obtain ⟨k, hk, h⟩ := hf op hi (he.mono fun k h => ⟨op, _, rfl, (Option.some_get h).symm⟩) n
  exact ⟨k, hk, kind_eq h h1 h2⟩

/-- The history only grows. -/
theorem Run.hist_grows (r : Run p) {a b : Nat} (hab : a ≤ b) : ∃ es, r.hist b = es ++ r.hist a := by
  induction hab with
  | refl => exact ⟨[], rfl⟩
  | @step b _ ih =>
    obtain ⟨es, h2, _⟩ := (r.reach b).tab.emits (step_T (r.next b))
    obtain ⟨es', ih⟩ := ih
    refine ⟨es ++ es', ?_⟩
    show (r.st (b + 1)).tab.hist = _
    rw [h2, List.append_assoc]
    exact congrArg (es ++ ·) ih

theorem Run.hist_mono (r : Run p) {a b : Nat} (hab : a ≤ b) {e : Ev} (h : e ∈ r.hist a) : e ∈ r.hist b := by
  obtain ⟨es, h2⟩ := r.hist_grows hab
  rw [h2]; exact List.mem_append_right _ h

theorem Run.fin_mono (r : Run p) {a b : Nat} (hab : a ≤ b) {w : Nat} {e : Option Err} (h : finishedH (r.hist a) w = some e) :
    finishedH (r.hist b) w = some e := by
  obtain ⟨es, h2⟩ := r.hist_grows hab
  have := (r.reach b).tab.evOk
  rw [h2]
  exact finished_stays (p := p) (by rw [← h2]; exact this) h

/-! ## runner.mu is free again and again -/

/-- A step of a client call. -/
theorem Run.client_op (r : Run p) {k : Nat} {c : Client} (hc : c ∈ (r.st k).clients) (op : Op) (hop : op.cid? = some c.cid) :
    step p (r.st k) op = clientStep (r.st k) c op := by
  have hg := getC_of (r.reach k).minv.nd hc
  unfold Runner.step
  split <;> first | (cases hop; done) | skip
  simp only [hop, hg]

theorem Run.mu_free (hf : r.Fair) : InfOften (fun k => (r.st k).mu = none) := by
  intro n
  apply Classical.byContradiction
  intro hno
  have hno : ∀ k, n ≤ k → (r.st k).mu ≠ none := fun k hk h => hno ⟨k, hk, h⟩
  obtain ⟨cid, hcid⟩ := Option.ne_none_iff_exists'.1 (hno n (Nat.le_refl n))
  have hmu : ∀ k, n ≤ k → (r.st k).mu = some cid := by
    intro k hk
    induction hk with
    | refl => exact hcid
    | @step k hk ih => exact (step_mu (r.next k) ih).resolve_right (hno _ (Nat.le_succ_of_le hk))
  have held : ∀ k, n ≤ k → ∃ c ∈ (r.st k).clients, c.cid = cid ∧ ∃ h, c.helper = some h ∧ (h.pc = .check ∨ h.pc = .enter) :=
    fun k hk => (r.reach k).minv.held cid (hmu k hk)
  -- entering the wait releases mu
  have noEnter : ∀ k, n ≤ k → r.op k ≠ .hEnter cid := by
    intro k hk ho
    obtain ⟨c, hc, rfl, h, hh, _⟩ := held k hk
    have hs := r.next k
    rw [ho, r.client_op hc (.hEnter c.cid) rfl] at hs
    simp only [clientStep, hh] at hs
    split at hs
    · exact hno (k + 1) (Nat.le_succ_of_le hk) (by rw [← Option.some.inj hs]; rfl)
    · cases hs
  have hEn : ∀ m, n ≤ m → ¬ ∀ k, m ≤ k → ∃ c ∈ (r.st k).clients, c.cid = cid ∧ ∃ h, c.helper = some h ∧ h.pc = .enter := by
    intro m hm hx
    obtain ⟨k, hk, ho⟩ := Run.taken hf (op := .hEnter cid) rfl nofun nofun (infOften_of_from m fun k hk => by
      obtain ⟨c, hc, rfl, h, hh, hp⟩ := hx k hk
      rw [r.client_op hc (.hEnter c.cid) rfl]
      simp [clientStep, hh, hp]) m
    exact noEnter k (Nat.le_trans hm hk) ho
  have stay : ∀ k, n ≤ k → (∃ c ∈ (r.st k).clients, c.cid = cid ∧ ∃ h, c.helper = some h ∧ h.pc = .enter) →
      ∃ c ∈ (r.st (k + 1)).clients, c.cid = cid ∧ ∃ h, c.helper = some h ∧ h.pc = .enter := by
    rintro k hk ⟨c, hc, rfl, h, hh, hp⟩
    have hlk : ∀ id, c.pc ≠ .lock id := by
      intro id hl
      have := (r.reach k).minv.fresh c hc id hl
      rw [hh] at this; cases this
    obtain ⟨h', ⟨c', hc', hcid', _, hh'⟩, hm⟩ := Has.step (r.reach k) ⟨c, hc, rfl, hlk, hh⟩ (r.next k)
    obtain ⟨d, hd, hdc, x, hx, hxp⟩ := held (k + 1) (Nat.le_succ_of_le hk)
    have hcd := cid_inj (r.reach (k + 1)).minv.nd hd hc' (by rw [hdc, hcid'])
    subst hcd
    rw [hh'] at hx
    cases hx
    refine ⟨d, hd, hcid', h', hh', ?_⟩
    rcases hxp with hxp | hxp
    · exfalso
      have hm := hm.1
      cases hm with
      | same => rw [hp] at hxp; cases hxp
      | wake => unfold Helper.wake at hxp; rw [hp] at hxp; simp [hp] at hxp
      | taken => rw [show _ = _ from hp] at hxp; cases hxp
      | stop => rw [show _ = _ from hp] at hxp; cases hxp
      | check h1 => rw [hp] at h1; cases h1
      | _ => cases hxp
    · exact hxp
  -- so the holder never enters the wait
  have noE : ∀ k, n ≤ k → ∃ c ∈ (r.st k).clients, c.cid = cid ∧ ∃ h, c.helper = some h ∧ h.pc = .check := by
    intro k hk
    obtain ⟨c, hc, hcc, h, hh, hp | hp⟩ := held k hk
    · exact ⟨c, hc, hcc, h, hh, hp⟩
    · exact (hEn k hk fun j hj => by
        induction hj with
        | refl => exact ⟨c, hc, hcc, h, hh, hp⟩
        | step hj ih => exact stay _ (Nat.le_trans hk hj) ih).elim
  obtain ⟨k, hk, ho⟩ := Run.taken hf (op := .hCheck cid) rfl nofun nofun (infOften_of_from n fun k hk => by
    obtain ⟨c, hc, rfl, h, hh, hp⟩ := noE k hk
    rw [r.client_op hc (.hCheck c.cid) rfl]
    simp only [clientStep, hh, hp, if_true]
    split <;> rfl) n
  obtain ⟨c, hc, hcc, h, hh, hp⟩ := noE k hk
  subst hcc
  have hs := r.next k
  rw [ho, r.client_op hc (.hCheck c.cid) rfl] at hs
  simp only [clientStep, hh, hp, if_true] at hs
  split at hs
  · exact hno (k + 1) (Nat.le_succ_of_le hk) (by rw [← Option.some.inj hs]; rfl)
  · have hs := Option.some.inj hs
    obtain ⟨d, hd, hdc, x, hx, hxp⟩ := noE (k + 1) (Nat.le_succ_of_le hk)
    have : ({ c with helper := c.helper.map (fun h => { h with pc := .enter }) } : Client) ∈ (r.st (k + 1)).clients := by
      rw [← hs]; exact List.mem_map.2 ⟨c, hc, by simp⟩
    have hcd := cid_inj (r.reach (k + 1)).minv.nd hd this hdc
    subst hcd
    simp only [hh, Option.map_some, Option.some.injEq] at hx
    subst hx
    cases hxp

/-! ## The calls made so far -/

def calls (t : Tab) : List Ev := t.hist.filter (fun e => (evCall e).isSome)

theorem killLocked_calls (t : Tab) (id : Name) : calls (killLocked t id) = calls t := by
  unfold killLocked
  split
  · rfl
  · dsimp only; split <;> rfl

theorem act_calls (p : Params) (t : Tab) (now : Int) (m : Msg) : calls (act p t now m) = calls t := by
  cases m with
  | start cid n sf =>
    simp only [act]
    split
    · rfl
    · split <;> rfl
  | stop n => exact killLocked_calls (t.log (.stopHandled n)) n
  | started g n w =>
    show calls (setWorker t g n w) = calls t
    unfold setWorker
    split
    · rfl
    · dsimp only
      split
      · rw [killLocked_calls]; rfl
      · rfl
  | done g n e =>
    simp only [act]
    unfold workerDone
    split
    · rfl
    · dsimp only
      split
      · rfl
      · unfold beginShutdown
        split <;> rfl
      · rfl

theorem tabStep_calls {p : Params} {s : State} {op : Op} {t : Tab} (h : tabStep p s op = some t) : calls t = calls s.tab := by
  unfold tabStep at h
  split at h
  case h_6 =>
    split at h
    · split at h <;> cases h
      exact act_calls ..
    · cases h
  case h_8 =>
    split at h
    · cases h; rfl
    · cases h; exact killLocked_calls ..
    · cases h
  all_goals first
    | (cases h; rfl)
    | (cases h; done)
    | (split at h <;> first
        | (cases h; rfl)
        | cases h
        | (split at h <;> first
          | (cases h; rfl)
          | cases h
          | (split at h <;> first | (cases h; rfl) | cases h)))

theorem afterInfo_calls (s : State) (c : Client) (id : Name) (r : Found) : calls (Runner.afterInfo s c id r).tab = calls s.tab := by
  unfold Runner.afterInfo
  split
  · rfl
  · split <;> rfl

theorem clientStep_calls {s s' : State} {c : Client} {op : Op} (hs : clientStep s c op = some s') :
    calls s'.tab = calls s.tab := by
  unfold clientStep at hs
  split at hs
  case h_6 =>
    split at hs
    · cases hs
      split
      · rfl
      · exact afterInfo_calls ..
    · cases hs
  case h_8 =>
    split at hs
    · cases hs
      split
      · rfl
      · exact afterInfo_calls ..
    · cases hs
  all_goals first
    | (cases hs; rfl)
    | (cases hs; done)
    | (split at hs <;> first
        | (cases hs; rfl)
        | cases hs
        | (split at hs <;> first
          | (cases hs; rfl)
          | cases hs
          | (split at hs <;> first | (cases hs; rfl) | cases hs)))

theorem step_calls {p : Params} {s s' : State} {op : Op} (hs : Runner.step p s op = some s') (hn : op.newCall = false) :
    calls s'.tab = calls s.tab := by
  unfold Runner.step at hs
  split at hs
  · cases hn
  · cases hn
  · cases hn
  · cases hn
  · split at hs <;> cases hs <;> rfl
  · split at hs <;> cases hs; rfl
  · split at hs
    · split at hs
      · exact clientStep_calls hs
      · cases hs
    · obtain ⟨t, ht, rfl⟩ := Option.map_eq_some_iff.1 hs
      exact tabStep_calls ht

theorem callH_calls (h : List Ev) (k : Nat) : callH (h.filter (fun e => (evCall e).isSome)) k = callH h k := by
  induction h with
  | nil => rfl
  | cons e h ih =>
    cases hc : evCall e with
    | some c => rw [List.filter_cons_of_pos (by rw [hc]; rfl)]; cases e <;> cases hc <;> simp only [callH, ih]
    | none => rw [List.filter_cons_of_neg (by rw [hc]; simp), callH_cons (by rw [hc]; nofun)]; exact ih

/-- A call stays the call it was. -/
theorem step_call {p : Params} {s s' : State} {op : Op} (hr : Reach p s) (hs : Runner.step p s op = some s') {cid : Nat} {x : Call}
    (h : callH s.tab.hist cid = some x) : callH s'.tab.hist cid = some x := by
  cases hn : op.newCall with
  | false =>
    have := step_calls hs hn
    unfold calls at this
    rw [← callH_calls, this, callH_calls]; exact h
  | true =>
    have hne : cid ≠ s.nextC := by
      rintro rfl
      have := callH_none (h := s.tab.hist) (k := s.nextC) (fun e he hc => by
        have : evCid e = some s.nextC := by cases e <;> first | exact hc | cases hc
        exact Nat.lt_irrefl _ (hr.cinv.evLt e he _ this))
      rw [this] at h; cases h
    cases op <;> first | (cases hn; done) | skip
    all_goals
      cases hs
      simp only [newClient, Tab.log, callH, if_neg hne]
      exact h

theorem Run.call_mono (r : Run p) {a b : Nat} (hab : a ≤ b) {cid : Nat} {x : Call} (h : callH (r.hist a) cid = some x) :
    callH (r.hist b) cid = some x := by
  induction hab with
  | refl => exact h
  | @step b _ ih => exact step_call (r.reach b) (r.next b) ih

/-- Every call has its client. -/
theorem Reach.client {s : State} (hr : Reach p s) {cid : Nat} {x : Call} (h : callH s.tab.hist cid = some x) :
    ∃ c ∈ s.clients, c.cid = cid := by
  apply hr.rinv.all
  apply Classical.byContradiction
  intro hx
  have := callH_none (h := s.tab.hist) (k := cid) (fun e he hc => by
    have : evCid e = some cid := by cases e <;> first | exact hc | cases hc
    exact hx (hr.cinv.evLt e he _ this))
  rw [this] at h; cases h

/-- A client call as it goes on. -/
theorem Run.later (r : Run p) {a b : Nat} (hab : a ≤ b) {x : Client} (hx : x ∈ (r.st a).clients) :
    ∃ y ∈ (r.st b).clients, y.cid = x.cid ∧ y.remove = x.remove ∧ (x.cancelled = true → y.cancelled = true) ∧
      y.pc.rank ≤ x.pc.rank := by
  induction hab with
  | refl => exact ⟨x, hx, rfl, rfl, id, Nat.le_refl _⟩
  | @step b _ ih =>
    obtain ⟨y, hy, h1, h2, h3, h4⟩ := ih
    obtain ⟨z, hz, hm, _⟩ := step_moves (r.reach b) (r.next b) hy
    refine ⟨z, hz, by rw [hm.cid, h1], by rw [hm.remove, h2], fun h => hm.cancelled (h3 h), ?_⟩
    rcases hm.pc with h | h
    · rw [h]; exact h4
    · omega

/-- A client call comes to a place where it stays. -/
theorem Run.settle (r : Run p) {n : Nat} {c : Client} (hc : c ∈ (r.st n).clients) :
    ∃ m pc, n ≤ m ∧ (∀ k, m ≤ k → ∃ x ∈ (r.st k).clients, x.cid = c.cid ∧ x.remove = c.remove ∧ x.pc = pc) ∧
      ∀ k, m ≤ k → (r.op k).mover ≠ some c.cid := by
  have ex : ∀ k, n ≤ k → ∃ x, (r.st k).getC c.cid = some x ∧ x ∈ (r.st k).clients ∧ x.cid = c.cid ∧ x.remove = c.remove := by
    intro k hk
    obtain ⟨y, hy, h1, h2, _⟩ := r.later hk hc
    exact ⟨y, by rw [← h1]; exact getC_of (r.reach k).minv.nd hy, hy, h1, h2⟩
  have mv : ∀ k x y, n ≤ k → (r.st k).getC c.cid = some x → (r.st (k + 1)).getC c.cid = some y →
      CMove x y ∧ ((r.op k).mover = some c.cid → y.pc.rank < x.pc.rank) := by
    intro k x y hk hx hy
    obtain ⟨hx, hxc⟩ := getC_some hx
    obtain ⟨hy, hyc⟩ := getC_some hy
    obtain ⟨z, hz, hm, hl⟩ := step_moves (r.reach k) (r.next k) hx
    have := cid_inj (r.reach (k + 1)).minv.nd hz hy (by rw [hm.cid, hxc, hyc])
    subst this
    exact ⟨hm, by rw [← hxc]; exact hl⟩
  let f : Nat → Nat := fun k => match (r.st k).getC c.cid with
    | some x => x.pc.rank
    | none => 0
  have hf : ∀ k x, (r.st k).getC c.cid = some x → f k = x.pc.rank := by
    intro k x hx
    show (match (r.st k).getC c.cid with | some x => x.pc.rank | none => 0) = _
    rw [hx]
  obtain ⟨m, hm, hcst⟩ := settles (f := f) (n := n) (by
    intro k hk
    obtain ⟨x, hx, _⟩ := ex k hk
    obtain ⟨y, hy, _⟩ := ex (k + 1) (Nat.le_succ_of_le hk)
    rw [hf k x hx, hf _ y hy]
    rcases (mv k x y hk hx hy).1.pc with h | h
    · exact Nat.le_of_eq (by rw [h])
    · omega)
  obtain ⟨x0, hx0, _⟩ := ex m hm
  refine ⟨m, x0.pc, hm, ?_, ?_⟩
  · have : ∀ k, m ≤ k → ∃ x, (r.st k).getC c.cid = some x ∧ x.pc = x0.pc := by
      intro k hk
      induction hk with
      | refl => exact ⟨x0, hx0, rfl⟩
      | @step k hk ih =>
        obtain ⟨x, hx, hxp⟩ := ih
        obtain ⟨y, hy, _⟩ := ex (k + 1) (Nat.le_succ_of_le (Nat.le_trans hm hk))
        refine ⟨y, hy, ?_⟩
        rcases (mv k x y (Nat.le_trans hm hk) hx hy).1.pc with h | h
        · rw [h, hxp]
        · have h1 := hcst k hk
          have h2 := hcst (k + 1) (Nat.le_succ_of_le hk)
          rw [hf k x hx] at h1
          rw [hf _ y hy] at h2
          omega
    intro k hk
    obtain ⟨x, hx, hxp⟩ := this k hk
    obtain ⟨y, hy, h1, h2, h3⟩ := ex k (Nat.le_trans hm hk)
    rw [hx] at hy; cases hy
    exact ⟨x, h1, h2, h3, hxp⟩
  · intro k hk hmo
    obtain ⟨x, hx, _⟩ := ex k (Nat.le_trans hm hk)
    obtain ⟨y, hy, _⟩ := ex (k + 1) (Nat.le_succ_of_le (Nat.le_trans hm hk))
    have h1 := hcst k hk
    have h2 := hcst (k + 1) (Nat.le_succ_of_le hk)
    have h3 := (mv k x y (Nat.le_trans hm hk) hx hy).2 hmo
    rw [hf k x hx] at h1
    rw [hf _ y hy] at h2
    omega

/-! ## The loop comes back to its select again and again -/

theorem Run.loop_rests (hf : r.Fair) : InfOften (fun k => (r.st k).tab.pc = .select ∨ (r.st k).tab.pc = .exited) := by
  intro n
  apply Classical.byContradiction
  intro hno
  have hno : ∀ k, n ≤ k → (r.st k).tab.pc ≠ .select ∧ (r.st k).tab.pc ≠ .exited :=
    fun k hk => ⟨fun h => hno ⟨k, hk, Or.inl h⟩, fun h => hno ⟨k, hk, Or.inr h⟩⟩
  have mv : ∀ k, n ≤ k → ((r.st (k + 1)).tab.pc = (r.st k).tab.pc ∧ (r.st (k + 1)).tab.gs.length = (r.st k).tab.gs.length) ∨
      (r.st (k + 1)).tab.pc.far (r.st (k + 1)).tab.gs.length < (r.st k).tab.pc.far (r.st k).tab.gs.length :=
    fun k hk => loop_rank (r.reach k) (r.next k) (hno k hk).1 (hno k hk).2
  obtain ⟨m, hm, hc⟩ := settles (f := fun k => (r.st k).tab.pc.far (r.st k).tab.gs.length) (n := n) (by
    intro k hk
    rcases mv k hk with ⟨h, h'⟩ | h
    · exact Nat.le_of_eq (by rw [h, h'])
    · exact Nat.le_of_lt h)
  have hpc : ∀ k, m ≤ k → (r.st (k + 1)).tab.pc = (r.st k).tab.pc := by
    intro k hk
    rcases mv k (Nat.le_trans hm hk) with ⟨h, _⟩ | h
    · exact h
    · have h1 := hc k hk
      have h2 := hc (k + 1) (Nat.le_succ_of_le hk)
      omega
  have hpc' := stays (f := fun k => (r.st k).tab.pc) hpc
  -- a step of the loop would move it
  have no : ∀ k, m ≤ k → ¬ ((r.op k) = .loopTop ∨ (∃ now, r.op k = .act now) ∨ (∃ o, r.op k = .killAll o) ∨ r.op k = .reply ∨
      r.op k = .bcast ∨ r.op k = .killNext) := fun k hk h => loop_moves (r.reach k) (r.next k) h (hpc k hk)
  cases hp : (r.st m).tab.pc with
  | top =>
    obtain ⟨k, hk, ho⟩ := Run.taken hf (op := .loopTop) rfl nofun nofun (infOften_of_from m fun k hk => by
      have := hpc' k hk
      simp only [Runner.step, Op.cid?, tabStep, this, hp, if_true]
      split <;> rfl) m
    exact no k hk (Or.inl ho)
  | select => exact (hno m hm).1 hp
  | act msg =>
    obtain ⟨k, hk, ho⟩ := hf (.act 0) rfl ((Run.mu_free hf).mono_from m fun k hk hmu => by
      have := hpc' k hk
      exact ⟨.act 0, _, rfl, (Option.some_get (by simp [Runner.step, Op.cid?, tabStep, this, hp, hmu] :
        (step p (r.st k) (.act 0)).isSome = true)).symm⟩) m
    refine no k hk (Or.inr (Or.inl ?_))
    cases h : r.op k <;> rw [h] at ho <;> cases ho
    exact ⟨_, rfl⟩
  | killAll =>
    obtain ⟨k, hk, ho⟩ := hf (.killAll []) rfl ((Run.mu_free hf).mono_from m fun k hk hmu => by
      have := hpc' k hk
      exact ⟨.killAll (r.st k).tab.workers.keys, _, rfl, (Option.some_get (by
        simp [Runner.step, Op.cid?, tabStep, this, hp, hmu, keys_order (r.reach k).tab] :
        (step p (r.st k) (.killAll (r.st k).tab.workers.keys)).isSome = true)).symm⟩) m
    refine no k hk (Or.inr (Or.inr (Or.inl ?_)))
    cases h : r.op k <;> rw [h] at ho <;> cases ho
    exact ⟨_, rfl⟩
  | reply cid e =>
    obtain ⟨k, hk, ho⟩ := Run.taken hf (op := .reply) rfl nofun nofun (infOften_of_from m fun k hk => by
      have := hpc' k hk
      cases e <;> simp [Runner.step, this, hp]) m
    exact no k hk (Or.inr (Or.inr (Or.inr (Or.inl ho))))
  | bcast =>
    obtain ⟨k, hk, ho⟩ := Run.taken hf (op := .bcast) rfl nofun nofun (infOften_of_from m fun k hk => by
      have := hpc' k hk
      simp [Runner.step, this, hp]) m
    exact no k hk (Or.inr (Or.inr (Or.inr (Or.inr (Or.inl ho)))))
  | killing rest =>
    obtain ⟨k, hk, ho⟩ := Run.taken hf (op := .killNext) rfl nofun nofun (infOften_of_from m fun k hk => by
      have := hpc' k hk
      cases rest <;> simp [Runner.step, Op.cid?, tabStep, this, hp]) m
    exact no k hk (Or.inr (Or.inr (Or.inr (Or.inr (Or.inr ho)))))
  | exited => exact (hno m hm).2 hp

/-- runner.mu is free again and again. -/
theorem Run.mu_idle (hf : r.Fair) : InfOften (fun k => (r.st k).muFree = true) := by
  intro n
  obtain ⟨a, ha, hrest⟩ := Run.loop_rests hf n
  have hla : (r.st a).tab.pc.locked = false := by rcases hrest with h | h <;> rw [h] <;> rfl
  obtain ⟨b, hb, hmu⟩ := Run.mu_free hf a
  -- the first such moment from `a` on
  have key : ∀ d, (r.st (a + d)).mu = none → ∃ k, n ≤ k ∧ (r.st k).muFree = true := by
    intro d
    induction d with
    | zero => intro h; exact ⟨a, ha, muFree_iff.2 ⟨h, hla⟩⟩
    | succ d ih =>
      intro h
      by_cases hm : (r.st (a + d)).mu = none
      · exact ih hm
      · refine ⟨a + (d + 1), by omega, muFree_iff.2 ⟨h, ?_⟩⟩
        cases hl : (r.st (a + (d + 1))).tab.pc.locked with
        | false => rfl
        | true =>
          rcases step_locked (r.next (a + d)) hl with h1 | h1
          · exact absurd h1 hm
          · exact absurd ((r.reach (a + d)).excl h1) hm
  exact key (b - a) (by rw [Nat.add_sub_cancel' hb]; exact hmu)

/-! ## Shutting down ends -/

theorem gto_ne {t : Tab} {g : G} {pc : Pc} (hnd : (t.gs.map G.gid).Nodup) (hg : g ∈ t.gs) (hp : pc ≠ g.pc) :
    (t.gto g.gid pc).gs ≠ t.gs := by
  intro h
  have : ({ g with pc := pc } : G) ∈ t.gs := by
    rw [← h]; exact List.mem_map.2 ⟨g, hg, by simp⟩
  have := gid_inj hnd this hg rfl
  exact hp (congrArg G.pc this)

/-- A step of a goroutine moves the goroutine. -/
theorem g_moves {s s' : State} (hr : Reach p s) {g : G} (hg : g ∈ s.tab.gs) {op : Op} (hs : Runner.step p s op = some s')
    (hop : op = .gTimer g.gid ∨ op = .gCall g.gid ∨ op = .recvStarted g.gid ∨ op = .recvDone g.gid ∨ op = .gWaitRet g.gid) :
    s'.tab.gs ≠ s.tab.gs := by
  have hgg := getG_of hr.tab.shape.gidNd hg
  have hnd := hr.tab.shape.gidNd
  rcases hop with rfl | rfl | rfl | rfl | rfl
  · simp only [Runner.step, Op.cid?, tabStep, hgg] at hs
    split at hs
    · rename_i h; cases hs; exact gto_ne hnd hg (by rw [h]; nofun)
    · cases hs
  · simp only [Runner.step, Op.cid?, tabStep, hgg] at hs
    split at hs
    · rename_i h; cases hs; exact gto_ne hnd hg (by rw [h]; nofun)
    · cases hs
  · simp only [Runner.step, Op.cid?, tabStep, hgg] at hs
    split at hs
    · split at hs
      · rename_i h; cases hs; exact gto_ne hnd hg (by rw [h]; nofun)
      · cases hs
    · cases hs
  · simp only [Runner.step, Op.cid?, tabStep, hgg] at hs
    split at hs
    · split at hs
      · rename_i h; cases hs; exact gto_ne hnd hg (by rw [h]; nofun)
      · cases hs
    · cases hs
  · simp only [Runner.step, Op.cid?, tabStep, hgg] at hs
    split at hs
    · rename_i h
      split at hs
      · cases hs; exact gto_ne hnd hg (by rw [h]; nofun)
      · cases hs
    · cases hs

theorem Run.exits (hf : r.Fair) (hsr : StartsReturn r.hist) (hkf : KilledFinish r.hist) {n : Nat} (hd : .shutdown ∈ r.hist n) :
    ∃ k, .exit ∈ r.hist k := by
  apply Classical.byContradiction
  intro hno
  have hpc : ∀ k, (r.st k).tab.pc ≠ .exited := fun k h => hno ⟨k, (r.reach k).tab.hinv.exit.1 h⟩
  have hdy : ∀ k, n ≤ k → (r.st k).tab.isDying = true := fun k hk => (r.reach k).tab.hinv.shut.2 (r.hist_mono hk hd)
  have hsel : InfOften (fun k => (r.st k).tab.pc = .select) := (Run.loop_rests hf).mono fun k h => h.resolve_right (hpc k)
  have hst : ∀ k, n ≤ k → _ := fun k hk => T.gmeas (r.reach k).tab.shape (hdy k hk) (step_T (r.next k))
  obtain ⟨m, hm, hc⟩ := settles (f := fun k => gmeas (r.st k).tab) (n := n) (by
    intro k hk
    rcases hst k hk with h | h
    · exact h.2
    · exact Nat.le_of_lt h)
  have hgs : ∀ k, m ≤ k → (r.st (k + 1)).tab.gs = (r.st k).tab.gs := by
    intro k hk
    rcases hst k (Nat.le_trans hm hk) with h | h
    · exact h.1
    · have h1 := hc k hk
      have h2 := hc (k + 1) (Nat.le_succ_of_le hk)
      omega
  have hgs' := stays (f := fun k => (r.st k).tab.gs) hgs
  obtain ⟨k0, hk0, hsel0⟩ := hsel m
  have : ∃ id, (r.st k0).tab.workers.get? id ≠ none := by
    apply Classical.byContradiction
    intro hx
    exact (r.reach k0).tab.busy hsel0 ⟨hdy k0 (Nat.le_trans hm hk0), fun id => Classical.byContradiction fun hy => hx ⟨id, hy⟩⟩
  obtain ⟨id, hid⟩ := this
  have hk := ((r.reach k0).tab.shape.known id).1 (by
    cases h : (r.st k0).tab.workers.get? id with
    | none => exact absurd h hid
    | some _ => rfl)
  obtain ⟨g, hg, _⟩ := List.mem_map.1 hk
  have hg : ∀ k, m ≤ k → g ∈ (r.st k).tab.gs := by
    intro k hk
    have h1 := hgs' k hk
    have h2 := hgs' k0 hk0
    rw [h1, ← h2]; exact hg
  have no : ∀ op, (op = .gTimer g.gid ∨ op = .gCall g.gid ∨ op = .recvStarted g.gid ∨ op = .recvDone g.gid ∨ op = .gWaitRet g.gid) →
      InfOften (fun k => (step p (r.st k) op).isSome = true) → False := by
    intro op hop he
    have hi : op.internal = true := by rcases hop with rfl | rfl | rfl | rfl | rfl <;> rfl
    obtain ⟨k, hk, ho⟩ := Run.taken hf hi (by rcases hop with rfl | rfl | rfl | rfl | rfl <;> nofun)
      (by rcases hop with rfl | rfl | rfl | rfl | rfl <;> nofun) he m
    exact g_moves (r.reach k) (hg k hk) (r.next k) (by rw [ho]; exact hop) (hgs k hk)
  have hgg : ∀ k, m ≤ k → (r.st k).tab.getG g.gid = some g := fun k hk => getG_of (r.reach k).tab.shape.gidNd (hg k hk)
  cases hp : g.pc with
  | delaying =>
    exact no (.gTimer g.gid) (by simp) (infOften_of_from m fun k hk => by
      simp [Runner.step, Op.cid?, tabStep, hgg k hk, hp])
  | ready =>
    exact no (.gCall g.gid) (by simp) (infOften_of_from m fun k hk => by
      simp [Runner.step, Op.cid?, tabStep, hgg k hk, hp])
  | starting =>
    have ph : ∀ k, m ≤ k → phaseH (r.hist k) g.gid = some .calling := by
      intro k hk
      have := (r.reach k).tab.hinv.ph g (hg k hk)
      unfold PhaseOk at this
      rw [hp] at this
      exact this
    obtain ⟨k', hk', hx⟩ := hsr m g.gid (ph m (Nat.le_refl m))
    exact hx (ph k' hk')
  | sendStarted w =>
    exact no (.recvStarted g.gid) (by simp) (hsel.mono_from m fun k hk hs => by
      simp [Runner.step, Op.cid?, tabStep, hgg k hk, hp, hs])
  | waiting w =>
    have : ∃ a e, finishedH (r.hist a) w = some e := by
      cases hw : (r.st k0).tab.finished.get? w with
      | some e => exact ⟨k0, e, by rw [← hw]; exact ((r.reach k0).tab.hinv.fin w).symm⟩
      | none =>
        have := (r.reach k0).killed (hdy k0 (Nat.le_trans hm hk0)) hsel0 (hg k0 hk0) hp hw
        obtain ⟨a, e, _, h⟩ := hkf k0 _ _ this
        exact ⟨a, e, h⟩
    obtain ⟨a, e, ha⟩ := this
    exact no (.gWaitRet g.gid) (by simp) (infOften_of_from (max m a) fun k hk => by
      have h1 := hgg k (by omega)
      have h2 := r.fin_mono (b := k) (by omega) ha
      have h3 := (r.reach k).tab.hinv.fin w
      rw [show finishedH (r.st k).tab.hist w = _ from h2] at h3
      simp [Runner.step, Op.cid?, tabStep, h1, hp, h3])
  | sendDone e =>
    exact no (.recvDone g.gid) (by simp) (hsel.mono_from m fun k hk hs => by
      simp [Runner.step, Op.cid?, tabStep, hgg k hk, hp, hs])
  | gone e =>
    have := (r.reach k0).tab.shape.goneAct g (hg k0 hk0) e hp
    rw [hsel0] at this; cases this

/-- Kill is noticed. -/
theorem Run.notices (hf : r.Fair) {n : Nat} (hd : .kill ∈ r.hist n) : ∃ k, .shutdown ∈ r.hist k := by
  apply Classical.byContradiction
  intro hno
  have hpc : ∀ k, (r.st k).tab.pc ≠ .exited := fun k h =>
    hno ⟨k, (r.reach k).tab.hinv.shut.1 ((r.reach k).tab.shape.exited h).1⟩
  have hsel : InfOften (fun k => (r.st k).tab.pc = .select) := (Run.loop_rests hf).mono fun k h => h.resolve_right (hpc k)
  have harm : ∀ k, (r.st k).tab.dyingArm = true := by
    intro k
    cases h : (r.st k).tab.dyingArm with
    | true => rfl
    | false => exact (hno ⟨k, (r.reach k).tab.hinv.shut.1 ((r.reach k).tab.shape.arm h)⟩).elim
  have hdy : ∀ k, n ≤ k → (r.st k).tab.dying = true := by
    intro k hk
    have h1 := (r.reach k).tab.hinv.tomb (hpc k)
    have h2 : (r.st k).tab.hist.contains .kill = true := by
      rw [List.contains_iff_mem]; exact r.hist_mono hk hd
    unfold Tab.dying
    rw [h1, h2]; rfl
  obtain ⟨k, hk, ho⟩ := Run.taken hf (op := .recvDying) rfl nofun nofun (hsel.mono_from n fun k hk hs => by
    simp [Runner.step, Op.cid?, tabStep, hs, harm k, hdy k hk]) n
  have hs := r.next k
  rw [ho] at hs
  simp only [Runner.step, Op.cid?, tabStep] at hs
  split at hs
  · refine hno ⟨k + 1, ?_⟩
    have hs := Option.some.inj hs
    unfold Run.hist
    rw [← hs]; exact List.mem_cons_self
  · cases hs

/-! ## Calls return -/

/-- The helper of a call that waits while there is an answer finds it. -/
theorem Run.found (hf : r.Fair) {m cid : Nat} {id : Name}
    (hw : ∀ k, m ≤ k → ∃ x ∈ (r.st k).clients, x.cid = cid ∧ x.pc = .waiting id)
    (hn : ∀ k, m ≤ k → r.op k ≠ .cRecv cid) (ha : ∀ k, m ≤ k → getWorker (r.st k).tab id ≠ none) : False := by
  have hh : ∀ k, m ≤ k → ∃ x ∈ (r.st k).clients, x.cid = cid ∧ x.pc = .waiting id ∧ ∃ h, x.helper = some h ∧ h.id = id ∧
      (h.pc = .done → h.wc.isSome = true) ∧ (h.pc = .sleep ∨ h.pc = .woken ∨ h.pc = .done) ∧
      (h.pc = .sleep → Waking (r.st k).tab.pc) := by
    intro k hk
    obtain ⟨x, hx, h1, h2⟩ := hw k hk
    obtain ⟨h, h3, h4, _, h5⟩ := (r.reach k).minv.waits x hx id h2
    refine ⟨x, hx, h1, h2, h, h3, h4, h5, ?_, ?_⟩
    · cases hp : h.pc with
      | check => exact (ha k hk (by rw [← h4]; exact ((r.reach k).minv.holder x hx h h3 (Or.inl hp)).2)).elim
      | enter => exact (ha k hk (by rw [← h4]; exact ((r.reach k).minv.holder x hx h h3 (Or.inr hp)).2)).elim
      | _ => simp
    · intro hp
      exact ((r.reach k).minv.asleep x hx h h3 hp).resolve_right (by rw [h4]; exact ha k hk)
  -- the helper at the next moment
  have nxt : ∀ k x h, m ≤ k → x ∈ (r.st k).clients → x.cid = cid → x.pc = .waiting id → x.helper = some h →
      ∃ y ∈ (r.st (k + 1)).clients, y.cid = cid ∧ ∃ h', y.helper = some h' ∧ HMove h h' := by
    intro k x h hk hx h1 h2 h3
    obtain ⟨h', ⟨y, hy, h4, _, h5⟩, h6, _⟩ := Has.step (r.reach k) ⟨x, hx, h1, by rw [h2]; nofun, h3⟩ (r.next k)
    exact ⟨y, hy, h4, h', h5, h6⟩
  have same : ∀ k x y, x ∈ (r.st k).clients → y ∈ (r.st k).clients → x.cid = cid → y.cid = cid → x = y :=
    fun k x y hx hy h1 h2 => cid_inj (r.reach k).minv.nd hx hy (by rw [h1, h2])
  -- once done it stays so, and the caller receives what it found
  have noDone : ∀ a, m ≤ a → ¬ ∃ x ∈ (r.st a).clients, x.cid = cid ∧ ∃ h, x.helper = some h ∧ h.pc = .done := by
    intro a hma h0
    have stay : ∀ k, a ≤ k → ∃ x ∈ (r.st k).clients, x.cid = cid ∧ ∃ h, x.helper = some h ∧ h.pc = .done := by
      intro k hk
      induction hk with
      | refl => exact h0
      | @step k hk ih =>
        obtain ⟨x, hx, h1, h, h2, h3⟩ := ih
        obtain ⟨z, hz, hz1, hz2, _⟩ := hh k (Nat.le_trans hma hk)
        obtain rfl := same k z x hz hx hz1 h1
        obtain ⟨y, hy, h4, h', h5, h6⟩ := nxt k z h (Nat.le_trans hma hk) hx h1 hz2 h2
        refine ⟨y, hy, h4, h', h5, ?_⟩
        cases h6 with
        | same => exact h3
        | wake => unfold Helper.wake; rw [if_neg (by rw [h3]; nofun)]; exact h3
        | taken => exact h3
        | stop => exact h3
        | quit h _ => rfl
        | enter h _ => rw [h3] at h; cases h
        | sleep h => rw [h3] at h; cases h
        | found _ h => rfl
        | check h => rw [h3] at h; cases h
    obtain ⟨k, hk, ho⟩ := Run.taken hf (op := .cRecv cid) rfl nofun nofun (infOften_of_from a fun k hk => by
      obtain ⟨x, hx, rfl, h, h2, h3⟩ := stay k hk
      obtain ⟨z, hz, hz1, hz2, h', h4, _, h5, _⟩ := hh k (Nat.le_trans hma hk)
      obtain rfl := same k z x hz hx hz1 rfl
      rw [h2] at h4; cases h4
      obtain ⟨v, hv⟩ := Option.isSome_iff_exists.1 (h5 h3)
      rw [r.client_op hx (.cRecv _) rfl]
      simp [clientStep, hz2, h2, hv]) a
    exact hn k (Nat.le_trans hma hk) ho
  -- it does not sleep when the loop is at rest
  obtain ⟨a, hma, hrest⟩ := Run.loop_rests hf m
  have woken : ∀ k, a ≤ k → ∃ x ∈ (r.st k).clients, x.cid = cid ∧ x.pc = .waiting id ∧ ∃ h, x.helper = some h ∧ h.pc = .woken := by
    intro k hk
    induction hk with
    | refl =>
      obtain ⟨x, hx, h1, h2, h, h3, h4, h5, h6, h7⟩ := hh a hma
      refine ⟨x, hx, h1, h2, h, h3, ?_⟩
      rcases h6 with h6 | h6 | h6
      · exfalso
        rcases hrest with h8 | h8 <;> rcases h7 h6 with h9 | h9 <;> rw [h8] at h9 <;> cases h9
      · exact h6
      · exact (noDone a hma ⟨x, hx, h1, h, h3, h6⟩).elim
    | @step k hk ih =>
      obtain ⟨x, hx, h1, h2, h, h3, h4⟩ := ih
      have hmk := Nat.le_trans hma hk
      obtain ⟨y, hy, h5, h', h6, h7⟩ := nxt k x h hmk hx h1 h2 h3
      obtain ⟨z, hz, hz1, hz2, h'', hz3, _, _, hz4, _⟩ := hh (k + 1) (Nat.le_succ_of_le hmk)
      obtain rfl := same (k + 1) z y hz hy hz1 h5
      rw [h6] at hz3; cases hz3
      refine ⟨z, hy, h5, hz2, h', h6, ?_⟩
      cases h7 with
      | same => exact h4
      | wake => unfold Helper.wake; rw [if_neg (by rw [h4]; nofun)]; exact h4
      | taken => exact h4
      | stop => exact h4
      | quit h _ => rw [h4] at h; cases h
      | enter h _ => rw [h4] at h; cases h
      | sleep h => rw [h4] at h; cases h
      | found v h => exact (noDone (k + 1) (Nat.le_succ_of_le hmk) ⟨z, hy, h5, _, h6, rfl⟩).elim
      | check h => rcases hz4 with h | h | h <;> cases h
  -- so it is never done, though it could go on
  obtain ⟨k, hk, ho⟩ := Run.taken hf (op := .hWake cid) rfl nofun nofun ((Run.mu_idle hf).mono_from a fun k hk hmu => by
    obtain ⟨x, hx, rfl, _, h, h3, h4⟩ := woken k hk
    rw [r.client_op hx (.hWake _) rfl]
    simp only [clientStep, h3, h4, hmu, and_self, if_true]
    split <;> rfl) a
  obtain ⟨x, hx, h1, h2, h, h3, h4⟩ := woken k hk
  obtain ⟨z, hz, hz1, hz2, h'', hz3, hid, _⟩ := hh k (Nat.le_trans hma hk)
  obtain rfl := same k z x hz hx hz1 h1
  rw [h3] at hz3; cases hz3
  subst h1
  have hs := r.next k
  rw [ho, r.client_op hx (.hWake _) rfl] at hs
  simp only [clientStep, h3, h4, true_and] at hs
  split at hs
  · rw [hid] at hs
    split at hs
    · rename_i v hv
      have hs := Option.some.inj hs
      refine noDone (k + 1) (Nat.le_succ_of_le (Nat.le_trans hma hk)) ?_
      refine ⟨{ z with helper := z.helper.map (fun h => { h with pc := .done, wc := some v }) }, ?_, rfl, _, by rw [h3]; rfl, rfl⟩
      rw [← hs]; exact List.mem_map.2 ⟨z, hx, by simp⟩
    · rename_i hv; exact ha k (Nat.le_trans hma hk) hv
  · cases hs

/-- A call that waits for the removal of a registration while there is nothing in the channel for it. -/
theorem Reach.removal {s : State} (hr : Reach p s) {c : Client} (hc : c ∈ s.clients) {w rid : Nat} {e : Option Err}
    (hp : c.pc = .removeSelect w rid e) (htok : rid ∉ s.tab.tokens) :
    ∃ id, (∃ k f, .accepted k id rid f ∈ s.tab.hist) ∧
      (knownH s.tab.hist id = some rid ∨ ∃ cid', cid' ≠ c.cid ∧ GotResult s.tab.hist cid' id rid) := by
  have hok := (hr.cinv.ok c hc).pc
  unfold PcOk at hok
  rw [hp] at hok
  obtain ⟨id, hcall, hfound, _⟩ := hok
  obtain ⟨mid, pre, hh, _, _, hkn⟩ := hfound
  refine ⟨id, ?_, ?_⟩
  · obtain ⟨k, f, a⟩ := known_accepted hkn
    exact ⟨k, f, by rw [hh]; exact List.mem_append_right _ a⟩
  by_cases hrm : .removed id rid ∈ s.tab.hist
  · right
    rcases hr.took hrm with ht | ⟨cid', id', hgot⟩
    · exact absurd ht htok
    · have hne : cid' ≠ c.cid := by
        rintro rfl
        obtain ⟨post, pre, w, e, h1, _⟩ := hgot
        exact (hr.cinv.ok c hc).ret (by rw [hp]; nofun) (.result e) (by rw [h1]; simp)
      have hid : id' = id := by
        obtain ⟨post, pre', w', e', h1, _, ⟨mid', pre'', h2, _, _, h3⟩, _⟩ := hgot
        obtain ⟨k1, f1, a1⟩ := known_accepted h3
        obtain ⟨k2, f2, a2⟩ := known_accepted hkn
        have b1 : Ev.accepted k1 id' rid f1 ∈ s.tab.hist := by
          rw [h1, h2]; exact List.mem_append_right _ (.tail _ (List.mem_append_right _ a1))
        have b2 : Ev.accepted k2 id rid f2 ∈ s.tab.hist := by
          rw [hh]; exact List.mem_append_right _ a2
        exact accepted_inj hr.tab.evOk b1 b2
      subst hid
      exact ⟨cid', hne, hgot⟩
  · left
    have hk := hr.tab.evOk
    rw [hh] at hk ⊢
    rw [hh] at hrm
    exact known_stays hk hkn (fun h => hrm (List.mem_append_left _ h))

/-- In a fair execution every call returns, or waits for something that does not happen. -/
theorem Run.returns (hf : r.Fair) (hx : ∀ k, .exit ∈ r.hist k → (waitResult (r.st k)).isSome = true) {n : Nat} {c : Client}
    (hc : c ∈ (r.st n).clients) : (∃ k v, .ret c.cid v ∈ r.hist k) ∨ WaitsFor r.hist c.cid := by
  obtain ⟨m, pc, hm, hpc, hno⟩ := r.settle hc
  have no : ∀ op : Op, op.mover = some c.cid → op.internal = true → (∀ x, op ≠ .act x) → (∀ x, op ≠ .killAll x) →
      ¬ InfOften (fun k => ∀ x ∈ (r.st k).clients, x.cid = c.cid → x.pc = pc → (clientStep (r.st k) x op).isSome = true) := by
    intro op h1 h2 h3 h4 h5
    obtain ⟨k, hk, ho⟩ := Run.taken hf h2 h3 h4 (h5.mono_from m fun k hk h => by
      obtain ⟨x, hx, hxc, _, hxp⟩ := hpc k hk
      rw [r.client_op hx op (by rw [hxc, ← h1]; revert h1; cases op <;> simp [Op.mover, Op.cid?])]
      exact h x hx hxc hxp) m
    exact hno k hk (by rw [ho]; exact h1)
  have always : ∀ op : Op, op.mover = some c.cid → op.internal = true → (∀ x, op ≠ .act x) → (∀ x, op ≠ .killAll x) →
      (∀ k, m ≤ k → ∀ x ∈ (r.st k).clients, x.cid = c.cid → x.pc = pc → (clientStep (r.st k) x op).isSome = true) → False :=
    fun op h1 h2 h3 h4 h => no op h1 h2 h3 h4 (infOften_of_from m h)
  have hdead : ∀ k, (r.st k).tab.pc = .exited → (r.st k).tab.tomb.dead = true := by
    intro k h
    have := hx k ((r.reach k).tab.hinv.exit.1 h)
    unfold waitResult Tomb.wait at this
    split at this
    · assumption
    · cases this
  have dyi : ∀ k, (r.st k).tab.dying = true ↔ .kill ∈ r.hist k ∨ .exit ∈ r.hist k := by
    refine fun k => ⟨(r.reach k).tab.dying, ?_⟩
    rintro (h | h)
    · cases hd : (r.st k).tab.dying with
      | true => rfl
      | false => exact absurd h ((r.reach k).tab.notKilled hd)
    · have := hx k h
      unfold waitResult Tomb.wait at this
      split at this
      · exact this
      · cases this
  have hexit : ∀ a, (r.st a).tab.pc = .exited → ∀ k, a ≤ k → (r.st k).tab.pc = .exited := fun a h k hk =>
    (r.reach k).tab.hinv.exit.2 (r.hist_mono hk ((r.reach a).tab.hinv.exit.1 h))
  have hex : (∃ a, ∀ k, a ≤ k → (r.st k).tab.pc = .exited) ∨ InfOften (fun k => (r.st k).tab.pc = .select) := by
    by_cases h : ∃ a, (r.st a).tab.pc = .exited
    · obtain ⟨a, h⟩ := h; exact Or.inl ⟨a, hexit a h⟩
    · exact Or.inr ((Run.loop_rests hf).mono fun k hk => hk.resolve_right fun hy => h ⟨k, hy⟩)
  -- what the history says of a cancelled call
  have hcanc : ∀ op : Op, op.mover = some c.cid → op.internal = true → (∀ x, op ≠ .act x) → (∀ x, op ≠ .killAll x) →
      (∀ k x, m ≤ k → x.cid = c.cid → x.pc = pc → x.cancelled = true → (clientStep (r.st k) x op).isSome = true) →
      ∀ k, .cancelled c.cid ∉ r.hist k := by
    intro op h1 h2 h3 h4 h5 a ha
    refine no op h1 h2 h3 h4 (infOften_of_from (max m a) fun k hk x hx hxc hxp => ?_)
    exact h5 k x (by omega) hxc hxp ((r.reach k).rinv.canc x hx (by rw [hxc]; exact r.hist_mono (by omega) ha))
  obtain ⟨x0, hx0, hxc0, hxr0, hxp0⟩ := hpc m (Nat.le_refl m)
  have hok0 := ((r.reach m).cinv.ok x0 hx0).pc
  unfold PcOk at hok0
  rw [hxp0] at hok0
  rw [hxc0] at hok0
  cases pc with
  | startSend id sf =>
    exfalso
    rcases hex with ⟨a, ha⟩ | h
    · exact no (.cDead c.cid) rfl rfl nofun nofun (infOften_of_from a fun k hk x hx hxc hxp => by
        simp [clientStep, hxp, hdead k (ha k hk)])
    · exact no (.recvStart c.cid) rfl rfl nofun nofun (h.mono fun k hk x hx hxc hxp => by simp [clientStep, hxp, hk])
  | startReply =>
    exfalso
    obtain ⟨k, hk, h⟩ := Run.loop_rests hf m
    obtain ⟨x, hx, hxc, _, hxp⟩ := hpc k hk
    have h1 := ((r.reach k).cinv.ok x hx).pc
    unfold PcOk at h1
    rw [hxp] at h1
    obtain ⟨id, sf, _, h2⟩ := h1
    have h3 := h2.startish
    rcases h with h | h <;> rw [h] at h3 <;> cases h3
  | stopSend id =>
    exfalso
    rcases hex with ⟨a, ha⟩ | h
    · exact no (.cDead c.cid) rfl rfl nofun nofun (infOften_of_from a fun k hk x hx hxc hxp => by
        simp [clientStep, hxp, hdead k (ha k hk)])
    · exact no (.recvStop c.cid) rfl rfl nofun nofun (h.mono fun k hk x hx hxc hxp => by simp [clientStep, hxp, hk])
  | lock id =>
    exfalso
    refine no (.cLock c.cid) rfl rfl nofun nofun ((Run.mu_idle hf).mono fun k hk x hx hxc hxp => ?_)
    simp only [clientStep, hxp, hk, if_true]
    split <;> rfl
  | immediate id v =>
    exact (always (.cImmediate c.cid) rfl rfl nofun nofun fun k hk x hx hxc hxp => by simp [clientStep, hxp]).elim
  | waiting id =>
    right; left
    have hdy : ∀ k, m ≤ k → (r.st k).tab.dying = false := by
      intro a hma
      cases hd : (r.st a).tab.dying with
      | false => rfl
      | true =>
        exfalso
        refine no (.cDying c.cid) rfl rfl nofun nofun (infOften_of_from a fun k hk x hx hxc hxp => ?_)
        have : (r.st k).tab.dying = true := (dyi k).2 (by
          rcases (dyi a).1 hd with h | h
          · exact Or.inl (r.hist_mono hk h)
          · exact Or.inr (r.hist_mono hk h))
        simp [clientStep, hxp, this]
    refine ⟨id, ?_, ?_, ?_, ⟨m, ?_⟩, ?_⟩
    · exact hcanc (.cAbort c.cid) rfl rfl nofun nofun fun k x hk hxc hxp hca => by simp [clientStep, hxp, hca]
    · intro k hk
      have := (dyi (max m k)).2 (Or.inl (r.hist_mono (by omega) hk))
      rw [hdy _ (by omega)] at this; cases this
    · intro k hk
      have := (dyi (max m k)).2 (Or.inr (r.hist_mono (by omega) hk))
      rw [hdy _ (by omega)] at this; cases this
    · have := hok0.1
      unfold lookupCall at this
      split at this
      · exact Or.inr this
      · exact Or.inl this
    · apply Classical.byContradiction
      intro hni
      obtain ⟨a, ha⟩ := not_infOften hni
      refine Run.found hf (m := max m a) (cid := c.cid) (id := id) (fun k hk => ?_) (fun k hk ho => ?_) (fun k hk hg => ?_)
      · obtain ⟨x, hx, hxc, _, hxp⟩ := hpc k (by omega)
        exact ⟨x, hx, hxc, hxp⟩
      · exact hno k (by omega) (by rw [ho]; rfl)
      · obtain ⟨i, h1, h2⟩ := getWorker_none.1 hg
        refine ha k (by omega) ⟨?_, ?_⟩
        · show (knownH (r.st k).tab.hist id).isSome = true
          rw [(r.reach k).tab.hinv.kn, h1]; rfl
        · show instH (r.st k).tab.hist id = none
          rw [(r.reach k).tab.hinv.inst, h1]; exact h2
  | gotWc id v => exact (always (.cGotWc c.cid) rfl rfl nofun nofun fun k hk x hx hxc hxp => by simp [clientStep, hxp]).elim
  | closing id => exact (always (.cClose c.cid) rfl rfl nofun nofun fun k hk x hx hxc hxp => by simp [clientStep, hxp]).elim
  | bcasting id => exact (always (.cBcast c.cid) rfl rfl nofun nofun fun k hk x hx hxc hxp => by simp [clientStep, hxp]).elim
  | removeKill w rid => exact (always (.cKill c.cid) rfl rfl nofun nofun fun k hk x hx hxc hxp => by simp [clientStep, hxp]).elim
  | removeWait w rid =>
    right; right; left
    obtain ⟨id, hcall, _, hkw, _⟩ := hok0
    refine ⟨id, w, ⟨m, hcall⟩, ⟨m, hkw⟩, fun a => ?_⟩
    cases hfin : finishedH (r.hist a) w with
    | none => rfl
    | some e =>
      exfalso
      refine no (.cWaitRet c.cid) rfl rfl nofun nofun (infOften_of_from a fun k hk x hx hxc hxp => ?_)
      have h1 := r.fin_mono hk hfin
      have h2 := (r.reach k).tab.hinv.fin w
      rw [show finishedH (r.st k).tab.hist w = _ from h1] at h2
      simp [clientStep, hxp, h2]
  | removeSelect w rid e =>
    right; right; right
    obtain ⟨id, hcall, ⟨mid, pre, hh, _, _, hkn⟩, _⟩ := hok0
    obtain ⟨k1, f1, a1⟩ := known_accepted hkn
    have a1 : Ev.accepted k1 id rid f1 ∈ r.hist m := by
      show _ ∈ (r.st m).tab.hist
      rw [hh]; exact List.mem_append_right _ a1
    obtain ⟨a, ha⟩ := not_infOften (fun h : InfOften (fun k => rid ∈ (r.st k).tab.tokens) =>
      no (.cRemoved c.cid) rfl rfl nofun nofun (h.mono fun k hk x hx hxc hxp => by simp [clientStep, hxp, hk]))
    refine ⟨id, rid, ?_, ⟨m, hcall⟩, max m a, fun k hk => ?_⟩
    · exact hcanc (.cRemoveAbort c.cid) rfl rfl nofun nofun fun k x hk hxc hxp hca => by simp [clientStep, hxp, hca]
    · obtain ⟨x, hx, hxc, _, hxp⟩ := hpc k (by omega)
      obtain ⟨id', ⟨k2, f2, a2⟩, h2⟩ := (r.reach k).removal hx hxp (ha k (by omega))
      rw [hxc] at h2
      obtain rfl := accepted_inj (r.reach k).tab.evOk a2 (r.hist_mono (by omega) a1)
      exact h2
  | returned v => exact Or.inl ⟨m, v, hok0⟩

/-! ## Attempts come to an end -/

/-- How far a goroutine is. -/
def Pc.left (pc : Pc) : Nat := pc.rank true (fun _ => false)

theorem gto_mem {t : Tab} {g g' : G} {pc : Pc} (hnd : (t.gs.map G.gid).Nodup) (hg : g ∈ t.gs) (hg' : g' ∈ t.gs)
    (hlt : pc.left < g'.pc.left) :
    ∃ x ∈ (t.gto g'.gid pc).gs, x.gid = g.gid ∧ x.id = g.id ∧ (x.pc = g.pc ∨ x.pc.left < g.pc.left) := by
  by_cases h : g.gid = g'.gid
  · obtain rfl := gid_inj hnd hg hg' h
    exact ⟨{ g with pc := pc }, List.mem_map.2 ⟨g, hg, by simp⟩, rfl, rfl, Or.inr hlt⟩
  · exact ⟨g, List.mem_map.2 ⟨g, hg, by simp [h]⟩, rfl, rfl, Or.inl rfl⟩

theorem T.goroutine {p : Params} {t t' : Tab} (hs : Shape p t) (h : T p t t') {g : G} (hg : g ∈ t.gs) :
    (∃ x ∈ t'.gs, x.gid = g.gid ∧ x.id = g.id ∧ (x.pc = g.pc ∨ x.pc.left < g.pc.left)) ∨
    (g.gid < t'.nextG ∧ g.gid ∉ t'.gs.map G.gid) := by
  have same : t'.gs = t.gs → (∃ x ∈ t'.gs, x.gid = g.gid ∧ x.id = g.id ∧ (x.pc = g.pc ∨ x.pc.left < g.pc.left)) ∨
      (g.gid < t'.nextG ∧ g.gid ∉ t'.gs.map G.gid) := by
    intro h1
    exact Or.inl ⟨g, by rw [h1]; exact hg, rfl, rfl, Or.inl rfl⟩
  cases h with
  | recvStarted g' w _ hg' hp => left; exact gto_mem hs.gidNd hg hg' (by rw [hp]; simp [Pc.left, Pc.rank])
  | recvDone g' e _ hg' hp => left; exact gto_mem hs.gidNd hg hg' (by rw [hp]; cases e <;> simp [Pc.left, Pc.rank])
  | accepted cid id sf now _ h _ => exact Or.inl ⟨g, List.mem_cons_of_mem _ hg, rfl, rfl, Or.inl rfl⟩
  | stop id h => exact same (killLocked_gs _ _).1
  | started gid id w h => exact same (setWorker_gs _ _ _ _).1
  | killNext id rest h => exact same (killLocked_gs _ _).1
  | done gid id e h =>
    obtain ⟨g', hg', rfl, rfl, hge⟩ := hs.actDone gid id e h
    obtain ⟨info, hi⟩ := Option.isSome_iff_exists.1 ((hs.known g'.id).2 (List.mem_map.2 ⟨g', hg', rfl⟩))
    have key : ∀ t2 : Tab, t2.nextG = t.nextG → t2.gs = (dropG t g'.gid).gs →
        (∃ x ∈ t2.gs, x.gid = g.gid ∧ x.id = g.id ∧ (x.pc = g.pc ∨ x.pc.left < g.pc.left)) ∨
        (g.gid < t2.nextG ∧ g.gid ∉ t2.gs.map G.gid) := by
      intro t2 h1 h2
      by_cases hx : g.gid = g'.gid
      · right
        rw [h1, h2]
        refine ⟨hs.gidLt g hg, fun hm => ?_⟩
        obtain ⟨y, hy, hyg⟩ := List.mem_map.1 hm
        have := (List.mem_filter.1 hy).2
        simp only [hyg, hx, bne_self_eq_false] at this
        cases this
      · left
        exact ⟨g, by rw [h2]; exact List.mem_filter.2 ⟨hg, by simpa using hx⟩, rfl, rfl, Or.inl rfl⟩
    unfold workerDone
    rw [hi]
    dsimp only
    cases hf : fate p info e with
    | remove => exact key _ rfl rfl
    | fatal err => exact key _ (by dsimp only; unfold beginShutdown; split <;> rfl) (beginShutdown_gs _).1
    | restart sf =>
      rcases key (dropG t g'.gid) rfl rfl with ⟨x, hx, h1⟩ | ⟨h1, h2⟩
      · exact Or.inl ⟨x, List.mem_cons_of_mem _ hx, h1⟩
      · refine Or.inr ⟨Nat.lt_succ_of_lt h1, fun hm => ?_⟩
        rcases List.mem_cons.1 hm with hm | hm
        · have h3 : g.gid = t.nextG := hm
          have h4 : g.gid < t.nextG := h1
          omega
        · exact h2 hm
  | gDying g' hg' hp _ => left; exact gto_mem hs.gidNd hg hg' (by rw [hp]; simp [Pc.left, Pc.rank])
  | gTimer g' hg' hp => left; exact gto_mem hs.gidNd hg hg' (by rw [hp]; simp [Pc.left, Pc.rank])
  | gCall g' hg' hp => left; exact gto_mem hs.gidNd hg hg' (by rw [hp]; simp [Pc.left, Pc.rank])
  | gStartOk g' w hg' hp => left; exact gto_mem hs.gidNd hg hg' (by rw [hp]; simp [Pc.left, Pc.rank])
  | gStartErr g' e hg' hp => left; exact gto_mem hs.gidNd hg hg' (by rw [hp]; simp [Pc.left, Pc.rank])
  | gWaitRet g' w e hg' hp hf => left; exact gto_mem hs.gidNd hg hg' (by rw [hp]; cases e <;> simp [Pc.left, Pc.rank])
  | _ => exact same rfl

/-- A step of a goroutine moves the goroutine. -/
theorem g_moves' {s s' : State} (hr : Reach p s) {g : G} (hg : g ∈ s.tab.gs) {op : Op} (hs : Runner.step p s op = some s')
    (hop : op = .gTimer g.gid ∨ op = .gCall g.gid ∨ op = .recvStarted g.gid ∨ op = .recvDone g.gid ∨ op = .gWaitRet g.gid) :
    ∃ x ∈ s'.tab.gs, x.gid = g.gid ∧ x.pc ≠ g.pc := by
  have hgg := getG_of hr.tab.shape.gidNd hg
  have key : ∀ pc, pc ≠ g.pc → ∃ x ∈ (s.tab.gto g.gid pc).gs, x.gid = g.gid ∧ x.pc ≠ g.pc :=
    fun pc h => ⟨{ g with pc := pc }, List.mem_map.2 ⟨g, hg, by simp⟩, rfl, h⟩
  rcases hop with rfl | rfl | rfl | rfl | rfl
  · simp only [Runner.step, Op.cid?, tabStep, hgg] at hs
    split at hs
    · rename_i h; cases hs; exact key _ (by rw [h]; nofun)
    · cases hs
  · simp only [Runner.step, Op.cid?, tabStep, hgg] at hs
    split at hs
    · rename_i h; cases hs; exact key _ (by rw [h]; nofun)
    · cases hs
  · simp only [Runner.step, Op.cid?, tabStep, hgg] at hs
    split at hs
    · split at hs
      · rename_i h; cases hs; exact key _ (by rw [h]; nofun)
      · cases hs
    · cases hs
  · simp only [Runner.step, Op.cid?, tabStep, hgg] at hs
    split at hs
    · split at hs
      · rename_i h; cases hs; exact key _ (by rw [h]; nofun)
      · cases hs
    · cases hs
  · simp only [Runner.step, Op.cid?, tabStep, hgg] at hs
    split at hs
    · rename_i h
      split at hs
      · cases hs; exact key _ (by rw [h]; nofun)
      · cases hs
    · cases hs

/-- In a fair execution every attempt ends, unless its StartFunc does not return or its worker does not finish. -/
theorem Run.attempt (hf : r.Fair) {n gid : Nat} (hb : phaseH (r.hist n) gid ≠ none) :
    (∃ k, phaseH (r.hist k) gid = some .over) ∨
    (∃ m, ∀ k, m ≤ k → phaseH (r.hist k) gid = some .calling) ∨
    ∃ w m, (∀ k, m ≤ k → phaseH (r.hist k) gid = some (.running w)) ∧ (∀ k, finishedH (r.hist k) w = none) ∧
      ∃ id, .learned id gid w ∈ r.hist m := by
  by_cases hov : ∃ k, phaseH (r.hist k) gid = some .over
  · exact Or.inl hov
  right
  have hlt : gid < (r.st n).tab.nextG := Classical.byContradiction fun h =>
    hb ((r.reach n).tab.hinv.fresh gid (by omega))
  have ex0 : ∃ g ∈ (r.st n).tab.gs, g.gid = gid := by
    apply Classical.byContradiction
    intro h
    refine hov ⟨n, (r.reach n).tab.hinv.over gid hlt fun hm => ?_⟩
    obtain ⟨g, hg, h1⟩ := List.mem_map.1 hm
    exact h ⟨g, hg, h1⟩
  have nxt : ∀ k g, g ∈ (r.st k).tab.gs → g.gid = gid →
      ∃ x ∈ (r.st (k + 1)).tab.gs, x.gid = gid ∧ (x.pc = g.pc ∨ x.pc.left < g.pc.left) := by
    intro k g hg hgid
    rcases T.goroutine (r.reach k).tab.shape (step_T (r.next k)) hg with ⟨x, hx, h1, _, h2⟩ | ⟨h1, h2⟩
    · exact ⟨x, hx, by rw [h1, hgid], h2⟩
    · exact (hov ⟨k + 1, (r.reach (k + 1)).tab.hinv.over gid (hgid ▸ h1) (hgid ▸ h2)⟩).elim
  have ex : ∀ k, n ≤ k → ∃ g, (r.st k).tab.getG gid = some g := by
    intro k hk
    have : ∃ g ∈ (r.st k).tab.gs, g.gid = gid := by
      induction hk with
      | refl => exact ex0
      | @step k hk ih =>
        obtain ⟨g, hg, h1⟩ := ih
        obtain ⟨x, hx, h2, _⟩ := nxt k g hg h1
        exact ⟨x, hx, h2⟩
    obtain ⟨g, hg, rfl⟩ := this
    exact ⟨g, getG_of (r.reach k).tab.shape.gidNd hg⟩
  have mv : ∀ k x y, (r.st k).tab.getG gid = some x → (r.st (k + 1)).tab.getG gid = some y →
      y.pc = x.pc ∨ y.pc.left < x.pc.left := by
    intro k x y hx hy
    obtain ⟨hx, hxc⟩ := getG_some hx
    obtain ⟨hy, hyc⟩ := getG_some hy
    obtain ⟨z, hz, h1, h2⟩ := nxt k x hx hxc
    obtain rfl := gid_inj (r.reach (k + 1)).tab.shape.gidNd hz hy (by rw [h1, hyc])
    exact h2
  let f : Nat → Nat := fun k => match (r.st k).tab.getG gid with
    | some x => x.pc.left
    | none => 0
  have hfe : ∀ k x, (r.st k).tab.getG gid = some x → f k = x.pc.left := by
    intro k x hx
    show (match (r.st k).tab.getG gid with | some x => x.pc.left | none => 0) = _
    rw [hx]
  obtain ⟨m, hm, hcst⟩ := settles (f := f) (n := n) (by
    intro k hk
    obtain ⟨x, hx⟩ := ex k hk
    obtain ⟨y, hy⟩ := ex (k + 1) (Nat.le_succ_of_le hk)
    rw [hfe k x hx, hfe _ y hy]
    rcases mv k x y hx hy with h | h
    · exact Nat.le_of_eq (by rw [h])
    · omega)
  obtain ⟨x0, hx0⟩ := ex m hm
  have hpc : ∀ k, m ≤ k → ∃ x, (r.st k).tab.getG gid = some x ∧ x ∈ (r.st k).tab.gs ∧ x.gid = gid ∧ x.pc = x0.pc := by
    intro k hk
    have : ∃ x, (r.st k).tab.getG gid = some x ∧ x.pc = x0.pc := by
      induction hk with
      | refl => exact ⟨x0, hx0, rfl⟩
      | @step k hk ih =>
        obtain ⟨x, hx, hxp⟩ := ih
        obtain ⟨y, hy⟩ := ex (k + 1) (Nat.le_succ_of_le (Nat.le_trans hm hk))
        refine ⟨y, hy, ?_⟩
        rcases mv k x y hx hy with h | h
        · rw [h, hxp]
        · have h1 := hcst k hk
          have h2 := hcst (k + 1) (Nat.le_succ_of_le hk)
          rw [hfe k x hx] at h1
          rw [hfe _ y hy] at h2
          omega
    obtain ⟨x, hx, hxp⟩ := this
    exact ⟨x, hx, (getG_some hx).1, (getG_some hx).2, hxp⟩
  have no : ∀ op, (op = .gTimer gid ∨ op = .gCall gid ∨ op = .recvStarted gid ∨ op = .recvDone gid ∨ op = .gWaitRet gid) →
      InfOften (fun k => (step p (r.st k) op).isSome = true) → False := by
    intro op hop he
    have hi : op.internal = true := by rcases hop with rfl | rfl | rfl | rfl | rfl <;> rfl
    obtain ⟨k, hk, ho⟩ := Run.taken hf hi (by rcases hop with rfl | rfl | rfl | rfl | rfl <;> nofun)
      (by rcases hop with rfl | rfl | rfl | rfl | rfl <;> nofun) he m
    obtain ⟨x, _, hx, hxg, hxp⟩ := hpc k hk
    obtain ⟨y, hy, h1, h2⟩ := g_moves' (r.reach k) hx (r.next k) (by rw [ho, hxg]; exact hop)
    obtain ⟨z, _, hz, hzg, hzp⟩ := hpc (k + 1) (Nat.le_succ_of_le hk)
    obtain rfl := gid_inj (r.reach (k + 1)).tab.shape.gidNd hz hy (by rw [hzg, h1, hxg])
    exact h2 (by rw [hzp, hxp])
  have hph : ∀ k, m ≤ k → ∀ g ∈ (r.st k).tab.gs, g.gid = gid → PhaseOk (r.st k).tab g := fun k _ g hg _ =>
    (r.reach k).tab.hinv.ph g hg
  have hexit : ∀ k, m ≤ k → (r.st k).tab.pc ≠ .exited := by
    intro k hk h
    obtain ⟨x, _, hx, _⟩ := hpc k hk
    have := ((r.reach k).tab.shape.known x.id).2 (List.mem_map.2 ⟨x, hx, rfl⟩)
    rw [((r.reach k).tab.shape.exited h).2 x.id] at this
    cases this
  have hsel : InfOften (fun k => (r.st k).tab.pc = .select) :=
    (Run.loop_rests hf).mono_from m fun k hk h => h.resolve_right (hexit k hk)
  cases hp : x0.pc with
  | delaying =>
    exact (no (.gTimer gid) (by simp) (infOften_of_from m fun k hk => by
      obtain ⟨x, h1, _, h2, h3⟩ := hpc k hk
      simp [Runner.step, Op.cid?, tabStep, h1, h3, hp])).elim
  | ready =>
    exact (no (.gCall gid) (by simp) (infOften_of_from m fun k hk => by
      obtain ⟨x, h1, _, h2, h3⟩ := hpc k hk
      simp [Runner.step, Op.cid?, tabStep, h1, h3, hp])).elim
  | starting =>
    refine Or.inl ⟨m, fun k hk => ?_⟩
    obtain ⟨x, h1, h2, h3, h4⟩ := hpc k hk
    have := (r.reach k).tab.hinv.ph x h2
    unfold PhaseOk at this
    rw [h4, hp, h3] at this
    exact this
  | sendStarted w =>
    exact (no (.recvStarted gid) (by simp) (hsel.mono_from m fun k hk hs => by
      obtain ⟨x, h1, _, h2, h3⟩ := hpc k hk
      simp [Runner.step, Op.cid?, tabStep, h1, h3, hp, hs])).elim
  | waiting w =>
    obtain ⟨a, hma, hsa⟩ := hsel m
    refine Or.inr ⟨w, a, fun k hk => ?_, fun b => ?_, ?_⟩
    · obtain ⟨x, h1, h2, h3, h4⟩ := hpc k (by omega)
      have := (r.reach k).tab.hinv.ph x h2
      unfold PhaseOk at this
      rw [h4, hp, h3] at this
      exact this
    · cases hfin : finishedH (r.hist b) w with
      | none => rfl
      | some e =>
        exact (no (.gWaitRet gid) (by simp) (infOften_of_from (max m b) fun k hk => by
          obtain ⟨x, h1, _, h2, h3⟩ := hpc k (by omega)
          have h4 := r.fin_mono (b := k) (by omega) hfin
          have h5 := (r.reach k).tab.hinv.fin w
          rw [show finishedH (r.st k).tab.hist w = _ from h4] at h5
          simp [Runner.step, Op.cid?, tabStep, h1, h3, hp, h5])).elim
    · obtain ⟨x, h1, h2, h3, h4⟩ := hpc a hma
      rcases (r.reach a).tab.learn.waiting x h2 w (by rw [h4, hp]) with h | h
      · exact ⟨x.id, by rw [← h3]; exact h⟩
      · rw [hsa] at h; cases h
  | sendDone e =>
    exact (no (.recvDone gid) (by simp) (hsel.mono_from m fun k hk hs => by
      obtain ⟨x, h1, _, h2, h3⟩ := hpc k hk
      simp [Runner.step, Op.cid?, tabStep, h1, h3, hp, hs])).elim
  | gone e =>
    exfalso
    obtain ⟨a, hma, hsa⟩ := hsel m
    obtain ⟨x, h1, h2, h3, h4⟩ := hpc a hma
    have := (r.reach a).tab.shape.goneAct x h2 e (by rw [h4, hp])
    rw [hsa] at this; cases this

end Verif.Runner
