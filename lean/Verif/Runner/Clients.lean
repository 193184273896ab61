import Verif.Runner.HistLemmas

/-!
# Runner: the client calls
-/

namespace Verif.RSpec
open Verif.Runner Verif.Spec

/-- The client call an event belongs to. -/
def evCid : Ev → Option Nat
  | .callStart c _ _ | .callStop c _ | .callWorker c _ | .callRemove c _ | .cancelled c | .ret c _
  | .clientKillW c _ => some c
  | _ => none

/-- The call an event is. -/
def evCall : Ev → Option Nat
  | .callStart c _ _ | .callStop c _ | .callWorker c _ | .callRemove c _ => some c
  | _ => none

theorem callH_cons {e : Ev} {h : List Ev} {k : Nat} (he : evCall e ≠ some k) : callH (e :: h) k = callH h k := by
  cases e <;> simp only [callH] <;> split <;> first | rfl | (rename_i hk; subst hk; exact absurd rfl he)

theorem callH_append {es h : List Ev} {k : Nat} (he : ∀ e ∈ es, evCall e ≠ some k) : callH (es ++ h) k = callH h k := by
  induction es with
  | nil => rfl
  | cons e es ih =>
    rw [List.cons_append, callH_cons (he e List.mem_cons_self), ih (fun x hx => he x (List.mem_cons_of_mem _ hx))]

theorem callH_none {h : List Ev} {k : Nat} (hh : ∀ e ∈ h, evCall e ≠ some k) : callH h k = none := by
  have := callH_append (h := []) hh
  rw [List.append_nil] at this; rw [this]; rfl

theorem During.mono {h es : List Ev} {k : Nat} {P : List Ev → Prop} (hd : During h k P) : During (es ++ h) k P := by
  obtain ⟨mid, pre, rfl, h1, h2⟩ := hd
  exact ⟨es ++ mid, pre, by simp, h1, h2⟩

theorem During.imp {h : List Ev} {k : Nat} {P Q : List Ev → Prop} (hd : During h k P) (hi : ∀ h, P h → Q h) :
    During h k Q := by
  obtain ⟨mid, pre, rfl, h1, h2⟩ := hd
  exact ⟨mid, pre, rfl, h1, hi _ h2⟩

/-- At this moment. -/
theorem During.now {h : List Ev} {k : Nat} {P : List Ev → Prop} (hc : (callH h k).isSome = true) (hp : P h) :
    During h k P := ⟨[], h, rfl, hc, hp⟩

end Verif.RSpec

namespace Verif.Runner
open Tab State RSpec Spec

/-- What is known about a lookup's result. -/
def FoundOk (h : List Ev) (cid : Nat) (id : Name) : Found → Prop
  | .notFound => During h cid (fun h' => knownH h' id = none)
  | .worker w rid => During h cid (fun h' => instH h' id = some w ∧ knownH h' id = some rid)

theorem FoundOk.mono {h es : List Ev} {cid id : Nat} {r : Found} (hf : FoundOk h cid id r) : FoundOk (es ++ h) cid id r := by
  cases r <;> exact During.mono hf

/-- The call has been waiting for a worker. -/
def Waited (h : List Ev) (cid : Nat) (id : Name) : Prop :=
  During h cid (fun h' => (knownH h' id).isSome = true ∧ instH h' id = none)

/-- The request of a StartWorker call is being handled or has been. -/
def ReplyOk (t : Tab) (cid : Nat) (id : Name) (sf : Nat) : Prop :=
  t.pc = .act (.start cid id sf) ∨
  (t.pc = .reply cid none ∧ During t.hist cid
    (fun h' => (∃ rid, h'.head? = some (.accepted cid id rid sf)) ∨ h'.head? = some (.ignored cid id))) ∨
  (t.pc = .reply cid (some (.alreadyExists id)) ∧ During t.hist cid (fun h' => h'.head? = some (.refused cid id)))

/-- The call of a client that looks a worker up. -/
def lookupCall (c : Client) (id : Name) : Call := if c.remove then .remove id else .worker id

/-- Where a client is agrees with the history. -/
def PcOk (t : Tab) (c : Client) : Prop :=
  match c.pc with
  | .startSend id sf => callH t.hist c.cid = some (.start id sf)
  | .startReply => ∃ id sf, callH t.hist c.cid = some (.start id sf) ∧ ReplyOk t c.cid id sf
  | .stopSend id => callH t.hist c.cid = some (.stop id)
  | .lock id => callH t.hist c.cid = some (lookupCall c id)
  | .immediate id r => callH t.hist c.cid = some (lookupCall c id) ∧ FoundOk t.hist c.cid id r
  | .waiting id => callH t.hist c.cid = some (lookupCall c id) ∧
    (∃ h, c.helper = some h ∧ h.id = id ∧ ∀ r, h.wc = some r → FoundOk t.hist c.cid id r) ∧ Waited t.hist c.cid id
  | .gotWc id r => callH t.hist c.cid = some (lookupCall c id) ∧ FoundOk t.hist c.cid id r ∧ Waited t.hist c.cid id
  | .closing id | .bcasting id => callH t.hist c.cid = some (lookupCall c id) ∧ .cancelled c.cid ∈ t.hist
  | .removeKill w rid => ∃ id, callH t.hist c.cid = some (.remove id) ∧ FoundOk t.hist c.cid id (.worker w rid) ∧
    During t.hist c.cid (fun h' => MayHave h' c.cid id)
  | .removeWait w rid => ∃ id, callH t.hist c.cid = some (.remove id) ∧ FoundOk t.hist c.cid id (.worker w rid) ∧
    .clientKillW c.cid w ∈ t.hist ∧ During t.hist c.cid (fun h' => MayHave h' c.cid id)
  | .removeSelect w rid e => ∃ id, callH t.hist c.cid = some (.remove id) ∧ FoundOk t.hist c.cid id (.worker w rid) ∧
    .clientKillW c.cid w ∈ t.hist ∧ finishedH t.hist w = some e ∧ During t.hist c.cid (fun h' => MayHave h' c.cid id)
  | .returned r => .ret c.cid r ∈ t.hist

structure ClientOk (t : Tab) (c : Client) : Prop where
  pc : PcOk t c
  ret : (∀ r, c.pc ≠ .returned r) → ∀ r, .ret c.cid r ∉ t.hist
  canc : c.cancelled = true → .cancelled c.cid ∈ t.hist

/-- The helper only matters through these. -/
theorem PcOk.helper {t : Tab} {c c' : Client} (h : PcOk t c) (h1 : c'.cid = c.cid) (h2 : c'.pc = c.pc)
    (h3 : c'.remove = c.remove)
    (h4 : ∀ h id, c.pc = .waiting id → c.helper = some h → ∃ h', c'.helper = some h' ∧ h'.id = h.id ∧
      ∀ r, h'.wc = some r → h.wc = some r ∨ FoundOk t.hist c.cid h.id r) : PcOk t c' := by
  unfold PcOk lookupCall at *
  rw [h1, h2, h3]
  split at h <;> rename_i hpc
  · exact h
  · exact h
  · exact h
  · exact h
  · exact h
  · obtain ⟨ha, ⟨x, hx, hi, hw⟩, hwt⟩ := h
    obtain ⟨x', hx', hi', hw'⟩ := h4 x _ hpc hx
    refine ⟨ha, ⟨x', hx', by rw [hi', hi], ?_⟩, hwt⟩
    intro r hr
    rcases hw' r hr with h | h
    · exact hw r h
    · rw [hi] at h; exact h
  · exact h
  · exact h
  · exact h
  · exact h
  · exact h
  · exact h
  · exact h

/-- The runner moves on; nothing happens to this client. -/
theorem PcOk.frame {p : Params} {t t' : Tab} {c : Client} {es : List Ev} (h : PcOk t c) (hk : AtEvery (EvOk p) t'.hist)
    (hh : t'.hist = es ++ t.hist) (he : ∀ e ∈ es, evCall e ≠ some c.cid)
    (hr : c.pc = .startReply → ∀ id sf, ReplyOk t c.cid id sf → ReplyOk t' c.cid id sf) : PcOk t' c := by
  have hc : callH t'.hist c.cid = callH t.hist c.cid := by rw [hh]; exact callH_append he
  have hm : ∀ e ∈ t.hist, e ∈ t'.hist := by intro e he; rw [hh]; exact List.mem_append_right _ he
  have hf : ∀ id r, FoundOk t.hist c.cid id r → FoundOk t'.hist c.cid id r := by
    intro id r h; rw [hh]; exact h.mono
  have hd : ∀ P, During t.hist c.cid P → During t'.hist c.cid P := by
    intro P h; rw [hh]; exact h.mono
  have hfin : ∀ w e, finishedH t.hist w = some e → finishedH t'.hist w = some e := by
    intro w e h; rw [hh] at hk ⊢; exact finished_stays hk h
  unfold PcOk at *
  rw [hc]
  split at h <;> rename_i hpc
  · exact h
  · obtain ⟨id, sf, h1, h2⟩ := h; exact ⟨id, sf, h1, hr hpc id sf h2⟩
  · exact h
  · exact h
  · exact ⟨h.1, hf _ _ h.2⟩
  · obtain ⟨ha, ⟨x, hx, hi, hw⟩, hwt⟩ := h
    exact ⟨ha, ⟨x, hx, hi, fun r hr => hf _ _ (hw r hr)⟩, hd _ hwt⟩
  · exact ⟨h.1, hf _ _ h.2.1, hd _ h.2.2⟩
  · exact ⟨h.1, hm _ h.2⟩
  · exact ⟨h.1, hm _ h.2⟩
  · obtain ⟨id, h1, h2, h3⟩ := h; exact ⟨id, h1, hf _ _ h2, hd _ h3⟩
  · obtain ⟨id, h1, h2, h3, h4⟩ := h; exact ⟨id, h1, hf _ _ h2, hm _ h3, hd _ h4⟩
  · obtain ⟨id, h1, h2, h3, h4, h5⟩ := h; exact ⟨id, h1, hf _ _ h2, hm _ h3, hfin _ _ h4, hd _ h5⟩
  · exact hm _ h

theorem ClientOk.frame {p : Params} {t t' : Tab} {c : Client} {es : List Ev} (h : ClientOk t c)
    (hk : AtEvery (EvOk p) t'.hist) (hh : t'.hist = es ++ t.hist) (he : ∀ e ∈ es, evCid e ≠ some c.cid)
    (hr : c.pc = .startReply → ∀ id sf, ReplyOk t c.cid id sf → ReplyOk t' c.cid id sf) : ClientOk t' c := by
  have he' : ∀ e ∈ es, evCall e ≠ some c.cid := by
    intro e hx hy
    apply he e hx
    cases e <;> first | (cases hy; rfl) | cases hy
  refine ⟨h.pc.frame hk hh he' hr, ?_, ?_⟩
  · intro hp r hm
    rw [hh] at hm
    rcases List.mem_append.1 hm with hm | hm
    · exact he _ hm rfl
    · exact h.ret hp r hm
  · intro hc; rw [hh]; exact List.mem_append_right _ (h.canc hc)

structure CInv (s : State) : Prop where
  lt : ∀ c ∈ s.clients, c.cid < s.nextC
  nd : (s.clients.map Client.cid).Nodup
  evLt : ∀ e ∈ s.tab.hist, ∀ k, evCid e = some k → k < s.nextC
  ok : ∀ c ∈ s.clients, ClientOk s.tab c
  reply : ∀ cid, ((∃ id sf, s.tab.pc = .act (.start cid id sf)) ∨ ∃ r, s.tab.pc = .reply cid r) →
    ∃ c ∈ s.clients, c.cid = cid ∧ c.pc = .startReply
  rets : AtEvery RetOk s.tab.hist

theorem cid_inj {l : List Client} (h : (l.map Client.cid).Nodup) {a b : Client} (ha : a ∈ l) (hb : b ∈ l)
    (hab : a.cid = b.cid) : a = b := by
  induction l with
  | nil => cases ha
  | cons x l ih =>
    rw [List.map_cons, List.nodup_cons] at h
    rcases List.mem_cons.1 ha with h1 | h1 <;> rcases List.mem_cons.1 hb with h2 | h2
    · rw [h1, h2]
    · subst h1; exact absurd (List.mem_map.2 ⟨b, h2, hab.symm⟩) h.1
    · subst h2; exact absurd (List.mem_map.2 ⟨a, h1, hab⟩) h.1
    · exact ih h.2 h1 h2

/-- Only the runner moves. -/
theorem CInv.tab {p : Params} {s : State} {t' : Tab} (h : CInv s) (hk : AtEvery (EvOk p) t'.hist) {es : List Ev}
    (hh : t'.hist = es ++ s.tab.hist) (he : ∀ e ∈ es, evCid e = none)
    (hr : ∀ k id sf, ReplyOk s.tab k id sf → ReplyOk t' k id sf)
    (hr' : ∀ cid, ((∃ id sf, t'.pc = .act (.start cid id sf)) ∨ ∃ r, t'.pc = .reply cid r) →
      (∃ id sf, s.tab.pc = .act (.start cid id sf)) ∨ ∃ r, s.tab.pc = .reply cid r) : CInv (s.withTab t') := by
  refine ⟨h.lt, h.nd, ?_, ?_, ?_, ?_⟩
  · intro e hm k hk
    rw [show (s.withTab t').tab.hist = es ++ s.tab.hist from hh] at hm
    rcases List.mem_append.1 hm with hm | hm
    · rw [he e hm] at hk; cases hk
    · exact h.evLt e hm k hk
  · intro c hc
    exact (h.ok c hc).frame hk hh (fun e hm => by rw [he e hm]; nofun) (fun _ id sf => hr _ id sf)
  · intro cid hx
    exact h.reply cid (hr' cid hx)
  · show AtEvery RetOk t'.hist
    rw [hh]
    refine AtEvery.append ?_ h.rets
    clear hh
    induction es with
    | nil => trivial
    | cons e es ih =>
      refine ⟨?_, ih (fun x hx => he x (List.mem_cons_of_mem _ hx))⟩
      have := he e List.mem_cons_self
      cases e <;> first | trivial | cases this

/-- One client moves, perhaps together with the runner. -/
theorem CInv.client {p : Params} {s s' : State} (h : CInv s) {c : Client} (hc : c ∈ s.clients) (f : Client → Client)
    (hf : ∀ x, (f x).cid = x.cid)
    (hcl : s'.clients = s.clients.map (fun x => if x.cid = c.cid then f x else x)) (hn : s'.nextC = s.nextC)
    (hk : AtEvery (EvOk p) s'.tab.hist) {es : List Ev} (hh : s'.tab.hist = es ++ s.tab.hist)
    (he : ∀ e ∈ es, evCid e = none ∨ evCid e = some c.cid)
    (hr : ∀ k id sf, k ≠ c.cid → ReplyOk s.tab k id sf → ReplyOk s'.tab k id sf)
    (hr' : ∀ k, ((∃ id sf, s'.tab.pc = .act (.start k id sf)) ∨ ∃ r, s'.tab.pc = .reply k r) →
      if k = c.cid then (f c).pc = .startReply else
      (∃ id sf, s.tab.pc = .act (.start k id sf)) ∨ ∃ r, s.tab.pc = .reply k r)
    (hret : AtNew RetOk es s.tab.hist) (hnew : ClientOk s'.tab (f c)) : CInv s' := by
  have hmem : ∀ c', c' ∈ s'.clients → (c' = f c) ∨ (c' ∈ s.clients ∧ c'.cid ≠ c.cid) := by
    intro c' hx
    rw [hcl] at hx
    obtain ⟨x, hm, rfl⟩ := List.mem_map.1 hx
    split
    · rename_i heq; left; rw [cid_inj h.nd hm hc heq]
    · rename_i hne; exact Or.inr ⟨hm, hne⟩
  refine ⟨?_, ?_, ?_, ?_, ?_, ?_⟩
  · intro c' hx
    rw [hn]
    rcases hmem c' hx with rfl | ⟨hx, _⟩
    · rw [hf]; exact h.lt c hc
    · exact h.lt c' hx
  · have : s'.clients.map Client.cid = s.clients.map Client.cid := by
      rw [hcl, List.map_map]
      apply List.map_congr_left
      intro x _
      simp only [Function.comp]
      split
      · exact hf x
      · rfl
    rw [this]; exact h.nd
  · intro e hm k hk
    rw [hn]
    rw [hh] at hm
    rcases List.mem_append.1 hm with hm | hm
    · rcases he e hm with hx | hx
      · rw [hx] at hk; cases hk
      · rw [hx] at hk; cases hk; exact h.lt c hc
    · exact h.evLt e hm k hk
  · intro c' hx
    rcases hmem c' hx with rfl | ⟨hx, hne⟩
    · exact hnew
    · refine (h.ok c' hx).frame hk hh ?_ (fun _ id sf => hr _ id sf hne)
      intro e hm hy
      rcases he e hm with hz | hz
      · rw [hz] at hy; cases hy
      · rw [hz] at hy; exact hne (Option.some.inj hy).symm
  · intro k hx
    have := hr' k hx
    split at this
    · rename_i heq
      refine ⟨f c, ?_, by rw [hf, heq], this⟩
      rw [hcl]; exact List.mem_map.2 ⟨c, hc, by simp⟩
    · rename_i hne
      obtain ⟨c', hc', rfl, hp⟩ := h.reply k this
      refine ⟨c', ?_, rfl, hp⟩
      rw [hcl]; exact List.mem_map.2 ⟨c', hc', by simp [hne]⟩
  · rw [hh]; exact AtEvery.append hret h.rets

/-! ## Steps of the loop and of the runWorker goroutines -/

/-- The loop is handling a StartWorker request. -/
def startish : LoopPc → Bool
  | .act (.start ..) | .reply .. => true
  | _ => false

theorem killLocked_es (t : Tab) (id : Name) :
    ∃ es, (killLocked t id).hist = es ++ t.hist ∧ ∀ e ∈ es, evCid e = none :=
  ⟨killEvs t id, killLocked_hist t id, fun e he => by rcases mem_killEvs he with rfl | ⟨w, rfl⟩ <;> rfl⟩

/-- How a step of the runner proper looks to the clients. -/
structure Move (t t' : Tab) : Prop where
  es : ∃ es, t'.hist = es ++ t.hist ∧ ∀ e ∈ es, evCid e = none
  pc : t'.pc = t.pc ∨ (startish t.pc = false ∧ startish t'.pc = false) ∨
    ∃ cid id sf, t.pc = .act (.start cid id sf) ∧
      ((t'.pc = .reply cid none ∧ t'.hist = .ignored cid id :: t.hist) ∨
       (t'.pc = .reply cid none ∧ ∃ rid g, t'.hist = .begin id g 0 sf :: .accepted cid id rid sf :: t.hist) ∨
       (t'.pc = .reply cid (some (.alreadyExists id)) ∧ t'.hist = .refused cid id :: t.hist))

theorem Move.nil {t t' : Tab} (h1 : t'.hist = t.hist) (h2 : t'.pc = t.pc ∨ (startish t.pc = false ∧ startish t'.pc = false)) :
    Move t t' := ⟨⟨[], h1, by simp⟩, h2.elim Or.inl (fun h => Or.inr (Or.inl h))⟩

theorem Move.one {t t' : Tab} (e : Ev) (he : evCid e = none) (h1 : t'.hist = e :: t.hist)
    (h2 : t'.pc = t.pc ∨ (startish t.pc = false ∧ startish t'.pc = false)) :
    Move t t' := ⟨⟨[e], h1, by simpa using he⟩, h2.elim Or.inl (fun h => Or.inr (Or.inl h))⟩

theorem act_move (p : Params) (t : Tab) (now : Int) (m : Msg) (hm : t.pc = .act m) : Move t (act p t now m) := by
  cases m with
  | start cid id sf =>
    simp only [act]
    split
    · exact ⟨⟨[.ignored cid id], rfl, by simp [evCid]⟩, Or.inr (Or.inr ⟨cid, id, sf, hm, Or.inl ⟨rfl, rfl⟩⟩)⟩
    · split
      · exact ⟨⟨[.refused cid id], rfl, by simp [evCid]⟩, Or.inr (Or.inr ⟨cid, id, sf, hm, Or.inr (Or.inr ⟨rfl, rfl⟩)⟩)⟩
      · exact ⟨⟨[.begin id t.nextG 0 sf, .accepted cid id t.nextR sf], rfl, by simp [evCid]⟩,
          Or.inr (Or.inr ⟨cid, id, sf, hm, Or.inr (Or.inl ⟨rfl, _, _, rfl⟩)⟩)⟩
  | stop id =>
    refine ⟨⟨killEvs (t.log (.stopHandled id)) id ++ [.stopHandled id], ?_, ?_⟩, Or.inr (Or.inl ⟨by rw [hm]; rfl, rfl⟩)⟩
    · show (killLocked (t.log (.stopHandled id)) id).hist = _
      rw [killLocked_hist, List.append_assoc]; rfl
    · intro e he
      rcases List.mem_append.1 he with he | he
      · rcases mem_killEvs he with rfl | ⟨w, rfl⟩ <;> rfl
      · simp only [List.mem_singleton] at he; subst he; rfl
  | started gid id w =>
    refine ⟨?_, Or.inr (Or.inl ⟨by rw [hm]; rfl, rfl⟩)⟩
    show ∃ es, (setWorker t gid id w).hist = es ++ t.hist ∧ _
    unfold setWorker
    split
    · exact ⟨[], rfl, by simp⟩
    · simp only
      split
      · rw [killLocked_hist]
        refine ⟨killEvs _ id ++ [.learned id gid w], by rw [List.append_assoc]; rfl, ?_⟩
        intro e he
        rcases List.mem_append.1 he with he | he
        · rcases mem_killEvs he with rfl | ⟨w, rfl⟩ <;> rfl
        · simp only [List.mem_singleton] at he; subst he; rfl
      · exact ⟨[.learned id gid w], rfl, by simp [evCid]⟩
  | done gid id e =>
    simp only [act]
    unfold workerDone
    split
    · exact .nil rfl (Or.inl rfl)
    · rename_i info hi
      simp only
      have hs : startish t.pc = false := by rw [hm]; rfl
      split
      · exact ⟨⟨[.removed id info.rid, .ended id gid e], rfl, by simp [evCid]⟩, Or.inr (Or.inl ⟨hs, rfl⟩)⟩
      · unfold beginShutdown
        split
        · exact ⟨⟨[.removed id info.rid, .ended id gid e], rfl, by simp [evCid]⟩, Or.inr (Or.inl ⟨hs, rfl⟩)⟩
        · exact ⟨⟨[.shutdown, .removed id info.rid, .ended id gid e], rfl, by simp [evCid]⟩,
            Or.inr (Or.inl ⟨hs, rfl⟩)⟩
      · rename_i sf _
        exact ⟨⟨[.begin id t.nextG info.restartDelay sf, .ended id gid e], rfl, by simp [evCid]⟩,
          Or.inr (Or.inl ⟨hs, rfl⟩)⟩

theorem tabStep_move {p : Params} {s : State} {op : Op} {t : Tab} (h : tabStep p s op = some t) : Move s.tab t := by
  unfold tabStep at h
  split at h
  · cases h; exact .one _ rfl rfl (Or.inl rfl)
  · split at h
    · rename_i hpc
      have hs : startish s.tab.pc = false := by rw [hpc]; rfl
      split at h <;> cases h
      · exact .one _ rfl rfl (Or.inr ⟨hs, rfl⟩)
      · exact .nil rfl (Or.inr ⟨hs, rfl⟩)
    · cases h
  · split at h
    · rename_i hc; cases h
      exact .one _ rfl rfl (Or.inr ⟨by rw [hc.1]; rfl, rfl⟩)
    · cases h
  · split at h
    · rename_i hpc
      split at h
      · split at h
        · cases h; exact .nil rfl (Or.inr ⟨by rw [hpc]; rfl, rfl⟩)
        · cases h
      · cases h
    · cases h
  · split at h
    · rename_i hpc
      split at h
      · split at h
        · cases h; exact .nil rfl (Or.inr ⟨by rw [hpc]; rfl, rfl⟩)
        · cases h
      · cases h
    · cases h
  · split at h
    · rename_i m hm
      split at h
      · cases h; exact act_move p _ _ m hm
      · cases h
    · cases h
  · split at h
    · rename_i hc; cases h
      exact .nil rfl (Or.inr ⟨by rw [hc.1]; rfl, rfl⟩)
    · cases h
  · split at h
    · rename_i hpc; cases h; exact .nil rfl (Or.inr ⟨by rw [hpc]; rfl, rfl⟩)
    · rename_i id rest hpc; cases h
      exact ⟨killLocked_es s.tab id, Or.inr (Or.inl ⟨by rw [hpc]; rfl, rfl⟩)⟩
    · cases h
  · split at h
    · split at h
      · cases h; exact .nil rfl (Or.inl rfl)
      · cases h
    · cases h
  · split at h
    · split at h
      · cases h; exact .nil rfl (Or.inl rfl)
      · cases h
    · cases h
  · split at h
    · split at h
      · cases h; exact .one _ rfl rfl (Or.inl rfl)
      · cases h
    · cases h
  · split at h
    · split at h
      · cases h; exact .one _ rfl rfl (Or.inl rfl)
      · cases h
    · cases h
  · split at h
    · split at h
      · cases h; exact .one _ rfl rfl (Or.inl rfl)
      · cases h
    · cases h
  · split at h
    · split at h
      · cases h; exact .one _ rfl rfl (Or.inl rfl)
      · cases h
    · cases h
  · split at h
    · split at h
      · split at h
        · cases h; exact .nil rfl (Or.inl rfl)
        · cases h
      · cases h
    · cases h
  · split at h
    · split at h
      · cases h; exact .one _ rfl rfl (Or.inl rfl)
      · cases h
    · cases h
  · split at h
    · cases h; exact .one _ rfl rfl (Or.inl rfl)
    · cases h
  · split at h
    · cases h; exact .one _ rfl rfl (Or.inl rfl)
    · cases h
  · split at h
    · cases h; exact .one _ rfl rfl (Or.inl rfl)
    · cases h
  · cases h

theorem ReplyOk.startish {t : Tab} {k id sf : Nat} (h : ReplyOk t k id sf) : Runner.startish t.pc = true := by
  rcases h with h | ⟨h, _⟩ | ⟨h, _⟩ <;> rw [h] <;> rfl

theorem ReplyOk.same {t t' : Tab} {k id sf : Nat} {es : List Ev} (h : ReplyOk t k id sf) (hpc : t'.pc = t.pc)
    (hh : t'.hist = es ++ t.hist) : ReplyOk t' k id sf := by
  unfold ReplyOk at *
  rw [hpc, hh]
  rcases h with h | ⟨h, h2⟩ | ⟨h, h2⟩
  · exact Or.inl h
  · exact Or.inr (Or.inl ⟨h, h2.mono⟩)
  · exact Or.inr (Or.inr ⟨h, h2.mono⟩)

theorem startish_of {pc : LoopPc} {k : Nat} (h : (∃ id sf, pc = .act (.start k id sf)) ∨ ∃ r, pc = .reply k r) :
    startish pc = true := by
  rcases h with ⟨id, sf, rfl⟩ | ⟨r, rfl⟩ <;> rfl

theorem CInv.move {p : Params} {s : State} {t' : Tab} (h : CInv s) (hk : AtEvery (EvOk p) t'.hist) (hm : Move s.tab t') :
    CInv (s.withTab t') := by
  obtain ⟨⟨es, hh, he⟩, hpc⟩ := hm
  rcases hpc with hpc | ⟨h1, h2⟩ | ⟨cid, id, sf, hp, hx⟩
  · exact h.tab hk hh he (fun k id sf hr => hr.same hpc hh) (fun k hx => by rw [hpc] at hx; exact hx)
  · refine h.tab hk hh he (fun k id sf hr => ?_) (fun k hx => ?_)
    · rw [hr.startish] at h1; cases h1
    · rw [startish_of hx] at h2; cases h2
  · -- the request is handled
    obtain ⟨c, hc, rfl, hcp⟩ := h.reply cid (Or.inl ⟨id, sf, hp⟩)
    have hco := (h.ok c hc).pc
    unfold PcOk at hco
    rw [hcp] at hco
    obtain ⟨id', sf', hcall, hro⟩ := hco
    have hcs : (callH s.tab.hist c.cid).isSome = true := by rw [hcall]; rfl
    refine h.tab hk hh he (fun k id2 sf2 hr => ?_) (fun k hy => ?_)
    · have hpp : s.tab.pc = .act (.start k id2 sf2) := by
        rcases hr with h | ⟨h, _⟩ | ⟨h, _⟩
        · exact h
        · rw [hp] at h; cases h
        · rw [hp] at h; cases h
      rw [hp] at hpp
      simp only [LoopPc.act.injEq, Msg.start.injEq] at hpp
      obtain ⟨rfl, rfl, rfl⟩ := hpp
      rcases hx with ⟨ha, hb⟩ | ⟨ha, rid, g, hb⟩ | ⟨ha, hb⟩
      · refine Or.inr (Or.inl ⟨ha, ?_⟩)
        rw [hb]
        exact .now (by simpa [callH] using hcs) (Or.inr rfl)
      · refine Or.inr (Or.inl ⟨ha, ?_⟩)
        rw [hb]
        refine During.mono (es := [Ev.begin id g 0 sf]) (.now (h := Ev.accepted _ id rid sf :: s.tab.hist) ?_ (Or.inl ⟨rid, rfl⟩))
        simpa [callH] using hcs
      · refine Or.inr (Or.inr ⟨ha, ?_⟩)
        rw [hb]
        exact .now (by simpa [callH] using hcs) rfl
    · left
      rcases hx with ⟨ha, _⟩ | ⟨ha, _⟩ | ⟨ha, _⟩ <;>
      · rw [ha] at hy
        rcases hy with ⟨_, _, hy⟩ | ⟨_, hy⟩ <;> cases hy
        exact ⟨id, sf, hp⟩

/-! ## Steps of the clients -/

/-- One client moves; the loop does not. -/
theorem CInv.self {p : Params} {s s' : State} (h : CInv s) {c : Client} (hc : c ∈ s.clients) (f : Client → Client)
    (hf : ∀ x, (f x).cid = x.cid)
    (hcl : s'.clients = s.clients.map (fun x => if x.cid = c.cid then f x else x)) (hn : s'.nextC = s.nextC)
    (hk : AtEvery (EvOk p) s'.tab.hist) {es : List Ev} (hh : s'.tab.hist = es ++ s.tab.hist)
    (he : ∀ e ∈ es, evCid e = none ∨ evCid e = some c.cid) (hpc : s'.tab.pc = s.tab.pc)
    (hsr : c.pc = .startReply → (f c).pc = .startReply)
    (hret : AtNew RetOk es s.tab.hist) (hnew : ClientOk s'.tab (f c)) : CInv s' := by
  refine h.client hc f hf hcl hn hk hh he (fun k id sf _ hr => hr.same hpc hh) ?_ hret hnew
  intro k hx
  rw [hpc] at hx
  split
  · rename_i heq
    obtain ⟨c', hc', heq', hp⟩ := h.reply k hx
    rw [cid_inj h.nd hc' hc (by rw [heq', heq])] at hp
    exact hsr hp
  · exact hx

/-- One client moves without a trace in the history. -/
theorem CInv.silent {p : Params} {s s' : State} (h : CInv s) (hr : AtEvery (EvOk p) s.tab.hist) {c : Client}
    (hc : c ∈ s.clients) (f : Client → Client) (hf : ∀ x, (f x).cid = x.cid)
    (hcl : s'.clients = s.clients.map (fun x => if x.cid = c.cid then f x else x)) (hn : s'.nextC = s.nextC)
    (ht : s'.tab = s.tab) (hsr : c.pc = .startReply → (f c).pc = .startReply)
    (hca : (f c).cancelled = c.cancelled) (hrt : (∀ r, (f c).pc ≠ .returned r) → ∀ r, c.pc ≠ .returned r)
    (hnew : PcOk s.tab (f c)) : CInv s' := by
  refine h.self (es := []) hc f hf hcl hn (by rw [ht]; exact hr) (by rw [ht]; rfl) (by simp) (by rw [ht]) hsr trivial ?_
  rw [ht]
  refine ⟨hnew, ?_, ?_⟩
  · intro hx; rw [hf]; exact (h.ok c hc).ret (hrt hx)
  · intro hx; rw [hf]; exact (h.ok c hc).canc (hca ▸ hx)

/-- The helper of a client moves. -/
theorem CInv.helper {p : Params} {s s' : State} (h : CInv s) (hr : AtEvery (EvOk p) s.tab.hist) {c : Client}
    (hc : c ∈ s.clients) (f : Helper → Helper)
    (hcl : s'.clients = s.clients.map (fun x => if x.cid = c.cid then { x with helper := x.helper.map f } else x))
    (hn : s'.nextC = s.nextC) (ht : s'.tab = s.tab)
    (hw : ∀ x id, c.pc = .waiting id → c.helper = some x → (f x).id = x.id ∧
      ∀ r, (f x).wc = some r → x.wc = some r ∨ FoundOk s.tab.hist c.cid x.id r) : CInv s' := by
  refine h.silent hr hc (fun x => { x with helper := x.helper.map f }) (fun _ => rfl) hcl hn ht (fun x => x) rfl
    (fun x => x) ((h.ok c hc).pc.helper rfl rfl rfl ?_)
  intro x id hp hx
  exact ⟨f x, by rw [hx]; rfl, hw x id hp hx⟩

/-- A client returns. -/
theorem CInv.return_ {p : Params} {s s' : State} (h : CInv s) (hk : AtEvery (EvOk p) s'.tab.hist) {c : Client}
    (hc : c ∈ s.clients) {r : Ret}
    (hcl : s'.clients = s.clients.map (fun x => if x.cid = c.cid then { x with pc := .returned r } else x))
    (hn : s'.nextC = s.nextC) (hh : s'.tab.hist = .ret c.cid r :: s.tab.hist) (hpc : s'.tab.pc = s.tab.pc)
    (hnr : ∀ r, c.pc ≠ .returned r) (hsr : c.pc ≠ .startReply)
    (hret : RetOk (.ret c.cid r) s.tab.hist) : CInv s' := by
  refine h.self (es := [.ret c.cid r]) hc (fun x => { x with pc := .returned r }) (fun _ => rfl) hcl hn hk hh
    (by simp [evCid]) hpc (fun hx => absurd hx hsr) ⟨hret, trivial⟩ ?_
  refine ⟨?_, ?_, ?_⟩
  · unfold PcOk; simp [hh]
  · intro hx; exact absurd rfl (hx r)
  · intro hx; rw [hh]; exact List.mem_cons_of_mem _ ((h.ok c hc).canc hx)

theorem retOk_of {s : State} (h : CInv s) {c : Client} (hc : c ∈ s.clients) (hnr : ∀ r, c.pc ≠ .returned r)
    {call : Call} (hcall : callH s.tab.hist c.cid = some call) {r : Ret} (hm : CallRet s.tab.hist c.cid r call) :
    RetOk (.ret c.cid r) s.tab.hist :=
  ⟨(h.ok c hc).ret hnr, call, hcall, hm⟩

theorem retOk_lookup {s : State} (h : CInv s) {c : Client} (hc : c ∈ s.clients) (hnr : ∀ r, c.pc ≠ .returned r)
    {id : Name} (hcall : callH s.tab.hist c.cid = some (lookupCall c id)) {r : Ret}
    (hm : LookupErr s.tab.hist c.cid id r) : RetOk (.ret c.cid r) s.tab.hist := by
  refine retOk_of h hc hnr hcall ?_
  unfold lookupCall
  cases c.remove
  · exact Or.inr hm
  · exact Or.inr hm

theorem CInv.broadcast {p : Params} {s : State} (h : CInv s) (hr : AtEvery (EvOk p) s.tab.hist) (t' : Tab)
    (hh : t'.hist = s.tab.hist) (hpc : t'.pc = s.tab.pc ∨ (startish s.tab.pc = false ∧ startish t'.pc = false)) :
    CInv ((Runner.broadcast s).withTab t') := by
  have h1 : CInv (s.withTab t') := h.move (by rw [hh]; exact hr) (.nil hh hpc)
  have hcl : ((Runner.broadcast s).withTab t').clients = s.clients.map (fun c => { c with helper := c.helper.map Helper.wake }) := rfl
  refine ⟨?_, ?_, h1.evLt, ?_, ?_, h1.rets⟩
  · intro c hc
    rw [hcl] at hc
    obtain ⟨x, hx, rfl⟩ := List.mem_map.1 hc
    exact h1.lt x hx
  · have : ((Runner.broadcast s).withTab t').clients.map Client.cid = s.clients.map Client.cid := by
      rw [hcl, List.map_map]; rfl
    rw [this]; exact h1.nd
  · intro c hc
    rw [hcl] at hc
    obtain ⟨x, hx, rfl⟩ := List.mem_map.1 hc
    have := h1.ok x hx
    refine ⟨this.pc.helper rfl rfl rfl ?_, this.ret, this.canc⟩
    intro y id _ hy
    refine ⟨y.wake, by simp [hy], ?_, ?_⟩
    · unfold Helper.wake; split <;> rfl
    · intro r hr; left; unfold Helper.wake at hr; split at hr <;> exact hr
  · intro cid hx
    obtain ⟨c, hc, h2, h3⟩ := h1.reply cid hx
    exact ⟨{ c with helper := c.helper.map Helper.wake }, by rw [hcl]; exact List.mem_map.2 ⟨c, hc, rfl⟩, h2, h3⟩

theorem ReachT.dying {p : Params} {t : Tab} (h : ReachT p t) (hd : t.dying = true) : .kill ∈ t.hist ∨ .exit ∈ t.hist := by
  by_cases hp : t.pc = .exited
  · exact Or.inr (h.hinv.exit.1 hp)
  · left
    unfold Tab.dying at hd
    rw [h.hinv.tomb hp] at hd
    unfold aliveTomb at hd
    split at hd
    · rename_i hc; simpa using hc
    · cases hd

/-- A runner that has not been told to die has not been killed. -/
theorem ReachT.notKilled {p : Params} {t : Tab} (h : ReachT p t) (hd : t.dying = false) : .kill ∉ t.hist := by
  by_cases hp : t.pc = .exited
  rotate_left
  · intro hk
    unfold Tab.dying at hd
    rw [h.hinv.tomb hp] at hd
    unfold aliveTomb at hd
    rw [if_pos (by simpa using hk)] at hd
    cases hd
  · induction h with
    | init => nofun
    | @step t t' hr hT ih =>
      have key : t'.tomb = t.tomb → (.kill ∈ t'.hist → .kill ∈ t.hist) → .kill ∉ t'.hist := by
        intro h1 h2 h3
        unfold Tab.dying at hd ih
        rw [h1] at hd
        by_cases hpt : t.pc = .exited
        · exact ih hd hpt (h2 h3)
        · rw [hr.hinv.tomb hpt] at hd
          unfold aliveTomb at hd
          rw [if_pos (by simpa using h2 h3)] at hd
          cases hd
      have nope : ∀ {pc : LoopPc}, t'.pc = pc → pc ≠ .exited → .kill ∉ t'.hist := by
        intro pc h1 h2; rw [hp] at h1; exact absurd h1.symm h2
      have one : ∀ {e : Ev}, t'.tomb = t.tomb → t'.hist = e :: t.hist → e ≠ .kill → .kill ∉ t'.hist := by
        intro e h1 h2 h3
        refine key h1 ?_
        rw [h2]; intro hm
        rcases List.mem_cons.1 hm with h | h
        · exact absurd h.symm h3
        · exact h
      have gone : ∀ g ∈ t.gs, t'.pc = t.pc → .kill ∉ t'.hist := by
        intro g hg h1
        rw [hp] at h1
        have := (hr.shape.known g.id).2 (List.mem_map.2 ⟨g, hg, rfl⟩)
        rw [(hr.shape.exited h1.symm).2 g.id] at this; cases this
      cases hT with
      | same => exact key rfl (fun x => x)
      | quiet e he => exact one rfl rfl (by rintro rfl; cases he)
      | kill => exact absurd hd (by show ¬ (t.tomb.kill none).dying = false; simp)
      | exit hpc hdy hw =>
        intro hm
        have hm : .kill ∈ t.hist := by
          rcases List.mem_cons.1 hm with h | h
          · cases h
          · exact h
        have h1 := hr.hinv.tomb (by rw [hpc]; nofun)
        unfold aliveTomb at h1
        rw [if_pos (by simpa using hm)] at h1
        have h2 : (t.tomb.finish t.finalError).dying = false := hd
        rw [h1] at h2
        revert h2
        unfold Tomb.finish
        have hk : (Tomb.kill { reason := some none, alive := 0 } t.finalError).dying = true := by
          unfold Tomb.kill Tomb.dying; split
          · rfl
          · split <;> rfl
        simp only [Nat.sub_self, true_or, if_true]
        split
        · intro h; rw [hk] at h; cases h
        · split
          · intro h; exact absurd (hk.symm.trans h) (by nofun)
          · intro h; rw [hk] at h; cases h
      | gDying g hg hgp hdy => exact gone g hg rfl
      | gTimer g hg hgp => exact gone g hg rfl
      | gCall g hg hgp => exact gone g hg rfl
      | gStartOk g w hg hgp => exact gone g hg rfl
      | gStartErr g e hg hgp => exact gone g hg rfl
      | gWaitRet g w e hg hgp hf => exact gone g hg rfl
      | take rid cid ret hm => exact one rfl rfl (by nofun)
      | finish w e hf => exact one rfl rfl (by nofun)
      | done gid id e hpc =>
        exfalso
        revert hp
        unfold workerDone
        split
        · rw [hpc]; nofun
        · split
          · nofun
          · unfold beginShutdown; dsimp only; split <;> nofun
          · nofun
      | _ => exact nope rfl (by nofun)

theorem ReachT.dead {p : Params} {t : Tab} (h : ReachT p t) (hd : t.tomb.dead = true) : .exit ∈ t.hist := by
  by_cases hp : t.pc = .exited
  · exact h.hinv.exit.1 hp
  · rw [h.hinv.tomb hp] at hd
    unfold aliveTomb at hd
    split at hd <;> cases hd

/-- A value in a `done` channel means that the registration has been removed. -/
theorem ReachT.tok {p : Params} {t : Tab} (h : ReachT p t) : ∀ rid ∈ t.tokens, ∃ id, .removed id rid ∈ t.hist := by
  induction h with
  | init => intro r hr; cases hr
  | @step t t' hr hT ih =>
    obtain ⟨es, hes⟩ := T.grows hr hr.learn hT
    have key : t'.tokens = t.tokens → ∀ rid ∈ t'.tokens, ∃ id, .removed id rid ∈ t'.hist := by
      intro ht rid hm
      rw [ht] at hm
      obtain ⟨id, hid⟩ := ih rid hm
      exact ⟨id, by rw [hes]; exact List.mem_append_right _ hid⟩
    cases hT with
    | stop id hpc => exact key (killLocked_rest _ _).tokens
    | started gid id w hpc =>
      obtain ⟨g, hg, rfl, rfl⟩ := hr.shape.actStarted _ _ _ hpc
      obtain ⟨info, hi⟩ := Option.isSome_iff_exists.1 ((hr.shape.known g.id).2 (List.mem_map.2 ⟨g, hg, rfl⟩))
      exact key (setWorker_rest t g.gid g.id w info hi).tokens
    | killAll order hpc ho => exact key rfl
    | killNext id rest hpc => exact key (killLocked_rest _ _).tokens
    | killDone hpc => exact key rfl
    | done gid id e hpc =>
      obtain ⟨g, hg, rfl, rfl, hgp⟩ := hr.shape.actDone _ _ _ hpc
      obtain ⟨info, hi⟩ := Option.isSome_iff_exists.1 ((hr.shape.known g.id).2 (List.mem_map.2 ⟨g, hg, rfl⟩))
      intro rid hm
      have : rid ∈ t.tokens ∨ .removed g.id rid ∈ (workerDone p t g.gid g.id e).hist := by
        unfold workerDone at hm ⊢
        rw [hi] at hm ⊢
        simp only at hm ⊢
        split at hm
        · rcases List.mem_cons.1 hm with rfl | hm
          · exact Or.inr List.mem_cons_self
          · exact Or.inl hm
        · unfold beginShutdown at hm ⊢
          split at hm <;> rename_i hd
          · rw [if_pos hd]
            rcases List.mem_cons.1 hm with rfl | hm
            · exact Or.inr List.mem_cons_self
            · exact Or.inl hm
          · rw [if_neg hd]
            rcases List.mem_cons.1 hm with rfl | hm
            · exact Or.inr (List.mem_cons_of_mem _ List.mem_cons_self)
            · exact Or.inl hm
        · exact Or.inl hm
      rcases this with h | h
      · obtain ⟨id, hid⟩ := ih rid h
        exact ⟨id, by rw [hes]; exact List.mem_append_right _ hid⟩
      · exact ⟨_, h⟩
    | take rid cid ret hmem =>
      intro r hm
      obtain ⟨id, hid⟩ := ih r (List.mem_of_mem_erase hm)
      exact ⟨id, List.mem_cons_of_mem _ hid⟩
    | _ => exact key rfl

end Verif.Runner

namespace Verif.RSpec
open Verif.Runner Verif.Spec

theorem known_accepted {h : List Ev} {id rid : Nat} (hk : knownH h id = some rid) : ∃ cid sf, .accepted cid id rid sf ∈ h := by
  induction h with
  | nil => cases hk
  | cons e h ih =>
    have keep : knownH h id = some rid → ∃ cid sf, .accepted cid id rid sf ∈ e :: h := by
      intro hx; obtain ⟨c, sf, hs⟩ := ih hx; exact ⟨c, sf, List.mem_cons_of_mem _ hs⟩
    cases e with
    | accepted cid m r sf =>
      simp only [knownH] at hk; split at hk
      · rename_i hx; subst hx; cases hk; exact ⟨cid, sf, List.mem_cons_self⟩
      · exact keep hk
    | removed m r =>
      simp only [knownH] at hk; split at hk
      · cases hk
      · exact keep hk
    | _ => exact keep hk

theorem accepted_inj {p : Params} {h : List Ev} (hk : AtEvery (EvOk p) h) {c c' id id' rid sf sf' : Nat}
    (h1 : .accepted c id rid sf ∈ h) (h2 : .accepted c' id' rid sf' ∈ h) : id = id' := by
  induction h with
  | nil => cases h1
  | cons e h ih =>
    rcases List.mem_cons.1 h1 with h1' | h1' <;> rcases List.mem_cons.1 h2 with h2' | h2'
    · rw [← h1'] at h2'; cases h2'; rfl
    · subst h1'; exact absurd ⟨_, _, _, h2'⟩ hk.1.2.2.2.2
    · subst h2'; exact absurd ⟨_, _, _, h1'⟩ hk.1.2.2.2.2
    · exact ih hk.2 h1' h2'

theorem removed_accepted {p : Params} {h : List Ev} (hk : AtEvery (EvOk p) h) {id rid : Nat} (h1 : .removed id rid ∈ h) :
    ∃ cid sf, .accepted cid id rid sf ∈ h := by
  obtain ⟨a, b, rfl⟩ := mem_split h1
  obtain ⟨c, sf, hs⟩ := known_accepted (hk.split (e := Ev.removed id rid)).1
  exact ⟨c, sf, by simp [hs]⟩

end Verif.RSpec

namespace Verif.Runner
open Tab State RSpec Spec

theorem getWorker_ok {p : Params} {t : Tab} (h : HInv p t) {id : Name} {r : Found} (hg : getWorker t id = some r) :
    match r with
    | .notFound => knownH t.hist id = none
    | .worker w rid => instH t.hist id = some w ∧ knownH t.hist id = some rid := by
  unfold getWorker at hg
  split at hg
  · rename_i hw; cases hg; simp only; rw [h.kn, hw]; rfl
  · rename_i info hw
    split at hg
    · rename_i w hi; cases hg; simp only; rw [h.kn, h.inst, hw]; exact ⟨hi, rfl⟩
    · cases hg

theorem foundOk_now {p : Params} {t : Tab} (h : HInv p t) {id cid : Nat} {r : Found} (hg : getWorker t id = some r)
    (hc : (callH t.hist cid).isSome = true) : FoundOk t.hist cid id r := by
  have := getWorker_ok h hg
  cases r <;> exact .now hc this

theorem getWorker_wait {p : Params} {t : Tab} (h : HInv p t) {id : Name} (hg : getWorker t id = none) :
    (knownH t.hist id).isSome = true ∧ instH t.hist id = none := by
  unfold getWorker at hg
  split at hg
  · cases hg
  · rename_i info hw
    split at hg
    · cases hg
    · rename_i hi; rw [h.kn, h.inst, hw]; exact ⟨rfl, hi⟩

/-- A client returns with what the lookup found, or goes on to stop the worker. -/
theorem CInv.afterInfo {p : Params} {s : State} (h : CInv s) (hr : ReachT p s.tab) {c : Client} (hc : c ∈ s.clients)
    (hnr : ∀ r, c.pc ≠ .returned r) (hsr : c.pc ≠ .startReply) {id : Name} {r : Found}
    (hcall : callH s.tab.hist c.cid = some (lookupCall c id)) (hf : FoundOk s.tab.hist c.cid id r)
    (hmay : MayHave s.tab.hist c.cid id) (hnk : r = .notFound → .kill ∉ s.tab.hist) :
    CInv (Runner.afterInfo s c id r) := by
  have hk := hr.evOk
  have hr' : ∀ r, AtEvery (EvOk p) (s.tab.log (.ret c.cid r)).hist := fun r => ⟨trivial, hk⟩
  unfold Runner.afterInfo
  cases r with
  | notFound =>
    refine h.return_ (hr' _) hc rfl rfl rfl rfl hnr hsr ?_
    exact retOk_lookup h hc hnr hcall (Or.inl ⟨rfl, hf, hnk rfl⟩)
  | worker w rid =>
    simp only
    split
    · rename_i hrm
      refine h.silent hk hc (fun x => { x with pc := .removeKill w rid }) (fun _ => rfl) rfl rfl rfl
        (fun hx => absurd hx hsr) rfl (fun _ => hnr) ?_
      refine ⟨id, ?_, hf, .now (by show (callH s.tab.hist c.cid).isSome = true; rw [hcall]; rfl) hmay⟩
      show callH s.tab.hist c.cid = _
      rw [hcall, lookupCall, if_pos hrm]
    · rename_i hrm
      refine h.return_ (hr' _) hc rfl rfl rfl rfl hnr hsr ?_
      rw [lookupCall, if_neg hrm] at hcall
      refine retOk_of h hc hnr hcall ?_
      exact Or.inl ⟨w, rfl, hf.imp (fun _ h => h.1), hmay⟩

theorem CInv.new {p : Params} {s : State} (h : CInv s) (hr : ReachT p s.tab) (c : Client) (e : Ev)
    (he : evCall e = some s.nextC) (hpc : ∀ t, t.hist = e :: s.tab.hist → PcOk t { c with cid := s.nextC })
    (hnr : ∀ r, c.pc ≠ .returned r) (hca : c.cancelled = false) : CInv (newClient s c e) := by
  have hec : evCid e = some s.nextC := by cases e <;> first | exact he | cases he
  have hnone : ∀ x ∈ s.tab.hist, evCid x ≠ some s.nextC := fun x hx hy => Nat.lt_irrefl _ (h.evLt x hx _ hy)
  have hk : AtEvery (EvOk p) (e :: s.tab.hist) := ⟨(by cases e <;> first | trivial | cases he), hr.evOk⟩
  refine ⟨?_, ?_, ?_, ?_, ?_, ?_⟩
  · intro c' hc'
    rcases List.mem_cons.1 hc' with rfl | hc'
    · exact Nat.lt_succ_self _
    · exact Nat.lt_succ_of_lt (h.lt c' hc')
  · show (List.map Client.cid (_ :: s.clients)).Nodup
    rw [List.map_cons, List.nodup_cons]
    refine ⟨?_, h.nd⟩
    intro hm
    obtain ⟨c', hc', heq⟩ := List.mem_map.1 hm
    exact Nat.lt_irrefl _ (heq ▸ h.lt c' hc')
  · intro x hx k hxk
    rcases List.mem_cons.1 hx with rfl | hx
    · rw [hec] at hxk; cases hxk; exact Nat.lt_succ_self _
    · exact Nat.lt_succ_of_lt (h.evLt x hx k hxk)
  · intro c' hc'
    rcases List.mem_cons.1 hc' with rfl | hc'
    · refine ⟨hpc _ rfl, ?_, ?_⟩
      · intro _ r hm
        rcases List.mem_cons.1 hm with hm | hm
        · rw [← hm] at he; cases he
        · exact hnone _ hm rfl
      · intro hx; simp only at hx; rw [hca] at hx; cases hx
    · refine (h.ok c' hc').frame (es := [e]) hk rfl ?_ (fun _ id sf hr => hr.same (es := [e]) rfl rfl)
      intro x hx hy
      simp only [List.mem_singleton] at hx
      rw [hx, hec] at hy
      exact Nat.lt_irrefl _ (Option.some.inj hy ▸ h.lt c' hc')
  · intro cid hx
    obtain ⟨c', hc', h1⟩ := h.reply cid hx
    exact ⟨c', List.mem_cons_of_mem _ hc', h1⟩
  · exact ⟨(by cases e <;> first | trivial | cases he), h.rets⟩

theorem CInv.clientStep {p : Params} {s s' : State} {c : Client} {op : Op} (h : CInv s) (hr : ReachT p s.tab)
    (hc : c ∈ s.clients) (hop : op.cid? = some c.cid) (hs : clientStep s c op = some s') : CInv s' := by
  have hk := hr.evOk
  have hkr : ∀ r, AtEvery (EvOk p) (s.tab.log (.ret c.cid r)).hist := fun r => ⟨trivial, hk⟩
  have hco := h.ok c hc
  have hcp := hco.pc
  unfold PcOk at hcp
  unfold Runner.clientStep at hs
  split at hs <;> simp only [Op.cid?, Option.some.injEq, reduceCtorEq] at hop <;> (try subst hop)
  · -- cancel
    cases hs
    refine h.self (p := p) (es := [.cancelled c.cid]) hc (fun x => { x with cancelled := true }) (fun _ => rfl) rfl rfl
      ⟨trivial, hk⟩ rfl (by simp [evCid]) rfl (fun x => x) ⟨trivial, trivial⟩ ?_
    have h1 := (hco.pc.helper (c' := { c with cancelled := true }) rfl rfl rfl (fun x id _ hx => ⟨x, hx, rfl, fun r hr => Or.inl hr⟩))
    refine ⟨h1.frame (p := p) (es := [.cancelled c.cid]) ⟨trivial, hk⟩ rfl (by simp [evCall])
      (fun _ id sf hr => hr.same (es := [.cancelled c.cid]) rfl rfl), ?_, ?_⟩
    · intro hx r hm
      rcases List.mem_cons.1 hm with hm | hm
      · cases hm
      · exact hco.ret hx r hm
    · intro _; exact List.mem_cons_self
  · -- recvStart
    split at hs
    · rename_i hpc
      split at hs
      · rename_i id sf hp
        cases hs
        rw [hp] at hcp
        refine h.client (p := p) (es := []) hc (fun x => { x with pc := .startReply }) (fun _ => rfl) rfl rfl hk rfl
          (by simp) ?_ ?_ trivial ?_
        · intro k id sf _ hro
          have := hro.startish
          rw [hpc] at this; cases this
        · intro k hx
          split
          · rfl
          · rename_i hne
            exfalso
            rcases hx with ⟨_, _, hx⟩ | ⟨_, hx⟩
            · simp only [withTab, Tab.goTo, LoopPc.act.injEq, Msg.start.injEq] at hx
              exact hne hx.1.symm
            · simp only [withTab, Tab.goTo] at hx; cases hx
        · refine ⟨⟨id, sf, hcp, Or.inl rfl⟩, ?_, hco.canc⟩
          intro _; exact hco.ret (by rw [hp]; nofun)
      · cases hs
    · cases hs
  · -- recvStop
    split at hs
    · rename_i hpc
      split at hs
      · rename_i id hp
        cases hs
        rw [hp] at hcp
        refine h.client (p := p) (es := [.ret c.cid .ok]) hc (fun x => { x with pc := .returned .ok }) (fun _ => rfl) rfl rfl
          (hkr _) rfl (by simp [evCid]) ?_ ?_ ⟨?_, trivial⟩ ?_
        · intro k id sf _ hro
          have := hro.startish
          rw [hpc] at this; cases this
        · intro k hx
          exfalso
          rcases hx with ⟨_, _, hx⟩ | ⟨_, hx⟩ <;> simp only [withTab, Tab.goTo] at hx <;> cases hx
        · exact retOk_of h hc (by rw [hp]; nofun) hcp (Or.inl ⟨rfl, During.now (by rw [hcp]; rfl)
            (fun hx => by rw [hr.hinv.exit.2 hx] at hpc; cases hpc)⟩)
        · refine ⟨?_, ?_, ?_⟩
          · unfold PcOk; exact List.mem_cons_self
          · intro hx; exact absurd rfl (hx .ok)
          · intro hx; exact List.mem_cons_of_mem _ (hco.canc hx)
      · cases hs
    · cases hs
  · -- cDead
    split at hs
    · rename_i id sf hp
      rw [hp] at hcp
      split at hs
      · rename_i hcond
        cases hs
        have hnr : ∀ r, c.pc ≠ .returned r := by rw [hp]; nofun
        refine h.return_ (hkr _) hc rfl rfl rfl rfl hnr (by rw [hp]; nofun) (retOk_of h hc hnr hcp ?_)
        refine Or.inr (Or.inr ⟨rfl, ?_⟩)
        rcases hcond with hx | hx
        · exact Or.inl (hco.canc hx)
        · exact Or.inr (hr.dead hx)
      · cases hs
    · rename_i id hp
      rw [hp] at hcp
      split at hs
      · rename_i hcond
        cases hs
        have hnr : ∀ r, c.pc ≠ .returned r := by rw [hp]; nofun
        exact h.return_ (hkr _) hc rfl rfl rfl rfl hnr (by rw [hp]; nofun)
          (retOk_of h hc hnr hcp (Or.inr ⟨rfl, hr.dead hcond⟩))
      · cases hs
    · cases hs
  · -- cLock
    split at hs
    · rename_i id hp
      rw [hp] at hcp
      have hnr : ∀ r, c.pc ≠ .returned r := by rw [hp]; nofun
      have hsr : c.pc ≠ .startReply := by rw [hp]; nofun
      split at hs
      · split at hs
        · rename_i r hg
          cases hs
          refine h.silent hk hc (fun x => { x with pc := .immediate id r }) (fun _ => rfl) rfl rfl rfl
            (fun hx => absurd hx hsr) rfl (fun _ => hnr) ⟨hcp, ?_⟩
          exact foundOk_now hr.hinv hg (by show (callH s.tab.hist c.cid).isSome = true; rw [hcp]; rfl)
        · rename_i hg
          cases hs
          refine h.silent hk hc (fun x => { x with pc := .waiting id, helper := some { id := id } }) (fun _ => rfl) rfl
            rfl rfl (fun hx => absurd hx hsr) rfl (fun _ => hnr) ⟨hcp, ⟨_, rfl, rfl, ?_⟩,
              .now (by show (callH s.tab.hist c.cid).isSome = true; rw [hcp]; rfl) (getWorker_wait hr.hinv hg)⟩
          intro r hx; cases hx
      · cases hs
    · cases hs
  · -- cImmediate
    split at hs
    · rename_i id r hp
      rw [hp] at hcp
      have hnr : ∀ r, c.pc ≠ .returned r := by rw [hp]; nofun
      have hsr : c.pc ≠ .startReply := by rw [hp]; nofun
      cases hs
      split
      · rename_i hd
        exact h.return_ (hkr _) hc rfl rfl rfl rfl hnr hsr
          (retOk_lookup h hc hnr hcp.1 (Or.inr (Or.inl ⟨rfl, hr.dying hd⟩)))
      · rename_i hd
        have hnk := hr.notKilled (by simpa using hd)
        exact h.afterInfo hr hc hnr hsr hcp.1 hcp.2 (Or.inl hnk) (fun _ => hnk)
    · cases hs
  · -- cRecv
    split at hs
    · rename_i id r hp hwc
      rw [hp] at hcp
      have hnr : ∀ r, c.pc ≠ .returned r := by rw [hp]; nofun
      have hsr : c.pc ≠ .startReply := by rw [hp]; nofun
      cases hs
      obtain ⟨h1, ⟨x, hx, hid, hw⟩, hwt⟩ := hcp
      rw [hx] at hwc
      exact h.silent hk hc (fun c => { c with pc := .gotWc id r, helper := c.helper.map (fun h => { h with wc := none }) })
        (fun _ => rfl) rfl rfl rfl (fun hx => absurd hx hsr) rfl (fun _ => hnr) ⟨h1, hw r hwc, hwt⟩
    · cases hs
  · -- cGotWc
    split at hs
    · rename_i id r hp
      rw [hp] at hcp
      have hnr : ∀ r, c.pc ≠ .returned r := by rw [hp]; nofun
      have hsr : c.pc ≠ .startReply := by rw [hp]; nofun
      cases hs
      split
      · rename_i hd
        exact h.return_ (hkr _) hc rfl rfl rfl rfl hnr hsr
          (retOk_lookup h hc hnr hcp.1 (Or.inr (Or.inl ⟨rfl, hr.dying hd.2⟩)))
      · rename_i hd
        refine h.afterInfo hr hc hnr hsr hcp.1 hcp.2.1 (Or.inr hcp.2.2) (fun hn => hr.notKilled ?_)
        cases hx : s.tab.dying
        · rfl
        · exact absurd ⟨hn, hx⟩ hd
    · cases hs
  · -- cDying
    split at hs
    · rename_i id hp
      rw [hp] at hcp
      have hnr : ∀ r, c.pc ≠ .returned r := by rw [hp]; nofun
      split at hs
      · rename_i hd
        cases hs
        exact h.return_ (hkr _) hc rfl rfl rfl rfl hnr (by rw [hp]; nofun)
          (retOk_lookup h hc hnr hcp.1 (Or.inr (Or.inl ⟨rfl, hr.dying hd⟩)))
      · cases hs
    · cases hs
  · -- cAbort
    split at hs
    · rename_i id hp
      rw [hp] at hcp
      split at hs
      · rename_i hd
        cases hs
        exact h.silent hk hc (fun x => { x with pc := .closing id }) (fun _ => rfl) rfl rfl rfl
          (fun hx => by rw [hp] at hx; cases hx) rfl (fun _ => by rw [hp]; nofun) ⟨hcp.1, hco.canc hd⟩
      · cases hs
    · cases hs
  · -- cClose
    split at hs
    · rename_i id hp
      rw [hp] at hcp
      cases hs
      exact h.silent hk hc (fun c => { c with pc := .bcasting id, helper := c.helper.map (fun h => { h with stopped := true }) })
        (fun _ => rfl) rfl rfl rfl
        (fun hx => by rw [hp] at hx; cases hx) rfl (fun _ => by rw [hp]; nofun) hcp
    · cases hs
  · -- cBcast
    split at hs
    · rename_i id hp
      rw [hp] at hcp
      cases hs
      have hb : CInv (Runner.broadcast s) := h.broadcast hk s.tab rfl (Or.inl rfl)
      have hc' : { c with helper := c.helper.map Helper.wake } ∈ (Runner.broadcast s).clients :=
        List.mem_map.2 ⟨c, hc, rfl⟩
      have hnr : ∀ r, c.pc ≠ .returned r := by rw [hp]; nofun
      exact hb.return_ (hkr _) hc' rfl rfl rfl rfl hnr (by rw [hp]; nofun)
        (retOk_lookup hb hc' hnr hcp.1 (Or.inr (Or.inr ⟨rfl, hcp.2⟩)))
    · cases hs
  · -- cKill
    split at hs
    · rename_i w rid hp
      rw [hp] at hcp
      cases hs
      obtain ⟨id, h1, h2, h3⟩ := hcp
      refine h.self (p := p) (es := [.clientKillW c.cid w]) hc (fun x => { x with pc := .removeWait w rid }) (fun _ => rfl) rfl
        rfl ⟨trivial, hk⟩ rfl (by simp [evCid]) rfl (fun hx => by rw [hp] at hx; cases hx) ⟨trivial, trivial⟩ ?_
      refine ⟨⟨id, h1, h2.mono (es := [_]), List.mem_cons_self, h3.mono (es := [_])⟩, ?_, ?_⟩
      · intro _ r hm
        rcases List.mem_cons.1 hm with hm | hm
        · cases hm
        · exact hco.ret (by rw [hp]; nofun) r hm
      · intro hx; exact List.mem_cons_of_mem _ (hco.canc hx)
    · cases hs
  · -- cWaitRet
    split at hs
    · rename_i w rid hp
      rw [hp] at hcp
      split at hs
      · rename_i e hf
        cases hs
        obtain ⟨id, h1, h2, h3, hm⟩ := hcp
        exact h.silent hk hc (fun x => { x with pc := .removeSelect w rid e }) (fun _ => rfl) rfl rfl rfl
          (fun hx => by rw [hp] at hx; cases hx) rfl (fun _ => by rw [hp]; nofun)
          ⟨id, h1, h2, h3, by rw [← hr.hinv.fin]; exact hf, hm⟩
      · cases hs
    · cases hs
  · -- cRemoveAbort
    split at hs
    · rename_i w rid e hp
      rw [hp] at hcp
      split at hs
      · rename_i hd
        cases hs
        obtain ⟨id, h1, _⟩ := hcp
        have hnr : ∀ r, c.pc ≠ .returned r := by rw [hp]; nofun
        exact h.return_ (hkr _) hc rfl rfl rfl rfl hnr (by rw [hp]; nofun)
          (retOk_of h hc hnr h1 (Or.inr (Or.inr (Or.inr ⟨rfl, hco.canc hd⟩))))
      · cases hs
    · cases hs
  · -- cRemoved
    split at hs
    · rename_i w rid e hp
      rw [hp] at hcp
      split at hs
      · rename_i hd
        cases hs
        obtain ⟨id, h1, h2, h3, h4, hm⟩ := hcp
        have hnr : ∀ r, c.pc ≠ .returned r := by rw [hp]; nofun
        refine h.return_ (hkr _) hc rfl rfl rfl rfl hnr (by rw [hp]; nofun) (retOk_of h hc hnr h1 (Or.inl ⟨e, rfl, w, rid, h2, h3, h4, ?_, hm⟩))
        obtain ⟨id', hid'⟩ := hr.tok rid (by simpa using hd)
        obtain ⟨mid, pre, hpre, _, _, hkn⟩ := h2
        obtain ⟨_, sf, ha⟩ := known_accepted hkn
        obtain ⟨_, sf', ha'⟩ := removed_accepted hk hid'
        have : id = id' := accepted_inj hk (by rw [hpre]; exact List.mem_append_right _ ha) ha'
        rw [this]; exact hid'
      · cases hs
    · cases hs
  · -- hCheck
    split at hs
    · rename_i x hx
      split at hs
      · split at hs <;> cases hs
        · exact h.helper hk hc (fun h => { h with pc := .done }) rfl rfl rfl (fun x id _ _ => ⟨rfl, fun r hr => Or.inl hr⟩)
        · exact h.helper hk hc (fun h => { h with pc := .enter }) rfl rfl rfl (fun x id _ _ => ⟨rfl, fun r hr => Or.inl hr⟩)
      · cases hs
    · cases hs
  · -- hEnter
    split at hs
    · split at hs
      · cases hs
        exact h.helper hk hc (fun h => { h with pc := .sleep }) rfl rfl rfl (fun x id _ _ => ⟨rfl, fun r hr => Or.inl hr⟩)
      · cases hs
    · cases hs
  · -- hWake
    split at hs
    · rename_i x hx
      split at hs
      · split at hs <;> cases hs
        · rename_i r hg
          refine h.helper hk hc (fun h => { h with pc := .done, wc := some r }) rfl rfl rfl ?_
          intro y id hpy hy
          rw [hx] at hy; cases hy
          refine ⟨rfl, fun r' hr' => Or.inr ?_⟩
          cases hr'
          rw [hpy] at hcp
          exact foundOk_now hr.hinv hg (by rw [hcp.1]; rfl)
        · exact h.helper hk hc (fun h => { h with pc := .check }) rfl rfl rfl (fun x id _ _ => ⟨rfl, fun r hr => Or.inl hr⟩)
      · cases hs
    · cases hs

theorem CInv.step {p : Params} {s s' : State} {op : Op} (h : CInv s) (hr : ReachT p s.tab) (hs : step p s op = some s') :
    CInv s' := by
  have hk := hr.evOk
  unfold Runner.step at hs
  split at hs
  · cases hs; exact h.new hr _ _ rfl (by intro t ht; simp [PcOk, ht, callH]) (by simp) rfl
  · cases hs; exact h.new hr _ _ rfl (by intro t ht; simp [PcOk, ht, callH]) (by simp) rfl
  · cases hs; exact h.new hr _ _ rfl (by intro t ht; simp [PcOk, ht, callH, lookupCall]) (by simp) rfl
  · cases hs; exact h.new hr _ _ rfl (by intro t ht; simp [PcOk, ht, callH, lookupCall]) (by simp) rfl
  · -- reply
    have key : ∀ cid r ret, s.tab.pc = .reply cid r → ret = (match r with | none => Ret.ok | some e => .err e) →
        CInv ((s.cto cid (.returned ret)).withTab ((s.tab.log (.ret cid ret)).goTo .bcast)) := by
      intro cid r ret hp hret
      obtain ⟨c, hc, rfl, hcp⟩ := h.reply cid (Or.inr ⟨r, hp⟩)
      have hco := h.ok c hc
      have hpo := hco.pc
      unfold PcOk at hpo
      rw [hcp] at hpo
      obtain ⟨id, sf, hcall, hro⟩ := hpo
      refine h.client (p := p) (es := [.ret c.cid ret]) hc (fun x => { x with pc := .returned ret }) (fun _ => rfl) rfl rfl
        ⟨trivial, hk⟩ rfl (by simp [evCid]) ?_ ?_ ⟨?_, trivial⟩ ?_
      · intro k id sf hne hro
        exfalso
        rcases hro with h | ⟨h, _⟩ | ⟨h, _⟩ <;> rw [hp] at h <;> cases h <;> exact hne rfl
      · intro k hx
        exfalso
        rcases hx with ⟨_, _, hx⟩ | ⟨_, hx⟩ <;> cases hx
      · refine retOk_of h hc (by rw [hcp]; nofun) hcall ?_
        rcases hro with h | ⟨h, h2⟩ | ⟨h, h2⟩ <;> rw [hp] at h <;> cases h
        · exact Or.inl ⟨hret, h2⟩
        · exact Or.inr (Or.inl ⟨hret, h2⟩)
      · refine ⟨?_, ?_, ?_⟩
        · unfold PcOk; exact List.mem_cons_self
        · intro hx; exact absurd rfl (hx ret)
        · intro hx; exact List.mem_cons_of_mem _ (hco.canc hx)
    split at hs
    · rename_i cid hp; cases hs; exact key cid none _ hp rfl
    · rename_i cid e hp; cases hs; exact key cid (some e) _ hp rfl
    · cases hs
  · split at hs
    · rename_i hp; cases hs
      exact h.broadcast hk _ rfl (Or.inr ⟨by rw [hp]; rfl, rfl⟩)
    · cases hs
  · split at hs
    · rename_i cid hcid
      split at hs
      · rename_i c hg
        obtain ⟨hc, rfl⟩ := getC_some hg
        exact h.clientStep hr hc hcid hs
      · cases hs
    · obtain ⟨t, ht, rfl⟩ := Option.map_eq_some_iff.1 hs
      exact h.move (hr.step (tabStep_T ht)).evOk (tabStep_move ht)

theorem Reach.cinv {p : Params} {s : State} (h : Reach p s) : CInv s := by
  induction h with
  | init =>
    refine ⟨(by intro c hc; cases hc), List.nodup_nil, (by intro e he; cases he), (by intro c hc; cases hc), ?_, trivial⟩
    rintro cid (⟨_, _, hx⟩ | ⟨_, hx⟩) <;> cases hx
  | step op hr hs ih => exact ih.step hr.tab hs

end Verif.Runner
