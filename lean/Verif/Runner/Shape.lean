import Verif.Runner.Trans

/-!
# Runner: what every reachable table looks like
-/

namespace Verif.Runner
open Tab

/-- An entry that has been told to stop. -/
def WInfo.stop (i : WInfo) : WInfo := { i with stopping := true, start := none, worker := none }

/-! ## What killWorkerLocked does -/

theorem killLocked_get? (t : Tab) (id j : Name) :
    (killLocked t id).workers.get? j = if j = id then (t.workers.get? id).map WInfo.stop else t.workers.get? j := by
  unfold killLocked
  split
  · rename_i h
    split
    · rename_i hj; rw [hj, h]; rfl
    · rfl
  · rename_i info h
    rw [h]
    simp only
    split <;>
      · simp only [Tab.log, Tab.setInfo, AMap.get?_set]
        split <;> rfl

structure SameRest (t t' : Tab) : Prop where
  tomb : t'.tomb = t.tomb
  isDying : t'.isDying = t.isDying
  finalError : t'.finalError = t.finalError
  pc : t'.pc = t.pc
  dyingArm : t'.dyingArm = t.dyingArm
  gs : t'.gs = t.gs
  nextG : t'.nextG = t.nextG
  nextR : t'.nextR = t.nextR
  tokens : t'.tokens = t.tokens
  finished : t'.finished = t.finished
  crashed : t'.crashed = t.crashed

theorem killLocked_rest (t : Tab) (id : Name) : SameRest t (killLocked t id) := by
  unfold killLocked
  split
  · constructor <;> rfl
  · simp only
    split <;> constructor <;> rfl

theorem SameRest.trans {a b c : Tab} (h : SameRest a b) (k : SameRest b c) : SameRest a c := by
  constructor
  · rw [k.tomb, h.tomb]
  · rw [k.isDying, h.isDying]
  · rw [k.finalError, h.finalError]
  · rw [k.pc, h.pc]
  · rw [k.dyingArm, h.dyingArm]
  · rw [k.gs, h.gs]
  · rw [k.nextG, h.nextG]
  · rw [k.nextR, h.nextR]
  · rw [k.tokens, h.tokens]
  · rw [k.finished, h.finished]
  · rw [k.crashed, h.crashed]

theorem SameRest.refl (a : Tab) : SameRest a a := by constructor <;> rfl

theorem stop_stop (i : WInfo) : i.stop.stop = i.stop := rfl

/-! ## Goroutines -/

@[simp] theorem gto_gids (t : Tab) (gid : Nat) (p : Pc) : (t.gto gid p).gs.map G.gid = t.gs.map G.gid := by
  simp only [Tab.gto, List.map_map]
  apply List.map_congr_left
  intro g _
  simp only [Function.comp]
  split <;> rfl

@[simp] theorem gto_ids (t : Tab) (gid : Nat) (p : Pc) : (t.gto gid p).gs.map G.id = t.gs.map G.id := by
  simp only [Tab.gto, List.map_map]
  apply List.map_congr_left
  intro g _
  simp only [Function.comp]
  split <;> rfl

theorem mem_gto {t : Tab} {gid : Nat} {p : Pc} {g' : G} :
    g' ∈ (t.gto gid p).gs ↔
      (∃ g ∈ t.gs, g.gid = gid ∧ g' = { g with pc := p }) ∨ (g' ∈ t.gs ∧ g'.gid ≠ gid) := by
  simp only [Tab.gto, List.mem_map]
  constructor
  · rintro ⟨g, hg, rfl⟩
    by_cases h : g.gid = gid
    · left; exact ⟨g, hg, h, by simp [h]⟩
    · right; simp [h, hg]
  · rintro (⟨g, hg, h, rfl⟩ | ⟨hg, h⟩)
    · exact ⟨g, hg, by simp [h]⟩
    · exact ⟨g', hg, by simp [h]⟩

/-- Two goroutines with the same number are the same. -/
theorem gid_inj {l : List G} (h : (l.map G.gid).Nodup) {a b : G} (ha : a ∈ l) (hb : b ∈ l) (hab : a.gid = b.gid) :
    a = b := by
  induction l with
  | nil => cases ha
  | cons c l ih =>
    rw [List.map_cons, List.nodup_cons] at h
    rcases List.mem_cons.1 ha with rfl | ha' <;> rcases List.mem_cons.1 hb with rfl | hb'
    · rfl
    · exact absurd (List.mem_map.2 ⟨b, hb', hab.symm⟩) h.1
    · exact absurd (List.mem_map.2 ⟨a, ha', hab⟩) h.1
    · exact ih h.2 ha' hb'

/-- Two goroutines for the same id are the same. -/
theorem id_inj {l : List G} (h : (l.map G.id).Nodup) {a b : G} (ha : a ∈ l) (hb : b ∈ l) (hab : a.id = b.id) :
    a = b := by
  induction l with
  | nil => cases ha
  | cons c l ih =>
    rw [List.map_cons, List.nodup_cons] at h
    rcases List.mem_cons.1 ha with rfl | ha' <;> rcases List.mem_cons.1 hb with rfl | hb'
    · rfl
    · exact absurd (List.mem_map.2 ⟨b, hb', hab.symm⟩) h.1
    · exact absurd (List.mem_map.2 ⟨a, ha', hab⟩) h.1
    · exact ih h.2 ha' hb'

/-! ## The invariant -/

/-- Goroutines, registrations and `done` channels belong together. -/
structure Shape (p : Params) (t : Tab) : Prop where
  gidNd : (t.gs.map G.gid).Nodup
  idNd : (t.gs.map G.id).Nodup
  gidLt : ∀ g ∈ t.gs, g.gid < t.nextG
  known : ∀ id, (t.workers.get? id).isSome = true ↔ id ∈ t.gs.map G.id
  goneAct : ∀ g ∈ t.gs, ∀ e, g.pc = .gone e → t.pc = .act (.done g.gid g.id e)
  actDone : ∀ gid id e, t.pc = .act (.done gid id e) → ∃ g ∈ t.gs, g.gid = gid ∧ g.id = id ∧ g.pc = .gone e
  actStarted : ∀ gid id w, t.pc = .act (.started gid id w) → ∃ g ∈ t.gs, g.gid = gid ∧ g.id = id
  ridLt : ∀ id i, t.workers.get? id = some i → i.rid < t.nextR
  ridInj : ∀ id i id' i', t.workers.get? id = some i → t.workers.get? id' = some i' → i.rid = i'.rid → id = id'
  tokLt : ∀ r ∈ t.tokens, r < t.nextR ∧ ∀ id i, t.workers.get? id = some i → i.rid ≠ r
  tokNd : t.tokens.Nodup
  stopped : ∀ id i, t.workers.get? id = some i → i.stopping = true → i.worker = none
  noStart : ∀ id i, t.workers.get? id = some i → (i.stopping = true ↔ i.start = none)
  dying : t.isDying = true → t.pc.busy = true ∨ ∀ id i, t.workers.get? id = some i → i.stopping = true
  killing : t.pc.busy = true → t.isDying = true
  rest : ∀ r, t.pc = .killing r → ∀ id i, t.workers.get? id = some i → i.stopping = true ∨ id ∈ r
  exited : t.pc = .exited → t.isDying = true ∧ ∀ id, t.workers.get? id = none
  arm : t.dyingArm = false → t.isDying = true
  fine : t.crashed = false
  delay : ∀ id i, t.workers.get? id = some i → i.restartDelay = p.restartDelay

theorem Shape.init (p : Params) : Shape p {} := by
  constructor <;> simp [AMap.empty, AMap.get?] <;> intros <;> simp_all

/-- Changes that touch neither table, goroutines nor loop. -/
theorem Shape.frame {p : Params} {t t' : Tab} (h : Shape p t) (h1 : t'.workers = t.workers) (h2 : t'.gs = t.gs) (h3 : t'.pc = t.pc)
    (h4 : t'.isDying = t.isDying) (h5 : t'.nextG = t.nextG) (h6 : t'.nextR = t.nextR) (h7 : t'.tokens.Sublist t.tokens)
    (h8 : t'.dyingArm = t.dyingArm) (h9 : t'.crashed = t.crashed) : Shape p t' := by
  constructor
  · rw [h2]; exact h.gidNd
  · rw [h2]; exact h.idNd
  · rw [h2, h5]; exact h.gidLt
  · rw [h1, h2]; exact h.known
  · rw [h2, h3]; exact h.goneAct
  · rw [h2, h3]; exact h.actDone
  · rw [h2, h3]; exact h.actStarted
  · rw [h1, h6]; exact h.ridLt
  · rw [h1]; exact h.ridInj
  · rw [h1, h6]; exact fun r hr => h.tokLt r (h7.subset hr)
  · exact h.tokNd.sublist h7
  · rw [h1]; exact h.stopped
  · rw [h1]; exact h.noStart
  · rw [h1, h3, h4]; exact h.dying
  · rw [h3, h4]; exact h.killing
  · rw [h1, h3]; exact h.rest
  · rw [h1, h3, h4]; exact h.exited
  · rw [h8, h4]; exact h.arm
  · rw [h9]; exact h.fine
  · rw [h1]; exact h.delay

/-- The loop moves on, from a point where it is not handling the end of a worker. -/
theorem Shape.move {p : Params} {t : Tab} (h : Shape p t) (pc : LoopPc) (h1 : ∀ gid id e, t.pc ≠ .act (.done gid id e))
    (h2 : ∀ gid id e, pc ≠ .act (.done gid id e)) (h3 : ∀ gid id w, pc ≠ .act (.started gid id w))
    (h4 : t.pc.busy = false) (h5 : pc.busy = false)
    (h6 : pc = .exited → t.isDying = true ∧ ∀ id, t.workers.get? id = none) : Shape p (t.goTo pc) := by
  constructor
  · exact h.gidNd
  · exact h.idNd
  · exact h.gidLt
  · exact h.known
  · intro g hg e he; exact absurd (h.goneAct g hg e he) (h1 _ _ _)
  · intro gid id e he; exact absurd he (h2 _ _ _)
  · intro gid id e he; exact absurd he (h3 _ _ _)
  · exact h.ridLt
  · exact h.ridInj
  · exact h.tokLt
  · exact h.tokNd
  · exact h.stopped
  · exact h.noStart
  · intro hd; right; rcases h.dying hd with hk | hk
    · rw [h4] at hk; cases hk
    · exact hk
  · intro hp; have hp : pc.busy = true := hp; rw [h5] at hp; cases hp
  · intro r hp; have hp : pc = .killing r := hp; rw [hp] at h5; cases h5
  · exact h6
  · exact h.arm
  · exact h.fine
  · exact h.delay

/-- A goroutine moves on. -/
theorem Shape.gto {p : Params} {t : Tab} (h : Shape p t) (g : G) (hg : g ∈ t.gs) (pc : Pc) (h1 : ∀ e, g.pc ≠ .gone e)
    (h2 : ∀ e, pc ≠ .gone e) : Shape p (t.gto g.gid pc) := by
  constructor
  · rw [gto_gids]; exact h.gidNd
  · rw [gto_ids]; exact h.idNd
  · intro g' hg'
    rcases mem_gto.1 hg' with ⟨g0, hg0, _, rfl⟩ | ⟨hg0, _⟩
    · exact h.gidLt g0 hg0
    · exact h.gidLt _ hg0
  · intro id; rw [gto_ids]; exact h.known id
  · intro g' hg' e he
    rcases mem_gto.1 hg' with ⟨g0, hg0, _, rfl⟩ | ⟨hg0, _⟩
    · exact absurd he (h2 e)
    · exact h.goneAct _ hg0 e he
  · intro gid id e he
    obtain ⟨g0, hg0, hgid, hid, hpc⟩ := h.actDone gid id e he
    refine ⟨g0, mem_gto.2 (Or.inr ⟨hg0, ?_⟩), hgid, hid, hpc⟩
    intro heq
    rw [gid_inj h.gidNd hg0 hg heq] at hpc
    exact h1 e hpc
  · intro gid id w he
    obtain ⟨g0, hg0, hgid, hid⟩ := h.actStarted gid id w he
    by_cases heq : g0.gid = g.gid
    · exact ⟨{ g0 with pc := pc }, mem_gto.2 (Or.inl ⟨g0, hg0, heq, rfl⟩), hgid, hid⟩
    · exact ⟨g0, mem_gto.2 (Or.inr ⟨hg0, heq⟩), hgid, hid⟩
  · exact h.ridLt
  · exact h.ridInj
  · exact h.tokLt
  · exact h.tokNd
  · exact h.stopped
  · exact h.noStart
  · exact h.dying
  · exact h.killing
  · exact h.rest
  · exact h.exited
  · exact h.arm
  · exact h.fine
  · exact h.delay

/-- The loop handles a message that stops entries or sets their worker. -/
theorem Shape.table' {p : Params} {t t' : Tab} (h : Shape p t) (hw : ∀ j, t.workers.get? j = none → t'.workers.get? j = none)
    (hi : ∀ j i, t.workers.get? j = some i → ∃ i', t'.workers.get? j = some i' ∧ i'.rid = i.rid ∧
      i'.restartDelay = i.restartDelay ∧ (i.stopping = true → i'.stopping = true) ∧
      (i'.stopping = true → i'.worker = none) ∧ (i'.stopping = true ↔ i'.start = none))
    (h1 : ∀ gid id e, t.pc ≠ .act (.done gid id e)) (h3 : t'.pc = .bcast ∨ ∃ r, t'.pc = .killing r)
    (hdy : t'.isDying = true → t'.pc.busy = true ∨ ∀ j i, t'.workers.get? j = some i → i.stopping = true)
    (hk : t'.pc.busy = true → t'.isDying = true)
    (hre : ∀ r, t'.pc = .killing r → ∀ j i, t'.workers.get? j = some i → i.stopping = true ∨ j ∈ r)
    (h2 : t'.gs = t.gs)
    (h4 : t'.isDying = t.isDying) (h5 : t'.nextG = t.nextG) (h6 : t'.nextR = t.nextR) (h7 : t'.tokens = t.tokens)
    (h8 : t'.dyingArm = t.dyingArm) (h9 : t'.crashed = t.crashed) : Shape p t' := by
  have back : ∀ j i', t'.workers.get? j = some i' → ∃ i, t.workers.get? j = some i ∧ i'.rid = i.rid ∧
      i'.restartDelay = i.restartDelay ∧ (i.stopping = true → i'.stopping = true) ∧
      (i'.stopping = true → i'.worker = none) ∧ (i'.stopping = true ↔ i'.start = none) := by
    intro j i' hj
    cases hg : t.workers.get? j with
    | none => rw [hw j hg] at hj; cases hj
    | some i =>
      obtain ⟨i2, hi2, r⟩ := hi j i hg
      rw [hi2] at hj; cases hj
      exact ⟨i, rfl, r⟩
  constructor
  · rw [h2]; exact h.gidNd
  · rw [h2]; exact h.idNd
  · rw [h2, h5]; exact h.gidLt
  · intro id; rw [h2, ← h.known]
    cases hg : t.workers.get? id with
    | none => rw [hw id hg]
    | some i => obtain ⟨i2, hi2, _⟩ := hi id i hg; rw [hi2]; simp
  · rw [h2]; intro g hg e he; exact absurd (h.goneAct g hg e he) (h1 _ _ _)
  · intro gid id e he; rcases h3 with h3 | ⟨r, h3⟩ <;> (rw [h3] at he; cases he)
  · intro gid id e he; rcases h3 with h3 | ⟨r, h3⟩ <;> (rw [h3] at he; cases he)
  · intro id i hg
    obtain ⟨i0, h0, hr, _⟩ := back id i hg
    rw [hr, h6]; exact h.ridLt id i0 h0
  · intro id i id' i' hg hg' hr
    obtain ⟨i0, h0, hr0, _⟩ := back id i hg
    obtain ⟨i1, h1, hr1, _⟩ := back id' i' hg'
    exact h.ridInj id i0 id' i1 h0 h1 (by rw [← hr0, ← hr1, hr])
  · rw [h6, h7]
    intro r hr
    refine ⟨(h.tokLt r hr).1, ?_⟩
    intro id i hg
    obtain ⟨i0, h0, hr0, _⟩ := back id i hg
    rw [hr0]; exact (h.tokLt r hr).2 id i0 h0
  · rw [h7]; exact h.tokNd
  · intro id i hg; obtain ⟨_, _, _, _, _, r, _⟩ := back id i hg; exact r
  · intro id i hg; obtain ⟨_, _, _, _, _, _, r⟩ := back id i hg; exact r
  · exact hdy
  · exact hk
  · exact hre
  · intro hp; rcases h3 with h3 | ⟨r, h3⟩ <;> (rw [h3] at hp; cases hp)
  · rw [h8, h4]; exact h.arm
  · rw [h9]; exact h.fine
  · intro id i hg
    obtain ⟨i0, h0, _, hd, _⟩ := back id i hg
    rw [hd]; exact h.delay id i0 h0

theorem Shape.table {p : Params} {t t' : Tab} (h : Shape p t) (hw : ∀ j, t.workers.get? j = none → t'.workers.get? j = none)
    (hi : ∀ j i, t.workers.get? j = some i → ∃ i', t'.workers.get? j = some i' ∧ i'.rid = i.rid ∧
      i'.restartDelay = i.restartDelay ∧ (i.stopping = true → i'.stopping = true) ∧
      (i'.stopping = true → i'.worker = none) ∧ (i'.stopping = true ↔ i'.start = none))
    (h1 : ∀ gid id e, t.pc ≠ .act (.done gid id e)) (h3 : t'.pc = .bcast)
    (hdy : t'.isDying = true → ∀ j i, t'.workers.get? j = some i → i.stopping = true)
    (h2 : t'.gs = t.gs)
    (h4 : t'.isDying = t.isDying) (h5 : t'.nextG = t.nextG) (h6 : t'.nextR = t.nextR) (h7 : t'.tokens = t.tokens)
    (h8 : t'.dyingArm = t.dyingArm) (h9 : t'.crashed = t.crashed) : Shape p t' :=
  h.table' hw hi h1 (.inl h3) (fun hd => .inr (hdy hd)) (by rw [h3]; nofun) (by rw [h3]; nofun) h2 h4 h5 h6 h7 h8 h9

/-- The loop begins to shut down. -/
theorem Shape.shutdown {p : Params} {t : Tab} (h : Shape p t) (arm : Bool) (h1 : ∀ gid id e, t.pc ≠ .act (.done gid id e)) :
    Shape p (({ t with isDying := true, dyingArm := arm }.log .shutdown).goTo .killAll) := by
  constructor
  · exact h.gidNd
  · exact h.idNd
  · exact h.gidLt
  · exact h.known
  · intro g hg e he; exact absurd (h.goneAct g hg e he) (h1 _ _ _)
  · intro gid id e he; cases he
  · intro gid id e he; cases he
  · exact h.ridLt
  · exact h.ridInj
  · exact h.tokLt
  · exact h.tokNd
  · exact h.stopped
  · exact h.noStart
  · intro _; left; rfl
  · intro _; rfl
  · intro r hp; cases hp
  · intro hp; cases hp
  · intro _; rfl
  · exact h.fine
  · exact h.delay

theorem mem_dropG {t : Tab} {gid : Nat} {g : G} : g ∈ (dropG t gid).gs ↔ g ∈ t.gs ∧ g.gid ≠ gid := by
  simp [dropG, List.mem_filter]

theorem sublist_dropG (t : Tab) (gid : Nat) : (dropG t gid).gs.Sublist t.gs := List.filter_sublist

/-- A worker's end is processed and its entry removed; the loop goes on to `pc`. -/
theorem Shape.remove {p : Params} {t t' : Tab} (h : Shape p t) {gid : Nat} {id : Name} {e : Option Err}
    (hp : t.pc = .act (.done gid id e)) {info : WInfo} (hi : t.workers.get? id = some info)
    (hpc : t'.pc = .bcast) (hw : t'.workers = t.workers.erase id) (hgs : t'.gs = (dropG t gid).gs)
    (htok : t'.tokens = info.rid :: t.tokens) (hcr : t'.crashed = (t.crashed || t.tokens.contains info.rid))
    (h4 : t'.isDying = t.isDying) (h5 : t'.nextG = t.nextG) (h6 : t'.nextR = t.nextR)
    (h8 : t'.dyingArm = t.dyingArm) : Shape p t' := by
  obtain ⟨g, hg, rfl, rfl, hgpc⟩ := h.actDone _ _ _ hp
  have back : ∀ j i, t'.workers.get? j = some i → t.workers.get? j = some i ∧ j ≠ g.id := by
    intro j i hj
    rw [hw, AMap.get?_erase] at hj
    split at hj
    · cases hj
    · exact ⟨hj, ‹_›⟩
  have hnt : info.rid ∉ t.tokens := fun hm => (h.tokLt _ hm).2 _ _ hi rfl
  constructor
  · rw [hgs]; exact h.gidNd.sublist ((sublist_dropG t _).map _)
  · rw [hgs]; exact h.idNd.sublist ((sublist_dropG t _).map _)
  · rw [hgs, h5]; intro g' hg'; exact h.gidLt g' (mem_dropG.1 hg').1
  · intro id
    rw [hw, AMap.get?_erase, hgs]
    constructor
    · intro hs
      split at hs
      · cases hs
      · rename_i hne
        obtain ⟨g', hg', rfl⟩ := List.mem_map.1 ((h.known id).1 hs)
        refine List.mem_map.2 ⟨g', mem_dropG.2 ⟨hg', ?_⟩, rfl⟩
        intro heq; exact hne (by rw [gid_inj h.gidNd hg' hg heq])
    · intro hm
      obtain ⟨g', hg', rfl⟩ := List.mem_map.1 hm
      obtain ⟨hg', hne⟩ := mem_dropG.1 hg'
      rw [if_neg]
      · exact (h.known _).2 (List.mem_map.2 ⟨g', hg', rfl⟩)
      · intro heq; exact hne (by rw [id_inj h.idNd hg' hg heq])
  · rw [hgs]; intro g' hg' e' he'
    obtain ⟨hg', hne⟩ := mem_dropG.1 hg'
    have := h.goneAct g' hg' e' he'
    rw [hp] at this; simp only [LoopPc.act.injEq, Msg.done.injEq] at this
    exact absurd this.1.symm hne
  · intro gid id e he; rw [hpc] at he; cases he
  · intro gid id e he; rw [hpc] at he; cases he
  · intro j i hj; rw [h6]; exact h.ridLt j i (back j i hj).1
  · intro j i j' i' hj hj'; exact h.ridInj j i j' i' (back j i hj).1 (back j' i' hj').1
  · rw [htok, h6]
    intro r hr
    rcases List.mem_cons.1 hr with rfl | hr
    · refine ⟨h.ridLt _ _ hi, ?_⟩
      intro j i hj heq
      obtain ⟨hj, hne⟩ := back j i hj
      exact hne (h.ridInj _ _ _ _ hj hi heq)
    · exact ⟨(h.tokLt r hr).1, fun j i hj => (h.tokLt r hr).2 j i (back j i hj).1⟩
  · rw [htok]; exact List.nodup_cons.2 ⟨hnt, h.tokNd⟩
  · intro j i hj; exact h.stopped j i (back j i hj).1
  · intro j i hj; exact h.noStart j i (back j i hj).1
  · intro hd; rw [h4] at hd
    right
    intro j i hj
    rcases h.dying hd with hk | hk
    · rw [hp] at hk; cases hk
    · exact hk j i (back j i hj).1
  · intro hq; rw [hpc] at hq; cases hq
  · intro r hq; rw [hpc] at hq; cases hq
  · intro hq; rw [hpc] at hq; cases hq
  · rw [h8, h4]; exact h.arm
  · rw [hcr, h.fine]; simpa using hnt
  · intro j i hj; exact h.delay j i (back j i hj).1

/-- A worker's end is processed and it is run again. -/
theorem Shape.restart {p : Params} {t t' : Tab} (h : Shape p t) {gid : Nat} {id : Name} {e : Option Err}
    (hp : t.pc = .act (.done gid id e)) {info : WInfo} (hi : t.workers.get? id = some info)
    (hpc : t'.pc = .bcast) (hw : t'.workers = t.workers.set id { info with restartDelay := p.restartDelay })
    (gn : G) (hgn : gn.gid = t.nextG) (hgi : gn.id = id) (hgp : ∀ e, gn.pc ≠ .gone e)
    (hgs : t'.gs = gn :: (dropG t gid).gs)
    (htok : t'.tokens = t.tokens) (hcr : t'.crashed = t.crashed)
    (h4 : t'.isDying = t.isDying) (h5 : t'.nextG = t.nextG + 1) (h6 : t'.nextR = t.nextR)
    (h8 : t'.dyingArm = t.dyingArm) : Shape p t' := by
  obtain ⟨g, hg, rfl, rfl, hgpc⟩ := h.actDone _ _ _ hp
  have hsame : { info with restartDelay := p.restartDelay } = info := by
    rw [← h.delay _ _ hi]
  have hget : ∀ j, t'.workers.get? j = t.workers.get? j := by
    intro j; rw [hw, hsame, AMap.get?_set]
    split
    · rename_i hj; rw [hj, hi]
    · rfl
  constructor
  · rw [hgs, List.map_cons, List.nodup_cons]
    refine ⟨?_, h.gidNd.sublist ((sublist_dropG t _).map _)⟩
    rw [hgn]; intro hm
    obtain ⟨g', hg', heq⟩ := List.mem_map.1 hm
    have := h.gidLt g' (mem_dropG.1 hg').1
    omega
  · rw [hgs, List.map_cons, List.nodup_cons]
    refine ⟨?_, h.idNd.sublist ((sublist_dropG t _).map _)⟩
    rw [hgi]; intro hm
    obtain ⟨g', hg', heq⟩ := List.mem_map.1 hm
    obtain ⟨hg', hne⟩ := mem_dropG.1 hg'
    exact hne (by rw [id_inj h.idNd hg' hg heq])
  · rw [hgs, h5]
    intro g' hg'
    rcases List.mem_cons.1 hg' with rfl | hg'
    · omega
    · have := h.gidLt g' (mem_dropG.1 hg').1; omega
  · intro id
    rw [hget, hgs, List.map_cons, hgi, h.known]
    constructor
    · intro hs
      obtain ⟨g', hg', rfl⟩ := List.mem_map.1 hs
      by_cases heq : g'.gid = g.gid
      · rw [gid_inj h.gidNd hg' hg heq]; exact List.mem_cons_self
      · exact List.mem_cons_of_mem _ (List.mem_map.2 ⟨g', mem_dropG.2 ⟨hg', heq⟩, rfl⟩)
    · intro hm
      rcases List.mem_cons.1 hm with rfl | hm
      · exact List.mem_map.2 ⟨g, hg, rfl⟩
      · obtain ⟨g', hg', rfl⟩ := List.mem_map.1 hm
        exact List.mem_map.2 ⟨g', (mem_dropG.1 hg').1, rfl⟩
  · rw [hgs]; intro g' hg' e' he'
    rcases List.mem_cons.1 hg' with rfl | hg'
    · exact absurd he' (hgp e')
    · obtain ⟨hg', hne⟩ := mem_dropG.1 hg'
      have := h.goneAct g' hg' e' he'
      rw [hp] at this; simp only [LoopPc.act.injEq, Msg.done.injEq] at this
      exact absurd this.1.symm hne
  · intro gid id e he; rw [hpc] at he; cases he
  · intro gid id e he; rw [hpc] at he; cases he
  · intro j i; rw [hget, h6]; exact h.ridLt j i
  · intro j i j' i'; rw [hget, hget]; exact h.ridInj j i j' i'
  · rw [htok, h6]; intro r hr; refine ⟨(h.tokLt r hr).1, ?_⟩; intro j i; rw [hget]; exact (h.tokLt r hr).2 j i
  · rw [htok]; exact h.tokNd
  · intro j i; rw [hget]; exact h.stopped j i
  · intro j i; rw [hget]; exact h.noStart j i
  · intro hd; rw [h4] at hd
    right
    intro j i hj
    rw [hget] at hj
    rcases h.dying hd with hk | hk
    · rw [hp] at hk; cases hk
    · exact hk j i hj
  · intro hq; rw [hpc] at hq; cases hq
  · intro r hq; rw [hpc] at hq; cases hq
  · intro hq; rw [hpc] at hq; cases hq
  · rw [h8, h4]; exact h.arm
  · rw [hcr, h.fine]
  · intro j i; rw [hget]; exact h.delay j i

theorem Shape.accept {p : Params} {t : Tab} (h : Shape p t) (cid id sf : Nat) (now : Int)
    (hp : t.pc = .act (.start cid id sf)) (hd : t.isDying = false) (hi : t.workers.get? id = none) :
    Shape p ((acceptStart p t cid id sf now).goTo (.reply cid none)) := by
  have hget : ∀ j i, ((acceptStart p t cid id sf now).goTo (.reply cid none)).workers.get? j = some i →
      (j = id ∧ i = { rid := t.nextR, start := some sf, restartDelay := p.restartDelay, started := now }) ∨
      (j ≠ id ∧ t.workers.get? j = some i) := by
    intro j i hj
    simp only [acceptStart, spawn, register, Tab.goTo, AMap.get?_set] at hj
    split at hj
    · left; cases hj; exact ⟨‹_›, rfl⟩
    · right; exact ⟨‹_›, hj⟩
  have hnid : id ∉ t.gs.map G.id := by rw [← h.known, hi]; simp
  constructor
  · simp only [acceptStart, spawn, register, Tab.goTo, List.map_cons, List.nodup_cons]
    refine ⟨?_, h.gidNd⟩
    intro hm
    obtain ⟨g', hg', heq⟩ := List.mem_map.1 hm
    have := h.gidLt g' hg'
    omega
  · simp only [acceptStart, spawn, register, Tab.goTo, List.map_cons, List.nodup_cons]
    exact ⟨hnid, h.idNd⟩
  · intro g' hg'
    simp only [acceptStart, spawn, register, Tab.goTo] at hg' ⊢
    rcases List.mem_cons.1 hg' with rfl | hg'
    · exact Nat.lt_succ_self _
    · have := h.gidLt g' hg'; omega
  · intro j
    simp only [acceptStart, spawn, register, Tab.goTo, AMap.get?_set, List.map_cons, List.mem_cons]
    split
    · rename_i hj; simp [hj]
    · rename_i hj; rw [h.known]; simp [hj]
  · intro g' hg' e' he'
    simp only [acceptStart, spawn, register, Tab.goTo] at hg'
    rcases List.mem_cons.1 hg' with rfl | hg'
    · simp at he'
    · have := h.goneAct g' hg' e' he'; rw [hp] at this; cases this
  · intro gid id e he; cases he
  · intro gid id e he; cases he
  · intro j i hj
    show i.rid < t.nextR + 1
    rcases hget j i hj with ⟨_, rfl⟩ | ⟨_, hj⟩
    · exact Nat.lt_succ_self _
    · have := h.ridLt j i hj; omega
  · intro j i j' i' hj hj' hr
    rcases hget j i hj with ⟨h1, rfl⟩ | ⟨_, hj⟩ <;> rcases hget j' i' hj' with ⟨h2, rfl⟩ | ⟨_, hj'⟩
    · rw [h1, h2]
    · have := h.ridLt j' i' hj'; simp only at hr; omega
    · have := h.ridLt j i hj; simp only at hr; omega
    · exact h.ridInj j i j' i' hj hj' hr
  · intro r hr
    have hr : r ∈ t.tokens := hr
    refine ⟨Nat.lt_succ_of_lt (h.tokLt r hr).1, ?_⟩
    intro j i hj heq
    rcases hget j i hj with ⟨_, rfl⟩ | ⟨_, hj⟩
    · have := (h.tokLt r hr).1; simp only at heq; omega
    · exact (h.tokLt r hr).2 j i hj heq
  · exact h.tokNd
  · intro j i hj hs
    rcases hget j i hj with ⟨_, rfl⟩ | ⟨_, hj⟩
    · rfl
    · exact h.stopped j i hj hs
  · intro j i hj
    rcases hget j i hj with ⟨_, rfl⟩ | ⟨_, hj⟩
    · simp
    · exact h.noStart j i hj
  · intro hd'
    have hd' : t.isDying = true := hd'
    rw [hd] at hd'; cases hd'
  · intro hq; cases hq
  · intro r hq; cases hq
  · intro hq; cases hq
  · exact h.arm
  · exact h.fine
  · intro j i hj
    rcases hget j i hj with ⟨_, rfl⟩ | ⟨_, hj⟩
    · rfl
    · exact h.delay j i hj

/-- What setWorker does to the table. -/
theorem setWorker_get? (t : Tab) (gid : Nat) (id : Name) (w : Nat) (info : WInfo) (hi : t.workers.get? id = some info)
    (j : Name) : (setWorker t gid id w).workers.get? j =
      if j = id then some (if t.isDying || info.stopping then info.stop else { info with worker := some w })
      else t.workers.get? j := by
  unfold setWorker
  rw [hi]
  simp only
  split
  · rw [killLocked_get?]
    simp only [Tab.log, Tab.setInfo, AMap.get?_set]
    split
    · simp only [if_true, Option.map_some]; rfl
    · rfl
  · simp only [Tab.log, Tab.setInfo, AMap.get?_set]

theorem setWorker_rest (t : Tab) (gid : Nat) (id : Name) (w : Nat) (info : WInfo)
    (hi : t.workers.get? id = some info) : SameRest t (setWorker t gid id w) := by
  unfold setWorker
  rw [hi]
  simp only
  split
  · exact SameRest.trans (by constructor <;> rfl) (killLocked_rest _ _)
  · constructor <;> rfl

theorem fate_restart {p : Params} {info : WInfo} {e : Option Err} {sf : Nat} (h : fate p info e = .restart sf) :
    info.start = some sf := by
  unfold fate lastFate at h
  split at h
  · cases h
  · split at h
    · split at h
      · cases h
      · split at h
        · cases h
        · split at h
          · cases h
          · cases h; assumption
    · split at h
      · cases h
      · cases h; assumption

theorem Shape.step {p : Params} {t t' : Tab} (h : Shape p t) (hT : T p t t') : Shape p t' := by
  cases hT with
  | same => exact h
  | quiet e he hq => exact h.frame rfl rfl rfl rfl rfl rfl (.refl _) rfl rfl
  | kill => exact h.frame rfl rfl rfl rfl rfl rfl (.refl _) rfl rfl
  | exit hpc hd hw =>
    have h1 := Shape.move (t := { t with tomb := t.tomb.finish t.finalError, hist := .exit :: t.hist })
      (h.frame rfl rfl rfl rfl rfl rfl (.refl _) rfl rfl) .exited (by simp [hpc]) (by simp) (by simp) (by simp [hpc])
      (by simp) (fun _ => ⟨hd, hw⟩)
    exact h1
  | select hpc hn => exact h.move _ (by simp [hpc]) (by simp) (by simp) (by simp [hpc]) (by simp) (by simp)
  | recvDying hpc ha hd => exact h.shutdown false (by simp [hpc])
  | recvStart cid id sf hpc => exact h.move _ (by simp [hpc]) (by simp) (by simp) (by simp [hpc]) (by simp) (by simp)
  | recvStop cid id hpc =>
    exact Shape.move (t := t.log _) (h.frame rfl rfl rfl rfl rfl rfl (.refl _) rfl rfl) _ (by simp [Tab.log, hpc]) (by simp)
      (by simp) (by simp [Tab.log, hpc]) (by simp) (by simp)
  | recvStarted g w hpc hg hgp =>
    have h1 := h.gto g hg (.waiting w) (by simp [hgp]) (by simp)
    have h2 := h1.move .bcast (by simp [Tab.gto, hpc]) (by simp) (by simp) (by simp [Tab.gto, hpc]) (by simp) (by simp)
    exact {
      gidNd := h2.gidNd, idNd := h2.idNd, gidLt := h2.gidLt, known := h2.known,
      goneAct := fun g' hg' e he => absurd (h2.goneAct g' hg' e he) (by simp [Tab.goTo]),
      actDone := by intro a b c hc; cases hc
      actStarted := by
        intro a b c hc
        simp only [Tab.goTo, LoopPc.act.injEq, Msg.started.injEq] at hc
        obtain ⟨rfl, rfl, rfl⟩ := hc
        exact ⟨{ g with pc := .waiting w }, mem_gto.2 (Or.inl ⟨g, hg, rfl, rfl⟩), rfl, rfl⟩
      ridLt := h2.ridLt, ridInj := h2.ridInj, tokLt := h2.tokLt, tokNd := h2.tokNd, stopped := h2.stopped,
      noStart := h2.noStart
      dying := fun hd => Or.inr ((h2.dying hd).resolve_left (by simp [Tab.goTo])),
      killing := by intro hc; cases hc
      rest := by intro r hc; cases hc
      exited := by intro hc; cases hc
      arm := h2.arm, fine := h2.fine, delay := h2.delay }
  | recvDone g e hpc hg hgp =>
    have hmem : ∀ g', g' ∈ (t.gto g.gid (.gone e)).gs → g' = { g with pc := .gone e } ∨ (g' ∈ t.gs ∧ g'.gid ≠ g.gid) := by
      intro g' hg'
      rcases mem_gto.1 hg' with ⟨g0, hg0, heq, rfl⟩ | r
      · rw [gid_inj h.gidNd hg0 hg heq]; exact Or.inl rfl
      · exact Or.inr r
    exact {
      gidNd := by show ((t.gto g.gid (.gone e)).gs.map G.gid).Nodup; rw [gto_gids]; exact h.gidNd
      idNd := by show ((t.gto g.gid (.gone e)).gs.map G.id).Nodup; rw [gto_ids]; exact h.idNd
      gidLt := by
        intro g' hg'
        rcases hmem g' hg' with rfl | ⟨hg', _⟩
        · exact h.gidLt g hg
        · exact h.gidLt g' hg'
      known := by intro id; show _ ↔ id ∈ (t.gto g.gid (.gone e)).gs.map G.id; rw [gto_ids]; exact h.known id
      goneAct := by
        intro g' hg' e' he'
        rcases hmem g' hg' with rfl | ⟨hg', _⟩
        · cases he'; rfl
        · have := h.goneAct g' hg' e' he'; rw [hpc] at this; cases this
      actDone := by
        intro a b c hc
        simp only [Tab.goTo, LoopPc.act.injEq, Msg.done.injEq] at hc
        obtain ⟨rfl, rfl, rfl⟩ := hc
        exact ⟨{ g with pc := .gone e }, mem_gto.2 (Or.inl ⟨g, hg, rfl, rfl⟩), rfl, rfl, rfl⟩
      actStarted := by intro a b c hc; cases hc
      ridLt := h.ridLt, ridInj := h.ridInj, tokLt := h.tokLt, tokNd := h.tokNd, stopped := h.stopped,
      noStart := h.noStart
      dying := fun hd => Or.inr ((h.dying hd).resolve_left (by simp [hpc])),
      killing := by intro hc; cases hc
      rest := by intro r hc; cases hc
      exited := by intro hc; cases hc
      arm := h.arm, fine := h.fine, delay := h.delay }
  | ignored cid id sf hpc hd =>
    exact Shape.move (t := t.log _) (h.frame rfl rfl rfl rfl rfl rfl (.refl _) rfl rfl) _ (by simp [Tab.log, hpc]) (by simp)
      (by simp) (by simp [Tab.log, hpc]) (by simp) (by simp)
  | refused cid id sf i hpc hd hi =>
    exact Shape.move (t := t.log _) (h.frame rfl rfl rfl rfl rfl rfl (.refl _) rfl rfl) _ (by simp [Tab.log, hpc]) (by simp)
      (by simp) (by simp [Tab.log, hpc]) (by simp) (by simp)
  | accepted cid id sf now hpc hd hi => exact h.accept cid id sf now hpc hd hi
  | stop id hpc =>
    have hr := killLocked_rest (t.log (.stopHandled id)) id
    refine h.table ?_ ?_ (by simp [hpc]) rfl ?_ hr.gs hr.isDying hr.nextG hr.nextR hr.tokens hr.dyingArm hr.crashed
    · intro j hj
      show (killLocked (t.log (.stopHandled id)) id).workers.get? j = none
      rw [killLocked_get?]
      split
      · rename_i hji; subst hji; show Option.map _ (t.workers.get? j) = none; rw [hj]; rfl
      · exact hj
    · intro j i hj
      show ∃ i', (killLocked (t.log (.stopHandled id)) id).workers.get? j = some i' ∧ _
      rw [killLocked_get?]
      split
      · rename_i hji; subst hji
        refine ⟨i.stop, ?_, rfl, rfl, fun _ => rfl, fun _ => rfl, by simp [WInfo.stop]⟩
        show Option.map _ (t.workers.get? j) = _; rw [hj]; rfl
      · exact ⟨i, hj, rfl, rfl, fun x => x, h.stopped j i hj, h.noStart j i hj⟩
    · intro hd j i hj
      have hd : (killLocked (t.log (.stopHandled id)) id).isDying = true := hd
      rw [hr.isDying] at hd
      have hall := (h.dying hd).resolve_left (by simp [hpc])
      have hj : (killLocked (t.log (.stopHandled id)) id).workers.get? j = some i := hj
      rw [killLocked_get?] at hj
      split at hj
      · obtain ⟨i0, _, rfl⟩ := Option.map_eq_some_iff.1 hj; rfl
      · exact hall j i hj
  | started gid id w hpc =>
    obtain ⟨g, hg, rfl, rfl⟩ := h.actStarted _ _ _ hpc
    obtain ⟨info, hi⟩ := Option.isSome_iff_exists.1 ((h.known g.id).2 (List.mem_map.2 ⟨g, hg, rfl⟩))
    have hr := setWorker_rest t g.gid g.id w info hi
    refine h.table ?_ ?_ (by simp [hpc]) rfl ?_ hr.gs hr.isDying hr.nextG hr.nextR hr.tokens hr.dyingArm hr.crashed
    · intro j hj
      show (setWorker t g.gid g.id w).workers.get? j = none
      rw [setWorker_get? t _ _ _ info hi]
      split
      · rename_i hji; subst hji; rw [hj] at hi; cases hi
      · exact hj
    · intro j i hj
      show ∃ i', (setWorker t g.gid g.id w).workers.get? j = some i' ∧ _
      rw [setWorker_get? t _ _ _ info hi]
      split
      · rename_i hji; subst hji
        rw [hj] at hi; cases hi
        split
        · exact ⟨_, rfl, rfl, rfl, fun _ => rfl, fun _ => rfl, by simp [WInfo.stop]⟩
        · rename_i hns
          simp only [Bool.or_eq_true, not_or, Bool.not_eq_true] at hns
          refine ⟨_, rfl, rfl, rfl, fun x => x, ?_, h.noStart g.id info hj⟩
          intro hs; simp only at hs; rw [hns.2] at hs; cases hs
      · exact ⟨i, hj, rfl, rfl, fun x => x, h.stopped j i hj, h.noStart j i hj⟩
    · intro hd j i hj
      have hd : (setWorker t g.gid g.id w).isDying = true := hd
      rw [hr.isDying] at hd
      have hall := (h.dying hd).resolve_left (by simp [hpc])
      have hj : (setWorker t g.gid g.id w).workers.get? j = some i := hj
      rw [setWorker_get? t _ _ _ info hi, hd] at hj
      split at hj
      · cases hj; rfl
      · exact hall j i hj
  | done gid id e hpc =>
    obtain ⟨g, hg, rfl, rfl, hgp⟩ := h.actDone _ _ _ hpc
    obtain ⟨info, hi⟩ := Option.isSome_iff_exists.1 ((h.known g.id).2 (List.mem_map.2 ⟨g, hg, rfl⟩))
    unfold workerDone
    rw [hi]
    simp only
    split
    · exact h.remove hpc hi rfl rfl rfl rfl rfl rfl rfl rfl rfl
    · rename_i err _
      have hrm : Shape p ((removeWorker (noteFatal p ((dropG t g.gid).log (.ended g.id g.gid e)) err) g.id
          info.rid).goTo .bcast) :=
        h.remove hpc hi rfl rfl rfl rfl rfl rfl rfl rfl rfl
      unfold beginShutdown
      split
      · exact hrm
      · exact hrm.shutdown t.dyingArm (by simp [Tab.goTo])
    · refine h.restart hpc hi rfl rfl { gid := t.nextG, id := g.id, delay := info.restartDelay, sf := _, ctx := none, pc := _ } rfl rfl
        ?_ rfl rfl rfl rfl rfl rfl rfl
      intro e; split <;> simp
  | killAll order hpc ho =>
    have hd := h.killing (by rw [hpc]; rfl)
    exact {
      gidNd := h.gidNd, idNd := h.idNd, gidLt := h.gidLt, known := h.known,
      goneAct := fun g' hg' e he => absurd (h.goneAct g' hg' e he) (by simp [hpc]),
      actDone := by intro a b c hc; cases hc
      actStarted := by intro a b c hc; cases hc
      ridLt := h.ridLt, ridInj := h.ridInj, tokLt := h.tokLt, tokNd := h.tokNd, stopped := h.stopped,
      noStart := h.noStart
      dying := fun _ => Or.inl rfl
      killing := fun _ => hd
      rest := by
        intro r hc id i hi
        cases hc
        exact Or.inr (by rw [ho.2]; exact AMap.mem_keys_of_get? hi)
      exited := by intro hc; cases hc
      arm := h.arm, fine := h.fine, delay := h.delay }
  | killNext id rest hpc =>
    have hr := killLocked_rest t id
    have hd := h.killing (by rw [hpc]; rfl)
    refine h.table' ?_ ?_ (by simp [hpc]) (.inr ⟨rest, rfl⟩) (fun _ => .inl rfl) (fun _ => (hr.isDying).trans hd) ?_ hr.gs hr.isDying
      hr.nextG hr.nextR hr.tokens hr.dyingArm hr.crashed
    · intro j hj
      show (killLocked t id).workers.get? j = none
      rw [killLocked_get?]
      split
      · rename_i hji; subst hji; rw [hj]; rfl
      · exact hj
    · intro j i hj
      show ∃ i', (killLocked t id).workers.get? j = some i' ∧ _
      rw [killLocked_get?]
      split
      · rename_i hji; subst hji
        exact ⟨i.stop, by rw [hj]; rfl, rfl, rfl, fun _ => rfl, fun _ => rfl, by simp [WInfo.stop]⟩
      · exact ⟨i, hj, rfl, rfl, fun x => x, h.stopped j i hj, h.noStart j i hj⟩
    · intro r hc j i hj
      cases hc
      have hj : (killLocked t id).workers.get? j = some i := hj
      rw [killLocked_get?] at hj
      split at hj
      · obtain ⟨i0, _, rfl⟩ := Option.map_eq_some_iff.1 hj; exact .inl rfl
      · rename_i hne
        rcases h.rest _ hpc j i hj with hs | hm
        · exact .inl hs
        · exact .inr ((List.mem_cons.1 hm).resolve_left hne)
  | killDone hpc =>
    have hall : ∀ id i, t.workers.get? id = some i → i.stopping = true := fun id i hi =>
      (h.rest _ hpc id i hi).resolve_right (by simp)
    exact h.table (fun _ hj => hj) (fun j i hj => ⟨i, hj, rfl, rfl, fun x => x, h.stopped j i hj, h.noStart j i hj⟩) (by simp [hpc])
      rfl (fun _ => hall) rfl rfl rfl rfl rfl rfl rfl
  | reply cid r ret hpc =>
    exact Shape.move (t := t.log _) (h.frame rfl rfl rfl rfl rfl rfl (.refl _) rfl rfl) _ (by simp [Tab.log, hpc]) (by simp)
      (by simp) (by simp [Tab.log, hpc]) (by simp) (by simp)
  | bcast hpc => exact h.move _ (by simp [hpc]) (by simp) (by simp) (by simp [hpc]) (by simp) (by simp)
  | gDying g hg hp hd => exact h.gto g hg _ (by simp [hp]) (by simp)
  | gTimer g hg hp => exact h.gto g hg _ (by simp [hp]) (by simp)
  | gCall g hg hp =>
    exact (h.gto g hg .starting (by simp [hp]) (by simp)).frame rfl rfl rfl rfl rfl rfl (.refl _) rfl rfl
  | gStartOk g w hg hp =>
    exact (h.gto g hg (.sendStarted w) (by simp [hp]) (by simp)).frame rfl rfl rfl rfl rfl rfl (.refl _) rfl rfl
  | gStartErr g e hg hp =>
    exact (h.gto g hg (.sendDone (some e)) (by simp [hp]) (by simp)).frame rfl rfl rfl rfl rfl rfl (.refl _) rfl rfl
  | gWaitRet g w e hg hp hf => exact h.gto g hg _ (by simp [hp]) (by simp)
  | take rid cid ret hm => exact h.frame rfl rfl rfl rfl rfl rfl List.erase_sublist rfl rfl
  | finish w e hf => exact h.frame rfl rfl rfl rfl rfl rfl (.refl _) rfl rfl

theorem ReachT.shape {p : Params} {t : Tab} (h : ReachT p t) : Shape p t := by
  induction h with
  | init => exact .init p
  | step _ hT ih => exact ih.step hT

end Verif.Runner
