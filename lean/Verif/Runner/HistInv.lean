import Verif.Runner.Shape
import Verif.Spec.Runner

/-!
# Runner: the state is what the history says
-/

namespace Verif.Runner
open Tab RSpec

/-- How far the goroutine is agrees with what the history says about its attempt. -/
def PhaseOk (t : Tab) (g : G) : Prop :=
  match g.pc with
  | .delaying | .ready => phaseH t.hist g.gid = some .pending
  | .starting => phaseH t.hist g.gid = some .calling
  | .sendStarted w | .waiting w => phaseH t.hist g.gid = some (.running w)
  | .sendDone e | .gone e =>
    (phaseH t.hist g.gid = some .pending ∧ e = none ∧ Ev.kill ∈ t.hist) ∨
    (∃ err, phaseH t.hist g.gid = some (.failed err) ∧ e = some err) ∨
    (∃ w, phaseH t.hist g.gid = some (.running w) ∧ finishedH t.hist w = some e)

/-- The tomb before the loop has returned. -/
def aliveTomb (killed : Bool) : Tomb := if killed then { reason := some none, alive := 1 } else { alive := 1 }

structure HInv (p : Params) (t : Tab) : Prop where
  kn : ∀ id, knownH t.hist id = (t.workers.get? id).map WInfo.rid
  inst : ∀ id, instH t.hist id = (t.workers.get? id).bind WInfo.worker
  told : ∀ id i, t.workers.get? id = some i → toldH t.hist id = i.stopping
  sf : ∀ id i, t.workers.get? id = some i → ∀ f, i.start = some f → sfH t.hist id = some f
  gsf : ∀ g ∈ t.gs, sfH t.hist g.id = some g.sf
  opn : ∀ id k, openH t.hist id = some k ↔ ∃ g ∈ t.gs, g.id = id ∧ g.gid = k
  ph : ∀ g ∈ t.gs, PhaseOk t g
  over : ∀ k, k < t.nextG → k ∉ t.gs.map G.gid → phaseH t.hist k = some .over
  fresh : ∀ k, t.nextG ≤ k → phaseH t.hist k = none
  shut : t.isDying = true ↔ Ev.shutdown ∈ t.hist
  final : t.finalError = pick p.moreImportant (fatals p.isFatal t.hist)
  fin : ∀ w, t.finished.get? w = finishedH t.hist w
  tomb : t.pc ≠ .exited → t.tomb = aliveTomb (t.hist.contains .kill)
  exit : t.pc = .exited ↔ Ev.exit ∈ t.hist

theorem HInv.init (p : Params) : HInv p {} := by
  constructor <;> simp [knownH, instH, openH, phaseH, finishedH, fatals, pick, aliveTomb]

/-- Events that none of the functions look at. -/
structure Neutral (e : Ev) : Prop where
  kn : ∀ h id, knownH (e :: h) id = knownH h id
  inst : ∀ h id, instH (e :: h) id = instH h id
  told : ∀ h id, toldH (e :: h) id = toldH h id
  sf : ∀ h id, sfH (e :: h) id = sfH h id
  opn : ∀ h id, openH (e :: h) id = openH h id
  ph : ∀ h k, phaseH (e :: h) k = phaseH h k
  fin : ∀ h w, finishedH (e :: h) w = finishedH h w
  fatals : ∀ f h, fatals f (e :: h) = RSpec.fatals f h
  nshut : e ≠ .shutdown
  nkill : e ≠ .kill
  nexit : e ≠ .exit

theorem Neutral.of_quiet {e : Ev} (h : e.quiet = true) : Neutral e := by
  cases e <;> first | (cases h; done) | (constructor <;> intros <;> first | rfl | nofun)

theorem neutral_stopHandled (id : Name) : Neutral (.stopHandled id) := by
  constructor <;> intros <;> first | rfl | nofun
theorem neutral_ignored (cid : Nat) (id : Name) : Neutral (.ignored cid id) := by
  constructor <;> intros <;> first | rfl | nofun
theorem neutral_refused (cid : Nat) (id : Name) : Neutral (.refused cid id) := by
  constructor <;> intros <;> first | rfl | nofun

/-- PhaseOk depends on the history only through these. -/
theorem PhaseOk.frame {t t' : Tab} {g : G} (h : PhaseOk t g) (h1 : phaseH t'.hist g.gid = phaseH t.hist g.gid)
    (h2 : ∀ w e, finishedH t.hist w = some e → finishedH t'.hist w = some e)
    (h3 : Ev.kill ∈ t.hist → Ev.kill ∈ t'.hist) : PhaseOk t' g := by
  unfold PhaseOk at *
  split at h <;> rename_i hp
  · rw [h1]; exact h
  · rw [h1]; exact h
  · rw [h1]; exact h
  · rw [h1]; exact h
  · rw [h1]; exact h
  · rw [h1]
    rcases h with ⟨a, b, c⟩ | ⟨e, a, b⟩ | ⟨w, a, b⟩
    · exact Or.inl ⟨a, b, h3 c⟩
    · exact Or.inr (Or.inl ⟨e, a, b⟩)
    · exact Or.inr (Or.inr ⟨w, a, h2 _ _ b⟩)
  · rw [h1]
    rcases h with ⟨a, b, c⟩ | ⟨e, a, b⟩ | ⟨w, a, b⟩
    · exact Or.inl ⟨a, b, h3 c⟩
    · exact Or.inr (Or.inl ⟨e, a, b⟩)
    · exact Or.inr (Or.inr ⟨w, a, h2 _ _ b⟩)

/-- Recording a neutral event, moving the loop other than to or from its end, and changing tokens. -/
theorem HInv.neutral {p : Params} {t t' : Tab} (h : HInv p t) (e : Ev) (he : Neutral e) (hh : t'.hist = e :: t.hist)
    (h1 : t'.workers = t.workers) (h2 : t'.gs = t.gs) (h3 : t'.pc = .exited ↔ t.pc = .exited)
    (h4 : t'.isDying = t.isDying) (h5 : t'.nextG = t.nextG) (h6 : t'.finalError = t.finalError)
    (h7 : t'.finished = t.finished) (h8 : t'.tomb = t.tomb) : HInv p t' := by
  have hc : ∀ x : Ev, x ≠ e → (x ∈ t'.hist ↔ x ∈ t.hist) := by
    intro x hx; rw [hh, List.mem_cons]; simp [hx]
  constructor
  · intro id; rw [hh, he.kn, h1]; exact h.kn id
  · intro id; rw [hh, he.inst, h1]; exact h.inst id
  · intro id; rw [hh, he.told, h1]; exact h.told id
  · intro id; rw [hh, he.sf, h1]; exact h.sf id
  · intro g; rw [hh, he.sf, h2]; exact h.gsf g
  · intro id k; rw [hh, he.opn, h2]; exact h.opn id k
  · intro g hg; rw [h2] at hg
    refine (h.ph g hg).frame (by rw [hh, he.ph]) (by intro w e hw; rw [hh, he.fin]; exact hw) (fun hk => ?_)
    rw [hh]; exact List.mem_cons_of_mem _ hk
  · intro k; rw [hh, he.ph, h2, h5]; exact h.over k
  · intro k; rw [hh, he.ph, h5]; exact h.fresh k
  · rw [h4, hc _ he.nshut.symm]; exact h.shut
  · rw [h6, hh, he.fatals]; exact h.final
  · intro w; rw [h7, hh, he.fin]; exact h.fin w
  · intro hp
    have hp' : t.pc ≠ .exited := fun x => hp (h3.2 x)
    rw [h8, h.tomb hp']
    congr 1
    rw [Bool.eq_iff_iff]; simp only [List.contains_iff_mem]
    exact (hc _ he.nkill.symm).symm
  · rw [h3, hc _ he.nexit.symm]; exact h.exit

/-- Moving the loop other than to or from its end, and changing tokens. -/
theorem HInv.frame {p : Params} {t t' : Tab} (h : HInv p t) (hh : t'.hist = t.hist)
    (h1 : t'.workers = t.workers) (h2 : t'.gs = t.gs) (h3 : t'.pc = .exited ↔ t.pc = .exited)
    (h4 : t'.isDying = t.isDying) (h5 : t'.nextG = t.nextG) (h6 : t'.finalError = t.finalError)
    (h7 : t'.finished = t.finished) (h8 : t'.tomb = t.tomb) : HInv p t' := by
  constructor
  · rw [hh, h1]; exact h.kn
  · rw [hh, h1]; exact h.inst
  · rw [hh, h1]; exact h.told
  · rw [hh, h1]; exact h.sf
  · rw [hh, h2]; exact h.gsf
  · rw [hh, h2]; exact h.opn
  · rw [h2]; intro g hg; exact (h.ph g hg).frame (by rw [hh]) (by rw [hh]; exact fun _ _ x => x) (by rw [hh]; exact id)
  · rw [hh, h2, h5]; exact h.over
  · rw [hh, h5]; exact h.fresh
  · rw [hh, h4]; exact h.shut
  · rw [hh, h6]; exact h.final
  · rw [hh, h7]; exact h.fin
  · intro hp; rw [h8, hh]; exact h.tomb (fun x => hp (h3.2 x))
  · rw [hh, h3]; exact h.exit

theorem HInv.goTo {p : Params} {t : Tab} (h : HInv p t) (pc : LoopPc) (h3 : pc = .exited ↔ t.pc = .exited) :
    HInv p (t.goTo pc) := h.frame rfl rfl rfl h3 rfl rfl rfl rfl rfl

theorem mem_cons_ne {x e : Ev} {l : List Ev} (h : x ≠ e) : x ∈ e :: l ↔ x ∈ l := by
  rw [List.mem_cons]; simp [h]

/-- killWorkerLocked. -/
theorem HInv.killLocked {p : Params} {t : Tab} (h : HInv p t) (id : Name) : HInv p (killLocked t id) := by
  cases hi : t.workers.get? id with
  | none => unfold Runner.killLocked; rw [hi]; exact h
  | some info =>
    have hr := killLocked_rest t id
    have hget := killLocked_get? t id
    have hh : (Runner.killLocked t id).hist = match info.worker with
        | some w => .killW id w :: .told id :: t.hist
        | none => .told id :: t.hist := by
      unfold Runner.killLocked; rw [hi]; simp only
      cases info.worker <;> rfl
    have hkn : ∀ j, knownH (Runner.killLocked t id).hist j = knownH t.hist j := by
      intro j; rw [hh]; cases info.worker <;> rfl
    have hsf : ∀ j, sfH (Runner.killLocked t id).hist j = sfH t.hist j := by
      intro j; rw [hh]; cases info.worker <;> rfl
    have hopn : ∀ j, openH (Runner.killLocked t id).hist j = openH t.hist j := by
      intro j; rw [hh]; cases info.worker <;> rfl
    have hph : ∀ j, phaseH (Runner.killLocked t id).hist j = phaseH t.hist j := by
      intro j; rw [hh]; cases info.worker <;> rfl
    have hfin : ∀ j, finishedH (Runner.killLocked t id).hist j = finishedH t.hist j := by
      intro j; rw [hh]; cases info.worker <;> rfl
    have hfat : ∀ f, fatals f (Runner.killLocked t id).hist = fatals f t.hist := by
      intro f; rw [hh]; cases info.worker <;> rfl
    have hmem : ∀ x : Ev, (x = .shutdown ∨ x = .kill ∨ x = .exit) → (x ∈ (Runner.killLocked t id).hist ↔ x ∈ t.hist) := by
      intro x hx; rw [hh]; rcases hx with rfl | rfl | rfl <;> cases info.worker <;> simp
    constructor
    · intro j; rw [hkn, hget, h.kn]
      split
      · rename_i hj; subst hj; rw [hi]; rfl
      · rfl
    · intro j; rw [hget, hh]
      have := h.inst j
      by_cases hj : j = id
      · rw [if_pos hj]; subst hj; rw [hi] at this ⊢
        cases hw : info.worker with
        | some w => simp [instH, WInfo.stop]
        | none => simpa [instH, WInfo.stop, hw] using this
      · rw [if_neg hj, ← this]
        cases info.worker <;> simp [instH, hj]
    · intro j i hj
      rw [hget] at hj
      have ht : toldH (Runner.killLocked t id).hist j = if j = id then true else toldH t.hist j := by
        rw [hh]; cases info.worker <;> simp [toldH]
      rw [ht]
      split at hj
      · rename_i hji
        rw [if_pos hji]
        obtain ⟨i0, _, rfl⟩ := Option.map_eq_some_iff.1 hj; rfl
      · rename_i hji
        rw [if_neg hji]; exact h.told j i hj
    · intro j i hj f hf
      rw [hget] at hj
      rw [hsf]
      split at hj
      · obtain ⟨i0, _, rfl⟩ := Option.map_eq_some_iff.1 hj; cases hf
      · exact h.sf j i hj f hf
    · intro g; rw [hr.gs, hsf]; exact h.gsf g
    · intro j k; rw [hopn, hr.gs]; exact h.opn j k
    · intro g hg; rw [hr.gs] at hg
      exact (h.ph g hg).frame (hph _) (fun w e x => by rw [hfin]; exact x) (fun x => (hmem .kill (by simp)).2 x)
    · intro k; rw [hph, hr.gs, hr.nextG]; exact h.over k
    · intro k; rw [hph, hr.nextG]; exact h.fresh k
    · rw [hr.isDying, hmem .shutdown (by simp)]; exact h.shut
    · rw [hr.finalError, hfat]; exact h.final
    · intro w; rw [hr.finished, hfin]; exact h.fin w
    · intro hp
      rw [hr.tomb, h.tomb (by rw [← hr.pc]; exact hp)]
      congr 1
      rw [Bool.eq_iff_iff]; simp only [List.contains_iff_mem]
      exact (hmem .kill (by simp)).symm
    · rw [hr.pc, hmem .exit (by simp)]; exact h.exit

/-- A goroutine moves on and records `es`. -/
theorem HInv.gto {p : Params} {t t' : Tab} (h : HInv p t) (hs : Shape p t) (g : G) (hg : g ∈ t.gs) (pc : Pc) (es : List Ev)
    (ht : t' = { t.gto g.gid pc with hist := es ++ t.hist })
    (hes : es = [] ∨ (∃ sf, es = [.startCall g.id g.gid sf]) ∨ (∃ w, es = [.startOk g.id g.gid w]) ∨
      (∃ e, es = [.startErr g.id g.gid e]))
    (hph : PhaseOk t' { g with pc := pc }) : HInv p t' := by
  have hh : t'.hist = es ++ t.hist := by rw [ht]
  have hgs : t'.gs = (t.gto g.gid pc).gs := by rw [ht]
  have hkn : ∀ j, knownH t'.hist j = knownH t.hist j := by
    intro j; rw [hh]; rcases hes with rfl | ⟨_, rfl⟩ | ⟨_, rfl⟩ | ⟨_, rfl⟩ <;> rfl
  have hin : ∀ j, instH t'.hist j = instH t.hist j := by
    intro j; rw [hh]; rcases hes with rfl | ⟨_, rfl⟩ | ⟨_, rfl⟩ | ⟨_, rfl⟩ <;> rfl
  have hto : ∀ j, toldH t'.hist j = toldH t.hist j := by
    intro j; rw [hh]; rcases hes with rfl | ⟨_, rfl⟩ | ⟨_, rfl⟩ | ⟨_, rfl⟩ <;> rfl
  have hsf : ∀ j, sfH t'.hist j = sfH t.hist j := by
    intro j; rw [hh]; rcases hes with rfl | ⟨_, rfl⟩ | ⟨_, rfl⟩ | ⟨_, rfl⟩ <;> rfl
  have hopn : ∀ j, openH t'.hist j = openH t.hist j := by
    intro j; rw [hh]; rcases hes with rfl | ⟨_, rfl⟩ | ⟨_, rfl⟩ | ⟨_, rfl⟩ <;> rfl
  have hph' : ∀ j, j ≠ g.gid → phaseH t'.hist j = phaseH t.hist j := by
    intro j hj; rw [hh]; rcases hes with rfl | ⟨_, rfl⟩ | ⟨_, rfl⟩ | ⟨_, rfl⟩ <;> simp [phaseH, hj]
  have hfin : ∀ j, finishedH t'.hist j = finishedH t.hist j := by
    intro j; rw [hh]; rcases hes with rfl | ⟨_, rfl⟩ | ⟨_, rfl⟩ | ⟨_, rfl⟩ <;> rfl
  have hfat : ∀ f, fatals f t'.hist = fatals f t.hist := by
    intro f; rw [hh]; rcases hes with rfl | ⟨_, rfl⟩ | ⟨_, rfl⟩ | ⟨_, rfl⟩ <;> rfl
  have hmem : ∀ x : Ev, (x = .shutdown ∨ x = .kill ∨ x = .exit) → (x ∈ t'.hist ↔ x ∈ t.hist) := by
    intro x hx; rw [hh]
    rcases hx with rfl | rfl | rfl <;> rcases hes with rfl | ⟨_, rfl⟩ | ⟨_, rfl⟩ | ⟨_, rfl⟩ <;> simp
  have hmg : ∀ g', g' ∈ t'.gs → g' = { g with pc := pc } ∨ (g' ∈ t.gs ∧ g'.gid ≠ g.gid) := by
    intro g' hg'
    rw [hgs] at hg'
    rcases mem_gto.1 hg' with ⟨g0, hg0, heq, rfl⟩ | r
    · rw [gid_inj hs.gidNd hg0 hg heq]; exact Or.inl rfl
    · exact Or.inr r
  have hmap : t'.gs.map G.gid = t.gs.map G.gid := by rw [hgs, gto_gids]
  constructor
  · intro j; rw [hkn, h.kn, ht]; rfl
  · intro j; rw [hin, h.inst, ht]; rfl
  · intro j i hj; rw [hto]; rw [ht] at hj; exact h.told j i hj
  · intro j i hj; rw [hsf]; rw [ht] at hj; exact h.sf j i hj
  · intro g' hg'; rw [hsf]
    rcases hmg g' hg' with rfl | ⟨hg', _⟩
    · exact h.gsf g hg
    · exact h.gsf g' hg'
  · intro j k; rw [hopn, h.opn]
    constructor
    · rintro ⟨g0, hg0, rfl, rfl⟩
      by_cases heq : g0.gid = g.gid
      · exact ⟨{ g0 with pc := pc }, by rw [hgs]; exact mem_gto.2 (Or.inl ⟨g0, hg0, heq, rfl⟩), rfl, rfl⟩
      · exact ⟨g0, by rw [hgs]; exact mem_gto.2 (Or.inr ⟨hg0, heq⟩), rfl, rfl⟩
    · rintro ⟨g0, hg0, rfl, rfl⟩
      rcases hmg g0 hg0 with rfl | ⟨hg', _⟩
      · exact ⟨g, hg, rfl, rfl⟩
      · exact ⟨g0, hg', rfl, rfl⟩
  · intro g' hg'
    rcases hmg g' hg' with rfl | ⟨hg', hne⟩
    · exact hph
    · exact (h.ph g' hg').frame (hph' _ hne) (fun w e x => by rw [hfin]; exact x) (fun x => (hmem .kill (by simp)).2 x)
  · intro k hk hn
    rw [hmap] at hn
    rw [hph' k]
    · refine h.over k ?_ hn
      rw [ht] at hk; exact hk
    · rintro rfl; exact hn (List.mem_map.2 ⟨g, hg, rfl⟩)
  · intro k hk
    have hk : t.nextG ≤ k := by rw [ht] at hk; exact hk
    rw [hph' k]
    · exact h.fresh k hk
    · rintro rfl; have := hs.gidLt g hg; omega
  · rw [hmem .shutdown (by simp), ← h.shut, ht]; rfl
  · rw [hfat, ← h.final, ht]; rfl
  · intro w; rw [hfin, ← h.fin, ht]; rfl
  · intro hp
    have h1 : t'.tomb = t.tomb := by rw [ht]; rfl
    have h2 : t'.pc = t.pc := by rw [ht]; rfl
    rw [h1, h.tomb (by rw [← h2]; exact hp)]
    congr 1
    rw [Bool.eq_iff_iff]; simp only [List.contains_iff_mem]
    exact (hmem .kill (by simp)).symm
  · have h2 : t'.pc = t.pc := by rw [ht]; rfl
    rw [h2, hmem .exit (by simp)]; exact h.exit

/-- setWorker's first half. -/
theorem HInv.learn {p : Params} {t : Tab} (h : HInv p t) (gid : Nat) (id : Name) (w : Nat) (info : WInfo)
    (hi : t.workers.get? id = some info) :
    HInv p ((t.setInfo id { info with worker := some w }).log (.learned id gid w)) := by
  have hget : ∀ j, ((t.setInfo id { info with worker := some w }).log (.learned id gid w)).workers.get? j =
      if j = id then some { info with worker := some w } else t.workers.get? j := by
    intro j; simp only [Tab.log, Tab.setInfo, AMap.get?_set]
  constructor
  · intro j; rw [hget]; show knownH t.hist j = _; rw [h.kn]
    split
    · rename_i hj; subst hj; rw [hi]; rfl
    · rfl
  · intro j; rw [hget]
    show (if j = id then some w else instH t.hist j) = _
    split
    · rfl
    · exact h.inst j
  · intro j i hj
    rw [hget] at hj
    show toldH t.hist j = _
    split at hj
    · rename_i hji; subst hji; cases hj; exact h.told j info hi
    · exact h.told j i hj
  · intro j i hj f hf
    rw [hget] at hj
    show sfH t.hist j = _
    split at hj
    · rename_i hji; subst hji; cases hj; exact h.sf j info hi f hf
    · exact h.sf j i hj f hf
  · exact h.gsf
  · exact h.opn
  · intro g hg; exact (h.ph g hg).frame rfl (fun _ _ x => x) (fun x => List.mem_cons_of_mem _ x)
  · exact h.over
  · exact h.fresh
  · exact h.shut.trans (mem_cons_ne (by nofun)).symm
  · exact h.final
  · exact h.fin
  · intro hp
    show t.tomb = _
    rw [h.tomb hp]
    congr 1
  · exact h.exit.trans (mem_cons_ne (by nofun)).symm

/-- `finalError` after noteFatal. -/
theorem noteFatal_final (p : Params) (t : Tab) (e : Err) (l : List Err) (h : t.finalError = pick p.moreImportant l) :
    (noteFatal p t e).finalError = pick p.moreImportant (e :: l) := by
  simp only [noteFatal, pick, h]
  cases pick p.moreImportant l with
  | none => rfl
  | some f => simp only; split <;> rfl

/-- The end of a worker is processed (the first half of workerDone). Afterwards the id has no goroutine; the invariant
about open attempts holds for the rest. -/
theorem HInv.removed {p : Params} {t t' : Tab} (h : HInv p t) (hs : Shape p t) {gid : Nat} {id : Name} {e : Option Err}
    (hp : t.pc = .act (.done gid id e)) {info : WInfo} (hi : t.workers.get? id = some info)
    (hh : t'.hist = .removed id info.rid :: .ended id gid e :: t.hist)
    (hpc : t'.pc = .bcast) (hw : t'.workers = t.workers.erase id) (hgs : t'.gs = (dropG t gid).gs)
    (h4 : t'.isDying = t.isDying) (h5 : t'.nextG = t.nextG)
    (h6 : t'.finalError = pick p.moreImportant (fatals p.isFatal (.ended id gid e :: t.hist)))
    (h7 : t'.finished = t.finished) (h8 : t'.tomb = t.tomb) : HInv p t' := by
  obtain ⟨g, hg, rfl, rfl, hgpc⟩ := hs.actDone _ _ _ hp
  have hmem : ∀ x : Ev, (x = .shutdown ∨ x = .kill ∨ x = .exit) → (x ∈ t'.hist ↔ x ∈ t.hist) := by
    intro x hx; rw [hh]; rcases hx with rfl | rfl | rfl <;> simp
  have hph : ∀ k, k ≠ g.gid → phaseH t'.hist k = phaseH t.hist k := by
    intro k hk; rw [hh]; simp [phaseH, hk]
  have hget : ∀ j, t'.workers.get? j = if j = g.id then none else t.workers.get? j := by
    intro j; rw [hw, AMap.get?_erase]
  constructor
  · intro j; rw [hget, hh]
    simp only [knownH]
    split
    · rfl
    · exact h.kn j
  · intro j; rw [hget, hh]
    simp only [instH]
    split
    · rfl
    · exact h.inst j
  · intro j i hj; rw [hget] at hj; rw [hh]
    split at hj
    · cases hj
    · exact h.told j i hj
  · intro j i hj; rw [hget] at hj; rw [hh]
    split at hj
    · cases hj
    · exact h.sf j i hj
  · intro g' hg'; rw [hgs] at hg'; rw [hh]; exact h.gsf g' (mem_dropG.1 hg').1
  · intro j k; rw [hh, hgs]
    simp only [openH]
    split
    · rename_i hj
      constructor
      · intro hc; cases hc
      · rintro ⟨g', hg', hid, _⟩
        obtain ⟨hg', hne⟩ := mem_dropG.1 hg'
        exact absurd (by rw [id_inj hs.idNd hg' hg (by rw [hid, hj])]) hne
    · rename_i hj
      rw [h.opn]
      constructor
      · rintro ⟨g', hg', rfl, rfl⟩
        refine ⟨g', mem_dropG.2 ⟨hg', ?_⟩, rfl, rfl⟩
        intro heq; exact hj (by rw [gid_inj hs.gidNd hg' hg heq])
      · rintro ⟨g', hg', rfl, rfl⟩
        exact ⟨g', (mem_dropG.1 hg').1, rfl, rfl⟩
  · intro g' hg'; rw [hgs] at hg'
    obtain ⟨hg', hne⟩ := mem_dropG.1 hg'
    exact (h.ph g' hg').frame (hph _ hne) (fun w e hw => by rw [hh]; exact hw) (fun x => (hmem .kill (by simp)).2 x)
  · intro k hk hn
    rw [h5] at hk
    by_cases heq : k = g.gid
    · rw [hh, heq]; simp [phaseH]
    · rw [hph k heq]
      refine h.over k hk ?_
      intro hm
      obtain ⟨g', hg', rfl⟩ := List.mem_map.1 hm
      exact hn (by rw [hgs]; exact List.mem_map.2 ⟨g', mem_dropG.2 ⟨hg', heq⟩, rfl⟩)
  · intro k hk
    rw [h5] at hk
    have := hs.gidLt g hg
    rw [hph k (by omega)]
    exact h.fresh k hk
  · rw [h4, hmem .shutdown (by simp)]; exact h.shut
  · rw [h6, hh]; rfl
  · intro w; rw [h7, hh]; exact h.fin w
  · intro _
    rw [h8, h.tomb (by rw [hp]; nofun)]
    congr 1
    rw [Bool.eq_iff_iff]; simp only [List.contains_iff_mem]
    exact (hmem .kill (by simp)).symm
  · rw [hmem .exit (by simp), ← h.exit, hp, hpc]; constructor <;> intro x <;> cases x

/-- A worker is run again. -/
theorem HInv.restarted {p : Params} {t t' : Tab} (h : HInv p t) (hs : Shape p t) {gid : Nat} {id : Name} {e : Option Err}
    (hp : t.pc = .act (.done gid id e)) {info : WInfo} (hi : t.workers.get? id = some info) (sf : Nat)
    (hsf : info.start = some sf)
    (hh : t'.hist = .begin id t.nextG info.restartDelay sf :: .ended id gid e :: t.hist)
    (hpc : t'.pc = .bcast) (hw : ∀ j, t'.workers.get? j = t.workers.get? j)
    (hgs : t'.gs =
      { gid := t.nextG, id := id, delay := info.restartDelay, sf := sf, ctx := none
        pc := if 0 < info.restartDelay then .delaying else .ready } :: (dropG t gid).gs)
    (h4 : t'.isDying = t.isDying) (h5 : t'.nextG = t.nextG + 1)
    (h6 : t'.finalError = pick p.moreImportant (fatals p.isFatal (.ended id gid e :: t.hist)))
    (h7 : t'.finished = t.finished) (h8 : t'.tomb = t.tomb) : HInv p t' := by
  obtain ⟨g, hg, rfl, rfl, hgpc⟩ := hs.actDone _ _ _ hp
  have hmem : ∀ x : Ev, (x = .shutdown ∨ x = .kill ∨ x = .exit) → (x ∈ t'.hist ↔ x ∈ t.hist) := by
    intro x hx; rw [hh]; rcases hx with rfl | rfl | rfl <;> simp
  have hph : ∀ k, k ≠ g.gid → k ≠ t.nextG → phaseH t'.hist k = phaseH t.hist k := by
    intro k hk hk'; rw [hh]; simp [phaseH, hk, hk']
  constructor
  · intro j; rw [hw, hh]; exact h.kn j
  · intro j; rw [hw, hh]; exact h.inst j
  · intro j; rw [hw, hh]; exact h.told j
  · intro j; rw [hw, hh]; exact h.sf j
  · intro g' hg'; rw [hgs] at hg'; rw [hh]
    rcases List.mem_cons.1 hg' with rfl | hg'
    · exact h.sf g.id info hi sf hsf
    · exact h.gsf g' (mem_dropG.1 hg').1
  · intro j k; rw [hh, hgs]
    simp only [openH]
    split
    · rename_i hj
      subst hj
      constructor
      · intro hc; cases hc; exact ⟨_, List.mem_cons_self, rfl, rfl⟩
      · rintro ⟨g', hg', hid, rfl⟩
        rcases List.mem_cons.1 hg' with rfl | hg'
        · rfl
        · obtain ⟨hg', hne⟩ := mem_dropG.1 hg'
          exact absurd (by rw [id_inj hs.idNd hg' hg hid]) hne
    · rename_i hj
      rw [h.opn]
      constructor
      · rintro ⟨g', hg', rfl, rfl⟩
        refine ⟨g', List.mem_cons_of_mem _ (mem_dropG.2 ⟨hg', ?_⟩), rfl, rfl⟩
        intro heq; exact hj (by rw [gid_inj hs.gidNd hg' hg heq])
      · rintro ⟨g', hg', rfl, rfl⟩
        rcases List.mem_cons.1 hg' with rfl | hg'
        · exact absurd rfl hj
        · exact ⟨g', (mem_dropG.1 hg').1, rfl, rfl⟩
  · intro g' hg'; rw [hgs] at hg'
    rcases List.mem_cons.1 hg' with rfl | hg'
    · unfold PhaseOk
      have : phaseH t'.hist t.nextG = some .pending := by rw [hh]; simp [phaseH]
      simp only
      split <;> rename_i hx <;> split at hx <;> first | exact this | cases hx
    · obtain ⟨hg', hne⟩ := mem_dropG.1 hg'
      have := hs.gidLt g' hg'
      exact (h.ph g' hg').frame (hph _ hne (by omega)) (fun w e hw => by rw [hh]; exact hw)
        (fun x => (hmem .kill (by simp)).2 x)
  · intro k hk hn
    rw [h5] at hk
    rw [hgs, List.map_cons, List.mem_cons, not_or] at hn
    have hk2 : k ≠ t.nextG := hn.1
    by_cases heq : k = g.gid
    · rw [hh, heq]
      have := hs.gidLt g hg
      simp only [phaseH]
      rw [if_neg (by omega), if_pos trivial]
    · rw [hph k heq hk2]
      refine h.over k (by omega) ?_
      intro hm
      obtain ⟨g', hg', rfl⟩ := List.mem_map.1 hm
      exact hn.2 (List.mem_map.2 ⟨g', mem_dropG.2 ⟨hg', heq⟩, rfl⟩)
  · intro k hk
    rw [h5] at hk
    have := hs.gidLt g hg
    rw [hph k (by omega) (by omega)]
    exact h.fresh k (by omega)
  · rw [h4, hmem .shutdown (by simp)]; exact h.shut
  · rw [h6, hh]; rfl
  · intro w; rw [h7, hh]; exact h.fin w
  · intro _
    rw [h8, h.tomb (by rw [hp]; nofun)]
    congr 1
    rw [Bool.eq_iff_iff]; simp only [List.contains_iff_mem]
    exact (hmem .kill (by simp)).symm
  · rw [hmem .exit (by simp), ← h.exit, hp, hpc]; constructor <;> intro x <;> cases x

/-- A worker is registered and run. -/
theorem HInv.accept {p : Params} {t : Tab} (h : HInv p t) (hs : Shape p t) (cid id sf : Nat) (now : Int)
    (hp : t.pc = .act (.start cid id sf)) (hi : t.workers.get? id = none) :
    HInv p ((acceptStart p t cid id sf now).goTo (.reply cid none)) := by
  have hget : ∀ j, ((acceptStart p t cid id sf now).goTo (.reply cid none)).workers.get? j =
      if j = id then some { rid := t.nextR, start := some sf, restartDelay := p.restartDelay, started := now }
      else t.workers.get? j := by
    intro j; simp only [acceptStart, spawn, register, Tab.goTo, AMap.get?_set]
  have hnid : id ∉ t.gs.map G.id := by rw [← hs.known, hi]; simp
  have hh : ((acceptStart p t cid id sf now).goTo (.reply cid none)).hist =
    .begin id t.nextG 0 sf :: .accepted cid id t.nextR sf :: t.hist := rfl
  have hgs : ((acceptStart p t cid id sf now).goTo (.reply cid none)).gs =
    { gid := t.nextG, id := id, delay := 0, sf := sf, ctx := some cid, pc := .ready } :: t.gs := rfl
  have hmem : ∀ x : Ev, (x = .shutdown ∨ x = .kill ∨ x = .exit) →
      (x ∈ ((acceptStart p t cid id sf now).goTo (.reply cid none)).hist ↔ x ∈ t.hist) := by
    intro x hx; rw [hh]; rcases hx with rfl | rfl | rfl <;> simp
  constructor
  · intro j; rw [hget, hh]; simp only [knownH]
    split
    · rfl
    · exact h.kn j
  · intro j; rw [hget, hh]; simp only [instH]
    split
    · rfl
    · exact h.inst j
  · intro j i hj; rw [hget] at hj; rw [hh]; simp only [toldH]
    split at hj
    · rename_i hji; rw [if_pos hji]; cases hj; rfl
    · rename_i hji; rw [if_neg hji]; exact h.told j i hj
  · intro j i hj f hf; rw [hget] at hj; rw [hh]; simp only [sfH]
    split at hj
    · rename_i hji; rw [if_pos hji]; cases hj; exact hf
    · rename_i hji; rw [if_neg hji]; exact h.sf j i hj f hf
  · intro g' hg'; rw [hgs] at hg'; rw [hh]; simp only [sfH]
    rcases List.mem_cons.1 hg' with rfl | hg'
    · simp
    · rw [if_neg]
      · exact h.gsf g' hg'
      · intro heq; exact hnid (List.mem_map.2 ⟨g', hg', heq⟩)
  · intro j k; rw [hh, hgs]
    simp only [openH]
    split
    · rename_i hj
      subst hj
      constructor
      · intro hc; cases hc; exact ⟨_, List.mem_cons_self, rfl, rfl⟩
      · rintro ⟨g', hg', hid, rfl⟩
        rcases List.mem_cons.1 hg' with rfl | hg'
        · rfl
        · exact absurd (List.mem_map.2 ⟨g', hg', hid⟩) hnid
    · rename_i hj
      rw [h.opn]
      constructor
      · rintro ⟨g', hg', rfl, rfl⟩
        exact ⟨g', List.mem_cons_of_mem _ hg', rfl, rfl⟩
      · rintro ⟨g', hg', rfl, rfl⟩
        rcases List.mem_cons.1 hg' with rfl | hg'
        · exact absurd rfl hj
        · exact ⟨g', hg', rfl, rfl⟩
  · intro g' hg'; rw [hgs] at hg'
    rcases List.mem_cons.1 hg' with rfl | hg'
    · show phaseH _ _ = _
      rw [hh]; simp [phaseH]
    · have := hs.gidLt g' hg'
      refine (h.ph g' hg').frame ?_ (fun w e hw => by rw [hh]; exact hw) (fun x => (hmem .kill (by simp)).2 x)
      rw [hh]; simp only [phaseH]; rw [if_neg (by omega)]
  · intro k hk hn
    have hk : k < t.nextG + 1 := hk
    rw [hgs, List.map_cons, List.mem_cons, not_or] at hn
    have hk2 : k ≠ t.nextG := hn.1
    rw [hh]; simp only [phaseH]; rw [if_neg hk2]
    exact h.over k (by omega) hn.2
  · intro k hk
    have hk : t.nextG + 1 ≤ k := hk
    rw [hh]; simp only [phaseH]; rw [if_neg (by omega)]
    exact h.fresh k (by omega)
  · rw [hmem .shutdown (by simp)]; exact h.shut
  · exact h.final
  · exact h.fin
  · intro _
    show t.tomb = _
    rw [h.tomb (by rw [hp]; nofun)]
    congr 1
  · rw [hmem .exit (by simp), ← h.exit, hp]; constructor <;> intro x <;> cases x

theorem fatals_ended_none (f : Err → Bool) (id gid : Nat) (h : List Ev) :
    fatals f (.ended id gid none :: h) = fatals f h := rfl

/-- What workerDone decides, in terms of the error. -/
theorem fate_cases (p : Params) (info : WInfo) (e : Option Err) :
    (fate p info e = .remove ∧ ∀ err, e = some err → p.isFatal err = false) ∨
    (∃ err, e = some err ∧ p.isFatal err = true ∧ fate p info e = .fatal err) ∨
    (∃ sf, fate p info e = .restart sf ∧ info.start = some sf ∧ (∀ err, e = some err → p.isFatal err = false ∧
      p.shouldRestart err = true) ∧ (e = none → info.stopping = true)) := by
  cases e with
  | none =>
    cases hs : info.stopping with
    | false => left; exact ⟨by simp [fate, hs], by simp⟩
    | true =>
      cases hst : info.start with
      | none => left; exact ⟨by simp [fate, lastFate, hs, hst], by simp⟩
      | some sf => right; right; exact ⟨sf, by simp [fate, lastFate, hs, hst], rfl, by simp, fun _ => rfl⟩
  | some err =>
    cases hf : p.isFatal err with
    | true => right; left; exact ⟨err, rfl, hf, by simp [fate, hf]⟩
    | false =>
      cases hr : p.shouldRestart err with
      | false => left; exact ⟨by simp [fate, hf, hr], by intro e he; cases he; exact hf⟩
      | true =>
        cases hst : info.start with
        | none => left; exact ⟨by simp [fate, lastFate, hf, hr, hst], by intro e he; cases he; exact hf⟩
        | some sf =>
          right; right
          exact ⟨sf, by simp [fate, lastFate, hf, hr, hst], rfl, by intro e he; cases he; exact ⟨hf, hr⟩, by simp⟩

theorem fatals_ended_nonfatal {f : Err → Bool} {id gid : Nat} {e : Option Err} {h : List Ev}
    (hn : ∀ err, e = some err → f err = false) : fatals f (.ended id gid e :: h) = fatals f h := by
  cases e with
  | none => rfl
  | some err => simp [fatals, hn err rfl]

theorem HInv.step {p : Params} {t t' : Tab} (h : HInv p t) (hs : Shape p t) (hT : T p t t') : HInv p t' := by
  cases hT with
  | same => exact h
  | quiet e he hq => exact h.neutral e (.of_quiet he) rfl rfl rfl Iff.rfl rfl rfl rfl rfl rfl
  | kill =>
    constructor
    · exact h.kn
    · exact h.inst
    · exact h.told
    · exact h.sf
    · exact h.gsf
    · exact h.opn
    · intro g hg; exact (h.ph g hg).frame rfl (fun _ _ x => x) (fun x => List.mem_cons_of_mem _ x)
    · exact h.over
    · exact h.fresh
    · exact h.shut.trans (mem_cons_ne (by nofun)).symm
    · exact h.final
    · exact h.fin
    · intro hp
      show t.tomb.kill none = _
      rw [h.tomb hp]
      simp only [Tab.log]
      cases List.contains t.hist .kill <;> simp [aliveTomb, Tomb.kill]
    · exact h.exit.trans (mem_cons_ne (by nofun)).symm
  | exit hpc hd hw =>
    constructor
    · exact h.kn
    · exact h.inst
    · exact h.told
    · exact h.sf
    · exact h.gsf
    · exact h.opn
    · intro g hg; exact (h.ph g hg).frame rfl (fun _ _ x => x) (fun x => List.mem_cons_of_mem _ x)
    · exact h.over
    · exact h.fresh
    · exact h.shut.trans (mem_cons_ne (by nofun)).symm
    · exact h.final
    · exact h.fin
    · intro hp; exact absurd rfl hp
    · exact ⟨fun _ => List.mem_cons_self, fun _ => rfl⟩
  | select hpc hn => exact h.goTo _ (by simp [hpc])
  | recvDying hpc ha hd =>
    constructor
    · exact h.kn
    · exact h.inst
    · exact h.told
    · exact h.sf
    · exact h.gsf
    · exact h.opn
    · intro g hg; exact (h.ph g hg).frame rfl (fun _ _ x => x) (fun x => List.mem_cons_of_mem _ x)
    · exact h.over
    · exact h.fresh
    · exact ⟨fun _ => List.mem_cons_self, fun _ => rfl⟩
    · exact h.final
    · exact h.fin
    · intro hp
      show t.tomb = _
      rw [h.tomb (by rw [hpc]; nofun)]
      congr 1
    · refine Iff.trans ?_ (mem_cons_ne (by nofun)).symm
      rw [← h.exit, hpc]; simp [Tab.goTo]
  | recvStart cid id sf hpc => exact h.goTo _ (by simp [hpc])
  | recvStop cid id hpc =>
    exact h.neutral _ (.of_quiet rfl) rfl rfl rfl (by simp [Tab.goTo, hpc]) rfl rfl rfl rfl rfl
  | recvStarted g w hpc hg hgp =>
    have hp := h.ph g hg
    unfold PhaseOk at hp; rw [hgp] at hp
    have h1 := h.gto (t' := t.gto g.gid (.waiting w)) hs g hg (.waiting w) [] rfl (Or.inl rfl) hp
    exact h1.goTo _ (by simp [Tab.gto, hpc])
  | recvDone g e hpc hg hgp =>
    have hp := h.ph g hg
    unfold PhaseOk at hp; rw [hgp] at hp
    have h1 := h.gto (t' := t.gto g.gid (.gone e)) hs g hg (.gone e) [] rfl (Or.inl rfl) hp
    exact h1.goTo _ (by simp [Tab.gto, hpc])
  | ignored cid id sf hpc hd =>
    exact h.neutral _ (neutral_ignored cid id) rfl rfl rfl (by simp [Tab.goTo, hpc]) rfl rfl rfl rfl rfl
  | refused cid id sf i hpc hd hi =>
    exact h.neutral _ (neutral_refused cid id) rfl rfl rfl (by simp [Tab.goTo, hpc]) rfl rfl rfl rfl rfl
  | accepted cid id sf now hpc hd hi => exact h.accept hs cid id sf now hpc hi
  | stop id hpc =>
    have h1 : HInv p (t.log (.stopHandled id)) :=
      h.neutral _ (neutral_stopHandled id) rfl rfl rfl Iff.rfl rfl rfl rfl rfl rfl
    refine (h1.killLocked id).goTo _ ?_
    rw [(killLocked_rest _ _).pc]; simp [Tab.log, hpc]
  | started gid id w hpc =>
    obtain ⟨g, hg, rfl, rfl⟩ := hs.actStarted _ _ _ hpc
    obtain ⟨info, hi⟩ := Option.isSome_iff_exists.1 ((hs.known g.id).2 (List.mem_map.2 ⟨g, hg, rfl⟩))
    have h1 := h.learn g.gid g.id w info hi
    have h2 : HInv p (setWorker t g.gid g.id w) := by
      unfold setWorker; rw [hi]; simp only
      split
      · exact h1.killLocked _
      · exact h1
    refine h2.goTo _ ?_
    rw [(setWorker_rest t g.gid g.id w info hi).pc]; simp [hpc]
  | done gid id e hpc =>
    obtain ⟨g, hg, rfl, rfl, hgp⟩ := hs.actDone _ _ _ hpc
    obtain ⟨info, hi⟩ := Option.isSome_iff_exists.1 ((hs.known g.id).2 (List.mem_map.2 ⟨g, hg, rfl⟩))
    unfold workerDone
    rw [hi]
    simp only
    rcases fate_cases p info e with ⟨hf, hn⟩ | ⟨err, rfl, hfat, hf⟩ | ⟨sf, hf, hst, hn, _⟩
    · rw [hf]
      refine h.removed hs hpc hi rfl rfl rfl rfl rfl rfl ?_ rfl rfl
      rw [fatals_ended_nonfatal hn]; exact h.final
    · rw [hf]
      simp only
      have hrm : HInv p ((removeWorker (noteFatal p ((dropG t g.gid).log (.ended g.id g.gid (some err))) err) g.id
          info.rid).goTo .bcast) := by
        refine h.removed hs hpc hi rfl rfl rfl rfl rfl rfl ?_ rfl rfl
        have : fatals p.isFatal (.ended g.id g.gid (some err) :: t.hist) = err :: fatals p.isFatal t.hist := by
          simp [fatals, hfat]
        rw [this]
        exact noteFatal_final p ((dropG t g.gid).log (.ended g.id g.gid (some err))) err _ h.final
      unfold beginShutdown
      split
      · exact hrm
      · constructor
        · exact hrm.kn
        · exact hrm.inst
        · exact hrm.told
        · exact hrm.sf
        · exact hrm.gsf
        · exact hrm.opn
        · intro g hg; exact (hrm.ph g hg).frame rfl (fun _ _ x => x) (fun x => List.mem_cons_of_mem _ x)
        · exact hrm.over
        · exact hrm.fresh
        · exact ⟨fun _ => List.mem_cons_self, fun _ => rfl⟩
        · exact hrm.final
        · exact hrm.fin
        · intro hp
          refine (hrm.tomb (by simp [Tab.goTo])).trans ?_
          congr 1
        · refine Iff.trans ?_ (mem_cons_ne (by nofun)).symm
          refine Iff.trans ?_ hrm.exit
          simp [Tab.goTo]
    · rw [hf]
      simp only
      refine h.restarted hs hpc hi sf hst rfl rfl ?_ rfl rfl rfl ?_ rfl rfl
      · intro j
        simp only [spawn, Tab.setInfo, Tab.goTo, Tab.log, dropG, AMap.get?_set]
        split
        · rename_i hj; subst hj; rw [hi, ← hs.delay _ _ hi]
        · rfl
      · rw [fatals_ended_nonfatal (fun err he => (hn err he).1)]; exact h.final
  | killAll order hpc ho => exact h.goTo _ (by simp [hpc])
  | killNext id rest hpc =>
    refine (h.killLocked id).goTo _ ?_
    rw [(killLocked_rest _ _).pc]; simp [hpc]
  | killDone hpc => exact h.goTo _ (by simp [hpc])
  | reply cid r ret hpc =>
    exact h.neutral _ (.of_quiet rfl) rfl rfl rfl (by simp [Tab.goTo, hpc]) rfl rfl rfl rfl rfl
  | bcast hpc => exact h.goTo _ (by simp [hpc])
  | gDying g hg hp hd =>
    have hph := h.ph g hg
    unfold PhaseOk at hph; rw [hp] at hph
    have hk : Ev.kill ∈ t.hist := by
      have hne : t.pc ≠ .exited := by
        intro hx
        have := (hs.exited hx).2 g.id
        have hk := (hs.known g.id).2 (List.mem_map.2 ⟨g, hg, rfl⟩)
        rw [this] at hk; cases hk
      rw [h.tomb hne] at hd
      by_cases hc : t.hist.contains .kill = true
      · simpa using hc
      · rw [aliveTomb, if_neg hc] at hd; cases hd
    exact h.gto hs g hg (.sendDone none) [] rfl (Or.inl rfl) (Or.inl ⟨hph, rfl, hk⟩)
  | gTimer g hg hp =>
    have hph := h.ph g hg
    unfold PhaseOk at hph; rw [hp] at hph
    exact h.gto hs g hg .ready [] rfl (Or.inl rfl) hph
  | gCall g hg hp =>
    exact h.gto hs g hg .starting [.startCall g.id g.gid g.sf] rfl (Or.inr (Or.inl ⟨_, rfl⟩))
      (by simp [PhaseOk, Tab.log, phaseH])
  | gStartOk g w hg hp =>
    exact h.gto hs g hg (.sendStarted w) [.startOk g.id g.gid w] rfl (Or.inr (Or.inr (Or.inl ⟨_, rfl⟩)))
      (by simp [PhaseOk, Tab.log, phaseH])
  | gStartErr g e hg hp =>
    exact h.gto hs g hg (.sendDone (some e)) [.startErr g.id g.gid e] rfl (Or.inr (Or.inr (Or.inr ⟨_, rfl⟩)))
      (by simp [PhaseOk, Tab.log, phaseH])
  | gWaitRet g w e hg hp hf =>
    have hph := h.ph g hg
    unfold PhaseOk at hph; rw [hp] at hph
    exact h.gto hs g hg (.sendDone e) [] rfl (Or.inl rfl) (Or.inr (Or.inr ⟨w, hph, (h.fin w).symm.trans hf⟩))
  | take rid cid ret hm =>
    exact h.neutral _ (.of_quiet rfl) rfl rfl rfl Iff.rfl rfl rfl rfl rfl rfl
  | finish w e hf =>
    constructor
    · exact h.kn
    · exact h.inst
    · exact h.told
    · exact h.sf
    · exact h.gsf
    · exact h.opn
    · intro g hg
      refine (h.ph g hg).frame rfl (fun w' e' hw => ?_) (fun x => List.mem_cons_of_mem _ x)
      show (if w' = w then some e else finishedH t.hist w') = some e'
      rw [if_neg]
      · exact hw
      · rintro rfl; rw [← h.fin, hf] at hw; cases hw
    · exact h.over
    · exact h.fresh
    · exact h.shut.trans (mem_cons_ne (by nofun)).symm
    · exact h.final
    · intro w'
      show (t.finished.set w e).get? w' = if w' = w then some e else finishedH t.hist w'
      rw [AMap.get?_set, h.fin]
    · intro hp
      show t.tomb = _
      rw [h.tomb hp]
      congr 1
    · exact h.exit.trans (mem_cons_ne (by nofun)).symm

theorem ReachT.hinv {p : Params} {t : Tab} (h : ReachT p t) : HInv p t := by
  induction h with
  | init => exact .init p
  | step hr hT ih => exact ih.step hr.shape hT

end Verif.Runner
