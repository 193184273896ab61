import Verif.Catacomb.HistInv

/-!
# Catacomb: shutting down ends

A measure that every step of the catacomb's goroutines and of the calls in progress decreases.
-/

namespace Verif.Catacomb
open State CSpec Verif.Spec

/-- Steps that happen by themselves. The others are up to user code: new calls, the work func returning, workers finishing. -/
def Op.internal : Op → Bool
  | .callInvoke _ | .callAdd _ | .workRet _ | .killCall _ | .callErrDying | .waitCall | .finish .. => false
  | _ => true

/-- New Invoke and Add calls. -/
def Op.newCall : Op → Bool
  | .callInvoke _ | .callAdd _ => true
  | _ => false

def WPc.rank : WPc → Nat
  | .wait => 4 | .kill _ => 3 | .close => 2 | .exit => 1 | .done => 0
def KPc.rank : KPc → Nat
  | .select => 2 | .stop => 1 | .done => 0
def trank (f : AMap (Option Err)) (t : Track) : Nat := t.waiter.rank + t.killer.rank + if f.get? t.w = none then 1 else 0
def arank (a : AddCall) : Nat := match a.pc with
  | .select => 9 | .stop => 1 | .returned _ => 0
def IPc.rank (n : Nat) : IPc → Nat
  | .start => 8 * n + 22
  | .adding _ ws => 8 * ws.length + 21
  | .go => 10
  | .ok => 1
  | .failing _ ws => 3 * ws.length + 1
  | .failWait _ _ ws => 3 * ws.length + 2
  | .returned _ => 0
def irank (v : InvCall) : Nat := v.pc.rank v.plan.init.length
def LPc.rank : LPc → Nat
  | .none => 0 | .select => 1 | .adding .. => 9 | .done => 0
def GPc.rank : GPc → Nat
  | .none => 0 | .running => 8 | .kill _ => 7 | .wait => 6 | .asleep => 5 | .woken => 4 | .ret => 3 | .done => 0

/-- How much is left to do. -/
def measure (s : State) : Nat :=
  (s.tracks.map (trank s.fin)).sum + (s.adds.map arank).sum + (s.invs.map irank).sum + s.listener.rank + s.work.rank

theorem rank_wake {w : GPc} {p : Prop} [Decidable p] : (if w = .asleep ∧ p then GPc.woken else w).rank ≤ w.rank := by
  split
  · rename_i h; rw [h.1]; decide
  · exact Nat.le_refl _

theorem sum_append1 {α : Type} (f : α → Nat) (l : List α) (x : α) : ((l ++ [x]).map f).sum = (l.map f).sum + f x := by simp

theorem sum_mono {α : Type} {f g : α → Nat} {l : List α} (h : ∀ x ∈ l, f x ≤ g x) : (l.map f).sum ≤ (l.map g).sum := by
  induction l with
  | nil => exact Nat.le_refl _
  | cons x l ih =>
    simp only [List.map_cons, List.sum_cons]
    exact Nat.add_le_add (h x List.mem_cons_self) (ih (fun y hy => h y (List.mem_cons_of_mem _ hy)))

theorem sum_lt {α : Type} {f g : α → Nat} {l : List α} (h : ∀ x ∈ l, f x ≤ g x) {y : α} (hy : y ∈ l) (hlt : f y < g y) :
    (l.map f).sum < (l.map g).sum := by
  induction l with
  | nil => cases hy
  | cons x l ih =>
    simp only [List.map_cons, List.sum_cons]
    rcases List.mem_cons.1 hy with rfl | hy
    · exact Nat.add_lt_add_of_lt_of_le hlt (sum_mono (fun z hz => h z (List.mem_cons_of_mem _ hz)))
    · exact Nat.add_lt_add_of_le_of_lt (h x List.mem_cons_self) (ih (fun z hz => h z (List.mem_cons_of_mem _ hz)) hy)

theorem trank_finish (f : AMap (Option Err)) (w : Nat) (e : Option Err) (t : Track) : trank (f.set w e) t ≤ trank f t := by
  unfold trank
  by_cases hw : t.w = w
  · rw [hw, AMap.get?_set_self]; simp
  · rw [AMap.get?_set_ne _ _ hw]; exact Nat.le_refl _

theorem measure_wgDone {s : State} (hn : s.wg.n ≠ 0) (hw : s.wg.waiters = if s.work = .asleep then 1 else 0) :
    Catacomb.measure (wgDone s) ≤ Catacomb.measure s := by
  rw [wgDone_eq hn hw]
  have h1 := rank_wake (w := s.work) (p := s.wg.n = 1)
  simp only [Catacomb.measure]; omega

theorem trank_new (f : AMap (Option Err)) (w : Nat) : trank f (Track.mk w .wait .select) ≤ 7 := by
  simp only [trank, WPc.rank, KPc.rank]; split <;> omega

theorem less {p q : Prop} {a b : Nat} {c : Bool} (h : a < b) : (p → c = true ∨ a < b) ∧ (q → a ≤ b) :=
  ⟨fun _ => Or.inr h, fun _ => Nat.le_of_lt h⟩

theorem not_env {op : Op} {p : Prop} (h1 : op.internal = false) (h2 : ∀ r, op ≠ .workRet r) (h : op.internal = true ∨ ∃ r, op = .workRet r) : p := by
  rcases h with h | ⟨r, h⟩
  · rw [h1] at h; cases h
  · exact absurd h (h2 r)

/-- Every step decreases the measure, except for new calls, and for those with an effect only on the tomb or the
environment. -/
theorem T.measure {own : Nat} {s s' : State} (hS : Shape s) {op : Op} (hT : T own s op s') :
    (op.internal = true ∨ (∃ r, op = .workRet r) → s'.crashed = true ∨ Catacomb.measure s' < Catacomb.measure s) ∧
    (op.newCall = false → Catacomb.measure s' ≤ Catacomb.measure s) := by
  cases hT with
  | callInvoke p => exact ⟨not_env rfl nofun, nofun⟩
  | callAdd w => exact ⟨not_env rfl nofun, nofun⟩
  | killCall e hk => exact ⟨not_env rfl nofun, fun _ => Nat.le_refl _⟩
  | killPanics who e hw hk => exact ⟨fun _ => Or.inl (by simp [crashed, hk]), fun _ => Nat.le_refl _⟩
  | callErrDying => exact ⟨not_env rfl nofun, fun _ => Nat.le_refl _⟩
  | waitCall r hr => exact ⟨not_env rfl nofun, fun _ => Nat.le_refl _⟩
  | finish w e hf =>
    refine ⟨not_env rfl nofun, fun _ => ?_⟩
    have := sum_mono (f := trank (s.fin.set w e)) (g := trank s.fin) (l := s.tracks) (fun t _ => trank_finish _ _ _ _)
    simp only [Catacomb.measure, emit]; omega
  | iInvalid i v e hv hp he =>
    have h1 := sum_set irank (x := { v with pc := .failing (.invalid e) v.plan.init }) hv
    simp only [irank, hp, IPc.rank, List.length_cons, List.length_nil] at h1
    refine less ?_
    simp only [Catacomb.measure, setInv, emit, irank]; omega
  | iUsed i v o hv hp he ho =>
    have h1 := sum_set irank (x := { v with pc := .failing .used v.plan.init }) hv
    simp only [irank, hp, IPc.rank, List.length_cons, List.length_nil] at h1
    refine less ?_
    simp only [Catacomb.measure, setInv, emit, irank]; omega
  | iClaim i v hv hp he ho =>
    have h1 := sum_set irank (x := { v with pc := .adding 0 v.plan.init }) hv
    simp only [irank, hp, IPc.rank, List.length_cons, List.length_nil] at h1
    refine less ?_
    simp only [Catacomb.measure, setInv, emit, irank]; omega
  | iAdd i v j w ws hv hp =>
    have h1 := sum_set irank (x := { v with pc := .adding (j + 1) ws }) hv
    simp only [irank, hp, IPc.rank, List.length_cons, List.length_nil] at h1
    have hph := hS.phase hv (by rw [hp]; rfl)
    rw [hp] at hph
    have h2 := trank_new s.fin w
    unfold add
    rw [wgAdd_eq (addOk hS (Or.inl hph.2))]
    refine less ?_
    simp only [Catacomb.measure, setInv, emit, irank, sum_append1]; omega
  | iListen i v j hv hp =>
    have h1 := sum_set irank (x := { v with pc := .go }) hv
    simp only [irank, hp, IPc.rank, List.length_cons, List.length_nil] at h1
    have hph := hS.phase hv (by rw [hp]; rfl)
    rw [hp] at hph
    rw [wgAdd_eq (addOk hS (Or.inl hph.2))]
    refine less ?_
    simp only [Catacomb.measure, setInv, emit, irank, LPc.rank, hph.1]; omega
  | iGo i v hv hp =>
    have h1 := sum_set irank (x := { v with pc := .ok }) hv
    simp only [irank, hp, IPc.rank, List.length_cons, List.length_nil] at h1
    have hph := hS.phase hv (by rw [hp]; rfl)
    rw [hp] at hph
    refine less ?_
    simp only [Catacomb.measure, setInv, emit, irank, GPc.rank, hph.2]; omega
  | iOk i v hv hp =>
    have h1 := sum_set irank (x := { v with pc := .returned none }) hv
    simp only [irank, hp, IPc.rank, List.length_cons, List.length_nil] at h1
    refine less ?_
    simp only [Catacomb.measure, setInv, emit, irank]; omega
  | iSkip i v e ws hv hp =>
    have h1 := sum_set irank (x := { v with pc := .failing e ws }) hv
    simp only [irank, hp, IPc.rank, List.length_cons, List.length_nil] at h1
    refine less ?_
    simp only [Catacomb.measure, setInv, emit, irank]; omega
  | iKill i v e w ws hv hp =>
    have h1 := sum_set irank (x := { v with pc := .failWait e w ws }) hv
    simp only [irank, hp, IPc.rank, List.length_cons, List.length_nil] at h1
    refine less ?_
    simp only [Catacomb.measure, setInv, emit, irank]; omega
  | iWaitRet i v e w ws hv hp hf =>
    have h1 := sum_set irank (x := { v with pc := .failing e ws }) hv
    simp only [irank, hp, IPc.rank, List.length_cons, List.length_nil] at h1
    refine less ?_
    simp only [Catacomb.measure, setInv, emit, irank]; omega
  | iFail i v e hv hp =>
    have h1 := sum_set irank (x := { v with pc := .returned (some e) }) hv
    simp only [irank, hp, IPc.rank, List.length_cons, List.length_nil] at h1
    refine less ?_
    simp only [Catacomb.measure, setInv, emit, irank]; omega
  | aDying c a ha hp hd =>
    have h1 := sum_set arank (x := { a with pc := .stop }) ha
    simp only [arank, hp] at h1
    refine less ?_
    simp only [Catacomb.measure, setAdd, emit, arank]; omega
  | aSend c a ha hp hc hl =>
    have h1 := sum_set arank (x := { a with pc := .returned none }) ha
    simp only [arank, hp] at h1
    refine less ?_
    simp only [Catacomb.measure, setAdd, emit, arank, hl, LPc.rank]; omega
  | aErr c a e ha hp hf =>
    have h1 := sum_set arank (x := { a with pc := .returned (some (trace e)) }) ha
    simp only [arank, hp] at h1
    refine less ?_
    simp only [Catacomb.measure, setAdd, emit, arank]; omega
  | aNil c a ha hp hf =>
    have h1 := sum_set arank (x := { a with pc := .returned (some (errDying own s)) }) ha
    simp only [arank, hp] at h1
    refine less ?_
    simp only [Catacomb.measure, setAdd, emit, arank]; omega
  | lDying hl hd =>
    rw [wgDone_eq (s := { s with listener := .done }) (hS.count_pos (by rw [hl]; nofun) (by rw [hl]; nofun)) hS.waiters]
    have h1 := rank_wake (w := s.work) (p := s.wg.n = 1)
    refine less ?_
    simp only [Catacomb.measure, hl, LPc.rank]; omega
  | lAdd c w hl =>
    have h2 := trank_new s.fin w
    unfold add
    rw [wgAdd_eq (s := { s with listener := .select }) (Or.inr (hS.count_pos (by rw [hl]; nofun) (by rw [hl]; nofun)))]
    refine less ?_
    simp only [Catacomb.measure, hl, LPc.rank, sum_append1]; omega
  | tErr k t e ht hp hf =>
    have h0 : trank s.fin { t with waiter := .kill e } < trank s.fin t := by
      simp only [trank, hp, WPc.rank, KPc.rank]; omega
    have h1 := sum_set (trank s.fin) (x := { t with waiter := .kill e }) ht
    refine less ?_
    simp only [Catacomb.measure, setTrack, emit]; omega
  | tNil k t ht hp hf =>
    have h0 : trank s.fin { t with waiter := .close } < trank s.fin t := by
      simp only [trank, hp, WPc.rank, KPc.rank]; omega
    have h1 := sum_set (trank s.fin) (x := { t with waiter := .close }) ht
    refine less ?_
    simp only [Catacomb.measure, setTrack, emit]; omega
  | tKill k t e ht hp hk =>
    have h0 : trank s.fin { t with waiter := .close } < trank s.fin t := by
      simp only [trank, hp, WPc.rank, KPc.rank]; omega
    have h1 := sum_set (trank s.fin) (x := { t with waiter := .close }) ht
    refine less ?_
    simp only [Catacomb.measure, setTrack, emit]; omega
  | tClose k t ht hp =>
    have h0 : trank s.fin { t with waiter := .exit } < trank s.fin t := by
      simp only [trank, hp, WPc.rank, KPc.rank]; omega
    have h1 := sum_set (trank s.fin) (x := { t with waiter := .exit }) ht
    refine less ?_
    simp only [Catacomb.measure, setTrack, emit]; omega
  | tExit k t ht hp =>
    have h0 : trank s.fin { t with waiter := .done } < trank s.fin t := by
      simp only [trank, hp, WPc.rank, KPc.rank]; omega
    have h1 := sum_set (trank s.fin) (x := { t with waiter := .done }) ht
    refine less (Nat.lt_of_le_of_lt (measure_wgDone (hS.count_track ht (by simp [tcount, hp])) hS.waiters) ?_)
    simp only [Catacomb.measure, setTrack, emit]; omega
  | kDying k t ht hp hd =>
    have h0 : trank s.fin { t with killer := .stop } < trank s.fin t := by
      simp only [trank, hp, WPc.rank, KPc.rank]; omega
    have h1 := sum_set (trank s.fin) (x := { t with killer := .stop }) ht
    refine less ?_
    simp only [Catacomb.measure, setTrack, emit]; omega
  | kWaitRet k t ht hp hf =>
    have h0 : trank s.fin { t with killer := .done } < trank s.fin t := by
      simp only [trank, hp, WPc.rank, KPc.rank]; omega
    have h1 := sum_set (trank s.fin) (x := { t with killer := .done }) ht
    refine less (Nat.lt_of_le_of_lt (measure_wgDone (hS.count_track ht (by simp [tcount, hp])) hS.waiters) ?_)
    simp only [Catacomb.measure, setTrack, emit]; omega
  | kClosed k t ht hp hc =>
    have h0 : trank s.fin { t with killer := .done } < trank s.fin t := by
      simp only [trank, hp, WPc.rank, KPc.rank]; omega
    have h1 := sum_set (trank s.fin) (x := { t with killer := .done }) ht
    refine less (Nat.lt_of_le_of_lt (measure_wgDone (hS.count_track ht (by simp [tcount, hp])) hS.waiters) ?_)
    simp only [Catacomb.measure, setTrack, emit]; omega
  | workRet r e hw hr =>
    refine less ?_
    simp only [Catacomb.measure, emit, hw, GPc.rank]; omega
  | workExit r hw hr =>
    refine less ?_
    simp only [Catacomb.measure, emit, hw, GPc.rank]; omega
  | workKill e hw hk =>
    refine less ?_
    simp only [Catacomb.measure, emit, hw, GPc.rank]; omega
  | wgPass hw hn =>
    refine less ?_
    simp only [Catacomb.measure, emit, hw, GPc.rank]; omega
  | wgSleep hw hn =>
    refine less ?_
    simp only [Catacomb.measure, emit, hw, GPc.rank]; omega
  | wgWake hw hn =>
    refine less ?_
    simp only [Catacomb.measure, emit, hw, GPc.rank]; omega
  | goexited hw hg =>
    refine less ?_
    simp only [Catacomb.measure, emit, hw, GPc.rank]; omega
  | dead hw hg =>
    refine less ?_
    simp only [Catacomb.measure, emit, hw, GPc.rank]; omega
  | wgReused hw hn => exact ⟨fun _ => Or.inl (by simp [crashed]), fun _ => Nat.le_refl _⟩

end Verif.Catacomb
