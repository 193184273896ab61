import Verif.Catacomb.Model

/-!
# Catacomb: the transition relation case by case
-/

namespace Verif.Catacomb
open State

/-- `who` is about to call Kill(e). -/
def Calling (s : State) (who : Caller) (e : Option Err) : Prop :=
  match who with
  | .waiter k => ∃ t x, s.tracks[k]? = some t ∧ t.waiter = .kill x ∧ e = some x
  | .work => s.work = .kill e
  | .client => True

/-- The operation in which `who` calls Kill(e). -/
def Caller.op (e : Option Err) : Caller → Op
  | .waiter k => .tKill k
  | .work => .workKill
  | .client => .killCall e

/-- `step`, one constructor per case. -/
inductive T (own : Nat) (s : State) : Op → State → Prop
  | callInvoke (p : Plan) : T own s (.callInvoke p) ({ s with invs := s.invs ++ [InvCall.mk p .start] }.emit (.callInvoke s.invs.length p))
  | iInvalid (i : Nat) (v : InvCall) (e) (h : s.invs[i]? = some v) (hp : v.pc = .start) (he : v.plan.validate = some e) :
      T own s (.iBegin i) (s.setInv i { v with pc := .failing (.invalid e) v.plan.init })
  | iUsed (i : Nat) (v : InvCall) (o : Nat) (h : s.invs[i]? = some v) (hp : v.pc = .start) (he : v.plan.validate = none) (ho : s.owner = some o) :
      T own s (.iBegin i) (s.setInv i { v with pc := .failing .used v.plan.init })
  | iClaim (i : Nat) (v : InvCall) (h : s.invs[i]? = some v) (hp : v.pc = .start) (he : v.plan.validate = none) (ho : s.owner = none) :
      T own s (.iBegin i) ({ s with owner := some i }.setInv i { v with pc := .adding 0 v.plan.init } |>.emit (.claimed i))
  | iAdd (i : Nat) (v : InvCall) (j : Nat) (w : Nat) (ws : List (Option Nat)) (h : s.invs[i]? = some v) (hp : v.pc = .adding j (some w :: ws)) :
      T own s (.iAdd i) ((add s w (.init i j)).setInv i { v with pc := .adding (j + 1) ws })
  | iListen (i : Nat) (v : InvCall) (j : Nat) (h : s.invs[i]? = some v) (hp : v.pc = .adding j []) :
      T own s (.iListen i) ({ wgAdd s 1 with listener := .select }.setInv i { v with pc := .go })
  | iGo (i : Nat) (v : InvCall) (h : s.invs[i]? = some v) (hp : v.pc = .go) :
      T own s (.iGo i) ({ s with work := .running, tomb := s.tomb.go }.setInv i { v with pc := .ok } |>.emit .workCall)
  | iOk (i : Nat) (v : InvCall) (h : s.invs[i]? = some v) (hp : v.pc = .ok) :
      T own s (.iOk i) (s.setInv i { v with pc := .returned none } |>.emit (.invokeRet i none))
  | iSkip (i : Nat) (v : InvCall) (e) (ws : List (Option Nat)) (h : s.invs[i]? = some v) (hp : v.pc = .failing e (none :: ws)) :
      T own s (.iKill i) (s.setInv i { v with pc := .failing e ws })
  | iKill (i : Nat) (v : InvCall) (e) (w : Nat) (ws : List (Option Nat)) (h : s.invs[i]? = some v) (hp : v.pc = .failing e (some w :: ws)) :
      T own s (.iKill i) (s.setInv i { v with pc := .failWait e w ws } |>.emit (.killI i w))
  | iWaitRet (i : Nat) (v : InvCall) (e) (w : Nat) (ws : List (Option Nat)) (h : s.invs[i]? = some v) (hp : v.pc = .failWait e w ws) (hf : (s.fin.get? w).isSome = true) :
      T own s (.iWaitRet i) (s.setInv i { v with pc := .failing e ws })
  | iFail (i : Nat) (v : InvCall) (e) (h : s.invs[i]? = some v) (hp : v.pc = .failing e []) :
      T own s (.iFail i) (s.setInv i { v with pc := .returned (some e) } |>.emit (.invokeRet i (some e)))
  | callAdd (w : Nat) : T own s (.callAdd w) ({ s with adds := s.adds ++ [AddCall.mk w s.owner.isSome .select] }.emit (.callAdd s.adds.length w))
  | aDying (c : Nat) (a : AddCall) (h : s.adds[c]? = some a) (hp : a.pc = .select) (hd : s.dying = true) :
      T own s (.aDying c) (s.setAdd c { a with pc := .stop } |>.emit (.killA c a.w))
  | aSend (c : Nat) (a : AddCall) (h : s.adds[c]? = some a) (hp : a.pc = .select) (hc : a.chan = true) (hl : s.listener = .select) :
      T own s (.aSend c) ({ s with listener := .adding c a.w }.setAdd c { a with pc := .returned none } |>.emit (.addRet c none))
  | aErr (c : Nat) (a : AddCall) (e) (h : s.adds[c]? = some a) (hp : a.pc = .stop) (hf : s.fin.get? a.w = some (some e)) :
      T own s (.aWaitRet c) (s.setAdd c { a with pc := .returned (some (trace e)) } |>.emit (.addRet c (some (trace e))))
  | aNil (c : Nat) (a : AddCall) (h : s.adds[c]? = some a) (hp : a.pc = .stop) (hf : s.fin.get? a.w = some none) :
      T own s (.aWaitRet c) (s.setAdd c { a with pc := .returned (some (errDying own s)) } |>.emit (.addRet c (some (errDying own s))))
  | lDying (hl : s.listener = .select) (hd : s.dying = true) : T own s .lDying (wgDone { s with listener := .done })
  | lAdd (c : Nat) (w : Nat) (hl : s.listener = .adding c w) : T own s .lAdd (add { s with listener := .select } w (.add c))
  | tErr (k : Nat) (t : Track) (e) (h : s.tracks[k]? = some t) (hp : t.waiter = .wait) (hf : s.fin.get? t.w = some (some e)) :
      T own s (.tWaitRet k) (s.setTrack k { t with waiter := .kill e })
  | tNil (k : Nat) (t : Track) (h : s.tracks[k]? = some t) (hp : t.waiter = .wait) (hf : s.fin.get? t.w = some none) :
      T own s (.tWaitRet k) (s.setTrack k { t with waiter := .close })
  | tKill (k : Nat) (t : Track) (e) (h : s.tracks[k]? = some t) (hp : t.waiter = .kill e)
      (hk : (s.tomb.kill (killArg own (some e))).panicked = false) :
      T own s (.tKill k) { s.setTrack k { t with waiter := .close } with
        tomb := s.tomb.kill (killArg own (some e)), hist := .workerKill k e :: s.hist }
  | tClose (k : Nat) (t : Track) (h : s.tracks[k]? = some t) (hp : t.waiter = .close) : T own s (.tClose k) (s.setTrack k { t with waiter := .exit })
  | tExit (k : Nat) (t : Track) (h : s.tracks[k]? = some t) (hp : t.waiter = .exit) : T own s (.tExit k) (wgDone (s.setTrack k { t with waiter := .done }))
  | kDying (k : Nat) (t : Track) (h : s.tracks[k]? = some t) (hp : t.killer = .select) (hd : s.dying = true) :
      T own s (.kDying k) (s.setTrack k { t with killer := .stop } |>.emit (.killT k t.w))
  | kWaitRet (k : Nat) (t : Track) (h : s.tracks[k]? = some t) (hp : t.killer = .stop) (hf : (s.fin.get? t.w).isSome = true) :
      T own s (.kWaitRet k) (wgDone (s.setTrack k { t with killer := .done }))
  | kClosed (k : Nat) (t : Track) (h : s.tracks[k]? = some t) (hp : t.killer = .select) (hc : t.waiter = .exit ∨ t.waiter = .done) :
      T own s (.kClosed k) (wgDone (s.setTrack k { t with killer := .done }))
  | workRet (r e) (hw : s.work = .running) (hr : r.safely = some e) : T own s (.workRet r) ({ s with work := .kill e }.emit (.workRet r))
  | workExit (r) (hw : s.work = .running) (hr : r.safely = none) :
      T own s (.workRet r) ({ s with work := .wait, goexit := true }.emit (.workRet r))
  | workKill (e) (hw : s.work = .kill e) (hk : (s.tomb.kill (killArg own e)).panicked = false) :
      T own s .workKill { s with work := .wait, tomb := s.tomb.kill (killArg own e), hist := .workKill e :: s.hist }
  | wgPass (hw : s.work = .wait) (hn : s.wg.n = 0) : T own s .wgWait { s with work := .ret }
  | wgSleep (hw : s.work = .wait) (hn : s.wg.n ≠ 0) :
      T own s .wgWait { s with work := .asleep, wg := { s.wg with waiters := s.wg.waiters + 1 } }
  | wgWake (hw : s.work = .woken) (hn : s.wg = {}) : T own s .wgWake { s with work := .ret }
  | wgReused (hw : s.work = .woken) (hn : s.wg ≠ {}) : T own s .wgWake { s with wgPanic := true }
  | goexited (hw : s.work = .ret) (hg : s.goexit = true) : T own s .workEnd { s with work := .done }
  | dead (hw : s.work = .ret) (hg : s.goexit = false) :
      T own s .workEnd ({ s with work := .done, tomb := s.tomb.finish none }.emit .dead)
  | killCall (e) (hk : (s.tomb.kill (killArg own e)).panicked = false) :
      T own s (.killCall e) { s with tomb := s.tomb.kill (killArg own e), hist := .kill e :: s.hist }
  | killPanics (who : Caller) (e) (hw : Calling s who e) (hk : (s.tomb.kill (killArg own e)).panicked = true) :
      T own s (who.op e) { s with tomb := s.tomb.kill (killArg own e), hist := .killPanics who e :: s.hist }
  | callErrDying : T own s .callErrDying (s.emit (.errDying (errDying own s)))
  | waitCall (r) (hr : s.tomb.wait = some r) : T own s .waitCall (s.emit (.waitRet r))
  | finish (w : Nat) (e : Option Err) (hf : s.fin.get? w = none) : T own s (.finish w e) ({ s with fin := s.fin.set w e }.emit (.finished w e))

theorem stepInv_T {own : Nat} {s s' : State} {i : Nat} {v : InvCall} {op : Op} (h : s.invs[i]? = some v)
    (hi : op.inv? = some i) (hs : stepInv s i v op = some s') : T own s op s' := by
  cases op <;> simp only [stepInv, reduceCtorEq] at hs <;> cases hi
  · split at hs
    · rename_i hp
      split at hs
      · rename_i e he; cases hs; exact .iInvalid i v e h hp he
      · rename_i he
        split at hs
        · rename_i o ho; cases hs; exact .iUsed i v o h hp he ho
        · rename_i ho; cases hs; exact .iClaim i v h hp he ho
    · cases hs
  · split at hs
    · rename_i hp; cases hs; exact .iAdd i v _ _ _ h hp
    · cases hs
  · split at hs
    · rename_i hp; cases hs; exact .iListen i v _ h hp
    · cases hs
  · split at hs
    · rename_i hp; cases hs; exact .iGo i v h hp
    · cases hs
  · split at hs
    · rename_i hp; cases hs; exact .iOk i v h hp
    · cases hs
  · split at hs
    · rename_i hp; cases hs; exact .iSkip i v _ _ h hp
    · rename_i hp; cases hs; exact .iKill i v _ _ _ h hp
    · cases hs
  · split at hs
    · rename_i hp
      split at hs
      · rename_i hf; cases hs; exact .iWaitRet i v _ _ _ h hp hf
      · cases hs
    · cases hs
  · split at hs
    · rename_i hp; cases hs; exact .iFail i v _ h hp
    · cases hs

theorem stepAdd_T {own : Nat} {s s' : State} {c : Nat} {a : AddCall} {op : Op} (h : s.adds[c]? = some a)
    (hi : op.add? = some c) (hs : stepAdd own s c a op = some s') : T own s op s' := by
  cases op <;> simp only [stepAdd, reduceCtorEq] at hs <;> cases hi
  · split at hs
    · rename_i hp
      split at hs
      · rename_i hd; cases hs; exact .aDying c a h hp hd
      · cases hs
    · cases hs
  · split at hs
    · rename_i hp
      split at hs
      · rename_i hd; cases hs; exact .aSend c a h hp hd.1 hd.2
      · cases hs
    · cases hs
  · split at hs
    · rename_i hp
      split at hs
      · rename_i hf; cases hs; exact .aErr c a _ h hp hf
      · rename_i hf; cases hs; exact .aNil c a h hp hf
      · cases hs
    · cases hs

theorem stepTrack_T {own : Nat} {s s' : State} {k : Nat} {t : Track} {op : Op} (h : s.tracks[k]? = some t)
    (hi : op.track? = some k) (hs : stepTrack own s k t op = some s') : T own s op s' := by
  cases op <;> simp only [stepTrack, reduceCtorEq] at hs <;> cases hi
  · split at hs
    · rename_i hp
      split at hs
      · rename_i hf; cases hs; exact .tErr k t _ h hp hf
      · rename_i hf; cases hs; exact .tNil k t h hp hf
      · cases hs
    · cases hs
  · split at hs
    · rename_i e hp
      cases hs
      unfold kill
      dsimp only
      split
      · rename_i hk; exact .killPanics (.waiter k) _ ⟨t, e, h, hp, rfl⟩ hk
      · rename_i hk; exact .tKill k t e h hp (by simpa using hk)
    · cases hs
  · split at hs
    · rename_i hp; cases hs; exact .tClose k t h hp
    · cases hs
  · split at hs
    · rename_i hp; cases hs; exact .tExit k t h hp
    · cases hs
  · split at hs
    · rename_i hp
      split at hs
      · rename_i hd; cases hs; exact .kDying k t h hp hd
      · cases hs
    · cases hs
  · split at hs
    · rename_i hp
      split at hs
      · rename_i hd; cases hs; exact .kWaitRet k t h hp hd
      · cases hs
    · cases hs
  · split at hs
    · rename_i hp
      split at hs
      · rename_i hd; cases hs; exact .kClosed k t h hp hd
      · cases hs
    · cases hs

theorem stepMain_T {own : Nat} {s s' : State} {op : Op} (hs : stepMain own s op = some s') : T own s op s' := by
  cases op <;> simp only [stepMain, reduceCtorEq, Option.some.injEq] at hs
  · subst hs; exact .callInvoke _
  · subst hs; exact .callAdd _
  · split at hs
    · rename_i hl
      split at hs
      · rename_i hd; cases hs; exact .lDying hl hd
      · cases hs
    · cases hs
  · split at hs
    · rename_i hl; cases hs; exact .lAdd _ _ hl
    · cases hs
  · split at hs
    · rename_i hw
      split at hs
      · rename_i hr; cases hs; exact .workRet _ _ hw hr
      · rename_i hr; cases hs; exact .workExit _ hw hr
    · cases hs
  · split at hs
    · rename_i e hw
      cases hs
      unfold kill
      dsimp only
      split
      · rename_i hk; exact .killPanics .work _ hw hk
      · rename_i hk; exact .workKill e hw (by simpa using hk)
    · cases hs
  · split at hs
    · rename_i hw
      split at hs
      · rename_i hn; cases hs; exact .wgPass hw hn
      · rename_i hn; cases hs; exact .wgSleep hw hn
    · cases hs
  · split at hs
    · rename_i hw
      split at hs
      · rename_i hn; cases hs; exact .wgWake hw hn
      · rename_i hn; cases hs; exact .wgReused hw hn
    · cases hs
  · split at hs
    · rename_i hw
      split at hs
      · rename_i hg; cases hs; exact .goexited hw hg
      · rename_i hg; cases hs; exact .dead hw (by simpa using hg)
    · cases hs
  · subst hs
    unfold kill
    dsimp only
    split
    · rename_i hk; exact .killPanics .client _ trivial hk
    · rename_i hk; exact .killCall _ (by simpa using hk)
  · subst hs; exact .callErrDying
  · split at hs
    · rename_i hr; cases hs; exact .waitCall _ hr
    · cases hs
  · split at hs
    · rename_i hf; cases hs; exact .finish _ _ hf
    · cases hs

theorem step_T {own : Nat} {s s' : State} {op : Op} (hs : step own s op = some s') : s.crashed = false ∧ T own s op s' := by
  unfold step at hs
  split at hs
  · cases hs
  · rename_i hc
    refine ⟨by simpa using hc, ?_⟩
    split at hs
    · rename_i hi; obtain ⟨v, h, hs⟩ := Option.bind_eq_some_iff.1 hs; exact stepInv_T h hi hs
    · rename_i hi _; obtain ⟨v, h, hs⟩ := Option.bind_eq_some_iff.1 hs; exact stepAdd_T h hi hs
    · rename_i hi _ _; obtain ⟨v, h, hs⟩ := Option.bind_eq_some_iff.1 hs; exact stepTrack_T h hi hs
    · exact stepMain_T hs

end Verif.Catacomb
