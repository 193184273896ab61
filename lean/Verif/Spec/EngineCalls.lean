import Verif.Spec.EngineClients

/-!
# Exactly which logs an engine and its clients can have

`CAfter cfg h L o` says that `h` may be the log so far of an engine and the calls on it, where `L` is what the history of the
engine does not say (as in `After`), and `o` is the call that is going to be given an answer of the loop, and that answer.
-/

namespace Verif.Spec
open Verif.Engine

/-- How many calls have begun. They are numbered in order. -/
def callsH (h : List CEv) : Nat := h.countP (fun
  | .call .. => true
  | _ => false)

/-- What Wait returns. -/
def waitedH (cfg : Config) (h : List Ev) : Option Err := (cfg.filter.getD id) (worstH cfg.isFatal cfg.worstError h)

/-- The logs of an engine and its clients, with what they do not say. -/
inductive CAfter (cfg : Config) : List CEv → Hidden → Option (Nat × Res) → Prop
  | new : CAfter cfg [] {} none
  /- At any time a client calls. -/
  | call {h L o} (ha : CAfter cfg h L o) (hu : urgent cfg (engOf h) = none) (q : Req) :
      CAfter cfg (.call (callsH h) q :: h) L o
  /- What is not the answer to a call happens as if there were no calls, except that the loop does not return before it has handed
  over its answer. -/
  | event {h L o e L'} (ha : CAfter cfg h L o) (hu : urgent cfg (engOf h) = none) (hs : Happens cfg (engOf h) L e L')
      (hn : answers e = false) (hx : e = .exit → o = none) : CAfter cfg (.eng e :: h) L' o
  | forced {h L o e} (ha : CAfter cfg h L o) (hu : urgent cfg (engOf h) = some e) : CAfter cfg (.eng e :: h) L o
  /- Nor does it become ready again. -/
  | silent {h L o l} (ha : CAfter cfg h L o) (hu : urgent cfg (engOf h) = none) (hs : Silent (engOf h) L.loop l)
      (hx : l = .idle → o = none) : CAfter cfg h { L with loop := l } o
  /- The loop decides what it is going to answer to a call that has not returned. -/
  | taken {h L e L' c q r} (ha : CAfter cfg h L none) (hu : urgent cfg (engOf h) = none) (hs : Happens cfg (engOf h) L e L')
      (ho : Open h c q) (hr : Right cfg h q e r) : CAfter cfg (.eng e :: h) L' (some (c, r))
  /- It hands the answer over when it has done what there was to do. -/
  | handed {h L c r} (ha : CAfter cfg h L (some (c, r))) (hu : urgent cfg (engOf h) = none) (hl : L.loop = .busy []) :
      CAfter cfg (.ret c r :: h) L none
  /- An Install that is not being answered finds that the engine is dying. -/
  | refused {h L o c n m} (ha : CAfter cfg h L o) (hu : urgent cfg (engOf h) = none) (ho : Open h c (.install n m))
      (hc : ∀ r, o ≠ some (c, r)) (hk : .kill ∈ engOf h) :
      CAfter cfg (.ret c (.err .shuttingDown) :: .eng (.installFailed n .shuttingDown) :: h) L o
  /- After the end. -/
  | stopped {h L o c} (ha : CAfter cfg h L o) (hu : urgent cfg (engOf h) = none) (ho : Open h c .report) (hx : .exit ∈ engOf h) :
      CAfter cfg (.ret c (.stopped (waitedH cfg (engOf h)) ((orderH (engOf h)).map (lineH (engOf h)))) :: h) L o
  | waited {h L o c} (ha : CAfter cfg h L o) (hu : urgent cfg (engOf h) = none) (ho : Open h c .wait) (hx : .exit ∈ engOf h) :
      CAfter cfg (.ret c (.waited (waitedH cfg (engOf h))) :: h) L o

end Verif.Spec
