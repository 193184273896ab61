import Verif.Base

/-!
# workertest/fake_watcher.go

The channel of a fake watcher, with any number of goroutines calling Ping, Close and receiving from Changes(). A Go channel is
modelled after the language specification and its runtime: a buffer, the senders waiting and the receivers waiting, in order.
The embedded worker is NewErrorWorker(nil) (fake_watcher.go:26; see `Verif.Stubs`), Stop returns nil (34-36) and Err a constant
(38-40).
-/

namespace Verif.Watcher

inductive Ev
  /-- Ping is called, returns, panics. -/
  | ping (c : Nat)
  | pingRet (c : Nat)
  | pingPanic (c : Nat)
  /-- A receive from Changes() begins, gets a value, finds the channel closed. -/
  | recv (c : Nat)
  | got (c : Nat)
  | gotClosed (c : Nat)
  /-- Close is called and returns or panics. -/
  | closed
  | closePanic
deriving DecidableEq, Repr

structure State where
  cap : Nat
  buf : Nat
  closed : Bool := false
  /-- blocked in Ping, oldest first -/
  senders : List Nat := []
  /-- blocked in a receive, oldest first -/
  receivers : List Nat := []
  /-- number of calls so far -/
  next : Nat := 0
  hist : List Ev := []
deriving DecidableEq, Repr

/-- fake_watcher.go:17-29 NewFakeWatcher. `none` is a panic: its own (18-20), or of `make` with a negative size (21). -/
def new (len preload : Int) : Option State :=
  if len < preload then none
  else if len < 0 then none
  else some { cap := len.toNat, buf := preload.toNat }

inductive Op
  | ping
  | recv
  | close
deriving DecidableEq, Repr

/-- fake_watcher.go:42-44 Ping: a send. -/
def ping (s : State) : State :=
  let c := s.next
  let s := { s with next := c + 1, hist := .ping c :: s.hist }
  if s.closed then { s with hist := .pingPanic c :: s.hist }
  else match s.receivers with
    | r :: rs => { s with receivers := rs, hist := .got r :: .pingRet c :: s.hist }
    | [] =>
      if s.buf < s.cap then { s with buf := s.buf + 1, hist := .pingRet c :: s.hist }
      else { s with senders := s.senders ++ [c] }

/-- A receive from Changes() (fake_watcher.go:30-32). -/
def recv (s : State) : State :=
  let c := s.next
  let s := { s with next := c + 1, hist := .recv c :: s.hist }
  match s.senders with
  | p :: ps => { s with senders := ps, hist := .got c :: .pingRet p :: s.hist }
  | [] =>
    if 0 < s.buf then { s with buf := s.buf - 1, hist := .got c :: s.hist }
    else if s.closed then { s with hist := .gotClosed c :: s.hist }
    else { s with receivers := s.receivers ++ [c] }

/-- fake_watcher.go:46-48 Close. -/
def close (s : State) : State :=
  if s.closed then { s with hist := .closePanic :: s.hist }
  else { s with closed := true, senders := [], receivers := [],
                hist := s.senders.map .pingPanic ++ s.receivers.map .gotClosed ++ .closed :: s.hist }

def step (s : State) : Op → State
  | .ping => ping s
  | .recv => recv s
  | .close => close s

inductive Reach (len preload : Int) : State → Prop
  | init {s : State} : new len preload = some s → Reach len preload s
  | step {s : State} (op : Op) : Reach len preload s → Reach len preload (step s op)

end Verif.Watcher
