import Verif.Spec.History
import Mathlib.Logic.Relation

/-!
# Exactly which histories an engine can have

`After cfg h L` says that `h` may be the history of an engine so far, where `L` is what the history does not say: what the
engine's loop is still going to do before it is ready again (`Loop`), in which order it tells the dependents of each manifold,
and whose workers it has refused. Everything else that decides what may happen next is a function of the history: there are no
tables, no counters, no goroutines and no channels here.
-/

namespace Verif.Spec
open Verif.Engine

/-- Attempts begun so far. They are numbered in order. -/
def beginsH : List Ev → Nat
  | [] => 0
  | .begin .. :: h => beginsH h + 1
  | _ :: h => beginsH h

/-- The manifold an attempt is of. -/
def nameH : List Ev → Nat → Option Name
  | [], _ => none
  | e :: h, g => match e with
    | .begin n g' _ _ _ => if g = g' then some n else nameH h g
    | _ => nameH h g

/-- What the delay of the latest attempt of a manifold is computed from. -/
def delayH : List Ev → Name → Option (Int × Nat)
  | [], _ => none
  | e :: h, n => match e with
    | .begin m _ b r _ => if n = m then some (b, r) else delayH h n
    | _ => delayH h n

/-- The installed manifolds in the order in which the model lists them in a report: what changed last comes first. (In the
code a report is a map.) -/
def orderH : List Ev → List Name
  | [] => []
  | e :: h => match e with
    | .installed n _ | .begin n .. | .registered n .. | .ended n .. => n :: (orderH h).filter (· != n)
    | .cancelled g => match nameH h g with
      | some n => n :: (orderH h).filter (· != n)
      | none => orderH h
    | .uninstalled n => (orderH h).filter (· != n)
    | _ => orderH h

/-- What an attempt is given: for each declared input its worker and its Output func, as they are now. -/
def snapH (h : List Ev) (inputs : List Name) : Snapshot :=
  inputs.foldl (fun sn i =>
    { workers := sn.workers.set i (workerH h i), outputs := sn.outputs.set i ((manH h i).bind Manifold.output) }) {}

/-- What Get answers during the Start call of an attempt. -/
def answerH (cfg : Config) (sn : Snapshot) (res : Name) (out : Option Nat) : Option Err :=
  match sn.workers.get? res with
  | none => some (.wrap 1 .missing)
  | some none => some (.wrap 2 .missing)
  | some (some w) => match out with
    | none => none
    | some o => match sn.outputs.get? res with
      | some (some f) => cfg.outFn f w o
      | _ => some (.wrap 3 .missing)

/-- The line of a manifold in a report. -/
def lineH (h : List Ev) (n : Name) : ReportLine where
  name := n
  state := match openH h n with
    | none => .stopped
    | some g => if workerH h n = none then .starting else if .cancelled g ∈ h then .stopping else .started
  inputs := match manH h n with
    | some m => m.inputs
    | none => []
  startCount := countH h n
  err := errH h n
  lastStart := if startedH h n = 0 then none else some (startedH h n)
  nested := match workerH h n with
    | some (.obj _) => true
    | _ => false

/-- The report. -/
def reportH (cfg : Config) (h : List Ev) : Ev :=
  .report (decide (.kill ∈ h)) (if .kill ∈ h then worstH cfg.isFatal cfg.worstError h else none) ((orderH h).map (lineH h))

/-- A cycle among the installed manifolds. -/
def CyclicH (h : List Ev) : Prop := ∃ n, Relation.TransGen (Declares h) n n

/-- No manifold has an open attempt, except one whose worker is the engine itself. -/
def AllStopped (h : List Ev) : Prop := ∀ n, openH h n = none ∨ workerH h n = some .self

/-- A manifold that cannot be told to stop: it has no open attempt, or that has been told already. -/
def Told (h : List Ev) (n : Name) : Prop := ∀ g, openH h n = some g → .cancelled g ∈ h

/-- What the loop has to do before it is ready again. -/
inductive Duty
  /-- begin an attempt, unless the engine is dying -/
  | start (n : Name) (base : Int)
  /-- remove the manifold; from now on dependents are told in this order -/
  | remove (n : Name) (order : Name → List Name)
  /-- tell the open attempt to stop; if there is none, begin one, unless the engine is dying -/
  | tell (n : Name)

/-- What the loop is doing. -/
inductive Loop
  /-- it is ready for anything -/
  | idle
  /-- it is going to do this, unless it finds that the engine is dying -/
  | look (l : List Duty)
  /-- it is doing this -/
  | busy (l : List Duty)
  /-- it has returned -/
  | gone

/-- What the history does not say. -/
structure Hidden where
  loop : Loop := .idle
  /-- the order in which the dependents of a manifold are told -/
  deps : Name → List Name := fun _ => []
  /-- whether the worker of the open attempt was Kill()ed instead of being registered -/
  refused : Name → Bool := fun _ => false

/-- Overwrite one value of a function. -/
def put {α : Type} (f : Name → α) (n : Name) (a : α) : Name → α := fun x => if x = n then a else f x

/-- What has to be done when an attempt of `n` has ended with (filtered) error `f`. -/
def reaction (cfg : Config) (n : Name) (told : Bool) (f : Option Err) (order : Name → List Name) : List Duty :=
  if told then [.start n cfg.bounceDelay] else match f with
    | none => []
    | some r =>
      if .aborted ∈ r.tree ∨ .missing ∈ r.tree then []
      else if .bounce ∈ r.tree then [.start n cfg.bounceDelay]
      else if .uninstall ∈ r.tree then [.remove n order]
      else [.start n cfg.errorDelay]

/-- Whether the end of an attempt makes the loop remove the manifold. -/
def removes (told : Bool) (f : Option Err) : Bool :=
  !told && match f with
    | none => false
    | some r => decide (.uninstall ∈ r.tree ∧ .aborted ∉ r.tree ∧ .missing ∉ r.tree ∧ .bounce ∉ r.tree)

/-- What has to be done when an attempt has ended: first about the manifold, then about its dependents if a worker was lost. -/
def duties (cfg : Config) (deps order : Name → List Name) (n : Name) (told : Bool) (f : Option Err) (lost : Option WRef) :
    List Duty :=
  reaction cfg n told f order ++
    if lost = none then [] else (if removes told f then order n else deps n).map .tell

/-- An event after which the engine does something else before anything else can happen: the worker of an attempt told to stop
is Kill()ed, Kill of a worker that is the engine kills the engine, and a fatal error kills it. -/
def urgent (cfg : Config) : List Ev → Option Ev
  | .cancelled g :: h => match nameH h g with
    | some n => (workerH h n).map .killW
    | none => none
  | .killW .self :: _ => some .kill
  | .ended _ _ _ _ f _ _ :: _ => if cfg.isFatal f then some .kill else none
  | _ => none

/-- Events that are the answer to a call. -/
def answers : Ev → Bool
  | .installed .. | .installFailed .. | .report .. => true
  | _ => false

/-- `h'` is `h` with what has to follow at once. -/
inductive Ext (cfg : Config) : List Ev → List Ev → Prop
  | refl {h} (hu : urgent cfg h = none) : Ext cfg h h
  | step {h h' e} (hu : urgent cfg h = some e) (hx : Ext cfg (e :: h) h') : Ext cfg h h'

/-- The error of an attempt as the manifold's Filter sees it. -/
def filterOf (cfg : Config) (m : Manifold) (raw : Option Err) : Option Err :=
  match m.filter with
  | some φ => cfg.filterFn φ raw
  | none => raw

/-- How an attempt of `n` numbered `g` may end. -/
def EndsWith (h : List Ev) (L : Hidden) (n : Name) (g : Nat) (raw : Option Err) : Prop :=
  match phaseH h n with
  | .delayed => raw = some .aborted ∧ (.cancelled g ∈ h ∨ .kill ∈ h)
  | .failed e => raw = if .aborted ∈ e.tree then some .aborted else some e
  | .ok (.obj k) => .finished k raw ∈ h ∧ (workerH h n ≠ none ∨ L.refused n = true)
  | .ok .self => raw = some .tombDying ∧ .kill ∈ h ∧ (workerH h n ≠ none ∨ L.refused n = true)
  | _ => False

/-- What may happen next. -/
inductive Happens (cfg : Config) (h : List Ev) : Hidden → Ev → Hidden → Prop
  /- At any time. -/
  | kill (L) : Happens cfg h L .kill L
  | finished (L) (k e) (hk : ∀ e', .finished k e' ∉ h) : Happens cfg h L (.finished k e) L
  | refuseInstall (L) (n) (hk : .kill ∈ h) : Happens cfg h L (.installFailed n .shuttingDown) L
  | startCall (L) (n g b r fuzz) (ho : openH h n = some g) (hp : phaseH h n = .delayed)
      (hg : ∀ res out a, .get g res out a ∉ h) (hd : delayH h n = some (b, r)) (hf : 0 ≤ fuzz ∧ fuzz < 1) :
      Happens cfg h L (.startCall n g (cfg.delayFn b r fuzz)) L
  | get (L) (n g sn res out) (ho : openH h n = some g) (hp : phaseH h n = .inStart) (hb : lastBegin h n = some (g, sn)) :
      Happens cfg h L (.get g res out (answerH cfg sn res out)) L
  | getLate (L) (n g res out) (ho : openH h n = some g) (hs : phaseH h n ≠ .inStart)
      (hp : phaseH h n = .delayed → .cancelled g ∈ h ∨ .kill ∈ h) :
      Happens cfg h L (.get g res out (some .expired)) L
  | startOk (L) (n g w) (ho : openH h n = some g) (hp : phaseH h n = .inStart) : Happens cfg h L (.startOk n g w) L
  | startErr (L) (n g e) (ho : openH h n = some g) (hp : phaseH h n = .inStart) : Happens cfg h L (.startErr n g e) L
  /- A worker is refused by its own goroutine when the engine is dying, by the loop when the attempt was told to stop. -/
  | refuse (L) (n g w) (ho : openH h n = some g) (hp : phaseH h n = .ok w) (hw : workerH h n = none)
      (hr : L.refused n = false) (hc : .kill ∈ h ∨ (.cancelled g ∈ h ∧ L.loop = .idle)) :
      Happens cfg h L (.killW w) { L with refused := put L.refused n true }
  /- When the loop is ready. -/
  | installed (L) (n m) (hl : L.loop = .idle) (hm : manH h n = none) (hc : ¬ CyclicH (.installed n m :: h)) :
      Happens cfg h L (.installed n m)
        { L with loop := .busy [.start n 0], deps := fun i => L.deps i ++ List.replicate (m.inputs.count i) n }
  | already (L) (n) (hl : L.loop = .idle) (hm : manH h n ≠ none) :
      Happens cfg h L (.installFailed n (.alreadyInstalled n)) { L with loop := .busy [] }
  | cycle (L) (n m) (hl : L.loop = .idle) (hm : manH h n = none) (hc : CyclicH (.installed n m :: h)) :
      Happens cfg h L (.installFailed n (.wrap 0 .cycle)) { L with loop := .busy [] }
  | report (L) (hl : L.loop = .idle) : Happens cfg h L (reportH cfg h) { L with loop := .busy [] }
  | registered (L) (n g w now) (hl : L.loop = .idle) (hk : .kill ∉ h) (ho : openH h n = some g) (hp : phaseH h n = .ok w)
      (hw : workerH h n = none) (hr : L.refused n = false) (hc : .cancelled g ∉ h) :
      Happens cfg h L (.registered n g w now) { L with loop := .busy ((L.deps n).map .tell) }
  | ended (L) (n g now raw m order) (hl : L.loop = .idle) (ho : openH h n = some g) (he : EndsWith h L n g raw)
      (hm : manH h n = some m)
      (hv : ∀ i, (order i).Nodup ∧ ∀ d, d ∈ order i ↔ d ∈ L.deps i ∧ d ≠ n) :
      Happens cfg h L
        (.ended n g now raw (filterOf cfg m raw)
          (decide (.cancelled g ∈ h)) (workerH h n))
        { L with loop := .look (duties cfg L.deps order n (decide (.cancelled g ∈ h))
          (filterOf cfg m raw) (workerH h n)) }
  | dying (L) (n g order pre l) (hl : L.loop = .idle) (hk : .kill ∈ h) (ho : openH h n = some g) (hc : .cancelled g ∉ h)
      (hn : order.Nodup) (hi : ∀ x, x ∈ order ↔ manH h x ≠ none) (he : order = pre ++ n :: l) (hp : ∀ x ∈ pre, Told h x) :
      Happens cfg h L (.cancelled g) { L with loop := .busy (l.map .tell) }
  /- When the loop is at work. -/
  | start (L) (n b l m) (hl : L.loop = .busy (.start n b :: l)) (hk : .kill ∉ h) (hm : manH h n = some m) :
      Happens cfg h L (.begin n (beginsH h) b (recentH cfg.backoffResetTime h n) (snapH h m.inputs))
        { L with loop := .busy l, refused := put L.refused n false }
  | restart (L) (n l m) (hl : L.loop = .busy (.tell n :: l)) (ho : openH h n = none) (hk : .kill ∉ h)
      (hm : manH h n = some m) :
      Happens cfg h L (.begin n (beginsH h) cfg.bounceDelay (recentH cfg.backoffResetTime h n) (snapH h m.inputs))
        { L with loop := .busy l, refused := put L.refused n false }
  | cancelled (L) (n g l) (hl : L.loop = .busy (.tell n :: l)) (ho : openH h n = some g) (hc : .cancelled g ∉ h) :
      Happens cfg h L (.cancelled g) { L with loop := .busy l }
  | uninstalled (L) (n order l) (hl : L.loop = .busy (.remove n order :: l)) :
      Happens cfg h L (.uninstalled n) { L with loop := .busy l, deps := order }
  | exit (L) (hl : L.loop = .busy [] ∨ (L.loop = .idle ∧ ∀ n, Told h n)) (hk : .kill ∈ h) (ha : AllStopped h) :
      Happens cfg h L .exit { L with loop := .gone }

/-- What the loop does without anybody noticing. -/
inductive Silent (h : List Ev) : Loop → Loop → Prop
  | look (l) (hk : .kill ∉ h) : Silent h (.look l) (.busy l)
  | drop (l) (hk : .kill ∈ h) : Silent h (.look l) (.busy [])
  | start (n b l) (hk : .kill ∈ h) : Silent h (.busy (.start n b :: l)) (.busy l)
  | tell (n l) (ht : Told h n) (hk : openH h n = none → .kill ∈ h) : Silent h (.busy (.tell n :: l)) (.busy l)
  | ready (hn : ¬ (.kill ∈ h ∧ AllStopped h)) : Silent h (.busy []) .idle

/-- The histories of an engine, with what they do not say. -/
inductive After (cfg : Config) : List Ev → Hidden → Prop
  | new : After cfg [] {}
  | event {h L e L'} (ha : After cfg h L) (hu : urgent cfg h = none) (hs : Happens cfg h L e L') : After cfg (e :: h) L'
  | forced {h L e} (ha : After cfg h L) (hu : urgent cfg h = some e) : After cfg (e :: h) L
  | silent {h L l} (ha : After cfg h L) (hu : urgent cfg h = none) (hs : Silent h L.loop l) :
      After cfg h { L with loop := l }

end Verif.Spec
