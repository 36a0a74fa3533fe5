import Mathlib.Logic.Function.Basic

/-!
# How the firehose is started (firehose.py)

Any number of threads call `start`, `subscribe` and `reset`; the collectors they start load the rollback window and then
set `started`. Every action is one atomic step of one thread.

Simplified: only whether `rollback` has been loaded matters here; what is in it is in `Model.lean` and `Preload.lean`.
`limit` and the log messages are left out. A collector that has started goes on for ever, unless a test has given a
limit (`ends`).
-/

namespace Arroba.Fire.Starting

/-- firehose.py 62-71. Where a call of `start` is. -/
inductive Caller where
  /-- not called yet -/
  | idle
  /-- firehose.py 63: before `with lock` -/
  | entered
  /-- firehose.py 70: has made a `Collector` -/
  | making
  /-- firehose.py 71: has started it -/
  | waiting
  | returned
  | raised
  deriving DecidableEq

/-- firehose.py 206-262. Where a `Collector` is. -/
inductive Thread where
  /-- firehose.py 67: made, or not yet -/
  | unborn
  /-- firehose.py 225-230 -/
  | begun
  /-- firehose.py 232-247: holds `lock` -/
  | loading
  /-- firehose.py 249-251 -/
  | loaded
  /-- firehose.py 255-343 -/
  | collecting
  /-- has raised on lines 225-251, or come to the end of a test -/
  | dead
  deriving DecidableEq

/-- `Thread.is_alive` -/
def Thread.alive : Thread → Bool
  | .unborn | .dead => false
  | _ => true

/-- firehose.py 105-114. Where a call of `subscribe` is. -/
inductive Sub where
  | idle
  /-- firehose.py 114: `started.wait()` -/
  | waiting
  /-- firehose.py 126-202 -/
  | going
  deriving DecidableEq

/-- firehose.py 40-57: the globals, and where the threads are. -/
structure State where
  /-- `collector`: which of the objects -/
  collector : Option Nat
  /-- how many `Collector` objects there are -/
  made : Nat
  started : Bool
  /-- `rollback` is not None -/
  rollback : Bool
  caller : Nat → Caller
  thread : Nat → Thread
  sub : Nat → Sub

/-- firehose.py 40-57: when the module has been loaded. -/
def State.fresh : State := ⟨none, 0, false, false, fun _ => .idle, fun _ => .unborn, fun _ => .idle⟩

/-- The steps. -/
inductive Act where
  | call (i : Nat)
  /-- firehose.py 63-67 -/
  | enter (i : Nat)
  /-- firehose.py 70 -/
  | launch (i : Nat)
  /-- firehose.py 71: `started.wait()` returns -/
  | proceed (i : Nat)
  /-- firehose.py 232: takes the lock -/
  | lock (c : Nat)
  /-- firehose.py 242-247: `rollback` is set, and the lock is given back -/
  | load (c : Nat)
  /-- firehose.py 253: `started.set()` -/
  | set (c : Nat)
  /-- an exception on lines 225-251 -/
  | fail (c : Nat)
  /-- firehose.py 259: `return`, in tests -/
  | ends (c : Nat)
  | subscribe (j : Nat)
  /-- firehose.py 114: `started.wait()` returns -/
  | begin (j : Nat)
  /-- firehose.py 74-86: a call of `reset` -/
  | reset
  deriving DecidableEq

/-- firehose.py 232: some collector holds the lock. Only the current one can. -/
def State.locked (s : State) : Bool := match s.collector with
  | some c => decide (s.thread c = .loading)
  | none => false

def State.call (s : State) (i : Nat) (l : Caller) : State := { s with caller := Function.update s.caller i l }
def State.step (s : State) (c : Nat) (l : Thread) : State := { s with thread := Function.update s.thread c l }
def State.goto (s : State) (j : Nat) (l : Sub) : State := { s with sub := Function.update s.sub j l }

/-- firehose.py 62-86, 105-114, 225-262. One step, if it is possible. -/
def act (s : State) : Act → Option State
  | .call i => if s.caller i = .idle then some (s.call i .entered) else none
  | .enter i =>
    if s.caller i = .entered ∧ s.locked = false then
      match s.collector with
      | some _ => some (s.call i .returned)
      | none => some ({ s with collector := some s.made, made := s.made + 1 }.call i .making)
    else none
  | .launch i =>
    if s.caller i = .making then
      match s.collector with
      | none => some (s.call i .raised)            -- AttributeError
      | some c =>
        if s.thread c = .unborn then some ((s.step c .begun).call i .waiting)
        else some (s.call i .raised)               -- RuntimeError: threads can only be started once
    else none
  | .proceed i => if s.caller i = .waiting ∧ s.started then some (s.call i .returned) else none
  | .lock c => if s.thread c = .begun then some (s.step c .loading) else none
  | .load c => if s.thread c = .loading then some ({ s with rollback := true }.step c .loaded) else none
  | .set c => if s.thread c = .loaded then some ({ s with started := true }.step c .collecting) else none
  | .fail c =>
    if s.thread c = .begun ∨ s.thread c = .loading ∨ s.thread c = .loaded then some (s.step c .dead) else none
  | .ends c => if s.thread c = .collecting then some (s.step c .dead) else none
  | .subscribe j => if s.sub j = .idle then some (s.goto j .waiting) else none
  | .begin j => if s.sub j = .waiting ∧ s.started then some (s.goto j .going) else none
  | .reset =>
    if s.locked then none
    else
      let s := { s with started := false }
      match s.collector with
      | some c => if (s.thread c).alive then some s   -- AssertionError
        else some { s with collector := none, rollback := false }
      | none => some { s with collector := none, rollback := false }

/-- The states that can be reached from `s₀`; `resets`: `reset` may be called. -/
inductive From (resets : Bool) (s₀ : State) : State → Prop
  | refl : From resets s₀ s₀
  | step {s s' : State} (a : Act) (h : From resets s₀ s) (hs : act s a = some s')
      (hr : resets = false → a ≠ .reset) : From resets s₀ s'

end Arroba.Fire.Starting
