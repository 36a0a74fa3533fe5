import Verif.Firehose.Model

/-!
# When the collector looks for new events (firehose.py)

The model of `Model.lean` with a clock. Added are the waiting of the collector for `new_events`, with its timeout, its
sleeping between two passes, and `send_events`.

Assumed about the machine: a thread that can go on does so within `lag`, and one pass over the new events takes at
most `pass`.
-/

namespace Arroba.Fire

/-- What the machine and the settings say about time. -/
structure Pace where
  /-- SUBSCRIBE_REPOS_BATCH_DELAY, firehose.py 33 -/
  batch : Int
  /-- how long it takes at most until a thread that can go on does so -/
  lag : Int
  /-- how long one pass of the collector takes at most, firehose.py 286-341 -/
  pass : Int
  batch_nonneg : 0 ≤ batch
  lag_nonneg : 0 ≤ lag
  pass_nonneg : 0 ≤ pass

/-- firehose.py 259-343. Where the collector's thread is. -/
inductive Mode where
  /-- firehose.py 262, 343: in `time.sleep`, which ends at `till` -/
  | asleep (till : Int)
  /-- firehose.py 279-283: before `new_events.wait`, since `since` -/
  | ready (since : Int)
  /-- firehose.py 284: in `new_events.wait`, which times out at `till` -/
  | blocked (till : Int)
  /-- firehose.py 284: has been notified, or the time is out, at `since` -/
  | woken (since : Int)
  /-- firehose.py 286-341: began to read at `since` -/
  | reading (since : Int)
  deriving DecidableEq

/-- The firehose, and the time. -/
structure Timed where
  s : State
  now : Int
  mode : Mode

/-- The time when the collector's thread has left this place at the latest. -/
def Mode.leaves (p : Pace) : Mode → Int
  | .asleep u => u + p.lag
  | .ready t => t + p.lag
  | .blocked u => u + p.lag
  | .woken t => t + p.lag
  | .reading t => t + p.pass

/-- The steps. -/
inductive TAct where
  /-- time passes -/
  | tick (d : Int)
  /-- firehose.py 89-92: a call of `send_events` -/
  | notify
  /-- firehose.py 262, 343: `time.sleep` returns -/
  | rise
  /-- firehose.py 283-284: the collector begins to wait -/
  | block
  /-- firehose.py 284: the time is out -/
  | timeout
  /-- a step of `Model.lean` -/
  | fire (a : Act)

/-- firehose.py 89-92. `notify_all` wakes the threads that are waiting; nothing remembers that it was called. -/
def Timed.notify (T : Timed) : Timed := match T.mode with
  | .blocked _ => { T with mode := .woken T.now }
  | _ => T

/-- The clock that a step of `Model.lean` has read, if it has. -/
def Act.clock : Act → Option Int
  | .decide now | .fail now | .crash now => some now
  | _ => none

/-- firehose.py 284-343. Where the collector's thread is after its step that led to `s'`. -/
def Timed.goOn (p : Pace) (T : Timed) (s' : State) : Timed := match s'.col with
  | .waiting => { T with s := s', mode := .asleep (T.now + p.batch) }
  | _ => { T with s := s' }

/-- firehose.py 89-92, 259-343. One step, if it is possible. -/
def timed (cfg : Cfg) (gc : Bool) (p : Pace) (T : Timed) : TAct → Option Timed
  | .tick d => if 0 ≤ d ∧ T.now + d ≤ T.mode.leaves p then some { T with now := T.now + d } else none
  | .notify => some T.notify
  | .rise => match T.mode with
    | .asleep u => if u ≤ T.now then some { T with mode := .ready T.now } else none
    | _ => none
  | .block => match T.mode with
    | .ready _ => some { T with mode := .blocked (T.now + cfg.delay) }
    | _ => none
  | .timeout => match T.mode with
    | .blocked u => if u ≤ T.now then some { T with mode := .woken T.now } else none
    | _ => none
  | .fire .wake => match T.mode with
    | .woken _ => (act cfg gc T.s .wake).map (fun s' => { T with s := s', mode := .reading T.now })
    | _ => none
  | .fire a =>
    if a.clock = none ∨ a.clock = some T.now then
      match T.s.col with
      | .waiting => (act cfg gc T.s a).map (fun s' => { T with s := s' })
      | _ => (act cfg gc T.s a).map (T.goOn p)
    else none

/-- What the collector reads is what was stored at some time (C34). `stored` has the newest event first. -/
def Act.honest (s : State) (a : Act) : Prop :=
  ∀ e sc, a = .read e → s.col = .scanning sc →
    ∃ t, t <:+ s.stored ∧ e ∈ t ∧ ∀ m ∈ t, sc.pos ≤ m.seq → e.seq ≤ m.seq

/-- The states that can be reached from `T₀`. If `clean`, the collector raises no exception meanwhile. -/
inductive Runs (cfg : Cfg) (gc : Bool) (p : Pace) (clean : Bool) (T₀ : Timed) : Timed → Prop
  | refl : Runs cfg gc p clean T₀ T₀
  | step {T T' : Timed} (a : TAct) (h : Runs cfg gc p clean T₀ T) (hs : timed cfg gc p T a = some T')
      (hh : ∀ a', a = .fire a' → a'.honest T.s)
      (hc : clean = true → (∀ now, a ≠ .fire (.fail now)) ∧ ∀ now, a ≠ .fire (.crash now)) :
      Runs cfg gc p clean T₀ T'

/-- The states that can be reached when the collector starts at `now`. -/
def Timed.Reached (cfg : Cfg) (gc : Bool) (p : Pace) (T : Timed) : Prop :=
  ∃ stored events last now, Starts cfg stored events ∧
    Runs cfg gc p false ⟨.init cfg.window stored events last now, now, .ready now⟩ T

end Arroba.Fire
