import Verif.Py
import Mathlib.Logic.Function.Basic
import Mathlib.Logic.Relation

/-!
# `MemcacheSequences` (datastore_storage.py 311-395)

Any number of processes, each with any number of threads, that call `allocate` for one NSID. (NSIDs
only share the lock, which is not a restriction here: their counters, entities and `max_seqs` entries
are separate.) memcache commands and Datastore transactions are atomic; memcache can lose the counter
at any moment. One thread makes one call; later calls of it are further threads of the model.
-/

namespace Arroba.Mc

/-- datastore_storage.py 335-378. Where a call of `allocate` is. -/
inductive Loc where
  /-- not begun -/
  | start
  /-- datastore_storage.py 351-352: `incr` has answered None -/
  | missed
  /-- datastore_storage.py 353-355: holds `max_seqs_lock`, and has read `next - 1` -/
  | initing (v : Nat)
  /-- datastore_storage.py 359: about to call `incr` again -/
  | added
  /-- has a number -/
  | got (n : Nat)
  /-- has passed datastore_storage.py 371-373 -/
  | secured (n : Nat)
  /-- has returned the number -/
  | returned (n : Nat)
  /-- has raised without a number: TypeError on datastore_storage.py 372 when `incr` has answered None again, or a
  failure of memcache or the Datastore -/
  | failed
  /-- has raised with a number: the assertion on datastore_storage.py 375, or a failure of the Datastore -/
  | dead (n : Nat)
  deriving DecidableEq

/-- The number of a call that has one and has not returned it. -/
def Loc.num : Loc → Option Nat
  | .got n => some n
  | .secured n => some n
  | .dead n => some n
  | _ => none

/-- datastore_storage.py 311-378. The shared state. `proc` says which process a thread belongs to;
`issued`, `base` and `returned` only record what happened: all numbers that `incr` answered, the value
with which the counter was last initialized, and the numbers returned, latest first. -/
structure State where
  mc : Option Nat
  stored : Option Nat
  maxSeqs : Nat → Option Nat
  threads : Nat → Loc
  issued : List Nat
  base : Nat
  returned : List Nat

def State.init : State := ⟨none, none, fun _ => none, fun _ => .start, [], 0, []⟩

/-- datastore_storage.py 355. `AtpSequence.get_or_insert(nsid, next=1).next`. -/
def State.next (s : State) : Nat := s.stored.getD 1

def State.goto (s : State) (t : Nat) (l : Loc) : State :=
  { s with threads := Function.update s.threads t l }

variable (batch buffer : Nat) (proc : Nat → Nat)

/-- datastore_storage.py 361-369 `alloc_batch`: the new `next`. -/
def State.batched (s : State) (n : Nat) : Nat :=
  if (s.next : Int) - n < buffer then n + batch else s.next

/-- datastore_storage.py 372: a new batch is needed, as far as this process knows. -/
def State.low (s : State) (p n : Nat) : Prop := (((s.maxSeqs p).getD 0 : Nat) : Int) - n < buffer

instance (s : State) (p n : Nat) : Decidable (s.low buffer p n) :=
  inferInstanceAs (Decidable ((_ : Int) < _))

/-- datastore_storage.py 334-377 `MemcacheSequences.allocate`: the next step of a thread. -/
def run (s : State) (t : Nat) : State :=
  let p := proc t
  match s.threads t with
  | .start =>
    match s.mc with
    | none => s.goto t .missed
    | some m => { s with mc := some (m + 1), issued := (m + 1) :: s.issued }.goto t (.got (m + 1))
  | .missed =>
    { s with stored := some s.next, maxSeqs := Function.update s.maxSeqs p (some (s.next - 1)) }.goto t
      (.initing (s.next - 1))
  | .initing v =>
    match s.mc with
    | none => { s with mc := some v, base := v }.goto t .added
    | some _ => s.goto t .added
  | .added =>
    match s.mc with
    | none => s.goto t .failed
    | some m => { s with mc := some (m + 1), issued := (m + 1) :: s.issued }.goto t (.got (m + 1))
  | .got n =>
    if s.low buffer p n then
      { s with stored := some (s.batched batch buffer n),
               maxSeqs := Function.update s.maxSeqs p (some (s.batched batch buffer n)) }.goto t
        (.secured n)
    else s.goto t (.secured n)
  | .secured n =>
    if n ≠ 0 ∧ n ≤ (s.maxSeqs p).getD 0 then
      { s with returned := n :: s.returned }.goto t (.returned n)
    else s.goto t (.dead n)
  | .returned _ => s
  | .failed => s
  | .dead _ => s

/-- datastore_storage.py 353, 371. The lines that need `max_seqs_lock`. -/
def Loc.locks : Loc → Bool
  | .missed => true
  | .got _ => true
  | _ => false

/-- No thread of the process is between datastore_storage.py 353 and 358. The other critical section, lines
371-373, is one step. -/
def State.free (s : State) (p : Nat) : Prop := ∀ t v, proc t = p → s.threads t ≠ .initing v

/-- A step; `wipes` and `failing` restrict when the counter is lost, and whether transactions fail.
A failed transaction leaves `max_seqs` as `alloc_batch` has set it on datastore_storage.py 369, and raises.
A thread can also raise (or be killed) at any other point. -/
inductive Step (failing : Prop) (wipes : State → Prop) : State → State → Prop
  | run (s : State) (t : Nat) (h : (s.threads t).locks = true → s.free proc (proc t)) :
      Step failing wipes s (run batch buffer proc s t)
  | txFails (s : State) (t n : Nat) (hf : failing) (h : s.free proc (proc t))
      (ht : s.threads t = .got n) (hl : s.low buffer (proc t) n) :
      Step failing wipes s
        ({ s with maxSeqs := Function.update s.maxSeqs (proc t) (some (s.batched batch buffer n)) }.goto
          t (.dead n))
  | crash (s : State) (t : Nat) (h : ∀ n, s.threads t ≠ .returned n) :
      Step failing wipes s (s.goto t (match (s.threads t).num with
        | some n => .dead n
        | none => .failed))
  | wipe (s : State) (h : wipes s) : Step failing wipes s { s with mc := none }

def Reach (failing : Prop) (wipes : State → Prop) : State → Prop :=
  Relation.ReflTransGen (Step batch buffer proc failing wipes) State.init

end Arroba.Mc
