import Verif.Storage.Model
import Mathlib.Logic.Function.Basic

/-!
# Sequence numbers under concurrency

`storage.py` 647-666 `MemorySequences` and `datastore_storage.py` 267-308 `DatastoreSequences`, with
any number of concurrent callers. `Model.lean` has the sequential version (`allocate`, `lastSeq`).
-/

namespace Arroba.Store

/-- storage.py 656-658, 663-664: `assert nsid`, then allocate. -/
def allocateCall (s : List (Key × Nat)) (nsid : Key) : Except Err (Nat × List (Key × Nat)) :=
  if nsid = [] then .error .assertion else .ok (allocate s nsid)

/-- storage.py 656-661, datastore_storage.py 278-296. Calls of `allocate`, one after the other, and
their results. -/
def allocateAll : List (Key × Nat) → List Key → List Nat × List (Key × Nat)
  | s, [] => ([], s)
  | s, k :: ks =>
    let r := allocate s k
    let rest := allocateAll r.2 ks
    (r.1 :: rest.1, rest.2)

/-! ### `DatastoreSequences`: optimistic transactions -/

/-- datastore_storage.py 278-296. Where a caller of `DatastoreSequences.allocate` is: not in a
transaction, or in one that has read the `AtpSequence` entity (its `next`, if it exists) at a certain
version. -/
inductive TxLocal where
  | idle
  | read (nsid : Key) (next : Option Nat) (version : Nat)
  deriving DecidableEq

/-- datastore_storage.py 214-228, 278-296. The `AtpSequence` entities (`next` and a version that
counts the commits to the entity), the callers, and the numbers returned so far, latest first. -/
structure TxState where
  next : Key → Option Nat
  version : Key → Nat
  threads : Nat → TxLocal
  returned : List (Key × Nat)

def TxState.init : TxState := ⟨fun _ => none, fun _ => 0, fun _ => .idle, []⟩

/-- datastore_storage.py 278-295, one transaction per call. The Datastore's contract: a transaction
reads a snapshot, and commits only if what it read has not been committed to since; otherwise it
is rolled back (and then retried or given up). -/
inductive TxStep : TxState → TxState → Prop
  | begin (s : TxState) (t : Nat) (nsid : Key) (hn : nsid ≠ []) (h : s.threads t = .idle) :
      TxStep s ⟨s.next, s.version,
        Function.update s.threads t (.read nsid (s.next nsid) (s.version nsid)), s.returned⟩
  | abort (s : TxState) (t : Nat) :
      TxStep s ⟨s.next, s.version, Function.update s.threads t .idle, s.returned⟩
  | commit (s : TxState) (t : Nat) (nsid : Key) (next : Option Nat) (version : Nat)
      (h : s.threads t = .read nsid next version) (hv : s.version nsid = version) :
      TxStep s
        ⟨Function.update s.next nsid (some (next.getD 1 + 1)),
          Function.update s.version nsid (version + 1),
          Function.update s.threads t .idle,
          (nsid, next.getD 1) :: s.returned⟩

/-- datastore_storage.py 297-308 `DatastoreSequences.last`. -/
def TxState.last (s : TxState) (nsid : Key) : Option Nat := (s.next nsid).map (· - 1)

/-! ### `MemorySequences`: threads without a lock -/

/-- storage.py 656-661. Where a thread in `MemorySequences.allocate` is. `next =
self.sequences.setdefault(nsid, 1)` is atomic; `self.sequences[nsid] += 1` is a load and a store. -/
inductive MemLocal where
  | idle
  | got (nsid : Key) (next : Nat)
  | loaded (nsid : Key) (next : Nat) (value : Nat)
  deriving DecidableEq

/-- storage.py 653-654. -/
structure MemState where
  seqs : List (Key × Nat)
  threads : List MemLocal
  returned : List (Key × Nat)

/-- storage.py 656-661: the next step of thread `t`, which is calling `allocate(nsid)`. -/
def memStep (s : MemState) (t : Nat) (nsid : Key) : MemState :=
  match s.threads[t]? with
  | some .idle =>
    let d := dictSetDefault s.seqs nsid 1
    { s with seqs := d, threads := s.threads.set t (.got nsid ((dictGet d nsid).getD 1)) }
  | some (.got k n) =>
    { s with threads := s.threads.set t (.loaded k n ((dictGet s.seqs k).getD 1)) }
  | some (.loaded k n v) =>
    { seqs := dictSet s.seqs k (v + 1), threads := s.threads.set t .idle,
      returned := (k, n) :: s.returned }
  | none => s

/-- storage.py 656-661. A schedule: which thread moves next. -/
def memRun (s : MemState) (nsid : Key) (schedule : List Nat) : MemState :=
  schedule.foldl (fun s t => memStep s t nsid) s

end Arroba.Store
