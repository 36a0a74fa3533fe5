import Verif.Storage.Events
import Verif.Xrpc.SyncRecord

/-!
# Model of `process_event` (firehose.py 346-433): what is sent for an event

Simplified: the CAR file is its roots and blocks; `time` is left out of commits. What would be sent for a
record that looks like an event (C30) is the record.
-/

namespace Arroba.Store

variable {C R : Type} [DecidableEq C]

/-- firehose.py 388-394: one of `ops`. `prev = none`: the field is absent. -/
structure WireOp (C : Type) where
  action : List Char
  path : Key
  cid : Option C
  prev : Option (Option C)
  deriving DecidableEq

/-- firehose.py 408-422: the payload for a commit. `prevData = none`: the field is absent. -/
structure Payload (C R : Type) where
  repo : Did
  ops : List (WireOp C)
  commit : C
  blocks : Xrpc.Car C R
  seq : Nat
  rev : Key
  since : Option Key
  rebase : Bool
  blobs : List C
  tooBig : Bool
  prevData : Option C
  deriving DecidableEq

/-- firehose.py 346-433. A header and a payload; `t` is the header's `t`. Its `op` is always 1. -/
inductive Message (C R : Type) where
  | commit (t : List Char) (p : Payload C R)
  | event (t : List Char) (e : Event C)
  | record (r : R)

/-- The fragment of the event's `$type` (storage.py 474). -/
def EventKind.fragment : EventKind C → List Char
  | .account _ _ => "#account".toList
  | .identity _ => "#identity".toList
  | .sync _ _ => "#sync".toList
  | .tombstone => "#tombstone".toList

/-- storage.py 35-42: `op.action.name.lower()`. -/
def Action.name : Action → List Char
  | .create => "create".toList
  | .update => "update".toList
  | .delete => "delete".toList

/-- firehose.py 388-394. -/
def wireOp (op : CommitOp C) : WireOp C :=
  ⟨op.action.name, op.path, if op.action = .delete then none else op.cid,
    if op.action = .create then none else some op.prevCid⟩

/-- firehose.py 377-382; `decoded.get('data')`. -/
def prevData (w : World C R) (prev : Option C) (prevCommit : Option (Block C R)) : Option C :=
  match prev with
  | none => none
  | some p =>
    match prevCommit <|> w.read p with
    | some ⟨.commit co, _, _, _⟩ => some co.data
    | _ => none

/-- firehose.py 346-433 `process_event`. With `ops = None`, `add_covering_proofs` raises TypeError. -/
def processEvent (L : Lib C R) (w : World C R) (prevCommit : Option (Block C R)) :
    Sent C R → Except Err (Message C R)
  | .event (.event e) => .ok (.event e.kind.fragment e)
  | .event (.record r) => .ok (.record r)
  | .event _ => .error .assertion
  | .commit s =>
    match s.commit.val, s.commit.ops with
    | .commit co, some ops => do
      let blocks ← addCoveringProofs w.read Xrpc.asNode L.fuel co.data (ops.map (·.path)) s.blocks
      let car ← Xrpc.proofBlocks L blocks
      let rev ← Tid.intToTid 0 s.commit.seq (some 0)
      .ok (.commit "#commit".toList {
        repo := co.did
        ops := ops.map wireOp
        commit := L.hash s.commit.val
        blocks := ⟨[L.hash s.commit.val], car⟩
        seq := s.commit.seq
        rev := rev
        since := none
        rebase := false
        blobs := []
        tooBig := false
        prevData := prevData w co.prev prevCommit })
    | .commit _, none => .error .runtime
    | _, _ => .error .key

end Arroba.Store
