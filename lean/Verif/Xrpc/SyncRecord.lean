import Verif.Xrpc.Model
import Verif.Mst.Cover

/-!
Model of `com.atproto.sync.getRecord` (xrpc_sync.py 211-232).

Simplified as in Export.lean: blocks are decoded values, and their CIDs are those of the values
(`car.Block(data=…)` computes the CID from the bytes).
-/

namespace Arroba.Xrpc

open Arroba.Store

variable {C R : Type} [DecidableEq C]

/-- mst.py 902, 938, 946. `Data(**block.decoded)`. -/
def asNode (b : Block C R) : Option (NodeData C) :=
  match b.val with
  | .node d => some d
  | _ => none

/-- xrpc_sync.py 226: `car.Block(data=val.encoded) for val in proofs.values()`; AttributeError if one is
None. Also firehose.py 373-374. -/
def proofBlocks (L : Lib C R) : Blocks C (Block C R) → Except Err (List (C × Val C R))
  | [] => .ok []
  | (_, none) :: _ => .error .attribute
  | (_, some b) :: rest => do
    let bs ← proofBlocks L rest
    .ok ((L.hash b.val, b.val) :: bs)

/-- xrpc_sync.py 211-232 `get_record`. The path of the operation that is passed to
`add_covering_proofs` is the collection. -/
def syncGetRecord (cfg : Config R) (L : Lib C R) (be : Backend) (w : World C R) (did collection rkey : Key) :
    World C R × Except Err (Car C R) :=
  match load cfg be w did with
  | (w, .error e) => (w, .error e)
  | (w, .ok r) =>
    match w.heap[r]? with
    | none => (w, .error .attribute)
    | some o =>
      match Store.getRecord L w o collection rkey with
      | .error e => (w, .error e)
      | .ok none => (w, .error (.xrpc "RecordNotFound"))
      | .ok (some record) =>
        match getPointer L.env w.rd L.fuel o.mst with
        | .error e => (w, .error e)
        | .ok root =>
          match addCoveringProofs w.read asNode L.fuel root [collection] [] with
          | .error e => (w, .error e)
          | .ok proofs =>
            match proofBlocks L proofs, o.head with
            | .error e, _ => (w, .error e)
            | .ok _, none => (w, .error .attribute)
            | .ok bs, some head =>
              (w, .ok ⟨[L.hash head.val],
                (L.hash record, record) :: (L.hash head.val, head.val) :: bs⟩)

end Arroba.Xrpc
