import Verif.Xrpc.Model

/-!
Model of the repo export: `MST.load_all` (mst.py 799-847), `Storage.read_many_raw`
(storage.py 720-722, datastore_storage.py 749-812) and `com.atproto.sync.getRepo`
(xrpc_sync.py 46-67).

Simplified: blocks are decoded values, not bytes (`Store.Val`); the loop of `load_all` gets fuel, one
unit per layer of the tree. The generator is read to the end by `write_car`, so an exception in it
is an exception of the handler.
-/

namespace Arroba.Xrpc

open Arroba.Store

variable {C R : Type} [DecidableEq C]

/-- datastore_storage.py 751-813, storage.py 720-722. One item of the dict that `read_many_raw`
returns: the CID, and the block and its sequence number. -/
abbrev Raw (C R : Type) := C × Val C R × Nat

/-- storage.py 720-722. The blocks that are found, as a dict in the order of the first mention. -/
def rawDict (w : World C R) : List C → List (Raw C R) → List (Raw C R)
  | [], acc => acc
  | c :: cs, acc =>
    match w.read c with
    | none => rawDict w cs acc
    | some b => rawDict w cs (dictSet acc c (b.val, b.seq))

/-- `read_many_raw`. MemoryStorage (storage.py 720-722): AttributeError if a block is missing.
DatastoreStorage (datastore_storage.py 749-812): missing blocks are left out, and the order is that
of the responses; `ord` is any reordering. -/
def readManyRaw (be : Backend) (ord : List (Raw C R) → List (Raw C R)) (w : World C R)
    (cids : List C) : Except Err (List (Raw C R)) :=
  match be with
  | .memory =>
    if cids.all (fun c => (w.read c).isSome) then .ok (rawDict w cids []) else .error .attribute
  | .datastore => .ok (ord (rawDict w cids []))

/-- mst.py 835-837: the values of the leaves among the entries. -/
def leafValues : List (Ent C) → List C
  | [] => []
  | .leaf _ v :: es => v :: leafValues es
  | .tree _ :: es => leafValues es

/-- mst.py 838-841: the pointers of the subtrees among the entries. They were just deserialised, so
`get_pointer` returns the pointer they were made with. -/
def treePointers : List (Ent C) → List C
  | [] => []
  | .leaf _ _ :: es => treePointers es
  | .tree n :: es => n.pointer :: treePointers es

/-- mst.py 800-847. What one round of the loop contributes: the blocks yielded, the record CIDs and
the CIDs to fetch next. -/
structure Round (C R : Type) where
  yields : List (C × Val C R)
  records : List C
  fetch : List C

/-- mst.py 826-841: the loop over one batch of blocks. A block that isn't a node can't be passed to
`Data`. -/
def loadRound (start : Int) : List (Raw C R) → Except Err (Round C R)
  | [] => .ok ⟨[], [], []⟩
  | (c, v, seq) :: rest =>
    if (seq : Int) < start then loadRound start rest
    else match v with
      | .node d =>
        match loadRound start rest with
        | .error e => .error e
        | .ok r =>
          let entries := deserializeNodeData d none
          .ok ⟨(c, v) :: r.yields, leafValues entries ++ r.records, treePointers entries ++ r.fetch⟩
      | _ => .error .attribute

/-- mst.py 821-847: the loop of `load_all`, with the blocks still to fetch and the records found so
far. `ord` may differ from call to call. -/
def loadAllLoop (be : Backend) (ord : Nat → List (Raw C R) → List (Raw C R)) (w : World C R)
    (start : Int) : Nat → List C → List C → Except Err (List (C × Val C R))
  | f, [], records =>
    match readManyRaw be (ord f) w records with
    | .error e => .error e
    | .ok items => .ok (items.map (fun i => (i.1, i.2.1)))
  | 0, _ :: _, _ => .error .recursion
  | f + 1, fetch, records =>
    match readManyRaw be (ord f) w fetch with
    | .error e => .error e
    | .ok items =>
      match loadRound start items with
      | .error e => .error e
      | .ok r =>
        match loadAllLoop be ord w start f r.fetch (records ++ r.records) with
        | .error e => .error e
        | .ok rest => .ok (r.yields ++ rest)

/-- mst.py 799-847 `MST.load_all`. -/
def loadAll (L : Lib C R) (be : Backend) (ord : Nat → List (Raw C R) → List (Raw C R))
    (w : World C R) (start : Int) (n : Node C) : Except Err (List (C × Val C R)) :=
  match getPointer L.env w.rd L.fuel n with
  | .error e => .error e
  | .ok c => loadAllLoop be ord w start L.fuel [c] []

/-- xrpc_sync.py 51-59: what decides whether the method is disabled. -/
structure Gate where
  /-- `util.DISABLE_GETREPO` -/
  disabled : Bool
  /-- called from arroba itself -/
  internal : Bool
  /-- the request has the `GETREPO_TOKEN` -/
  authed : Bool
  /-- the repo was created more than 12 hours ago -/
  old : Bool

/-- xrpc_sync.py 46-58. -/
def Gate.closed (g : Gate) : Bool := g.disabled && !g.internal && !g.authed && g.old

/-- xrpc_sync.py 61: the sequence number to start from. -/
def sinceSeq : Option Key → Except Err Int
  | some (c :: cs) => Tid.tidToInt (.str (c :: cs))
  | _ => .ok 0

/-- xrpc_sync.py 46-67 `get_repo`. -/
def getRepo (cfg : Config R) (L : Lib C R) (be : Backend)
    (ord : Nat → List (Raw C R) → List (Raw C R)) (g : Gate) (w : World C R) (did : Key)
    (since : Option Key) : World C R × Except Err (Car C R) :=
  match load cfg be w did with
  | (w, .error e) => (w, .error e)
  | (w, .ok r) =>
    if g.closed then (w, .error .notImpl)
    else match sinceSeq since with
      | .error e => (w, .error e)
      | .ok start =>
        match w.heap[r]? with
        | none => (w, .error .attribute)
        | some o =>
          match o.head with
          | none => (w, .error .attribute)
          | some head =>
            match loadAll L be ord w start o.mst with
            | .error e => (w, .error e)
            | .ok blocks =>
              (w, .ok ⟨[L.hash head.val], (L.hash head.val, head.val) :: blocks⟩)

end Arroba.Xrpc
