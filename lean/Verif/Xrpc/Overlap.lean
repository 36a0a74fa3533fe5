import Verif.Xrpc.Export
import Verif.Xrpc.Import
import Verif.Storage.Exec

/-!
# `getRepo` while other requests are served

`load_all` is a generator that reads the tree one layer at a time, and `write_car` reads it to the end
(mst.py 821-847, xrpc_sync.py 61-67). Each read sees the storage of its own time: `ws` has the worlds of the
reads of layers, by the fuel that is left then, and `wl` is the world of the read of the records.
-/

namespace Arroba.Xrpc

open Arroba.Store

variable {C R : Type} [DecidableEq C]

/-- mst.py 821-847: the loop of `load_all`, with reads at different times. -/
def loadAllLoopAt (be : Backend) (ord : Nat → List (Raw C R) → List (Raw C R)) (ws : Nat → World C R)
    (wl : World C R) (start : Int) : Nat → List C → List C → Except Err (List (C × Val C R))
  | f, [], records =>
    match readManyRaw be (ord f) wl records with
    | .error e => .error e
    | .ok items => .ok (items.map (fun i => (i.1, i.2.1)))
  | 0, _ :: _, _ => .error .recursion
  | f + 1, fetch, records =>
    match readManyRaw be (ord f) (ws f) fetch with
    | .error e => .error e
    | .ok items =>
      match loadRound start items with
      | .error e => .error e
      | .ok r =>
        match loadAllLoopAt be ord ws wl start f r.fetch (records ++ r.records) with
        | .error e => .error e
        | .ok rest => .ok (r.yields ++ rest)

/-- mst.py 799-847 `MST.load_all`. -/
def loadAllAt (L : Lib C R) (be : Backend) (ord : Nat → List (Raw C R) → List (Raw C R))
    (w : World C R) (ws : Nat → World C R) (wl : World C R) (start : Int) (n : Node C) :
    Except Err (List (C × Val C R)) :=
  match getPointer L.env w.rd L.fuel n with
  | .error e => .error e
  | .ok c => loadAllLoopAt be ord ws wl start L.fuel [c] []

/-- xrpc_sync.py 46-67 `get_repo`: the repo is loaded in `w`, and the blocks are read later. -/
def getRepoAt (cfg : Config R) (L : Lib C R) (be : Backend)
    (ord : Nat → List (Raw C R) → List (Raw C R)) (g : Gate) (w : World C R) (ws : Nat → World C R)
    (wl : World C R) (did : Key) (since : Option Key) : World C R × Except Err (Car C R) :=
  match load cfg be w did with
  | (w, .error e) => (w, .error e)
  | (w, .ok r) =>
    if g.closed then (w, .error .notImpl)
    else match sinceSeq since with
      | .error e => (w, .error e)
      | .ok start =>
        match w.heap[r]? with
        | none => (w, .error .attribute)
        | some o =>
          match o.head with
          | none => (w, .error .attribute)
          | some head =>
            match loadAllAt L be ord w ws wl start o.mst with
            | .error e => (w, .error e)
            | .ok blocks =>
              (w, .ok ⟨[L.hash head.val], (L.hash head.val, head.val) :: blocks⟩)

/-- What may happen in the meantime: any API calls, and imports of repos. -/
inductive Meanwhile (cfg : Config R) (L : Lib C R) (be : Backend) : World C R → World C R → Prop
  | none (w : World C R) : Meanwhile cfg L be w w
  | step {w w' w'' : World C R} (h : Meanwhile cfg L be w w') (hs : Step L be .all w' w'') :
      Meanwhile cfg L be w w''
  | import {w w' : World C R} (h : Meanwhile cfg L be w w') (out : Outside C) (header : Option Key)
      (file : Except Err (Car C R)) : Meanwhile cfg L be w (importRepo cfg L be out w' header file).1

end Arroba.Xrpc
