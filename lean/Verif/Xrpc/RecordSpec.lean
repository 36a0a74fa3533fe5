import Verif.Xrpc.Model

/-! What a CAR file that proves a record has to contain: the specification of `com.atproto.sync.getRecord`. -/

namespace Arroba.Xrpc

open Arroba.Store

variable {C R : Type} [DecidableEq C]

/-- The paths and CIDs of the records in a node: each path is given by how much of the one before it to
keep, and the rest. -/
def nodeRecords : Key → List (EntryData C) → List (Key × C)
  | _, [] => []
  | last, e :: es => (last.take e.p ++ e.k, e.v) :: nodeRecords (last.take e.p ++ e.k) es

/-- With nothing but the blocks of `car`, the record `cid` at `path` can be traced from the node `c`: `c` is
in `car`, and it has the record or one of its children leads to it. -/
inductive Leads (car : Car C R) (path : Key) (cid : C) : C → Prop
  | here {c : C} {d : NodeData C} (h : (c, .node d) ∈ car.blocks) (hr : (path, cid) ∈ nodeRecords [] d.e) :
      Leads car path cid c
  | left {c c' : C} {d : NodeData C} (h : (c, .node d) ∈ car.blocks) (hc : d.l = some c')
      (hl : Leads car path cid c') : Leads car path cid c
  | tree {c c' : C} {d : NodeData C} {e : EntryData C} (h : (c, .node d) ∈ car.blocks) (he : e ∈ d.e)
      (hc : e.t = some c') (hl : Leads car path cid c') : Leads car path cid c

/-- `car` proves that the commit `head` has the record `r` at `path`: `head` is its root, it has the commit
and the record, and the record can be traced from the root of the commit's tree. -/
def Proves (L : Lib C R) (car : Car C R) (head : C) (path : Key) (r : R) : Prop :=
  car.roots = [head] ∧ ∃ co, (head, .commit co) ∈ car.blocks ∧
    (L.hash (.record r), .record r) ∈ car.blocks ∧ Leads car path (L.hash (.record r)) co.data

end Arroba.Xrpc
