import Verif.Mst.Model

/-!
# Model of `MST.add_covering_proofs` (`arroba/mst.py` 871-949)

Parameters: `read` is one lookup of `Storage.read_many` (storage.py 715-718, datastore_storage.py
741-747), `none` for a block that isn't there; `dec` is `Data(**block.decoded)`, `none` for a block
that isn't an MST node. `V` is the type of blocks.

Simplification: `Data(**x)` of something else raises TypeError, `None.decoded` AttributeError; both are
`.attribute` here.
-/

namespace Arroba

variable {C V : Type} [DecidableEq C]

/-- mst.py 871-886. The dict `blocks`; the value `none` is Python's `None`. -/
abbrev Blocks (C V : Type) := List (C × Option V)

/-- mst.py 888-894 `load`, without the returned blocks: adds what is missing. -/
def coverLoad (read : C → Option V) (blocks : Blocks C V) (cids : List (Option C)) : Blocks C V :=
  dictUpdate blocks
    (((cids.filterMap id).filter fun c => (dictGet blocks c).isNone).map fun c => (c, read c))

/-- mst.py 893: `blocks.get(cid)`, with `None` for a missing key. -/
def coverGet (blocks : Blocks C V) : Option C → Option V
  | none => none
  | some c => (dictGet blocks c).join

/-- mst.py 902, 938, 946: `Data(**block.decoded)`. -/
def coverData (dec : V → Option (NodeData C)) (block : Option V) : Except Err (NodeData C) :=
  match block.bind dec with
  | some d => .ok d
  | none => .error .attribute

/-- mst.py 907-922: the loop over the entries of a node. Returns `cur_cid`, `left_cid`,
`right_cid`. -/
def coverScan (path : Key) : Key → Option C → Option C → Option C → List (EntryData C) →
    Option C × Option C × Option C
  | _, cur, left, right, [] => (cur, left, right)
  | last, cur, left, _, e :: es =>
    let key := last.take e.p ++ e.k
    match e.t with
    | none => coverScan path key cur left none es
    | some t =>
      if key = path then (none, left, some t)
      else if path < key then (cur, left, some t)
      else coverScan path key (some t) (some t) (some t) es

/-- mst.py 901-930: the loop over the layers. Returns the blocks and the last `left_block` and
`right_block`. -/
def coverDown (read : C → Option V) (dec : V → Option (NodeData C)) (path : Key) :
    Nat → Blocks C V → Option V → Except Err (Blocks C V × Option V × Option V)
  | 0, _, _ => .error .recursion
  | f + 1, blocks, curBlock => do
    let d ← coverData dec curBlock
    let (cur, left, right) := coverScan path [] d.l d.l d.l d.e
    let blocks := coverLoad read blocks [left, right, cur]
    match cur with
    | none => .ok (blocks, coverGet blocks left, coverGet blocks right)
    | some c => coverDown read dec path f blocks (coverGet blocks (some c))

/-- mst.py 939: the right-most child of a node. -/
def lastChild (d : NodeData C) : Option C :=
  match d.e.getLast? with
  | some e => e.t
  | none => d.l

/-- mst.py 935-943 (`next` is `lastChild`) and 945-947 (`next` is `NodeData.l`): follows the outermost
children to the bottom. -/
def coverSpine (read : C → Option V) (dec : V → Option (NodeData C)) (next : NodeData C → Option C) :
    Nat → Blocks C V → Option V → Except Err (Blocks C V)
  | 0, _, _ => .error .recursion
  | f + 1, blocks, block => do
    let d ← coverData dec block
    match next d with
    | none => .ok blocks
    | some c =>
      let blocks := coverLoad read blocks [some c]
      coverSpine read dec next f blocks (coverGet blocks (some c))

/-- mst.py 936 and 946: `if left_block:` -/
def coverSide (read : C → Option V) (dec : V → Option (NodeData C)) (next : NodeData C → Option C)
    (f : Nat) (blocks : Blocks C V) : Option V → Except Err (Blocks C V)
  | none => .ok blocks
  | some b => coverSpine read dec next f blocks (some b)

/-- mst.py 897-947: one operation. -/
def coverOne (read : C → Option V) (dec : V → Option (NodeData C)) (f : Nat) (root : C)
    (blocks : Blocks C V) (path : Key) : Except Err (Blocks C V) := do
  let blocks := coverLoad read blocks [some root]
  let (blocks, left, right) ← coverDown read dec path f blocks (coverGet blocks (some root))
  let blocks ← coverSide read dec lastChild f blocks left
  coverSide read dec NodeData.l f blocks right

/-- mst.py 871-949 `MST.add_covering_proofs` on a tree whose `get_pointer()` is `root`; `paths` are
the paths of the commit's operations and `blocks` is the dict passed in. -/
def addCoveringProofs (read : C → Option V) (dec : V → Option (NodeData C)) (f : Nat) (root : C) :
    List Key → Blocks C V → Except Err (Blocks C V)
  | [], blocks => .ok blocks
  | p :: ps, blocks => do
    let blocks ← coverOne read dec f root blocks p
    addCoveringProofs read dec f root ps blocks

/-- mst.py 167-188, with a storage that has only the blocks. What a reader who only has `blocks` can
read. -/
def readOnly (dec : V → Option (NodeData C)) (blocks : Blocks C V) : C → Option (NodeData C) :=
  fun c => (coverGet blocks (some c)).bind dec

end Arroba
