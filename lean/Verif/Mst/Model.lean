import Verif.Py

/-!
# Model of `arroba/mst.py`

Mirrors the Python class `MST` including its caches: a node may or may not have its
`entries` loaded, its `layer` hint may be missing, and its `pointer` may be outdated.

Parameters (trusted base):
* `Env.zeros`: `leading_zeros_on_hash` (mst.py 952-977) as a function on keys;
* `Env.H`: `dag_cbor_cid` (util.py 67-78) restricted to serialised MST nodes;
* `rd : C → Option (NodeData C)`: `Data(**storage.read(cid).decoded)`; `none` stands for
  a missing block (`None.decoded`: AttributeError) or one that is not an MST node.

Simplifications common to all definitions:
* Python recursion is modelled with an explicit `fuel` (`.error .recursion` at 0).
* In-place cache writes on `self` (`self.entries`, `self.layer`, `self.pointer`) that do
  not flow into the returned value are not returned. The theorems quantify over *all*
  admissible cache states, so they cover the states after any such write.
* Generators are modelled by the list of everything they yield.
* CBOR byte strings `k` are identified with their ASCII text.
-/

namespace Arroba

variable {C : Type}

/-- mst.py 65-70 `Entry`. (`p` is a natural number; `k` is the ASCII text of the bytes.) -/
structure EntryData (C : Type) where
  p : Nat
  k : Key
  v : C
  t : Option C
  deriving DecidableEq, Repr

/-- mst.py 72-75 `Data`. -/
structure NodeData (C : Type) where
  l : Option C
  e : List (EntryData C)
  deriving DecidableEq, Repr

mutual
/-- An element of `MST.entries`: a `Leaf` (mst.py 77-80) or an `MST`. -/
inductive Ent (C : Type) where
  | leaf (k : Key) (v : C)
  | tree (n : Node C)
/-- mst.py 83-114: class `MST`. `entries = none` means "not loaded". -/
inductive Node (C : Type) where
  | mk (entries : Option (List (Ent C))) (pointer : C) (layer : Option Int)
      (outdated : Bool)
end

/-- mst.py 99-114. -/
def Node.entries : Node C → Option (List (Ent C)) | .mk e _ _ _ => e
/-- mst.py 99-114. -/
def Node.pointer : Node C → C | .mk _ p _ _ => p
/-- mst.py 99-114. -/
def Node.layer : Node C → Option Int | .mk _ _ l _ => l
/-- mst.py 99-114. -/
def Node.outdated : Node C → Bool | .mk _ _ _ o => o

/-- `self.layer = l` (mst.py 229-231, 254-255). -/
def Node.setLayer (n : Node C) (l : Int) : Node C :=
  .mk n.entries n.pointer (some l) n.outdated

/-- mst.py 77-80. -/
def Ent.isLeaf : Ent C → Bool | .leaf _ _ => true | .tree _ => false

/-- mst.py 361-459. `isinstance(e, Leaf) and e.key == key`, together with the leaf's value. -/
def leafHit (key : Key) : Option (Ent C) → Option C
  | some (.leaf k v) => if k = key then some v else none
  | _ => none

/-- mst.py 361-459. `isinstance(e, MST)`, together with the subtree. -/
def asTree : Option (Ent C) → Option (Node C)
  | some (.tree n) => some n
  | _ => none

/-- mst.py 952-977 (`zeros`) and 1078-1086 (`cid`). The hash environment. -/
structure Env (C : Type) where
  /-- `leading_zeros_on_hash` -/
  zeros : Key → Nat
  /-- `dag_cbor_cid` of a serialised node -/
  H : NodeData C → C

/-- mst.py 63: membership in the character class of `_VALID_KEY_RE`,
`[a-zA-Z0-9_\-:.]`. -/
def validKeyChar (c : Char) : Bool :=
  ('a' ≤ c && c ≤ 'z') || ('A' ≤ c && c ≤ 'Z') || ('0' ≤ c && c ≤ '9') ||
  c = '_' || c = '-' || c = ':' || c = '.'

/-- mst.py 63, 1102-1103. `_VALID_KEY_RE.fullmatch(s)` (one or more characters of the class). -/
def keyPartMatches (s : Key) : Bool := !s.isEmpty && s.all validKeyChar

/-- mst.py 1089-1105 `ensure_valid_key` as a test: true iff it does not raise. -/
def validKey (key : Key) : Bool :=
  decide (key.length ≤ 256) &&
  match pySplit '/' key with
  | [a, b] => !a.isEmpty && !b.isEmpty && keyPartMatches a && keyPartMatches b
  | _ => false

/-- mst.py 1089-1105. -/
def ensureValidKey (key : Key) : Except Err Unit :=
  if validKey key then .ok () else .error .value

/-- mst.py 993-1020: the loop over `data.e`. -/
def deserializeEntries (layer : Option Int) : Key → List (EntryData C) → List (Ent C)
  | _, [] => []
  | lastKey, e :: es =>
    let key := lastKey.take e.p ++ e.k
    .leaf key e.v ::
      ((match e.t with
        | some c => [.tree (.mk none c (layer.map (· - 1)) false)]
        | none => []) ++ deserializeEntries layer key es)

/-- mst.py 993-1020 `deserialize_node_data`. -/
def deserializeNodeData (d : NodeData C) (layer : Option Int) : List (Ent C) :=
  (match d.l with
    | some c => [.tree (.mk none c (layer.map (· - 1)) false)]
    | none => []) ++ deserializeEntries layer [] d.e

/-- mst.py 1039-1061: the loop of `serialize_node_data`; `gp` is `get_pointer`. -/
def serializeEntries (gp : Node C → Except Err C) :
    Key → List (Ent C) → Except Err (List (EntryData C))
  | _, [] => .ok []
  | _, .tree _ :: _ => .error .value
  | lastKey, .leaf k v :: .tree n :: rest => do
    let t ← gp n
    ensureValidKey k
    let p := commonPrefixLen lastKey k
    let es ← serializeEntries gp k rest
    .ok (⟨p, k.drop p, v, some t⟩ :: es)
  | lastKey, .leaf k v :: rest => do
    ensureValidKey k
    let p := commonPrefixLen lastKey k
    let es ← serializeEntries gp k rest
    .ok (⟨p, k.drop p, v, none⟩ :: es)

/-- mst.py 1023-1063 `serialize_node_data`. -/
def serializeNodeData (gp : Node C → Except Err C) : List (Ent C) → Except Err (NodeData C)
  | .tree n :: rest => do
    let l ← gp n
    let e ← serializeEntries gp [] rest
    .ok ⟨some l, e⟩
  | es => do
    let e ← serializeEntries gp [] es
    .ok ⟨none, e⟩

/-- mst.py 980-990 `layer_for_entries`. -/
def layerForEntries (E : Env C) : List (Ent C) → Option Int
  | [] => none
  | .leaf k _ :: _ => some (E.zeros k)
  | .tree _ :: rest => layerForEntries E rest

section
variable (E : Env C) (rd : C → Option (NodeData C))

/-- mst.py 167-188 `MST.get_entries`. The layer hint passed on comes from the first
entry's bytes `k` (its prefix length is 0 in a well-formed node). -/
def getEntries (n : Node C) : Except Err (List (Ent C)) :=
  match n.entries with
  | some es => .ok es
  | none =>
    match rd n.pointer with
    | none => .error .attribute
    | some d =>
      let layer : Option Int := match d.e with
        | [] => none
        | e :: _ => some (E.zeros e.k)
      .ok (deserializeNodeData d layer)

/-- mst.py 203-208: forces the pointers of the outdated children, in order. -/
def forcePointers (gp : Node C → Except Err C) : List (Ent C) → Except Err Unit
  | [] => .ok ()
  | .leaf _ _ :: rest => forcePointers gp rest
  | .tree n :: rest => do
    if n.outdated then
      let _ ← gp n
      forcePointers gp rest
    else forcePointers gp rest

/-- mst.py 190-215 `MST.get_pointer` (result only; 1078-1086 `cid_for_entries` inlined). -/
def getPointer : Nat → Node C → Except Err C
  | 0, _ => .error .recursion
  | f + 1, n =>
    if n.outdated then do
      let es ← getEntries E rd n
      forcePointers (getPointer f) es
      let d ← serializeNodeData (getPointer f) es
      .ok (E.H d)
    else .ok n.pointer

/-- mst.py 206: only outdated children are refreshed. -/
def refreshOne (rec : Node C → Except Err (Node C)) (n : Node C) : Except Err (Node C) :=
  if n.outdated then rec n else .ok n

/-- mst.py 205-208: the children after the loop of `get_pointer`. -/
def refreshKids (rec : Node C → Except Err (Node C)) : List (Ent C) → Except Err (List (Ent C))
  | [] => .ok []
  | .leaf k v :: rest => do
    let r ← refreshKids rec rest
    .ok (.leaf k v :: r)
  | .tree n :: rest => do
    let n' ← refreshOne rec n
    let r ← refreshKids rec rest
    .ok (.tree n' :: r)

/-- mst.py 190-215: the in-place effect of `MST.get_pointer` on the object and its loaded
descendants (the result is modelled by `getPointer`). -/
def refresh : Nat → Node C → Except Err (Node C)
  | 0, _ => .error .recursion
  | f + 1, n =>
    if n.outdated then do
      let es ← getEntries E rd n
      let es' ← refreshKids (refresh f) es
      let d ← serializeNodeData (getPointer E rd f) es'
      .ok (.mk (some es') (E.H d) n.layer false)
    else .ok n

/-- mst.py 1078-1086 `cid_for_entries`. -/
def cidForEntries (fuel : Nat) (es : List (Ent C)) : Except Err C := do
  let d ← serializeNodeData (getPointer E rd fuel) es
  .ok (E.H d)

/-- mst.py 247-252: the search for a child with a known layer. -/
def childLayer (agl : Node C → Except Err (Option Int)) :
    List (Ent C) → Except Err (Option Int)
  | [] => .ok none
  | .leaf _ _ :: rest => childLayer agl rest
  | .tree n :: rest => do
    match ← agl n with
    | some l => .ok (some (l + 1))
    | none => childLayer agl rest

/-- mst.py 235-257 `MST.attempt_get_layer`. -/
def attemptGetLayer : Nat → Node C → Except Err (Option Int)
  | 0, _ => .error .recursion
  | f + 1, n =>
    match n.layer with
    | some l => .ok (some l)
    | none => do
      let es ← getEntries E rd n
      match layerForEntries E es with
      | some l => .ok (some l)
      | none => childLayer (attemptGetLayer f) es

/-- mst.py 217-233 `MST.get_layer`. -/
def getLayer (fuel : Nat) (n : Node C) : Except Err Int := do
  match ← attemptGetLayer E rd fuel n with
  | some l => .ok l
  | none => .ok 0

/-- mst.py 120-135 `MST.create`. -/
def create (fuel : Nat) (es : List (Ent C)) (layer : Option Int) : Except Err (Node C) := do
  let p ← cidForEntries E rd fuel es
  .ok (.mk (some es) p layer false)

/-- mst.py 116-118 `MST.load`. -/
def load (cid : C) : Node C := .mk none cid none false

/-- mst.py 149-161 `MST.new_tree`: keeps the (stale) pointer and the layer hint. -/
def newTree (n : Node C) (es : List (Ent C)) : Node C :=
  .mk (some es) n.pointer n.layer true

/-- mst.py 280-283: the loop over the children, `rec` being the recursive call. -/
def unstoredKids [DecidableEq C] (rec : Node C → Except Err (C × List (C × NodeData C))) :
    List (Ent C) → List (C × NodeData C) → Except Err (List (C × NodeData C))
  | [], acc => .ok acc
  | .leaf _ _ :: rest, acc => unstoredKids rec rest acc
  | .tree m :: rest, acc => do
    let r ← rec m
    unstoredKids rec rest (dictUpdate acc r.2)

/-- mst.py 263-285 `MST.get_unstored_blocks`: root CID and the dict CID => node. -/
def getUnstoredBlocks [DecidableEq C] :
    Nat → Node C → Except Err (C × List (C × NodeData C))
  | 0, _ => .error .recursion
  | f + 1, n => do
    let p ← getPointer E rd (f + 1) n
    if (rd p).isSome then .ok (p, [])
    else do
      let es ← getEntries E rd n
      let d ← serializeNodeData (getPointer E rd f) es
      let bl ← unstoredKids (getUnstoredBlocks f) es [(E.H d, d)]
      .ok (p, bl)

/-- Storing a dict of blocks (`Storage.write_blocks`, storage.py), as seen by `read`. -/
def writeBlocks [DecidableEq C] (rd : C → Option (NodeData C)) (bl : List (C × NodeData C)) :
    C → Option (NodeData C) :=
  fun c => match dictGet bl c with
    | some d => some d
    | none => rd c

/-- mst.py 676-682: index of the first leaf with `entry.key >= key`, else the length. -/
def findGeIdx (key : Key) : List (Ent C) → Nat
  | [] => 0
  | .leaf k _ :: rest => if key ≤ k then 0 else findGeIdx key rest + 1
  | .tree _ :: rest => findGeIdx key rest + 1

/-- mst.py 667-682 `MST.find_gt_or_equal_leaf_index`. -/
def findGtOrEqualLeafIndex (n : Node C) (key : Key) : Except Err Int := do
  let es ← getEntries E rd n
  .ok (findGeIdx key es : Int)

/-- mst.py 505-516 `MST.at_index`. -/
def atIndex (n : Node C) (i : Int) : Except Err (Option (Ent C)) := do
  let es ← getEntries E rd n
  if 0 ≤ i ∧ i < es.length then .ok es[i.toNat]? else .ok none

/-- mst.py 518-528 `MST.slice`. -/
def slice (n : Node C) (start : Int) (stop : Option Int) : Except Err (List (Ent C)) := do
  let es ← getEntries E rd n
  .ok (pySlice es start stop)

/-- mst.py 459-470 `MST.update_entry`. -/
def updateEntry (n : Node C) (i : Int) (e : Ent C) : Except Err (Node C) := do
  let a ← slice E rd n 0 (some i)
  let b ← slice E rd n (i + 1) none
  .ok (newTree n (a ++ [e] ++ b))

/-- mst.py 472-481 `MST.remove_entry`. -/
def removeEntry (n : Node C) (i : Int) : Except Err (Node C) := do
  let a ← slice E rd n 0 (some i)
  let b ← slice E rd n (i + 1) none
  .ok (newTree n (a ++ b))

/-- mst.py 483-492 `MST.append`. -/
def append (n : Node C) (e : Ent C) : Except Err (Node C) := do
  let es ← getEntries E rd n
  .ok (newTree n (es ++ [e]))

/-- mst.py 494-503 `MST.prepend`. -/
def prepend (n : Node C) (e : Ent C) : Except Err (Node C) := do
  let es ← getEntries E rd n
  .ok (newTree n ([e] ++ es))

/-- mst.py 530-540 `MST.splice_in`. -/
def spliceIn (n : Node C) (e : Ent C) (i : Int) : Except Err (Node C) := do
  let a ← slice E rd n 0 (some i)
  let b ← slice E rd n i none
  .ok (newTree n (a ++ [e] ++ b))

/-- mst.py 553-559. `if x: updated.append(x)` for an optional subtree. -/
def optTree : Option (Node C) → List (Ent C)
  | some n => [.tree n]
  | none => []

/-- mst.py 542-561 `MST.replace_with_split`. -/
def replaceWithSplit (n : Node C) (i : Int) (left : Option (Node C)) (leaf : Ent C)
    (right : Option (Node C)) : Except Err (Node C) := do
  let a ← slice E rd n 0 (some i)
  let b ← slice E rd n (i + 1) none
  .ok (newTree n (a ++ optTree left ++ [leaf] ++ optTree right ++ b))

/-- mst.py 563-576 `MST.trim_top`. -/
def trimTop : Nat → Node C → Except Err (Node C)
  | 0, _ => .error .recursion
  | f + 1, n => do
    let es ← getEntries E rd n
    match es with
    | [.tree m] => trimTop f m
    | _ => .ok n

/-- `x if x.get_entries() else None` (mst.py 609-612). -/
def nonEmpty (n : Node C) : Except Err (Option (Node C)) := do
  let es ← getEntries E rd n
  .ok (if es.isEmpty then none else some n)

/-- mst.py 604-605: `if split[0]: left = left.append(split[0])`. -/
def appendOpt (n : Node C) : Option (Node C) → Except Err (Node C)
  | some s => append E rd n (.tree s)
  | none => .ok n

/-- mst.py 606-607: `if split[1]: right = right.prepend(split[1])`. -/
def prependOpt (n : Node C) : Option (Node C) → Except Err (Node C)
  | some s => prepend E rd n (.tree s)
  | none => .ok n

/-- mst.py 582-612 `MST.split_around`. -/
def splitAround : Nat → Node C → Key → Except Err (Option (Node C) × Option (Node C))
  | 0, _, _ => .error .recursion
  | f + 1, n, key => do
    let index ← findGtOrEqualLeafIndex E rd n key
    let leftData ← slice E rd n 0 (some index)
    let rightData ← slice E rd n index none
    let left := newTree n leftData
    let right := newTree n rightData
    match asTree leftData.getLast? with
    | some lastInLeft => do
      let left ← removeEntry E rd left (leftData.length - 1)
      let split ← splitAround f lastInLeft key
      let left ← appendOpt E rd left split.1
      let right ← prependOpt E rd right split.2
      .ok (← nonEmpty E rd left, ← nonEmpty E rd right)
    | none => .ok (← nonEmpty E rd left, ← nonEmpty E rd right)

/-- mst.py 614-639 `MST.append_merge`. Both layer caches are filled by the assertion. -/
def appendMerge : Nat → Node C → Node C → Except Err (Node C)
  | 0, _, _ => .error .recursion
  | f + 1, n, toMerge => do
    let l1 ← getLayer E rd f n
    let l2 ← getLayer E rd f toMerge
    if l1 ≠ l2 then .error .assertion
    else do
      let n := n.setLayer l1
      let es ← getEntries E rd n
      let ms ← getEntries E rd toMerge
      if es.isEmpty ∨ ms.isEmpty then .error .index
      else match asTree es.getLast?, asTree ms.head? with
        | some lastInLeft, some firstInRight => do
          let merged ← appendMerge f lastInLeft firstInRight
          .ok (newTree n (pySlice es 0 (some (-1)) ++ [.tree merged] ++ pySlice ms 1 none))
        | _, _ => .ok (newTree n (es ++ ms))

/-- mst.py 645-651 `MST.create_child`. -/
def createChild (fuel : Nat) (n : Node C) : Except Err (Node C) := do
  let l ← getLayer E rd fuel n
  create E rd fuel [] (some (l - 1))

/-- mst.py 653-661 `MST.create_parent`. -/
def createParent (fuel : Nat) (n : Node C) : Except Err (Node C) := do
  let l ← getLayer E rd fuel n
  let n := n.setLayer l
  let p ← create E rd fuel [.tree n] (some (l + 1))
  .ok (.mk p.entries p.pointer p.layer true)

/-- mst.py 344-348: `for i in range(1, extra): left/right = create_parent()`. -/
def addParents (fuel : Nat) : Nat → Option (Node C) → Except Err (Option (Node C))
  | _, none => .ok none
  | 0, some n => .ok (some n)
  | k + 1, some n => do
    let p ← createParent E rd fuel n
    addParents fuel k (some p)

/-- mst.py 302: `known_zeros or leading_zeros_on_hash(key)`. -/
def keyZeros (key : Key) : Option Nat → Nat
  | some (z + 1) => z + 1
  | _ => E.zeros key

/-- mst.py 287-359 `MST.add`. -/
def add : Nat → Node C → Key → C → Option Nat → Except Err (Node C)
  | 0, _, _, _, _ => .error .recursion
  | f + 1, n, key, value, knownZeros => do
    ensureValidKey key
    let kz := keyZeros E key knownZeros
    let layer ← getLayer E rd f n
    let n := n.setLayer layer
    let newLeaf : Ent C := .leaf key value
    if (kz : Int) = layer then do
      let index ← findGtOrEqualLeafIndex E rd n key
      let found ← atIndex E rd n index
      match leafHit key found with
      | some _ => .error .value
      | none => do
        let prevNode ← atIndex E rd n (index - 1)
        match asTree prevNode with
        | some p => do
          let lr ← splitAround E rd f p key
          replaceWithSplit E rd n (index - 1) lr.1 newLeaf lr.2
        | none => spliceIn E rd n newLeaf index
    else if (kz : Int) < layer then do
      let index ← findGtOrEqualLeafIndex E rd n key
      let prevNode ← atIndex E rd n (index - 1)
      match asTree prevNode with
      | some p => do
        let newSubtree ← add f p key value (some kz)
        updateEntry E rd n (index - 1) (.tree newSubtree)
      | none => do
        let subTree ← createChild E rd f n
        let newSubtree ← add f subTree key value (some kz)
        spliceIn E rd n (.tree newSubtree) index
    else do
      let lr ← splitAround E rd f n key
      let extra := ((kz : Int) - layer).toNat
      let left ← addParents E rd f (extra - 1) lr.1
      let right ← addParents E rd f (extra - 1) lr.2
      let updated := optTree left ++ [newLeaf] ++ optTree right
      let root ← create E rd f updated (some (kz : Int))
      .ok (.mk root.entries root.pointer root.layer true)

/-- mst.py 361-377 `MST.get`. -/
def get : Nat → Node C → Key → Except Err (Option C)
  | 0, _, _ => .error .recursion
  | f + 1, n, key => do
    let index ← findGtOrEqualLeafIndex E rd n key
    let found ← atIndex E rd n index
    match leafHit key found with
    | some v => .ok (some v)
    | none => do
      let prev ← atIndex E rd n (index - 1)
      match asTree prev with
      | some p => get f p key
      | none => .ok none

/-- mst.py 379-404 `MST.update`. -/
def update : Nat → Node C → Key → C → Except Err (Node C)
  | 0, _, _, _ => .error .recursion
  | f + 1, n, key, value => do
    ensureValidKey key
    let index ← findGtOrEqualLeafIndex E rd n key
    let found ← atIndex E rd n index
    match leafHit key found with
    | some _ => updateEntry E rd n index (.leaf key value)
    | none => do
      let prev ← atIndex E rd n (index - 1)
      match asTree prev with
      | some p => do
        let updatedTree ← update f p key value
        updateEntry E rd n (index - 1) (.tree updatedTree)
      | none => .error .key

/-- mst.py 420-453 `MST.delete_recurse`. -/
def deleteRecurse : Nat → Node C → Key → Except Err (Node C)
  | 0, _, _ => .error .recursion
  | f + 1, n, key => do
    let index ← findGtOrEqualLeafIndex E rd n key
    let found ← atIndex E rd n index
    match leafHit key found with
    | some _ => do
      let prev ← atIndex E rd n (index - 1)
      let next ← atIndex E rd n (index + 1)
      match asTree prev, asTree next with
      | some p, some q => do
        let merged ← appendMerge E rd f p q
        let a ← slice E rd n 0 (some (index - 1))
        let b ← slice E rd n (index + 2) none
        .ok (newTree n (a ++ [.tree merged] ++ b))
      | _, _ => removeEntry E rd n index
    | none => do
      let prev ← atIndex E rd n (index - 1)
      match asTree prev with
      | some p => do
        let subtree ← deleteRecurse f p key
        let es ← getEntries E rd subtree
        if es.isEmpty then removeEntry E rd n (index - 1)
        else updateEntry E rd n (index - 1) (.tree subtree)
      | none => .error .key

/-- mst.py 406-418 `MST.delete`. -/
def delete (fuel : Nat) (n : Node C) (key : Key) : Except Err (Node C) := do
  let m ← deleteRecurse E rd fuel n key
  trimTop E rd fuel m

end

end Arroba
