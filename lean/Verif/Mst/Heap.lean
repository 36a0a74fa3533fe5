import Verif.Mst.Model

/-!
# `arroba/mst.py` with shared, mutable objects

`Mst/Model.lean` treats the nodes of a tree as values. In the code they are objects: a new version of a tree shares most of
its nodes with the old one, and reading a tree writes to the caches of its nodes (`entries`, `layer`, `pointer`,
`outdated_pointer`), so it writes to nodes of other versions too. Here the nodes are objects in a heap, and each method
reads and writes the heap as the code does.

Simplification: lists of entries are values. No list is changed after it was stored in an object: `slice`, `+` and
`[...]` make new lists, and the only lists that are appended to are the ones that `add` and `replace_with_split` have
just made (mst.py 350-354, 553-560), and `deserialize_node_data`'s (1002-1018).
-/

namespace Arroba

variable {C : Type}

/-- mst.py 77-80, 83-97: an element of `MST.entries`: a `Leaf`, or a reference to an `MST` object. -/
inductive HEnt (C : Type) where
  | leaf (k : Key) (v : C)
  | tree (i : Nat)

/-- mst.py 83-114: the fields of an `MST` object. -/
structure Obj (C : Type) where
  entries : Option (List (HEnt C))
  pointer : C
  layer : Option Int
  outdated : Bool

/-- The objects of the process. They are referred to by their index, and never removed. -/
abbrev Heap (C : Type) := List (Obj C)

/-- Code that reads and writes the heap, and may raise. What it has written before it raises stays. -/
def HM (C α : Type) := Heap C → Except Err α × Heap C

instance : Monad (HM C) where
  pure a := fun h => (.ok a, h)
  bind x f := fun h => match x h with
    | (.ok a, h') => f a h'
    | (.error e, h') => (.error e, h')

/-- `raise`. -/
def hRaise {α : Type} (e : Err) : HM C α := fun h => (.error e, h)

/-- mst.py 99-114: `MST(...)` makes an object. -/
def hAlloc (o : Obj C) : HM C Nat := fun h => (.ok h.length, h ++ [o])

/-- Reads the fields of an object. -/
def hObj (i : Nat) : HM C (Obj C) := fun h => match h[i]? with
  | some o => (.ok o, h)
  | none => (.error .attribute, h)

/-- Writes fields of an object. -/
def hSet (i : Nat) (o : Obj C) : HM C Unit := fun h => (.ok (), h.set i o)

/-- mst.py 361-459. `isinstance(e, Leaf) and e.key == key`, together with the leaf's value. -/
def hLeafHit (key : Key) : Option (HEnt C) → Option C
  | some (.leaf k v) => if k = key then some v else none
  | _ => none

/-- mst.py 361-459. `isinstance(e, MST)`, together with the subtree. -/
def hAsTree : Option (HEnt C) → Option Nat
  | some (.tree i) => some i
  | _ => none

/-- mst.py 1089-1105. -/
def hEnsureValidKey (key : Key) : HM C Unit :=
  if validKey key then pure () else hRaise .value

/-- mst.py 1003-1006, 1015-1018: makes the object for a child that is not loaded. -/
def hChild (layer : Option Int) : Option C → HM C (List (HEnt C))
  | some c => do
    let i ← hAlloc ⟨none, c, layer.map (· - 1), false⟩
    pure [.tree i]
  | none => pure []

/-- mst.py 1008-1018: the loop over `data.e`. -/
def hDeserializeEntries (layer : Option Int) : Key → List (EntryData C) → HM C (List (HEnt C))
  | _, [] => pure []
  | lastKey, e :: es => do
    let a ← hChild layer e.t
    let b ← hDeserializeEntries layer (lastKey.take e.p ++ e.k) es
    pure (.leaf (lastKey.take e.p ++ e.k) e.v :: (a ++ b))

/-- mst.py 993-1020 `deserialize_node_data`. -/
def hDeserializeNodeData (d : NodeData C) (layer : Option Int) : HM C (List (HEnt C)) := do
  let a ← hChild layer d.l
  let b ← hDeserializeEntries layer [] d.e
  pure (a ++ b)

/-- mst.py 1039-1061: the loop of `serialize_node_data`; `gp` is `get_pointer`. -/
def hSerializeEntries (gp : Nat → HM C C) : Key → List (HEnt C) → HM C (List (EntryData C))
  | _, [] => pure []
  | _, .tree _ :: _ => hRaise .value
  | lastKey, .leaf k v :: .tree i :: rest => do
    let t ← gp i
    hEnsureValidKey k
    let es ← hSerializeEntries gp k rest
    pure (⟨commonPrefixLen lastKey k, k.drop (commonPrefixLen lastKey k), v, some t⟩ :: es)
  | lastKey, .leaf k v :: rest => do
    hEnsureValidKey k
    let es ← hSerializeEntries gp k rest
    pure (⟨commonPrefixLen lastKey k, k.drop (commonPrefixLen lastKey k), v, none⟩ :: es)

/-- mst.py 1023-1063 `serialize_node_data`. -/
def hSerializeNodeData (gp : Nat → HM C C) : List (HEnt C) → HM C (NodeData C)
  | .tree i :: rest => do
    let l ← gp i
    let e ← hSerializeEntries gp [] rest
    pure ⟨some l, e⟩
  | es => do
    let e ← hSerializeEntries gp [] es
    pure ⟨none, e⟩

/-- mst.py 980-990 `layer_for_entries`. -/
def hLayerForEntries (E : Env C) : List (HEnt C) → Option Int
  | [] => none
  | .leaf k _ :: _ => some (E.zeros k)
  | .tree _ :: rest => hLayerForEntries E rest

section
variable (E : Env C) (rd : C → Option (NodeData C))

/-- mst.py 167-188 `MST.get_entries`: loads the entries if need be, and keeps them. -/
def hGetEntries (i : Nat) : HM C (List (HEnt C)) := do
  let o ← hObj i
  match o.entries with
  | some es => pure es
  | none =>
    match rd o.pointer with
    | none => hRaise .attribute
    | some d => do
      let es ← hDeserializeNodeData d (match d.e with
        | [] => none
        | e :: _ => some (E.zeros e.k : Int))
      let o ← hObj i
      hSet i { o with entries := some es }
      pure es

/-- mst.py 203-208: the pointers of the outdated children are computed. -/
def hForcePointers (gp : Nat → HM C C) : List (HEnt C) → HM C Unit
  | [] => pure ()
  | .leaf _ _ :: rest => hForcePointers gp rest
  | .tree i :: rest => do
    let o ← hObj i
    if o.outdated then do
      let _ ← gp i
      hForcePointers gp rest
    else hForcePointers gp rest

/-- mst.py 190-215 `MST.get_pointer`: computes the pointer if it is outdated, and keeps it. -/
def hGetPointer : Nat → Nat → HM C C
  | 0, _ => hRaise .recursion
  | f + 1, i => do
    let o ← hObj i
    if o.outdated then do
      let es ← hGetEntries E rd i
      hForcePointers (hGetPointer f) es
      let d ← hSerializeNodeData (hGetPointer f) es
      let o ← hObj i
      hSet i { o with pointer := E.H d, outdated := false }
      pure (E.H d)
    else pure o.pointer

/-- mst.py 247-252: the search for a child with a known layer. -/
def hChildLayer (agl : Nat → HM C (Option Int)) : List (HEnt C) → HM C (Option Int)
  | [] => pure none
  | .leaf _ _ :: rest => hChildLayer agl rest
  | .tree i :: rest => do
    let l ← agl i
    match l with
    | some l => pure (some (l + 1))
    | none => hChildLayer agl rest

/-- mst.py 254-257, 229-231: `self.layer = layer`. -/
def hSetLayer (i : Nat) (l : Int) : HM C Unit := do
  let o ← hObj i
  hSet i { o with layer := some l }

/-- mst.py 235-257 `MST.attempt_get_layer`: keeps the layer if it finds one. -/
def hAttemptGetLayer : Nat → Nat → HM C (Option Int)
  | 0, _ => hRaise .recursion
  | f + 1, i => do
    let o ← hObj i
    match o.layer with
    | some l => pure (some l)
    | none => do
      let es ← hGetEntries E rd i
      match hLayerForEntries E es with
      | some l => do
        hSetLayer i l
        pure (some l)
      | none => do
        let l ← hChildLayer (hAttemptGetLayer f) es
        match l with
        | some l => do
          hSetLayer i l
          pure (some l)
        | none => pure none

/-- mst.py 217-233 `MST.get_layer`: keeps the layer, 0 if there is none. -/
def hGetLayer (fuel i : Nat) : HM C Int := do
  let l ← hAttemptGetLayer E rd fuel i
  hSetLayer i (l.getD 0)
  pure (l.getD 0)

/-- mst.py 120-135 `MST.create`. -/
def hCreate (fuel : Nat) (es : List (HEnt C)) (layer : Option Int) : HM C Nat := do
  let d ← hSerializeNodeData (hGetPointer E rd fuel) es
  hAlloc ⟨some es, E.H d, layer, false⟩

/-- mst.py 116-118 `MST.load`. -/
def hLoad (cid : C) : HM C Nat := hAlloc ⟨none, cid, none, false⟩

/-- mst.py 149-161 `MST.new_tree`. -/
def hNewTree (i : Nat) (es : List (HEnt C)) : HM C Nat := do
  let o ← hObj i
  hAlloc ⟨some es, o.pointer, o.layer, true⟩

/-- mst.py 356-359, 660: `x.outdated_pointer = True`. -/
def hOutdate (i : Nat) : HM C Unit := do
  let o ← hObj i
  hSet i { o with outdated := true }

/-- mst.py 280-283: the loop over the children, `rec` being the recursive call. -/
def hUnstoredKids [DecidableEq C] (rec : Nat → HM C (C × List (C × NodeData C))) :
    List (HEnt C) → List (C × NodeData C) → HM C (List (C × NodeData C))
  | [], acc => pure acc
  | .leaf _ _ :: rest, acc => hUnstoredKids rec rest acc
  | .tree i :: rest, acc => do
    let r ← rec i
    hUnstoredKids rec rest (dictUpdate acc r.2)

/-- mst.py 263-285 `MST.get_unstored_blocks`. -/
def hGetUnstoredBlocks [DecidableEq C] : Nat → Nat → HM C (C × List (C × NodeData C))
  | 0, _ => hRaise .recursion
  | f + 1, i => do
    let p ← hGetPointer E rd (f + 1) i
    if (rd p).isSome then pure (p, [])
    else do
      let es ← hGetEntries E rd i
      let d ← hSerializeNodeData (hGetPointer E rd f) es
      let bl ← hUnstoredKids (hGetUnstoredBlocks f) es [(E.H d, d)]
      pure (p, bl)

/-- mst.py 676-682: index of the first leaf with `entry.key >= key`, else the length. -/
def hFindGeIdx (key : Key) : List (HEnt C) → Nat
  | [] => 0
  | .leaf k _ :: rest => if key ≤ k then 0 else hFindGeIdx key rest + 1
  | .tree _ :: rest => hFindGeIdx key rest + 1

/-- mst.py 667-682 `MST.find_gt_or_equal_leaf_index`. -/
def hFindGtOrEqualLeafIndex (i : Nat) (key : Key) : HM C Int := do
  let es ← hGetEntries E rd i
  pure (hFindGeIdx key es : Int)

/-- mst.py 505-516 `MST.at_index`. -/
def hAtIndex (i : Nat) (x : Int) : HM C (Option (HEnt C)) := do
  let es ← hGetEntries E rd i
  pure (if 0 ≤ x ∧ x < es.length then es[x.toNat]? else none)

/-- mst.py 518-528 `MST.slice`. -/
def hSlice (i : Nat) (start : Int) (stop : Option Int) : HM C (List (HEnt C)) := do
  let es ← hGetEntries E rd i
  pure (pySlice es start stop)

/-- mst.py 459-470 `MST.update_entry`. -/
def hUpdateEntry (i : Nat) (x : Int) (e : HEnt C) : HM C Nat := do
  let a ← hSlice E rd i 0 (some x)
  let b ← hSlice E rd i (x + 1) none
  hNewTree i (a ++ [e] ++ b)

/-- mst.py 472-481 `MST.remove_entry`. -/
def hRemoveEntry (i : Nat) (x : Int) : HM C Nat := do
  let a ← hSlice E rd i 0 (some x)
  let b ← hSlice E rd i (x + 1) none
  hNewTree i (a ++ b)

/-- mst.py 483-492 `MST.append`. -/
def hAppend (i : Nat) (e : HEnt C) : HM C Nat := do
  let es ← hGetEntries E rd i
  hNewTree i (es ++ [e])

/-- mst.py 494-503 `MST.prepend`. -/
def hPrepend (i : Nat) (e : HEnt C) : HM C Nat := do
  let es ← hGetEntries E rd i
  hNewTree i ([e] ++ es)

/-- mst.py 530-540 `MST.splice_in`. -/
def hSpliceIn (i : Nat) (e : HEnt C) (x : Int) : HM C Nat := do
  let a ← hSlice E rd i 0 (some x)
  let b ← hSlice E rd i x none
  hNewTree i (a ++ [e] ++ b)

/-- mst.py 553-559. `if x: updated.append(x)` for an optional subtree. -/
def hOptTree : Option Nat → List (HEnt C)
  | some i => [.tree i]
  | none => []

/-- mst.py 542-561 `MST.replace_with_split`. -/
def hReplaceWithSplit (i : Nat) (x : Int) (left : Option Nat) (leaf : HEnt C) (right : Option Nat) : HM C Nat := do
  let a ← hSlice E rd i 0 (some x)
  let b ← hSlice E rd i (x + 1) none
  hNewTree i (a ++ hOptTree left ++ [leaf] ++ hOptTree right ++ b)

/-- mst.py 563-576 `MST.trim_top`. -/
def hTrimTop : Nat → Nat → HM C Nat
  | 0, _ => hRaise .recursion
  | f + 1, i => do
    let es ← hGetEntries E rd i
    match es with
    | [.tree j] => hTrimTop f j
    | _ => pure i

/-- `x if x.get_entries() else None` (mst.py 609-612). -/
def hNonEmpty (i : Nat) : HM C (Option Nat) := do
  let es ← hGetEntries E rd i
  pure (if es.isEmpty then none else some i)

/-- mst.py 604-605: `if split[0]: left = left.append(split[0])`. -/
def hAppendOpt (i : Nat) : Option Nat → HM C Nat
  | some s => hAppend E rd i (.tree s)
  | none => pure i

/-- mst.py 606-607: `if split[1]: right = right.prepend(split[1])`. -/
def hPrependOpt (i : Nat) : Option Nat → HM C Nat
  | some s => hPrepend E rd i (.tree s)
  | none => pure i

/-- mst.py 582-612 `MST.split_around`. -/
def hSplitAround : Nat → Nat → Key → HM C (Option Nat × Option Nat)
  | 0, _, _ => hRaise .recursion
  | f + 1, i, key => do
    let index ← hFindGtOrEqualLeafIndex E rd i key
    let leftData ← hSlice E rd i 0 (some index)
    let rightData ← hSlice E rd i index none
    let left ← hNewTree i leftData
    let right ← hNewTree i rightData
    match hAsTree leftData.getLast? with
    | some lastInLeft => do
      let left ← hRemoveEntry E rd left (leftData.length - 1)
      let split ← hSplitAround f lastInLeft key
      let left ← hAppendOpt E rd left split.1
      let right ← hPrependOpt E rd right split.2
      let a ← hNonEmpty E rd left
      let b ← hNonEmpty E rd right
      pure (a, b)
    | none => do
      let a ← hNonEmpty E rd left
      let b ← hNonEmpty E rd right
      pure (a, b)

/-- mst.py 614-639 `MST.append_merge`. -/
def hAppendMerge : Nat → Nat → Nat → HM C Nat
  | 0, _, _ => hRaise .recursion
  | f + 1, i, toMerge => do
    let l1 ← hGetLayer E rd f i
    let l2 ← hGetLayer E rd f toMerge
    if l1 ≠ l2 then hRaise .assertion
    else do
      let es ← hGetEntries E rd i
      let ms ← hGetEntries E rd toMerge
      if es.isEmpty ∨ ms.isEmpty then hRaise .index
      else match hAsTree es.getLast?, hAsTree ms.head? with
        | some lastInLeft, some firstInRight => do
          let merged ← hAppendMerge f lastInLeft firstInRight
          hNewTree i (pySlice es 0 (some (-1)) ++ [.tree merged] ++ pySlice ms 1 none)
        | _, _ => hNewTree i (es ++ ms)

/-- mst.py 645-651 `MST.create_child`. -/
def hCreateChild (fuel i : Nat) : HM C Nat := do
  let l ← hGetLayer E rd fuel i
  hCreate E rd fuel [] (some (l - 1))

/-- mst.py 653-661 `MST.create_parent`. -/
def hCreateParent (fuel i : Nat) : HM C Nat := do
  let l ← hGetLayer E rd fuel i
  let p ← hCreate E rd fuel [.tree i] (some (l + 1))
  hOutdate p
  pure p

/-- mst.py 344-348: `for i in range(1, extra): left/right = create_parent()`. (The code alternates between left and
right; they are different objects.) -/
def hAddParents (fuel : Nat) : Nat → Option Nat → HM C (Option Nat)
  | _, none => pure none
  | 0, some i => pure (some i)
  | k + 1, some i => do
    let p ← hCreateParent E rd fuel i
    hAddParents fuel k (some p)

/-- mst.py 287-359 `MST.add`. -/
def hAdd : Nat → Nat → Key → C → Option Nat → HM C Nat
  | 0, _, _, _, _ => hRaise .recursion
  | f + 1, i, key, value, knownZeros => do
    hEnsureValidKey key
    let layer ← hGetLayer E rd f i
    if (keyZeros E key knownZeros : Int) = layer then do
      let index ← hFindGtOrEqualLeafIndex E rd i key
      let found ← hAtIndex E rd i index
      match hLeafHit key found with
      | some _ => hRaise .value
      | none => do
        let prevNode ← hAtIndex E rd i (index - 1)
        match hAsTree prevNode with
        | some p => do
          let lr ← hSplitAround E rd f p key
          hReplaceWithSplit E rd i (index - 1) lr.1 (.leaf key value) lr.2
        | none => hSpliceIn E rd i (.leaf key value) index
    else if (keyZeros E key knownZeros : Int) < layer then do
      let index ← hFindGtOrEqualLeafIndex E rd i key
      let prevNode ← hAtIndex E rd i (index - 1)
      match hAsTree prevNode with
      | some p => do
        let newSubtree ← hAdd f p key value (some (keyZeros E key knownZeros))
        hUpdateEntry E rd i (index - 1) (.tree newSubtree)
      | none => do
        let subTree ← hCreateChild E rd f i
        let newSubtree ← hAdd f subTree key value (some (keyZeros E key knownZeros))
        hSpliceIn E rd i (.tree newSubtree) index
    else do
      let lr ← hSplitAround E rd f i key
      let left ← hAddParents E rd f (((keyZeros E key knownZeros : Int) - layer).toNat - 1) lr.1
      let right ← hAddParents E rd f (((keyZeros E key knownZeros : Int) - layer).toNat - 1) lr.2
      let root ← hCreate E rd f (hOptTree left ++ [.leaf key value] ++ hOptTree right)
        (some (keyZeros E key knownZeros : Int))
      hOutdate root
      pure root

/-- mst.py 361-377 `MST.get`. -/
def hGet : Nat → Nat → Key → HM C (Option C)
  | 0, _, _ => hRaise .recursion
  | f + 1, i, key => do
    let index ← hFindGtOrEqualLeafIndex E rd i key
    let found ← hAtIndex E rd i index
    match hLeafHit key found with
    | some v => pure (some v)
    | none => do
      let prev ← hAtIndex E rd i (index - 1)
      match hAsTree prev with
      | some p => hGet f p key
      | none => pure none

/-- mst.py 379-404 `MST.update`. -/
def hUpdate : Nat → Nat → Key → C → HM C Nat
  | 0, _, _, _ => hRaise .recursion
  | f + 1, i, key, value => do
    hEnsureValidKey key
    let index ← hFindGtOrEqualLeafIndex E rd i key
    let found ← hAtIndex E rd i index
    match hLeafHit key found with
    | some _ => hUpdateEntry E rd i index (.leaf key value)
    | none => do
      let prev ← hAtIndex E rd i (index - 1)
      match hAsTree prev with
      | some p => do
        let updatedTree ← hUpdate f p key value
        hUpdateEntry E rd i (index - 1) (.tree updatedTree)
      | none => hRaise .key

/-- mst.py 420-453 `MST.delete_recurse`. -/
def hDeleteRecurse : Nat → Nat → Key → HM C Nat
  | 0, _, _ => hRaise .recursion
  | f + 1, i, key => do
    let index ← hFindGtOrEqualLeafIndex E rd i key
    let found ← hAtIndex E rd i index
    match hLeafHit key found with
    | some _ => do
      let prev ← hAtIndex E rd i (index - 1)
      let next ← hAtIndex E rd i (index + 1)
      match hAsTree prev, hAsTree next with
      | some p, some q => do
        let merged ← hAppendMerge E rd f p q
        let a ← hSlice E rd i 0 (some (index - 1))
        let b ← hSlice E rd i (index + 2) none
        hNewTree i (a ++ [.tree merged] ++ b)
      | _, _ => hRemoveEntry E rd i index
    | none => do
      let prev ← hAtIndex E rd i (index - 1)
      match hAsTree prev with
      | some p => do
        let subtree ← hDeleteRecurse f p key
        let es ← hGetEntries E rd subtree
        if es.isEmpty then hRemoveEntry E rd i (index - 1)
        else hUpdateEntry E rd i (index - 1) (.tree subtree)
      | none => hRaise .key

/-- mst.py 406-418 `MST.delete`. -/
def hDelete (fuel i : Nat) (key : Key) : HM C Nat := do
  let m ← hDeleteRecurse E rd fuel i key
  hTrimTop E rd fuel m

end

end Arroba
