import Verif.Mst.Ops3
import Mathlib.Logic.Function.Basic

/-!
# Executions of the MST API

Operations, the in-place cache writes that any call may perform, growth of the block
store, and reloading; plus the reference semantics (a plain finite map).
-/

namespace Arroba

variable {C : Type}

open Arroba.Tree

/-- The three public mutators of `MST`. -/
inductive Op (C : Type) where
  | add (k : Key) (v : C)
  | update (k : Key) (v : C)
  | delete (k : Key)

section
variable (E : Env C) (rd : C → Option (NodeData C))

/-- `mst.add(k, v)`, `mst.update(k, v)`, `mst.delete(k)` (mst.py 287, 379, 406). -/
def applyOp (fuel : Nat) (n : Node C) : Op C → Except Err (Node C)
  | .add k v => add E rd fuel n k v none
  | .update k v => update E rd fuel n k v
  | .delete k => delete E rd fuel n k

/-- In-place cache writes: loading entries (mst.py 184), filling `layer` (mst.py 229-231,
254-255), refreshing `pointer` (mst.py 204-214), in a node or any loaded descendant. -/
inductive Cached (fuel : Nat) : Node C → Node C → Prop
  | entries {n es} (h : getEntries E rd n = .ok es) :
      Cached fuel n (.mk (some es) n.pointer n.layer n.outdated)
  | layer {n l} (h : getLayer E rd fuel n = .ok l) : Cached fuel n (n.setLayer l)
  | attemptLayer {n l} (h : attemptGetLayer E rd fuel n = .ok (some l)) :
      Cached fuel n (n.setLayer l)
  | pointer {n n'} (h : refresh E rd fuel n = .ok n') : Cached fuel n n'
  | child {l r m m' p y o} (h : Cached fuel m m') :
      Cached fuel (.mk (some (l ++ .tree m :: r)) p y o) (.mk (some (l ++ .tree m' :: r)) p y o)

end

/-- Reference semantics of one operation on a plain map: new map and raised exception. -/
def specStep (m : Key → Option C) : Op C → (Key → Option C) × Option Err
  | .add k v =>
    if validKey k = false then (m, some .value)
    else if m k ≠ none then (m, some .value)
    else (Function.update m k (some v), none)
  | .update k v =>
    if validKey k = false then (m, some .value)
    else if m k = none then (m, some .key)
    else (Function.update m k (some v), none)
  | .delete k =>
    if m k = none then (m, some .key)
    else (Function.update m k none, none)

/-- Reference semantics of a sequence of operations from the empty map. -/
def specRun : List (Op C) → (Key → Option C) × List (Option Err) :=
  List.foldl (fun s op => let r := specStep s.1 op; (r.1, s.2 ++ [r.2])) (fun _ => none, [])

/-- The CIDs of child nodes mentioned in a serialised node. -/
def NodeData.children (d : NodeData C) : List C :=
  d.l.toList ++ d.e.filterMap (·.t)

/-- A healthy block store: nodes are stored under their hash, and the children of a stored
node are stored. -/
structure StoreOK (E : Env C) (rd : C → Option (NodeData C)) : Prop where
  addr : ∀ c d, rd c = some d → E.H d = c
  closed : ∀ c d, rd c = some d → ∀ c' ∈ d.children, (rd c').isSome

/-- Executions of the code: `Run E fuel rd n ops outs` means that, starting from
`MST.create()` over a healthy block store, the calls `ops` were made in order with outcomes
`outs` (`none`: success, `some e`: exception `e`, tree unchanged), interleaved with
* arbitrary cache writes,
* persisting the tree (writing the blocks of `get_unstored_blocks`),
* other growth of the block store,
* reloading the tree from its root CID when that CID is stored.
`rd` is the current block store and `n` the current root object. -/
inductive Run [DecidableEq C] (E : Env C) (fuel : Nat) :
    (C → Option (NodeData C)) → Node C → List (Op C) → List (Option Err) → Prop
  | create {rd n} (hs : StoreOK E rd) (h : create E rd fuel [] none = .ok n) :
      Run E fuel rd n [] []
  | ok {rd n n' ops outs op} (h : Run E fuel rd n ops outs)
      (h' : applyOp E rd fuel n op = .ok n') : Run E fuel rd n' (ops ++ [op]) (outs ++ [none])
  | fail {rd n ops outs op e} (h : Run E fuel rd n ops outs)
      (h' : applyOp E rd fuel n op = .error e) :
      Run E fuel rd n (ops ++ [op]) (outs ++ [some e])
  | cache {rd n n' ops outs} (h : Run E fuel rd n ops outs) (h' : Cached E rd fuel n n') :
      Run E fuel rd n' ops outs
  | store {rd rd' n ops outs} (h : Run E fuel rd n ops outs) (hs : StoreOK E rd')
      (h' : ∀ c d, rd c = some d → rd' c = some d) : Run E fuel rd' n ops outs
  | persist {rd n c bl ops outs} (h : Run E fuel rd n ops outs)
      (h' : getUnstoredBlocks E rd fuel n = .ok (c, bl)) :
      Run E fuel (writeBlocks rd bl) n ops outs
  | reload {rd n c ops outs} (h : Run E fuel rd n ops outs)
      (hp : getPointer E rd fuel n = .ok c) (hs : (rd c).isSome) :
      Run E fuel rd (load c) ops outs

end Arroba
