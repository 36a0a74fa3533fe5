import Verif.Mst.Lazy

/-!
# Model of the listing and traversal methods of `arroba/mst.py`

`walk_leaves_from` and those who use it are in Mst/Lazy.lean. `walk` is modelled by the list of what it yields when run to the
end, as all its callers do.
-/

namespace Arroba

variable {C : Type}

/-- mst.py 765-770: the loop of `MST.walk`. -/
def walkLoop (rec : Node C → Except Err (List (Ent C))) :
    List (Ent C) → Except Err (List (Ent C))
  | [] => .ok []
  | .leaf k v :: rest => do
    let r ← walkLoop rec rest
    .ok (.leaf k v :: r)
  | .tree m :: rest => do
    let a ← rec m
    let r ← walkLoop rec rest
    .ok (a ++ r)

/-- mst.py 757-786. `isinstance(e, Leaf)`, with its contents. -/
def entLeaf : Ent C → Option (Key × C)
  | .leaf k v => some (k, v)
  | .tree _ => none

section
variable (E : Env C) (rd : C → Option (NodeData C))

/-- mst.py 688-713 `MST.walk_leaves_from`, run to the end. -/
def walkLeavesFrom (fuel : Nat) (n : Node C) (key : Key) : Except Err (List (Key × C)) :=
  (walkGen E rd fuel n key).all

/-- mst.py 715-734 `MST.list`: what it returns. -/
def list (fuel : Nat) (n : Node C) (after before : Option Key) : Except Err (List (Key × C)) :=
  (listLazy E rd fuel n after before).result

/-- mst.py 736-752 `MST.list_with_prefix`: what it returns. -/
def listWithPrefix (fuel : Nat) (n : Node C) (pre : Key) : Except Err (List (Key × C)) :=
  (listWithPrefixLazy E rd fuel n pre).result

/-- mst.py 757-770 `MST.walk`. -/
def walk : Nat → Node C → Except Err (List (Ent C))
  | 0, _ => .error .recursion
  | f + 1, n => do
    let es ← getEntries E rd n
    let r ← walkLoop (walk f) es
    .ok (.tree n :: r)

/-- mst.py 780-786 `MST.leaves`. -/
def mstLeaves (fuel : Nat) (n : Node C) : Except Err (List (Key × C)) := do
  let es ← walk E rd fuel n
  .ok (es.filterMap entLeaf)

/-- mst.py 788-794 `MST.leaf_count`. -/
def leafCount (fuel : Nat) (n : Node C) : Except Err Nat := do
  let ls ← mstLeaves E rd fuel n
  .ok ls.length

/-- mst.py 137-139 `MST.__eq__`, for two `MST`s, the other one with its own storage. -/
def mstEq [DecidableEq C] (rd' : C → Option (NodeData C)) (fuel : Nat) (n n' : Node C) : Except Err Bool := do
  let p ← getPointer E rd fuel n
  let p' ← getPointer E rd' fuel n'
  .ok (decide (p = p'))

/-- mst.py 849-869 `MST.cids_for_path`. -/
def cidsForPath : Nat → Node C → Key → Except Err (List C)
  | 0, _, _ => .error .recursion
  | f + 1, n, key => do
    let p ← getPointer E rd (f + 1) n
    let index ← findGtOrEqualLeafIndex E rd n key
    let found ← atIndex E rd n index
    match leafHit key found with
    | some v => .ok [p, v]
    | none => do
      let prev ← atIndex E rd n (index - 1)
      match asTree prev with
      | some m => do
        let r ← cidsForPath f m key
        .ok (p :: r)
      | none => .ok [p]

end

end Arroba
