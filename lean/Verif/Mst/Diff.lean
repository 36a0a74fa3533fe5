import Verif.Mst.Listing

/-!
# Model of `mst.Walker` (arroba/mst.py 1108-1226) and of `arroba/diff.py`

Simplifications: in-place cache writes of the nodes being walked are not threaded through (see
`Mst/Model.lean`); the `while` loop of `mst_diff` takes a bound `steps` on its iterations (the
theorems show that some bound always suffices); sets are lists without duplicates.
-/

namespace Arroba

variable {C : Type}

/-- mst.py 1108-1113 `WalkStatus`. -/
structure WalkStatus (C : Type) where
  done : Bool
  cur : Option (Ent C)
  walking : Option (Node C)
  index : Nat

/-- mst.py 1116-1138: class `Walker`; the top of `stack` is its first element. -/
structure Walker (C : Type) where
  stack : List (WalkStatus C)
  status : WalkStatus C

/-- mst.py 1126-1136. `WalkStatus(done=True)`. -/
def doneStatus : WalkStatus C := ⟨true, none, none, 0⟩

/-- mst.py 1126-1138 `Walker.__init__`. -/
def newWalker (tree : Node C) : Walker C := ⟨[], ⟨false, some (.tree tree), none, 0⟩⟩

/-- mst.py 1140-1151 `Walker.layer`. -/
def Walker.layer (w : Walker C) : Except Err Int :=
  if w.status.done then .error .assertion
  else match w.status.walking with
    | some n => .ok (n.layer.getD 0)
    | none => match w.status.cur with
      | some (.tree n) => .ok (n.layer.getD 0 + 1)
      | _ => .error .runtime

section
variable (E : Env C) (rd : C → Option (NodeData C))

/-- mst.py 1154-1174 `Walker.step_over`, on the stack and the current status. -/
def stepOver : List (WalkStatus C) → WalkStatus C → Except Err (Walker C)
  | [], st =>
    if st.done then .ok ⟨[], st⟩
    else match st.walking with
      | none => .ok ⟨[], doneStatus⟩
      | some w => do
        let es ← getEntries E rd w
        if es.length ≤ st.index + 1 then .ok ⟨[], doneStatus⟩
        else .ok ⟨[], ⟨st.done, es[st.index + 1]?, st.walking, st.index + 1⟩⟩
  | s :: stack, st =>
    if st.done then .ok ⟨s :: stack, st⟩
    else match st.walking with
      | none => .ok ⟨s :: stack, doneStatus⟩
      | some w => do
        let es ← getEntries E rd w
        if es.length ≤ st.index + 1 then stepOver stack s
        else .ok ⟨s :: stack, ⟨st.done, es[st.index + 1]?, st.walking, st.index + 1⟩⟩

/-- mst.py 1154-1174 `Walker.step_over`. -/
def Walker.stepOver (w : Walker C) : Except Err (Walker C) :=
  Arroba.stepOver E rd w.stack w.status

/-- mst.py 1188-1198: the very start of the walk. -/
def startWalk (w : Walker C) (n : Node C) : Option (Ent C) → Walker C
  | none => ⟨w.stack, doneStatus⟩
  | some e => ⟨w.stack, ⟨false, some e, some n, 0⟩⟩

/-- mst.py 1204-1213: descending into a node. -/
def pushWalk (w : Walker C) (n : Node C) : Option (Ent C) → Except Err (Walker C)
  | none => .error .assertion
  | some e => .ok ⟨w.status :: w.stack, ⟨false, some e, some n, 0⟩⟩

/-- mst.py 1176-1213 `Walker.step_into`. -/
def Walker.stepInto (w : Walker C) : Except Err (Walker C) :=
  if w.status.done then .ok w
  else match w.status.walking with
    | none => match w.status.cur with
      | some (.tree n) => do
        let next ← atIndex E rd n 0
        .ok (startWalk w n next)
      | _ => .error .assertion
    | some _ => match w.status.cur with
      | some (.tree n) => do
        let next ← atIndex E rd n 0
        pushWalk w n next
      | _ => .error .runtime

/-- mst.py 1215-1226 `Walker.advance`. -/
def Walker.advance (w : Walker C) : Except Err (Walker C) :=
  if w.status.done then .ok w
  else match w.status.cur with
    | some (.leaf _ _) => w.stepOver E rd
    | _ => w.stepInto E rd

end

/-- diff.py 169-173 `Change`. -/
structure Change (C : Type) where
  key : Key
  cid : C
  prev : Option C
  deriving DecidableEq

/-- diff.py 176-192: class `Diff`. -/
structure Diff (C : Type) where
  adds : List (Key × Change C)
  updates : List (Key × Change C)
  deletes : List (Key × Change C)
  newCids : List C
  removedCids : List C

/-- diff.py 187-192. -/
def Diff.empty : Diff C := ⟨[], [], [], [], []⟩

section
variable [DecidableEq C]

/-- Python's `s.add(x)`. -/
def setAdd (s : List C) (x : C) : List C := if x ∈ s then s else s ++ [x]

/-- Python's `s.remove(x)` for a member. -/
def setRemove (s : List C) (x : C) : List C := s.filter (fun y => decide (y ≠ x))

/-- diff.py 206-213 `Diff.record_add`. -/
def Diff.recordAdd (d : Diff C) (k : Key) (c : C) : Diff C :=
  { d with adds := dictSet d.adds k ⟨k, c, none⟩, newCids := setAdd d.newCids c }

/-- diff.py 215-223 `Diff.record_update`. -/
def Diff.recordUpdate (d : Diff C) (k : Key) (prev c : C) : Diff C :=
  { d with updates := dictSet d.updates k ⟨k, c, some prev⟩, newCids := setAdd d.newCids c }

/-- diff.py 225-231 `Diff.record_delete`. -/
def Diff.recordDelete (d : Diff C) (k : Key) (c : C) : Diff C :=
  { d with deletes := dictSet d.deletes k ⟨k, c, none⟩ }

/-- diff.py 233-241 `Diff.record_new_cid`. -/
def Diff.recordNewCid (d : Diff C) (c : C) : Diff C :=
  if c ∈ d.removedCids then { d with removedCids := setRemove d.removedCids c }
  else { d with newCids := setAdd d.newCids c }

/-- diff.py 243-251 `Diff.record_removed_cid`. -/
def Diff.recordRemovedCid (d : Diff C) (c : C) : Diff C :=
  if c ∈ d.newCids then { d with newCids := setRemove d.newCids c }
  else { d with removedCids := setAdd d.removedCids c }

/-- diff.py 160-164: the loop of `null_diff`. -/
def nullDiffLoop : List (Ent C) → Diff C → Diff C
  | [], d => d
  | .leaf k v :: rest, d => nullDiffLoop rest (d.recordAdd k v)
  | .tree n :: rest, d => nullDiffLoop rest (d.recordNewCid n.pointer)

/-- diff.py 40-43. -/
def Diff.recordRight (d : Diff C) : Ent C → Diff C
  | .leaf k v => d.recordAdd k v
  | .tree n => d.recordNewCid n.pointer

/-- diff.py 49-52. -/
def Diff.recordLeft (d : Diff C) : Ent C → Diff C
  | .leaf k v => d.recordDelete k v
  | .tree n => d.recordRemovedCid n.pointer

variable (E : Env C) (rd : C → Option (NodeData C))

/-- diff.py 149-166 `null_diff`. -/
def nullDiff (fuel : Nat) (n : Node C) : Except Err (Diff C) := do
  let es ← walk E rd fuel n
  .ok (nullDiffLoop es Diff.empty)

/-- diff.py 31-35. The state of the loop of `mst_diff`: `left_walker`, `right_walker`, `diff`. -/
abbrev DiffState (C : Type) := Walker C × Walker C × Diff C

/-- diff.py 59-142: one iteration with both walkers not done, pointing at `left` and `right`. -/
def diffBoth (l r : Walker C) (d : Diff C) : Ent C → Ent C → Except Err (DiffState C)
  | .leaf lk lv, .leaf rk rv =>
    if lk = rk then do
      let l' ← l.advance E rd
      let r' ← r.advance E rd
      .ok (l', r', if lv ≠ rv then d.recordUpdate lk lv rv else d)
    else if lk < rk then do
      let l' ← l.advance E rd
      .ok (l', r, d.recordDelete lk lv)
    else do
      let r' ← r.advance E rd
      .ok (l, r', d.recordAdd rk rv)
  | left, right => do
    let ll ← l.layer
    let rl ← r.layer
    if rl < ll then
      match left with
      | .leaf _ _ => do
        let r' ← r.advance E rd
        .ok (l, r', d.recordRight right)
      | .tree n => do
        let l' ← l.stepInto E rd
        .ok (l', r, d.recordRemovedCid n.pointer)
    else if ll < rl then
      match right with
      | .leaf _ _ => do
        let l' ← l.advance E rd
        .ok (l', r, d.recordLeft left)
      | .tree n => do
        let r' ← r.stepInto E rd
        .ok (l, r', d.recordNewCid n.pointer)
    else
      match left, right with
      | .tree n, .tree m =>
        if n.pointer = m.pointer then do
          let l' ← l.stepOver E rd
          let r' ← r.stepOver E rd
          .ok (l', r', d)
        else do
          let l' ← l.stepInto E rd
          let r' ← r.stepInto E rd
          .ok (l', r', (d.recordNewCid m.pointer).recordRemovedCid n.pointer)
      | .leaf _ _, .tree m => do
        let r' ← r.stepInto E rd
        .ok (l, r', d.recordNewCid m.pointer)
      | .tree n, .leaf _ _ => do
        let l' ← l.stepInto E rd
        .ok (l', r, d.recordRemovedCid n.pointer)
      | _, _ => .error .runtime

/-- diff.py 36-146: the loop of `mst_diff`. Out of `steps`: RecursionError. -/
def diffLoop : Nat → DiffState C → Except Err (Diff C)
  | 0, _ => .error .recursion
  | steps + 1, (l, r, d) =>
    match l.status.done, r.status.done with
    | true, true => .ok d
    | true, false =>
      match r.status.cur with
      | some e => do
        let r' ← r.advance E rd
        diffLoop steps (l, r', d.recordRight e)
      | none => .error .attribute
    | false, true =>
      match l.status.cur with
      | some e => do
        let l' ← l.advance E rd
        diffLoop steps (l', r, d.recordLeft e)
      | none => .error .attribute
    | false, false =>
      match l.status.cur, r.status.cur with
      | some left, some right => do
        let s ← diffBoth E rd l r d left right
        diffLoop steps s
      | _, _ => .ok d

/-- diff.py 17-146 `mst_diff`. -/
def mstDiff (fuel steps : Nat) (cur : Node C) : Option (Node C) → Except Err (Diff C)
  | none => do
    let cur' ← refresh E rd fuel cur
    nullDiff E rd fuel cur'
  | some prev => do
    let cur' ← refresh E rd fuel cur
    let prev' ← refresh E rd fuel prev
    diffLoop E rd steps (newWalker prev', newWalker cur', Diff.empty)

end

/-! ### Composing diffs -/

section
variable [DecidableEq C]

/-- diff.py 258-264: one iteration of the first loop of `add_diff`. -/
def Diff.addDiffAdd (d : Diff C) (a : Change C) : Diff C :=
  match dictGet d.deletes a.key with
  | some del =>
    let d' := if del.cid ≠ a.cid then d.recordUpdate a.key del.cid a.cid else d
    { d' with deletes := dictErase d'.deletes a.key }
  | none => d.recordAdd a.key a.cid

/-- diff.py 266-269: one iteration of the second loop (an update without `prev` cannot occur:
`record_update` always sets it). -/
def Diff.addDiffUpdate (d : Diff C) (u : Change C) : Diff C :=
  let d' : Diff C :=
    { d with updates := dictSet d.updates u.key u, newCids := setAdd d.newCids u.cid }
  { d' with adds := dictErase d'.adds u.key, deletes := dictErase d'.deletes u.key }

/-- diff.py 271-276: one iteration of the third loop. -/
def Diff.addDiffDelete (d : Diff C) (x : Change C) : Diff C :=
  match dictGet d.adds x.key with
  | some _ => { d with adds := dictErase d.adds x.key }
  | none => ({ d with updates := dictErase d.updates x.key }).recordDelete x.key x.cid

/-- diff.py 253-278 `Diff.add_diff`. -/
def Diff.addDiff (d e : Diff C) : Diff C :=
  let d := (e.adds.map (·.2)).foldl Diff.addDiffAdd d
  let d := (e.updates.map (·.2)).foldl Diff.addDiffUpdate d
  let d := (e.deletes.map (·.2)).foldl Diff.addDiffDelete d
  { d with newCids := e.newCids.foldl setAdd d.newCids }

end

end Arroba
