import Verif.Mst.HeapExec
import Verif.Mst.Lazy

/-!
# Walking through a version while others are used

`walk_leaves_from` is a generator: between two leaves the program does other things, and it may keep as many generators as it
likes. Here a program has versions (`Mst/HeapExec.lean`) and generators.
-/

namespace Arroba

variable {C : Type}

/-- mst.py 700-713: what the generator goes through in a node with these entries: the subtree just before the start position,
if there is one, and the entries from there on. -/
def walkFrom (key : Key) (es : List (HEnt C)) : List (HEnt C) :=
  let index : Int := hFindGeIdx key es
  (match (if 0 < index then hAsTree es[(index - 1).toNat]? else none) with
    | some i => [.tree i]
    | none => []) ++ pySlice es index none

/-- What a generator goes through in a node with these entries: `walk_leaves_from(key)` (mst.py 700-713), or, without a key,
`walk()` (mst.py 765-770), which goes through all of them. -/
def walkEntries : Option Key → List (HEnt C) → List (HEnt C)
  | some key, es => walkFrom key es
  | none, es => es

/-- mst.py 688-713, 757-770: a generator. `work` is what remains of the loops that it and the generators inside of it are in, the innermost
one first. Which version it is for, what it has yielded and the number of steps are only here for the specification. -/
structure HWalk (C : Type) where
  version : List (Op C)
  start : Option Key
  work : List (HEnt C)
  yielded : List (Key × C)
  steps : Nat

section
variable (E : Env C) (rd : C → Option (NodeData C))

/-- mst.py 688-713 `MST.walk_leaves_from`, 757-770 `MST.walk`: a step of the generator. It yields a leaf, or goes into a subtree,
whose entries it reads; or it has ended. `next()` of `walk_leaves_from` is one or more steps, up to a leaf or the end. `walk` yields
the nodes, too, each before it reads its entries; this isn't recorded here. -/
def hAdvance (w : HWalk C) : HM C (HWalk C) :=
  match w.work with
  | [] => pure w
  | .leaf k v :: rest => pure { w with work := rest, yielded := w.yielded ++ [(k, v)], steps := w.steps + 1 }
  | .tree i :: rest => do
    let es ← hGetEntries E rd i
    pure { w with work := walkEntries w.start es ++ rest, steps := w.steps + 1 }

/-- mst.py 727-734: the loop of `MST.list`, with what remains of the generator. The first argument bounds the number of steps. -/
def hListLoop (after before : Option Key) : Nat → List (HEnt C) → HM C (List (Key × C))
  | 0, _ => hRaise .recursion
  | _ + 1, [] => pure []
  | f + 1, .leaf k v :: rest =>
    if some k = after then hListLoop after before f rest
    else if isPast before k then pure []
    else do
      let vals ← hListLoop after before f rest
      pure ((k, v) :: vals)
  | f + 1, .tree i :: rest => do
    let es ← hGetEntries E rd i
    hListLoop after before f (walkFrom (after.getD []) es ++ rest)

/-- mst.py 780-786 `MST.leaves`: the loop over `walk()`. -/
def hLeavesLoop : Nat → List (HEnt C) → HM C (List (Key × C))
  | 0, _ => hRaise .recursion
  | _ + 1, [] => pure []
  | f + 1, .leaf k v :: rest => do
    let vals ← hLeavesLoop f rest
    pure ((k, v) :: vals)
  | f + 1, .tree i :: rest => do
    let es ← hGetEntries E rd i
    hLeavesLoop f (es ++ rest)

/-- mst.py 780-786 `MST.leaves`. -/
def hLeaves (f i : Nat) : HM C (List (Key × C)) := hLeavesLoop E rd f [.tree i]

/-- mst.py 715-734 `MST.list`. -/
def hList (f i : Nat) (after before : Option Key) : HM C (List (Key × C)) :=
  hListLoop E rd after before f [.tree i]

/-- mst.py 745-752: the loop of `MST.list_with_prefix`. -/
def hPrefixLoop (pre : Key) : Nat → List (HEnt C) → HM C (List (Key × C))
  | 0, _ => hRaise .recursion
  | _ + 1, [] => pure []
  | f + 1, .leaf k v :: rest =>
    if startsWith k pre then do
      let vals ← hPrefixLoop pre f rest
      pure ((k, v) :: vals)
    else pure []
  | f + 1, .tree i :: rest => do
    let es ← hGetEntries E rd i
    hPrefixLoop pre f (walkFrom pre es ++ rest)

/-- mst.py 736-752 `MST.list_with_prefix`. -/
def hListWithPrefix (f i : Nat) (pre : Key) : HM C (List (Key × C)) :=
  hPrefixLoop E rd pre f [.tree i]

end

/-- A program with versions and generators. -/
structure WState (C : Type) where
  v : VState C
  walks : List (HWalk C)

/-- One step of the program. -/
inductive WStep [DecidableEq C] (E : Env C) (fuel : Nat) : WState C → WState C → Prop
  /-- anything with the versions, as in C81 -/
  | other {s v'} (h : VStep E fuel s.v v') : WStep E fuel s ⟨v', s.walks⟩
  /-- `walk_leaves_from` or `walk` of any version; nothing is read yet -/
  | start {s i ops} (hm : (i, ops) ∈ s.v.versions) (start : Option Key) :
      WStep E fuel s ⟨s.v, s.walks ++ [⟨ops, start, [.tree i], [], 0⟩]⟩
  /-- any generator goes on -/
  | next {s j w w' h'} (hw : s.walks[j]? = some w) (hn : hAdvance E s.v.rd w s.v.heap = (.ok w', h')) :
      WStep E fuel s ⟨{ s.v with heap := h' }, s.walks.set j w'⟩

/-- What a program can get to. -/
def WReach [DecidableEq C] (E : Env C) (fuel : Nat) (s : WState C) : Prop :=
  ∃ rd, StoreOK E rd ∧ Relation.ReflTransGen (WStep E fuel) ⟨⟨rd, [], []⟩, []⟩ s

end Arroba
