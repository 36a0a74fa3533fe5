import Verif.Mst.Model

/-!
# Model of the listing methods of `arroba/mst.py` as generators

`walk_leaves_from` is a generator: it reads a node's block when it comes to that node, and whoever stops early never reads the
rest. Here a generator is the sequence of what it does, blocks it reads and leaves it yields, and how it ends. A consumer goes
through that sequence until it stops.
-/

namespace Arroba

variable {C : Type}

/-- mst.py 688-713. A step of the generator: it reads a block, or yields a leaf. -/
inductive Ev (C : Type) where
  | read (c : C)
  | leaf (k : Key) (v : C)
  deriving DecidableEq

/-- mst.py 688-713. All the steps of a generator, and the exception that ends it, if any. -/
structure Gen (C : Type) where
  evs : List (Ev C)
  stop : Option Err
  deriving DecidableEq

/-- One generator after the other (`for e in a: yield e`, and then on). An exception ends both. -/
def Gen.seq (a b : Gen C) : Gen C :=
  match a.stop with
  | some _ => a
  | none => ⟨a.evs ++ b.evs, b.stop⟩

/-- mst.py 708-713: the loop over `entries[index:]`; `rec` is the recursive call. -/
def loopGen (rec : Node C → Gen C) : List (Ent C) → Gen C
  | [] => ⟨[], none⟩
  | .leaf k v :: rest => Gen.seq ⟨[.leaf k v], none⟩ (loopGen rec rest)
  | .tree m :: rest => (rec m).seq (loopGen rec rest)

/-- mst.py 702-706: the subtree just before the start position, if there is one. -/
def prevGen (rec : Node C → Gen C) : Option (Node C) → Gen C
  | some m => rec m
  | none => ⟨[], none⟩

/-- mst.py 175-186: `get_entries` reads the node's block, unless it has the entries already. The second call in
`walk_leaves_from` finds them there. -/
def entryReads (n : Node C) : List (Ev C) :=
  match n.entries with
  | some _ => []
  | none => [.read n.pointer]

section
variable (E : Env C) (rd : C → Option (NodeData C))

/-- mst.py 688-713 `MST.walk_leaves_from`. -/
def walkGen : Nat → Node C → Key → Gen C
  | 0, _, _ => ⟨[], some .recursion⟩
  | f + 1, n, key =>
    match getEntries E rd n with
    | .error e => ⟨entryReads n, some e⟩
    | .ok es =>
      let index : Int := findGeIdx key es
      Gen.seq ⟨entryReads n, none⟩
        (Gen.seq (prevGen (fun m => walkGen f m key) (if 0 < index then asTree es[(index - 1).toNat]? else none))
          (loopGen (fun m => walkGen f m key) (pySlice es index none)))

end

/-- The blocks that are read. -/
def readsIn : List (Ev C) → List C
  | [] => []
  | .read c :: r => c :: readsIn r
  | .leaf _ _ :: r => readsIn r

/-- The leaves that are yielded. -/
def leavesIn : List (Ev C) → List (Key × C)
  | [] => []
  | .read _ :: r => leavesIn r
  | .leaf k v :: r => (k, v) :: leavesIn r

/-- Everything that a generator yields, if it is run to the end. -/
def Gen.all (g : Gen C) : Except Err (List (Key × C)) :=
  match g.stop with
  | none => .ok (leavesIn g.evs)
  | some e => .error e

/-- The blocks that a consumer made the generator read, and what the consumer got. -/
structure Got (C : Type) where
  reads : List C
  result : Except Err (List (Key × C))
  deriving DecidableEq

/-- A block read on the way. -/
def Got.read (c : C) (g : Got C) : Got C := ⟨c :: g.reads, g.result⟩

/-- `vals.append(leaf)`. -/
def Got.cons (kv : Key × C) (g : Got C) : Got C := ⟨g.reads, g.result.map (kv :: ·)⟩

/-- The generator has ended. -/
def Got.fromEnd : Option Err → Got C
  | none => ⟨[], .ok []⟩
  | some e => ⟨[], .error e⟩

/-- mst.py 732: `before and leaf.key >= before`. -/
def isPast : Option Key → Key → Bool
  | some b, k => decide (b ≠ [] ∧ b ≤ k)
  | none, _ => false

/-- mst.py 727-734: the loop of `MST.list`. -/
def listRun (after before : Option Key) (stop : Option Err) : List (Ev C) → Got C
  | [] => .fromEnd stop
  | .read c :: rest => (listRun after before stop rest).read c
  | .leaf k v :: rest =>
    if some k = after then listRun after before stop rest
    else if isPast before k then ⟨[], .ok []⟩
    else (listRun after before stop rest).cons (k, v)

/-- mst.py 745-752: the loop of `MST.list_with_prefix`. -/
def prefixRun (pre : Key) (stop : Option Err) : List (Ev C) → Got C
  | [] => .fromEnd stop
  | .read c :: rest => (prefixRun pre stop rest).read c
  | .leaf k v :: rest => if startsWith k pre then (prefixRun pre stop rest).cons (k, v) else ⟨[], .ok []⟩

/-- xrpc_repo.py 122-125: `list(islice(takewhile(startswith, ...), limit))`. `islice` asks for nothing more once it has given
out `limit` items. -/
def pageRun (pre : Key) (stop : Option Err) : Nat → List (Ev C) → Got C
  | 0, _ => ⟨[], .ok []⟩
  | _ + 1, [] => .fromEnd stop
  | n + 1, .read c :: rest => (pageRun pre stop (n + 1) rest).read c
  | n + 1, .leaf k v :: rest => if startsWith k pre then (pageRun pre stop n rest).cons (k, v) else ⟨[], .ok []⟩

section
variable (E : Env C) (rd : C → Option (NodeData C))

/-- mst.py 715-734 `MST.list`. -/
def listLazy (fuel : Nat) (n : Node C) (after before : Option Key) : Got C :=
  let g := walkGen E rd fuel n (after.getD [])
  listRun after before g.stop g.evs

/-- mst.py 736-752 `MST.list_with_prefix`. -/
def listWithPrefixLazy (fuel : Nat) (n : Node C) (pre : Key) : Got C :=
  let g := walkGen E rd fuel n pre
  prefixRun pre g.stop g.evs

/-- xrpc_repo.py 121-125: the entries of a page of `listRecords`, starting at the key `start`. -/
def pageLazy (fuel : Nat) (n : Node C) (pre : Key) (limit : Nat) (start : Key) : Got C :=
  let g := walkGen E rd fuel n start
  pageRun pre g.stop limit g.evs

/-- mst.py 361-377 `MST.get`: the blocks that it reads. -/
def getReads : Nat → Node C → Key → List C
  | 0, _, _ => []
  | f + 1, n, key =>
    readsIn (entryReads n) ++
      match getEntries E rd n with
      | .error _ => []
      | .ok es =>
        match leafHit key es[findGeIdx key es]? with
        | some _ => []
        | none =>
          match asTree (if 0 < findGeIdx key es then es[findGeIdx key es - 1]? else none) with
          | some p => getReads f p key
          | none => []

end

end Arroba
