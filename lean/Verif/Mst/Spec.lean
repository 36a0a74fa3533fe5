import Verif.Mst.Model

/-!
# Specification of Merkle search trees, independent of the model of the code

* `Tree`: pure trees (no caches, no storage);
* `Tree.WF`, `Tree.Trimmed`, `Tree.Sorted`: the structural invariant of an AT Protocol MST;
* `nodeOf`, `cidOf`: the wire format of a tree and its CID;
* `Inserted`, `Replaced`: what insertion/removal/update of a key mean on sorted lists;
* `Repr`: when a cached, lazily loaded `Node` of the model stands for a pure tree.
-/

namespace Arroba

variable {C : Type}

/-- A pure MST node: a sequence of leaves and child nodes. -/
inductive Tree (C : Type) where
  | nil
  | leaf (k : Key) (v : C) (rest : Tree C)
  | sub (child : Tree C) (rest : Tree C)
  deriving DecidableEq, Repr

namespace Tree

/-- All records in the tree, in tree order. -/
def leaves : Tree C → List (Key × C)
  | nil => []
  | leaf k v r => (k, v) :: leaves r
  | sub c r => leaves c ++ leaves r

/-- Does the node start with a child node? -/
def startsSub : Tree C → Prop
  | sub _ _ => True
  | _ => False

/-- Well-formed node on layer `L`: every key sits on the layer given by `zeros`, children
are non-empty nodes of the layer just below, no two children are adjacent. -/
def WF (zeros : Key → Nat) : Nat → Tree C → Prop
  | _, nil => True
  | L, leaf k _ r => zeros k = L ∧ WF zeros L r
  | 0, sub _ _ => False
  | L + 1, sub c r => c ≠ nil ∧ WF zeros L c ∧ ¬ startsSub r ∧ WF zeros (L + 1) r

/-- The root has no redundant top: it is not just a pointer to a single child. -/
def Trimmed : Tree C → Prop
  | sub _ nil => False
  | _ => True

/-- The records are in strictly increasing key order. -/
def Sorted (t : Tree C) : Prop := (leaves t).Pairwise (fun a b => a.1 < b.1)

/-- Every key satisfies the key grammar. -/
def ValidKeys (t : Tree C) : Prop := ∀ kv ∈ leaves t, validKey kv.1 = true

/-- A valid (canonical) MST. -/
def Valid (zeros : Key → Nat) (t : Tree C) : Prop :=
  (∃ L, WF zeros L t) ∧ Trimmed t ∧ Sorted t ∧ ValidKeys t

/-- Concatenation of entry sequences. -/
def app : Tree C → Tree C → Tree C
  | nil, b => b
  | leaf k v r, b => leaf k v (app r b)
  | sub c r, b => sub c (app r b)

/-- Wire format, as (pointer to the leading child, entries given the previous key). -/
def ser (H : NodeData C → C) : Tree C → Option C × (Key → List (EntryData C))
  | nil => (none, fun _ => [])
  | leaf k v r => (none, fun last =>
      ⟨commonPrefixLen last k, k.drop (commonPrefixLen last k), v, (ser H r).1⟩
        :: (ser H r).2 k)
  | sub c r => (some (H ⟨(ser H c).1, (ser H c).2 []⟩), (ser H r).2)

/-- The serialised node for a tree. -/
def nodeOf (H : NodeData C → C) (t : Tree C) : NodeData C := ⟨(ser H t).1, (ser H t).2 []⟩

/-- The CID of a tree. -/
def cidOf (H : NodeData C → C) (t : Tree C) : C := H (nodeOf H t)

/-- All nodes of the tree strictly below the given entry sequence. -/
def kids : Tree C → List (Tree C)
  | nil => []
  | leaf _ _ r => kids r
  | sub c r => (c :: kids c) ++ kids r

/-- All nodes of the tree, root first. -/
def nodes (t : Tree C) : List (Tree C) := t :: kids t

end Tree

open Arroba.Tree

/-- `l'` is `l` with `(k, v)` inserted at its place in the key order. -/
def Inserted (k : Key) (v : C) (l l' : List (Key × C)) : Prop :=
  ∃ xs ys, l = xs ++ ys ∧ l' = xs ++ (k, v) :: ys ∧
    (∀ x ∈ xs, x.1 < k) ∧ (∀ y ∈ ys, k < y.1)

/-- `l'` is `l` with the value at `k` replaced by `v`. -/
def Replaced (k : Key) (v : C) (l l' : List (Key × C)) : Prop :=
  ∃ xs v₀ ys, l = xs ++ (k, v₀) :: ys ∧ l' = xs ++ (k, v) :: ys

section
variable (E : Env C) (rd : C → Option (NodeData C))

/-- Every node of the tree can be read back from storage. -/
def Stored (t : Tree C) : Prop := ∀ s ∈ nodes t, rd (cidOf E.H s) = some (nodeOf E.H s)

/-- Admissible caches of a node standing for tree `t` on layer `L`. -/
def Hdr (L : Nat) (t : Tree C) (n : Node C) : Prop :=
  (n.entries = none → n.outdated = false ∧ Stored E rd t) ∧
  (n.outdated = false → n.pointer = cidOf E.H t) ∧
  (∀ l, n.layer = some l → l = (L : Int))

/-- The entry list `es` stands for the entry sequence `t` of a node on layer `L`. -/
def ReprEs : Nat → Tree C → List (Ent C) → Prop
  | _, nil, es => es = []
  | L, leaf k v r, es => ∃ es', es = .leaf k v :: es' ∧ ReprEs L r es'
  | L, sub c r, es => ∃ n es', es = .tree n :: es' ∧
      (Hdr E rd (L - 1) c n ∧ ∀ es₂, n.entries = some es₂ → ReprEs (L - 1) c es₂) ∧
      ReprEs L r es'

/-- The (cached, lazily loaded) node `n` stands for tree `t` on layer `L`. -/
def ReprN (L : Nat) (t : Tree C) (n : Node C) : Prop :=
  Hdr E rd L t n ∧ ∀ es, n.entries = some es → ReprEs E rd L t es

end

end Arroba
