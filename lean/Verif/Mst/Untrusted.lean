import Verif.Mst.Exec
import Verif.Mst.Invert

/-!
# Reading a tree from blocks that anyone may have sent

The blocks are checked against their CIDs, as `carbox` does when it reads a CAR file (repo.py and xrpc_repo.py use it so), and
nothing else is known of them: some may be missing, and others may not belong to the tree. The root CID is that of a tree that
somebody made with the API.
-/

namespace Arroba

variable {C : Type}

/-- Every block has the CID that it is found under. -/
def Checked (E : Env C) (B : C → Option (NodeData C)) : Prop := ∀ c d, B c = some d → E.H d = c

/-- What can happen to a tree that is loaded from the root CID `c` with the blocks `B` (mst.py 116-118): calls, which succeed or
raise something other than the AttributeError for a missing block, and cache writes. -/
inductive LoadedFrom (E : Env C) (fuel : Nat) (B : C → Option (NodeData C)) (c : C) :
    Node C → List (Op C) → List (Option Err) → Prop
  | load : LoadedFrom E fuel B c (load c) [] []
  | ok {n n' ops outs op} (h : LoadedFrom E fuel B c n ops outs) (h' : applyOp E B fuel n op = .ok n') :
      LoadedFrom E fuel B c n' (ops ++ [op]) (outs ++ [none])
  | fail {n ops outs op e} (h : LoadedFrom E fuel B c n ops outs) (h' : applyOp E B fuel n op = .error e)
      (he : e ≠ .attribute) : LoadedFrom E fuel B c n (ops ++ [op]) (outs ++ [some e])
  | cache {n n' ops outs} (h : LoadedFrom E fuel B c n ops outs) (h' : Cached E B fuel n n') :
      LoadedFrom E fuel B c n' ops outs

/-- What a plain map does with calls, starting from `m`. -/
def specFrom (m : Key → Option C) : List (Op C) → (Key → Option C) × List (Option Err) :=
  List.foldl (fun s op => let r := specStep s.1 op; (r.1, s.2 ++ [r.2])) (m, [])

end Arroba
