import Verif.Mst.Spec
import Mathlib.Data.List.Lex

/-!
# What the blocks around a key are

Independent of the model of `add_covering_proofs`.
-/

namespace Arroba

variable {C : Type}

open Arroba.Tree

/-- The node `s` of `t` is on the way to `path` or next to it: all records of `t` before those in `s`
are at or before `path`, and all records after them are at or after `path`.

If `path` is not in `t`, these are the nodes that a search for it visits. If it is, they are the nodes
down to the one that has it, and the nodes below that lie directly before and after it. -/
def Beside (t : Tree C) (path : Key) (s : Tree C) : Prop :=
  s ∈ nodes t ∧ ∃ xs ys, leaves t = xs ++ leaves s ++ ys ∧
    (∀ x ∈ xs, x.1 ≤ path) ∧ (∀ y ∈ ys, path ≤ y.1)

end Arroba
