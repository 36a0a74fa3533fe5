import Verif.Props.C03
import Verif.Mst.Grammar

/-! # C04: structural invariant of every reachable tree -/

namespace Arroba

variable {C : Type}

open Arroba.Tree

/-- **C04.** Every reachable root object denotes a well-formed MST `t`: its CID is the root CID
the code reports, its records are exactly what `get` answers, keys are strictly increasing and
grammatical, each key sits on the layer given by its hash, every subtree is non-empty and
exactly one layer below its parent, no two subtrees are adjacent (`WF`); and once persisted,
every node block of `t` is in storage under its CID. -/
theorem C04_structure [DecidableEq C] {E : Env C} {rd : C → Option (NodeData C)}
    (hinj : Function.Injective E.H) {Z : Nat} (hZ : ∀ k, E.zeros k ≤ Z) {fuel : Nat}
    (hf : Z + 2 ≤ fuel) {n : Node C} {ops : List (Op C)} {outs : List (Option Err)}
    (h : Run E fuel rd n ops outs) :
    ∃ t L, WF E.zeros L t ∧ Sorted t ∧ (∀ kv ∈ leaves t, KeyGrammar kv.1) ∧
      getPointer E rd fuel n = .ok (cidOf E.H t) ∧
      (∀ k, get E rd fuel n k = .ok (dictGet (leaves t) k)) ∧
      (∃ bl, getUnstoredBlocks E rd fuel n = .ok (cidOf E.H t, bl) ∧
        ∀ s ∈ nodes t, writeBlocks rd bl (cidOf E.H s) = some (nodeOf E.H s)) := by
  obtain ⟨hst, _, L, t, hi, _⟩ := h.inv hinj hZ hf
  have hb := hi.bound
  obtain ⟨bl, h1, h2⟩ := getUnstoredBlocks_spec hi.repr hi.wf hi.valid (f := fuel) (by omega)
  exact ⟨t, L, hi.wf, hi.sorted, fun kv hkv => (validKey_iff _).1 (hi.valid kv hkv),
    getPointer_spec hi.repr hi.wf hi.valid (by omega),
    fun k => get_spec hi.repr hi.wf hi.sorted (by omega),
    bl, h1, (writeBlocks_stored hinj hst (WF_nodes hi.wf) h2).1⟩

/-- **C04 (partial), root.** The root is not merely a pointer to one subtree, for histories that
do not empty the tree by deleting a key above layer 0. Missing: the other histories, for which
this is false (`C04_redundant_root`). -/
theorem C04_root_not_redundant_partial [DecidableEq C] {E : Env C} {rd : C → Option (NodeData C)}
    (hinj : Function.Injective E.H) {Z : Nat} (hZ : ∀ k, E.zeros k ≤ Z) {fuel : Nat}
    (hf : Z + 2 ≤ fuel) {n : Node C} {ops : List (Op C)} {outs : List (Option Err)}
    (h : Run E fuel rd n ops outs) (hne : NoEmptying E ops) :
    ∃ t, Valid E.zeros t ∧ getPointer E rd fuel n = .ok (cidOf E.H t) ∧
      ∀ k, get E rd fuel n k = .ok (dictGet (leaves t) k) := by
  obtain ⟨hst, _, L, t, hi, hT⟩ := h.inv hinj hZ hf
  have hb := hi.bound
  exact ⟨t, ⟨⟨L, hi.wf⟩, (hT hne).1, hi.sorted, hi.valid⟩,
    getPointer_spec hi.repr hi.wf hi.valid (by omega),
    fun k => get_spec hi.repr hi.wf hi.sorted (by omega)⟩

/-- **C04 fails at the root** after emptying a tree: with real SHA-256 layers, adding and
deleting `a/a` (layer 3) and then adding `a/b` (layer 0) gives a root that is a chain of three
nodes, each only pointing at the next. -/
theorem C04_redundant_root :
    ∃ n, Run exE 130 noBlocks n
        [.add (key "a/a") (.val 1), .delete (key "a/a"), .add (key "a/b") (.val 2)]
        [none, none, none] ∧
      getPointer exE noBlocks 130 n =
        .ok (cidOf exE.H (.sub (.sub (.sub (.leaf (key "a/b") (.val 2) .nil) .nil) .nil) .nil)) := by
  have e : exOutcomes [.add (key "a/a") (.val 1), .delete (key "a/a"), .add (key "a/b") (.val 2)] =
      [none, none, none] := by decide +kernel
  refine ⟨_, e ▸ exRunOf _, ?_⟩
  decide +kernel

/-- Non-vacuity: the example history satisfies the hypotheses of `C04_structure`, and the
insertion-only part also those of the partial theorem; the resulting tree spans four layers. -/
example : Run exE 130 noBlocks (exAfter exOps) exOps exOuts ∧
    getPointer exE noBlocks 130 (exAfter exOps) =
      .ok (cidOf exE.H (.leaf (key "a/a") (.val 1) (.sub (.sub
        (.sub (.leaf (key "a/b") (.val 4) .nil) (.leaf (key "a/c") (.val 5)
          (.sub (.leaf (key "a/d") (.val 7) .nil) .nil))) .nil) .nil))) :=
  ⟨exRun, by decide +kernel⟩

example : NoEmptying exE (exOps.take 6) := noEmptying_of_no_delete (by simp [exOps])

end Arroba
