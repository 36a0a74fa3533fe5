import Verif.Mst.DiffProofs2
import Verif.Example

/-! # C11: `mst_diff` reports exactly the changed records -/

namespace Arroba

variable {C : Type}

open Arroba.Tree

section
variable [DecidableEq C] {E : Env C} {rd : C → Option (NodeData C)} {Z fuel : Nat} {cur prev : Node C}
  {ops ops' : List (Op C)} {outs outs' : List (Option Err)}

/-- **C11.** For any two reachable trees over the same store (in any cache state), `mst_diff`
terminates and its adds, updates and deletes are exactly the difference of their contents. -/
theorem C11_diff (hinj : Function.Injective E.H) (hZ : ∀ k, E.zeros k ≤ Z) (hf : Z + 2 ≤ fuel)
    (h : Run E fuel rd cur ops outs) (h' : Run E fuel rd prev ops' outs') :
    ∃ N, ∀ steps, N ≤ steps → ∃ D, mstDiff E rd fuel steps cur (some prev) = .ok D ∧
      IsDiff (specRun ops').1 (specRun ops).1 D := by
  obtain ⟨L, t, L', t', hi, hi', _, _, N, hN⟩ := mstDiff_spec hinj hZ hf h h'
  refine ⟨N, fun steps hs => ?_⟩
  obtain ⟨D, h1, h2⟩ := hN steps hs
  have := h2.isDiff (by simpa [SortedItems, Sorted] using hi'.sorted)
    (by simpa [SortedItems, Sorted] using hi.sorted)
  simp only [itemLeaves_node, itemLeaves_nil, List.append_nil, hi.map, hi'.map] at this
  exact ⟨D, h1, this⟩

/-- **C11 (no previous tree).** Everything is reported as added, nothing else. -/
theorem C11_null_diff (hinj : Function.Injective E.H) (hZ : ∀ k, E.zeros k ≤ Z) (hf : Z + 2 ≤ fuel)
    (h : Run E fuel rd cur ops outs) (steps : Nat) :
    ∃ D, mstDiff E rd fuel steps cur none = .ok D ∧ IsDiff (fun _ => none) (specRun ops).1 D := by
  obtain ⟨L, t, hi, _, hN⟩ := nullDiff_spec hinj hZ hf h
  obtain ⟨D, h1, h2⟩ := hN steps
  have := h2.isDiff (by simp [SortedItems]) (by simpa [SortedItems, Sorted] using hi.sorted)
  simp only [itemLeaves_node, itemLeaves_nil, List.append_nil, hi.map] at this
  exact ⟨D, h1, this⟩

end

/-- An earlier state of the example tree. -/
def exOps₀ : List (Op TC) :=
  [.add (key "a/a") (.val 1), .add (key "a/b") (.val 2), .add (key "b/l") (.val 3)]

/-- Non-vacuity: between the two example trees one record was updated, two were added and one was
deleted. -/
example : (mstDiff exE noBlocks 130 100 (exAfter exOps) (some (exAfter exOps₀))).map
      (fun D => D.adds.map (·.2)) =
        .ok [⟨key "a/c", .val 5, none⟩, ⟨key "a/d", .val 7, none⟩] ∧
    (mstDiff exE noBlocks 130 100 (exAfter exOps) (some (exAfter exOps₀))).map
      (fun D => D.updates.map (·.2)) = .ok [⟨key "a/b", .val 4, some (.val 2)⟩] ∧
    (mstDiff exE noBlocks 130 100 (exAfter exOps) (some (exAfter exOps₀))).map
      (fun D => D.deletes.map (·.2)) = .ok [⟨key "b/l", .val 3, none⟩] ∧
    Run exE 130 noBlocks (exAfter exOps) exOps exOuts ∧
    Run exE 130 noBlocks (exAfter exOps₀) exOps₀ (exOutcomes exOps₀) :=
  ⟨by decide +kernel, by decide +kernel, by decide +kernel, exRun, exRunOf exOps₀⟩

end Arroba
