import Verif.Props.C03
import Verif.Storage.NodeProofs

/-! # C08: listings are exact, sorted and complete -/

namespace Arroba

variable {C : Type}

open Arroba.Tree

/-- `l` lists, in strictly increasing key order (hence without duplicates), exactly the records
`k ↦ v` of the map `m` whose key satisfies `p`. -/
def ExactListing (m : Key → Option C) (p : Key → Prop) (l : List (Key × C)) : Prop :=
  l.Pairwise (fun a b => a.1 < b.1) ∧ ∀ k v, (k, v) ∈ l ↔ m k = some v ∧ p k

section
variable [DecidableEq C] {E : Env C} {rd : C → Option (NodeData C)} {Z fuel : Nat} {n : Node C}
  {ops : List (Op C)} {outs : List (Option Err)}

theorem Run.listing (hinj : Function.Injective E.H) (hZ : ∀ k, E.zeros k ≤ Z) (hf : Z + 2 ≤ fuel)
    (h : Run E fuel rd n ops outs) :
    ∃ L t, ReprN E rd L t n ∧ WF E.zeros L t ∧ Sorted t ∧ L + 1 ≤ fuel ∧
      (∀ k, get E rd fuel n k = .ok ((specRun ops).1 k)) ∧
      ∀ (p : Key → Bool), ExactListing (specRun ops).1 (fun k => p k = true)
        ((leaves t).filter (fun kv => p kv.1)) := by
  obtain ⟨_, rfl, L, t, hi, _⟩ := h.inv hinj hZ hf
  have hb := hi.bound
  refine ⟨L, t, hi.repr, hi.wf, hi.sorted, by omega, fun k => ?_, fun p => ⟨?_, fun k v => ?_⟩⟩
  · rw [get_spec hi.repr hi.wf hi.sorted (by omega), hi.map]
  · exact List.Pairwise.filter _ hi.sorted
  · rw [List.mem_filter, mem_leaves_iff hi.sorted, hi.map]

/-- **C08 (`MST.leaves`).** Exactly the records of the tree, in ascending key order. -/
theorem C08_leaves (hinj : Function.Injective E.H) (hZ : ∀ k, E.zeros k ≤ Z) (hf : Z + 2 ≤ fuel)
    (h : Run E fuel rd n ops outs) :
    ∃ l, mstLeaves E rd fuel n = .ok l ∧ ExactListing (specRun ops).1 (fun _ => True) l ∧
      leafCount E rd fuel n = .ok l.length := by
  obtain ⟨L, t, hr, hw, hs, hL, _, hp⟩ := h.listing hinj hZ hf
  refine ⟨_, mstLeaves_spec hr hw hL, ?_, by simp [leafCount, mstLeaves_spec hr hw hL]⟩
  simpa using hp (fun _ => true)

/-- **C08 (`walk_leaves_from`).** Exactly the records with key `≥ k₀`. -/
theorem C08_walk_leaves_from (hinj : Function.Injective E.H) (hZ : ∀ k, E.zeros k ≤ Z)
    (hf : Z + 2 ≤ fuel) (h : Run E fuel rd n ops outs) (k₀ : Key) :
    ∃ l, walkLeavesFrom E rd fuel n k₀ = .ok l ∧
      ExactListing (specRun ops).1 (fun k => k₀ ≤ k) l := by
  obtain ⟨L, t, hr, hw, hs, hL, _, hp⟩ := h.listing hinj hZ hf
  exact ⟨_, walkLeavesFrom_spec hr hw hs hL, by simpa using hp (fun k => decide (k₀ ≤ k))⟩

/-- **C08 (`MST.list`).** Exactly the records with key `> after` (if given) and `< before` (if
given and not the empty string, which the code treats as "no bound"). -/
theorem C08_list (hinj : Function.Injective E.H) (hZ : ∀ k, E.zeros k ≤ Z) (hf : Z + 2 ≤ fuel)
    (h : Run E fuel rd n ops outs) (after before : Option Key) :
    ∃ l, list E rd fuel n after before = .ok l ∧
      ExactListing (specRun ops).1
        (fun k => (∀ a, after = some a → a < k) ∧ (∀ b, before = some b → b ≠ [] → k < b)) l := by
  obtain ⟨L, t, hr, hw, hs, hL, _, hp⟩ := h.listing hinj hZ hf
  refine ⟨_, list_spec after before hr hw hs hL, ?_⟩
  have := hp (fun k => decide (afterOK after k ∧ beforeOK before k))
  simp only [decide_eq_true_eq] at this
  refine ⟨this.1, fun k v => ?_⟩
  rw [this.2 k v]
  cases after <;> cases before <;> simp [afterOK, beforeOK]

/-- **C08 (`list_with_prefix`).** Exactly the records whose key starts with the prefix. -/
theorem C08_list_with_prefix (hinj : Function.Injective E.H) (hZ : ∀ k, E.zeros k ≤ Z)
    (hf : Z + 2 ≤ fuel) (h : Run E fuel rd n ops outs) (pre : Key) :
    ∃ l, listWithPrefix E rd fuel n pre = .ok l ∧
      ExactListing (specRun ops).1 (fun k => ∃ s, k = pre ++ s) l := by
  obtain ⟨L, t, hr, hw, hs, hL, _, hp⟩ := h.listing hinj hZ hf
  refine ⟨_, listWithPrefix_spec pre hr hw hs hL, ?_⟩
  have := hp (fun k => startsWith k pre)
  refine ⟨this.1, fun k v => ?_⟩
  rw [this.2 k v]
  simp only [startsWith, List.isPrefixOf_iff_prefix, List.IsPrefix]
  simp only [eq_comm]

end

/-- Non-vacuity: listing the reloaded example tree between two bounds. -/
example : list exE noBlocks 130 (exAfter exOps) (some (key "a/a")) (some (key "a/d")) =
      .ok [(key "a/b", .val 4), (key "a/c", .val 5)] ∧
    listWithPrefix exE noBlocks 130 (exAfter exOps) (key "a/") =
      .ok [(key "a/a", .val 1), (key "a/b", .val 4), (key "a/c", .val 5), (key "a/d", .val 7)] ∧
    Run exE 130 noBlocks (exAfter exOps) exOps exOuts :=
  ⟨by decide +kernel, by decide +kernel, exRun⟩

end Arroba
