import Verif.Props.C11
import Mathlib.Data.List.Induction

/-! # C12: `mst_diff` reports exactly the changed blocks -/

namespace Arroba

variable {C : Type}

open Arroba.Tree

section
variable [DecidableEq C] {E : Env C} {rd : C → Option (NodeData C)} {Z fuel : Nat} {cur prev : Node C}
  {ops ops' : List (Op C)} {outs outs' : List (Option Err)}

/-- **C12.** For any two reachable trees with root CIDs `root` and `root'`: once both are stored
(in any healthy store `rd'`), the node CIDs among `new_cids` are exactly the node CIDs of the new
tree that are not in the old one, `removed_cids` are exactly the node CIDs of the old tree that
are not in the new one, and the other CIDs among `new_cids` are exactly the CIDs of the added
and updated records. Assumes that the record CIDs of the new tree are not CIDs of node blocks. -/
theorem C12_cids (hinj : Function.Injective E.H) (hZ : ∀ k, E.zeros k ≤ Z) (hf : Z + 2 ≤ fuel)
    (h : Run E fuel rd cur ops outs) (h' : Run E fuel rd prev ops' outs')
    (hrec : ∀ k v, (specRun ops).1 k = some v → ∀ d, E.H d ≠ v) :
    ∃ root root' N, getPointer E rd fuel cur = .ok root ∧ getPointer E rd fuel prev = .ok root' ∧
      ∀ steps, N ≤ steps → ∃ D, mstDiff E rd fuel steps cur (some prev) = .ok D ∧
        ∀ rd', StoreOK E rd' → (rd' root).isSome → (rd' root').isSome →
          (∀ c, (∃ d, E.H d = c) → (c ∈ D.newCids ↔ NodeCid rd' root c ∧ ¬ NodeCid rd' root' c)) ∧
          (∀ c, (∀ d, E.H d ≠ c) → (c ∈ D.newCids ↔
            ∃ k, (specRun ops).1 k = some c ∧ (specRun ops').1 k ≠ some c)) ∧
          (∀ c, c ∈ D.removedCids ↔ NodeCid rd' root' c ∧ ¬ NodeCid rd' root c) := by
  obtain ⟨L, t, L', t', hi, hi', hp, hp', N, hN⟩ := mstDiff_spec hinj hZ hf h h'
  refine ⟨_, _, N, hp, hp', fun steps hs => ?_⟩
  obtain ⟨D, h1, h2⟩ := hN steps hs
  refine ⟨D, h1, fun rd' hst hr hr' => ?_⟩
  have e : itemCids E.H [Item.node L t] = (nodes t).map (cidOf E.H) := by simp [itemCids, nodes]
  have e' : itemCids E.H [Item.node L' t'] = (nodes t').map (cidOf E.H) := by
    simp [itemCids, nodes]
  have hc := h2.isCidDiff (by
      intro kv hkv nd
      simp only [itemLeaves_node, itemLeaves_nil, List.append_nil] at hkv
      refine hrec kv.1 kv.2 ?_ nd
      rw [← hi.map]
      obtain ⟨xs, ys, heq⟩ := List.append_of_mem hkv
      have hp : (xs ++ kv :: ys).Pairwise (fun a b : Key × C => a.1 < b.1) := heq ▸ hi.sorted
      have : dictGet xs kv.1 = none := dictGet_eq_none.2 fun x hx =>
        ne_of_lt ((List.pairwise_append.1 hp).2.2 x hx kv (by simp))
      rw [heq, dictGet_append, this]
      simp [dictGet])
    (by rw [e']; exact cids_nodup hinj hi'.wf hi'.sorted)
    (by rw [e]; exact cids_nodup hinj hi.wf hi.sorted)
  have hn := nodeCid_iff (rd := rd') hi.wf (hst.stored hinj hi.wf hr)
  have hn' := nodeCid_iff (rd := rd') hi'.wf (hst.stored hinj hi'.wf hr')
  rw [e, e'] at hc
  refine ⟨fun c hcc => ?_, fun c hcc => ?_, fun c => ?_⟩
  · rw [hc.1 c hcc, hn, hn']
  · rw [h2.recordCids (by simpa [SortedItems, Sorted] using hi'.sorted)
      (by simpa [SortedItems, Sorted] using hi.sorted) c hcc]
    simp only [itemLeaves_node, itemLeaves_nil, List.append_nil, hi.map, hi'.map, Diff.empty,
      List.not_mem_nil, false_or]
  · rw [hc.2 c, hn, hn']

/-- **C12 (no previous tree).** `new_cids` are the node CIDs of the tree and the CIDs of its
records; nothing is removed. -/
theorem C12_null_cids (hinj : Function.Injective E.H) (hZ : ∀ k, E.zeros k ≤ Z) (hf : Z + 2 ≤ fuel)
    (h : Run E fuel rd cur ops outs) (hrec : ∀ k v, (specRun ops).1 k = some v → ∀ d, E.H d ≠ v)
    (steps : Nat) :
    ∃ root D, getPointer E rd fuel cur = .ok root ∧ mstDiff E rd fuel steps cur none = .ok D ∧
      D.removedCids = [] ∧ ∀ rd', StoreOK E rd' → (rd' root).isSome →
        ∀ c, c ∈ D.newCids ↔ NodeCid rd' root c ∨ ∃ k, (specRun ops).1 k = some c := by
  obtain ⟨L, t, hi, hp, hN⟩ := nullDiff_spec hinj hZ hf h
  obtain ⟨D, h1, h2⟩ := hN steps
  have e : itemCids E.H [Item.node L t] = (nodes t).map (cidOf E.H) := by simp [itemCids, nodes]
  have hc := h2.isCidDiff (by
      intro kv hkv nd
      simp only [itemLeaves_node, itemLeaves_nil, List.append_nil] at hkv
      refine hrec kv.1 kv.2 ?_ nd
      rw [← hi.map]
      obtain ⟨xs, ys, heq⟩ := List.append_of_mem hkv
      have hp : (xs ++ kv :: ys).Pairwise (fun a b : Key × C => a.1 < b.1) := heq ▸ hi.sorted
      have : dictGet xs kv.1 = none := dictGet_eq_none.2 fun x hx =>
        ne_of_lt ((List.pairwise_append.1 hp).2.2 x hx kv (by simp))
      rw [heq, dictGet_append, this]
      simp [dictGet])
    (by simp [itemCids])
    (by rw [e]; exact cids_nodup hinj hi.wf hi.sorted)
  refine ⟨_, D, hp, h1, ?_, fun rd' hst hr c => ?_⟩
  · refine List.eq_nil_iff_forall_not_mem.2 fun c hm => ?_
    have := (hc.2 c).1 hm
    simp [itemCids] at this
  · have hn := nodeCid_iff (rd := rd') hi.wf (hst.stored hinj hi.wf hr)
    by_cases hcc : ∃ d, E.H d = c
    · rw [hc.1 c hcc, hn, e]
      constructor
      · exact fun h => .inl h.1
      · rintro (h | ⟨k, h⟩)
        · exact ⟨h, by simp [itemCids]⟩
        · obtain ⟨d, hd⟩ := hcc
          exact absurd hd (hrec k c h d)
    · have hcc' : ∀ d, E.H d ≠ c := fun d hd => hcc ⟨d, hd⟩
      rw [h2.recordCids (by simp [SortedItems]) (by simpa [SortedItems, Sorted] using hi.sorted) c
        hcc', hn]
      simp only [itemLeaves_node, itemLeaves_nil, List.append_nil, hi.map, dictGet, Diff.empty,
        List.not_mem_nil, false_or]
      constructor
      · rintro ⟨k, h, _⟩; exact .inr ⟨k, h⟩
      · rintro (h | ⟨k, h⟩)
        · obtain ⟨s, _, rfl⟩ := List.mem_map.1 h
          exact absurd rfl (hcc' (nodeOf E.H s))
        · exact ⟨k, h, by simp⟩

end

/-- Non-vacuity: between the example trees node blocks come and go; record CIDs are
not node CIDs. -/
example : (mstDiff exE noBlocks 130 100 (exAfter exOps) (some (exAfter exOps₀))).map
      (fun D => (D.newCids.length, D.removedCids.length)) = .ok (8, 4) ∧
    (∀ k v, (specRun exOps).1 k = some v → ∀ d, exE.H d ≠ v) := by
  refine ⟨by decide +kernel, fun k v h d => ?_⟩
  have hv : ∀ (ops : List (Op TC)), (∀ op ∈ ops, match op with
      | .add _ v => ∃ i, v = .val i | .update _ v => ∃ i, v = .val i | .delete _ => True) →
      ∀ k v, (specRun ops).1 k = some v → ∃ i, v = .val i := by
    intro ops
    induction ops using List.reverseRecOn with
    | nil => intro _ k v h; simp [specRun] at h
    | append_singleton ops op ih =>
      intro hop k v h
      have ih' := ih (fun o ho => hop o (by simp [ho]))
      have ho := hop op (by simp)
      rw [specRun_snoc] at h
      cases op <;> simp only [specStep] at h ho <;> split at h <;> try (exact ih' k v h)
      all_goals (try split at h) <;> (try (exact ih' k v h)) <;>
        (simp only [Function.update_apply] at h; split at h)
      all_goals first | exact ih' k v h | (cases h; done) | (cases h; exact ho)
  obtain ⟨i, rfl⟩ := hv exOps (by simp [exOps]) k v h
  simp [exE]

end Arroba
