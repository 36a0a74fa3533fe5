import Verif.Props.C04
import Verif.Props.C08
import Verif.Props.C16
import Verif.Props.C42
import Verif.Mst.CoverRead
import Verif.Mst.CoverSize
import Verif.Mst.LazyNeeds
import Verif.Mst.WriteNeeds

/-!
# C84: Listings read no more of the tree than they need

The number of blocks that are read from storage, for a tree of any size. That the blocks which the model counts are all that
matter is a theorem, too (`C84_enough`).
-/

namespace Arroba

variable {C : Type}

open Arroba.Tree

section
variable [DecidableEq C] {E : Env C} {rd : C → Option (NodeData C)} {Z fuel : Nat} {n : Node C}
  {ops : List (Op C)} {outs : List (Option Err)}

theorem Run.height (hinj : Function.Injective E.H) (hZ : ∀ k, E.zeros k ≤ Z) (hf : Z + 2 ≤ fuel)
    (h : Run E fuel rd n ops outs) :
    ∃ (L : Nat) (t : Tree C), ReprN E rd L t n ∧ WF E.zeros L t ∧ Sorted t ∧ L + 1 ≤ fuel ∧ L ≤ Z ∧
      getLayer E rd fuel n = .ok (L : Int) ∧
      (NoEmptying E ops → ∀ L', (∀ k v, (specRun ops).1 k = some v → E.zeros k ≤ L') → L ≤ L') := by
  obtain ⟨_, _, L, t, hi, ht⟩ := h.inv hinj hZ hf
  have hb := hi.bound
  refine ⟨L, t, hi.repr, hi.wf, hi.sorted, by omega, hb, ?_, fun hne L' hL' => ?_⟩
  · by_cases htn : t = nil
    · subst htn
      rw [getLayer_nil hi.repr (by omega), hi.layer rfl]
    · exact getLayer_spec hi.repr hi.wf htn (by omega)
  · obtain ⟨h1, h2⟩ := ht hne
    have hleaf : ∀ t : Tree C, WF E.zeros L t → Trimmed t → t ≠ nil → ∃ k v, (k, v) ∈ leaves t ∧ E.zeros k = L := by
      intro t hw htr hn
      cases t with
      | nil => exact absurd rfl hn
      | leaf k v r => exact ⟨k, v, by simp [leaves], hw.1⟩
      | sub c r =>
        obtain ⟨M, rfl, hc, hwc, hns, hwr⟩ := WF_sub.1 hw
        cases r with
        | nil => exact absurd htr id
        | leaf k v r => exact ⟨k, v, by simp [leaves], hwr.1⟩
        | sub c r => exact absurd trivial hns
    by_cases htn : t = nil
    · rw [h2 htn]; exact Nat.zero_le _
    · obtain ⟨k, v, hk, hz⟩ := hleaf t hi.wf h1 htn
      rw [← hz]
      exact hL' k v (by rw [← hi.map]; exact (mem_leaves_iff hi.sorted k v).1 hk)

/-- **`list`.** With the tree's height `h` (the root's layer, at most the most zeros that a hash can have), a listing that returns
`l` reads at most `h + 1` blocks to get to the start, and `h` for each record it returns and for up to two that it looks at but
doesn't return. So it's not more for a bigger tree of the same height. The height is that of the record highest up, if the tree
wasn't emptied before (C03). -/
theorem C84_list (hinj : Function.Injective E.H) (hZ : ∀ k, E.zeros k ≤ Z) (hf : Z + 2 ≤ fuel)
    (h : Run E fuel rd n ops outs) (after before : Option Key) :
    ∃ (H : Nat) (l : List (Key × C)), getLayer E rd fuel n = .ok (H : Int) ∧ H ≤ Z ∧
      (NoEmptying E ops → ∀ H', (∀ k v, (specRun ops).1 k = some v → E.zeros k ≤ H') → H ≤ H') ∧
      (listLazy E rd fuel n after before).result = .ok l ∧
      ExactListing (specRun ops).1
        (fun k => (∀ a, after = some a → a < k) ∧ (∀ b, before = some b → b ≠ [] → k < b)) l ∧
      (listLazy E rd fuel n after before).reads.length ≤ (H + 1) + H * (l.length + 2) := by
  obtain ⟨L, t, hr, hw, hs, hL, hLZ, hg, hmin⟩ := h.height hinj hZ hf
  obtain ⟨l, h1, h2⟩ := C08_list hinj hZ hf h after before
  exact ⟨L, l, hg, hLZ, hmin, h1, h2, listLazy_reads hr hw hs hL after before h1⟩

/-- **`list_with_prefix`.** -/
theorem C84_list_with_prefix (hinj : Function.Injective E.H) (hZ : ∀ k, E.zeros k ≤ Z) (hf : Z + 2 ≤ fuel)
    (h : Run E fuel rd n ops outs) (pre : Key) :
    ∃ (H : Nat) (l : List (Key × C)), getLayer E rd fuel n = .ok (H : Int) ∧ H ≤ Z ∧
      (NoEmptying E ops → ∀ H', (∀ k v, (specRun ops).1 k = some v → E.zeros k ≤ H') → H ≤ H') ∧
      (listWithPrefixLazy E rd fuel n pre).result = .ok l ∧
      ExactListing (specRun ops).1 (fun k => ∃ s, k = pre ++ s) l ∧
      (listWithPrefixLazy E rd fuel n pre).reads.length ≤ (H + 1) + H * (l.length + 1) := by
  obtain ⟨L, t, hr, hw, hs, hL, hLZ, hg, hmin⟩ := h.height hinj hZ hf
  obtain ⟨l, h1, h2⟩ := C08_list_with_prefix hinj hZ hf h pre
  exact ⟨L, l, hg, hLZ, hmin, h1, h2, listWithPrefixLazy_reads hr hw hs hL pre h1⟩

/-- **`get`** reads at most one node of each layer. -/
theorem C84_get (hinj : Function.Injective E.H) (hZ : ∀ k, E.zeros k ≤ Z) (hf : Z + 2 ≤ fuel)
    (h : Run E fuel rd n ops outs) (k : Key) :
    ∃ H : Nat, getLayer E rd fuel n = .ok (H : Int) ∧ H ≤ Z ∧
      (NoEmptying E ops → ∀ H', (∀ k v, (specRun ops).1 k = some v → E.zeros k ≤ H') → H ≤ H') ∧
      get E rd fuel n k = .ok ((specRun ops).1 k) ∧ (getReads E rd fuel n k).length ≤ H + 1 := by
  obtain ⟨L, t, hr, hw, hs, hL, hLZ, hg, hmin⟩ := h.height hinj hZ hf
  obtain ⟨_, _, _, _, _, _, h1, _⟩ := h.listing hinj hZ hf
  exact ⟨L, hg, hLZ, hmin, h1 k, getReads_length k hr hw hs⟩

/-- **Writes.** `ops` on the stored tree `t`. If they succeed, then there are at most `3 H + 1` blocks per operation, with `H` the
tree's height, that they need: with any storage that has those, whatever else is missing there or different, they give the same
tree, and the same root CID. -/
theorem C84_write (hZ : ∀ k, E.zeros k ≤ Z) (hf : Z + 2 ≤ fuel) {t : Tree C} (hv : Valid E.zeros t)
    (hst : ∀ s ∈ nodes t, rd (cidOf E.H s) = some (nodeOf E.H s)) {ops : List (Op C)} {n' : Node C}
    (h : ops.foldlM (applyOp E rd fuel) (load (cidOf E.H t)) = .ok n') :
    ∃ (H : Nat) (S : List C), getLayer E rd fuel (load (cidOf E.H t)) = .ok (H : Int) ∧ H ≤ Z ∧
      S.length ≤ ops.length * (3 * H + 1) ∧
      ∀ rd', (∀ c ∈ S, rd' c = rd c) →
        ops.foldlM (applyOp E rd' fuel) (load (cidOf E.H t)) = .ok n' ∧ getPointer E rd' fuel n' = getPointer E rd fuel n' := by
  obtain ⟨L, hL, hw, hl⟩ : ∃ L, L ≤ Z ∧ WF E.zeros L t ∧ getLayer E rd fuel (load (cidOf E.H t)) = .ok (L : Int) := by
    have hrep : ∀ L, ReprN E rd L t (load (cidOf E.H t)) := fun L =>
      ⟨⟨fun _ => ⟨rfl, hst⟩, fun _ => rfl, by simp [load, Node.layer]⟩, by simp [load, Node.entries]⟩
    obtain ⟨L, hL, hw⟩ := Valid.layer hZ hv
    by_cases ht : t = nil
    · refine ⟨0, Nat.zero_le _, by subst ht; simp [WF], ?_⟩
      subst ht
      rw [getLayer_nil (hrep 0) (by omega)]
      rfl
    · exact ⟨L, hL, hw, getLayer_spec (hrep L) hw ht (by omega)⟩
  have hs := hv.2.2.1
  have hg : Good E rd some t [] := ⟨fun s hs => by rw [hst s hs]; rfl, fun s _ hd => by simp [dictGet] at hd⟩
  obtain ⟨B, b1, b2, -, b4⟩ := addCoveringProofs_spec (f := fuel) (ps := ops.map (·.key)) hw hs (by omega) hg
  have hsize := addCoveringProofs_size hw hs (by omega) hg b1
  rw [List.length_map, List.length_nil, Nat.zero_add] at hsize
  have hfrom : FromStore rd (fun _ => True) B := addCoveringProofs_from (P := fun _ => True) (Q := fun _ => True) (dec := some)
    (fun _ _ _ _ _ _ => trivial) (fun _ h => h) trivial (B := []) ⟨List.nodup_nil, fun _ _ h => (nomatch h)⟩ b1
  have hB : ∀ c d, readOnly some B c = some d → c ∈ B.map (·.1) ∧ rd c = some d := by
    intro c d hd
    unfold readOnly coverGet at hd
    dsimp only at hd
    cases hg : dictGet B c with
    | none => rw [hg] at hd; cases hd
    | some v =>
      rw [hg] at hd
      have hm := dictGet_mem hg
      have := (hfrom.2 c v hm).1
      refine ⟨List.mem_map.2 ⟨_, hm, rfl⟩, ?_⟩
      rw [← this]
      simpa using hd
  refine ⟨L, B.map (·.1), hl, hL, by simpa using hsize, fun rd' hrd' => ?_⟩
  cases ops with
  | nil =>
    refine ⟨h, ?_⟩
    cases h
    obtain ⟨g, rfl⟩ : ∃ g, fuel = g + 1 := ⟨fuel - 1, by omega⟩
    simp [getPointer, load, Node.outdated, Node.pointer]
  | cons o os =>
    have hcov : CovN E (readOnly some B) (· ∈ (o :: os).map (·.key)) none none (load (cidOf E.H t)) :=
      covN_lazy hw hs (fun x _ => ⟨by simp, by simp⟩) (b4 o.key (by simp)).1
        (fun x hx p hp hwp => (b4 p hp).2 x hx hwp) rfl rfl rfl
    obtain ⟨a1, a2⟩ := foldlM_cov (rd' := readOnly some B) (fun c d hd => (hB c d hd).2)
      (fun op ho => List.mem_map_of_mem ho) hcov h
    exact ⟨foldlM_ok_mono (fun c d hd => by rw [hrd' c (hB c d hd).1]; exact (hB c d hd).2) a1, getPointer_fresh _ _ a2.fresh⟩
end

/-- **No other blocks matter.** For any tree and any storage `rd`: with any other storage `rd'` that has the same under the CIDs
that were read, each method does the same, whatever else is missing there or different. -/
theorem C84_enough (E : Env C) (rd rd' : C → Option (NodeData C)) (fuel : Nat) (n : Node C) :
    (∀ after before, (∀ c ∈ (listLazy E rd fuel n after before).reads, rd' c = rd c) →
      listLazy E rd' fuel n after before = listLazy E rd fuel n after before) ∧
    (∀ pre, (∀ c ∈ (listWithPrefixLazy E rd fuel n pre).reads, rd' c = rd c) →
      listWithPrefixLazy E rd' fuel n pre = listWithPrefixLazy E rd fuel n pre) ∧
    (∀ pre limit start, (∀ c ∈ (pageLazy E rd fuel n pre limit start).reads, rd' c = rd c) →
      pageLazy E rd' fuel n pre limit start = pageLazy E rd fuel n pre limit start) ∧
    (∀ k, (∀ c ∈ getReads E rd fuel n k, rd' c = rd c) → get E rd' fuel n k = get E rd fuel n k) :=
  ⟨fun _ _ h => listLazy_needs _ _ _ _ h, fun _ h => listWithPrefixLazy_needs _ _ _ h,
    fun _ _ _ h => pageLazy_needs _ _ _ _ _ h, fun _ h => get_needs _ _ _ h⟩

/-! ### A case that meets the hypotheses -/

/-- Ten records. -/
def exTen : List (Op TC) :=
  ["a/a", "a/b", "a/c", "a/d", "a/g", "a/h", "a/t", "a/u", "a/x", "a/y"].map fun k => .add (key k) (.val 1)

/-- Their tree's root CID. -/
def exTenRoot : TC :=
  match getPointer exE noBlocks 130 (exAfter exTen) with
  | .ok c => c
  | .error _ => .val 0

/-- A storage with all nodes. -/
def exNodes : TC → Option (NodeData TC)
  | .node d => some d
  | .val _ => none

/-- Its tree has 8 nodes on 4 layers. Listing the two records before a/c reads 4 of them, and the two from a/t on, 5. If blocks
are missing it doesn't matter as long as they aren't needed: with just the 4, the listing is the same. -/
example : (∃ outs, Run exE 130 noBlocks (exAfter exTen) exTen outs) ∧
    getLayer exE exNodes 130 (load exTenRoot) = .ok 3 ∧
    (listLazy exE exNodes 130 (load exTenRoot) none none).reads.length = 8 ∧
    (listLazy exE exNodes 130 (load exTenRoot) none (some (key "a/c"))).reads.length = 4 ∧
    (pageLazy exE exNodes 130 (load exTenRoot) (key "a/") 2 (key "a/t")).reads.length = 5 ∧
    (pageLazy exE exNodes 130 (load exTenRoot) (key "a/") 2 (key "a/t")).result =
      .ok [(key "a/t", .val 1), (key "a/u", .val 1)] ∧
    listLazy exE (fun c => if c ∈ (listLazy exE exNodes 130 (load exTenRoot) none (some (key "a/c"))).reads then exNodes c
        else none) 130 (load exTenRoot) none (some (key "a/c")) =
      listLazy exE exNodes 130 (load exTenRoot) none (some (key "a/c")) :=
  ⟨⟨_, exRunOf exTen⟩, by decide +kernel, by decide +kernel, by decide +kernel, by decide +kernel, by decide +kernel,
    by decide +kernel⟩

/-- The CIDs of the nodes that adding a/ab and deleting a/y need. -/
def exTenNeeds : List TC :=
  match addCoveringProofs exNodes some 130 exTenRoot [key "a/ab", key "a/y"] [] with
  | .ok B => B.map (·.1)
  | .error _ => []

/-- Adding a record and deleting another needs 6 of the 8 blocks. With just those, they succeed; without the root, not. -/
example : (∃ t, Valid exE.zeros t ∧ exTenRoot = cidOf exE.H t ∧
      ∀ s ∈ nodes t, exNodes (cidOf exE.H s) = some (nodeOf exE.H s)) ∧
    exTenNeeds.length = 6 ∧
    ([Op.add (key "a/ab") (.val 7), .delete (key "a/y")].foldlM (applyOp exE exNodes 130) (load exTenRoot)).isOk = true ∧
    ([Op.add (key "a/ab") (.val 7), .delete (key "a/y")].foldlM
      (applyOp exE (fun c => if c ∈ exTenNeeds then exNodes c else none) 130) (load exTenRoot)).isOk = true ∧
    ([Op.add (key "a/ab") (.val 7), .delete (key "a/y")].foldlM
      (applyOp exE (fun c => if c = exTenRoot then none else exNodes c) 130) (load exTenRoot)).isOk = false := by
  refine ⟨?_, by decide +kernel, by decide +kernel, by decide +kernel, by decide +kernel⟩
  obtain ⟨t, h1, h2, -⟩ := C04_root_not_redundant_partial exE_inj exE_le (by norm_num) (exRunOf exTen)
    (noEmptying_of_no_delete (by simp [exTen]))
  refine ⟨t, h1, ?_, fun s _ => rfl⟩
  unfold exTenRoot
  rw [h2]

namespace Xrpc

open Arroba.Store

variable {C R : Type} [DecidableEq C] {L : Lib C R} {Z : Nat} {be : Backend} {w : World C R} {cfg : Config R}

/-- **A page of `listRecords`.** In a server in any state, the entries of a page come from the generator, which reads at most
`H + 1` blocks of the tree, and `H` for each of the at most `limit` entries it's asked for, however big the repo is. -/
theorem C84_page (hL : L.OK Z) (hr : Reach L be .untorn w) {r : Ref} {o : RepoObj C R} (ho : w.heap[r]? = some o)
    (collection : Key) (limit : Nat) (cursor : Option Key) :
    ∃ H : Nat, getLayer L.env w.rd L.fuel o.mst = .ok (H : Int) ∧ H ≤ Z ∧
      ∃ g : Got C, g = pageLazy L.env w.rd L.fuel o.mst (collection ++ ['/']) limit
          (if truthy cursor then cursor.getD [] else collection ++ ['/']) ∧
        pageEntries L w o collection limit cursor = g.result ∧
        (∃ l, g.result = .ok l ∧ l.length ≤ limit ∧ g.reads.length ≤ (H + 1) + H * min limit (l.length + 1)) := by
  obtain ⟨m, hm⟩ := (hr.inv hL (fun h => h)).1.core.heap r o ho
  obtain ⟨l, t, hi, -⟩ := hm.tree
  have hf := hL.fuel
  have hb := hi.bound
  refine ⟨l, ?_, hb, _, rfl, rfl, ?_⟩
  · by_cases htn : t = nil
    · subst htn
      rw [show w.rd = nodeIn w.blocks from rfl, getLayer_nil hi.repr (by omega), hi.layer rfl]
    · exact getLayer_spec hi.repr hi.wf htn (by omega)
  · have hs := pageLazy_spec hi.repr hi.wf hi.sorted (f := L.fuel) (by omega) (collection ++ ['/']) limit
      (if truthy cursor then cursor.getD [] else collection ++ ['/'])
    obtain ⟨h1, h2⟩ := pageLazy_reads hi.repr hi.wf hi.sorted (f := L.fuel) (by omega) (collection ++ ['/']) limit
      (if truthy cursor then cursor.getD [] else collection ++ ['/'])
    refine ⟨_, hs, by simp, ?_⟩
    have h3 := h2 _ hs
    rcases Nat.le_total limit (_ + 1) with hc | hc
    · rw [Nat.min_eq_left hc]; exact h1
    · rw [Nat.min_eq_right hc]; exact h3

end Xrpc

end Arroba
