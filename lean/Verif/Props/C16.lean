import Verif.Mst.InvertProofs
import Verif.Example

/-! # C16: covering proofs are sufficient

`add_covering_proofs` succeeds on every valid stored tree, and the blocks it collects suffice on their own: every node
around an operation's key is among them, each key can be looked up, and the operations can be inverted. Inverting them
re-derives the previous root, provided that none of the trees in between is empty; if one is, the tree operations of this
code base don't give the canonical root (C03), see `C16_invert_empty_false`. -/

namespace Arroba

open Arroba.Tree Arroba.Store

section
variable {C V : Type} [DecidableEq C] {E : Env C} {Z : Nat} {f : Nat} {t : Tree C} {read : C → Option V}
  {dec : V → Option (NodeData C)} {B₀ B : Blocks C V}

omit [DecidableEq C] in
theorem Valid.layer (hZ : ∀ k, E.zeros k ≤ Z) (h : Valid E.zeros t) : ∃ L, L ≤ Z ∧ WF E.zeros L t := by
  obtain ⟨⟨L, hw⟩, ht, _⟩ := h
  by_cases hn : t = nil
  · subst hn
    exact ⟨0, by omega, by simp [WF]⟩
  · obtain ⟨kv, h1, h2⟩ := exists_top_leaf hw ht hn
    exact ⟨L, by rw [← h2]; exact hZ _, hw⟩

/-- **C16, the nodes.** For every valid tree whose nodes can be read, every list of paths, and every dict of blocks
that agrees with storage on the tree's nodes: `add_covering_proofs` succeeds and keeps what was in the dict, and the
dict then has every node on the way to and next to each path (`Beside`), among them the root. -/
theorem C16_nodes (hZ : ∀ k, E.zeros k ≤ Z) (hf : Z + 2 ≤ f) (hv : Valid E.zeros t)
    (hread : ∀ s ∈ nodes t, (read (cidOf E.H s)).bind dec = some (nodeOf E.H s))
    (hB : ∀ s ∈ nodes t, ∀ v, dictGet B₀ (cidOf E.H s) = some v → v.bind dec = some (nodeOf E.H s)) (paths : List Key) :
    ∃ B, addCoveringProofs read dec f (cidOf E.H t) paths B₀ = .ok B ∧
      (∀ c v, dictGet B₀ c = some v → dictGet B c = some v) ∧
      ∀ p ∈ paths, ∀ s, s = t ∨ Beside t p s →
        ∃ v d, dictGet B (cidOf E.H s) = some (some v) ∧ dec v = some d ∧ d = nodeOf E.H s := by
  obtain ⟨L, hL, hw⟩ := Valid.layer hZ hv
  have hg : Good E read dec t B₀ := ⟨hread, fun s hs hd => by
    obtain ⟨v, hv⟩ := Option.isSome_iff_exists.1 hd
    unfold Knows readOnly coverGet
    dsimp only
    rw [hv]
    exact hB s hs v hv⟩
  obtain ⟨B, b1, _, b3, b4⟩ := addCoveringProofs_spec (f := f) (ps := paths) hw hv.2.2.1 (by omega) hg
  refine ⟨B, b1, b3, fun p hp s hs => ?_⟩
  have hk : Knows E dec B s := by
    rcases hs with rfl | hs
    · exact (b4 p hp).1
    · rcases hs.span hw hv.2.2.1 with rfl | ⟨a, b, h1, h2⟩
      · exact (b4 p hp).1
      · exact (b4 p hp).2 _ h1 h2
  unfold Knows readOnly coverGet at hk
  dsimp only at hk
  cases hd : dictGet B (cidOf E.H s) with
  | none => rw [hd] at hk; cases hk
  | some v =>
    rw [hd] at hk
    cases v with
    | none => cases hk
    | some v => exact ⟨v, nodeOf E.H s, rfl, hk, rfl⟩

/-- The setting of the other theorems: `t` is the tree after the operations `ops` on the records `m`. -/
structure Committed (E : Env C) (t : Tree C) (m : Key → Option C) (ops : List (CommitOp C)) (read : C → Option V)
    (dec : V → Option (NodeData C)) (B₀ : Blocks C V) : Prop where
  valid : Valid E.zeros t
  records : dictGet (leaves t) = afterAll m ops
  fits : FitsAll m ops
  paths : ∀ op ∈ ops, validKey op.path = true
  read : ∀ s ∈ nodes t, (read (cidOf E.H s)).bind dec = some (nodeOf E.H s)
  blocks : ∀ s ∈ nodes t, ∀ v, dictGet B₀ (cidOf E.H s) = some v → v.bind dec = some (nodeOf E.H s)

variable {m : Key → Option C} {ops : List (CommitOp C)}

theorem Committed.good (h : Committed E t m ops read dec B₀) : Good E read dec t B₀ := ⟨h.read, fun s hs hd => by
  obtain ⟨v, hv⟩ := Option.isSome_iff_exists.1 hd
  unfold Knows readOnly coverGet
  dsimp only
  rw [hv]
  exact h.blocks s hs v hv⟩

/-- **C16, lookups.** With the collected blocks as its only storage, the new tree answers for each operation's path: the
record's CID, or none after a deletion. -/
theorem C16_lookup (hZ : ∀ k, E.zeros k ≤ Z) (hf : Z + 2 ≤ f) (h : Committed E t m ops read dec B₀)
    (hB : addCoveringProofs read dec f (cidOf E.H t) (ops.map (·.path)) B₀ = .ok B) {op : CommitOp C} (hop : op ∈ ops) :
    get E (readOnly dec B) f (load (cidOf E.H t)) op.path = .ok (afterAll m ops op.path) := by
  obtain ⟨L, hL, hw⟩ := Valid.layer hZ h.valid
  obtain ⟨B', b1, _, _, b4, _⟩ := invert_spec hZ hf hw hL h.valid.2.2.1 h.valid.2.2.2 h.good h.fits h.paths h.records
  rw [hB] at b1
  cases b1
  rw [b4 op hop, h.records]

/-- **C16, inversion.** With the collected blocks as its only storage, undoing the operations succeeds, and the root CID
that comes out is that of a tree with exactly the records before the operations. -/
theorem C16_invert_records (hZ : ∀ k, E.zeros k ≤ Z) (hf : Z + 2 ≤ f) (h : Committed E t m ops read dec B₀)
    (hB : addCoveringProofs read dec f (cidOf E.H t) (ops.map (·.path)) B₀ = .ok B) :
    ∃ n t₀, undo E (readOnly dec B) f ops (load (cidOf E.H t)) = .ok n ∧
      getPointer E (readOnly dec B) f n = .ok (cidOf E.H t₀) ∧
      (∃ L, WF E.zeros L t₀) ∧ Sorted t₀ ∧ dictGet (leaves t₀) = m := by
  obtain ⟨L, hL, hw⟩ := Valid.layer hZ h.valid
  obtain ⟨B', b1, _, _, _, n, t₀, L₀, g1, g2, g3, g4, g5, g6, g7⟩ :=
    invert_spec hZ hf hw hL h.valid.2.2.1 h.valid.2.2.2 h.good h.fits h.paths h.records
  rw [hB] at b1
  cases b1
  exact ⟨n, t₀, g1, g2, ⟨L₀, g3⟩, g4, g6⟩

/-- **C16, the previous root (partial).** With the collected blocks as its only storage, undoing the operations gives
back the root CID of the previous tree `t₀`, provided that there are records after each but the last operation. Missing:
commits that remove all records on the way, for which it is false (`C16_invert_empty_false`). -/
theorem C16_invert_root_partial (hZ : ∀ k, E.zeros k ≤ Z) (hf : Z + 2 ≤ f) (h : Committed E t m ops read dec B₀)
    (hB : addCoveringProofs read dec f (cidOf E.H t) (ops.map (·.path)) B₀ = .ok B)
    (hne : ∀ i, 0 < i → i < ops.length → ∃ k, afterAll m (ops.take i) k ≠ none)
    {t₀ : Tree C} (hv₀ : Valid E.zeros t₀) (hm : dictGet (leaves t₀) = m) :
    ∃ n, undo E (readOnly dec B) f ops (load (cidOf E.H t)) = .ok n ∧
      getPointer E (readOnly dec B) f n = .ok (cidOf E.H t₀) := by
  obtain ⟨L, hL, hw⟩ := Valid.layer hZ h.valid
  obtain ⟨B', b1, _, _, _, n, t₁, L₁, g1, g2, g3, g4, g5, g6, g7⟩ :=
    invert_spec hZ hf hw hL h.valid.2.2.1 h.valid.2.2.2 h.good h.fits h.paths h.records
  rw [hB] at b1
  cases b1
  obtain ⟨L₀, hw₀⟩ := hv₀.1
  have := canonical g3 hw₀ (g7 h.valid.2.1 hne) hv₀.2.1 (sorted_ext g4 hv₀.2.2.1 (by rw [g6, hm]))
  subst this
  exact ⟨n, g1, g2⟩

end

/-! ### A case that meets the hypotheses -/

section
open TC

/-- Five records on four layers: `a/a` is on layer 3, `b/l` on 2, `a/c` on 1, `a/b` and `a/d` on 0. -/
def exCoverTree : Tree TC :=
  .leaf (key "a/a") (.val 1) (.sub (.sub (.sub (.leaf (key "a/b") (.val 4) .nil)
    (.leaf (key "a/c") (.val 5) (.sub (.leaf (key "a/d") (.val 7) .nil) .nil)))
    (.leaf (key "b/l") (.val 3) .nil)) .nil)

/-- Storage with all of its nodes. -/
def exCoverRead : TC → Option (NodeData TC)
  | .node d => some d
  | .val _ => none

/-- An update, a create and a deletion. -/
def exCoverOps : List (CommitOp TC) :=
  [⟨.update, key "a/b", some (.val 4), some (.val 2)⟩, ⟨.create, key "a/c", some (.val 5), none⟩,
   ⟨.delete, key "a/e", none, some (.val 8)⟩]

/-- The tree before. -/
def exCoverPrev : Tree TC :=
  .leaf (key "a/a") (.val 1) (.sub (.sub (.sub (.leaf (key "a/b") (.val 2) (.leaf (key "a/d") (.val 7)
    (.leaf (key "a/e") (.val 8) .nil))) .nil) (.leaf (key "b/l") (.val 3) .nil)) .nil)

theorem exCoverPrev_valid : Valid exE.zeros exCoverPrev := by
  have z1 : exE.zeros (key "a/a") = 3 := by decide +kernel
  have z2 : exE.zeros (key "a/b") = 0 := by decide +kernel
  have z4 : exE.zeros (key "a/d") = 0 := by decide +kernel
  have z5 : exE.zeros (key "a/e") = 0 := by decide +kernel
  have z6 : exE.zeros (key "b/l") = 2 := by decide +kernel
  refine ⟨⟨3, ?_⟩, by simp [exCoverPrev, Trimmed], ?_, ?_⟩
  · simp [exCoverPrev, WF, startsSub, z1, z2, z4, z5, z6]
  · unfold Tree.Sorted
    decide +kernel
  · unfold ValidKeys
    decide +kernel

theorem exCoverTree_valid : Valid exE.zeros exCoverTree := by
  have z1 : exE.zeros (key "a/a") = 3 := by decide +kernel
  have z2 : exE.zeros (key "a/b") = 0 := by decide +kernel
  have z3 : exE.zeros (key "a/c") = 1 := by decide +kernel
  have z4 : exE.zeros (key "a/d") = 0 := by decide +kernel
  have z6 : exE.zeros (key "b/l") = 2 := by decide +kernel
  refine ⟨⟨3, ?_⟩, by simp [exCoverTree, Trimmed], ?_, ?_⟩
  · simp [exCoverTree, WF, startsSub, z1, z2, z3, z4, z6]
  · unfold Tree.Sorted
    decide +kernel
  · unfold ValidKeys
    decide +kernel

theorem exCover_committed : Committed exE exCoverTree (dictGet (leaves exCoverPrev)) exCoverOps exCoverRead some [] := by
  refine ⟨exCoverTree_valid, ?_, ?_, ?_, ?_, by simp [dictGet]⟩
  · funext k
    simp only [exCoverTree, exCoverPrev, leaves, exCoverOps, afterAll, List.foldl, CommitOp.after, dictGet,
      Function.update_apply, List.nil_append, List.cons_append, List.append_nil]
    by_cases h1 : k = key "a/a"
    · subst h1
      decide +kernel
    by_cases h2 : k = key "a/b"
    · subst h2
      decide +kernel
    by_cases h3 : k = key "a/c"
    · subst h3
      decide +kernel
    by_cases h4 : k = key "a/d"
    · subst h4
      decide +kernel
    by_cases h5 : k = key "a/e"
    · subst h5
      decide +kernel
    by_cases h6 : k = key "b/l"
    · subst h6
      decide +kernel
    simp [h1, h2, h3, h4, h5, h6, Ne.symm h1, Ne.symm h2, Ne.symm h3, Ne.symm h4, Ne.symm h5, Ne.symm h6]
  · simp only [FitsAll, exCoverOps, CommitOp.fits, CommitOp.after, Function.update_apply]
    decide +kernel
  · decide +kernel
  · intro s _
    rfl

/-- An update, a create that splits a node, and a deletion. -/
example : ∃ B n, addCoveringProofs exCoverRead some 130 (cidOf exE.H exCoverTree) (exCoverOps.map (·.path)) [] = .ok B ∧
    undo exE (readOnly some B) 130 exCoverOps (load (cidOf exE.H exCoverTree)) = .ok n ∧
    getPointer exE (readOnly some B) 130 n = .ok (cidOf exE.H exCoverPrev) := by
  obtain ⟨B, hB, -⟩ := C16_nodes (f := 130) (B₀ := []) exE_le (by omega) exCoverTree_valid (read := exCoverRead) (dec := some)
    (fun _ _ => rfl) (by simp [dictGet]) (exCoverOps.map (·.path))
  obtain ⟨n, h1, h2⟩ := C16_invert_root_partial exE_le (by omega) exCover_committed hB (by
    intro i h0 h1
    refine ⟨key "a/a", ?_⟩
    have : i = 1 ∨ i = 2 := by
      have : exCoverOps.length = 3 := rfl
      omega
    rcases this with rfl | rfl <;> decide +kernel) exCoverPrev_valid rfl
  exact ⟨B, n, hB, h1, h2⟩

/-! ### Commits that empty the repo on the way -/

/-- The new tree. -/
def exEmptied : Tree TC := .leaf (key "a/a") (.val 1) (.sub (.leaf (key "b/l") (.val 3) .nil) .nil)

/-- The previous tree. -/
def exEmptiedPrev : Tree TC := .leaf (key "a/b") (.val 2) .nil

/-- Deletes the only record and creates two on other layers. -/
def exEmptiedOps : List (CommitOp TC) :=
  [⟨.delete, key "a/b", none, some (.val 2)⟩, ⟨.create, key "b/l", some (.val 3), none⟩,
   ⟨.create, key "a/a", some (.val 1), none⟩]

theorem exEmptied_valid : Valid exE.zeros exEmptied := by
  have z1 : exE.zeros (key "a/a") = 3 := by decide +kernel
  have z2 : exE.zeros (key "b/l") = 2 := by decide +kernel
  refine ⟨⟨3, by simp [exEmptied, WF, startsSub, z1, z2]⟩, by simp [exEmptied, Trimmed], ?_, ?_⟩
  · unfold Tree.Sorted
    decide +kernel
  · unfold ValidKeys
    decide +kernel

theorem exEmptiedPrev_valid : Valid exE.zeros exEmptiedPrev := by
  have z1 : exE.zeros (key "a/b") = 0 := by decide +kernel
  refine ⟨⟨0, by simp [exEmptiedPrev, WF, z1]⟩, by simp [exEmptiedPrev, Trimmed],
    by simp [exEmptiedPrev, Tree.Sorted, leaves], ?_⟩
  unfold ValidKeys
  decide +kernel

/-- **C16 is false** of commits that remove all records on the way: there are valid trees, and operations between
them, such that undoing the operations with the collected blocks gives another root than the previous one. -/
theorem C16_invert_empty_false : ∃ (t t₀ : Tree TC) (ops : List (CommitOp TC)) (B : Blocks TC (NodeData TC)) (n : Node TC) (c : TC),
    Committed exE t (dictGet (leaves t₀)) ops exCoverRead some [] ∧ Valid exE.zeros t₀ ∧
      addCoveringProofs exCoverRead some 130 (cidOf exE.H t) (ops.map (·.path)) [] = .ok B ∧
      undo exE (readOnly some B) 130 ops (load (cidOf exE.H t)) = .ok n ∧
      getPointer exE (readOnly some B) 130 n = .ok c ∧ c ≠ cidOf exE.H t₀ := by
  have hc : Committed exE exEmptied (dictGet (leaves exEmptiedPrev)) exEmptiedOps exCoverRead some [] := by
    refine ⟨exEmptied_valid, ?_, ?_, by decide +kernel, fun _ _ => rfl, by simp [dictGet]⟩
    · funext k
      simp only [exEmptied, exEmptiedPrev, leaves, exEmptiedOps, afterAll, List.foldl, CommitOp.after, dictGet,
        Function.update_apply, List.nil_append, List.cons_append, List.append_nil]
      by_cases h1 : k = key "a/a"
      · subst h1
        decide +kernel
      by_cases h2 : k = key "a/b"
      · subst h2
        decide +kernel
      by_cases h3 : k = key "b/l"
      · subst h3
        decide +kernel
      simp [h1, h2, h3, Ne.symm h1, Ne.symm h2, Ne.symm h3]
    · simp only [FitsAll, exEmptiedOps, CommitOp.fits, CommitOp.after, Function.update_apply]
      decide +kernel
  obtain ⟨B, hB, -⟩ := C16_nodes (f := 130) (B₀ := []) exE_le (by omega) exEmptied_valid (read := exCoverRead) (dec := some)
    (fun _ _ => rfl) (by simp [dictGet]) (exEmptiedOps.map (·.path))
  obtain ⟨n, t₁, h1, h2, -⟩ := C16_invert_records exE_le (by omega) hc hB
  refine ⟨_, _, _, B, n, cidOf exE.H t₁, hc, exEmptiedPrev_valid, hB, h1, h2, fun he => ?_⟩
  rw [he] at h2
  have key : (do
      let B ← addCoveringProofs exCoverRead some 130 (cidOf exE.H exEmptied) (exEmptiedOps.map (·.path)) []
      let n ← undo exE (readOnly some B) 130 exEmptiedOps (load (cidOf exE.H exEmptied))
      getPointer exE (readOnly some B) 130 n) ≠ (.ok (cidOf exE.H exEmptiedPrev) : Except Err TC) := by
    decide +kernel
  apply key
  rw [hB, ok_bind, h1, ok_bind, h2]

end

end Arroba
