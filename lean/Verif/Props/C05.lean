import Verif.Props.C03
import Verif.Mst.Listing

/-! # C05: the root CID commits to the whole content -/

namespace Arroba

variable {C : Type}

open Arroba.Tree

/-- **C05.** For any hash function: if two root objects (in any cache state, over any stores)
that stand for well-formed sorted trees report the same root CID, then they hold exactly the
same keys and values (indeed are the same tree), unless two *different* node blocks, one of
each tree, have the same CID — an explicit collision. -/
theorem C05_root_commits {E : Env C} {rd₁ rd₂ : C → Option (NodeData C)} {fuel L₁ L₂ : Nat}
    {t₁ t₂ : Tree C} {n₁ n₂ : Node C}
    (h₁ : ReprN E rd₁ L₁ t₁ n₁) (h₂ : ReprN E rd₂ L₂ t₂ n₂)
    (w₁ : WF E.zeros L₁ t₁) (w₂ : WF E.zeros L₂ t₂) (s₁ : Sorted t₁) (s₂ : Sorted t₂)
    (v₁ : ValidKeys t₁) (v₂ : ValidKeys t₂) (f₁ : L₁ + 1 ≤ fuel) (f₂ : L₂ + 1 ≤ fuel)
    (heq : getPointer E rd₁ fuel n₁ = getPointer E rd₂ fuel n₂) :
    (t₁ = t₂ ∧ ∀ k, get E rd₁ fuel n₁ k = get E rd₂ fuel n₂ k) ∨
    ∃ b₁ ∈ (nodes t₁).map (nodeOf E.H), ∃ b₂ ∈ (nodes t₂).map (nodeOf E.H),
      b₁ ≠ b₂ ∧ E.H b₁ = E.H b₂ := by
  rw [getPointer_spec h₁ w₁ v₁ f₁, getPointer_spec h₂ w₂ v₂ f₂] at heq
  rcases cid_inj w₁ w₂ (by simpa using heq) with rfl | ⟨s, hs, s', hs', h⟩
  · exact .inl ⟨rfl, fun k => by rw [get_spec h₁ w₁ s₁ f₁, get_spec h₂ w₂ s₂ f₂]⟩
  · exact .inr ⟨_, List.mem_map_of_mem hs, _, List.mem_map_of_mem hs', h⟩

/-- **C05, for API histories** (collision-free hash): equal root CIDs mean equal contents. -/
theorem C05_histories [DecidableEq C] {E : Env C} (hinj : Function.Injective E.H) {Z : Nat}
    (hZ : ∀ k, E.zeros k ≤ Z) {fuel : Nat} (hf : Z + 2 ≤ fuel)
    {rd₁ rd₂ : C → Option (NodeData C)} {n₁ n₂ : Node C}
    {ops₁ ops₂ : List (Op C)} {outs₁ outs₂ : List (Option Err)}
    (h₁ : Run E fuel rd₁ n₁ ops₁ outs₁) (h₂ : Run E fuel rd₂ n₂ ops₂ outs₂)
    (heq : getPointer E rd₁ fuel n₁ = getPointer E rd₂ fuel n₂) (k : Key) :
    get E rd₁ fuel n₁ k = get E rd₂ fuel n₂ k := by
  obtain ⟨_, _, L₁, t₁, i₁, _⟩ := h₁.inv hinj hZ hf
  obtain ⟨_, _, L₂, t₂, i₂, _⟩ := h₂.inv hinj hZ hf
  have b₁ := i₁.bound
  have b₂ := i₂.bound
  rcases C05_root_commits i₁.repr i₂.repr i₁.wf i₂.wf i₁.sorted i₂.sorted i₁.valid i₂.valid
    (fuel := fuel) (by omega) (by omega) heq with h | ⟨_, _, _, _, h, h'⟩
  · exact h.2 k
  · exact absurd (hinj h') h

/-- **`==`.** Comparing two trees never fails. If it says that they are equal, they have the same records. If they have the same
records and weren't emptied on the way (C03), it says so. -/
theorem C05_eq [DecidableEq C] {E : Env C} (hinj : Function.Injective E.H) {Z : Nat}
    (hZ : ∀ k, E.zeros k ≤ Z) {fuel : Nat} (hf : Z + 2 ≤ fuel)
    {rd₁ rd₂ : C → Option (NodeData C)} {n₁ n₂ : Node C}
    {ops₁ ops₂ : List (Op C)} {outs₁ outs₂ : List (Option Err)}
    (h₁ : Run E fuel rd₁ n₁ ops₁ outs₁) (h₂ : Run E fuel rd₂ n₂ ops₂ outs₂) :
    ∃ b, mstEq E rd₁ rd₂ fuel n₁ n₂ = .ok b ∧
      (b = true → (specRun ops₁).1 = (specRun ops₂).1) ∧
      (NoEmptying E ops₁ → NoEmptying E ops₂ → (specRun ops₁).1 = (specRun ops₂).1 → b = true) := by
  obtain ⟨_, _, L₁, t₁, i₁, T₁⟩ := h₁.inv hinj hZ hf
  obtain ⟨_, _, L₂, t₂, i₂, T₂⟩ := h₂.inv hinj hZ hf
  have b₁ := i₁.bound
  have b₂ := i₂.bound
  have p₁ := getPointer_spec i₁.repr i₁.wf i₁.valid (f := fuel) (by omega)
  have p₂ := getPointer_spec i₂.repr i₂.wf i₂.valid (f := fuel) (by omega)
  refine ⟨decide (cidOf E.H t₁ = cidOf E.H t₂), by simp only [mstEq, p₁, p₂, ok_bind], fun h => ?_, fun e₁ e₂ h => ?_⟩
  · have hc := of_decide_eq_true h
    rcases C05_root_commits i₁.repr i₂.repr i₁.wf i₂.wf i₁.sorted i₂.sorted i₁.valid i₂.valid
      (fuel := fuel) (by omega) (by omega) (by rw [p₁, p₂, hc]) with ⟨h, _⟩ | ⟨_, _, _, _, h, h'⟩
    · rw [← i₁.map, ← i₂.map, h]
    · exact absurd (hinj h') h
  · have g : ∀ k, get E rd₁ fuel n₁ k = get E rd₂ fuel n₂ k := fun k => by
      rw [get_spec i₁.repr i₁.wf i₁.sorted (by omega), get_spec i₂.repr i₂.wf i₂.sorted (by omega), i₁.map, i₂.map, h]
    obtain ⟨c, g₁, g₂⟩ := C03_history_independent_partial hinj hZ hf h₁ h₂ e₁ e₂ g
    rw [p₁] at g₁
    rw [p₂] at g₂
    cases g₁
    exact decide_eq_true (Except.ok.inj g₂).symm

/-- Non-vacuity: the same records by two ways, and different ones. -/
example : mstEq exE noBlocks noBlocks 130 (exAfter [.add (key "a/a") (.val 1), .add (key "a/b") (.val 2)])
      (exAfter [.add (key "a/b") (.val 1), .add (key "a/a") (.val 1), .update (key "a/b") (.val 2)]) = .ok true ∧
    mstEq exE noBlocks noBlocks 130 (exAfter [.add (key "a/a") (.val 1), .add (key "a/b") (.val 2)]) (exAfter exOps) = .ok false :=
  ⟨by decide +kernel, by decide +kernel⟩

/-- Non-vacuity: an in-memory tree and its reloaded copy report the same root CID. -/
example : ∃ c bl, getUnstoredBlocks exE noBlocks 130 (exAfter exOps) = .ok (c, bl) ∧
    getPointer exE noBlocks 130 (exAfter exOps) =
      getPointer exE (writeBlocks noBlocks bl) 130 (load c) := by
  obtain ⟨_, _, L, t, hi, _⟩ := exRun.inv exE_inj exE_le (by norm_num)
  have hb := hi.bound
  obtain ⟨bl, h1, _⟩ := getUnstoredBlocks_spec hi.repr hi.wf hi.valid (f := 130) (by omega)
  refine ⟨_, bl, h1, ?_⟩
  rw [getPointer_spec hi.repr hi.wf hi.valid (by omega)]
  simp [getPointer, load, Node.outdated, Node.pointer]

end Arroba
