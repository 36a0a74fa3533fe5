import Verif.Example

/-! # C03: history independence

The full statement is false of the code: see `C03_history_dependent`. The positive theorem
covers all histories that never empty the tree by deleting a key above layer 0. -/

namespace Arroba

variable {C : Type}

open Arroba.Tree

/-- **C03 (partial).** Two histories that lead to the same contents produce the same root CID,
provided neither of them deletes a last remaining key whose layer is above 0 (`NoEmptying`). Missing: histories that do so, for which the claim is false
(`C03_history_dependent`). -/
theorem C03_history_independent_partial [DecidableEq C] {E : Env C}
    (hinj : Function.Injective E.H) {Z : Nat} (hZ : ∀ k, E.zeros k ≤ Z) {fuel : Nat}
    (hf : Z + 2 ≤ fuel) {rd₁ rd₂ : C → Option (NodeData C)} {n₁ n₂ : Node C}
    {ops₁ ops₂ : List (Op C)} {outs₁ outs₂ : List (Option Err)}
    (h₁ : Run E fuel rd₁ n₁ ops₁ outs₁) (h₂ : Run E fuel rd₂ n₂ ops₂ outs₂)
    (hne₁ : NoEmptying E ops₁) (hne₂ : NoEmptying E ops₂)
    (hsame : ∀ k, get E rd₁ fuel n₁ k = get E rd₂ fuel n₂ k) :
    ∃ c, getPointer E rd₁ fuel n₁ = .ok c ∧ getPointer E rd₂ fuel n₂ = .ok c := by
  obtain ⟨_, _, L₁, t₁, hi₁, hT₁⟩ := h₁.inv hinj hZ hf
  obtain ⟨_, _, L₂, t₂, hi₂, hT₂⟩ := h₂.inv hinj hZ hf
  have hb₁ := hi₁.bound
  have hb₂ := hi₂.bound
  have hd : dictGet (leaves t₁) = dictGet (leaves t₂) := by
    funext k
    have := hsame k
    rw [get_spec hi₁.repr hi₁.wf hi₁.sorted (by omega),
      get_spec hi₂.repr hi₂.wf hi₂.sorted (by omega)] at this
    simpa using this
  have := canonical hi₁.wf hi₂.wf (hT₁ hne₁).1 (hT₂ hne₂).1 (sorted_ext hi₁.sorted hi₂.sorted hd)
  subst this
  exact ⟨_, getPointer_spec hi₁.repr hi₁.wf hi₁.valid (by omega),
    getPointer_spec hi₂.repr hi₂.wf hi₂.valid (by omega)⟩

/-- Histories without deletions satisfy `NoEmptying`, whatever the keys. -/
theorem noEmptying_of_no_delete {E : Env C} {ops : List (Op C)}
    (h : ∀ op ∈ ops, ∀ k, op ≠ .delete k) : NoEmptying E ops := by
  intro p k s hp
  exact absurd rfl (h (.delete k) (by simp [hp]) k)

/-- Non-vacuity: two different histories (one with an `update`) over four layers, same contents,
both meeting the hypotheses. -/
example : ∃ ops₁ ops₂ : List (Op TC), ops₁ ≠ ops₂ ∧ NoEmptying exE ops₁ ∧ NoEmptying exE ops₂ ∧
    (specRun ops₁).1 = (specRun ops₂).1 ∧ (specRun ops₁).1 (key "a/a") = some (.val 1) := by
  refine ⟨[.add (key "a/a") (.val 1), .add (key "b/l") (.val 3)],
    [.add (key "b/l") (.val 2), .add (key "a/a") (.val 1), .update (key "b/l") (.val 3)], ?_, ?_,
    ?_, ?_, ?_⟩
  · simp
  · exact noEmptying_of_no_delete (by simp)
  · exact noEmptying_of_no_delete (by simp)
  · have h1 : validKey (key "a/a") = true := by decide +kernel
    have h2 : validKey (key "b/l") = true := by decide +kernel
    have h3 : key "a/a" ≠ key "b/l" := by decide
    funext k
    simp [specRun, specStep, h1, h2, h3, h3.symm, Function.update_apply]
    by_cases ha : k = key "a/a" <;> by_cases hb : k = key "b/l" <;> simp_all
  · have h1 : validKey (key "a/a") = true := by decide +kernel
    have h2 : validKey (key "b/l") = true := by decide +kernel
    have h3 : key "a/a" ≠ key "b/l" := by decide
    simp [specRun, specStep, h1, h2, h3, h3.symm, Function.update_apply]

/-- **C03 is false of the code.** Adding and deleting a key of layer `> 0` on an empty tree
leaves a root object that remembers that layer; adding a key `k₂` of a lower layer then builds a
root that is only a chain of pointers down to the node holding `k₂`. The result has the same
contents as adding `k₂` to a fresh tree, but another root CID. -/
theorem C03_history_dependent [DecidableEq C] {E : Env C} (hinj : Function.Injective E.H) {Z : Nat}
    (hZ : ∀ k, E.zeros k ≤ Z) {fuel : Nat} (hf : Z + 2 ≤ fuel) {rd : C → Option (NodeData C)}
    (hs : StoreOK E rd) {k₁ k₂ : Key} (hv₁ : validKey k₁ = true) (hv₂ : validKey k₂ = true)
    (hz : E.zeros k₂ < E.zeros k₁) (v₁ v₂ : C) :
    ∃ n₁ n₂, Run E fuel rd n₁ [.add k₂ v₂] [none] ∧
      Run E fuel rd n₂ [.add k₁ v₁, .delete k₁, .add k₂ v₂] [none, none, none] ∧
      (∀ k, get E rd fuel n₁ k = get E rd fuel n₂ k) ∧
      getPointer E rd fuel n₁ ≠ getPointer E rd fuel n₂ := by
  have hk : k₁ ≠ k₂ := by rintro rfl; omega
  obtain ⟨n₁, o₁, h₁⟩ := Run.total hs fuel [.add k₂ v₂]
  have ho₁ : o₁ = [none] := by
    rw [(h₁.inv hinj hZ hf).2.1]; simp [specRun, specStep, hv₂]
  subst ho₁
  have m₁ : (specRun [Op.add k₂ v₂]).1 = Function.update (fun _ => none) k₂ (some v₂) := by
    simp [specRun, specStep, hv₂]
  -- the second history, step by step
  have hc : create E rd fuel [] none = .ok (.mk (some []) (E.H ⟨none, []⟩) none false) := by
    simp [create, cidForEntries, serializeNodeData, serializeEntries]
  have r0 := Run.create (fuel := fuel) hs hc
  generalize hn0 : (Node.mk (some []) (E.H ⟨none, []⟩) none false : Node C) = n0 at r0
  have R0 : ReprN E rd 0 nil n0 := by
    subst hn0
    exact ⟨⟨by simp [Node.entries], by simp [Node.pointer, cidOf, nodeOf, ser],
      by simp [Node.layer]⟩, by simp [Node.entries, ReprEs]⟩
  have hl0 : LayerOK 0 (nil : Tree C) n0 := by subst hn0; intro _; rfl
  have hZ1 := hZ k₁
  have hZ2 := hZ k₂
  rcases add_spec (value := v₁) hv₁ (f := fuel) (.inl rfl) R0 (by simp [WF]) (by simp [Sorted, leaves])
    (by simp [ValidKeys, leaves]) hl0 (by omega) (by omega) with ⟨h, _⟩ | ⟨_, na, ta, ha, Ra, Wa, Ia, _, _⟩
  · simp [leaves, dictGet] at h
  obtain ⟨xs, ys, h1, h2, _, _⟩ := Ia
  simp only [leaves] at h1
  obtain ⟨rfl, rfl⟩ := List.append_eq_nil_iff.1 h1.symm
  simp only [List.nil_append] at h2
  have hmax : max 0 (E.zeros k₁) = E.zeros k₁ := by omega
  rw [hmax] at Ra Wa
  have ra : Run E fuel rd na [.add k₁ v₁] [none] := r0.ok (op := .add k₁ v₁) ha
  have ra3 := ra.inv hinj hZ hf
  rcases delete_spec (key := k₁) Ra Wa (by simp [Sorted, h2]) (f := fuel) (by omega) with
    ⟨h, _⟩ | ⟨nb, tb, Lb, vb, hb, Rb, Wb, Ib, _, _, hnb⟩
  · simp [h2, dictGet] at h
  obtain ⟨xs, ys, h3, h4, _, _⟩ := Ib
  have hlen : (leaves ta).length = xs.length + ys.length + 1 := by rw [h4]; simp; omega
  have hx : xs = [] ∧ ys = [] := by
    rw [h2] at hlen
    simp only [List.length_cons, List.length_nil] at hlen
    constructor <;> exact List.eq_nil_of_length_eq_zero (by omega)
  obtain ⟨rfl, rfl⟩ := hx
  have htb : tb = nil := by
    by_contra hne
    exact WF_leaves_ne Wb hne (by simpa using h3)
  subst htb
  obtain ⟨hLb, hlb⟩ := hnb rfl
  have rb : Run E fuel rd nb [.add k₁ v₁, .delete k₁] [none, none] := ra.ok (op := .delete k₁) hb
  -- the root object remembers the layer
  have hlayer : nb.layer = some (E.zeros k₁ : Int) := by
    rw [hlb]
    obtain ⟨f, rfl⟩ : ∃ f, fuel = f + 1 := ⟨fuel - 1, by omega⟩
    subst hn0
    unfold add at ha
    have hgl : getLayer E rd f (.mk (some []) (E.H ⟨none, []⟩) none false) = .ok 0 := by
      have := getLayer_nil R0 (f := f) (by omega)
      simpa [Node.layer] using this
    have hpos : ¬ ((E.zeros k₁ : Int) = 0) := by omega
    have hpos' : ¬ ((E.zeros k₁ : Int) < 0) := by omega
    simp only [ensureValidKey, hv₁, if_true, ok_bind, hgl, keyZeros, hpos, hpos', if_false] at ha
    cases hsp : splitAround E rd f
        ((Node.mk (some []) (E.H ⟨none, []⟩) none false : Node C).setLayer 0) k₁ with
    | error e => rw [hsp] at ha; cases ha
    | ok lr =>
      rw [hsp] at ha
      simp only [ok_bind] at ha
      cases hl : addParents E rd f (((E.zeros k₁ : Int) - 0).toNat - 1) lr.1 with
      | error e => rw [hl] at ha; cases ha
      | ok left =>
        rw [hl] at ha
        simp only [ok_bind] at ha
        cases hr : addParents E rd f (((E.zeros k₁ : Int) - 0).toNat - 1) lr.2 with
        | error e => rw [hr] at ha; cases ha
        | ok right =>
          rw [hr] at ha
          simp only [ok_bind, create] at ha
          cases hcr : cidForEntries E rd f (optTree left ++ [Ent.leaf k₁ v₁] ++ optTree right) with
          | error e => rw [hcr] at ha; cases ha
          | ok p =>
            rw [hcr] at ha
            simp only [ok_bind, Node.entries, Node.pointer, Node.layer, Except.ok.injEq] at ha
            rw [← ha]; rfl
  have hLb' : LayerOK Lb (nil : Tree C) nb := by
    intro _; rw [hlayer, hLb]; rfl
  rcases add_spec (value := v₂) hv₂ (f := fuel) (.inl rfl) Rb (by simp [WF]) (by simp [Sorted, leaves])
    (by simp [ValidKeys, leaves]) hLb' (by omega) (by omega) with ⟨h, _⟩ | ⟨_, nc, tc, hcc, Rc, Wc, Ic, _, _⟩
  · simp [leaves, dictGet] at h
  obtain ⟨xs, ys, h5, h6, _, _⟩ := Ic
  simp only [leaves] at h5
  obtain ⟨rfl, rfl⟩ := List.append_eq_nil_iff.1 h5.symm
  simp only [List.nil_append] at h6
  have rc : Run E fuel rd nc [.add k₁ v₁, .delete k₁, .add k₂ v₂] [none, none, none] :=
    rb.ok (op := .add k₂ v₂) hcc
  refine ⟨n₁, nc, h₁, rc, ?_, ?_⟩
  · obtain ⟨_, _, L, t, hi, _⟩ := h₁.inv hinj hZ hf
    have := hi.bound
    intro k
    rw [get_spec hi.repr hi.wf hi.sorted (by omega), get_spec Rc Wc (by simp [Sorted, h6])
      (by omega), hi.map, m₁, h6]
    by_cases hk' : k = k₂
    · subst hk'; simp [dictGet]
    · simp [dictGet, hk', Ne.symm hk']
  · obtain ⟨_, _, L, t, hi, hT⟩ := h₁.inv hinj hZ hf
    have hbd := hi.bound
    have hv : ValidKeys tc := by
      intro kv hkv; rw [h6] at hkv; simp only [List.mem_singleton] at hkv; rw [hkv]; exact hv₂
    rw [getPointer_spec hi.repr hi.wf hi.valid (by omega), getPointer_spec Rc Wc hv (by omega)]
    intro heq
    simp only [Except.ok.injEq] at heq
    rcases cid_inj hi.wf Wc heq with rfl | hcol
    · have htr := (hT (noEmptying_of_no_delete (by simp))).1
      have := Trimmed_single htr Wc h6
      omega
    · exact hcol.not_inj hinj

/-- The failure happens with real keys: `a/a` is on layer 3 and `a/b` on layer 0. -/
theorem C03_history_dependent_sha256 :
    ∃ n₁ n₂, Run exE 130 noBlocks n₁ [.add (key "a/b") (.val 2)] [none] ∧
      Run exE 130 noBlocks n₂
        [.add (key "a/a") (.val 1), .delete (key "a/a"), .add (key "a/b") (.val 2)]
        [none, none, none] ∧
      (∀ k, get exE noBlocks 130 n₁ k = get exE noBlocks 130 n₂ k) ∧
      getPointer exE noBlocks 130 n₁ ≠ getPointer exE noBlocks 130 n₂ :=
  C03_history_dependent exE_inj exE_le (by norm_num) noBlocks_ok (by decide +kernel)
    (by decide +kernel) (by decide +kernel) _ _

end Arroba
