import Verif.Example
import Verif.Mst.Grammar

/-! # C02: the error contract of the MST -/

namespace Arroba

variable {C : Type}

section
variable [DecidableEq C] {E : Env C} {rd : C → Option (NodeData C)} {Z fuel : Nat} {n : Node C}
  {ops : List (Op C)} {outs : List (Option Err)}

theorem Run.step (hinj : Function.Injective E.H) (hZ : ∀ k, E.zeros k ≤ Z) (hf : Z + 2 ≤ fuel)
    (h : Run E fuel rd n ops outs) (op : Op C) :
    (∀ k, get E rd fuel n k = .ok ((specRun ops).1 k)) ∧
    match (specStep (specRun ops).1 op).2 with
    | some e => applyOp E rd fuel n op = .error e
    | none => ∃ n', applyOp E rd fuel n op = .ok n' := by
  obtain ⟨_, rfl, L, t, hi, _⟩ := h.inv hinj hZ hf
  have hb := hi.bound
  refine ⟨fun k => by rw [get_spec hi.repr hi.wf hi.sorted (by omega), ← hi.map], ?_⟩
  have := hi.step hZ hf op
  split at this
  · rename_i e he; rw [he]; exact this.1
  · rename_i he; rw [he]; obtain ⟨n', _, _, h', _⟩ := this; exact ⟨n', h'⟩

/-- **C02 (add).** `add` raises `ValueError` exactly when the key is invalid or present,
and succeeds otherwise; no other exception is possible. -/
theorem C02_add (hinj : Function.Injective E.H) (hZ : ∀ k, E.zeros k ≤ Z) (hf : Z + 2 ≤ fuel)
    (h : Run E fuel rd n ops outs) (k : Key) (v : C) :
    ((¬ KeyGrammar k ∨ ∃ w, get E rd fuel n k = .ok (some w)) ∧
      add E rd fuel n k v none = .error .value) ∨
    (KeyGrammar k ∧ get E rd fuel n k = .ok none ∧
      ∃ n', add E rd fuel n k v none = .ok n') := by
  obtain ⟨hg, hs⟩ := h.step hinj hZ hf (.add k v)
  rw [hg k, ← validKey_iff]
  simp only [specStep] at hs
  by_cases h1 : validKey k = false
  · simp only [h1, if_true] at hs; exact .inl ⟨.inl (by simp [h1]), hs⟩
  · by_cases h2 : (specRun ops).1 k = none
    · simp only [h1, h2, if_false, ne_eq, not_true_eq_false, applyOp] at hs
      exact .inr ⟨by simpa using h1, by rw [h2], hs⟩
    · simp only [h1, h2, if_false, ne_eq, not_false_eq_true, if_true, applyOp] at hs
      obtain ⟨w, hw⟩ := Option.ne_none_iff_exists'.1 h2
      exact .inl ⟨.inr ⟨w, by rw [hw]⟩, hs⟩

/-- **C02 (update).** `update` raises `ValueError` on an invalid key, `KeyError` exactly when a
valid key is absent, and succeeds otherwise. -/
theorem C02_update (hinj : Function.Injective E.H) (hZ : ∀ k, E.zeros k ≤ Z) (hf : Z + 2 ≤ fuel)
    (h : Run E fuel rd n ops outs) (k : Key) (v : C) :
    (¬ KeyGrammar k ∧ update E rd fuel n k v = .error .value) ∨
    (KeyGrammar k ∧ get E rd fuel n k = .ok none ∧
      update E rd fuel n k v = .error .key) ∨
    (KeyGrammar k ∧ (∃ w, get E rd fuel n k = .ok (some w)) ∧
      ∃ n', update E rd fuel n k v = .ok n') := by
  obtain ⟨hg, hs⟩ := h.step hinj hZ hf (.update k v)
  rw [hg k, ← validKey_iff]
  simp only [specStep] at hs
  by_cases h1 : validKey k = false
  · simp only [h1, if_true] at hs; exact .inl ⟨by simp [h1], hs⟩
  · have h1' : validKey k = true := by simpa using h1
    by_cases h2 : (specRun ops).1 k = none
    · simp only [h1, h2, if_false, if_true, applyOp] at hs
      exact .inr (.inl ⟨h1', by rw [h2], hs⟩)
    · simp only [h1, h2, if_false, applyOp] at hs
      obtain ⟨w, hw⟩ := Option.ne_none_iff_exists'.1 h2
      exact .inr (.inr ⟨h1', ⟨w, by rw [hw]⟩, hs⟩)

/-- **C02 (delete).** `delete` raises `KeyError` exactly when the key is absent (valid or not),
and succeeds otherwise. -/
theorem C02_delete (hinj : Function.Injective E.H) (hZ : ∀ k, E.zeros k ≤ Z) (hf : Z + 2 ≤ fuel)
    (h : Run E fuel rd n ops outs) (k : Key) :
    (get E rd fuel n k = .ok none ∧ delete E rd fuel n k = .error .key) ∨
    ((∃ w, get E rd fuel n k = .ok (some w)) ∧ ∃ n', delete E rd fuel n k = .ok n') := by
  obtain ⟨hg, hs⟩ := h.step hinj hZ hf (.delete k)
  rw [hg k]
  simp only [specStep] at hs
  by_cases h2 : (specRun ops).1 k = none
  · simp only [h2, if_true, applyOp] at hs; exact .inl ⟨by rw [h2], hs⟩
  · simp only [h2, if_false, applyOp] at hs
    obtain ⟨w, hw⟩ := Option.ne_none_iff_exists'.1 h2
    exact .inr ⟨⟨w, by rw [hw]⟩, hs⟩

end

/-- Non-vacuity: a reached tree on which each of the error cases occurs. -/
example : Run exE 130 noBlocks (exAfter exOps) exOps exOuts ∧
    get exE noBlocks 130 (exAfter exOps) (key "a/a") = .ok (some (.val 1)) ∧
    get exE noBlocks 130 (exAfter exOps) (key "zz/z") = .ok none ∧
    ¬ KeyGrammar (key "bad key") :=
  ⟨exRun, by decide +kernel, by decide +kernel, by rw [← validKey_iff]; decide +kernel⟩

end Arroba
