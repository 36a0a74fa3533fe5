import Verif.Props.C02

/-! # C10: the key grammar -/

namespace Arroba

variable {C : Type}

/-- **C10.** `ensure_valid_key` returns normally exactly on the keys of the grammar (at most
256 characters, two non-empty parts over `[a-zA-Z0-9_:.-]`, one slash) and raises `ValueError`
on every other string. -/
theorem C10_ensure_valid_key (k : Key) :
    (KeyGrammar k ∧ ensureValidKey k = .ok ()) ∨
    (¬ KeyGrammar k ∧ ensureValidKey k = .error .value) := by
  unfold ensureValidKey
  by_cases h : validKey k = true
  · exact .inl ⟨(validKey_iff k).1 h, by simp [h]⟩
  · exact .inr ⟨fun h' => h ((validKey_iff k).2 h'), by simp [h]⟩

/-- **C10.** Every accepted key is pure ASCII. -/
theorem C10_ascii {k : Key} (h : ensureValidKey k = .ok ()) : ∀ c ∈ k, c.toNat < 128 := by
  have hg : KeyGrammar k := by
    rcases C10_ensure_valid_key k with h' | h'
    · exact h'.1
    · rw [h'.2] at h; cases h
  obtain ⟨_, a, b, rfl, _, _, ha, hb⟩ := hg
  have key : ∀ d ∈ keyAlphabet, d.toNat < 128 := by decide +kernel
  intro c hc
  simp only [List.mem_append, List.mem_cons] at hc
  rcases hc with hc | rfl | hc
  · exact key c (ha c hc)
  · decide
  · exact key c (hb c hc)

/-- **C10.** On a reached tree, `add` of an absent key and `update` of a present key accept the
key exactly when it satisfies the grammar. -/
theorem C10_add_update [DecidableEq C] {E : Env C} {rd : C → Option (NodeData C)} {Z fuel : Nat}
    {n : Node C} {ops : List (Op C)} {outs : List (Option Err)}
    (hinj : Function.Injective E.H) (hZ : ∀ k, E.zeros k ≤ Z) (hf : Z + 2 ≤ fuel)
    (h : Run E fuel rd n ops outs) (k : Key) (v : C) :
    (get E rd fuel n k = .ok none →
      ((∃ n', add E rd fuel n k v none = .ok n') ↔ KeyGrammar k)) ∧
    ((∃ w, get E rd fuel n k = .ok (some w)) →
      ((∃ n', update E rd fuel n k v = .ok n') ↔ KeyGrammar k)) := by
  constructor
  · intro hg
    rcases C02_add hinj hZ hf h k v with ⟨h1 | ⟨w, h1⟩, h2⟩ | ⟨h1, _, h2⟩
    · simp [h1, h2]
    · rw [hg] at h1; cases h1
    · simp [h1, h2]
  · rintro ⟨w, hg⟩
    rcases C02_update hinj hZ hf h k v with ⟨h1, h2⟩ | ⟨_, h1, _⟩ | ⟨h1, _, h2⟩
    · simp [h1, h2]
    · rw [hg] at h1; cases h1
    · simp [h1, h2]

/-- Non-vacuity: accepted and rejected keys (including a trailing newline, which a `$`-anchored
regular expression would let through). -/
example : ensureValidKey (key "app.bsky.feed.post/3k_:-Z") = .ok () ∧
    ensureValidKey (key "a/b\n") = .error .value ∧ ensureValidKey (key "a/b/c") = .error .value ∧
    ensureValidKey (key "/b") = .error .value ∧
    ensureValidKey (key "a/" ++ List.replicate 255 'b') = .error .value := by
  decide +kernel

end Arroba
