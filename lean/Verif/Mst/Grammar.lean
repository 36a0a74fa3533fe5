import Verif.Mst.Model

/-! The key grammar, stated independently of the code, and its equivalence with
`ensure_valid_key`. -/

namespace Arroba

/-- The characters allowed in a collection or record key. -/
def keyAlphabet : List Char :=
  "abcdefghijklmnopqrstuvwxyzABCDEFGHIJKLMNOPQRSTUVWXYZ0123456789_-:.".toList

/-- At most 256 characters; two non-empty parts over the alphabet, one slash between. -/
def KeyGrammar (k : Key) : Prop :=
  k.length ≤ 256 ∧ ∃ a b : Key, k = a ++ '/' :: b ∧ a ≠ [] ∧ b ≠ [] ∧
    (∀ c ∈ a, c ∈ keyAlphabet) ∧ (∀ c ∈ b, c ∈ keyAlphabet)

theorem pySplit_ne_nil (sep : Char) (s : Key) : pySplit sep s ≠ [] := by
  induction s with
  | nil => simp [pySplit]
  | cons c cs ih =>
    simp only [pySplit]
    split
    · simp
    · split <;> simp

theorem pySplit_one {sep : Char} {s a : Key} : pySplit sep s = [a] ↔ s = a ∧ sep ∉ a := by
  induction s generalizing a with
  | nil => simp only [pySplit, List.cons.injEq, and_true]; constructor <;> (rintro h; simp_all)
  | cons c cs ih =>
    simp only [pySplit]
    split
    · rename_i h
      subst h
      simp only [List.cons.injEq]
      constructor
      · rintro ⟨_, h⟩; exact absurd h (pySplit_ne_nil _ _)
      · rintro ⟨rfl, h⟩; simp at h
    · rename_i hc
      cases hp : pySplit sep cs with
      | nil => exact absurd hp (pySplit_ne_nil _ _)
      | cons p ps =>
        simp only [List.cons.injEq]
        constructor
        · rintro ⟨rfl, rfl⟩
          have := (ih (a := p)).1 hp
          refine ⟨by rw [this.1], ?_⟩
          simp only [List.mem_cons, not_or]
          exact ⟨fun h => hc h.symm, this.2⟩
        · rintro ⟨rfl, h⟩
          simp only [List.mem_cons, not_or] at h
          have := (ih (a := cs)).2 ⟨rfl, h.2⟩
          rw [hp] at this
          simp only [List.cons.injEq] at this
          exact ⟨by rw [this.1], this.2⟩

theorem pySplit_two {sep : Char} {s a b : Key} :
    pySplit sep s = [a, b] ↔ s = a ++ sep :: b ∧ sep ∉ a ∧ sep ∉ b := by
  induction s generalizing a with
  | nil => simp [pySplit]
  | cons c cs ih =>
    simp only [pySplit]
    split
    · rename_i h
      subst h
      simp only [List.cons.injEq]
      constructor
      · rintro ⟨rfl, h⟩
        have := pySplit_one.1 h
        simp [this.1, this.2]
      · rintro ⟨h, ha, hb⟩
        cases a with
        | nil =>
          simp only [List.nil_append, List.cons.injEq, true_and] at h
          exact ⟨rfl, pySplit_one.2 ⟨h, hb⟩⟩
        | cons x xs =>
          simp only [List.cons_append, List.cons.injEq] at h
          exact absurd (by simp [h.1]) ha
    · rename_i hc
      cases hp : pySplit sep cs with
      | nil => exact absurd hp (pySplit_ne_nil _ _)
      | cons p ps =>
        simp only [List.cons.injEq]
        constructor
        · rintro ⟨rfl, rfl⟩
          have := (ih (a := p)).1 hp
          refine ⟨by rw [this.1]; rfl, ?_, this.2.2⟩
          simp only [List.mem_cons, not_or]
          exact ⟨fun h => hc h.symm, this.2.1⟩
        · rintro ⟨h, ha, hb⟩
          cases a with
          | nil => simp only [List.nil_append, List.cons.injEq] at h; exact absurd h.1 hc
          | cons x xs =>
            simp only [List.cons_append, List.cons.injEq] at h
            simp only [List.mem_cons, not_or] at ha
            have := (ih (a := xs)).2 ⟨h.2, ha.2, hb⟩
            rw [hp] at this
            simp only [List.cons.injEq] at this
            exact ⟨by rw [this.1, h.1], this.2⟩

theorem validKeyChar_iff (c : Char) : validKeyChar c = true ↔ c ∈ keyAlphabet := by
  have key : ∀ n < 128, validKeyChar (Char.ofNat n) = decide (Char.ofNat n ∈ keyAlphabet) := by
    decide +kernel
  have hc : c = Char.ofNat c.toNat := by simp
  by_cases hlt : c.toNat < 128
  · have := key c.toNat hlt
    rw [← hc] at this
    rw [this, decide_eq_true_iff]
  · constructor
    · intro h
      exfalso
      apply hlt
      simp only [validKeyChar, Bool.or_eq_true, Bool.and_eq_true, decide_eq_true_eq] at h
      have up : ∀ d : Char, d.toNat < 128 → c ≤ d → c.toNat < 128 := by
        intro d hd h
        have h' : c.toNat ≤ d.toNat := h
        omega
      rcases h with (((((h | h) | h) | h) | h) | h) | h
      · exact up 'z' (by decide) h.2
      · exact up 'Z' (by decide) h.2
      · exact up '9' (by decide) h.2
      all_goals (subst h; decide)
    · intro h
      exfalso
      apply hlt
      have : ∀ d ∈ keyAlphabet, d.toNat < 128 := by decide +kernel
      exact this c h

theorem keyPartMatches_iff (s : Key) :
    keyPartMatches s = true ↔ s ≠ [] ∧ ∀ c ∈ s, c ∈ keyAlphabet := by
  simp [keyPartMatches, validKeyChar_iff]

theorem validKey_iff (k : Key) : validKey k = true ↔ KeyGrammar k := by
  have hslash : '/' ∉ keyAlphabet := by decide +kernel
  unfold validKey KeyGrammar
  rw [Bool.and_eq_true, decide_eq_true_iff]
  refine and_congr Iff.rfl ?_
  constructor
  · intro h
    split at h
    · rename_i a b hs
      simp only [Bool.and_eq_true, keyPartMatches_iff] at h
      exact ⟨a, b, (pySplit_two.1 hs).1, h.1.2.1, h.2.1, h.1.2.2, h.2.2⟩
    · cases h
  · rintro ⟨a, b, rfl, ha, hb, hac, hbc⟩
    have : pySplit '/' (a ++ '/' :: b) = [a, b] :=
      pySplit_two.2 ⟨rfl, fun h => hslash (hac _ h), fun h => hslash (hbc _ h)⟩
    rw [this]
    simp only [Bool.and_eq_true, keyPartMatches_iff]
    refine ⟨⟨⟨?_, ?_⟩, ha, hac⟩, hb, hbc⟩
    · cases a <;> simp_all
    · cases b <;> simp_all

end Arroba
