import Mathlib.Data.List.Induction
import Verif.Util.Tid
import Mathlib.Tactic.Linarith
import Mathlib.Tactic.Ring

/-! Helper lemmas for TIDs: fixed-width base-32 numerals. -/

namespace Arroba.Tid

/-- The digit character. -/
def digit (n : Nat) : Char := s32Chars.getD (n % 32) '2'

/-- Fixed-width big-endian numeral of `n mod 32^w`. -/
def numeral : Nat → Nat → Key
  | 0, _ => []
  | w + 1, n => numeral w (n / 32) ++ [digit n]

theorem numeral_length (w n : Nat) : (numeral w n).length = w := by
  induction w generalizing n with
  | zero => rfl
  | succ w ih => simp [numeral, ih]

theorem loop_eq (n : Nat) (acc : Key) : ∃ w, s32encodeLoop n acc = numeral w n ++ acc ∧ n < 32 ^ w ∧
    (n ≠ 0 → 32 ^ (w - 1) ≤ n) ∧ (n = 0 → w = 0) := by
  induction n using Nat.strong_induction_on generalizing acc with
  | _ n ih =>
    unfold s32encodeLoop
    by_cases h : (0 : Int) < n
    · rw [if_pos h]
      have h0 : 0 < n := by omega
      have e1 : ((n : Int) / 32) = ((n / 32 : Nat) : Int) := by omega
      have e2 : ((n : Int) % 32).toNat = n % 32 := by omega
      rw [e1, e2]
      obtain ⟨w, hw, h1, h2, h3⟩ := ih (n / 32) (by omega) (s32Chars.getD (n % 32) '2' :: acc)
      refine ⟨w + 1, ?_, ?_, ?_, by omega⟩
      · rw [hw]; simp [numeral, digit]
      · rw [pow_succ]; omega
      · intro _
        by_cases h4 : n / 32 = 0
        · have := h3 h4; subst this; simp; omega
        · have h5 := h2 h4
          have : w ≠ 0 := by
            rintro rfl
            simp at h1; omega
          obtain ⟨w', rfl⟩ : ∃ w', w = w' + 1 := ⟨w - 1, by omega⟩
          simp only [Nat.add_sub_cancel] at h5 ⊢
          rw [pow_succ]; omega
    · rw [if_neg h]
      have : n = 0 := by omega
      subst this
      exact ⟨0, rfl, by simp, by simp, fun _ => rfl⟩

theorem numeral_zero (w : Nat) : numeral w 0 = List.replicate w '2' := by
  induction w with
  | zero => rfl
  | succ w ih =>
    rw [numeral, ih]
    have : digit 0 = '2' := by decide
    rw [this, List.replicate_succ']

/-- Padding with the zero digit. -/
theorem numeral_pad {w n : Nat} (h : n < 32 ^ w) (k : Nat) :
    numeral (k + w) n = List.replicate k '2' ++ numeral w n := by
  induction w generalizing n with
  | zero =>
    have : n = 0 := by simpa using h
    subst this
    simp [numeral_zero, numeral]
  | succ w ih =>
    have : n / 32 < 32 ^ w := by rw [pow_succ] at h; omega
    rw [← Nat.add_assoc, numeral, ih this, numeral, List.append_assoc]

/-- The encoding of `n` in as many digits as it needs. -/
theorem s32encode_eq (n : Nat) : ∃ w, s32encode n = numeral w n ∧ n < 32 ^ w ∧
    (n ≠ 0 → 32 ^ (w - 1) ≤ n) ∧ (n = 0 → w = 0) := by
  obtain ⟨w, h1, h2⟩ := loop_eq n []
  exact ⟨w, by simpa [s32encode] using h1, h2⟩

theorem s32encode_neg {num : Int} (h : num ≤ 0) : s32encode num = [] := by
  unfold s32encode s32encodeLoop
  rw [if_neg (by omega)]

/-- The clock part for a 5-bit clock id. -/
def clockPart (c : Nat) : Key := if c = 0 then ['2', '2'] else [digit c, '2']

theorem clock_eq {c : Nat} (h : c < 32) : ljust (s32encode c) 2 '2' = clockPart c := by
  obtain ⟨w, h1, h2, h3, h4⟩ := s32encode_eq c
  unfold clockPart ljust
  rw [h1]
  by_cases hc : c = 0
  · have := h4 hc; subst this; simp [numeral, hc]
  · have h5 := h3 hc
    have : w = 1 := by
      by_contra hw
      have hw0 : w ≠ 0 := by rintro rfl; simp at h2; omega
      have : 32 ^ 1 ≤ 32 ^ (w - 1) := Nat.pow_le_pow_right (by omega) (by omega)
      omega
    subst this
    simp [numeral, hc]

theorem clockPart_length (c : Nat) : (clockPart c).length = 2 := by
  unfold clockPart; split <;> rfl

/-- `int_to_tid` computes the 11-digit numeral followed by the clock part, exactly when the number
fits. -/
theorem intToTid_spec (rc : Int) (n c : Nat) (hc : c < 32) :
    intToTid rc n (some (c : Int)) =
      if n < 32 ^ 11 then .ok (numeral 11 n ++ clockPart c) else .error .assertion := by
  obtain ⟨w, h1, h2, h3, h4⟩ := s32encode_eq n
  unfold intToTid
  simp only [Option.getD_some, clock_eq hc, h1, List.length_append, numeral_length,
    clockPart_length]
  by_cases hn : n < 32 ^ 11
  · have hw : w ≤ 11 := by
      by_contra hw
      by_cases h0 : n = 0
      · have := h4 h0; omega
      · have : 32 ^ 11 ≤ 32 ^ (w - 1) := Nat.pow_le_pow_right (by omega) (by omega)
        have := h3 h0
        omega
    rw [if_pos (by omega), if_pos hn, rjust]
    simp only [List.length_append, numeral_length, clockPart_length]
    have := numeral_pad h2 (11 - w)
    rw [show 11 - w + w = 11 by omega] at this
    rw [this, show 13 - (w + 2) = 11 - w by omega, List.append_assoc]
  · have hw : ¬ w ≤ 11 := by
      intro hw
      have : 32 ^ w ≤ 32 ^ 11 := Nat.pow_le_pow_right (by omega) hw
      omega
    rw [if_neg (by omega), if_neg hn]

theorem digit_mem (n : Nat) : digit n ∈ s32Chars := by
  have h : n % 32 < 32 := Nat.mod_lt _ (by omega)
  have : ∀ i, i < 32 → s32Chars.getD i '2' ∈ s32Chars := by decide
  exact this _ h

theorem digit_ne_dash (n : Nat) : digit n ≠ '-' := by
  have h : n % 32 < 32 := Nat.mod_lt _ (by omega)
  have : ∀ i, i < 32 → s32Chars.getD i '2' ≠ '-' := by decide
  exact this _ h

theorem numeral_mem (w n : Nat) : ∀ c ∈ numeral w n, c ∈ s32Chars := by
  induction w generalizing n with
  | zero => simp [numeral]
  | succ w ih =>
    intro c hc
    simp only [numeral, List.mem_append, List.mem_singleton] at hc
    rcases hc with hc | rfl
    · exact ih _ c hc
    · exact digit_mem n

theorem clockPart_mem (c : Nat) : ∀ x ∈ clockPart c, x ∈ s32Chars := by
  intro x hx
  unfold clockPart at hx
  split at hx
  · revert x; decide
  · simp only [List.mem_cons, List.not_mem_nil, or_false] at hx
    rcases hx with rfl | rfl
    · exact digit_mem c
    · decide

theorem s32Index_digit (n : Nat) : s32Index (digit n) = .ok ((n % 32 : Nat) : Int) := by
  have h : n % 32 < 32 := Nat.mod_lt _ (by omega)
  have : ∀ i, i < 32 → s32Chars.findIdx? (· = s32Chars.getD i '2') = some i := by decide
  have e := this _ h
  unfold s32Index digit
  rw [e]

theorem decodeLoop_append (i : Int) (a b : Key) :
    s32decodeLoop i (a ++ b) = (s32decodeLoop i a >>= fun j => s32decodeLoop j b) := by
  induction a generalizing i with
  | nil => rfl
  | cons c cs ih =>
    simp only [List.cons_append, s32decodeLoop]
    cases s32Index c with
    | error e => rfl
    | ok x => exact ih _

theorem decode_numeral (w n : Nat) (h : n < 32 ^ w) : s32decode (numeral w n) = .ok (n : Int) := by
  unfold s32decode
  induction w generalizing n with
  | zero =>
    have : n = 0 := by simpa using h
    subst this; rfl
  | succ w ih =>
    have h' : n / 32 < 32 ^ w := by rw [pow_succ] at h; omega
    rw [numeral, decodeLoop_append, ih _ h']
    simp only [bind, Except.bind, s32decodeLoop, s32Index_digit]
    congr 1
    omega

theorem numeral_surj (l : Key) (h : ∀ c ∈ l, c ∈ s32Chars) : ∃ n, n < 32 ^ l.length ∧ numeral l.length n = l := by
  induction l using List.reverseRecOn with
  | nil => exact ⟨0, by simp, rfl⟩
  | append_singleton l c ih =>
    obtain ⟨n, h1, h2⟩ := ih fun c hc => h c (List.mem_append_left _ hc)
    have : ∀ c ∈ s32Chars, ∃ i, i < 32 ∧ digit i = c := by decide
    obtain ⟨i, h3, h4⟩ := this c (h c (by simp))
    have hl : (l ++ [c]).length = l.length + 1 := by simp
    refine ⟨n * 32 + i, ?_, ?_⟩
    · rw [hl, pow_succ]; omega
    · rw [hl, numeral, show (n * 32 + i) / 32 = n by omega, h2]
      have : digit (n * 32 + i) = digit i := by
        unfold digit
        rw [show (n * 32 + i) % 32 = i % 32 by omega]
      rw [this, h4]

theorem s32Index_other {c : Char} (h : c ∉ s32Chars) : s32Index c = .error .value := by
  unfold s32Index
  rw [List.findIdx?_eq_none_iff.2]
  intro x hx
  simp only [decide_eq_false_iff_not]
  rintro rfl
  exact h hx

theorem s32Index_err {c : Char} {e : Err} (h : s32Index c = .error e) : e = .value := by
  unfold s32Index at h
  split at h
  · cases h
  · cases h; rfl

theorem decode_other {l : Key} {c : Char} (hc : c ∈ l) (h : c ∉ s32Chars) (i : Int) :
    s32decodeLoop i l = .error .value := by
  induction l generalizing i with
  | nil => cases hc
  | cons x l ih =>
    unfold s32decodeLoop
    cases hx : s32Index x with
    | error e => rw [s32Index_err hx]; rfl
    | ok v =>
      rcases List.mem_cons.1 hc with rfl | hc
      · rw [s32Index_other h] at hx; cases hx
      · exact ih hc _

theorem slice_two (l : Key) : pySlice l 0 (some (-2)) = l.take (l.length - 2) := by
  unfold pySlice
  have e1 : sliceBound l.length 0 = 0 := by unfold sliceBound; simp
  have e2 : sliceBound l.length (-2) = l.length - 2 := by
    unfold sliceBound
    split <;> omega
  simp only [e1, e2, List.drop_zero, Nat.sub_zero]

/-! ### Order -/

theorem digit_lt {a b : Nat} (h : a % 32 < b % 32) : digit a < digit b := by
  have hb : b % 32 < 32 := Nat.mod_lt _ (by omega)
  have : ∀ j, j < 32 → ∀ i, i < j → s32Chars.getD i '2' < s32Chars.getD j '2' := by decide
  exact this _ hb _ h

theorem lt_append_left {a b : Key} (h : a < b) (hl : a.length = b.length) (x y : Key) :
    a ++ x < b ++ y := by
  induction a generalizing b with
  | nil => cases b <;> simp at hl; cases h
  | cons c cs ih =>
    cases b with
    | nil => simp at hl
    | cons d ds =>
      simp only [List.length_cons, Nat.add_right_cancel_iff] at hl
      rw [List.cons_lt_cons_iff] at h
      simp only [List.cons_append]
      rw [List.cons_lt_cons_iff]
      rcases h with h | ⟨rfl, h⟩
      · exact .inl h
      · exact .inr ⟨rfl, ih h hl⟩

theorem append_lt_append_left (a : Key) {x y : Key} (h : x < y) : a ++ x < a ++ y := by
  induction a with
  | nil => exact h
  | cons c cs ih =>
    simp only [List.cons_append]
    rw [List.cons_lt_cons_iff]
    exact .inr ⟨rfl, ih⟩

theorem numeral_lt {w m n : Nat} (hn : n < 32 ^ w) (h : m < n) : numeral w m < numeral w n := by
  induction w generalizing m n with
  | zero => simp at hn; omega
  | succ w ih =>
    have hn' : n / 32 < 32 ^ w := by rw [pow_succ] at hn; omega
    simp only [numeral]
    rcases Nat.lt_or_ge (m / 32) (n / 32) with h' | h'
    · exact lt_append_left (ih hn' h') (by simp [numeral_length]) _ _
    · have e : m / 32 = n / 32 := by
        have := Nat.div_le_div_right (c := 32) (Nat.le_of_lt h)
        omega
      rw [e]
      refine append_lt_append_left _ ?_
      rw [List.cons_lt_cons_iff]
      exact .inl (digit_lt (by omega))

end Arroba.Tid
