import Verif.Util.TidProofs

/-! # C18: TID round trip -/

namespace Arroba
open Tid

/-- The alphabet of AT Protocol TIDs, written out independently of the code's constant:
digits 2-7, then lowercase letters. -/
def IsS32Char (c : Char) : Prop := ('2' ≤ c ∧ c ≤ '7') ∨ ('a' ≤ c ∧ c ≤ 'z')

theorem s32Chars_isS32 : ∀ c ∈ s32Chars, IsS32Char c := by
  unfold IsS32Char; decide

theorem tidToInt_intToTid {n c : Nat} (hn : n < 32 ^ 11) :
    tidToInt (.str (numeral 11 n ++ clockPart c)) = .ok (n : Int) := by
  have hl : (numeral 11 n ++ clockPart c).length = 13 := by
    simp [numeral_length, clockPart_length]
  have hf : (numeral 11 n ++ clockPart c).filter (· ≠ '-') = numeral 11 n ++ clockPart c := by
    rw [List.filter_eq_self]
    intro x hx
    have hm : x ∈ s32Chars := by
      rcases List.mem_append.mp hx with h | h
      · exact numeral_mem _ _ _ h
      · exact clockPart_mem _ _ h
    have : ∀ y ∈ s32Chars, decide (y ≠ '-') = true := by decide
    exact this x hm
  simp only [tidToInt, hl, ne_eq, not_true_eq_false, if_false]
  rw [show (fun x : Char => decide ¬x = '-') = (fun x => decide (x ≠ '-')) from rfl, hf]
  have : pySlice (numeral 11 n ++ clockPart c) 0 (some (-2)) = numeral 11 n := by
    have e1 : sliceBound 13 0 = 0 := by decide
    have e2 : sliceBound 13 (-2) = 11 := by decide
    simp only [pySlice, hl, e1, e2, List.drop_zero]
    have : (numeral 11 n ++ clockPart c).take 11 = numeral 11 n := by
      rw [List.take_append_of_le_length (by simp [numeral_length]),
        List.take_of_length_le (by simp [numeral_length])]
    exact this
  rw [this, decode_numeral _ _ hn]

/-- **C18 (round trip).** For every non-negative integer below 32^11 and every clock id 0..31,
`int_to_tid` returns a 13-character string over the TID alphabet, and `tid_to_int` of that string
is the integer. This holds whether the clock id is passed or is the runtime's. -/
theorem C18_round_trip (runtimeClock : Nat) (hrc : runtimeClock < 32) (clockId : Option Nat)
    (hc : ∀ c, clockId = some c → c < 32) (n : Nat) (hn : n < 32 ^ 11) :
    ∃ tid, intToTid runtimeClock n (clockId.map (Int.ofNat ·)) = .ok tid ∧
      tid.length = 13 ∧ (∀ c ∈ tid, IsS32Char c) ∧ tidToInt (.str tid) = .ok (n : Int) ∧
      tidToDatetime (.str tid) = .ok (n : Int) := by
  obtain ⟨c, hc32, e⟩ : ∃ c : Nat, c < 32 ∧ intToTid runtimeClock n (clockId.map (Int.ofNat ·)) =
      intToTid runtimeClock n (some (c : Int)) := by
    cases clockId with
    | none => exact ⟨runtimeClock, hrc, rfl⟩
    | some c => exact ⟨c, hc c rfl, rfl⟩
  refine ⟨numeral 11 n ++ clockPart c, ?_, by simp [numeral_length, clockPart_length], ?_,
    tidToInt_intToTid hn, tidToInt_intToTid hn⟩
  · rw [e, intToTid_spec _ _ _ hc32, if_pos hn]
  · intro x hx
    rcases List.mem_append.mp hx with h | h
    · exact s32Chars_isS32 _ (numeral_mem _ _ _ h)
    · exact s32Chars_isS32 _ (clockPart_mem _ _ h)

/-- **C18 (rejection).** Integers that do not fit in 55 bits are rejected, for every clock id. -/
theorem C18_rejects (runtimeClock : Int) (c : Nat) (hc : c < 32) (n : Nat) (hn : 32 ^ 11 ≤ n) :
    intToTid runtimeClock n (some (c : Int)) = .error .assertion := by
  rw [intToTid_spec _ _ _ hc, if_neg (by omega)]

/-- **C18 (argument checking).** `tid_to_int` raises ValueError for strings of another length. -/
theorem C18_bad_length (s : Key) (h : s.length ≠ 13) : tidToInt (.str s) = .error .value := by
  simp [tidToInt, h]

theorem isS32_mem {c : Char} (h : IsS32Char c) : c ∈ s32Chars := by
  have hlt : c.toNat < 128 := by
    rcases h with ⟨_, h⟩ | ⟨_, h⟩
    · have : c.toNat ≤ '7'.toNat := h
      exact Nat.lt_of_le_of_lt this (by decide)
    · have : c.toNat ≤ 'z'.toNat := h
      exact Nat.lt_of_le_of_lt this (by decide)
  have : ∀ n, n < 128 → (('2' ≤ Char.ofNat n ∧ Char.ofNat n ≤ '7') ∨ ('a' ≤ Char.ofNat n ∧ Char.ofNat n ≤ 'z')) →
      Char.ofNat n ∈ s32Chars := by decide +kernel
  have := this c.toNat hlt
  rw [Char.ofNat_toNat] at this
  exact this h

/-- **C18 (other characters).** It also raises ValueError if a character outside of the alphabet comes before the last
two, after dashes are dropped. -/
theorem C18_bad_chars (s : Key) (h : s.length = 13) (c : Char)
    (hc : c ∈ (s.filter (· ≠ '-')).take ((s.filter (· ≠ '-')).length - 2)) (hn : ¬ IsS32Char c) :
    tidToInt (.str s) = .error .value := by
  unfold tidToInt
  dsimp only
  rw [if_neg (by omega), slice_two]
  exact decode_other hc (fun h => hn (s32Chars_isS32 c h)) 0

/-- **C18 (the other way).** Every string of 13 characters of the alphabet is a TID: `tid_to_int` gives a number that
fits, and `int_to_tid` of that number, for any clock id, gives the same string but for the clock id at the end. -/
theorem C18_inverse (s : Key) (h : s.length = 13) (hc : ∀ c ∈ s, IsS32Char c) (runtimeClock : Int) (c : Nat) (hc' : c < 32) :
    ∃ n tid, n < 32 ^ 11 ∧ tidToInt (.str s) = .ok (Int.ofNat n) ∧ intToTid runtimeClock n (some (c : Int)) = .ok tid ∧
      tid.take 11 = s.take 11 := by
  have hf : s.filter (· ≠ '-') = s := by
    rw [List.filter_eq_self]
    intro x hx
    have : ∀ y ∈ s32Chars, decide (y ≠ '-') = true := by decide
    exact this x (isS32_mem (hc x hx))
  have hl : (s.take 11).length = 11 := by simp [h]
  obtain ⟨n, h1, h2⟩ := numeral_surj (s.take 11) fun c h => isS32_mem (hc c (List.mem_of_mem_take h))
  rw [hl] at h1 h2
  refine ⟨n, numeral 11 n ++ clockPart c, h1, ?_, ?_, ?_⟩
  · unfold tidToInt
    dsimp only
    rw [if_neg (by omega), hf, slice_two, h, ← h2, decode_numeral _ _ h1]
    rfl
  · rw [intToTid_spec _ _ _ hc', if_pos h1]
  · rw [List.take_append_of_le_length (by simp [numeral_length]), List.take_of_length_le (by simp [numeral_length]), h2]

/-- **C18 (finding).** The docstring of `tid_to_int` says the TID is `bytes`, but every 13-byte
`bytes` value raises TypeError. -/
theorem C18_bytes_raise (b : List UInt8) (h : b.length = 13) :
    tidToInt (.bytes b) = .error .attribute := by
  simp [tidToInt, h]

/-- **C18 (finding).** Negative integers are not rejected: they encode like zero, so the round
trip cannot be extended to them. -/
theorem C18_negative (runtimeClock : Int) (c : Nat) (hc : c < 32) (n : Int) (hn : n < 0) :
    ∃ tid, intToTid runtimeClock n (some (c : Int)) = .ok tid ∧ tidToInt (.str tid) = .ok 0 := by
  refine ⟨numeral 11 0 ++ clockPart c, ?_, tidToInt_intToTid (by norm_num)⟩
  have h := intToTid_spec runtimeClock 0 c hc
  rw [if_pos (by norm_num)] at h
  rw [← h]
  simp only [intToTid]
  rw [s32encode_neg (by omega), s32encode_neg (by omega : ((0 : Nat) : Int) ≤ 0)]

-- the hypotheses are met by a realistic timestamp, and the value is the expected one
example : (1669083763000000 : Nat) < 32 ^ 11 ∧ (5 : Nat) < 32 := by decide
example : intToTid 3 (1669083763000000 : Nat) (some (5 : Nat)) = .ok "3ji2rggqkq272".toList := by
  rw [intToTid_spec _ _ _ (by decide), if_pos (by decide)]
  decide +kernel
example : (tidToInt (.str "3ji2rggqkq272".toList)).toOption = some 1669083763000000 := by
  decide +kernel
-- a character outside of the alphabet; and a clock id that no server of this kind writes
example : '1' ∈ ("3ji2rgg1kq272".toList.filter (· ≠ '-')).take (("3ji2rgg1kq272".toList.filter (· ≠ '-')).length - 2) ∧
    ¬ IsS32Char '1' := by unfold IsS32Char; decide
example : ∀ c ∈ "3ji2rggqkq2zz".toList, IsS32Char c := by unfold IsS32Char; decide

end Arroba
