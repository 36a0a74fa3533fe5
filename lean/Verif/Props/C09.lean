import Verif.Sha256Proofs
import Mathlib.Tactic.NormNum

/-! # C09: the layer is the number of leading zero bit pairs of the digest -/

namespace Arroba

/-- Bits of a byte, most significant first. -/
def byteBits (b : Nat) : List Bool :=
  [b / 128 % 2 = 1, b / 64 % 2 = 1, b / 32 % 2 = 1, b / 16 % 2 = 1,
   b / 8 % 2 = 1, b / 4 % 2 = 1, b / 2 % 2 = 1, b % 2 = 1]

/-- Splits a bit string into consecutive 2-bit pairs. -/
def bitPairs : List Bool → List (Bool × Bool)
  | a :: b :: rest => (a, b) :: bitPairs rest
  | _ => []

/-- Number of leading `00` pairs. -/
def leadingZeroPairs (bits : List Bool) : Nat :=
  ((bitPairs bits).takeWhile (fun p => p = (false, false))).length

theorem bitPairs_append8 (a b c d e f g h : Bool) (rest : List Bool) :
    bitPairs ([a, b, c, d, e, f, g, h] ++ rest) =
      [(a, b), (c, d), (e, f), (g, h)] ++ bitPairs rest := rfl

theorem byte_case : ∀ b < 256,
    (b = 0 → byteBits b = [false, false, false, false, false, false, false, false]) ∧
    (b ≠ 0 → ∃ p ∈ bitPairs (byteBits b), p ≠ (false, false)) ∧
    ((bitPairs (byteBits b)).takeWhile (fun p => p = (false, false))).length =
      (if b < 64 then 1 else 0) + (if b < 16 then 1 else 0) + (if b < 4 then 1 else 0) +
        (if b = 0 then 1 else 0) := by
  decide +kernel

theorem takeWhile_append_of_exists {α : Type} (q : α → Bool) (l r : List α)
    (h : ∃ x ∈ l, ¬ q x = true) : (l ++ r).takeWhile q = l.takeWhile q := by
  induction l with
  | nil => simp at h
  | cons x xs ih =>
    simp only [List.cons_append, List.takeWhile_cons]
    split
    · rename_i hq
      congr 1
      apply ih
      obtain ⟨y, hy, hqy⟩ := h
      simp only [List.mem_cons] at hy
      rcases hy with rfl | hy
      · exact absurd hq hqy
      · exact ⟨y, hy, hqy⟩
    · rfl

/-- **C09 (any digest).** The loop of `leading_zeros_on_hash` over any byte string counts its
leading zero bit pairs. -/
theorem C09_leading_zeros (digest : List Nat) (h : ∀ b ∈ digest, b < 256) :
    leadingZeros digest = leadingZeroPairs (digest.flatMap byteBits) := by
  induction digest with
  | nil => rfl
  | cons b rest ih =>
    obtain ⟨h0, h1, h2⟩ := byte_case b (h b (by simp))
    have ih := ih fun x hx => h x (by simp [hx])
    have happ : bitPairs ((b :: rest).flatMap byteBits) =
        bitPairs (byteBits b) ++ bitPairs (rest.flatMap byteBits) := by
      rw [List.flatMap_cons]; exact bitPairs_append8 _ _ _ _ _ _ _ _ _
    unfold leadingZeros leadingZeroPairs
    rw [happ]
    by_cases hb : b = 0
    · subst hb
      have e : bitPairs (byteBits 0) = [(false, false), (false, false), (false, false),
        (false, false)] := by decide
      rw [e]
      simp only [List.cons_append, List.nil_append, List.takeWhile_cons, decide_true, if_true,
        List.length_cons]
      rw [ih]
      unfold leadingZeroPairs
      simp only [if_true, Nat.zero_lt_succ, Nat.ofNat_pos]
      omega
    · rw [takeWhile_append_of_exists _ (bitPairs (byteBits b)) _ (by
        obtain ⟨p, hp, hne⟩ := h1 hb; exact ⟨p, hp, by simpa using hne⟩), h2]
      simp [hb]

theorem Sha256.beBytes_lt : ∀ k n, ∀ b ∈ Sha256.beBytes k n, b < 256
  | 0, _, b, h => by simp [Sha256.beBytes] at h
  | k + 1, n, b, h => by
    simp only [Sha256.beBytes, List.mem_append, List.mem_singleton] at h
    rcases h with h | rfl
    · exact Sha256.beBytes_lt k _ b h
    · exact Nat.mod_lt _ (by norm_num)

/-- **C09.** The layer of a key is the number of leading zero bit pairs of its SHA-256 digest,
and is at most 128. -/
theorem C09_layer (k : Key) :
    leadingZerosOnHash k =
      leadingZeroPairs ((Sha256.sha256 (k.map Char.toNat)).flatMap byteBits) ∧
    leadingZerosOnHash k ≤ 128 := by
  refine ⟨C09_leading_zeros _ ?_, leadingZerosOnHash_le k⟩
  intro b hb
  simp only [Sha256.sha256, List.mem_flatMap] at hb
  obtain ⟨_, _, hb⟩ := hb
  exact Sha256.beBytes_lt _ _ _ hb

/-- Non-vacuity and a check of the SHA-256 rendering against known vectors (from the atproto
test suite: `blue` is on layer 1, `app.bsky.feed.post/9adeb165882c` on layer 8). -/
example : leadingZerosOnHash "blue".toList = 1 ∧
    leadingZerosOnHash "app.bsky.feed.post/9adeb165882c".toList = 8 ∧
    leadingZeros [0, 0, 15, 255] = 10 := by
  decide +kernel

end Arroba
