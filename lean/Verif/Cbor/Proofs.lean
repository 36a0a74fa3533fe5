import Verif.Cbor.Spec
import Mathlib.Tactic.Ring
import Mathlib.Data.List.Lex
import Mathlib.Data.List.Nodup

/-! # DAG-CBOR: reading undoes writing -/

namespace Arroba.Cbor

/-! ### Induction -/

section
variable {P : Ipld → Prop}
  (null : P .null) (bool : ∀ b, P (.bool b)) (int : ∀ i, P (.int i)) (float : ∀ n, P (.float n))
  (bytes : ∀ b, P (.bytes b)) (text : ∀ s, P (.text s)) (link : ∀ c, P (.link c))
  (list : ∀ xs, (∀ x ∈ xs, P x) → P (.list xs))
  (map : ∀ ps : List (Key × Ipld), (∀ p ∈ ps, P p.2) → P (.map ps))
include null bool int float bytes text link list map

mutual
theorem Ipld.ind : ∀ v, P v
  | .null => null
  | .bool b => bool b
  | .int i => int i
  | .float n => float n
  | .bytes b => bytes b
  | .text s => text s
  | .link c => link c
  | .list xs => list xs (Ipld.indItems xs)
  | .map ps => map ps (Ipld.indEntries ps)
theorem Ipld.indItems : ∀ xs : List Ipld, ∀ x ∈ xs, P x
  | [], _, h => nomatch h
  | x :: xs, y, h => by
    rcases List.mem_cons.1 h with h | h
    · exact h ▸ Ipld.ind x
    · exact Ipld.indItems xs y h
theorem Ipld.indEntries : ∀ ps : List (Key × Ipld), ∀ p ∈ ps, P p.2
  | [], _, h => nomatch h
  | (k, v) :: ps, p, h => by
    rcases List.mem_cons.1 h with h | h
    · exact h ▸ Ipld.ind v
    · exact Ipld.indEntries ps p h
end
end

/-! ### Numbers -/

theorem be_length : ∀ k n, (be k n).length = k
  | 0, _ => rfl
  | k + 1, n => by simp [be, be_length k n]

theorem foldl_be : ∀ k n a, (be k n).foldl (fun a x => a * 256 + x.toNat) a = a * 256 ^ k + n % 256 ^ k
  | 0, n, a => by simp [be, Nat.mod_one]
  | k + 1, n, a => by
    have h : n % 256 ^ (k + 1) = n / 256 ^ k % 256 * 256 ^ k + n % 256 ^ k := by
      rw [Nat.pow_succ, Nat.mod_mul]; ring
    simp only [be, List.foldl_cons, foldl_be k, UInt8.toNat_ofNat']
    rw [h]; ring

theorem unBe_be {k n : Nat} (h : n < 256 ^ k) : unBe (be k n) = n := by
  simp [unBe, foldl_be, Nat.mod_eq_of_lt h]

theorem unBe_acc : ∀ (b : Bytes) a, b.foldl (fun a x => a * 256 + x.toNat) a
    = a * 256 ^ b.length + unBe b
  | [], a => by simp [unBe]
  | x :: b, a => by
    rw [unBe, List.foldl_cons, List.foldl_cons, unBe_acc b, unBe_acc b (0 * 256 + _)]
    simp only [List.length_cons, Nat.pow_succ]
    ring

theorem unBe_cons (x : UInt8) (b : Bytes) : unBe (x :: b) = x.toNat * 256 ^ b.length + unBe b := by
  rw [unBe, List.foldl_cons, unBe_acc]; simp

theorem unBe_lt : ∀ b : Bytes, unBe b < 256 ^ b.length
  | [] => by simp [unBe]
  | x :: b => by
    have h := unBe_lt b
    have hx := x.toNat_lt
    rw [unBe_cons, List.length_cons, Nat.pow_succ]
    have : x.toNat * 256 ^ b.length + 256 ^ b.length ≤ 256 ^ b.length * 256 := by
      rw [← Nat.succ_mul, Nat.mul_comm]
      exact Nat.mul_le_mul_left _ (Nat.succ_le_of_lt hx)
    omega

theorem be_mod : ∀ k n a, be k (a * 256 ^ k + n) = be k n
  | 0, _, _ => rfl
  | k + 1, n, a => by
    have e : a * 256 ^ (k + 1) + n = (a * 256) * 256 ^ k + n := by rw [Nat.pow_succ]; ring
    have hp : 0 < 256 ^ k := Nat.pow_pos (by decide)
    rw [be, be, e, be_mod k n (a * 256)]
    congr 1
    apply UInt8.toNat_inj.1
    rw [UInt8.toNat_ofNat', UInt8.toNat_ofNat', Nat.mul_comm, Nat.mul_add_div hp]
    omega

theorem be_unBe : ∀ b : Bytes, be b.length (unBe b) = b
  | [] => rfl
  | x :: b => by
    have hp : 0 < 256 ^ b.length := Nat.pow_pos (by decide)
    rw [List.length_cons, be, unBe_cons, be_mod, be_unBe b]
    congr 1
    rw [Nat.mul_comm, Nat.mul_add_div hp, Nat.div_eq_of_lt (unBe_lt b), Nat.add_zero]
    simp

/-! ### Text -/

theorem toByteArray_utf8 (s : Key) : (utf8 s).toByteArray = s.utf8Encode := rfl

theorem unUtf8_utf8 (s : Key) : unUtf8 (utf8 s) = some s := by
  rw [unUtf8, toByteArray_utf8, List.utf8Decode?_utf8Encode]; simp

theorem utf8_inj {s t : Key} (h : utf8 s = utf8 t) : s = t := by
  have := congrArg unUtf8 h
  simpa [unUtf8_utf8] using this

theorem toByteArray_toList (b : Bytes) : b.toByteArray.data.toList = b := by simp

theorem utf8_unUtf8 {b : Bytes} {s : Key} (h : unUtf8 b = some s) : utf8 s = b := by
  rw [unUtf8] at h
  have hs : b.toByteArray.utf8Decode?.isSome := by
    cases hd : b.toByteArray.utf8Decode? with
    | none => rw [hd] at h; cases h
    | some _ => rfl
  obtain ⟨m, hm⟩ := ByteArray.isSome_utf8Decode?_iff.1 hs
  rw [hm, List.utf8Decode?_utf8Encode] at h
  obtain rfl : m = s := by simpa using h
  rw [← toByteArray_toList (utf8 m), toByteArray_utf8, ← hm, toByteArray_toList]

/-! ### Heads -/

theorem head_pos (m n : Nat) : 0 < (head m n).length := by
  unfold head; split_ifs <;> simp

/-- The additional information of the head for `n`. -/
def infoOf (n : Nat) : Nat :=
  if n < 24 then n else if n < 2 ^ 8 then 24 else if n < 2 ^ 16 then 25
  else if n < 2 ^ 32 then 26 else 27

theorem unHead_head {m n : Nat} (hm : m < 7) (hn : n < 2 ^ 64) (rest : Bytes) :
    unHead (head m n ++ rest) = some (m, infoOf n, n, rest) := by
  have key : ∀ i, i < 32 → (m * 32 + i) % 256 / 32 = m ∧ (m * 32 + i) % 256 % 32 = i := by
    intro i hi; omega
  have harg : ∀ k, (be k n ++ rest).length < k ↔ False := by
    intro k; simp [be_length]
  have htake : ∀ k, n < 256 ^ k → unBe ((be k n ++ rest).take k) = n := by
    intro k hk
    rw [List.take_left' (be_length k n), unBe_be hk]
  have hdrop : ∀ k, (be k n ++ rest).drop k = rest := fun k => List.drop_left' (be_length k n)
  unfold head infoOf
  split_ifs with h1 h2 h3 h4
  · have := key n (by omega)
    simp [unHead, this, h1]
  · have := key 24 (by omega)
    have hk : n < 256 ^ 1 := by simpa using h2
    have hl := htake 1 hk; have hd := hdrop 1; have hb := harg 1
    simp only [List.cons_append, unHead, UInt8.toNat_ofNat', this, hl, hd, hb]
    simp [h1]
  · have := key 25 (by omega)
    have hk : n < 256 ^ 2 := by omega
    have hl := htake 2 hk; have hd := hdrop 2; have hb := harg 2
    simp only [List.cons_append, unHead, UInt8.toNat_ofNat', this, hl, hd, hb]
    simp [h2]
  · have := key 26 (by omega)
    have hk : n < 256 ^ 4 := by omega
    have hl := htake 4 hk; have hd := hdrop 4; have hb := harg 4
    simp only [List.cons_append, unHead, UInt8.toNat_ofNat', this, hl, hd, hb]
    simp [h3]
  · have := key 27 (by omega)
    have hk : n < 256 ^ 8 := by omega
    have hl := htake 8 hk; have hd := hdrop 8; have hb := harg 8
    simp only [List.cons_append, unHead, UInt8.toNat_ofNat', this, hl, hd, hb]
    simp [h4]

theorem unHead_float {n : Nat} (hn : n < 2 ^ 64) (rest : Bytes) :
    unHead (0xfb :: be 8 n ++ rest) = some (7, 27, n, rest) := by
  have hl : unBe ((be 8 n ++ rest).take 8) = n := by
    rw [List.take_left' (be_length 8 n), unBe_be (by omega)]
  have hd : (be 8 n ++ rest).drop 8 = rest := List.drop_left' (be_length 8 n)
  have hb : (be 8 n ++ rest).length < 8 ↔ False := by simp [be_length]
  have ha : (0xfb : UInt8).toNat / 32 = 7 ∧ (0xfb : UInt8).toNat % 32 = 27 := by decide
  simp only [List.cons_append, unHead, ha, hl, hd, hb]
  simp

/-- What a head that is accepted looks like. -/
theorem unHead_some {bs : Bytes} {m i n : Nat} {rest : Bytes} (h : unHead bs = some (m, i, n, rest)) :
    m < 8 ∧ n < 2 ^ 64 ∧ (m < 7 → bs = head m n ++ rest) ∧
    (m = 7 → i = 27 → bs = 0xfb :: be 8 n ++ rest) ∧
    (m = 7 → i < 24 → bs = UInt8.ofNat (7 * 32 + i) :: rest) := by
  cases bs with
  | nil => cases h
  | cons b bs =>
    have hb := b.toNat_lt
    have hof : UInt8.ofNat b.toNat = b := by simp
    have harg : ∀ k least, k ≤ 8 → (if bs.length < k then none
        else if (unBe (bs.take k) < least && b.toNat / 32 != 7) = true then none
          else some (b.toNat / 32, b.toNat % 32, unBe (bs.take k), bs.drop k)) = some (m, i, n, rest) →
        b.toNat / 32 = m ∧ b.toNat % 32 = i ∧ n < 256 ^ k ∧ (m ≠ 7 → least ≤ n) ∧
          bs = be k n ++ rest := by
      intro k least hk h
      split_ifs at h with h1 h2
      · cases h
        have hl : (bs.take k).length = k := by simp; omega
        refine ⟨rfl, rfl, ?_, ?_, ?_⟩
        · have := unBe_lt (bs.take k); rwa [hl] at this
        · intro hm; simp at h2; by_contra hc; exact hm (h2 (by omega))
        · have := be_unBe (bs.take k)
          rw [hl] at this
          rw [this, List.take_append_drop]
    have hp : ∀ k, k ≤ 8 → 256 ^ k ≤ 2 ^ 64 := fun k hk => by
      calc 256 ^ k ≤ 256 ^ 8 := Nat.pow_le_pow_right (by decide) hk
        _ = 2 ^ 64 := by norm_num
    unfold unHead at h
    dsimp only at h
    by_cases h1 : b.toNat % 32 < 24
    · rw [if_pos h1] at h
      cases h
      refine ⟨by omega, by omega, fun hm => ?_, fun hm hi => by omega, fun hm hi => ?_⟩
      · rw [head, if_pos h1]
        have : b.toNat / 32 * 32 + b.toNat % 32 = b.toNat := by omega
        rw [this, hof]; rfl
      · have : 7 * 32 + b.toNat % 32 = b.toNat := by omega
        rw [this, hof]
    rw [if_neg h1] at h
    by_cases h2 : b.toNat % 32 = 24
    · rw [if_pos h2] at h
      obtain ⟨rfl, rfl, h3', h4', rfl⟩ := harg 1 24 (by omega) h
      refine ⟨by omega, lt_of_lt_of_le h3' (hp 1 (by omega)), fun hm => ?_, by omega, by omega⟩
      have := h4' (by omega)
      rw [head, if_neg (by omega), if_pos (by omega)]
      have : b.toNat / 32 * 32 + 24 = b.toNat := by omega
      rw [this, hof]; rfl
    rw [if_neg h2] at h
    by_cases h3 : b.toNat % 32 = 25
    · rw [if_pos h3] at h
      obtain ⟨rfl, rfl, h3', h4', rfl⟩ := harg 2 _ (by omega) h
      refine ⟨by omega, lt_of_lt_of_le h3' (hp 2 (by omega)), fun hm => ?_, by omega, by omega⟩
      have := h4' (by omega)
      rw [head, if_neg (by omega), if_neg (by omega), if_pos (by omega)]
      have : b.toNat / 32 * 32 + 25 = b.toNat := by omega
      rw [this, hof]; rfl
    rw [if_neg h3] at h
    by_cases h4 : b.toNat % 32 = 26
    · rw [if_pos h4] at h
      obtain ⟨rfl, rfl, h3', h4', rfl⟩ := harg 4 _ (by omega) h
      refine ⟨by omega, lt_of_lt_of_le h3' (hp 4 (by omega)), fun hm => ?_, by omega, by omega⟩
      have := h4' (by omega)
      rw [head, if_neg (by omega), if_neg (by omega), if_neg (by omega), if_pos (by omega)]
      have : b.toNat / 32 * 32 + 26 = b.toNat := by omega
      rw [this, hof]; rfl
    rw [if_neg h4] at h
    by_cases h5 : b.toNat % 32 = 27
    · rw [if_pos h5] at h
      obtain ⟨rfl, rfl, h3', h4', rfl⟩ := harg 8 _ (by omega) h
      refine ⟨by omega, lt_of_lt_of_le h3' (hp 8 (by omega)), fun hm => ?_, fun hm _ => ?_, by omega⟩
      · have := h4' (by omega)
        rw [head, if_neg (by omega), if_neg (by omega), if_neg (by omega), if_neg (by omega)]
        have : b.toNat / 32 * 32 + 27 = b.toNat := by omega
        rw [this, hof]; rfl
      · have : b.toNat = 0xfb := by omega
        have : b = 0xfb := by rw [← hof, this]; rfl
        rw [this]; rfl
    rw [if_neg h5] at h
    cases h

end Arroba.Cbor
