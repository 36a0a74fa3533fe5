import Verif.Sha256

/-! Helper lemmas about the digest and the layer function. -/

namespace Arroba

theorem Sha256.beBytes_length : ∀ k n, (Sha256.beBytes k n).length = k
  | 0, _ => rfl
  | k + 1, n => by simp [Sha256.beBytes, Sha256.beBytes_length k]

theorem Sha256.blocks_length : ∀ n h ws, (Sha256.blocks n h ws).length ≤ h.length
  | 0, _, _ => Nat.le_refl _
  | n + 1, h, ws => by
    unfold Sha256.blocks
    refine Nat.le_trans (Sha256.blocks_length n _ _) ?_
    simp only [Sha256.compress, List.length_zipWith]
    exact Nat.min_le_left _ _

theorem Sha256.flatMap_length (l : List Nat) : (l.flatMap (Sha256.beBytes 4)).length = 4 * l.length := by
  induction l with
  | nil => rfl
  | cons x xs ih => simp [Sha256.beBytes_length, ih]; omega

theorem Sha256.sha256_length (m : List Nat) : (Sha256.sha256 m).length ≤ 32 := by
  unfold Sha256.sha256
  have h := Sha256.blocks_length ((Sha256.words (Sha256.pad m)).length / 16) Sha256.H0
    (Sha256.words (Sha256.pad m))
  have h0 : Sha256.H0.length = 8 := rfl
  simp only [Sha256.flatMap_length]
  omega

theorem leadingZeros_le : ∀ l : List Nat, leadingZeros l ≤ 4 * l.length
  | [] => by simp [leadingZeros]
  | b :: rest => by
    have := leadingZeros_le rest
    simp only [leadingZeros, List.length_cons]
    repeat' split
    all_goals omega

/-- No key is above layer 128. -/
theorem leadingZerosOnHash_le (k : Key) : leadingZerosOnHash k ≤ 128 := by
  have h1 := leadingZeros_le (Sha256.sha256 (k.map Char.toNat))
  have h2 := Sha256.sha256_length (k.map Char.toNat)
  unfold leadingZerosOnHash
  omega

end Arroba
