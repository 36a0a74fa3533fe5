import Verif.Util.Sig
import Mathlib.Tactic.Ring
import Mathlib.Tactic.Linarith
import Mathlib.Algebra.Field.ZMod

/-! Helper lemmas for signatures. -/

namespace Arroba.Sig

theorem toBytes_ok {w v : Nat} (h : v < 256 ^ w) :
    ∃ b, toBytes w v = .ok b ∧ b.length = w ∧ fromBytes b = v := by
  induction w generalizing v with
  | zero =>
    have : v = 0 := by simpa using h
    subst this
    exact ⟨[], rfl, rfl, rfl⟩
  | succ w ih =>
    obtain ⟨b, h1, h2, h3⟩ := ih (v := v / 256) (by rw [pow_succ] at h; omega)
    refine ⟨b ++ [v % 256], ?_, by simp [h2], ?_⟩
    · simp only [toBytes, h1]; rfl
    · simp only [fromBytes, List.foldl_append, List.foldl_cons, List.foldl_nil] at h3 ⊢
      rw [h3]; omega

variable {G : Type} [AddCommGroup G]

theorem nsmul_congr (C : Curve G) {a b : Nat} (h : (a : ZMod C.n) = b) (P : G) :
    a • P = b • P := by
  have hm : a ≡ b [MOD C.n] := (ZMod.natCast_eq_natCast_iff _ _ _).mp h
  have key : ∀ a : Nat, a • P = (a % C.n) • P := by
    intro a
    conv_lhs => rw [← Nat.div_add_mod a C.n]
    rw [add_nsmul, mul_nsmul, C.order, nsmul_zero, zero_add]
  rw [key a, key b, hm]

theorem val_cast (C : Curve G) (a : ZMod C.n) : ((a.val : Nat) : ZMod C.n) = a := by
  haveI : NeZero C.n := ⟨C.prime.ne_zero⟩
  exact ZMod.natCast_zmod_val a

theorem cast_ne_zero (C : Curve G) {k : Nat} (h0 : 0 < k) (h1 : k < C.n) : (k : ZMod C.n) ≠ 0 := by
  intro h
  have := (ZMod.natCast_eq_zero_iff k C.n).mp h
  exact absurd (Nat.le_of_dvd h0 this) (by omega)

theorem gen_smul_ne (C : Curve G) {k : Nat} (h0 : 0 < k) (h1 : k < C.n) : k • C.gen ≠ 0 := by
  have := Fact.mk C.prime
  intro h
  apply C.gen_ne
  have e : (((k : ZMod C.n)⁻¹.val * k : Nat) : ZMod C.n) = (1 : Nat) := by
    push_cast
    rw [val_cast, inv_mul_cancel₀ (cast_ne_zero C h0 h1)]
  have := nsmul_congr C e C.gen
  rw [one_nsmul, mul_comm, mul_nsmul, h, nsmul_zero] at this
  exact this.symm

variable [DecidableEq G]

/-- What ECDSA signing returns verifies under the matching public key. -/
theorem verify_of_signs (C : Curve G) {d z r s : Nat} (h : EcdsaSigns C d z r s) :
    ecdsaVerify C (d • C.gen) z r s = true ∧ 0 < s ∧ s < C.n ∧ r < C.n := by
  have := Fact.mk C.prime
  obtain ⟨k, hk0, hkn, hr, hr0, hs, hs0⟩ := h
  have hrn : r < C.n := by rw [hr]; exact Nat.mod_lt _ C.prime.pos
  have hsn : s < C.n := by rw [hs]; exact ZMod.val_lt _
  refine ⟨?_, by omega, hsn, hrn⟩
  unfold ecdsaVerify
  rw [if_pos ⟨by omega, hrn, by omega, hsn⟩]
  have hk := cast_ne_zero C hk0 hkn
  have hsz := cast_ne_zero C (Nat.pos_of_ne_zero hs0) hsn
  have hsc : (s : ZMod C.n) = (k : ZMod C.n)⁻¹ * ((z : ZMod C.n) + r * d) := by
    rw [hs, val_cast]
  have hzr : (z : ZMod C.n) + r * d = k * s := by
    rw [hsc, ← mul_assoc, mul_inv_cancel₀ hk, one_mul]
  have hR : ((z : ZMod C.n) * (s : ZMod C.n)⁻¹).val • C.gen +
      ((r : ZMod C.n) * (s : ZMod C.n)⁻¹).val • (d • C.gen) = k • C.gen := by
    rw [smul_smul, ← add_nsmul]
    apply nsmul_congr C
    rw [Nat.cast_add, Nat.cast_mul, val_cast, val_cast]
    calc (z : ZMod C.n) * (s : ZMod C.n)⁻¹ + r * (s : ZMod C.n)⁻¹ * d
        = (z + r * d) * (s : ZMod C.n)⁻¹ := by ring
      _ = k := by rw [hzr, mul_assoc, mul_inv_cancel₀ hsz, mul_one]
  simp only [hR]
  exact decide_eq_true ⟨gen_smul_ne C hk0 hkn, hr.symm⟩

/-- ECDSA malleability: `(r, n - s)` verifies exactly when `(r, s)` does. -/
theorem verify_neg (C : Curve G) (Q : G) {z r s : Nat} (h0 : 0 < s) (hn : s < C.n) :
    ecdsaVerify C Q z r (C.n - s) = ecdsaVerify C Q z r s := by
  have := Fact.mk C.prime
  unfold ecdsaVerify
  by_cases hr : 0 < r ∧ r < C.n
  · rw [if_pos ⟨hr.1, hr.2, by omega, by omega⟩, if_pos ⟨hr.1, hr.2, h0, hn⟩]
    have e : ((C.n - s : Nat) : ZMod C.n) = -(s : ZMod C.n) := by
      rw [Nat.cast_sub (Nat.le_of_lt hn)]; simp
    have hneg : ∀ (a : ZMod C.n) (P : G), (-a).val • P = -(a.val • P) := by
      intro a P
      rw [eq_neg_iff_add_eq_zero, ← add_nsmul]
      have : (((-a).val + a.val : Nat) : ZMod C.n) = (0 : Nat) := by
        push_cast; rw [val_cast, val_cast]; ring
      rw [nsmul_congr C this, zero_nsmul]
    have hR : ((z : ZMod C.n) * ((C.n - s : Nat) : ZMod C.n)⁻¹).val • C.gen +
        ((r : ZMod C.n) * ((C.n - s : Nat) : ZMod C.n)⁻¹).val • Q =
        -(((z : ZMod C.n) * (s : ZMod C.n)⁻¹).val • C.gen +
        ((r : ZMod C.n) * (s : ZMod C.n)⁻¹).val • Q) := by
      rw [e, inv_neg, mul_neg, mul_neg, hneg, hneg, neg_add]
    simp only [hR, C.x_neg, ne_eq, neg_eq_zero]
  · rw [if_neg (fun h => hr ⟨h.1, h.2.1⟩), if_neg (fun h => hr ⟨h.1, h.2.1⟩)]

theorem lowS_bound (order : Nat) {r s : Nat} (h0 : 0 < s) (hn : s < order) :
    (applyLowS order (r, s)).1 = r ∧ 0 < (applyLowS order (r, s)).2 ∧
      2 * (applyLowS order (r, s)).2 ≤ order ∧ (applyLowS order (r, s)).2 < order ∧
      ((applyLowS order (r, s)).2 = s ∨ (applyLowS order (r, s)).2 = order - s) := by
  unfold applyLowS
  dsimp only
  split <;> refine ⟨rfl, ?_, ?_, ?_, ?_⟩ <;> omega

theorem verify_lowS (C : Curve G) (Q : G) {z r s : Nat} (h0 : 0 < s) (hn : s < C.n)
    (h : ecdsaVerify C Q z r s = true) :
    ecdsaVerify C Q z r (applyLowS C.n (r, s)).2 = true := by
  rcases (lowS_bound C.n (r := r) h0 hn).2.2.2.2 with e | e
  · rw [e, h]
  · rw [e, verify_neg C Q h0 hn, h]

theorem rawSig_ok {order : Nat} (hlt : order < 2 ^ 256) {r s : Nat} (hr : r < order)
    (hs : s < order) : ∃ b, rawSig (r, s) = .ok b ∧ b.length = 64 ∧
      fromBytes (b.take 32) = r ∧ fromBytes (b.drop 32) = s := by
  have h32 : (2 : Nat) ^ 256 = 256 ^ 32 := by norm_num
  obtain ⟨x, x1, x2, x3⟩ := toBytes_ok (w := 32) (v := r) (by omega)
  obtain ⟨y, y1, y2, y3⟩ := toBytes_ok (w := 32) (v := s) (by omega)
  refine ⟨x ++ y, ?_, by simp [x2, y2], ?_, ?_⟩
  · simp only [rawSig, x1, y1]; rfl
  · rw [← x2, List.take_left, x3]
  · rw [← x2, List.drop_left, y3]

end Arroba.Sig
