import Verif.Util.SigProofs
import Mathlib.Tactic.NormNum.Prime

/-! # C21: signatures are low-S and verify -/

namespace Arroba
open Sig

theorem dictSet_new {β : Type} (d : List (Key × β)) (k : Key) (v : β) (h : ∀ e ∈ d, e.1 ≠ k) :
    dictSet d k v = d ++ [(k, v)] := by
  induction d with
  | nil => rfl
  | cons e d ih =>
    simp only [dictSet]
    rw [if_neg (h e List.mem_cons_self), ih fun x hx => h x (List.mem_cons_of_mem _ hx)]
    rfl

theorem dictGet_new {β : Type} (d : List (Key × β)) (k : Key) (v : β) (h : ∀ e ∈ d, e.1 ≠ k) :
    dictGet (d ++ [(k, v)]) k = some v := by
  induction d with
  | nil => simp [dictGet]
  | cons e d ih =>
    simp only [List.cons_append, dictGet]
    rw [if_neg (h e List.mem_cons_self), ih fun x hx => h x (List.mem_cons_of_mem _ hx)]

theorem dictErase_new {β : Type} (d : List (Key × β)) (k : Key) (v : β) (h : ∀ e ∈ d, e.1 ≠ k) :
    dictErase (d ++ [(k, v)]) k = d := by
  unfold dictErase
  rw [List.filter_append]
  have : d.filter (fun kv => decide (kv.1 ≠ k)) = d := by
    rw [List.filter_eq_self]; intro e he; simpa using h e he
  rw [this]; simp

variable {G : Type} [AddCommGroup G] [DecidableEq G] {V : Type}

/-- **C21.** For every curve, private key `d`, unsigned object and ECDSA signature `(r, s)` the
library may return for it, `sign` succeeds and stores a 64-byte signature whose `s` is at most
half the group order; the other fields are unchanged; and `verify_sig` accepts the result under
the matching public key. -/
theorem C21_sign (C : Curve G) (digest : Obj V → Nat) (d : Nat) (obj : Obj V)
    (hns : ∀ e ∈ obj, e.1 ≠ "sig".toList) (r s : Nat) (h : EcdsaSigns C d (digest obj) r s) :
    ∃ b, sign C.n (r, s) obj = .ok (obj ++ [("sig".toList, .bytes b)]) ∧ b.length = 64 ∧
      fromBytes (b.take 32) = r ∧ 2 * fromBytes (b.drop 32) ≤ C.n ∧
      verifySig C digest (d • C.gen) (obj ++ [("sig".toList, .bytes b)]) = .ok true := by
  obtain ⟨hv, hs0, hsn, hrn⟩ := verify_of_signs C h
  obtain ⟨l1, l2, l3, l4, -⟩ := lowS_bound C.n (r := r) hs0 hsn
  obtain ⟨b, b1, b2, b3, b4⟩ := rawSig_ok C.lt hrn l4
  refine ⟨b, ?_, b2, b3, by rw [b4]; exact l3, ?_⟩
  · unfold sign
    have e : applyLowS C.n (r, s) = (r, (applyLowS C.n (r, s)).2) := by rw [Prod.ext_iff]; exact ⟨l1, rfl⟩
    rw [e, b1]
    show Except.ok _ = _
    rw [sigKey, dictSet_new obj _ _ hns]
  · unfold verifySig sigKey
    rw [dictGet_new obj _ _ hns]
    simp only [dictErase_new obj _ _ hns, verifyBytes, b2, ne_eq, not_true_eq_false, if_false,
      b3, b4]
    rw [verify_lowS C _ hs0 hsn hv]

/-- **C21 (wrong length).** `verify_sig` returns False for every signature that is not 64 bytes,
and raises KeyError when there is none. -/
theorem C21_rejects_length (C : Curve G) (digest : Obj V → Nat) (Q : G) (obj : Obj V) :
    (∀ b, dictGet obj "sig".toList = some (.bytes b) → b.length ≠ 64 →
      verifySig C digest Q obj = .ok false) ∧
    (dictGet obj "sig".toList = none → verifySig C digest Q obj = .error .key) := by
  constructor
  · intro b hb hl
    unfold verifySig sigKey
    rw [hb]
    simp [verifyBytes, hl]
  · intro h
    unfold verifySig sigKey
    rw [h]

/-- **C21 (what acceptance means).** `verify_sig` accepts exactly the 64-byte signatures that
ECDSA-verify against the object without its `sig` field. -/
theorem C21_accepts_iff (C : Curve G) (digest : Obj V → Nat) (Q : G) (obj : Obj V) :
    verifySig C digest Q obj = .ok true ↔
      ∃ b, dictGet obj "sig".toList = some (.bytes b) ∧ b.length = 64 ∧
        ecdsaVerify C Q (digest (obj.filter (fun kv => kv.1 ≠ "sig".toList)))
          (fromBytes (b.take 32)) (fromBytes (b.drop 32)) = true := by
  unfold verifySig sigKey
  cases hg : dictGet obj "sig".toList with
  | none => simp
  | some v =>
    cases v with
    | other v => simp
    | str t => by_cases ht : t.length = 64 <;> simp [ht]
    | bytes b =>
      by_cases hl : b.length = 64
      · simp [verifyBytes, hl, dictErase]
      · simp [verifyBytes, hl]

/-- **C21 (service JWTs).** The post-processing in `service_jwt` keeps the signing input, makes
the signature 64 bytes and low-S, and keeps it valid for the same digest and public key. -/
theorem C21_jwt (C : Curve G) (d z r s : Nat) (h : EcdsaSigns C d z r s) (signingInput : Key)
    (raw : List Nat) (hr : fromBytes (raw.take 32) = r) (hs : fromBytes (raw.drop 32) = s) :
    ∃ b, jwtLowS C.n (signingInput, raw) = .ok (signingInput, b) ∧ b.length = 64 ∧
      2 * fromBytes (b.drop 32) ≤ C.n ∧
      ecdsaVerify C (d • C.gen) z (fromBytes (b.take 32)) (fromBytes (b.drop 32)) = true := by
  obtain ⟨hv, hs0, hsn, hrn⟩ := verify_of_signs C h
  obtain ⟨l1, l2, l3, l4, -⟩ := lowS_bound C.n (r := r) hs0 hsn
  obtain ⟨b, b1, b2, b3, b4⟩ := rawSig_ok C.lt hrn l4
  refine ⟨b, ?_, b2, by rw [b4]; exact l3, by rw [b3, b4]; exact verify_lowS C _ hs0 hsn hv⟩
  unfold jwtLowS
  have e : applyLowS C.n (r, s) = (r, (applyLowS C.n (r, s)).2) := by rw [Prod.ext_iff]; exact ⟨l1, rfl⟩
  simp only [hr, hs]
  rw [e, b1]
  rfl

/-- **C21 (finding: high-S signatures are accepted).** `verify_sig` does not enforce low-S, which
the AT Protocol requires of verifiers: for every signature `sign` makes, the malleated signature
`(r, n - s)` over the same object, which is high-S, is accepted too. -/
theorem C21_high_s_accepted (C : Curve G) (digest : Obj V → Nat) (d : Nat) (obj : Obj V)
    (hns : ∀ e ∈ obj, e.1 ≠ "sig".toList) (r s : Nat) (h : EcdsaSigns C d (digest obj) r s)
    (hodd : C.n % 2 = 1) :
    ∃ b, C.n < 2 * fromBytes (b.drop 32) ∧
      verifySig C digest (d • C.gen) (obj ++ [("sig".toList, .bytes b)]) = .ok true := by
  obtain ⟨hv, hs0, hsn, hrn⟩ := verify_of_signs C h
  obtain ⟨l1, l2, l3, l4, -⟩ := lowS_bound C.n (r := r) hs0 hsn
  have hv' := verify_lowS C _ hs0 hsn hv
  generalize (applyLowS C.n (r, s)).2 = t at l2 l3 l4 hv'
  obtain ⟨b, b1, b2, b3, b4⟩ := rawSig_ok C.lt hrn (s := C.n - t) (by omega)
  refine ⟨b, by rw [b4]; omega, ?_⟩
  unfold verifySig sigKey
  rw [dictGet_new obj _ _ hns]
  simp only [dictErase_new obj _ _ hns, verifyBytes, b2, ne_eq, not_true_eq_false, if_false,
    b3, b4]
  rw [verify_neg C _ l2 l4, hv']

/-- A toy curve: the group of order 7, with the least of `k` and `7 - k` as x-coordinate. -/
def toyCurve : Curve (ZMod 7) where
  n := 7
  prime := by norm_num
  lt := by norm_num
  gen := 1
  gen_ne := by decide
  order := by decide
  x := fun P => min P.val (7 - P.val)
  x_neg := by decide

-- the hypotheses are met: a signature with high s, which `sign` lowers
example : EcdsaSigns toyCurve 3 2 1 5 := ⟨1, by decide, by decide, by decide, by decide, by
    show 5 = ((((1 : Nat) : ZMod 7))⁻¹ * (((2 : Nat) : ZMod 7) + ((1 : Nat) : ZMod 7) * (3 : Nat))).val
    rw [Nat.cast_one, show (1 : ZMod 7)⁻¹ = 1 from ZMod.inv_one 7]; decide, by decide⟩
example : (applyLowS 7 (1, 5)).2 = 2 := by decide

end Arroba
