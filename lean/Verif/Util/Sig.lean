import Verif.Py
import Mathlib.Data.ZMod.Basic

/-!
# Model of `sign`, `apply_low_s_mitigation`, `verify_sig` and `service_jwt` (`arroba/util.py` 281-406)

The `cryptography` library is modelled by textbook ECDSA over an abstract group of prime order:
`Curve` lists what is assumed of the curve (a group in which every point is killed by the order,
and an x-coordinate that does not tell a point from its inverse). DER encoding of `(r, s)` is
the pair itself. SHA-256 and DAG-CBOR encoding are arbitrary functions.
-/

namespace Arroba.Sig

/-- util.py 328-331. What is used of an elliptic curve. -/
structure Curve (G : Type) [AddCommGroup G] where
  n : Nat
  prime : n.Prime
  lt : n < 2 ^ 256
  gen : G
  gen_ne : gen ≠ 0
  order : ∀ P : G, n • P = 0
  x : G → Nat
  x_neg : ∀ P, x (-P) = x P

section
variable {G : Type} [AddCommGroup G] [DecidableEq G]

/-- util.py 358. ECDSA verification of `(r, s)` over digest `z` for public key `Q` (library
`EllipticCurvePublicKey.verify`). -/
def ecdsaVerify (C : Curve G) (Q : G) (z r s : Nat) : Bool :=
  if 0 < r ∧ r < C.n ∧ 0 < s ∧ s < C.n then
    let w := (s : ZMod C.n)⁻¹
    let R := ((z : ZMod C.n) * w).val • C.gen + ((r : ZMod C.n) * w).val • Q
    decide (R ≠ 0 ∧ C.x R % C.n = r)
  else false

/-- util.py 299. The signatures ECDSA signing may return for private key `d`, digest `z` and some nonce
(library `EllipticCurvePrivateKey.sign`). -/
def EcdsaSigns (C : Curve G) (d z r s : Nat) : Prop :=
  ∃ k, 0 < k ∧ k < C.n ∧ r = C.x (k • C.gen) % C.n ∧ r ≠ 0 ∧
    s = ((k : ZMod C.n)⁻¹ * ((z : ZMod C.n) + r * d)).val ∧ s ≠ 0

end

/-- util.py 301. Python's `v.to_bytes(w, 'big')`; OverflowError (here ValueError) if it does not fit. -/
def toBytes : Nat → Nat → Except Err (List Nat)
  | 0, v => if v = 0 then .ok [] else .error .value
  | w + 1, v => do
    let hi ← toBytes w (v / 256)
    .ok (hi ++ [v % 256])

/-- util.py 353-354. Python's `int.from_bytes(b, 'big')`. -/
def fromBytes (b : List Nat) : Nat := b.foldl (fun acc x => acc * 256 + x) 0

/-- util.py 281-362. Values of a signed dict: only the type of `sig` matters here. -/
inductive SVal (V : Type) where
  | bytes (b : List Nat)
  | str (s : Key)
  | other (v : V)

/-- util.py 281-362. -/
abbrev Obj (V : Type) := List (Key × SVal V)

/-- util.py 301, 347. -/
def sigKey : Key := "sig".toList

/-- util.py 310-331 `apply_low_s_mitigation`. -/
def applyLowS (order : Nat) (sig : Nat × Nat) : Nat × Nat :=
  let s := if sig.2 > order / 2 then order - sig.2 else sig.2
  (sig.1, s)

/-- `r.to_bytes(32, 'big') + s.to_bytes(32, 'big')` (util.py 300, 404-405). -/
def rawSig (rs : Nat × Nat) : Except Err (List Nat) := do
  let r ← toBytes 32 rs.1
  let s ← toBytes 32 rs.2
  .ok (r ++ s)

/-- util.py 281-302 `sign`; `librarySig` is what `private_key.sign` returned. -/
def sign {V : Type} (order : Nat) (librarySig : Nat × Nat) (obj : Obj V) :
    Except Err (Obj V) := do
  let sig ← rawSig (applyLowS order librarySig)
  .ok (dictSet obj sigKey (.bytes sig))

section
variable {G : Type} [AddCommGroup G] [DecidableEq G] {V : Type}

/-- util.py 346-362, after `sig` has been popped from the copy `rest`. -/
def verifyBytes (C : Curve G) (digest : Obj V → Nat) (Q : G) (rest : Obj V) (sig : List Nat) :
    Bool :=
  if sig.length ≠ 64 then false
  else ecdsaVerify C Q (digest rest) (fromBytes (sig.take 32)) (fromBytes (sig.drop 32))

/-- util.py 334-362 `verify_sig`. `digest` is SHA-256 of the DAG-CBOR encoding, as an integer. -/
def verifySig (C : Curve G) (digest : Obj V → Nat) (Q : G) (obj : Obj V) : Except Err Bool :=
  match dictGet obj sigKey with
  | none => .error .key
  | some (.bytes b) => .ok (verifyBytes C digest Q (dictErase obj sigKey) b)
  | some (.str s) => if s.length ≠ 64 then .ok false else .error .attribute
  | some (.other _) => .error .attribute

end

/-- util.py 396-406, the end of `service_jwt`: from the token `jwt.encode` returned, split into
its signing input and its decoded signature bytes, the signing input and signature of the result.
(Base64 and the `rpartition('.')` are not modelled.) -/
def jwtLowS (order : Nat) (token : Key × List Nat) : Except Err (Key × List Nat) := do
  let sig ← rawSig (applyLowS order
    (fromBytes (token.2.take 32), fromBytes (token.2.drop 32)))
  .ok (token.1, sig)

end Arroba.Sig
