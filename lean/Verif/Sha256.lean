import Verif.Py

/-!
# SHA-256 and `leading_zeros_on_hash`

`sha256` is a from-scratch rendering of FIPS 180-4 on lists of bytes (natural numbers below
256). `hashlib.sha256` is a C library and is not part of /repo; this definition is used to
evaluate concrete keys. All theorems about trees hold for every layer function, so none of
them depends on this file except where a concrete key is shown.
-/

namespace Arroba.Sha256

def w32 (n : Nat) : Nat := n % 4294967296

def rotr (n x : Nat) : Nat := w32 ((x >>> n) ||| (x <<< (32 - n)))

def K : List Nat := [
  0x428a2f98,0x71374491,0xb5c0fbcf,0xe9b5dba5,0x3956c25b,0x59f111f1,0x923f82a4,0xab1c5ed5,
  0xd807aa98,0x12835b01,0x243185be,0x550c7dc3,0x72be5d74,0x80deb1fe,0x9bdc06a7,0xc19bf174,
  0xe49b69c1,0xefbe4786,0x0fc19dc6,0x240ca1cc,0x2de92c6f,0x4a7484aa,0x5cb0a9dc,0x76f988da,
  0x983e5152,0xa831c66d,0xb00327c8,0xbf597fc7,0xc6e00bf3,0xd5a79147,0x06ca6351,0x14292967,
  0x27b70a85,0x2e1b2138,0x4d2c6dfc,0x53380d13,0x650a7354,0x766a0abb,0x81c2c92e,0x92722c85,
  0xa2bfe8a1,0xa81a664b,0xc24b8b70,0xc76c51a3,0xd192e819,0xd6990624,0xf40e3585,0x106aa070,
  0x19a4c116,0x1e376c08,0x2748774c,0x34b0bcb5,0x391c0cb3,0x4ed8aa4a,0x5b9cca4f,0x682e6ff3,
  0x748f82ee,0x78a5636f,0x84c87814,0x8cc70208,0x90befffa,0xa4506ceb,0xbef9a3f7,0xc67178f2]

def H0 : List Nat := [0x6a09e667,0xbb67ae85,0x3c6ef372,0xa54ff53a,0x510e527f,0x9b05688c,
  0x1f83d9ab,0x5be0cd19]

/-- Big-endian bytes of `n`, `k` of them. -/
def beBytes : Nat → Nat → List Nat
  | 0, _ => []
  | k + 1, n => beBytes k (n / 256) ++ [n % 256]

/-- Padding (FIPS 180-4, 5.1.1). -/
def pad (m : List Nat) : List Nat :=
  m ++ [0x80] ++ List.replicate ((119 - m.length % 64) % 64) 0 ++ beBytes 8 (8 * m.length)

/-- Groups bytes into 32-bit words. -/
def words : List Nat → List Nat
  | a :: b :: c :: d :: rest => (((a * 256 + b) * 256 + c) * 256 + d) :: words rest
  | _ => []

/-- Message schedule, newest word first (FIPS 180-4, 6.2.2 step 1). -/
def extend : Nat → List Nat → List Nat
  | 0, ws => ws
  | n + 1, ws =>
    let x := ws.getD 14 0
    let y := ws.getD 1 0
    let s0 := rotr 7 x ^^^ rotr 18 x ^^^ (x >>> 3)
    let s1 := rotr 17 y ^^^ rotr 19 y ^^^ (y >>> 10)
    extend n (w32 (ws.getD 15 0 + s0 + ws.getD 6 0 + s1) :: ws)

/-- One round (6.2.2 step 3). -/
def round : List Nat → Nat × Nat → List Nat
  | [a, b, c, d, e, f, g, h], (k, w) =>
    let s1 := rotr 6 e ^^^ rotr 11 e ^^^ rotr 25 e
    let ch := (e &&& f) ^^^ ((4294967295 - e) &&& g)
    let t1 := h + s1 + ch + k + w
    let s0 := rotr 2 a ^^^ rotr 13 a ^^^ rotr 22 a
    let maj := (a &&& b) ^^^ (a &&& c) ^^^ (b &&& c)
    [w32 (t1 + s0 + maj), a, b, c, w32 (d + t1), e, f, g]
  | s, _ => s

def compress (h : List Nat) (block : List Nat) : List Nat :=
  let ws := (extend 48 block.reverse).reverse
  List.zipWith (fun a b => w32 (a + b)) h ((K.zip ws).foldl round h)

def blocks : Nat → List Nat → List Nat → List Nat
  | 0, h, _ => h
  | n + 1, h, ws => blocks n (compress h (ws.take 16)) (ws.drop 16)

/-- SHA-256 of a byte string; the result has 32 bytes. -/
def sha256 (m : List Nat) : List Nat :=
  let ws := words (pad m)
  (blocks (ws.length / 16) H0 ws).flatMap (beBytes 4)

end Arroba.Sha256

namespace Arroba

/-- mst.py 964-977: the loop of `leading_zeros_on_hash` over the digest bytes. -/
def leadingZeros : List Nat → Nat
  | [] => 0
  | b :: rest =>
    (if b < 64 then 1 else 0) + (if b < 16 then 1 else 0) + (if b < 4 then 1 else 0) +
      (if b = 0 then 1 + leadingZeros rest else 0)

/-- mst.py 952-977 `leading_zeros_on_hash` (`key.encode()` of ASCII text is its code points). -/
def leadingZerosOnHash (key : Key) : Nat :=
  leadingZeros (Sha256.sha256 (key.map Char.toNat))

end Arroba
