import Verif.Cbor.Model

/-! # When two values are the same

Python's `==` on what `dag_cbor` reads and writes: the entries of a dict in any order. (Unlike `==`,
it tells `True` from `1` and `0.0` from `-0.0`.) -/

namespace Arroba.Cbor

mutual
/-- storage.py 132-135. The same content. -/
inductive Same : Ipld → Ipld → Prop
  | null : Same .null .null
  | bool (b : Bool) : Same (.bool b) (.bool b)
  | int (i : Int) : Same (.int i) (.int i)
  | float (n : Nat) : Same (.float n) (.float n)
  | bytes (b : Bytes) : Same (.bytes b) (.bytes b)
  | text (s : Key) : Same (.text s) (.text s)
  | link (c : Bytes) : Same (.link c) (.link c)
  | list {xs ys : List Ipld} : SameItems xs ys → Same (.list xs) (.list ys)
  | map {ps qs rs : List (Key × Ipld)} : SameEntries ps qs → qs.Perm rs → Same (.map ps) (.map rs)
/-- storage.py 132-135. The same items in the same order. -/
inductive SameItems : List Ipld → List Ipld → Prop
  | nil : SameItems [] []
  | cons {x y : Ipld} {xs ys : List Ipld} : Same x y → SameItems xs ys → SameItems (x :: xs) (y :: ys)
/-- storage.py 132-135. The same entries in the same order. -/
inductive SameEntries : List (Key × Ipld) → List (Key × Ipld) → Prop
  | nil : SameEntries [] []
  | cons {k : Key} {v w : Ipld} {ps qs : List (Key × Ipld)} : Same v w → SameEntries ps qs →
      SameEntries ((k, v) :: ps) ((k, w) :: qs)
end

end Arroba.Cbor
