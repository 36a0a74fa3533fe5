import Verif.Py

/-!
# What a handle is, and where its DID is published

https://atproto.com/specs/handle, without the limit of 253 characters.
-/

namespace Arroba.Did

/-- A label of a domain name: up to 63 letters, digits and hyphens, without a hyphen at either end. -/
def Label (l : Key) : Prop :=
  1 ≤ l.length ∧ l.length ≤ 63 ∧ (∀ c ∈ l, c.isAlphanum = true ∨ c = '-') ∧
    l.head? ≠ some '-' ∧ l.getLast? ≠ some '-'

/-- At least two labels, separated by dots; the last begins with a letter. -/
def ValidHandle (h : Key) : Prop :=
  ∃ labels top, labels ≠ [] ∧ h = List.intercalate ['.'] (labels ++ [top]) ∧
    (∀ l ∈ labels, Label l) ∧ Label top ∧ ∃ c, top.head? = some c ∧ c.isAlpha = true

/-- Characters that appear as they are in the text form of a TXT record. -/
def Plain (c : Char) : Prop := 32 ≤ c.toNat ∧ c.toNat < 127 ∧ c ≠ '"' ∧ c ≠ '\\'

/-- The DID in the text of a TXT record. -/
def didOfTxt (t : Key) : Option Key :=
  if "did=did:".toList <+: t then some (t.drop 4) else none

/-- What a well-known page says: the DID, with white space around it. -/
def Page (space : Char → Prop) (text did : Key) : Prop :=
  ∃ pre post, text = pre ++ did ++ post ∧ (∀ c ∈ pre, space c) ∧ (∀ c ∈ post, space c) ∧
    (∀ c, did.getLast? = some c → ¬ space c) ∧ "did:".toList <+: did

end Arroba.Did
