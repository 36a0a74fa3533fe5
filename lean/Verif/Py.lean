import Mathlib.Data.List.Lex
import Mathlib.Data.Char

/-!
# Python primitives used by the models

Strings are lists of code points (`Key`), ordered as Python orders `str`
(lexicographically by code point); exceptions are values of `Err`.
-/

namespace Arroba

/-- A Python `str`: the list of its code points. `<`/`≤` on `Key` is the lexicographic
order by code point, i.e. Python's `str` comparison. -/
abbrev Key := List Char

/-- The exception classes the modelled code can raise (messages are not modelled). -/
inductive Err where
  | value        -- ValueError
  | key          -- KeyError
  | assertion    -- AssertionError
  | runtime      -- RuntimeError
  | attribute    -- AttributeError / TypeError on a missing or malformed block
  | index        -- IndexError
  | recursion    -- RecursionError (also: the model's fuel ran out)
  | inactive     -- util.InactiveRepo (a ValueError subclass)
  | notImpl      -- NotImplementedError
  | xrpc (name : String)  -- lexrpc XrpcError with this name
  deriving DecidableEq, Repr

/-- Normalises a Python slice bound against a sequence of length `n`. -/
def sliceBound (n : Nat) (i : Int) : Nat :=
  if i < 0 then (i + n).toNat else min i.toNat n

/-- Python `l[start:stop]` (step 1); `stop = none` is `l[start:]`. -/
def pySlice {α : Type} (l : List α) (start : Int) (stop : Option Int) : List α :=
  (l.take (match stop with | none => l.length | some e => sliceBound l.length e)).drop
    (sliceBound l.length start)

/-- Python's `d[k] = v` on a dict modelled as an association list in insertion order:
an existing key keeps its position. -/
def dictSet {α β : Type} [DecidableEq α] (d : List (α × β)) (k : α) (v : β) : List (α × β) :=
  match d with
  | [] => [(k, v)]
  | (k', v') :: rest => if k' = k then (k, v) :: rest else (k', v') :: dictSet rest k v

/-- Python's `d.get(k)`. -/
def dictGet {α β : Type} [DecidableEq α] (d : List (α × β)) (k : α) : Option β :=
  match d with
  | [] => none
  | (k', v') :: rest => if k' = k then some v' else dictGet rest k

/-- Python's `d.update(d')`. -/
def dictUpdate {α β : Type} [DecidableEq α] (d d' : List (α × β)) : List (α × β) :=
  d'.foldl (fun acc kv => dictSet acc kv.1 kv.2) d

/-- Python's `d.setdefault(k, v)` (the resulting dict). -/
def dictSetDefault {α β : Type} [DecidableEq α] (d : List (α × β)) (k : α) (v : β) :
    List (α × β) :=
  match dictGet d k with
  | some _ => d
  | none => d ++ [(k, v)]

/-- Python's `d.pop(k, None)` (the resulting dict). -/
def dictErase {α β : Type} [DecidableEq α] (d : List (α × β)) (k : α) : List (α × β) :=
  d.filter (fun kv => decide (kv.1 ≠ k))

/-- Python's `s.startswith(p)`. -/
def startsWith (s p : Key) : Bool := p.isPrefixOf s

/-- `len(os.path.commonprefix((a, b)))`. -/
def commonPrefixLen : Key → Key → Nat
  | a :: as, b :: bs => if a = b then commonPrefixLen as bs + 1 else 0
  | _, _ => 0

/-- Python's `s.split(c)` for a single-character separator: always at least one part. -/
def pySplit (sep : Char) : Key → List Key
  | [] => [[]]
  | c :: cs =>
    if c = sep then [] :: pySplit sep cs
    else match pySplit sep cs with
      | [] => [[c]]       -- unreachable: `pySplit` is never empty
      | p :: ps => (c :: p) :: ps

/-! ### Exceptions in `do` blocks -/

@[simp] theorem ok_bind {ε α β : Type} (a : α) (f : α → Except ε β) :
    ((Except.ok a : Except ε α) >>= f) = f a := rfl

@[simp] theorem error_bind {ε α β : Type} (e : ε) (f : α → Except ε β) :
    ((Except.error e : Except ε α) >>= f) = Except.error e := rfl

theorem bind_ok {ε α β : Type} {x : Except ε α} {f : α → Except ε β} {b : β}
    (h : (x >>= f) = .ok b) : ∃ a, x = .ok a ∧ f a = .ok b := by
  cases x with
  | error e => cases h
  | ok a => exact ⟨a, rfl, h⟩

/-- `if not p: raise e`, or `assert p`. -/
def ensure (p : Prop) [Decidable p] (e : Err) : Except Err Unit :=
  if p then .ok () else .error e

theorem ensure_ok {p : Prop} [Decidable p] {e : Err} {u : Unit} (h : ensure p e = .ok u) : p := by
  by_contra hp
  rw [ensure, if_neg hp] at h
  cases h

theorem ensure_true {p : Prop} [Decidable p] {e : Err} (h : p) : ensure p e = .ok () := by
  rw [ensure, if_pos h]

theorem ensure_false {p : Prop} [Decidable p] {e : Err} (h : ¬ p) : ensure p e = .error e := by
  rw [ensure, if_neg h]

end Arroba
