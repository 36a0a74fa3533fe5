import Verif.Did.Model
import Verif.Did.Regex

/-!
# Model of `resolve_handle` (did.py 485-537)

The answers of DNS and of the web server are parameters. A TXT record is the list of its character
strings, as bytes; `to_text` of dnspython is written out.

Not modelled: exceptions of `dns.resolver.resolve` that are not `DNSException`s, and of `get_fn` that
are not `RequestException`s: they are passed on. Logging.
-/

namespace Arroba.Did

/-- did.py 47 `[a-zA-Z]`. -/
def isLetter (c : Char) : Bool := ('a' ≤ c && c ≤ 'z') || ('A' ≤ c && c ≤ 'Z')

/-- did.py 47 `[a-zA-Z0-9]`. -/
def isAlnum (c : Char) : Bool := isLetter c || ('0' ≤ c && c ≤ '9')

/-- did.py 47 `[a-zA-Z0-9-]`. -/
def isLdh (c : Char) : Bool := isAlnum c || c == '-'

/-- did.py 46-47 `HANDLE_RE`. -/
def handleRe : Re :=
  let rest := Re.opt (.seq ((Re.set isLdh).upTo 61) (.set isAlnum))
  .seq (.plus (.seq (.seq (.set isAlnum) rest) (.chr '.'))) (.seq (.set isLetter) rest)

/-- did.py 515-518. What `dns.resolver.resolve` returns: a `DNSException`, or an answer with its
canonical name, and its records: the strings of a TXT record, or a record of another type. -/
inductive Dns where
  | exception
  | answer (canonical : Key) (records : List (Option (List (List Nat))))
  deriving DecidableEq

/-- did.py 527-533. What `get_fn` returns: a `RequestException`, or a response, `ok` or not, with its
text. -/
inductive Web where
  | exception
  | response (ok : Bool) (text : Key)
  deriving DecidableEq

/-- did.py 515, 527. The requests. -/
inductive Request where
  | txt (name : Key)
  | get (url : Key)
  deriving DecidableEq

/-- did.py 521. A byte as three decimal digits. -/
def decimal3 (n : Nat) : Key :=
  [Char.ofNat (48 + n / 100 % 10), Char.ofNat (48 + n / 10 % 10), Char.ofNat (48 + n % 10)]

/-- did.py 521. dnspython's `_escapify`, for one byte. -/
def escapify (b : Nat) : Key :=
  if b = 34 ∨ b = 92 then ['\\', Char.ofNat b]
  else if 32 ≤ b ∧ b < 127 then [Char.ofNat b]
  else '\\' :: decimal3 b

/-- did.py 521. dnspython's `to_text` of a TXT record. -/
def txtText (strings : List (List Nat)) : Key :=
  List.intercalate [' '] (strings.map fun s => '"' :: s.flatMap escapify ++ ['"'])

/-- did.py 523, 533. Python's `str.strip` with the characters that satisfy `p`. -/
def stripBy (p : Char → Bool) (s : Key) : Key := ((s.dropWhile p).reverse.dropWhile p).reverse

/-- did.py 533. Python's `str.isspace` for one character. -/
def isSpace (c : Char) : Bool :=
  let n := c.toNat
  (9 ≤ n && n ≤ 13) || (28 ≤ n && n ≤ 32) || n == 0x85 || n == 0xa0 || n == 0x1680 ||
    (0x2000 ≤ n && n ≤ 0x200a) || n == 0x2028 || n == 0x2029 || n == 0x202f || n == 0x205f || n == 0x3000

/-- did.py 519-523: the loop over the records. -/
def txtLoop : List (Option (List (List Nat))) → Option Key
  | [] => none
  | none :: rs => txtLoop rs
  | some strings :: rs =>
    let text := txtText strings
    if startsWith text "\"did=did:".toList then
      some (removePrefix (stripBy (· == '"') text) "did=".toList)
    else txtLoop rs

/-- did.py 515-525: the DNS method. -/
def viaDns (name : Key) : Dns → Option Key
  | .exception => none
  | .answer canonical records => if canonical = name then txtLoop records else none

/-- did.py 527-537: the HTTPS method. -/
def viaWeb : Web → Option Key
  | .exception => none
  | .response ok text =>
    if ok then
      let did := stripBy isSpace text
      if startsWith did "did:".toList then some did else none
    else none

/-- did.py 512 -/
def txtName (handle : Key) : Key := "_atproto.".toList ++ handle ++ ['.']

/-- did.py 528 -/
def wellKnown (handle : Key) : Key := "https://".toList ++ handle ++ "/.well-known/atproto-did".toList

/-- did.py 487-537 `resolve_handle`: the requests it makes, and what it returns or raises. -/
def resolveHandle (dns : Key → Dns) (web : Key → Web) (handle : Key) :
    List Request × Except Err (Option Key) :=
  if handle = [] ∨ handleRe.fullmatch handle = false then ([], .error .value)
  else
    match viaDns (txtName handle) (dns (txtName handle)) with
    | some did => ([.txt (txtName handle)], .ok (some did))
    | none => ([.txt (txtName handle), .get (wellKnown handle)], .ok (viaWeb (web (wellKnown handle))))

/-! ### The cache -/

/-- did.py 73-74, 453-454, 485-486. `cachetools.cached` with a `TTLCache` and a lock, around a
function of one argument: what is cached with the time it was stored. `got` only records what the
callers got and when. -/
structure Cache (A B : Type) where
  entries : List (A × (B × Int))
  got : List (A × B × Int) := []

/-- did.py 73-74, 453-454, 485-486. What can happen, and when. -/
inductive CacheAct (A B : Type) where
  /-- a call finds a value in the cache -/
  | hit (a : A) (now : Int)
  /-- a call that has not found a value has called the function, which has returned -/
  | finish (a : A) (b : B) (now : Int)
  /-- an entry is thrown out, because it has expired or because the cache is full -/
  | evict (a : A)

/-- did.py 73-74, 453-454, 485-486. A value is there until its time is over. -/
def Cache.find {A B : Type} [DecidableEq A] (ttl : Int) (c : Cache A B) (a : A) (now : Int) :
    Option B :=
  match dictGet c.entries a with
  | some (b, stored) => if now < stored + ttl then some b else none
  | none => none

/-- did.py 73-74, 453-454, 485-486. One step. A call that has called the function returns what
another call has cached in the meantime (`setdefault`), if anything. -/
def Cache.act {A B : Type} [DecidableEq A] (ttl : Int) (c : Cache A B) :
    CacheAct A B → Option (Cache A B)
  | .hit a now => match c.find ttl a now with
    | some b => some { c with got := c.got ++ [(a, b, now)] }
    | none => none
  | .finish a b now => match c.find ttl a now with
    | some b' => some { c with got := c.got ++ [(a, b', now)] }
    | none => some ⟨dictSet c.entries a (b, now), c.got ++ [(a, b, now)]⟩
  | .evict a => some { c with entries := dictErase c.entries a }

/-- did.py 73-74, 453-454, 485-486. Several steps. -/
def Cache.run {A B : Type} [DecidableEq A] (ttl : Int) :
    Cache A B → List (CacheAct A B) → Option (Cache A B)
  | c, [] => some c
  | c, a :: as => (c.act ttl a).bind (fun c' => Cache.run ttl c' as)

end Arroba.Did
