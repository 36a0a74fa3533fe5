import Verif.Py

/-!
# Model of `at_uri` and `parse_at_uri` (`arroba/util.py` 223-260)

`urllib.parse.urlparse` is modelled from CPython's source for URLs that start with `at://`: it
drops tabs and newlines, ends the netloc at the first of `/?#`, and ends the path at the first of
`?#`. Its checks on netlocs with brackets or non-ASCII characters, which can raise ValueError,
are the parameter `netlocOk`.
-/

namespace Arroba.AtUri

/-- util.py 239, 253. -/
def scheme : Key := "at://".toList

/-- util.py 223-239 `at_uri`. -/
def atUri (did collection rkey : Key) : Except Err Key :=
  if did = [] ∨ collection = [] ∨ rkey = [] then .error .assertion
  else .ok (scheme ++ did ++ '/' :: collection ++ '/' :: rkey)

/-- Python's `s.strip(c)` for one character. -/
def strip (c : Char) (s : Key) : Key := ((s.dropWhile (· = c)).reverse.dropWhile (· = c)).reverse

/-- Whether `urlsplit` needs its bracket or NFKC checks for this netloc. -/
def special (netloc : Key) : Bool := netloc.any (fun c => c = '[' ∨ c = ']' ∨ 128 ≤ c.toNat)

/-- util.py 256. `urlparse(uri)`'s `netloc` and `path`, for a `uri` that starts with `at://`. -/
def urlparseAt (netlocOk : Key → Bool) (uri : Key) : Except Err (Key × Key) :=
  let url := (uri.filter (fun c => c ≠ '\t' ∧ c ≠ '\r' ∧ c ≠ '\n')).drop 5
  let isDelim := fun c : Char => c = '/' ∨ c = '?' ∨ c = '#'
  let netloc := url.takeWhile (fun c => ¬ isDelim c)
  let rest := url.dropWhile (fun c => ¬ isDelim c)
  if special netloc ∧ ¬ netlocOk netloc then .error .value
  else .ok (netloc, rest.takeWhile (fun c => ¬ (c = '?' ∨ c = '#')))

/-- util.py 256-260: `path.strip('/').split('/', maxsplit=1)`, padded to two parts. -/
def splitPath (path : Key) : Key × Key :=
  let p := strip '/' path
  (p.takeWhile (· ≠ '/'), (p.dropWhile (· ≠ '/')).drop 1)

/-- util.py 242-260 `parse_at_uri` on a string. -/
def parseAtUri (netlocOk : Key → Bool) (uri : Key) : Except Err (Key × Key × Key) :=
  if uri = [] ∨ ¬ startsWith uri scheme then .error .value
  else do
    let np ← urlparseAt netlocOk uri
    .ok (np.1, splitPath np.2)

end Arroba.AtUri
