import Verif.Xrpc.Model
import Verif.Storage.Import

/-!
# Model of `import_repo` (xrpc_repo.py 192-244)

`carbox.read_car` is outside: the input is what it returns, the roots and the blocks with the CIDs that
the file gives them, or the exception it raises. DID resolution and signatures are parameters.

Simplification: as everywhere, decoded blocks are a disjoint union (`Val`); a head block that isn't a
commit raises KeyError.
-/

namespace Arroba.Xrpc

open Arroba.Store

variable {C R : Type} [DecidableEq C]

/-- did.py 376-409. What `import_repo` uses of a DID document: `get_signing_key` and `get_handle`. -/
structure Doc where
  signingKey : Option Nat
  handle : Option Key

/-- xrpc_repo.py 192-245. The outside world of `import_repo`: `did.resolve`, `verify_sig` of a commit
with a public key, and `new_key()`. -/
structure Outside (C : Type) where
  resolve : Did → Except Err Doc
  verifies : Commit C → Nat → Bool
  newKey : Nat

/-- xrpc_repo.py 205-226. The local variables of the loop of lines 209-226: `blocks`, and `head` with
`repo_did` and `did_doc`. -/
structure Importing (C R : Type) where
  blocks : List (C × Val C R)
  head : Option (C × Commit C × Doc)

/-- xrpc_repo.py 214-226: the head block. -/
def checkHead (be : Backend) (out : Outside C) (w : World C R) (v : Val C R) :
    World C R × Except Err (Commit C × Doc) :=
  match v with
  | .commit co =>
    match loadRepo be w co.did with
    | (w, .error e) => (w, .error e)
    | (w, .ok (some _)) => (w, .error .value)
    | (w, .ok none) =>
      match out.resolve co.did with
      | .error e => (w, .error e)
      | .ok doc =>
        match doc.signingKey with
        | none => (w, .error .value)
        | some k => if out.verifies co k then (w, .ok (co, doc)) else (w, .error .value)
  | _ => (w, .error .key)

/-- xrpc_repo.py 209-226: the loop. -/
def importLoop (be : Backend) (out : Outside C) (root : C) :
    World C R → Importing C R → List (C × Val C R) → World C R × Except Err (Importing C R)
  | w, st, [] => (w, .ok st)
  | w, st, (c, v) :: rest =>
    let st := { st with blocks := st.blocks ++ [(c, v)] }
    if c = root then
      match checkHead be out w v with
      | (w, .error e) => (w, .error e)
      | (w, .ok (co, doc)) => importLoop be out root w { st with head := some (c, co, doc) } rest
    else importLoop be out root w st rest

/-- xrpc_repo.py 192-244 `import_repo`. -/
def importRepo (cfg : Config R) (L : Lib C R) (be : Backend) (out : Outside C) (w : World C R)
    (header : Option Key) (file : Except Err (Car C R)) : World C R × Except Err Unit :=
  match auth cfg header with
  | .error e => (w, .error e)
  | .ok () =>
    match file with
    | .error e => (w, .error e)
    | .ok car =>
      match car.roots with
      | [] => (w, .error .value)
      | root :: _ =>
        match importLoop be out root w ⟨[], none⟩ car.blocks with
        | (w, .error e) => (w, .error e)
        | (w, .ok st) =>
          match st.head with
          | none => (w, .error .value)
          | some (_, co, doc) =>
            importInto L be w co doc.handle out.newKey st.blocks

end Arroba.Xrpc
