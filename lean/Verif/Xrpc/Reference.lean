import Verif.Props.C42
import Verif.Props.C44

/-!
# A reference server

What a server should do, without repos, trees, commits, blocks and sequence numbers: its whole state is a
table of accounts. `Serves` says what it answers to each request, with which exception it refuses one, and
what its state is afterwards. It may answer in more than one way only when several accounts have the same
handle.
-/

namespace Arroba.Xrpc

open Arroba.Store

variable {C R : Type} [DecidableEq C]

/-- An account. -/
structure Account (R : Type) where
  handle : Option Key
  status : Option Status
  records : Key → Option R

/-- All accounts. -/
abbrev Accounts (R : Type) := Did → Option (Account R)

/-- What an operator may do to an account. -/
inductive Change where
  | activate | deactivate | tombstone

/-- The status of an account afterwards. -/
def Change.status : Change → Option Status
  | .activate => none
  | .deactivate => some .deactivated
  | .tombstone => some .tombstoned

/-- The requests of clients, and two things that the operator does: creating a repo, and changing the
status of one. `tid` is the record key that is generated if there is none in the request. -/
inductive Request (R : Type) where
  | getRecord (repo collection rkey : Key) (cid : Bool)
  | listRecords (repo collection : Key) (limit : Nat) (cursor : Option Key)
  | describeRepo (repo : Key)
  | getRepoStatus (did : Key)
  | putRecord (header : Option Key) (inp : Input R)
  | createRecord (header : Option Key) (inp : Input R) (tid : Key)
  | deleteRecord (header : Option Key) (inp : Input R)
  | applyWrites (header : Option Key) (inp : Input R)
  | uploadBlob (header : Option Key)
  | newRepo (did : Did) (handle : Option Key)
  | setStatus (did : Did) (change : Change)

/-- What comes back. -/
inductive Answer (C R : Type) where
  | failed (e : Err)
  | record (x : Found C R)
  | page (p : Page (Found C R))
  | repo (did : Did) (handle : Option Key) (collections : List Key)
  | active (b : Bool)
  | written (x : Written C)
  | done
  | http (status : Nat)
  deriving DecidableEq

/-- What is outside of the server: which DID documents can be resolved, and how Python sorts strings. -/
structure Surroundings where
  resolves : Did → Bool
  sorted : List Key → List Key

/-- Which account a request means, or the exception if it means none that is active: `q` is a DID, a
handle, or an `at://` URI with one of them. -/
inductive Finds (cfg : Config R) (A : Accounts R) (q : Key) : Except Err (Did × Account R) → Prop
  | bad {e : Err} (h : target cfg q = .error e) : Finds cfg A q (.error e)
  | empty (h : target cfg q = .ok []) : Finds cfg A q (.error .assertion)
  | unknown {name : Key} (h : target cfg q = .ok name) (hn : name ≠ [])
      (hno : ∀ d a, A d = some a → ¬ (d = name ∨ a.handle = some name)) :
      Finds cfg A q (.error (.xrpc "RepoNotFound"))
  | inactive {name : Key} {d : Did} {a : Account R} (h : target cfg q = .ok name) (hn : name ≠ [])
      (ha : A d = some a) (hname : d = name ∨ a.handle = some name) (hs : a.status ≠ none) :
      Finds cfg A q (.error (.xrpc "RepoDeactivated"))
  | found {name : Key} {d : Did} {a : Account R} (h : target cfg q = .ok name) (hn : name ≠ [])
      (ha : A d = some a) (hname : d = name ∨ a.handle = some name) (hs : a.status = none) :
      Finds cfg A q (.ok (d, a))

/-- A collection that is given, but not supported. -/
def Strange (cfg : Config R) (c : Option Key) : Prop := ∃ k, c = some k ∧ k ≠ [] ∧ ¬ Supported cfg k

/-- Requests that are refused at once: they want compare-and-swap, or they don't say which repo, or they
name a collection that isn't supported. -/
def Malformed (cfg : Config R) (inp : Input R) (collection : Option Key) : Prop :=
  inp.swap = true ∨ inp.repo.getD [] = [] ∨ Strange cfg collection ∨ Strange cfg inp.collection

/-- The records of a collection from the cursor on. A cursor before the collection is no good if
there are records between it and the collection. -/
structure Listing (m : Key → Option R) (collection : Key) (cursor : Option Key) (K : List (Key × R)) :
    Prop where
  ascending : K.Pairwise fun a b => pathOf collection a.1 < pathOf collection b.1
  mem : ∀ k r, (k, r) ∈ K ↔ m (pathOf collection k) = some r ∧
    (∀ c, cursor = some c → c ≤ pathOf collection k) ∧
    ∀ c p, cursor = some c → c ≠ [] → m p ≠ none → c ≤ p → ¬ p < collection ++ ['/']

/-- The collections of a repo. -/
structure Collections (m : Key → Option R) (cs : List Key) : Prop where
  ascending : cs.Pairwise fun a b => a ++ ['/'] < b ++ ['/']
  mem : ∀ c, c ∈ cs ↔ ∃ k r, m (pathOf c k) = some r

/-- The exception when a request isn't authorised. -/
def authErr (cfg : Config R) : Err := if cfg.token.getD [] = [] then .notImpl else .value

section
open scoped Classical

/-- putRecord. -/
def ServesPut (cfg : Config R) (L : Lib C R) (A : Accounts R) (header : Option Key) (inp : Input R)
    (ans : Answer C R) (A' : Accounts R) : Prop :=
  if Malformed cfg inp none then ans = .failed .value ∧ A' = A
  else if ¬ Authorized cfg header then ans = .failed (authErr cfg) ∧ A' = A
  else ∃ res, Finds cfg A (inp.repo.getD []) res ∧
    match res, inp.collection, inp.rkey, inp.record with
    | .error e, _, _, _ => ans = .failed e ∧ A' = A
    | .ok (d, a), some c, some k, some r =>
      if Acceptable L r (pathOf c k) then
        ans = .written ⟨uriOf d c k, L.rcid r⟩ ∧
        A' = Function.update A d (some { a with records := Function.update a.records (pathOf c k) (some r) })
      else ans = .failed .value ∧ A' = A
    | .ok _, _, _, _ => ans = .failed .key ∧ A' = A

/-- The answer to a request, and the accounts afterwards. -/
def Serves (cfg : Config R) (out : Surroundings) (L : Lib C R) (A : Accounts R) :
    Request R → Answer C R → Accounts R → Prop
  | .getRecord repo collection rkey cid, ans, A' => A' = A ∧
    if Malformed cfg ⟨some repo, some collection, some rkey, none, false⟩ none ∨ cid = true then
      ans = .failed .value
    else ∃ res, Finds cfg A repo res ∧
      match res with
      | .error e => ans = .failed e
      | .ok (d, a) =>
        match a.records (pathOf collection rkey) with
        | none => ans = .failed (.xrpc "RecordNotFound")
        | some r =>
          if cfg.empty r = true then ans = .failed (.xrpc "RecordNotFound")
          else ans = .record ⟨uriOf d collection rkey, L.rcid r, .record r⟩
  | .listRecords repo collection limit cursor, ans, A' => A' = A ∧
    if ¬ Supported cfg collection then ans = .page ⟨[], none⟩
    else if repo = [] ∨ collection = [] then ans = .failed .value
    else ∃ res, Finds cfg A repo res ∧
      match res with
      | .error e => ans = .failed e
      | .ok (d, a) => ∃ K, Listing a.records collection cursor K ∧
        if limit = 0 then ans = .failed .index
        else ans = .page ⟨(K.take limit).map (found L d collection),
          if K.length < limit then none else (K.take limit).getLast?.map fun x => pathOf collection x.1⟩
  | .describeRepo repo, ans, A' => A' = A ∧
    if repo = [] then ans = .failed .value
    else ∃ res, Finds cfg A repo res ∧
      match res with
      | .error e => ans = .failed e
      | .ok (d, a) =>
        if out.resolves d = false then ans = .failed .value
        else if cfg.supported ≠ [] then ans = .repo d a.handle (out.sorted cfg.supported)
        else ∃ cs, Collections a.records cs ∧ ans = .repo d a.handle cs
  | .getRepoStatus did, ans, A' => A' = A ∧ ∃ res, Finds cfg A did res ∧
      match res with
      | .error e => ans = if e = .xrpc "RepoDeactivated" then .active false else .failed e
      | .ok _ => ans = .active true
  | .putRecord header inp, ans, A' => ServesPut cfg L A header inp ans A'
  | .createRecord header inp tid, ans, A' =>
    if Malformed cfg inp
        (if inp.collection.getD [] ≠ [] then inp.collection else inp.record.bind cfg.typ) then
      ans = .failed .value ∧ A' = A
    else ServesPut cfg L A header { inp with rkey := some (inp.rkey.getD tid) } ans A'
  | .deleteRecord header inp, ans, A' =>
    if Malformed cfg inp none then ans = .failed .value ∧ A' = A
    else if ¬ Authorized cfg header then ans = .failed (authErr cfg) ∧ A' = A
    else ∃ res, Finds cfg A (inp.repo.getD []) res ∧
      match res, inp.collection, inp.rkey with
      | .error e, _, _ => ans = .failed e ∧ A' = A
      | .ok (d, a), some c, some k => ans = .done ∧
        A' = Function.update A d (some { a with records := Function.update a.records (pathOf c k) none })
      | .ok _, _, _ => ans = .failed .key ∧ A' = A
  | .applyWrites header inp, ans, A' => A' = A ∧
    if Malformed cfg inp none then ans = .failed .value
    else if ¬ Authorized cfg header then ans = .failed (authErr cfg)
    else ans = .http 501
  | .uploadBlob _, ans, A' => A' = A ∧ ans = .failed .value
  | .newRepo did handle, ans, A' => ans = .done ∧
    A' = Function.update A did (some ⟨handle, none, fun _ => none⟩)
  | .setStatus did change, ans, A' =>
    match A did with
    | none => ans = .failed .attribute ∧ A' = A
    | some a => ans = .done ∧ A' = Function.update A did (some { a with status := change.status })

end

/-- The operator uses DIDs and handles properly. (An empty handle is none at all in the Datastore.) -/
def Proper : Request R → Prop
  | .newRepo did handle => isDid did ∧ ∀ h, handle = some h → ¬ isDid h ∧ h ≠ []
  | .setStatus did _ => isDid did
  | _ => True

/-- Every handle belongs to one DID. -/
def Owned (owner : Key → Did) : Request R → Prop
  | .newRepo did handle => ∀ h, handle = some h → owner h = did
  | _ => True

end Arroba.Xrpc
