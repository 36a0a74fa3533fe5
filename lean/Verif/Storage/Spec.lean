import Verif.Storage.Exec
import Verif.Mst.Grammar

/-!
# What a user sees of a repo

Everything is phrased in terms of the API: `Storage.load_repo`, `Repo.get_record`,
`Repo.get_contents` and `Repo.head`.
-/

namespace Arroba.Store

variable {C R : Type} [DecidableEq C]

/-- Reading through a `Repo` object gives exactly the records `m`: `get_record` finds them all and
nothing else, and so does `get_contents`. All paths are valid repo paths. -/
structure ObjShows (L : Lib C R) (w : World C R) (o : RepoObj C R) (m : Key → Option R) : Prop where
  paths : ∀ k, m k ≠ none → KeyGrammar k
  get : ∀ collection rkey,
    getRecord L w o collection rkey = .ok ((m (collection ++ '/' :: rkey)).map .record)
  contents : ∃ cs, getContents L w o = .ok cs ∧ ∀ collection rkey,
    ((dictGet cs collection).bind (dictGet · rkey)) =
      (m (collection ++ '/' :: rkey)).map .record

/-- `load_repo(d)` finds a repo, and reading it gives exactly the records `m`. -/
def Shows (L : Lib C R) (be : Backend) (w : World C R) (d : Did) (m : Key → Option R) : Prop :=
  ∃ w1 s o, loadRepo be w d = (w1, .ok (some s)) ∧ w1.heap[s]? = some o ∧ ObjShows L w1 o m

/-- `load_repo(d).head.cid`, if there is such a repo. -/
def readHead (L : Lib C R) (be : Backend) (w : World C R) (d : Did) : Option C :=
  match loadRepo be w d with
  | (w1, .ok (some s)) => ((w1.heap[s]?).bind (·.head)).map (fun b => L.hash b.val)
  | _ => none

/-- `Repo.load(storage, cid)` succeeds, and reading the repo gives exactly the records `m`. -/
def CommitShows (L : Lib C R) (w : World C R) (c : C) (m : Key → Option R) : Prop :=
  ∃ w1 r o, repoLoad w c none none 0 false = (w1, .ok r) ∧ w1.heap[r]? = some o ∧ ObjShows L w1 o m

/-- Applying `ops` to the paths and CIDs `M` gives `M'`, and every operation tells the truth: a
create has a CID and no previous one and its path is new; an update has the CID that was there
and a different new one; a delete has the CID that was there and no new one. -/
inductive OpsTrace : (Key → Option C) → List (CommitOp C) → (Key → Option C) → Prop
  | nil (M : Key → Option C) : OpsTrace M [] M
  | create {M M' : Key → Option C} {path : Key} {c : C} {ops : List (CommitOp C)} (h : M path = none)
      (hr : OpsTrace (Function.update M path (some c)) ops M') :
      OpsTrace M (⟨.create, path, some c, none⟩ :: ops) M'
  | update {M M' : Key → Option C} {path : Key} {c p : C} {ops : List (CommitOp C)}
      (h : M path = some p) (hne : c ≠ p) (hr : OpsTrace (Function.update M path (some c)) ops M') :
      OpsTrace M (⟨.update, path, some c, some p⟩ :: ops) M'
  | delete {M M' : Key → Option C} {path : Key} {p : C} {ops : List (CommitOp C)}
      (h : M path = some p) (hr : OpsTrace (Function.update M path none) ops M') :
      OpsTrace M (⟨.delete, path, none, some p⟩ :: ops) M'

end Arroba.Store
