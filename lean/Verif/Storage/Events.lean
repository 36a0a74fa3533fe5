import Verif.Storage.Model
import Mathlib.Data.List.Nodup

/-!
# Model of the event log: `read_blocks_by_seq` and `read_events_by_seq`

Generators are modelled by the list of what they yield, together with the exception that ends them,
if any. Simplification: one run of `read_events_by_seq` sees one state of the storage (stored blocks
never change, C26, so reading them later gives the same).
-/

namespace Arroba.Store

variable {C R : Type} [DecidableEq C]

/-- `not repo or b.repo == repo` (storage.py 728); datastore_storage.py 834-835. -/
def inRepo (repo : Option Did) (b : Block C R) : Bool :=
  match repo with
  | none => true
  | some d => decide (d = []) || decide (b.repo = d)

/-- Blocks of the given repo, or of all. -/
def Concerns (repo : Option Did) (b : Block C R) : Prop :=
  repo = none ∨ repo = some [] ∨ repo = some b.repo

theorem inRepo_iff {repo : Option Did} {b : Block C R} : inRepo repo b = true ↔ Concerns repo b := by
  unfold inRepo Concerns
  cases repo with
  | none => simp
  | some d =>
    simp only [Bool.or_eq_true, decide_eq_true_eq, reduceCtorEq, false_or, Option.some.injEq]
    exact or_congr Iff.rfl eq_comm

/-- storage.py 724-729 `MemoryStorage.read_blocks_by_seq`. -/
def readBlocksMemory (w : World C R) (start : Nat) (repo : Option Did) : List (Block C R) :=
  ((w.blocks.map (·.2)).filter (fun b => decide (start ≤ b.seq) && inRepo repo b)).mergeSort
    (fun a b => decide (a.seq ≤ b.seq))

/-- The contract of the Datastore query of datastore_storage.py 832-848: all blocks with
`seq ≥ start`, once, by `seq`, in any order within the same `seq`. -/
structure Query (L : Lib C R) (w : World C R) (start : Nat) (repo : Option Did)
    (q : List (Block C R)) : Prop where
  sorted : q.Pairwise (fun a b => a.seq ≤ b.seq)
  nodup : q.Nodup
  mem : ∀ b, b ∈ q ↔ w.read (L.hash b.val) = some b ∧ start ≤ b.seq ∧ Concerns repo b

/-- datastore_storage.py 847-854: the loop over the results of one query. Returns
`(cur_seq, cur_seq_cids)` and the yielded blocks. -/
def consume (L : Lib C R) : Nat × List C → List (Block C R) → (Nat × List C) × List (Block C R)
  | s, [] => (s, [])
  | s, b :: bs =>
    let s := if b.seq ≠ s.1 then (b.seq, []) else s
    if L.hash b.val ∈ s.2 then consume L s bs
    else
      let r := consume L (s.1, s.2 ++ [L.hash b.val]) bs
      (r.1, b :: r.2)

/-- datastore_storage.py 816-861: one run of `DatastoreStorage.read_blocks_by_seq`. `lost`: the ndb
context is lost after `k` results, and the query is restarted at `cur_seq`; the storage may have
grown in the meantime. `DsScan L repo w s w' out`: started in `w` with the local variables `s`,
it ends in `w'`, having yielded `out`. -/
inductive DsScan (L : Lib C R) (repo : Option Did) :
    World C R → Nat × List C → World C R → List (Block C R) → Prop
  | finish {w s q} (h : Query L w s.1 repo q) : DsScan L repo w s w (consume L s q).2
  | lost {w s q w' w'' out} (k : Nat) (h : Query L w s.1 repo q)
      (hg : ∀ c b, w.read c = some b → w'.read c = some b)
      (h' : DsScan L repo w' (consume L s (q.take k)).1 w'' out) :
      DsScan L repo w s w'' ((consume L s (q.take k)).2 ++ out)

/-- A `CommitData` as `read_events_by_seq` builds it; a block may be `None` (storage.py 400-401). -/
structure SentCommit (C R : Type) where
  commit : Block C R
  blocks : List (C × Option (Block C R))
  prev : Option C
  deriving DecidableEq

/-- storage.py 368-425. What `read_events_by_seq` yields. -/
inductive Sent (C R : Type) where
  | event (v : Val C R)
  | commit (c : SentCommit C R)

/-- storage.py 418-419: `block.decoded.get('$type', '').startswith(...)`. -/
def looksEvent (L : Lib C R) : Val C R → Bool
  | .event _ => true
  | .record r => L.eventLike r
  | _ => false

/-- storage.py 424-425: exactly the keys of a commit. -/
def looksCommit (L : Lib C R) : Val C R → Bool
  | .commit _ => true
  | .record r => L.commitLike r
  | _ => false

/-- storage.py 391-396. -/
def addRecords (w : World C R) : List (C × Option (Block C R)) → List (CommitOp C) →
    Except Err (List (C × Option (Block C R)))
  | d, [] => .ok d
  | d, op :: ops =>
    if op.action = .delete then addRecords w d ops
    else match op.cid with
      | none => .error .assertion
      | some c =>
        match dictGet d c with
        | some _ => addRecords w d ops
        | none =>
          match w.read c with
          | none => .error .assertion
          | some b => addRecords w (dictSet d c (some b)) ops

/-- storage.py 390-404 `make_commit`. Iterating over `ops = None` is a TypeError. (A commit-shaped
record has no `ops` with `MemoryStorage`; with `DatastoreStorage` it has `[]`, and its `data` would
be read, which is simplified to an exception.) -/
def makeCommit (w : World C R) (cb : Block C R) (d : List (C × Option (Block C R))) :
    Except Err (SentCommit C R) :=
  match cb.ops with
  | none => .error .runtime
  | some ops =>
    match addRecords w d ops with
    | .error e => .error e
    | .ok d =>
      match cb.val with
      | .commit co =>
        .ok ⟨cb, match dictGet d co.data with
          | some _ => d
          | none => dictSet d co.data (w.read co.data), co.prev⟩
      | _ => .error .runtime

/-- storage.py 383-425. The local variables of `read_events_by_seq`; `blocks = None` acts like `{}`. -/
structure Scanner (C R : Type) where
  seq : Option Nat
  commit : Option (Block C R)
  blocks : List (C × Option (Block C R))

/-- storage.py 408-415. -/
def flush (w : World C R) (s : Scanner C R) : Except Err (List (Sent C R)) :=
  match s.commit with
  | some cb =>
    match makeCommit w cb s.blocks with
    | .error e => .error e
    | .ok c => .ok [.commit c]
  | none => if s.blocks ≠ [] then .error .assertion else .ok []

/-- storage.py 417-430. -/
def scan (L : Lib C R) (w : World C R) : Scanner C R → List (Block C R) →
    List (Sent C R) × Option Err
  | s, [] =>
    if s.blocks = [] then ([], none)
    else match s.commit with
      | none => ([], some .assertion)
      | some cb =>
        match makeCommit w cb s.blocks with
        | .error e => ([], some e)
        | .ok c => ([.commit c], none)
  | s, b :: bs =>
    if b.seq = 0 then ([], some .assertion)
    else
      match (if s.seq ≠ some b.seq then
          match flush w s with
          | .error e => .error e
          | .ok out => .ok (out, ⟨some b.seq, none, []⟩)
        else .ok ([], s) : Except Err (List (Sent C R) × Scanner C R)) with
      | .error e => ([], some e)
      | .ok (out, s) =>
        if looksEvent L b.val then
          let r := scan L w s bs
          (out ++ .event b.val :: r.1, r.2)
        else
          let s := { s with
            blocks := dictSet s.blocks (L.hash b.val) (some b),
            commit := if looksCommit L b.val then some b else s.commit }
          let r := scan L w s bs
          (out ++ r.1, r.2)

/-- storage.py 368-430 `read_events_by_seq`, given the blocks that `read_blocks_by_seq` yields. -/
def readEvents (L : Lib C R) (w : World C R) (blocks : List (Block C R)) :
    List (Sent C R) × Option Err :=
  scan L w ⟨none, none, []⟩ blocks

end Arroba.Store
