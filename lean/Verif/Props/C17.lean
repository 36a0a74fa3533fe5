import Verif.Xrpc.GetRepoProofs
import Verif.Xrpc.Example
import Verif.Props.C18
import Verif.Props.C23
import Verif.Props.C41

/-!
# C17: repo export is complete

`Inside w head c`: the block `c` is the commit `head`, a node of its tree or a record in it.
-/

namespace Arroba.Xrpc

open Arroba.Store Arroba.Tree

variable {C R : Type} [DecidableEq C] {L : Lib C R} {Z : Nat} {be : Backend} {al : Allow}
  {w : World C R} {cfg : Config R} {ord : Nat → List (Raw C R) → List (Raw C R)} {g : Gate}
  {q : Key} {d : Did}

/-- **C17 (export).** `getRepo` on an active repo returns a CAR file whose root is the repo's head,
which is also its first block. It holds exactly the blocks of the repo, each once, with the contents
they have in storage; in whatever order the Datastore returns blocks.

Partial: not for `MemoryStorage` after a commit that failed in the middle, see
`C17_memory_false`. -/
theorem C17_export_partial (hL : L.OK Z) (hr : Reach L be .untorn w)
    (hord : ∀ f l, (ord f l).Perm l) (hg : g.closed = false) (hn : Names cfg be w q d) :
    ∃ w' head hv rest, getRepo cfg L be ord g w q none = (w', .ok ⟨[head], (head, hv) :: rest⟩) ∧
      Loaded w w' ∧ readHead L be w d = some head ∧ (head :: rest.map (·.1)).Nodup ∧
      ∀ c v, (c, v) ∈ (head, hv) :: rest ↔ Inside w head c ∧ ∃ b, w.read c = some b ∧ b.val = v := by
  obtain ⟨w', head, hv, rest, h1, h2, h3, ⟨b, h4, h5⟩, h6, h7, h8⟩ :=
    getRepo_spec hL (fun h => h) hr hord hg hn (since := none) rfl (fun _ => le_refl _)
  refine ⟨w', head, hv, rest, h1, h2, h3, h6, fun c v => ?_⟩
  rw [List.mem_cons]
  constructor
  · rintro (h | h)
    · obtain ⟨rfl, rfl⟩ := Prod.mk.inj h
      exact ⟨.head, b, h4, h5⟩
    · obtain ⟨_, i1, b', i2, i3, _⟩ := (h7 c v).1 h
      exact ⟨i1, b', i2, i3⟩
  · rintro ⟨i1, b', i2, rfl⟩
    by_cases hc : c = head
    · subst hc
      rw [h4] at i2
      cases i2
      exact .inl (by rw [h5])
    · exact .inr (h8 c b' i1 i2 (by omega) hc)

/-- **C17 (since).** With the rev `since` of the sequence number `n`, the CAR file has every block of
the repo that was stored with a sequence number of at least `n`. Besides the head, it only has nodes
of the repo that were stored at or after `n`, and the records in them. Nothing is in it twice.

Partial as above, and without imported repos. -/
theorem C17_since_partial (hL : L.OK Z) (ht : ¬ al.torn) (hi : ¬ al.imports) (hr : Reach L be al w)
    (hord : ∀ f l, (ord f l).Perm l) (hg : g.closed = false) (hn : Names cfg be w q d)
    {n : Nat} {since : Key} (hs : Tid.intToTid 0 n (some 0) = .ok since) :
    ∃ w' head hv rest,
      getRepo cfg L be ord g w q (some since) = (w', .ok ⟨[head], (head, hv) :: rest⟩) ∧
      Loaded w w' ∧ readHead L be w d = some head ∧ (head :: rest.map (·.1)).Nodup ∧
      (∃ b, w.read head = some b ∧ b.val = hv) ∧
      (∀ c b, Inside w head c → w.read c = some b → n ≤ b.seq → (c, b.val) ∈ (head, hv) :: rest) ∧
      ∀ c v, (c, v) ∈ rest → Inside w head c ∧ ∃ b, w.read c = some b ∧ b.val = v ∧
        ((∃ x, v = .node x ∧ n ≤ b.seq) ∨ Recent w head n c) := by
  have hn' : n < 32 ^ 11 := by
    by_contra h
    have := C18_rejects 0 0 (by omega) n (by omega)
    rw [show ((0 : Nat) : Int) = 0 from rfl, hs] at this
    cases this
  obtain ⟨tid, t1, t2, _, t3, _⟩ := C18_round_trip 0 (by omega) (some 0) (by simp) n hn'
  have : tid = since := by
    have := t1.symm.trans hs
    simpa using this
  subst this
  have hst : sinceSeq (some tid) = .ok (n : Int) := by
    cases tid with
    | nil => cases t2
    | cons => exact t3
  obtain ⟨w', head, hv, rest, h1, h2, h3, ⟨b, h4, h5⟩, h6, h7, h8⟩ :=
    getRepo_spec hL ht hr hord hg hn hst (fun h => absurd h hi)
  refine ⟨w', head, hv, rest, h1, h2, h3, h6, ⟨b, h4, h5⟩, fun c b' i1 i2 i3 => ?_, fun c v h => ?_⟩
  · by_cases hc : c = head
    · subst hc
      rw [h4] at i2
      cases i2
      rw [h5]
      exact .head _
    · exact .tail _ (h8 c b' i1 i2 (by omega) hc)
  · obtain ⟨_, i1, b', i2, i3, i4⟩ := (h7 c v).1 h
    refine ⟨i1, b', i2, i3, i4.imp_left ?_⟩
    rintro ⟨x, hx, hle⟩
    exact ⟨x, hx, by omega⟩

/-- **C17 (Datastore).** With `DatastoreStorage` the export is complete in every reachable state,
whatever failed before. -/
theorem C17_export_datastore (hL : L.OK Z) (hr : Reach L .datastore al w)
    (hord : ∀ f l, (ord f l).Perm l) (hg : g.closed = false) (hn : Names cfg .datastore w q d) :
    ∃ w' head hv rest,
      getRepo cfg L .datastore ord g w q none = (w', .ok ⟨[head], (head, hv) :: rest⟩) ∧
      Loaded w w' ∧ readHead L .datastore w d = some head ∧ (head :: rest.map (·.1)).Nodup ∧
      ∀ c v, (c, v) ∈ (head, hv) :: rest ↔ Inside w head c ∧ ∃ b, w.read c = some b ∧ b.val = v :=
  C17_export_partial hL (hr.datastore.weaken (al' := .untorn) (by exact fun h => h) (fun _ => trivial) (fun _ => trivial)
    (fun _ => trivial)) hord hg hn

theorem C17_since_datastore (hL : L.OK Z) (hi : ¬ al.imports) (hr : Reach L .datastore al w)
    (hord : ∀ f l, (ord f l).Perm l) (hg : g.closed = false) (hn : Names cfg .datastore w q d)
    {n : Nat} {since : Key} (hs : Tid.intToTid 0 n (some 0) = .ok since) :
    ∃ w' head hv rest,
      getRepo cfg L .datastore ord g w q (some since) = (w', .ok ⟨[head], (head, hv) :: rest⟩) ∧
      Loaded w w' ∧ readHead L .datastore w d = some head ∧ (head :: rest.map (·.1)).Nodup ∧
      (∃ b, w.read head = some b ∧ b.val = hv) ∧
      (∀ c b, Inside w head c → w.read c = some b → n ≤ b.seq → (c, b.val) ∈ (head, hv) :: rest) ∧
      ∀ c v, (c, v) ∈ rest → Inside w head c ∧ ∃ b, w.read c = some b ∧ b.val = v ∧
        ((∃ x, v = .node x ∧ n ≤ b.seq) ∨ Recent w head n c) :=
  C17_since_partial (al := { al with torn := False }) hL (fun h => h) hi hr.datastore hord hg hn hs

/-- **C17 (when it is closed).** The only condition under which an active repo isn't exported: exports are disabled, the call
comes from outside without the token, and the repo is older than twelve hours. Then NotImplementedError, and nothing
changes. -/
theorem C17_gate (hr : Reach L be al w) (hL : L.OK Z) (hn : Names cfg be w q d) :
    (g.closed = true ↔ g.disabled = true ∧ g.internal = false ∧ g.authed = false ∧ g.old = true) ∧
    (g.closed = true → ∀ since, ∃ w', Loaded w w' ∧ getRepo cfg L be ord g w q since = (w', .error .notImpl)) := by
  constructor
  · unfold Gate.closed
    cases g.disabled <;> cases g.internal <;> cases g.authed <;> cases g.old <;> decide
  · intro hg since
    obtain ⟨_, name, k1, k2, k3⟩ := hn
    rcases load_spec (cfg := cfg) (hr.plain hL).1.core k1 k2 with
      ⟨_, h4⟩ | ⟨d', st, w1, r, o, g1, g2, g3, g4, g5, g6, g7⟩
    · exact absurd ((k3 d none).2 ⟨rfl, rfl⟩) (h4 d none)
    · obtain ⟨rfl, rfl⟩ := (k3 d' st).1 g1
      rw [if_pos rfl] at g7
      refine ⟨w1, g6, ?_⟩
      unfold getRepo
      rw [g7]
      dsimp only
      rw [if_pos hg]

/-! ### Examples and counterexamples -/

/-- Open to everybody. -/
def exGate : Gate := ⟨false, false, false, false⟩

/-- The CIDs in a CAR file. -/
def exCids (be : Backend) (w : ExWorld) (since : Option Key) : Option (List SC) :=
  match (getRepo exCfg exL be (fun _ l => l.reverse) exGate w exHandle since).2 with
  | .ok car => some (car.blocks.map (·.1))
  | .error _ => none

/-- The hypotheses are met by the example repo; its export has a commit, three nodes and two records. -/
example (be : Backend) : Reach exL be .untorn (exW1 be) ∧ Names exCfg be (exW1 be) exHandle exDid ∧
    (exCids be (exW1 be) none).map (·.length) = some 6 := by
  refine ⟨(exW1_reach be).weaken (al' := .untorn) (by exact fun h => h) ?_ ?_ ?_, exNames be, ?_⟩
  · exact fun _ => trivial
  · exact fun _ => trivial
  · exact fun _ => trivial
  · cases be <;> decide +kernel

/-- Alice creates a record and deletes it again. -/
def exUp (be : Backend) : ExWorld :=
  (commit exL be (exW1 be) 0 [wr .create "c" (some 3)] none lucky false).1
def exDown (be : Backend) : ExWorld :=
  (commit exL be (exUp be) 0 [wr .delete "c" none] none lucky false).1

theorem exUp_reach (be : Backend) : Reach exL be .orderly (exUp be) := by
  refine .step (exW1_reach be) (.commit 0 _ lucky false ⟨.inr (.of_ok ?_), ?_, ?_, .inr rfl⟩)
  · cases be <;> decide +kernel
  · right; decide
  · right; cases be <;> decide +kernel

theorem exDown_reach (be : Backend) : Reach exL be .orderly (exDown be) := by
  refine .step (exUp_reach be) (.commit 0 _ lucky false ⟨.inr (.of_ok ?_), ?_, ?_, .inr rfl⟩)
  · cases be <;> decide +kernel
  · right; decide
  · right; cases be <;> decide +kernel

/-- The rev of Alice's head, and the root of the tree. -/
def exRev (be : Backend) (w : ExWorld) : Option Key :=
  match (readHead exL be w exDid).bind w.read with
  | some ⟨.commit co, _, _, _⟩ => some co.rev
  | _ => none
def exRoot (be : Backend) (w : ExWorld) : Option SC :=
  match (readHead exL be w exDid).bind w.read with
  | some ⟨.commit co, _, _, _⟩ => some co.data
  | _ => none

/-- **C17 (finding).** "At least every block whose sequence number is at least `since`" is not what a
client needs who has the repo as of the rev `since`: a block that was stored before, but was not part
of the repo at that rev, is part of it now and is missing from the diff. Here a record is created and
deleted again. A client that fetched the whole repo in between and now fetches what is new since
then does not get the root of the tree. -/
theorem C17_diff_false (be : Backend) : Reach exL be .orderly (exUp be) ∧
    Reach exL be .orderly (exDown be) ∧
    ∃ rev root head full diff, exRev be (exUp be) = some rev ∧ exCids be (exUp be) none = some full ∧
      exCids be (exDown be) (some rev) = some diff ∧
      readHead exL be (exDown be) exDid = some head ∧ Inside (exDown be) head root ∧
      root ∉ full ∧ root ∉ diff := by
  refine ⟨exUp_reach be, exDown_reach be, ?_⟩
  have h : (match exRev be (exUp be), exRoot be (exDown be), exCids be (exUp be) none with
      | some rev, some root, some full =>
        match exCids be (exDown be) (some rev) with
        | some diff => !(full.contains root) && !(diff.contains root)
        | none => false
      | _, _, _ => false) = true := by
    cases be <;> decide +kernel
  cases h1 : exRev be (exUp be) with
  | none => rw [h1] at h; cases h
  | some rev =>
    cases h2 : exRoot be (exDown be) with
    | none => rw [h1, h2] at h; cases h
    | some root =>
      cases h3 : exCids be (exUp be) none with
      | none => rw [h1, h2, h3] at h; cases h
      | some full =>
        cases h4 : exCids be (exDown be) (some rev) with
        | none => rw [h1, h2, h3] at h; dsimp only at h; rw [h4] at h; cases h
        | some diff =>
          rw [h1, h2, h3] at h
          dsimp only at h
          rw [h4] at h
          simp only [Bool.and_eq_true, Bool.not_eq_true', List.contains_eq_mem, decide_eq_false_iff_not] at h
          unfold exRoot at h2
          cases hh : readHead exL be (exDown be) exDid with
          | none => rw [hh] at h2; cases h2
          | some head =>
            rw [hh, Option.bind_some] at h2
            split at h2
            · rename_i co s o r' hr
              cases h2
              exact ⟨rev, co.data, head, full, diff, rfl, rfl, h4, rfl, .root hr rfl, h.1, h.2⟩
            · cases h2

/-- **C17 is false for `MemoryStorage`** after a commit that failed in the middle: the export raises
AttributeError. -/
theorem C17_memory_false : Reach exL .memory .all exAfterTorn ∧
    (getRepo exCfg exL .memory (fun _ l => l) exGate exAfterTorn exHandle none).2 =
      .error .attribute := by
  refine ⟨C23_memory_false.1, ?_⟩
  decide +kernel

end Arroba.Xrpc
