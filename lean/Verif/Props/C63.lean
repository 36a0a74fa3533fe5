import Verif.Xrpc.OverlapProofs

/-!
# C63: an export is a snapshot

`getRepo` loads the repo, and then reads its blocks one layer of the tree at a time while it writes the CAR
file. `getRepoAt` does these reads at different times: other requests may be served in between.
-/

namespace Arroba.Xrpc

open Arroba.Store Arroba.Tree

variable {C R : Type} [DecidableEq C] {L : Lib C R} {Z : Nat} {be : Backend} {al : Allow}
  {w : World C R} {cfg : Config R} {ord : Nat → List (Raw C R) → List (Raw C R)} {g : Gate}
  {q : Key} {d : Did} {ws : Nat → World C R} {wl : World C R}

/-- **C63 (snapshot).** Whatever happens between the reads, be it commits to the same repo, its deactivation,
or an import, and whatever fails in it: `getRepo` returns the same CAR file as if nothing had happened, that is
the repo at the time of the request (`C17_export_partial`, `C17_since_partial`).

Partial: not for `MemoryStorage` if a commit failed in the middle *before* the request, see
`C17_memory_false`. -/
theorem C63_snapshot_partial (hL : L.OK Z) (hr : Reach L be .untorn w) (hord : ∀ f l, (ord f l).Perm l)
    (hn : Names cfg be w q d) (hws : ∀ f, Meanwhile cfg L be w (ws f)) (hwl : Meanwhile cfg L be w wl)
    (since : Option Key) :
    getRepoAt cfg L be ord g w ws wl q since = getRepo cfg L be ord g w q since := by
  obtain ⟨_, name, k1, k2, k3⟩ := hn
  rcases load_spec (cfg := cfg) (hr.plain hL).1.core k1 k2 with
    ⟨_, h4⟩ | ⟨d', st, w1, r, o, g1, g2, g3, g4, g5, g6, g7⟩
  · exact absurd ((k3 d none).2 ⟨rfl, rfl⟩) (h4 d none)
  obtain ⟨rfl, rfl⟩ := (k3 d' st).1 g1
  have hr1 : Reach L be .untorn w1 := by
    have := Step.loadRepo (L := L) (be := be) (al := .untorn) (w := w) name
    rw [g2] at this
    exact .step hr this
  have hc := (hr1.inv hL (fun h => h)).1.core
  obtain ⟨m, hm⟩ := hc.heap r o g3
  obtain ⟨⟨l, t, i1, i2, i3⟩, _⟩ := hm
  obtain ⟨hb, co, j1, j2, j3⟩ := did_some g4
  obtain ⟨hb', co', j4, j5, j6, j7⟩ := i3 hb j1
  rw [j2] at j6
  cases j6
  have hp : getPointer L.env w1.rd L.fuel o.mst = .ok (cidOf L.env.H t) := by
    have := hL.fuel
    have := i1.bound
    exact getPointer_spec i1.repr i1.wf i1.valid (by omega)
  have hS := inside_there (L := L) hc (head := L.hash hb.val) j4 (j5.trans j2)
  have hgr : ∀ w', Meanwhile cfg L be w w' → Grows w1.blocks w'.blocks := fun w' h => by
    rw [g6.blocks]; exact h.grows
  have key : ∀ start, loadAllAt L be ord w1 ws wl start o.mst = loadAll L be ord w1 start o.mst := by
    intro start
    unfold loadAllAt loadAll
    rw [hp]
    dsimp only
    refine loadAllLoopAt_eq hS hord (fun f => hgr _ (hws f)) (hgr _ hwl) start L.fuel _ _ ?_ ?_
    · intro c hc
      rw [List.mem_singleton] at hc
      rw [hc, ← j7]
      exact .root j4 (j5.trans j2)
    · intro c hc; cases hc
  unfold getRepoAt getRepo
  rw [g7, if_pos rfl]
  dsimp only
  split
  · rfl
  · cases sinceSeq since with
    | error e => rfl
    | ok start =>
      dsimp only
      rw [g3]
      dsimp only
      rw [j1]
      dsimp only
      rw [key]
      cases loadAll L be ord w1 start o.mst <;> rfl

/-- **C63 (Datastore).** With `DatastoreStorage`, this holds at all times. -/
theorem C63_snapshot_datastore (hL : L.OK Z) (hr : Reach L .datastore al w) (hord : ∀ f l, (ord f l).Perm l)
    (hn : Names cfg .datastore w q d) (hws : ∀ f, Meanwhile cfg L .datastore w (ws f))
    (hwl : Meanwhile cfg L .datastore w wl) (since : Option Key) :
    getRepoAt cfg L .datastore ord g w ws wl q since = getRepo cfg L .datastore ord g w q since :=
  C63_snapshot_partial hL (hr.datastore.weaken (al' := .untorn) (by exact fun h => h) (fun _ => trivial)
    (fun _ => trivial) (fun _ => trivial)) hord hn hws hwl since

/-- **C63 (reads).** A repo that was loaded shows the same records later: `getRecord` and `listRecords` on it
answer the same, whatever other requests do in the meantime. -/
theorem C63_reads {w' : World C R} (h : Meanwhile cfg L be w w') {o : RepoObj C R} {m : Key → Option R}
    (hs : ObjShows L w o m) : ObjShows L w' o m :=
  hs.mono fun c b hb => ⟨b, h.grows c b hb, rfl⟩

/-! ### Example -/

/-- While Alice's repo is exported, a record is created after the first layer was read, and deleted again before
the records are read. The example has a tree of three layers. -/
def exTimes (be : Backend) (f : Nat) : ExWorld := if f + 1 = exL.fuel then exW1 be else exUp be

theorem exUp_meanwhile (be : Backend) : Meanwhile exCfg exL be (exW1 be) (exUp be) :=
  .step (.none _) (.commit 0 _ lucky false ⟨.inl trivial, .inl trivial, .inl trivial, .inl trivial⟩)

theorem exDown_meanwhile (be : Backend) : Meanwhile exCfg exL be (exW1 be) (exDown be) :=
  .step (exUp_meanwhile be) (.commit 0 _ lucky false ⟨.inl trivial, .inl trivial, .inl trivial, .inl trivial⟩)

/-- The hypotheses of C63 are met, and the storage does change: a new export in the meantime gives something
else. -/
example (be : Backend) : Reach exL be .untorn (exW1 be) ∧ Names exCfg be (exW1 be) exHandle exDid ∧
    (∀ f, Meanwhile exCfg exL be (exW1 be) (exTimes be f)) ∧ Meanwhile exCfg exL be (exW1 be) (exDown be) ∧
    exCids be (exUp be) none ≠ exCids be (exW1 be) none ∧ (exUp be).blocks ≠ (exW1 be).blocks ∧
    exCids be (exDown be) none ≠ exCids be (exW1 be) none := by
  refine ⟨(exW1_reach be).weaken (al' := .untorn) (by exact fun h => h) ?_ ?_ ?_, exNames be, fun f => ?_,
    exDown_meanwhile be, ?_⟩
  · exact fun _ => trivial
  · exact fun _ => trivial
  · exact fun _ => trivial
  · unfold exTimes
    split
    · exact .none _
    · exact exUp_meanwhile be
  · cases be <;> decide +kernel

/-- Without `write_blocks` keeping the blocks that exist, this would fail: reads of a block that was removed
in the meantime raise, or leave it out. So the statement depends on what the storage does. -/
example : (getRepoAt exCfg exL .datastore (fun _ l => l) exGate (exW1 .datastore)
      (fun _ => { exW1 .datastore with blocks := [] }) (exW1 .datastore) exHandle none).2.toOption.map
        (fun car => car.blocks.length) ≠
    (getRepo exCfg exL .datastore (fun _ l => l) exGate (exW1 .datastore) exHandle none).2.toOption.map
        (fun car => car.blocks.length) := by
  decide +kernel

end Arroba.Xrpc
