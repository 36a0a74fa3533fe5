import Verif.Props.C23

/-! # C24: failed commits change nothing -/

namespace Arroba.Store

variable {C R : Type} [DecidableEq C]

section
variable {L : Lib C R} {Z : Nat} {be : Backend} {al : Allow} {w : World C R}

/-- **C24 (nothing changes).** If `commit` raises in a reachable state, then nothing at all
changes but the sequence counter and the callback log: no block, no head, no status, no field of
any `Repo` object.

Partial. Excluded are: (1) for `MemoryStorage`, commits of several writes, or whose signing or TID
fails (`C24_memory_false`), and histories that already contain such a failure; (2) for the
Datastore, failures after the blocks have been written (`C24_datastore_false`; the records are
safe even then, `C24_records_datastore_partial`); (3) callbacks that raise
(`C24_callback_false`). -/
theorem C24_unchanged_partial (hL : L.OK Z) (ht : ¬ al.torn) (hr : Reach L be al w) {r : Ref}
    {writes : List (Write R)} {xs : List Luck} {cbFails : Bool} {w' : World C R} {e : Err}
    (hmem : be = .memory → writes.length ≤ 1 ∧ (∀ x ∈ xs, x.signFails = false) ∧
      w.alloc.1 < 32 ^ 11)
    (hxs : ∀ x ∈ xs, x.storeFails = false ∧ x.txFails = false)
    (hcb : cbFails = false)
    (hfail : commit L be w r writes none xs cbFails = (w', .error e)) :
    w' = { w with seqs := w'.seqs, log := w'.log } := by
  obtain ⟨hw, hl⟩ := hr.inv hL ht
  subst hcb
  rcases commit_cases hL (be := be) hw r writes xs false with
    ⟨e', w1', w1, wk, h1, ⟨l, h2⟩, h3, h4, h5, h6, h7, h8⟩ |
    ⟨w1', w1, wk, x, did, m0, m', s, n, cd, co, h1, h2, h3, h4, h5, h6, _⟩
  · rw [hfail] at h1
    obtain ⟨rfl, -⟩ := Prod.mk.inj h1
    obtain ⟨rfl, hq⟩ := h6 hxs
    have hheap : w1.heap = w.heap := by
      rcases hq.heap with h | ⟨rfl, _⟩
      · exact h
      · have := hmem rfl
        rw [hw.alloc.2.1] at this
        exact h7 this
    have e1 : w1 = { w.alloc.2 with heap := w.heap } := by rw [hq.eq, hheap]
    rw [h2, e1]
    rfl
  · have hc : ¬ (w.cb r && false) = true := by simp
    rw [if_neg hc, hfail] at h1
    cases h1

/-- **C24 (records, Datastore).** With `DatastoreStorage`, whenever and for whatever reason
`commit` raises (unless the repo's callback does), the heads and records of all repos are what
they were; at most unreferenced blocks have been added. -/
theorem C24_records_datastore_partial (hL : L.OK Z) (hr : Reach L .datastore al w) {r : Ref}
    {writes : List (Write R)} {xs : List Luck} {cbFails : Bool} {w' : World C R} {e : Err}
    (hcb : cbFails = false)
    (hfail : commit L .datastore w r writes none xs cbFails = (w', .error e)) :
    (∀ d, isDid d → readHead L .datastore w' d = readHead L .datastore w d) ∧
    (∀ d, isDid d → ∀ m, Shows L .datastore w' d m ↔ Shows L .datastore w d m) ∧
    w'.rows = w.rows ∧ (∀ c b, w.read c = some b → w'.read c = some b) := by
  obtain ⟨hw, hl⟩ := hr.datastore.inv hL (fun h => h)
  subst hcb
  have hw' : WorldOK L Z w' := by
    have := (commit_ok hL (be := .datastore) hw hl r writes xs false (.inl rfl)).1
    rw [hfail] at this
    exact this
  rcases commit_cases hL (be := .datastore) hw r writes xs false with
    ⟨e', w1', w1, wk, h1, ⟨l, h2⟩, h3, h4, h5, h6, h7, h8⟩ |
    ⟨w1', w1, wk, x, did, m0, m', s, n, cd, co, h1, h2, h3, h4, h5, h6, _⟩
  · rw [hfail] at h1
    obtain ⟨rfl, -⟩ := Prod.mk.inj h1
    have hrows : w'.rows = w.rows := by
      rw [h2]
      rcases h5 with h5 | h5
      · rw [h5.eq]; exact h4.rows
      · rw [h5.eq]; exact h4.rows
    have hg : Grows w.blocks w'.blocks := by
      rw [h2]
      rcases h5 with h5 | h5
      · rw [h5.eq]; exact h4.grows
      · exact h4.grows.trans h5.grows
    have hh : ∀ d, headOf L .datastore w' d = headOf L .datastore w d := by
      intro d; unfold headOf; simp only [hrows]
    refine ⟨fun d hd => ?_, fun d hd m => shows_of_head hL hw.core hw'.core hd (hh d) hg m, hrows,
      hg⟩
    rw [readHead_eq hL hw.core hd, readHead_eq hL hw'.core hd, hh d]
  · have hc : ¬ (w.cb r && false) = true := by simp
    rw [if_neg hc, hfail] at h1
    cases h1

end

/-! ### Examples and counterexamples -/

/-- Failing commits of the kinds covered by `C24_unchanged_partial`. -/
example :
    (match commit exL .memory (exW1 .memory) 0 [wr .create "a" (some 9)] none lucky false with
      | (_, .error e) => decide (e = .value) | _ => false) = true ∧
    (match commit exL .datastore (exW1 .datastore) 0 exBad none lucky false with
      | (_, .error e) => decide (e = .value) | _ => false) = true ∧
    exBad.length = 2 := by decide +kernel

/-- **C24 is false for `MemoryStorage`.** A commit that fails at its second write leaves the first
one in the repo's tree: before the call `get_record` found no record, afterwards it raises
AttributeError, since the tree refers to a block that was never stored. -/
theorem C24_memory_false : Reach exL .memory .orderly (exW0 .memory) ∧
    (match commit exL .memory (exW0 .memory) 0 exBad none lucky false with
      | (_, .error e) => decide (e = .value) | _ => false) = true ∧
    exRead .memory (exW0 .memory) exDid "c" = some (.ok none) ∧
    exRead .memory (commit exL .memory (exW0 .memory) 0 exBad none lucky false).1 exDid "c" =
      some (.error .attribute) := ⟨exW0_reach _, by decide +kernel⟩

/-- **C24 is false for the Datastore's blocks.** If storing the new head fails, the blocks of the
failed commit, its commit block included, stay behind. -/
theorem C24_datastore_false : Reach exL .datastore .orderly (exW0 .datastore) ∧
    (match commit exL .datastore (exW0 .datastore) 0 exWrites none [{ storeFails := true }] false with
      | (_, .error _) => true | _ => false) = true ∧
    (exW0 .datastore).blocks.length = 9 ∧
    (commit exL .datastore (exW0 .datastore) 0 exWrites none [{ storeFails := true }] false).1.blocks.length
      = 15 := ⟨exW0_reach _, by decide +kernel⟩

/-- **C24 is false when the callback raises.** `commit` raises, but the commit has been made. -/
theorem C24_callback_false (be : Backend) : Reach exL be .orderly (exW0 be) ∧
    (match commit exL be (exW0 be) 0 exWrites none lucky true with
      | (_, .error _) => true | _ => false) = true ∧
    exRead be (exW0 be) exDid "a" = some (.ok none) ∧
    exRead be (commit exL be (exW0 be) 0 exWrites none lucky true).1 exDid "a" =
      some (.ok (some 1)) := ⟨exW0_reach _, by cases be <;> decide +kernel⟩

end Arroba.Store
