import Verif.Storage.LogProofs
import Verif.Storage.PlainReach
import Verif.Storage.Example
import Verif.Props.C14

/-!
# C29: every allocated sequence number is accounted for

`last`: the last number allocated. Carried by a stored commit or event, or reported to the
callback as lost. Histories in which a callback raises, in which a repo has no callback, or in
which the Datastore fails after blocks have been written are excluded from
`C29_accounted_partial`; the counterexamples at the end show that they have to be.
-/

namespace Arroba.Store

variable {C R : Type} [DecidableEq C] {L : Lib C R} {Z : Nat} {be : Backend} {al : Allow}
  {w : World C R}

open Arroba.Tree

/-- The stored commits and events with sequence number `n`. -/
def Carries (w : World C R) (n : Nat) (c : C) : Prop :=
  ∃ b, w.read c = some b ∧ b.seq = n ∧
    ((∃ co, b.val = .commit co) ∨ ∃ e, b.val = .event e)

theorem Carries.iff {n : Nat} {c : C} :
    Carries w n c ↔ ∃ b, w.read c = some b ∧ b.marker ∧ b.seq = n := by
  constructor
  · rintro ⟨b, h1, h2, h3⟩
    refine ⟨b, h1, ?_, h2⟩
    unfold Block.marker
    rcases h3 with ⟨_, h3⟩ | ⟨_, h3⟩ <;> rw [h3] <;> trivial
  · rintro ⟨b, h1, h2, h3⟩
    refine ⟨b, h1, h3, ?_⟩
    unfold Block.marker at h2
    split at h2
    · rename_i co h; exact .inl ⟨co, h⟩
    · rename_i e h; exact .inr ⟨e, h⟩
    · exact h2.elim

/-- Every history of either backend, whatever fails: no number is reported lost twice, and only
allocated numbers are. -/
theorem C29_reported_once (hr : Reach L be al w) (n : Nat) :
    w.log.count (.lost n) ≤ 1 ∧
    (CbCall.lost n ∈ w.log → 1 ≤ n ∧ ∃ last, lastSeq w.seqs subscribeRepos = some last ∧ n ≤ last) := by
  have h := hr.lostOK
  refine ⟨h.once n, fun hn => ?_⟩
  obtain ⟨h1, h2⟩ := h.bound n hn
  refine ⟨h1, ?_⟩
  unfold World.nextSeq at h2
  unfold lastSeq
  cases hg : dictGet w.seqs subscribeRepos with
  | none => rw [hg] at h2; simp at h2; omega
  | some k =>
    rw [hg] at h2
    simp only [Option.getD_some] at h2
    cases k with
    | zero => omega
    | succ k => exact ⟨k, rfl, by omega⟩

/-- Every history of either backend, whatever fails: if `commit` raises and the repo has a
callback, the number it allocated has been reported lost exactly once. -/
theorem C29_failure_reported (hr : Reach L be al w) {r : Ref} {o : RepoObj C R}
    (ho : w.heap[r]? = some o) (hcb : o.callback = true) (writes : List (Write R)) (xs : List Luck)
    (cbFails : Bool) {w' : World C R} {e : Err}
    (h : commit L be w r writes none xs cbFails = (w', .error e)) :
    w'.log.count (.lost w.alloc.1) = 1 := by
  have h1 := (hr.lostOK.commit (L := L) be r writes none xs cbFails).once w.alloc.1
  rw [h] at h1
  refine Nat.le_antisymm h1 ?_
  rw [Nat.one_le_iff_ne_zero, ne_eq, List.count_eq_zero, not_not]
  unfold Store.commit at h
  simp only [ho, Option.map_some, Option.getD_some, hcb] at h
  split at h
  · obtain ⟨rfl, -⟩ := Prod.mk.inj h
    rw [mem_logIf]; exact .inr ⟨rfl, rfl⟩
  · split at h
    · obtain ⟨rfl, -⟩ := Prod.mk.inj h
      rw [mem_logIf]; exact .inr ⟨rfl, rfl⟩
    · cases h

/-- Missing: callbacks that raise, repos without callback, and Datastore failures after
`write_blocks`. -/
theorem C29_accounted_partial (hL : L.OK Z) (hp : ¬ al.partway) (hs : ¬ al.silent)
    (hra : ¬ al.raising) (hr : Reach L be al w) {last : Nat}
    (hlast : lastSeq w.seqs subscribeRepos = some last) {n : Nat} (h1 : 1 ≤ n) (h2 : n ≤ last) :
    ((∃ c, Carries w n c ∧ ∀ c', Carries w n c' → c' = c) ∧ w.log.count (.lost n) = 0) ∨
    ((∀ c b, w.read c = some b → b.seq ≠ n) ∧ w.log.count (.lost n) = 1) := by
  have hsq := hr.pseqs hL hp
  have hl : w.last = last := by
    unfold lastSeq at hlast
    unfold World.last
    split at hlast
    · rename_i k hk
      cases hlast
      rw [hk]; simp
    · cases hlast
  have hone := (C29_reported_once hr n).1
  by_cases hlost : CbCall.lost n ∈ w.log
  · right
    refine ⟨(hsq.exclusive hra n hlost).2.2, Nat.le_antisymm hone ?_⟩
    rw [Nat.one_le_iff_ne_zero, ne_eq, List.count_eq_zero, not_not]
    exact hlost
  · left
    refine ⟨?_, List.count_eq_zero.2 hlost⟩
    rcases hsq.accounted hs n h1 (hl ▸ h2) with ⟨c, b, g1, g2, g3⟩ | h
    · refine ⟨c, Carries.iff.2 ⟨b, g1, g2, g3⟩, fun c' hc' => ?_⟩
      obtain ⟨b', k1, k2, k3⟩ := Carries.iff.1 hc'
      exact hsq.unique c' b' c b k1 g1 k2 g2 (k3 ▸ h1) (k3.trans g3.symm)
    · exact absurd h hlost

/-! ### Examples and counterexamples -/

/-- A failed commit after two repos and one commit. -/
def exLost (be : Backend) : ExWorld :=
  (commit exL be (exW1 be) 0 [wr .create "a" (some 9)] none lucky false).1

def exIsCommit : Val SC Nat → Bool
  | .commit _ => true
  | _ => false

/-- Ten numbers: nine carried, the last one lost. -/
example (be : Backend) : lastSeq (exLost be).seqs subscribeRepos = some 10 ∧
    (exLost be).log.count (.lost 10) = 1 ∧ (exLost be).log.count (.lost 9) = 0 ∧
    ((exLost be).blocks.filter (fun cb => cb.2.seq = 10)).length = 0 ∧
    ((exLost be).blocks.filter (fun cb => cb.2.seq = 9 && exIsCommit cb.2.val)).length = 1 := by
  cases be <;> decide +kernel

/-- The commit blocks with a sequence number. -/
def exCommits (w : ExWorld) (n : Nat) : List SC :=
  (w.blocks.filter (fun cb => cb.2.seq = n && exIsCommit cb.2.val)).map (·.1)

theorem exCommits_carries {w : ExWorld} {n : Nat} {c : SC} (h : c ∈ exCommits w n)
    (hn : (w.blocks.map (·.1)).Nodup) : Carries w n c := by
  obtain ⟨⟨c', b⟩, h1, rfl⟩ := List.mem_map.1 h
  obtain ⟨h1, h2⟩ := List.mem_filter.1 h1
  simp only [Bool.and_eq_true, decide_eq_true_eq] at h2
  refine ⟨b, mem_dictGet hn h1, h2.1, .inl ?_⟩
  have := h2.2
  unfold exIsCommit at this
  split at this
  · rename_i co hco; exact ⟨co, hco⟩
  · cases this

theorem exNone {w : ExWorld} {n : Nat} (h : w.blocks.all (fun cb => cb.2.seq != n) = true) (c : SC) :
    ¬ Carries w n c := by
  rintro ⟨b, h1, h2, -⟩
  have := List.all_eq_true.1 h _ (dictGet_mem h1)
  simp only [bne_iff_ne, ne_eq] at this
  exact this h2

/-- Too many writes: `MemoryStorage._commit` changes nothing. -/
theorem commitTx_memory_many {w : World C R} {r : Ref} {writes : List (Write R)} {seq : Nat}
    {xs : List Luck} (h : maxOps < writes.length) :
    (commitTx L .memory r writes seq none w xs).1.heap = w.heap := by
  have hb : ∀ x, (∃ e, commitBody L .memory w r writes seq none x = (w, .error e)) := by
    intro x
    unfold commitBody
    split
    · exact ⟨_, rfl⟩
    · split
      · exact ⟨_, rfl⟩
      · split
        · exact ⟨_, rfl⟩
        · have hbc : ∀ o, ∃ res, beginCommit L .memory w r o none = (w, res) := by
            intro o
            unfold beginCommit loadRepo
            simp only
            split
            · exact ⟨_, rfl⟩
            · by_cases hq : (‹Did› : Key) = []
              · simp only [if_pos hq]; exact ⟨_, rfl⟩
              · simp only [if_neg hq]
                cases findRepo w ‹Did› w.repos with
                | none => exact ⟨_, rfl⟩
                | some s => simp only; split <;> exact ⟨_, rfl⟩
          rename_i o _ _ _
          obtain ⟨res, hres⟩ := hbc o
          rw [hres]
          rcases res with e | ⟨s, d, prev⟩
          · exact ⟨_, rfl⟩
          · simp only
            split
            · exact ⟨_, rfl⟩
            · first | exact ⟨_, rfl⟩ | exact ⟨_, by rw [if_pos h]⟩
  cases xs with
  | nil => rfl
  | cons x xs =>
    unfold commitTx
    obtain ⟨e, he⟩ := hb x
    rw [he]
    simp [World.collect]

/-- A repo without callback: the number of a failed commit is neither carried nor reported. -/
def exSilent (be : Backend) : ExWorld :=
  (commit exL be ((exW0 be).modObj 0 (fun o => { o with callback := false })) 0
    (List.replicate 201 (wr .delete "a" none)) none lucky false).1

theorem C29_silent_false (be : Backend) : Reach exL be ⟨False, False, True, False, False⟩ (exSilent be) ∧
    lastSeq (exSilent be).seqs subscribeRepos = some 9 ∧
    (exSilent be).log.count (.lost 9) = 0 ∧ ∀ c, ¬ Carries (exSilent be) 9 c := by
  refine ⟨.step (.step ((exW0_reach be).weaken ?_ ?_ ?_ ?_) (.setCallback 0 false))
    (.commit 0 _ lucky false ⟨.inr ?_, .inr (by decide), .inl trivial, .inr rfl⟩), ?_, ?_, ?_⟩ <;>
    try (intro h; exact h.elim)
  · cases be with
    | datastore => exact .inl rfl
    | memory =>
      refine .inr (.inr ?_)
      intro r o h
      exact ⟨o, by rw [commitTx_memory_many (by rw [List.length_replicate]; decide)]; exact h, rfl⟩
  · cases be <;> decide +kernel
  · cases be <;> decide +kernel
  · exact exNone (by cases be <;> decide +kernel)

/-- A callback that raises: the number is both carried by a stored commit and reported lost. -/
def exRaising (be : Backend) : ExWorld := (commit exL be (exW0 be) 0 exWrites none lucky true).1

theorem C29_raising_false (be : Backend) : Reach exL be ⟨False, False, False, True, False⟩ (exRaising be) ∧
    (∃ c, Carries (exRaising be) 9 c) ∧ (exRaising be).log.count (.lost 9) = 1 := by
  refine ⟨.step ((exW0_reach be).weaken ?_ ?_ ?_ ?_)
    (.commit 0 _ lucky true ⟨.inr (.of_ok ?_), .inr (by decide), .inr ?_, .inl trivial⟩), ?_, ?_⟩ <;>
    try (intro h; exact h.elim)
  · cases be <;> decide +kernel
  · cases be <;> decide +kernel
  · have : ∃ c, c ∈ exCommits (exRaising be) 9 :=
      List.exists_mem_of_length_pos (by cases be <;> decide +kernel)
    obtain ⟨c, hc⟩ := this
    exact ⟨c, exCommits_carries hc (by cases be <;> decide +kernel)⟩
  · cases be <;> decide +kernel

/-- A Datastore transaction that fails to commit once and is retried (ECDSA signing is randomised,
so the second attempt signs differently): two stored commits carry the same number. -/
def exRetried : ExWorld :=
  (commit exL .datastore (exW0 .datastore) 0 exWrites none
    [{ nonce := 1, txFails := true }, { nonce := 2 }] false).1

theorem C29_retry_false : Reach exL .datastore ⟨False, True, False, False, False⟩ exRetried ∧
    ∃ c c', c ≠ c' ∧ Carries exRetried 9 c ∧ Carries exRetried 9 c' := by
  refine ⟨.step ((exW0_reach .datastore).weaken ?_ ?_ ?_ ?_)
    (.commit 0 _ _ false ⟨.inr (.inl rfl), .inl trivial, .inr ?_, .inr rfl⟩), ?_⟩ <;>
    try (intro h; exact h.elim)
  · decide +kernel
  · have hl : (exCommits exRetried 9).length = 2 := by decide +kernel
    have hn : (exCommits exRetried 9).Nodup := by decide +kernel
    have hk : (exRetried.blocks.map (·.1)).Nodup := by decide +kernel
    match h : exCommits exRetried 9, hl with
    | [c, c'], _ =>
      rw [h] at hn
      refine ⟨c, c', by simpa using hn, exCommits_carries (by rw [h]; simp) hk,
        exCommits_carries (by rw [h]; simp) hk⟩

/-- `store_repo` fails: the commit is rolled back and its number reported lost, but a stored
commit carries it. -/
def exStoreFails : ExWorld :=
  (commit exL .datastore (exW0 .datastore) 0 exWrites none [{ storeFails := true }] false).1

theorem C29_store_false : Reach exL .datastore ⟨False, True, False, False, False⟩ exStoreFails ∧
    (∃ c, Carries exStoreFails 9 c) ∧ exStoreFails.log.count (.lost 9) = 1 := by
  refine ⟨.step ((exW0_reach .datastore).weaken ?_ ?_ ?_ ?_)
    (.commit 0 _ _ false ⟨.inr (.inl rfl), .inl trivial, .inr ?_, .inr rfl⟩), ?_, ?_⟩ <;>
    try (intro h; exact h.elim)
  · decide +kernel
  · have : ∃ c, c ∈ exCommits exStoreFails 9 :=
      List.exists_mem_of_length_pos (by decide +kernel)
    obtain ⟨c, hc⟩ := this
    exact ⟨c, exCommits_carries hc (by decide +kernel)⟩
  · decide +kernel

end Arroba.Store
