import Verif.Firehose.PayloadProofs2
import Verif.Props.C30

/-!
# C57: a firehose message tells all about its commit

`Describes` (Firehose/Consumer.lean) says what a consumer should be able to do with the message for a commit, given
nothing else.
-/

namespace Arroba.Store

open Arroba.Tree

section
variable {C R : Type} [DecidableEq C] {L : Lib C R} {Z : Nat} {be : Backend} {al : Allow} {w v : World C R}

/-- The right message for a stored commit or event. -/
def Announces (L : Lib C R) (w : World C R) (b : Block C R) (msg : Message C R) : Prop :=
  match b.val with
  | .commit co => ∃ p, msg = .commit "#commit".toList p ∧ Describes L w b co p
  | .event e => msg = .event (match e.kind with
      | .account .. => "#account".toList
      | .identity .. => "#identity".toList
      | .sync .. => "#sync".toList
      | .tombstone => "#tombstone".toList) e
  | _ => False

/-- The messages for stored commits and events are the right ones. -/
theorem announced (hL : L.OK Z) (hg : ∀ c b, w.read c = some b → v.read c = some b) (ha : Addressed L v.blocks)
    {pc : Sent C R → Option (Block C R)} (hpc : ∀ s co x, s.commit.val = .commit co → pc (.commit s) = some x →
      ∃ p, co.prev = some p ∧ v.read p = some x) :
    ∀ {ms : List (Block C R)} {ss : List (Sent C R)}, List.Forall₂ (Delivers w) ms ss →
      (∀ b ∈ ms, ∀ co, b.val = .commit co → Told L Z w b co) → (∀ c, Sent.commit c ∈ ss → (c.blocks.map (·.1)).Nodup) →
      List.Forall₂ (fun b s => ∃ msg, processEvent L v (pc s) s = .ok msg ∧ Announces L w b msg) ms ss := by
  intro ms ss hf
  induction hf with
  | nil => intro _ _; exact .nil
  | @cons b s ms ss hd _ ih =>
    intro k1 k2
    refine .cons ?_ (ih (fun b hb => k1 b (.tail _ hb)) (fun c hc => k2 c (.tail _ hc)))
    cases hv : b.val with
    | node d => unfold Delivers at hd; rw [hv] at hd; exact hd.elim
    | record r => unfold Delivers at hd; rw [hv] at hd; exact hd.elim
    | event e =>
      unfold Delivers at hd
      rw [hv] at hd
      dsimp only at hd
      subst hd
      refine ⟨_, rfl, ?_⟩
      unfold Announces
      rw [hv]
      dsimp only
      cases e.kind <;> rfl
    | commit co =>
      obtain ⟨sc, rfl, hsc⟩ : ∃ sc, s = .commit sc ∧ sc.commit = b := by
        unfold Delivers at hd
        rw [hv] at hd
        obtain ⟨d, rfl, _⟩ := hd
        exact ⟨_, rfl, rfl⟩
      obtain ⟨p, p1, p2⟩ := (k1 b (.head _) co hv).message hL hg ha hd (k2 sc (.head _))
        (fun x hx => hpc sc co x (by rw [hsc]; exact hv) hx)
      exact ⟨_, p1, by unfold Announces; rw [hv]; exact ⟨p, rfl, p2⟩⟩

/-- **C57, partial.** For every history, in either backend, and all blocks from `start` on in any order the backend may
return them (`w`): every message made from the log, at that time or later (`v`), is the right one for its commit or event.

Partial: excludes histories with commits that failed in the middle (`torn`, `partway`: C23, C30) and records that look
like events or commits (C30), and reading from 0 after an import (`hi`, `C46_events_false`); and `Describes` says that undoing a commit's operations gives `prevData` only for
canonical trees and if there are records after each operation (see `C57_root_false`, `C57_undo_false`). -/
theorem C57_messages_partial (hL : L.OK Z) (ht : ¬ al.torn) (hp : ¬ al.partway) (hplain : PlainRecords L)
    (h : Reach L be al w) (hg : ∀ c b, w.read c = some b → v.read c = some b) (h' : Reach L be al v)
    {start : Nat} (hi : al.imports → 1 ≤ start) {repo : Option Did} {q : List (Block C R)} (hq : Query L w start repo q) :
    ∃ ms : List (Block C R), ms.Pairwise (fun a b => a.seq < b.seq) ∧ (∀ b, b ∈ ms ↔ Logged L w start repo b) ∧
      List.Forall₂ (fun b s => ∃ msg, processEvent L v none s = .ok msg ∧ Announces L w b msg) ms (readEvents L w q).1 := by
  obtain ⟨_, ms, h1, h2, h3⟩ := C30_log_partial hL hp hplain h hi hq
  refine ⟨ms, h1, h2, ?_⟩
  have hn : ∀ c, Sent.commit c ∈ (readEvents L w q).1 → (c.blocks.map (·.1)).Nodup :=
    scan_nodup (by simp)
  refine announced hL hg h'.addressed (pc := fun _ => none) (fun _ _ _ _ h => nomatch h) h3 (fun b hb co hv => ?_) hn
  obtain ⟨g1, _, g3, _⟩ := (h2 b).1 hb
  refine Reach.told hL ht h g1 hv ?_
  by_cases hm : al.imports
  · exact (hi hm).trans g3
  · exact Reach.native hL hm h g1

/-- **C57, with the previous commit at hand.** When the collector starts it passes `process_event` the previous commit;
the message is the same. -/
theorem C57_prev_commit (s : Sent C R) {pc : Option (Block C R)}
    (hpc : ∀ x, pc = some x → ∀ c co p, s = .commit c → c.commit.val = .commit co → co.prev = some p → v.read p = some x) :
    processEvent L v pc s = processEvent L v none s := by
  cases s with
  | event x => cases x <;> rfl
  | commit c =>
    simp only [processEvent]
    cases hv : c.commit.val with
    | commit co =>
      cases ho : c.commit.ops with
      | none => rfl
      | some ops =>
        have : prevData v co.prev pc = prevData v co.prev none := by
          cases hp : co.prev with
          | none => rfl
          | some p =>
            cases pc with
            | none => rfl
            | some x =>
              unfold prevData
              dsimp only
              have := hpc x rfl c co p rfl hv hp
              rw [this]
              rfl
        simp only [this]
    | _ => rfl

end

/-! ### Cases that meet the hypotheses, and why they are needed -/

/-- Whether a consumer that undoes the operations of the message gets `prevData`; `none` for messages that have none. -/
def undoes (w : ExWorld) : Sent SC Nat → Option Bool
  | .event _ => none
  | .commit s =>
    match s.commit.val, processEvent exL w none (.commit s) with
    | .commit co, .ok (.commit _ p) => p.prevData.map fun c =>
      match undoWire exL.env (carNodes p.blocks) exL.fuel p.ops (load co.data) with
      | .ok n =>
        match getPointer exL.env (carNodes p.blocks) exL.fuel n with
        | .ok c' => decide (c' = c)
        | _ => false
      | _ => false
    | _, _ => some false

/-- Ten messages, two of them commits after the first ones of their repos. The last one has a create, an update and a
deletion. -/
example (be : Backend) : (∃ ms : List (Block SC Nat), ms.Pairwise (fun a b => a.seq < b.seq) ∧
      (∀ b, b ∈ ms ↔ Logged exL (exW2 be) 0 none b) ∧
      List.Forall₂ (fun b s => ∃ msg, processEvent exL (exW2 be) none s = .ok msg ∧ Announces exL (exW2 be) b msg) ms
        (readEvents exL (exW2 be) (blocksFrom (exW2 be) 0)).1) ∧
    (readEvents exL (exW2 be) (blocksFrom (exW2 be) 0)).1.map (undoes (exW2 be)) =
      [none, none, none, none, none, none, none, none, some true, some true] :=
  ⟨C57_messages_partial exL_ok (fun h => h) (fun h => h) (fun _ _ => ⟨rfl, rfl⟩) (exW2_reach be) (fun _ _ h => h)
    (exW2_reach be) (fun h => h.elim) (Query.of_perm (exW2_reach be) (by cases be <;> decide +kernel) (List.Perm.refl _)),
    by cases be <;> decide +kernel⟩

/-- `b` (layer 2) is created, and replaced by `a` (layer 0). -/
def exRelayered : ExWorld :=
  (commit exL .memory (commit exL .memory (exW0 .memory) 0 [wr .create "b" (some 1)] none lucky false).1 0
    [wr .delete "b" none, wr .create "a" (some 2)] none lucky false).1

/-- `a` (layer 0) is created, and replaced by `g` (layer 1) and `b` (layer 2). -/
def exReplaced : ExWorld :=
  (commit exL .memory (commit exL .memory (exW0 .memory) 0 [wr .create "a" (some 1)] none lucky false).1 0
    [wr .delete "a" none, wr .create "g" (some 2), wr .create "b" (some 3)] none lucky false).1

theorem exRelayered_reach : Reach exL .memory .orderly exRelayered := by
  refine .step (.step (exW0_reach .memory) (.commit 0 [wr .create "b" (some 1)] lucky false ⟨.inr (.of_ok ?_), ?_, ?_, .inr rfl⟩))
    (.commit 0 [wr .delete "b" none, wr .create "a" (some 2)] lucky false ⟨.inr (.of_ok ?_), ?_, ?_, .inr rfl⟩)
  · decide +kernel
  · right; decide
  · right; decide +kernel
  · decide +kernel
  · right; decide
  · right; decide +kernel

theorem exReplaced_reach : Reach exL .memory .orderly exReplaced := by
  refine .step (.step (exW0_reach .memory) (.commit 0 [wr .create "a" (some 1)] lucky false ⟨.inr (.of_ok ?_), ?_, ?_, .inr rfl⟩))
    (.commit 0 [wr .delete "a" none, wr .create "g" (some 2), wr .create "b" (some 3)] lucky false
      ⟨.inr (.of_ok ?_), ?_, ?_, .inr rfl⟩)
  · decide +kernel
  · right; decide
  · right; decide +kernel
  · decide +kernel
  · right; decide
  · right; decide +kernel

/-- The tree that `exRelayered` ends up with: two nodes above the one with the record. -/
def exRelayeredTree : Tree SC := .sub (.sub (.leaf (key "coll/a") (.record 2) .nil) .nil) .nil

/-- The newest commit of a world. -/
def lastCommit (w : ExWorld) : Option (Commit SC) :=
  ((w.blocks.map fun p => p.2.val).filterMap fun v => match v with
    | .commit c => some c
    | _ => none).getLast?

/-- **C57 is false** of other implementations: a commit that leaves the repo empty on the way, and is announced with a
root that is not canonical (C03), so an implementation that builds the canonical tree of the same record doesn't get it. -/
theorem C57_root_false : Reach exL .memory .orderly exRelayered ∧
    ∃ co, lastCommit exRelayered = some co ∧ ¬ CanonicalRoot exL co.data := by
  refine ⟨exRelayered_reach, ?_⟩
  have h : (match lastCommit exRelayered with
    | some co => decide (co.data = cidOf exL.env.H exRelayeredTree)
    | none => false) = true := by decide +kernel
  split at h
  · rename_i co hco
    refine ⟨co, hco, ?_⟩
    rintro ⟨t, ht, he⟩
    have hd := of_decide_eq_true h
    have hz : exL.zeros (key "coll/a") = 0 := by decide +kernel
    obtain ⟨l, hl⟩ := ht.1
    have := cid_unique exL_ok hl (l' := 2) (t' := exRelayeredTree) (by
      simp [exRelayeredTree, WF, startsSub, hz]) (he.trans hd)
    subst this
    have := ht.2.1
    simp [exRelayeredTree, Trimmed] at this
  · cases h

/-- **C57 is false** of consumers that undo operations with this code base's tree: if the operations leave the repo
empty on the way, the consumer may get another root than `prevData`, although both roots are canonical. -/
theorem C57_undo_false : Reach exL .memory .orderly exReplaced ∧
    ∃ q, Query exL exReplaced 10 none q ∧ (readEvents exL exReplaced q).1.map (undoes exReplaced) = [some false] ∧
      ∃ co, lastCommit exReplaced = some co ∧ CanonicalRoot exL co.data := by
  refine ⟨exReplaced_reach, blocksFrom exReplaced 10,
    Query.of_perm exReplaced_reach (by decide +kernel) (List.Perm.refl _), by decide +kernel, ?_⟩
  have h : (match lastCommit exReplaced with
    | some co => decide (co.data = cidOf exL.env.H
      (.leaf (key "coll/b") (.record 3) (.sub (.leaf (key "coll/g") (.record 2) .nil) .nil)))
    | none => false) = true := by decide +kernel
  split at h
  · rename_i co hco
    refine ⟨co, hco, _, ⟨⟨2, ?_⟩, ?_, ?_, ?_⟩, (of_decide_eq_true h).symm⟩
    · have z1 : exL.zeros (key "coll/b") = 2 := by decide +kernel
      have z2 : exL.zeros (key "coll/g") = 1 := by decide +kernel
      simp [WF, startsSub, z1, z2]
    · simp [Trimmed]
    · unfold Tree.Sorted
      decide +kernel
    · unfold ValidKeys
      decide +kernel
  · cases h

end Arroba.Store
