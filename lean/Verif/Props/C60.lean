import Verif.Firehose.MirrorProofs
import Verif.Props.C57

/-!
# C60: the firehose is enough to mirror all repos

`Mirror.next` (Firehose/Mirror.lean) is a consumer that applies one message after the other.
-/

namespace Arroba.Store

open Arroba.Tree

section
variable {C R : Type} [DecidableEq C] {L : Lib C R} {Z : Nat} {be : Backend} {al : Allow} {u w v : World C R}

/-- A mirror that is right goes on being right. -/
theorem mirrored (hL : L.OK Z) {H' : Did → Option C} :
    ∀ {ms : List (Block C R)} {ss : List (Sent C R)} {H : Did → Option C} {s : Mirror R},
      List.Forall₂ (fun b s => ∃ msg, processEvent L v none s = .ok msg ∧ Announces L w b msg) ms ss →
      (∀ b ∈ ms, ∀ co, b.val = .commit co → isDid co.did) →
      Linked L H (ms.filter Block.isCommit) H' → MirrorsHeads L w H s →
      ∃ msgs, List.Forall₂ (fun e msg => processEvent L v none e = .ok msg) ss msgs ∧
        MirrorsHeads L w H' (msgs.foldl Mirror.next s) := by
  intro ms ss H s hf
  induction hf generalizing H s with
  | nil => intro _ hl hm; cases hl; exact ⟨[], .nil, hm⟩
  | @cons b e ms ss hd _ ih =>
    intro hrd hl hm
    obtain ⟨msg, hd1, hd2⟩ := hd
    unfold Announces at hd2
    have hin : ∀ b ∈ ms, ∀ co, b.val = .commit co → isDid co.did := fun b hb => hrd b (.tail _ hb)
    cases hval : b.val with
    | node d => rw [hval] at hd2; exact hd2.elim
    | record r => rw [hval] at hd2; exact hd2.elim
    | event ev =>
      rw [hval] at hd2
      dsimp only at hd2
      rw [List.filter_cons_of_neg (by simp [Block.isCommit, hval])] at hl
      obtain ⟨msgs, k1, k2⟩ := ih hin hl (s := s) hm
      exact ⟨msg :: msgs, .cons hd1 k1, by rw [List.foldl_cons, hd2]; exact k2⟩
    | commit co =>
      rw [hval] at hd2
      dsimp only at hd2
      obtain ⟨p, rfl, hdesc⟩ := hd2
      rw [List.filter_cons_of_pos (by simp [Block.isCommit, hval])] at hl
      cases hl with
      | @cons _ _ _ co' _ hv' hp' hl' =>
        rw [hval] at hv'; cases hv'
        have hdid : isDid co.did := hrd b (.head _) co hval
        obtain ⟨msgs, k1, k2⟩ := ih hin hl' (hm.next hL (t := "#commit".toList) hdid hp' hdesc)
        exact ⟨_ :: msgs, .cons hd1 k1, k2⟩

/-- **C60, partial.** For every history, in either backend: let a consumer's mirror be right at some time (`u`), and let
it go on with the messages from the next sequence number on, made from the log of any later time (`w`) and at that
time or later (`v`). Then there is a message for everything in the log, and after applying them in order the mirror is
right for that later time: it has exactly the repos of the server, with exactly their records.

Partial: excludes histories with commits that failed in the middle (`torn`, `partway`: C23, C30) or in which a callback
raised (`raising`: `C60_create_false`) or repos were imported (`C64_mirror_false`), and records that look like events or commits (C30). -/
theorem C60_mirror_partial (hL : L.OK Z) (ht : ¬ al.torn) (hp : ¬ al.partway) (hra : ¬ al.raising) (hi : ¬ al.imports)
    (hplain : PlainRecords L) (hu : Reach L be al u) (hw : Relation.ReflTransGen (Step L be al) u w)
    (hv : Reach L be al v) (hg : ∀ c b, w.read c = some b → v.read c = some b) {s : Mirror R} (hs : Mirrors L be u s)
    {q : List (Block C R)} (hq : Query L w ((lastSeq u.seqs subscribeRepos).getD 0 + 1) none q) :
    ∃ msgs, List.Forall₂ (fun e msg => processEvent L v none e = .ok msg) (readEvents L w q).1 msgs ∧
      Mirrors L be w (msgs.foldl Mirror.next s) := by
  obtain ⟨hrw, _, hgu, hlink⟩ := linked_reach hL hp hra hi hu hw
  obtain ⟨hwu, _⟩ := hu.inv hL ht
  obtain ⟨hww, _⟩ := hrw.inv hL ht
  obtain ⟨ms, h1, h2, h3⟩ := C57_messages_partial hL ht hp hplain hrw hg hv (fun _ => by omega) hq
  have hlast : (lastSeq u.seqs subscribeRepos).getD 0 = u.last := by
    have := hwu.pos
    unfold lastSeq World.last
    cases h : dictGet u.seqs subscribeRepos with
    | none => rfl
    | some n =>
      rw [h] at this
      cases n with
      | zero => simp at this
      | succ n => rfl
  rw [hlast] at hq h2
  have hl := hlink (ms.filter Block.isCommit) (h1.filter _) (by
    intro b
    rw [List.mem_filter, h2 b]
    unfold Logged
    constructor
    · rintro ⟨⟨g1, _, g3, _⟩, g5⟩
      exact ⟨g1, g5, by omega⟩
    · rintro ⟨g1, g2, g3⟩
      exact ⟨⟨g1, .inl (Block.isCommit_iff.1 g2), by omega, .inl rfl⟩, g2⟩)
  have hrd : ∀ b ∈ ms, w.read (L.hash b.val) = some b := fun b hb => ((h2 b).1 hb).1
  have hs' : MirrorsHeads L w (headOf L be u) s := by
    exact fun d hd m => (hs d hd m).trans (shows_head hL hwu.core hww.core hgu hd m)
  obtain ⟨msgs, k1, k2⟩ := mirrored hL h3 (fun b hb co hv => hww.core.blocks.did (hrd b hb) hv) hl hs'
  exact ⟨msgs, k1, fun d hd m => (k2 d hd m).trans (shows_head hL hww.core hww.core (fun _ _ h => h) hd m).symm⟩

/-- **C60 (from the start), partial.** In particular a consumer that knows nothing and reads the whole log. -/
theorem C60_from_start_partial (hL : L.OK Z) (ht : ¬ al.torn) (hp : ¬ al.partway) (hra : ¬ al.raising) (hi : ¬ al.imports)
    (hplain : PlainRecords L) (hw : Reach L be al w) {q : List (Block C R)} (hq : Query L w 1 none q) :
    ∃ msgs, List.Forall₂ (fun e msg => processEvent L w none e = .ok msg) (readEvents L w q).1 msgs ∧
      Mirrors L be w (msgs.foldl Mirror.next fun _ => none) := by
  have huw : Relation.ReflTransGen (Step L be al) .empty w := by
    clear hq
    induction hw with
    | empty => exact .refl
    | step _ h' ih => exact .tail ih h'
  refine C60_mirror_partial hL ht hp hra hi hplain .empty huw hw (fun _ _ h => h) ?_ hq
  intro d hd m
  constructor
  · intro h; cases h
  · rintro ⟨w1, s, o, h1, _⟩
    unfold loadRepo at h1
    split at h1
    · cases h1
    · cases be <;> cases h1

end

/-! ### Cases that meet the hypotheses, and why they are needed -/

/-- The messages for everything from `start` on, if there is one for everything. -/
def exMessages (w : ExWorld) (start : Nat) : Option (List (Message SC Nat)) :=
  (readEvents exL w (blocksFrom w start)).1.mapM fun e => (processEvent exL w none e).toOption

/-- The mirror of a consumer that reads everything. -/
def exMirror (w : ExWorld) : Mirror Nat :=
  ((exMessages w 1).getD []).foldl Mirror.next fun _ => none

/-- Two repos; one of them has had records created, updated and deleted. -/
example (be : Backend) :
    (∃ msgs, List.Forall₂ (fun e msg => processEvent exL (exW2 be) none e = .ok msg)
      (readEvents exL (exW2 be) (blocksFrom (exW2 be) 1)).1 msgs ∧
      Mirrors exL be (exW2 be) (msgs.foldl Mirror.next fun _ => none)) ∧
    (exMirror (exW2 be) exDid).map (fun m => ["a", "b", "c", "g"].map fun k => m (key ("coll/" ++ k))) =
      some [some 4, none, some 3, none] ∧
    (exMirror (exW2 be) exDid2).map (fun m => m (key "coll/a")) = some none ∧
    (exMirror (exW2 be) (key "did:x")).isNone = true := by
  refine ⟨C60_from_start_partial exL_ok (fun h => h) (fun h => h) (fun h => h) (fun h => h) (fun _ _ => ⟨rfl, rfl⟩) (exW2_reach be)
    (Query.of_perm (exW2_reach be) (by cases be <;> decide +kernel) (List.Perm.refl _)), ?_⟩
  cases be <;> decide +kernel

/-- The callback raises when a repo is being created. -/
def exHalfCreated (be : Backend) : ExWorld :=
  (repoCreate exL be .empty exDid (some exHandle) 7 true 0 lucky true).1

/-- **C60 is false** if a callback raises in `Repo.create`: the repo has not been created, but its first commit is in
the log, so the mirror has a repo that the server doesn't have. -/
theorem C60_create_false (be : Backend) : Reach exL be ⟨False, False, False, True, False⟩ (exHalfCreated be) ∧
    (exMessages (exHalfCreated be) 1).isSome = true ∧
    (exMirror (exHalfCreated be) exDid).isSome = true ∧ ∀ m, ¬ Shows exL be (exHalfCreated be) exDid m := by
  refine ⟨.step .empty (.create exDid (some exHandle) 7 true 0 lucky true ?_ ?_ ?_ (.inr rfl) (.inl trivial)), ?_, ?_, ?_⟩
  · unfold isDid; decide +kernel
  · rintro h ⟨⟩; unfold isDid; decide +kernel
  · right; decide
  · cases be <;> decide +kernel
  · cases be <;> decide +kernel
  · rintro m ⟨w1, s, o, h1, _⟩
    have : (match loadRepo be (exHalfCreated be) exDid with
      | (_, .ok none) => true
      | _ => false) = true := by cases be <;> decide +kernel
    rw [h1] at this
    cases this

end Arroba.Store
