import Verif.Storage.EventProofs
import Verif.Storage.GrowProofs
import Verif.Storage.FreshProofs
import Verif.Props.C29
import Verif.Props.C34

/-!
# C30: the event log is ordered and complete

`Delivers` (EventProofs.lean) says what a subscriber should get for a stored commit or event.
`C30_log_partial` covers every history of both backends, except those in which the Datastore fails
after blocks have been written (`Allow.partway`), and except records that look like events or
commits, and blocks with the number 0, which imported blocks have; the counterexamples at the end, and
`C46_events_false`, show that they have to be excluded.
-/

namespace Arroba.Store

variable {C R : Type} [DecidableEq C] {L : Lib C R} {Z : Nat} {be : Backend} {al : Allow}
  {w : World C R}

open Arroba.Tree

/-- No record looks like an event or a commit. -/
def PlainRecords (L : Lib C R) : Prop :=
  ∀ r, L.valid r = true → L.eventLike r = false ∧ L.commitLike r = false

/-! ### `MemoryStorage.read_blocks_by_seq` -/

theorem putBlocks_nodup (bs : List (Block C R)) : ∀ (a : List (C × Block C R)),
    (a.map (·.1)).Nodup → ((putBlocks L a bs).map (·.1)).Nodup := by
  induction bs with
  | nil => exact fun _ h => h
  | cons b bs ih =>
    intro a h
    refine ih _ ?_
    dsimp only
    cases hn : dictGet a (L.hash b.val) with
    | some x => rw [dictSetDefault, hn]; exact h
    | none =>
      rw [dictSetDefault, hn, List.map_append]
      refine List.nodup_append.2 ⟨h, by simp, fun x hx y hy hxy => ?_⟩
      simp only [List.map_cons, List.map_nil, List.mem_singleton] at hy
      subst hy hxy
      obtain ⟨kv, hkv, he⟩ := List.mem_map.1 hx
      exact dictGet_eq_none.1 hn kv hkv he

theorem Reach.keys_nodup (h : Reach L be al w) : (w.blocks.map (·.1)).Nodup := by
  induction h with
  | empty => simp [World.empty]
  | step _ h' ih =>
    obtain ⟨bs, hbs⟩ := h'.puts
    rw [hbs]; exact putBlocks_nodup bs _ ih

theorem Query.of_blocks (hk : (w.blocks.map (·.1)).Nodup) (ha : Addressed L w.blocks) {start : Nat}
    {repo : Option Did} {q : List (Block C R)} (hs : q.Pairwise (fun a b => a.seq ≤ b.seq))
    (hq : q.Perm ((w.blocks.map (·.2)).filter (fun b => decide (start ≤ b.seq) && inRepo repo b))) :
    Query L w start repo q := by
  have hk' := hk
  refine ⟨hs, hq.nodup_iff.2 (List.Nodup.filter _ ?_), fun b => ?_⟩
  · rw [List.Nodup, List.pairwise_map]
    rw [List.Nodup, List.pairwise_map] at hk
    refine hk.imp_of_mem ?_
    intro x y hx hy hne he
    refine hne ?_
    have h1 : dictGet w.blocks x.1 = some x.2 := mem_dictGet hk' hx
    have h2 : dictGet w.blocks y.1 = some y.2 := mem_dictGet hk' hy
    rw [← ha _ _ h1, ← ha _ _ h2, he]
  · rw [hq.mem_iff, List.mem_filter, List.mem_map]
    simp only [Bool.and_eq_true, decide_eq_true_eq, inRepo_iff]
    constructor
    · rintro ⟨⟨x, hx, rfl⟩, h1, h2⟩
      have h3 : dictGet w.blocks x.1 = some x.2 := mem_dictGet hk' hx
      exact ⟨by unfold World.read; rw [ha _ _ h3]; exact h3, h1, h2⟩
    · rintro ⟨h1, h2, h3⟩
      exact ⟨⟨(L.hash b.val, b), dictGet_mem h1, rfl⟩, h2, h3⟩

theorem Query.of_perm (h : Reach L be al w) {start : Nat} {repo : Option Did}
    {q : List (Block C R)} (hs : q.Pairwise (fun a b => a.seq ≤ b.seq))
    (hq : q.Perm ((w.blocks.map (·.2)).filter (fun b => decide (start ≤ b.seq) && inRepo repo b))) :
    Query L w start repo q := Query.of_blocks h.keys_nodup h.addressed hs hq

/-- `MemoryStorage.read_blocks_by_seq` returns all blocks from `start` on, once, by `seq`. -/
theorem C30_memory_blocks (h : Reach L be al w) (start : Nat) (repo : Option Did) :
    Query L w start repo (readBlocksMemory w start repo) := by
  refine Query.of_perm h ?_ (List.mergeSort_perm _ _)
  unfold readBlocksMemory
  have := List.pairwise_mergeSort (le := fun a b : Block C R => decide (a.seq ≤ b.seq))
    (fun a b c h1 h2 => by simp only [decide_eq_true_eq] at *; omega)
    (fun a b => by simp only [Bool.or_eq_true, decide_eq_true_eq]; omega)
    ((w.blocks.map (·.2)).filter (fun b => decide (start ≤ b.seq) && inRepo repo b))
  exact this.imp (fun h => by simpa using h)

/-! ### The log -/

theorem Reach.orderly_list (hL : L.OK Z) (hp : ¬ al.partway) (hplain : PlainRecords L)
    (h : Reach L be al w) {start : Nat} (hi : al.imports → 1 ≤ start) {repo : Option Did} {q : List (Block C R)}
    (hq : Query L w start repo q) : Orderly L w q := by
  obtain ⟨hw, _⟩ := Reach.plain hL h
  have hs := Reach.pseqs hL hp h
  have hb := hw.core.blocks
  have hin : ∀ b ∈ q, dictGet w.blocks (L.hash b.val) = some b := fun b hb => ((hq.mem b).1 hb).1
  have hrepo : ∀ b m : Block C R, m.repo = b.repo → Concerns repo b → Concerns repo m := by
    intro b m he hb
    unfold Concerns at *
    rw [he]; exact hb
  have hone : ∀ b ∈ q, 1 ≤ b.seq := by
    intro b hbq
    by_cases g : al.imports
    · exact (hi g).trans ((hq.mem b).1 hbq).2.1
    · exact h.native hL g (hin b hbq)
  have hm : ∀ b ∈ q, ∃ m ∈ q, m.marker ∧ m.seq = b.seq ∧ m.repo = b.repo := by
    intro b hbq
    obtain ⟨c', b', h1, h2, h3, h4⟩ := hs.marked _ b (hin b hbq) (hone b hbq)
    obtain ⟨_, g2, g3⟩ := (hq.mem b).1 hbq
    refine ⟨b', (hq.mem b').2 ⟨?_, by omega, hrepo b b' h4 g3⟩, h2, h3, h4⟩
    unfold World.read
    rw [hb.addr _ _ h1]; exact h1
  refine ⟨hq.sorted, hq.nodup, hin, ?_, fun c y hy => (hb.addr _ _ hy).symm, ?_, ?_, ?_, ?_, ?_, ?_⟩
  · intro b hbq c y hy he
    have hyc := hb.addr _ _ hy
    obtain ⟨c1, m1, h1, h2, h3, h4⟩ := hs.marked _ b (hin b hbq) (hone b hbq)
    obtain ⟨c2, m2, k1, k2, k3, k4⟩ := hs.marked _ y hy (he ▸ hone b hbq)
    have e := hs.unique _ _ _ _ h1 k1 h2 k2 (h3 ▸ hone b hbq) (by omega)
    subst e
    rw [h1] at k1; cases k1
    obtain ⟨_, g2, g3⟩ := (hq.mem b).1 hbq
    refine (hq.mem y).2 ⟨?_, by omega, hrepo b y (by rw [← k4, h4]) g3⟩
    rw [hyc]; exact hy
  · intro b hbq
    have := hone b hbq
    omega
  · intro b hbq
    obtain ⟨m, h1, h2, h3, _⟩ := hm b hbq
    exact ⟨m, h1, (isLog_marker m).2 h2, h3⟩
  · intro b hbq m hmq h1 h2 he
    have e := hs.unique _ _ _ _ (hin b hbq) (hin m hmq) ((isLog_marker b).1 h1)
      ((isLog_marker m).1 h2) (hone b hbq) he
    have g := hin b hbq
    rw [e, hin m hmq] at g
    exact (Option.some.inj g).symm
  · intro b hbq m hmq h1 he
    have e := hs.alone _ _ _ _ (hin b hbq) (hin m hmq) h1 (hone b hbq) he
    have g := hin m hmq
    rw [e, hin b hbq] at g
    exact (Option.some.inj g).symm
  · intro b hbq
    cases hv : b.val with
    | node d => simp [looksEvent, looksCommit, Block.isEvent, Block.isCommit, hv]
    | commit c => simp [looksEvent, looksCommit, Block.isEvent, Block.isCommit, hv]
    | event e => simp [looksEvent, looksCommit, Block.isEvent, Block.isCommit, hv]
    | record r =>
      obtain ⟨h1, h2⟩ := hplain r ((hb.recs _ b r (hin b hbq) hv).1 (hone b hbq)).1
      simp [looksEvent, looksCommit, Block.isEvent, Block.isCommit, hv, h1, h2]
  · intro b hbq co hco
    have hc := hb.own (hin b hbq) hco (hone b hbq)
    refine ⟨?_, ?_⟩
    · obtain ⟨ops, h1, h2⟩ := hc.ops
      refine ⟨ops, h1, fun op ho hd => ?_⟩
      obtain ⟨r, k1, y, k2, _⟩ := h2 op ho hd
      exact ⟨_, y, k1, k2⟩
    · obtain ⟨t, l, _, _, _, _, h5, h6⟩ := hc.root
      rw [← h6]
      have := h5 t (by simp [nodes])
      unfold nodeIn at this
      split at this
      · rename_i hg; exact ⟨_, hg⟩
      · cases this

/-- A stored commit or event with a number from `start` on. -/
def Logged (L : Lib C R) (w : World C R) (start : Nat) (repo : Option Did) (b : Block C R) : Prop :=
  w.read (L.hash b.val) = some b ∧ ((∃ co, b.val = .commit co) ∨ ∃ e, b.val = .event e) ∧
    start ≤ b.seq ∧ Concerns repo b

/-- **C30, partial** (see the header for what is excluded). For all blocks from `start` on, in any
order the backend may return them: `read_events_by_seq` raises nothing and yields, in strictly
ascending order, exactly the stored commits and events, each as it should be. -/
theorem C30_log_partial (hL : L.OK Z) (hp : ¬ al.partway) (hplain : PlainRecords L)
    (h : Reach L be al w) {start : Nat} (hi : al.imports → 1 ≤ start) {repo : Option Did} {q : List (Block C R)}
    (hq : Query L w start repo q) :
    (readEvents L w q).2 = none ∧ ∃ ms : List (Block C R), ms.Pairwise (fun a b => a.seq < b.seq) ∧
      (∀ b, b ∈ ms ↔ Logged L w start repo b) ∧
      List.Forall₂ (Delivers w) ms (readEvents L w q).1 := by
  have ho := Reach.orderly_list hL hp hplain h hi hq
  obtain ⟨h1, h2⟩ := readEvents_spec ho
  refine ⟨h1, q.filter Block.isLog, ?_, ?_, h2⟩
  · have h3 := (ho.sorted.and ho.nodup).filter Block.isLog
    refine h3.imp_of_mem ?_
    intro a b ha hb ⟨h4, h5⟩
    rw [List.mem_filter] at ha hb
    refine lt_of_le_of_ne h4 fun he => h5 (ho.unique a ha.1 b hb.1 ha.2 hb.2 he)
  · intro b
    rw [List.mem_filter, hq.mem b]
    unfold Logged Block.isLog
    constructor
    · rintro ⟨⟨g1, g2, g3⟩, g4⟩
      refine ⟨g1, ?_, g2, g3⟩
      cases hv : b.val with
      | commit co => exact .inl ⟨co, rfl⟩
      | event e => exact .inr ⟨e, rfl⟩
      | node d => rw [hv] at g4; cases g4
      | record r => rw [hv] at g4; cases g4
    · rintro ⟨g1, g2, g3, g4⟩
      refine ⟨⟨g1, g3, g4⟩, ?_⟩
      rcases g2 with ⟨co, g2⟩ | ⟨e, g2⟩ <;> rw [g2]

/-- The same message, up to the order of the blocks in it. -/
def SameSent : Sent C R → Sent C R → Prop
  | .event v, .event v' => v = v'
  | .commit a, .commit b => a.commit = b.commit ∧ a.prev = b.prev ∧
      ∀ c, dictGet a.blocks c = dictGet b.blocks c
  | _, _ => False

theorem Delivers.same {b : Block C R} {s s' : Sent C R} (h : Delivers w b s) (h' : Delivers w b s') :
    SameSent s s' := by
  unfold Delivers at h h'
  cases hv : b.val with
  | event e => rw [hv] at h h'; subst h h'; rfl
  | commit co =>
    rw [hv] at h h'
    obtain ⟨d, rfl, h2⟩ := h
    obtain ⟨d', rfl, h2'⟩ := h'
    refine ⟨rfl, rfl, fun c => Option.ext fun x => ?_⟩
    exact (h2 c x).trans (h2' c x).symm
  | node d => rw [hv] at h; exact h.elim
  | record r => rw [hv] at h; exact h.elim

theorem forall₂_split {α β : Type} {P : α → β → Prop} : ∀ {a b : List α} {l : List β},
    List.Forall₂ P (a ++ b) l → ∃ x y, l = x ++ y ∧ List.Forall₂ P a x ∧ List.Forall₂ P b y
  | [], b, l, h => ⟨[], l, rfl, .nil, h⟩
  | a :: as, b, _, .cons h1 h2 => by
    obtain ⟨x, y, rfl, h3, h4⟩ := forall₂_split h2
    exact ⟨_ :: x, y, rfl, .cons h1 h3, h4⟩

theorem forall₂_common {α β : Type} {P : α → β → Prop} {Q : β → β → Prop}
    (hPQ : ∀ a x y, P a x → P a y → Q x y) : ∀ {a : List α} {x y : List β},
    List.Forall₂ P a x → List.Forall₂ P a y → List.Forall₂ Q x y
  | [], _, _, .nil, .nil => .nil
  | _ :: _, _, _, .cons h1 h2, .cons h3 h4 => .cons (hPQ _ _ _ h1 h3) (forall₂_common hPQ h2 h4)

/-- Two ascending lists with the same members are equal. -/
theorem eq_of_ascending {a b : List (Block C R)} (ha : a.Pairwise (fun x y => x.seq < y.seq))
    (hb : b.Pairwise (fun x y => x.seq < y.seq)) (h : ∀ x, x ∈ a ↔ x ∈ b) : a = b := by
  have hna : a.Nodup := ha.imp fun hlt he => by subst he; exact Nat.lt_irrefl _ hlt
  have hnb : b.Nodup := hb.imp fun hlt he => by subst he; exact Nat.lt_irrefl _ hlt
  refine List.Perm.eq_of_pairwise ?_ ha hb ((List.perm_ext_iff_of_nodup hna hnb).2 h)
  intro x y _ _ h1 h2
  exact absurd h1 (Nat.lt_asymm h2)

/-- **C30, partial: resuming.** Reading again from a later `start'` yields the same messages
without those below `start'`. -/
theorem C30_resume_partial (hL : L.OK Z) (hp : ¬ al.partway) (hplain : PlainRecords L)
    (h : Reach L be al w) {start start' : Nat} (hi : al.imports → 1 ≤ start) (hle : start ≤ start') {repo : Option Did}
    {q q' : List (Block C R)} (hq : Query L w start repo q) (hq' : Query L w start' repo q') :
    ∃ skipped rest before, (readEvents L w q).1 = skipped ++ rest ∧
      List.Forall₂ (Delivers w) before skipped ∧ (∀ b ∈ before, b.seq < start') ∧
      List.Forall₂ SameSent rest (readEvents L w q').1 := by
  obtain ⟨_, ms, h1, h2, h3⟩ := C30_log_partial hL hp hplain h hi hq
  obtain ⟨_, ms', h1', h2', h3'⟩ := C30_log_partial hL hp hplain h (fun g => (hi g).trans hle) hq'
  have e : ms = ms.filter (fun b => decide (b.seq < start')) ++ ms' := by
    refine eq_of_ascending h1 (List.pairwise_append.2 ⟨h1.filter _, h1', ?_⟩) fun x => ?_
    · intro a ha b hb
      have := ((h2' b).1 hb).2.2.1
      have := (List.mem_filter.1 ha).2
      simp only [decide_eq_true_eq] at this
      omega
    · rw [List.mem_append, List.mem_filter, h2 x, h2' x]
      simp only [decide_eq_true_eq]
      constructor
      · rintro hx
        by_cases hlt : x.seq < start'
        · exact .inl ⟨hx, hlt⟩
        · exact .inr ⟨hx.1, hx.2.1, by omega, hx.2.2.2⟩
      · rintro (hx | hx)
        · exact hx.1
        · exact ⟨hx.1, hx.2.1, hle.trans hx.2.2.1, hx.2.2.2⟩
  rw [e] at h3
  obtain ⟨x, y, g1, g2, g3⟩ := forall₂_split h3
  refine ⟨x, y, _, g1, g2, ?_, forall₂_common (P := Delivers w) (fun _ _ _ => Delivers.same) g3 h3'⟩
  intro b hb
  simpa using (List.mem_filter.1 hb).2

/-- Non-trivial cases: the log of the example repo with `MemoryStorage`, and with `DatastoreStorage`
whatever contexts are lost. -/
example : (readEvents exL (exW2 .memory) (readBlocksMemory (exW2 .memory) 3 none)).2 = none :=
  (C30_log_partial exL_ok (fun h => h) (fun _ _ => ⟨rfl, rfl⟩) (exW2_reach .memory) (fun h => h.elim)
    (C30_memory_blocks (exW2_reach .memory) 3 none)).1

example {out} (h : DsScan exL none (exW2 .datastore) (3, []) (exW2 .datastore) out) :
    (readEvents exL (exW2 .datastore) out).2 = none :=
  (C30_log_partial exL_ok (fun h => h) (fun _ _ => ⟨rfl, rfl⟩) (exW2_reach .datastore) (fun h => h.elim)
    (C34_exact h)).1

/-- A run of the Datastore scan (C34) that loses its context after two blocks. -/
example : ∃ out, DsScan exL none (exW2 .datastore) (3, []) (exW2 .datastore) out :=
  ⟨_, .lost 2 (C30_memory_blocks (exW2_reach .datastore) 3 none) (fun _ _ h => h)
    (.finish (C30_memory_blocks (exW2_reach .datastore) _ none))⟩

/-! ### Why the hypotheses are needed -/

/-- The blocks of `w` from `start` on, in the order of `w.blocks`. -/
def blocksFrom (w : ExWorld) (start : Nat) : List (Block SC Nat) :=
  (w.blocks.map (·.2)).filter (fun b => decide (start ≤ b.seq) && inRepo none b)

/-- The commits in a list of messages. -/
def sentCommits : List (Sent SC Nat) → List SC
  | [] => []
  | .commit c :: l => exL.hash c.commit.val :: sentCommits l
  | .event _ :: l => sentCommits l

/-- A retried Datastore transaction leaves two commits with the same number behind; which of them
subscribers get depends on the order of the query: here it is the one that is not the repo's. -/
theorem C30_retry_false : Reach exL .datastore ⟨False, True, False, False, False⟩ exRetried ∧
    ∃ q, Query exL exRetried 9 none q ∧ (readEvents exL exRetried q).2 = none ∧
      (readEvents exL exRetried q).1.length = 1 ∧
      (∀ c, headOf exL .datastore exRetried exDid = some c →
        c ∉ sentCommits (readEvents exL exRetried q).1) ∧
      headOf exL .datastore exRetried exDid ≠ none := by
  refine ⟨C29_retry_false.1, (blocksFrom exRetried 9).reverse,
    Query.of_perm C29_retry_false.1 (by decide +kernel) (List.reverse_perm _), by decide +kernel,
    by decide +kernel, ?_, by decide +kernel⟩
  intro c hc
  have : sentCommits (readEvents exL exRetried (blocksFrom exRetried 9).reverse).1 ∩
      (headOf exL .datastore exRetried exDid).toList = [] := by decide +kernel
  intro hm
  have : c ∈ ([] : List SC) := by
    rw [← this, List.mem_inter_iff]
    exact ⟨hm, by rw [hc]; simp⟩
  cases this

/-- A library in which the record 7 carries an event's `$type`. -/
def exLE : Lib SC Nat := { exL with eventLike := fun r => decide (r = 7) }

def exFake : ExWorld :=
  (commit exLE .memory (repoCreate exLE .memory .empty exDid (some exHandle) 0 true 5 lucky false).1 0
    [wr .create "a" (some 7)] none lucky false).1

/-- A record that carries an event's `$type` is sent to subscribers as an event of its own, although
a client asked for nothing but a new record. -/
theorem C30_lookalike_false : Reach exLE .memory .orderly exFake ∧
    ∃ q, Query exLE exFake 5 none q ∧ ∃ sc,
      (readEvents exLE exFake q).1 = [.event (.record 7), .commit sc] := by
  have hr : Reach exLE .memory .orderly exFake := by
    refine .step (.step .empty (.create exDid (some exHandle) 0 true 5 lucky false ?_ ?_ ?_ ?_ ?_))
      (.commit 0 [wr .create "a" (some 7)] lucky false ⟨.inr (.of_ok ?_), ?_, ?_, .inr rfl⟩)
    · unfold isDid; decide +kernel
    · rintro h ⟨⟩; unfold isDid; decide +kernel
    · right; decide
    · exact .inr rfl
    · exact .inr rfl
    · decide +kernel
    · right; decide
    · right; decide +kernel
  refine ⟨hr, blocksFrom exFake 5, Query.of_perm hr (by decide +kernel) (List.Perm.refl _), ?_⟩
  have h : (match (readEvents exLE exFake (blocksFrom exFake 5)).1 with
    | [.event v, .commit _] => decide (v = .record 7)
    | _ => false) = true := by decide +kernel
  split at h
  · rename_i v sc he
    exact ⟨sc, by rw [he, of_decide_eq_true h]⟩
  · cases h

def exDangling : ExWorld := (write exL .memory (exW0 .memory) exDid (.record 5) 100).1

/-- A block written with the public method `Storage.write`, outside any commit, makes
`read_events_by_seq` raise an AssertionError once it gets there. -/
theorem C30_write_false : ∃ q, Query exL exDangling 8 none q ∧
    (readEvents exL exDangling q).2 = some .assertion := by
  refine ⟨blocksFrom exDangling 8, ⟨by decide +kernel, by decide +kernel, fun b => ?_⟩, by decide +kernel⟩
  have hk : (exDangling.blocks.map (·.1)).Nodup := by decide +kernel
  have ha : ∀ p ∈ exDangling.blocks, exL.hash p.2.val = p.1 := by decide +kernel
  unfold blocksFrom
  rw [List.mem_filter, List.mem_map]
  simp only [Bool.and_eq_true, decide_eq_true_eq, inRepo_iff]
  constructor
  · rintro ⟨⟨p, hp, rfl⟩, h1, h2⟩
    refine ⟨?_, h1, h2⟩
    rw [ha p hp]
    exact mem_dictGet hk hp
  · rintro ⟨h1, h2, h3⟩
    exact ⟨⟨_, dictGet_mem h1, rfl⟩, h2, h3⟩

end Arroba.Store
