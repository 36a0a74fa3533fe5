import Verif.Props.C75
import Verif.Firehose.BackfillProofs

/-!
# C80: a consumer can fetch a repo and then follow the firehose

The consumer's part is in Firehose/Backfill.lean. It sees only the CAR file and the messages.
-/

namespace Arroba.Store

open Arroba.Tree Arroba.Xrpc

section
variable {C R : Type} [DecidableEq C] {L : Lib C R} {Z : Nat} {be : Backend} {al : Allow} {u x w : World C R}
  {cfg : Config R} {ord : Nat → List (Raw C R) → List (Raw C R)} {g : Gate} {q : Key} {d : Did}
  {ws : Nat → World C R} {wl : World C R}

/-- **C80 (the download), partial.** `getRepo`, whatever happens between its reads, returns a CAR file with exactly one
copy of the repo. It is that of the time of the request: it has the rev, the root and exactly the records.

Partial: excludes what `C63_snapshot_partial` excludes. -/
theorem C80_download_partial (hL : L.OK Z) (ht : ¬ al.torn) (hu : Reach L be al u) (hord : ∀ f l, (ord f l).Perm l)
    (hg : g.closed = false) (hn : Names cfg be u q d) (hws : ∀ f, Meanwhile cfg L be u (ws f))
    (hwl : Meanwhile cfg L be u wl) : ∃ u' car, getRepoAt cfg L be ord g u ws wl q none = (u', .ok car) ∧
      (∃ s, Fetched L car s) ∧ ∀ s, Fetched L car s → IsCopy L be u d s := by
  have hu' := hu.weaken (al' := .untorn) (fun h => absurd h ht) (fun _ => trivial) (fun _ => trivial) (fun _ => trivial)
  rw [C63_snapshot_partial hL hu' hord hn hws hwl none]
  exact fetched hL hu' hord hg hn

/-- **C80 (the log), partial.** A consumer downloads the repo `d` at some time (`u`). It then gets, in order, messages for
events of the log, among them those for all that came into the log between the download and some later time (`x`). There
may be older ones among them too. Whichever messages the server made for them: all of them follow the copy, and after them
the copy is exactly the repo of that later time.

Partial: excludes commits that fail in the middle or in the callback, repos that were imported (`C80_import_false`),
commits to the same repo at the same time (`C80_concurrent_false`), and what `C63_snapshot_partial` excludes. -/
theorem C80_log_partial (hL : L.OK Z) (ht : ¬ al.torn) (hp : ¬ al.partway) (hra : ¬ al.raising) (hi : ¬ al.imports)
    (hplain : PlainRecords L) (hu : Reach L be al u) (hux : Relation.ReflTransGen (Step L be al) u x)
    (hxw : Relation.ReflTransGen (Step L be al) x w) (hord : ∀ f l, (ord f l).Perm l) (hg : g.closed = false)
    (hn : Names cfg be u q d) (hws : ∀ f, Meanwhile cfg L be u (ws f)) (hwl : Meanwhile cfg L be u wl) {u' : World C R}
    {car : Car C R} (hcar : getRepoAt cfg L be ord g u ws wl q none = (u', .ok car)) {s : Copy C R}
    (hs : Fetched L car s) {nums : List Nat} (hpw : nums.Pairwise (· < ·))
    (hlog : ∀ n ∈ nums, ∃ b, Logged L x 0 none b ∧ b.seq = n)
    (hall : ∀ b, Logged L x 0 none b → u.last < b.seq → b.seq ∈ nums) {msgs : List (Message C R)}
    (hmsgs : List.Forall₂ (MadeFor L be al w) nums msgs) :
    ∃ s', msgs.foldlM (Copy.next d) s = some s' ∧ IsCopy L be x d s' := by
  have hu' := hu.weaken (al' := .untorn) (fun h => absurd h ht) (fun _ => trivial) (fun _ => trivial) (fun _ => trivial)
  obtain ⟨_, car', h1, _, h3⟩ := C80_download_partial hL ht hu hord hg hn hws hwl
  rw [hcar] at h1
  cases h1
  exact copy_numbers hL ht hp hra hi hplain hu hux hxw (hn.isDid hL hu') (h3 s hs) hpw hlog hall hmsgs

/-- **C80 (end to end), partial.** The server and the firehose together: a consumer connects to the firehose with a cursor
that is not after the download, and applies all messages that it gets, from the first. Whenever it has yielded everything
that was in the log at some later time (`x`), and nothing newer, its copy is the repo of that later time. It may connect
before the download, as it should, or after it.

Partial: excludes what `C80_log_partial` and `Fire.C66_log_partial` exclude. -/
theorem C80_firehose_partial (hL : L.OK Z) (ht : ¬ al.torn) (hp : ¬ al.partway) (hra : ¬ al.raising) (hi : ¬ al.imports)
    (hplain : PlainRecords L) {fcfg : Fire.Cfg} {p : Nat} {f : Fire.State} (h : Joint L be al fcfg p w f)
    (hu : Reach L be al u) (hux : Relation.ReflTransGen (Step L be al) u x)
    (hxw : Relation.ReflTransGen (Step L be al) x w) (hord : ∀ f l, (ord f l).Perm l) (hg : g.closed = false)
    (hn : Names cfg be u q d) (hws : ∀ f, Meanwhile cfg L be u (ws f)) (hwl : Meanwhile cfg L be u wl) {u' : World C R}
    {car : Car C R} (hcar : getRepoAt cfg L be ord g u ws wl q none = (u', .ok car)) {s : Copy C R}
    (hs : Fetched L car s) {i c : Nat} (hl : f.loc i = .live) (hc : f.cursor i = some c) (hcu : c ≤ u.last + 1)
    (he : f.unevicted i = true) (hm : f.unmerged i = true ∨ f.front i ≤ c) (hq : f.col.locked = false)
    (hk : ∀ sc e, f.col ≠ .taken sc e) (hcol : ∀ b, Logged L x 0 none b → b.seq ≤ f.lastSeq)
    (hout : ∀ e ∈ f.out i, e.seq ≤ x.last) (hqueue : ∀ e ∈ f.queue i, x.last < e.seq) {msgs : List (Message C R)}
    (hmsgs : List.Forall₂ (fun e msg => MadeFor L be al w e.seq msg) (f.out i) msgs) :
    ∃ s', msgs.foldlM (Copy.next d) s = some s' ∧ IsCopy L be x d s' := by
  have hj := h.ok hL hi
  obtain ⟨hrx, _, _, _⟩ := later_seq hL hi hu hux
  obtain ⟨_, _, hgx, hnew⟩ := later_seq hL hi hrx hxw
  have hwx := (hrx.inv hL ht).1
  obtain ⟨hsort, hlog⟩ := Fire.C66_log_partial hj.order hl hc he hm hq hk
  refine C80_log_partial hL ht hp hra hi hplain hu hux hxw hord hg hn hws hwl hcar hs
    (nums := (f.out i).map (·.seq)) (List.pairwise_map.2 (List.pairwise_append.1 hsort).1) ?_ ?_
    (List.forall₂_map_left_iff.2 hmsgs)
  · intro n hmem
    obtain ⟨e, g1, rfl⟩ := List.mem_map.1 hmem
    obtain ⟨b, k1, k2⟩ := hj.logged e (Fire.yielded_stored hj.order hl hq g1)
    refine ⟨b, ⟨?_, k1.2⟩, k2⟩
    rcases hnew _ _ k1.1 with k | k
    · exact k
    · have := hout e g1
      omega
  · intro b hlb hlt
    have hle := hcol b hlb
    rcases hj.todo b (hlb.grow hgx) with ⟨e, he', hes⟩ | ⟨g, _⟩
    · rcases List.mem_append.1 ((hlog e (by omega)).2 ⟨he', by omega⟩) with k | k
      · exact List.mem_map.2 ⟨e, k, hes⟩
      · have := hqueue e k
        have := hwx.core.blocks.seqs _ _ hlb.1
        omega
    · omega

/-- **C80 (never wrong), partial.** Let messages be missing, repeated or out of order, as they may be (C36, C38, C39), and
let the callback of commits fail: a copy that was right at some time is, after any messages that the server made, the copy
of a commit of that repo, unless a message was refused. If it has the rev that the server has, it is the repo.

Partial: excludes commits that fail in the middle, imports, and what C57 excludes. -/
theorem C80_checked_partial (hL : L.OK Z) (ht : ¬ al.torn) (hp : ¬ al.partway) (hi : ¬ al.imports)
    (hplain : PlainRecords L) (hu : Reach L be al u) (huw : Relation.ReflTransGen (Step L be al) u w) (hd : isDid d)
    {s s' : Copy C R} (hs : IsCopy L be u d s) {msgs : List (Message C R)}
    (hmsgs : ∀ msg ∈ msgs, ∃ n, MadeFor L be al w n msg) (hf : msgs.foldlM (Copy.next d) s = some s') :
    OfCommit L w d s' ∧ ((∃ head b co, readHead L be w d = some head ∧ w.read head = some b ∧ b.val = .commit co ∧
      co.rev = s'.rev) → IsCopy L be w d s') := by
  obtain ⟨hrw, _, _, _⟩ := later_seq hL hi hu huw
  have h1 : OfCommit L w d s' := (hs.ofCommit hL ht hi hu huw hd).fold hL
    (fun msg hm => let ⟨_, h⟩ := hmsgs msg hm; h.some_announces hL ht hp hi hplain) hf
  exact ⟨h1, h1.current hL ht hp hi hplain hrw hd⟩

end

/-! ### Cases that meet the hypotheses -/

/-- A consumer connects with cursor 1, and gets all ten messages; it downloaded Alice's repo in between, after the ninth
event, while another record was created and deleted. It skips nine messages and applies the tenth. -/
example (be : Backend) : ∃ f u' car s, exJoint = some f ∧ f.seqs 0 = [1, 2, 3, 4, 5, 6, 7, 8, 9, 10] ∧
    getRepoAt exCfg exL be (fun _ l => l) exGate (exW1 be) (exTimes be) (exDown be) exHandle none = (u', .ok car) ∧
    Fetched exL car s ∧ IsCopy exL be (exW1 be) exDid s ∧
    ∀ msgs, List.Forall₂ (fun e msg => MadeFor exL be .orderly (exW2 be) e.seq msg) (f.out 0) msgs →
      ∃ s', msgs.foldlM (Copy.next exDid) s = some s' ∧ IsCopy exL be (exW2 be) exDid s' := by
  have hsome : exJoint.isSome = true := by decide +kernel
  obtain ⟨f, hf⟩ := Option.isSome_iff_exists.1 hsome
  have hff : (exJoint.map fun s => (s.seqs 0, decide (s.loc 0 = .live), s.cursor 0, s.unevicted 0)) =
        some ([1, 2, 3, 4, 5, 6, 7, 8, 9, 10], true, some 1, true) ∧
      (exJoint.map fun s => (s.unmerged 0, decide (s.col = .waiting), s.lastSeq, s.queue 0)) =
        some (true, true, 10, []) := by decide +kernel
  rw [hf] at hff
  simp only [Option.map_some, Option.some.injEq, Prod.mk.injEq, decide_eq_true_eq] at hff
  obtain ⟨⟨a1, a2, a3, a4⟩, a5, a6, a7, a8⟩ := hff
  have hws : ∀ f, Meanwhile exCfg exL be (exW1 be) (exTimes be f) := fun f => by
    unfold exTimes
    split
    · exact .none _
    · exact exUp_meanwhile be
  obtain ⟨u', car, h1, ⟨s, h2⟩, h3⟩ := C80_download_partial exL_ok (al := .orderly) (fun h => h) (exW1_reach be)
    (ord := fun _ l => l) (fun _ l => .refl l) (g := exGate) rfl (exNames be) hws (exDown_meanwhile be)
  have hlast : (exW2 be).last = 10 := by cases be <;> decide +kernel
  refine ⟨f, u', car, s, hf, a1, h1, h2, h3 s h2, fun msgs hmsgs => ?_⟩
  refine C80_firehose_partial exL_ok (fun h => h) (fun h => h) (fun h => h) (fun h => h) (fun _ _ => ⟨rfl, rfl⟩)
    (exJoint_joint be hf) (exW1_reach be) (.single (exW1_step be)) .refl (fun _ l => .refl l) rfl (exNames be) hws
    (exDown_meanwhile be) h1 h2 a2 a3 (Nat.le_add_left _ _) a4 (.inl a5) (by rw [a6]; rfl) (by rw [a6]; simp) ?_ ?_ ?_ hmsgs
  · intro b hb
    rw [a7]
    exact (hb.le_last exL_ok (exW2_reach be)).trans hlast.le
  · intro e he
    rw [hlast]
    have : e.seq ∈ f.seqs 0 := List.mem_map.2 ⟨e, he, rfl⟩
    rw [a1] at this
    revert this
    generalize e.seq = n
    revert n
    decide
  · rw [a8]; intro e he; cases he

/-! ### Where it is false -/

/-- What a CAR file contains, for the examples: the rev, the root, and the record "coll/`rkey`". -/
def carCopy (car : Car SC Nat) (rkey : String) : Option (Key × SC × Option (Option (Val SC Nat))) :=
  match car.roots with
  | [head] => (carCommit car head).map fun co => (co.rev, co.data,
      match car.world.read head with
      | some b => match b.val with
        | .commit co => (getRecord exL car.world ⟨Arroba.load co.data, some b, none, none, 0, false⟩ (key "coll")
            (key rkey)).toOption
        | _ => none
      | none => none)
  | _ => none

theorem Fetched.spec {car : Car SC Nat} {s : Copy SC Nat} (h : Fetched exL car s) {rkey : String} {rev : Key} {data : SC}
    {v : Option (Option (Val SC Nat))} (hy : carCopy car rkey = some (rev, data, v)) : s.rev = rev ∧ s.data = data ∧
      v = some ((s.records (key "coll" ++ '/' :: key rkey)).map .record) := by
  obtain ⟨head, co, h1, h2, h3, h4, h5⟩ := h
  unfold carCopy at hy
  rw [h1] at hy
  dsimp only at hy
  obtain ⟨b, co', k1, k2, k3⟩ := commitShows_iff.1 h5
  rw [h2, Option.map_some, k1] at hy
  dsimp only at hy
  rw [k2] at hy
  dsimp only at hy
  rw [k3.get] at hy
  cases hy
  exact ⟨h3.symm, h4.symm, rfl⟩

/-- The imported repo, after a record was created in it. -/
def exMovedOn : ExWorld := (commit exL .memory exMoved 1 [wr .create "z" (some 5)] none lucky false).1

/-- The messages since. -/
def exMovedMsgs : List (Message SC Nat) := messagesBySeq exMovedOn (exMoved.last + 1)

/-- Whether a consumer with this rev skips the message. -/
def skips (d : Did) (rev : Key) : Message SC Nat → Bool
  | .commit _ p => !(decide (p.repo = d) && decide (rev < p.rev))
  | _ => true

theorem skips_next {d : Did} {s : Copy SC Nat} {msg : Message SC Nat} (h : skips d s.rev msg = true) :
    s.next d msg = some s := by
  unfold Copy.next
  cases msg with
  | commit t p =>
    dsimp only
    unfold skips at h
    rw [if_neg]
    rintro ⟨h1, h2⟩
    dsimp only at h
    rw [decide_eq_true h1, decide_eq_true h2] at h
    cases h
  | _ => rfl

/-- Whether a consumer with this rev and root refuses the message. -/
def refuses (d : Did) (rev : Key) (data : SC) : Message SC Nat → Bool
  | .commit _ p => decide (p.repo = d) && decide (rev < p.rev) && p.prevData.isSome && decide (p.prevData ≠ some data)
  | _ => false

theorem refuses_next {d : Did} {s : Copy SC Nat} {msg : Message SC Nat} (h : refuses d s.rev s.data msg = true) :
    s.next d msg = none := by
  unfold Copy.next
  cases msg with
  | commit t p =>
    dsimp only
    unfold refuses at h
    simp only [Bool.and_eq_true, decide_eq_true_eq] at h
    obtain ⟨⟨⟨h1, h2⟩, h3⟩, h4⟩ := h
    rw [if_pos ⟨h1, h2⟩, if_neg (by rintro h; rw [h] at h3; cases h3), if_neg h4]
  | _ => cases h

/-- **C80 is false** of an imported repo: it has the rev of the server that it comes from, and the revs of this one are
smaller (`C46_rev_false`). Nothing fails, and there is a message for the new record. A consumer that has downloaded the
repo skips it, so it never sees the record. -/
theorem C80_import_false : ∃ rev u' car,
    getRepo exCfg exL .memory (fun _ l => l) exGate exMoved exDid none = (u', .ok car) ∧
    (∀ s, Fetched exL car s → s.rev = rev ∧ s.records (key "coll/z") = none) ∧
    Query exL exMovedOn (exMoved.last + 1) none (blocksBySeq exMovedOn (exMoved.last + 1)) ∧
    (readEvents exL exMovedOn (blocksBySeq exMovedOn (exMoved.last + 1))).2 = none ∧
    List.Forall₂ (fun e msg => processEvent exL exMovedOn none e = .ok msg)
      (readEvents exL exMovedOn (blocksBySeq exMovedOn (exMoved.last + 1))).1 exMovedMsgs ∧
    readRecord exMovedOn .memory exDid "z" = some (some (.record 5)) ∧ exMovedMsgs.length = 1 ∧
    ∀ s : Copy SC Nat, s.rev = rev → exMovedMsgs.foldlM (Copy.next exDid) s = some s := by
  have h1 : (getRepo exCfg exL .memory (fun _ l => l) exGate exMoved exDid none).2.toOption.bind
      (fun car => (carCopy car "z").map fun y => (y.1, y.2.2)) = some ("3kgq4m2aaaa22".toList, some none) := by
    decide +kernel
  obtain ⟨k1, k2, k3⟩ := checkLog_spec (w := exMovedOn) (start := exMoved.last + 1) (by decide +kernel)
  have h2 : readRecord exMovedOn .memory exDid "z" = some (some (.record 5)) ∧ exMovedMsgs.length = 1 := by
    constructor <;> decide +kernel
  have h3 : ∀ msg ∈ exMovedMsgs, skips exDid "3kgq4m2aaaa22".toList msg = true := by
    have : (exMovedMsgs.all fun msg => skips exDid "3kgq4m2aaaa22".toList msg) = true := by decide +kernel
    exact List.all_eq_true.1 this
  cases hg : getRepo exCfg exL .memory (fun _ l => l) exGate exMoved exDid none with
  | mk u' res =>
    rw [hg] at h1
    cases res with
    | error e => cases h1
    | ok car =>
      obtain ⟨⟨rev, data, v⟩, h4, h5⟩ := Option.map_eq_some_iff.1 h1
      obtain ⟨rfl, rfl⟩ := Prod.mk.inj h5
      refine ⟨"3kgq4m2aaaa22".toList, u', car, rfl, fun s hs => ?_, k1, k2, k3, h2.1, h2.2, fun s hs => ?_⟩
      · obtain ⟨g1, _, g2⟩ := hs.spec h4
        refine ⟨g1, ?_⟩
        have g3 := Option.some.inj g2
        cases hr : s.records (key "coll" ++ '/' :: key "z") with
        | none => exact hr
        | some r => rw [hr] at g3; cases g3
      · have : ∀ {l : List (Message SC Nat)}, (∀ msg ∈ l, skips exDid s.rev msg = true) →
            l.foldlM (Copy.next exDid) s = some s := by
          intro l
          induction l with
          | nil => intro _; rfl
          | cons a l ih =>
            intro h
            rw [List.foldlM_cons, skips_next (h a (.head _))]
            exact ih fun m hm => h m (.tail _ hm)
        exact this (by rw [hs]; exact h3)

/-- **C80 is false** of commits to the same repo that are made at the same time (`C66_concurrent_false`): a consumer that
has downloaded the repo before them, and gets all messages in order, finds that one of them does not follow its copy,
although nothing failed. At least it notices. -/
theorem C80_concurrent_false : ∃ s u' car, exSwap = some s ∧
    getRepo exCfg exL .datastore (fun _ l => l) exGate (exW1 .datastore) exDid none = (u', .ok car) ∧
    Query exL s.w 10 none (blocksBySeq s.w 10) ∧ (readEvents exL s.w (blocksBySeq s.w 10)).2 = none ∧
    List.Forall₂ (fun e msg => processEvent exL s.w none e = .ok msg) (readEvents exL s.w (blocksBySeq s.w 10)).1
      (messagesBySeq s.w 10) ∧ (exW1 .datastore).last = 9 ∧
    ∀ c, Fetched exL car c → (messagesBySeq s.w 10).foldlM (Copy.next exDid) c = none := by
  have h1 : ((getRepo exCfg exL .datastore (fun _ l => l) exGate (exW1 .datastore) exDid none).2.toOption.bind
      fun car => carCopy car "a").bind (fun y => exSwap.map fun s =>
        ((messagesBySeq s.w 10).head?.map fun msg => refuses exDid y.1 y.2.1 msg)) = some (some true) := by
    decide +kernel
  have h2 : (exSwap.map fun s => checkLog s.w 10) = some true := by decide +kernel
  cases hs : exSwap with
  | none => rw [hs] at h2; cases h2
  | some s =>
    rw [hs] at h1 h2
    simp only [Option.map_some, Option.some.injEq] at h2
    obtain ⟨k1, k2, k3⟩ := checkLog_spec h2
    cases hg : getRepo exCfg exL .datastore (fun _ l => l) exGate (exW1 .datastore) exDid none with
    | mk u' res =>
      rw [hg] at h1
      cases res with
      | error e => cases h1
      | ok car =>
        obtain ⟨⟨rev, data, v⟩, h4, h5⟩ := Option.bind_eq_some_iff.1 h1
        obtain ⟨msg, h6, h7⟩ := Option.map_eq_some_iff.1 (Option.some.inj h5)
        refine ⟨s, u', car, rfl, rfl, k1, k2, k3, by decide +kernel, fun c hc => ?_⟩
        obtain ⟨g1, g2, _⟩ := hc.spec h4
        cases hm : messagesBySeq s.w 10 with
        | nil => rw [hm] at h6; cases h6
        | cons a l =>
          rw [hm] at h6
          cases h6
          rw [List.foldlM_cons, refuses_next (by rw [g1, g2]; exact h7)]
          rfl

/-- What a consumer with this rev and root stores for "coll/`rkey`" when it applies the message, if it is the only
operation. -/
def stores (d : Did) (rev : Key) (data : SC) (rkey : String) : Message SC Nat → Option (Option Nat)
  | .commit _ p =>
    if p.repo = d ∧ rev < p.rev ∧ p.prevData = some data ∧ (carCommit p.blocks p.commit).isSome = true then
      match p.ops with
      | [op] => if op.path = key "coll" ++ '/' :: key rkey then some (op.cid.bind (carRecord p.blocks)) else none
      | _ => none
    else none
  | _ => none

theorem stores_next {d : Did} {s : Copy SC Nat} {rkey : String} {msg : Message SC Nat} {v : Option Nat}
    (h : stores d s.rev s.data rkey msg = some v) :
    ∃ s', s.next d msg = some s' ∧ s'.records (key "coll" ++ '/' :: key rkey) = v := by
  cases msg with
  | commit t p =>
    unfold stores at h
    dsimp only at h
    split at h
    · next hc =>
      obtain ⟨h1, h2, h3, h4⟩ := hc
      obtain ⟨co, h5⟩ := Option.isSome_iff_exists.1 h4
      split at h
      · next op hop =>
        split at h
        · next hpath =>
          refine ⟨⟨p.rev, co.data, p.ops.foldl (mirrorOp p.blocks) s.records⟩, ?_, ?_⟩
          · unfold Copy.next
            dsimp only
            rw [if_pos ⟨h1, h2⟩, if_neg (by rw [h3]; exact nofun), if_pos h3, h5]
            rfl
          · rw [hop]
            show mirrorOp p.blocks s.records op _ = v
            unfold mirrorOp
            rw [← hpath, Function.update_self]
            exact Option.some.inj h
        · cases h
      · cases h
    · cases h
  | _ => cases h

/-- **C80 is false** after a commit that failed when it had stored its blocks (`C75_own_false`). A consumer that is
connected, downloads the repo afterwards, and applies the messages to it, accepts the message for the failed commit: it
is newer than the repo, and follows it. So the consumer has a record that the server does not have. -/
theorem C80_failed_false : ∃ u' car, Reach exL .datastore ⟨False, True, False, False, False⟩ exHurt1 ∧
    getRepo exCfg exL .datastore (fun _ l => l) exGate exHurt1 exDid2 none = (u', .ok car) ∧
    Query exL exHurt1 10 none (blocksBySeq exHurt1 10) ∧ (readEvents exL exHurt1 (blocksBySeq exHurt1 10)).2 = none ∧
    List.Forall₂ (fun e msg => processEvent exL exHurt1 none e = .ok msg)
      (readEvents exL exHurt1 (blocksBySeq exHurt1 10)).1 (messagesBySeq exHurt1 10) ∧ 10 ≤ exHurt1.last + 1 ∧
    readRecord exHurt1 .datastore exDid2 "x" = some none ∧
    ∀ s, Fetched exL car s → s.records (key "coll/x") = none ∧
      ∃ s', (messagesBySeq exHurt1 10).foldlM (Copy.next exDid2) s = some s' ∧ s'.records (key "coll/x") = some 5 := by
  have h1 : (getRepo exCfg exL .datastore (fun _ l => l) exGate exHurt1 exDid2 none).2.toOption.bind
      (fun car => (carCopy car "x").map fun y =>
        (y.2.2, (messagesBySeq exHurt1 10).map fun msg => stores exDid2 y.1 y.2.1 "x" msg)) =
      some (some none, [some (some 5)]) := by decide +kernel
  obtain ⟨k1, k2, k3⟩ := checkLog_spec (w := exHurt1) (start := 10) (by decide +kernel)
  cases hg : getRepo exCfg exL .datastore (fun _ l => l) exGate exHurt1 exDid2 none with
  | mk u' res =>
    rw [hg] at h1
    cases res with
    | error e => cases h1
    | ok car =>
      obtain ⟨⟨rev, data, v⟩, h4, h5⟩ := Option.map_eq_some_iff.1 h1
      obtain ⟨h6, h7⟩ := Prod.mk.inj h5
      dsimp only at h6 h7
      refine ⟨u', car, exHurt1_reach, rfl, k1, k2, k3, by decide +kernel, by decide +kernel, fun s hs => ?_⟩
      obtain ⟨g1, g2, g3⟩ := hs.spec h4
      constructor
      · rw [h6] at g3
        have g3 := Option.some.inj g3
        cases hr : s.records (key "coll" ++ '/' :: key "x") with
        | none => exact hr
        | some r => rw [hr] at g3; cases g3
      · obtain ⟨msg, hm⟩ : ∃ msg, messagesBySeq exHurt1 10 = [msg] :=
          List.length_eq_one_iff.1 (by rw [← List.length_map, h7]; rfl)
        rw [hm] at h7 ⊢
        obtain ⟨s', a1, a2⟩ := stores_next (s := s) (d := exDid2) (rkey := "x") (msg := msg) (v := some 5)
          (by rw [g1, g2]; exact (List.cons.inj h7).1)
        exact ⟨s', by rw [List.foldlM_cons, a1]; rfl, a2⟩

end Arroba.Store
