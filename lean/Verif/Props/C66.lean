import Verif.Firehose.JointProofs
import Verif.Props.C58
import Verif.Props.C60

/-!
# C66: a subscriber's mirror is right, end to end

`Joint` (Firehose/Joint.lean) is the server together with the firehose: requests are served while the collector reads
the log and hands it out to subscribers. `Mirror.next` (Firehose/Mirror.lean) is a consumer.
-/

namespace Arroba.Fire

variable {cfg : Cfg} {p : Nat} {s : State}

/-- **C66, the log, partial.** If the log is written in order, then whenever the collector is between two events, a live
subscriber with cursor `c` has yielded or queued, in order and once, exactly the events of the log from `c` on that the
collector has come to. That includes those that are older than what the collector has preloaded.

Partial: excludes subscribers for which events were evicted from the rollback window, or merged into it, while they were
connecting (C38, C36), events that are stored out of order (`C39_quiet_false`), and exceptions in the middle of
handing out an event (`C39_crash_false`). -/
theorem C66_log_partial (h : InOrder cfg p s) {i c : Nat} (hl : s.loc i = .live) (hc : s.cursor i = some c)
    (he : s.unevicted i = true) (hm : s.unmerged i = true ∨ s.front i ≤ c) (hq : s.col.locked = false)
    (hk : ∀ sc e, s.col ≠ .taken sc e) :
    (s.out i ++ s.queue i).Pairwise (fun a b => a.seq < b.seq) ∧
    ∀ e, c ≤ e.seq → (e ∈ s.out i ++ s.queue i ↔ e ∈ s.stored ∧ e.seq ≤ s.lastSeq) := by
  have hr := h.reach
  have hcore := hr.inv.core
  have hkept : (∀ x ∈ s.replayed i, x ∈ s.stored) ∧ ∀ c, s.cursor i = some c → s.unevicted i = true →
      ∀ x ∈ s.stored, x.seq < p → c ≤ x.seq → x ∈ s.replayed i := by
    have := h.old.kept i
    unfold Kept at this
    rw [show (s.view i).loc = .live from hl] at this
    exact this
  refine ⟨C36_queue_partial hr i hl (hm.elim (fun h => .inr (.inr h)) (fun h => .inr (.inl ⟨c, hc, h⟩))),
    fun e hce => ⟨fun hmem => ?_, fun ⟨hst, hle⟩ => ?_⟩⟩
  · rw [C37_live_partial hr hl hq] at hmem
    rcases List.mem_append.1 hmem with g | g
    · refine ⟨hkept.1 e g, ?_⟩
      obtain ⟨x, hx, hle⟩ := (hr.joinedView hl).bnd e g
      exact hle.trans (hcore.bound x (List.mem_append_right _ (List.mem_of_mem_take hx)))
    · have := List.mem_append_right s.merged (List.mem_of_mem_drop g)
      exact ⟨hcore.inStored e this, hcore.bound e this⟩
  · by_cases hp : p ≤ e.seq
    · rcases h.gapless.emitted e hst hp hle with g | ⟨sc, g⟩
      · exact C38_no_gap_partial hr hl hc he hq e g hce
      · exact absurd g (hk sc e)
    · rw [C37_live_partial hr hl hq]
      exact List.mem_append_left _ (hkept.2 c hc he e hst (by omega) hce)

end Arroba.Fire

namespace Arroba.Store

open Arroba.Tree

section
variable {C R : Type} [DecidableEq C] {L : Lib C R} {Z : Nat} {be : Backend} {al : Allow} {u x w : World C R}
  {cfg : Fire.Cfg} {p : Nat} {s : Fire.State}

theorem map_ascending {a : List Nat} {b : List Nat} (ha : a.Pairwise (· < ·)) (hb : b.Pairwise (· < ·))
    (h : ∀ n, n ∈ a ↔ n ∈ b) : a = b := by
  have hna : a.Nodup := ha.imp fun hlt he => by subst he; exact Nat.lt_irrefl _ hlt
  have hnb : b.Nodup := hb.imp fun hlt he => by subst he; exact Nat.lt_irrefl _ hlt
  refine List.Perm.eq_of_pairwise ?_ ha hb ((List.perm_ext_iff_of_nodup hna hnb).2 h)
  intro x y _ _ h1 h2
  exact absurd h1 (Nat.lt_asymm h2)

/-- A consumer whose mirror was right at some time (`u`), and that has since applied the messages for exactly the events
that were in the log at some later time (`x`). -/
theorem mirror_numbers (hL : L.OK Z) (ht : ¬ al.torn) (hp : ¬ al.partway) (hra : ¬ al.raising) (hi : ¬ al.imports)
    (hplain : PlainRecords L) (hu : Reach L be al u) (hux : Relation.ReflTransGen (Step L be al) u x)
    (hxw : Relation.ReflTransGen (Step L be al) x w) {m : Mirror R} (hmir : Mirrors L be u m) {nums : List Nat}
    (hs : nums.Pairwise (· < ·)) (hn : ∀ n, n ∈ nums ↔ u.last < n ∧ ∃ b, Logged L x 0 none b ∧ b.seq = n)
    {msgs : List (Message C R)} (hmsgs : List.Forall₂ (MadeFor L be al w) nums msgs) :
    Mirrors L be x (msgs.foldl Mirror.next m) := by
  obtain ⟨hrx, hlu, hgu, hlink⟩ := linked_reach hL hp hra hi hu hux
  obtain ⟨hrw, hlx, hgx, hnew⟩ := later_seq hL hi hrx hxw
  have hwu := (hu.inv hL ht).1
  have hwx := (hrx.inv hL ht).1
  have hww := (hrw.inv hL ht).1
  obtain ⟨_, ms, h1, h2, _⟩ := C30_log_partial hL hp hplain hrx (fun h => absurd h hi)
    (C30_memory_blocks hrx (L := L) (u.last + 1) none)
  have hnum : ms.map (·.seq) = nums := by
    refine map_ascending (List.pairwise_map.2 h1) hs fun n => ?_
    rw [hn, List.mem_map]
    constructor
    · rintro ⟨b, hb, rfl⟩
      obtain ⟨g1, g2, g3, g4⟩ := (h2 b).1 hb
      exact ⟨by omega, b, ⟨g1, g2, Nat.zero_le _, g4⟩, rfl⟩
    · rintro ⟨g, b, hb, rfl⟩
      exact ⟨b, (h2 b).2 ⟨hb.1, hb.2.1, by omega, hb.2.2.2⟩, rfl⟩
  have hann : List.Forall₂ (Announces L w) ms msgs := by
    have hlogs : ∀ b ∈ ms, Logged L w 0 none b := fun b hb => by
      obtain ⟨g1, g2, _, g4⟩ := (h2 b).1 hb
      exact ⟨hgx _ _ g1, g2, Nat.zero_le _, g4⟩
    have key : ∀ {es : List Nat} {msgs : List (Message C R)}
        (_ : List.Forall₂ (MadeFor L be al w) es msgs) {ms : List (Block C R)},
        ms.map (·.seq) = es → (∀ b ∈ ms, Logged L w 0 none b) → List.Forall₂ (Announces L w) ms msgs := by
      intro es msgs hf
      induction hf with
      | nil => intro ms h _; rw [List.map_eq_nil_iff] at h; subst h; exact .nil
      | @cons e msg es msgs hd _ ih =>
        intro ms h hin
        cases ms with
        | nil => cases h
        | cons b ms =>
          rw [List.map_cons, List.cons.injEq] at h
          exact .cons (hd.announces hL ht hp hi hplain (hin b (.head _)) h.1)
            (ih h.2 fun b hb => hin b (.tail _ hb))
    exact key hmsgs hnum hlogs
  have hl' := hlink (ms.filter Block.isCommit) (h1.filter _) (by
    intro b
    rw [List.mem_filter, h2 b]
    unfold Logged
    constructor
    · rintro ⟨⟨g1, _, g3, _⟩, g5⟩
      exact ⟨g1, g5, by omega⟩
    · rintro ⟨g1, g2, g3⟩
      exact ⟨⟨g1, .inl (Block.isCommit_iff.1 g2), by omega, .inl rfl⟩, g2⟩)
  have hs' : MirrorsHeads L w (headOf L be u) m :=
    fun d hd m => (hmir d hd m).trans (shows_head hL hwu.core hww.core (hgu.trans hgx) hd m)
  have := mirror_linked hL hww.core hann (fun b hb => hgx _ _ ((h2 b).1 hb).1) hl' hs'
  exact fun d hd m => (this d hd m).trans (shows_head hL hwx.core hww.core hgx hd m).symm

/-- **C66, partial.** For every execution of the server and the firehose together (`w`, `s`), in either backend: let a
consumer's mirror be right at some time (`u`), and let it connect with the next sequence number, or an earlier one, as
its cursor. Whenever it has yielded everything that was in the log at some later time (`x`), and nothing newer, then
after applying the messages from the next sequence number on its mirror is right for that later time: it has exactly the
repos of the server, with exactly their records. The messages may have been made at any time.

Partial: excludes what `C66_log_partial` and `C60_mirror_partial` exclude, and requests that are served at the same time
(`C66_concurrent_false`). -/
theorem C66_mirror_partial (hL : L.OK Z) (ht : ¬ al.torn) (hp : ¬ al.partway) (hra : ¬ al.raising) (hi : ¬ al.imports)
    (hplain : PlainRecords L) (h : Joint L be al cfg p w s) (hu : Reach L be al u)
    (hux : Relation.ReflTransGen (Step L be al) u x) (hxw : Relation.ReflTransGen (Step L be al) x w)
    {m : Mirror R} (hmir : Mirrors L be u m) {i c : Nat} (hl : s.loc i = .live) (hc : s.cursor i = some c)
    (hcu : c ≤ u.last + 1) (he : s.unevicted i = true) (hm : s.unmerged i = true ∨ s.front i ≤ c)
    (hq : s.col.locked = false) (hk : ∀ sc e, s.col ≠ .taken sc e)
    (hcol : ∀ b, Logged L x 0 none b → b.seq ≤ s.lastSeq)
    (hout : ∀ e ∈ s.out i, e.seq ≤ x.last) (hqueue : ∀ e ∈ s.queue i, x.last < e.seq)
    {msgs : List (Message C R)}
    (hmsgs : List.Forall₂ (fun e msg => MadeFor L be al w e.seq msg)
      ((s.out i).filter fun e => decide (u.last < e.seq)) msgs) :
    Mirrors L be x (msgs.foldl Mirror.next m) := by
  have hj := h.ok hL hi
  obtain ⟨hrx, hlu, hgu, _⟩ := linked_reach hL hp hra hi hu hux
  obtain ⟨hrw, hlx, hgx, hnew⟩ := later_seq hL hi hrx hxw
  have hwx := (hrx.inv hL ht).1
  obtain ⟨hsort, hlog⟩ := Fire.C66_log_partial hj.order hl hc he hm hq hk
  refine mirror_numbers hL ht hp hra hi hplain hu hux hxw hmir
    (nums := ((s.out i).filter fun e => decide (u.last < e.seq)).map (·.seq))
    (List.pairwise_map.2 ((List.pairwise_append.1 hsort).1.filter _)) (fun n => ?_) ?_
  · simp only [List.mem_map, List.mem_filter, decide_eq_true_eq]
    constructor
    · rintro ⟨e, ⟨g1, g2⟩, rfl⟩
      have hst := ((hlog e (by omega)).1 (List.mem_append_left _ g1)).1
      obtain ⟨b, k1, k2⟩ := hj.logged e hst
      refine ⟨g2, b, ⟨?_, k1.2⟩, k2⟩
      rcases hnew _ _ k1.1 with k | k
      · exact k
      · have := hout e g1
        omega
    · rintro ⟨g, b, hlb, rfl⟩
      have hle := hcol b hlb
      rcases hj.todo b (hlb.grow hgx) with ⟨e, he', hes⟩ | ⟨g, _⟩
      · rcases List.mem_append.1 ((hlog e (by omega)).2 ⟨he', by omega⟩) with k | k
        · exact ⟨e, ⟨k, by omega⟩, hes⟩
        · have := hqueue e k
          have := hwx.core.blocks.seqs _ _ hlb.1
          omega
      · omega
  · exact List.forall₂_map_left_iff.2 hmsgs

/-- There is a message for everything in the log. -/
theorem logged_message (hL : L.OK Z) (ht : ¬ al.torn) (hp : ¬ al.partway) (hi : ¬ al.imports) (hplain : PlainRecords L)
    (hr : Reach L be al w) {b : Block C R} (k1 : Logged L w 0 none b) : ∃ msg, MadeFor L be al w b.seq msg := by
  have hqq := C30_memory_blocks hr (L := L) 0 none
  obtain ⟨ms, _, g2, g3⟩ := C57_messages_partial hL ht hp hplain hr (fun _ _ h => h) hr (fun h => absurd h hi) hqq
  have : ∀ {ms : List (Block C R)} {ss : List (Sent C R)} {P : Block C R → Sent C R → Prop}, List.Forall₂ P ms ss →
      b ∈ ms → ∃ y ∈ ss, P b y := by
    intro ms ss P hf
    induction hf with
    | nil => intro h; cases h
    | cons h1 _ ih =>
      intro hb
      rcases List.mem_cons.1 hb with rfl | hb
      · exact ⟨_, .head _, h1⟩
      · obtain ⟨y, hy, h⟩ := ih hb
        exact ⟨y, .tail _ hy, h⟩
  obtain ⟨y, hy, msg, y1, y2⟩ := this g3 ((g2 b).2 k1)
  refine ⟨msg, w, w, 0, _, y, hr, .refl, hr, fun _ _ h => h, hqq, hy, y1, ?_⟩
  rw [y2.seq hL hr k1.1]

/-- **C66, messages.** For every event that a live subscriber has yielded from its cursor on there is a message that the
server can have made. -/
theorem C66_messages_partial (hL : L.OK Z) (ht : ¬ al.torn) (hp : ¬ al.partway) (hi : ¬ al.imports)
    (hplain : PlainRecords L) (h : Joint L be al cfg p w s) {i c : Nat} (hl : s.loc i = .live) (hc : s.cursor i = some c)
    (he : s.unevicted i = true) (hm : s.unmerged i = true ∨ s.front i ≤ c) (hq : s.col.locked = false)
    (hk : ∀ sc e, s.col ≠ .taken sc e) {e : Fire.Ev} (hmem : e ∈ s.out i) (hce : c ≤ e.seq) :
    ∃ msg, MadeFor L be al w e.seq msg := by
  have hj := h.ok hL hi
  have hst := (((Fire.C66_log_partial hj.order hl hc he hm hq hk).2 e hce).1 (List.mem_append_left _ hmem)).1
  obtain ⟨b, k1, k2⟩ := hj.logged e hst
  rw [← k2]
  exact logged_message hL ht hp hi hplain hj.reach k1

end

/-! ### A case that meets the hypotheses -/

section
variable {L : Lib SC Nat} {be : Backend} {al : Allow} {cfg : Fire.Cfg} {p : Nat} {w : ExWorld} {s s' : Fire.State}

/-- Whether the step is one of the collector's or a subscriber's, and of those that `Joint` allows. -/
def fireOK (s : Fire.State) : Fire.Act → Bool
  | .store _ => false
  | .crash _ => false
  | .read e => match s.col with
    | .scanning sc => s.stored.contains e && s.stored.all fun m => decide (m.seq < sc.pos) || decide (e.seq ≤ m.seq)
    | _ => true
  | _ => true

/-- Several such steps. -/
def fireRun (cfg : Fire.Cfg) (s : Fire.State) : List Fire.Act → Option Fire.State
  | [] => some s
  | a :: as => if fireOK s a then (Fire.act cfg false s a).bind fun s => fireRun cfg s as else none

theorem Joint.run (h : Joint L be al cfg p w s) : ∀ {as : List Fire.Act}, fireRun cfg s as = some s' →
    Joint L be al cfg p w s' := by
  intro as
  induction as generalizing s with
  | nil => intro hs; cases hs; exact h
  | cons a as ih =>
    intro hs
    unfold fireRun at hs
    split at hs
    · rename_i hok
      obtain ⟨s1, h1, h2⟩ := Option.bind_eq_some_iff.1 hs
      refine ih (h.fire a h1 ?_ ?_ ?_) h2
      · rintro e rfl; cases hok
      · rintro e sc rfl hc
        unfold fireOK at hok
        simp only [hc, Bool.and_eq_true, List.all_eq_true, Bool.or_eq_true, decide_eq_true_eq] at hok
        refine ⟨s.stored, List.suffix_refl _, List.contains_iff_mem.1 hok.1, fun m hm hle => ?_⟩
        rcases hok.2 m hm with g | g
        · omega
        · exact g
      · rintro now rfl; cases hok
    · cases hs

/-- The numbers of the log. -/
def logNumbers (w : ExWorld) : List Nat := ((w.blocks.map (·.2)).filter Block.isLog).map (·.seq)

theorem mem_logNumbers (hw : Reach L be al w) (n : Nat) :
    n ∈ logNumbers w ↔ ∃ b, Logged L w 0 none b ∧ b.seq = n := by
  have ha := hw.addressed
  have hk := hw.keys_nodup
  unfold logNumbers
  simp only [List.mem_map, List.mem_filter]
  constructor
  · rintro ⟨b, ⟨⟨x, hx, rfl⟩, h2⟩, rfl⟩
    have h3 : dictGet w.blocks x.1 = some x.2 := mem_dictGet hk hx
    refine ⟨x.2, ⟨by unfold World.read; rw [ha _ _ h3]; exact h3, ?_, Nat.zero_le _, .inl rfl⟩, rfl⟩
    have := (isLog_marker x.2).1 h2
    unfold Block.marker at this
    cases hv : x.2.val <;> rw [hv] at this <;> simp_all
  · rintro ⟨b, ⟨h1, h2, _⟩, rfl⟩
    refine ⟨b, ⟨⟨(L.hash b.val, b), dictGet_mem h1, rfl⟩, ?_⟩, rfl⟩
    unfold Block.isLog
    rcases h2 with ⟨co, h2⟩ | ⟨e, h2⟩ <;> rw [h2]

/-- The next event can be read. -/
theorem Joint.shows (h : Joint L be al cfg p w s) (hw : Reach L be al w) (n : Nat) (h1 : n ∈ logNumbers w)
    (h2 : ∀ k ∈ logNumbers w, k < n → k ∈ s.stored.map (·.seq))
    (hs : Fire.act cfg false s (.store (Fire.ev n)) = some s') : Joint L be al cfg p w s' := by
  obtain ⟨b, g1, g2⟩ := (mem_logNumbers hw n).1 h1
  refine h.show (Fire.ev n) g1 g2 (fun b' hb' hlt => ?_) hs
  obtain ⟨e, he, hes⟩ := List.mem_map.1 (h2 b'.seq ((mem_logNumbers hw _).2 ⟨b', hb', rfl⟩) hlt)
  exact ⟨e, he, hes⟩

end

/-- The collector starts when there are two repos; it has preloaded the last four of eight events. -/
def exJoint0 : Fire.State := .init 10 (Fire.evs [8, 7, 6, 5, 4, 3, 2, 1]) (Fire.evs [5, 6, 7, 8]) 8 0

/-- A consumer connects with cursor 1. -/
def exJoin : List Fire.Act :=
  [.call 0 (some 1), .begin 0] ++ Fire.load 0 1 ++ Fire.load 0 2 ++ Fire.load 0 3 ++ Fire.load 0 4 ++ Fire.load 0 5 ++
    [.replay 0, .replay 0, .replay 0, .replay 0, .goLive 0]

/-- The collector emits event `n`, which can be read since a moment ago, to one subscriber, which yields it. -/
def exEmit (n : Nat) : List Fire.Act :=
  [.wake, .read (Fire.ev n), .decide 0, .append, .give, .give, .readEnd, .pull 0]

/-- The consumer connects; then two commits are made, and it gets both. -/
def exJoint : Option Fire.State := do
  let s ← fireRun Fire.exCfg exJoint0 exJoin
  let s ← Fire.act Fire.exCfg false s (.store (Fire.ev 9))
  let s ← fireRun Fire.exCfg s (exEmit 9)
  let s ← Fire.act Fire.exCfg false s (.store (Fire.ev 10))
  fireRun Fire.exCfg s (exEmit 10)

theorem exW0_step (be : Backend) : Step exL be .orderly (exW0 be) (exW1 be) := by
  refine .commit 0 exWrites lucky false ⟨.inr (.of_ok ?_), ?_, ?_, .inr rfl⟩
  · cases be <;> decide +kernel
  · right; decide
  · right; cases be <;> decide +kernel

theorem exW1_step (be : Backend) : Step exL be .orderly (exW1 be) (exW2 be) := by
  refine .commit 0 exWrites2 lucky false ⟨.inr (.of_ok ?_), ?_, ?_, .inr rfl⟩
  · cases be <;> decide +kernel
  · right; decide
  · right; cases be <;> decide +kernel

theorem exJoint0_joint (be : Backend) : Joint exL be .orderly Fire.exCfg 5 (exW0 be) exJoint0 := by
  have hlast : (exW0 be).last = 8 := by cases be <;> decide +kernel
  have := Joint.start (L := exL) (be := be) (al := .orderly) (cfg := Fire.exCfg) (p := 5)
    (stored := Fire.evs [8, 7, 6, 5, 4, 3, 2, 1]) (events := Fire.evs [5, 6, 7, 8]) 0 (exW0_reach be)
    (Fire.Starts.evs (by decide) (by decide) (by decide) (by decide) (by decide)) (by decide)
    (by rw [hlast]; decide) (by
      intro e
      constructor
      · intro h
        revert e
        decide
      · rintro ⟨h1, h2⟩
        revert e
        decide) (by decide) (by
      intro n
      rw [← mem_logNumbers (exW0_reach be) n,
        show logNumbers (exW0 be) = [1, 2, 3, 4, 5, 6, 7, 8] by cases be <;> decide +kernel]
      simp [Fire.evs, Fire.ev]
      omega)
  rw [hlast] at this
  exact this

theorem exJoint_joint (be : Backend) {s : Fire.State} (h : exJoint = some s) :
    Joint exL be .orderly Fire.exCfg 5 (exW2 be) s := by
  unfold exJoint at h
  obtain ⟨s1, h1, h⟩ := Option.bind_eq_some_iff.1 h
  obtain ⟨s2, h2, h⟩ := Option.bind_eq_some_iff.1 h
  obtain ⟨s3, h3, h⟩ := Option.bind_eq_some_iff.1 h
  obtain ⟨s4, h4, h5⟩ := Option.bind_eq_some_iff.1 h
  have hn1 : logNumbers (exW1 be) = [1, 2, 3, 4, 5, 6, 7, 8, 9] := by cases be <;> decide +kernel
  have hn2 : logNumbers (exW2 be) = [1, 2, 3, 4, 5, 6, 7, 8, 9, 10] := by cases be <;> decide +kernel
  have hst : ((fireRun Fire.exCfg exJoint0 exJoin).map fun s => s.stored.map (·.seq)) = some [8, 7, 6, 5, 4, 3, 2, 1] ∧
      (((fireRun Fire.exCfg exJoint0 exJoin).bind fun s => (Fire.act Fire.exCfg false s (.store (Fire.ev 9))).bind fun s =>
        fireRun Fire.exCfg s (exEmit 9)).map fun s => s.stored.map (·.seq)) = some [9, 8, 7, 6, 5, 4, 3, 2, 1] := by
    decide +kernel
  obtain ⟨k1, k3⟩ := hst
  rw [h1] at k1 k3
  rw [Option.bind_some, h2, Option.bind_some, h3] at k3
  have k1 : s1.stored.map (·.seq) = _ := Option.some.inj k1
  have k3 : s3.stored.map (·.seq) = _ := Option.some.inj k3
  have j1 := (((exJoint0_joint be).run h1).serve (exW0_step be)).shows (exW1_reach be) 9 (by rw [hn1]; decide) (by rw [hn1, k1]; decide) h2
  exact (((j1.run h3).serve (exW1_step be)).shows (exW2_reach be) 10 (by rw [hn2]; decide) (by rw [hn2, k3]; decide) h4).run h5

/-- The mirror of that consumer, which knew nothing when it connected, ends up right, whichever messages it was sent. -/
example (be : Backend) : ∃ s, exJoint = some s ∧ s.seqs 0 = [1, 2, 3, 4, 5, 6, 7, 8, 9, 10] ∧
    ∀ msgs, List.Forall₂ (fun e msg => MadeFor exL be .orderly (exW2 be) e.seq msg) (s.out 0) msgs →
      Mirrors exL be (exW2 be) (msgs.foldl Mirror.next fun _ => none) := by
  have hsome : exJoint.isSome = true := by decide +kernel
  obtain ⟨s, hs⟩ := Option.isSome_iff_exists.1 hsome
  have hf : (exJoint.map fun s => (s.seqs 0, decide (s.loc 0 = .live), s.cursor 0, s.unevicted 0)) =
        some ([1, 2, 3, 4, 5, 6, 7, 8, 9, 10], true, some 1, true) ∧
      (exJoint.map fun s => (s.unmerged 0, decide (s.col = .waiting), s.lastSeq, s.queue 0)) =
        some (true, true, 10, []) := by decide +kernel
  rw [hs] at hf
  simp only [Option.map_some, Option.some.injEq, Prod.mk.injEq, decide_eq_true_eq] at hf
  obtain ⟨⟨a1, a2, a3, a4⟩, a5, a6, a7, a8⟩ := hf
  refine ⟨s, hs, a1, fun msgs hmsgs => ?_⟩
  have hlast : (exW2 be).last = 10 := by cases be <;> decide +kernel
  have hr := exW2_reach be
  have huw : Relation.ReflTransGen (Step exL be .orderly) .empty (exW2 be) := by
    clear hmsgs
    generalize exW2 be = w at hr
    induction hr with
    | empty => exact .refl
    | step _ h' ih => exact .tail ih h'
  have hout : ∀ e ∈ s.out 0, 0 < e.seq ∧ e.seq ≤ 10 := by
    intro e he
    have : e.seq ∈ s.seqs 0 := List.mem_map.2 ⟨e, he, rfl⟩
    rw [a1] at this
    revert this
    generalize e.seq = n
    revert n
    decide
  refine C66_mirror_partial exL_ok (fun h => h) (fun h => h) (fun h => h) (fun h => h) (fun _ _ => ⟨rfl, rfl⟩)
    (exJoint_joint be hs) .empty huw .refl ?_ a2 a3 (by decide) a4 (.inl a5) (by rw [a6]; rfl) (by rw [a6]; simp) ?_ ?_ ?_ ?_
  · intro d hd m
    constructor
    · intro h; cases h
    · rintro ⟨w1, s, o, h1, _⟩
      unfold loadRepo at h1
      split at h1
      · cases h1
      · cases be <;> cases h1
  · intro b hb
    rw [a7]
    exact (hb.le_last exL_ok hr).trans hlast.le
  · intro e he
    rw [hlast]
    exact (hout e he).2
  · rw [a8]; intro e he; cases he
  · have hz : (World.empty : ExWorld).last = 0 := by decide
    have : ((s.out 0).filter fun e => decide ((World.empty : ExWorld).last < e.seq)) = s.out 0 := by
      rw [hz]
      exact List.filter_eq_self.2 fun e he => decide_eq_true (hout e he).1
    rw [this]
    exact hmsgs

/-! ### Requests at the same time -/

/-- Two calls, both of which update the same record. -/
def exJobs (i : Nat) : Job Nat :=
  if i = 0 then ⟨exDid, [wr .update "a" (some 5)]⟩ else ⟨exDid, [wr .update "a" (some 4)]⟩

/-- Call 0 takes its sequence number; then call 1 does all its work, and call 0 goes on. -/
def exSwap : Option (CState SC Nat) :=
  (CState.init (exW1 .datastore)).run exL exJobs (steps 0 1 ++ steps 1 7 ++ steps 0 6)

/-- All blocks from `start` on, by sequence number. -/
def blocksBySeq (w : ExWorld) (start : Nat) : List (Block SC Nat) :=
  (List.range 16).flatMap fun n => (w.blocks.map (·.2)).filter fun b => decide (start ≤ b.seq) && decide (b.seq = n)

/-- The messages for all of them. -/
def messagesBySeq (w : ExWorld) (start : Nat) : List (Message SC Nat) :=
  ((readEvents exL w (blocksBySeq w start)).1.mapM fun e => (processEvent exL w none e).toOption).getD []

/-- That is what Datastore may return, and there is a message for everything. -/
def checkLog (w : ExWorld) (start : Nat) : Bool :=
  decide ((w.blocks.map (·.1)).Nodup) && w.blocks.all (fun x => decide (exL.hash x.2.val = x.1)) &&
  decide ((blocksBySeq w start).Pairwise (fun a b => a.seq ≤ b.seq)) &&
  decide ((blocksBySeq w start).Perm ((w.blocks.map (·.2)).filter (fun b => decide (start ≤ b.seq) && inRepo none b))) &&
  ((readEvents exL w (blocksBySeq w start)).1.mapM fun e => (processEvent exL w none e).toOption).isSome &&
  (readEvents exL w (blocksBySeq w start)).2.isNone

theorem checkLog_spec {w : ExWorld} {start : Nat} (h : checkLog w start = true) :
    Query exL w start none (blocksBySeq w start) ∧ (readEvents exL w (blocksBySeq w start)).2 = none ∧
    List.Forall₂ (fun e msg => processEvent exL w none e = .ok msg) (readEvents exL w (blocksBySeq w start)).1
      (messagesBySeq w start) := by
  unfold checkLog at h
  simp only [Bool.and_eq_true, decide_eq_true_eq, List.all_eq_true, Option.isNone_iff_eq_none] at h
  obtain ⟨⟨⟨⟨⟨b1, b2⟩, b3⟩, b4⟩, b5⟩, b6⟩ := h
  refine ⟨Query.of_blocks b1 (fun c b h => b2 _ (dictGet_mem h)) b3 b4, b6, ?_⟩
  unfold messagesBySeq
  obtain ⟨ms, hms⟩ := Option.isSome_iff_exists.1 b5
  rw [hms, Option.getD_some]
  have key : ∀ {l : List (Sent SC Nat)} {ms : List (Message SC Nat)},
      (l.mapM fun e => (processEvent exL w none e).toOption) = some ms →
      List.Forall₂ (fun e msg => processEvent exL w none e = .ok msg) l ms := by
    intro l
    induction l with
    | nil => intro ms h; cases h; exact .nil
    | cons e l ih =>
      intro ms h
      rw [List.mapM_cons] at h
      obtain ⟨x, hx, h⟩ := Option.bind_eq_some_iff.1 h
      obtain ⟨xs, hxs, h⟩ := Option.bind_eq_some_iff.1 h
      cases h
      refine .cons ?_ (ih hxs)
      cases hp : processEvent exL w none e with
      | ok m => rw [hp] at hx; cases hx; rfl
      | error e => rw [hp] at hx; cases hx
  exact key hms

/-- **C66 is false** of commits to the same repo that are made at the same time: nothing fails, both calls return, and
all is in the log. But the sequence numbers are not in the order of the commits (`C58_order_false`), so a consumer that
gets all messages in order ends up with another record than the server. -/
theorem C66_concurrent_false : ∃ s, exSwap = some s ∧ Query exL s.w 1 none (blocksBySeq s.w 1) ∧
    (readEvents exL s.w (blocksBySeq s.w 1)).2 = none ∧
    List.Forall₂ (fun e msg => processEvent exL s.w none e = .ok msg) (readEvents exL s.w (blocksBySeq s.w 1)).1
      (messagesBySeq s.w 1) ∧
    readRecord s.w .datastore exDid "a" = some (some (.record 5)) ∧
    (((messagesBySeq s.w 1).foldl Mirror.next fun _ => none) exDid).map (fun m => m (key "coll/a")) = some (some 4) := by
  have h1 : (exSwap.map fun s => decide (readRecord s.w .datastore exDid "a" = some (some (.record 5))) &&
      decide ((((messagesBySeq s.w 1).foldl Mirror.next fun _ => none) exDid).map (fun m => m (key "coll/a")) =
        some (some 4))) = some true := by decide +kernel
  have h2 : (exSwap.map fun s => checkLog s.w 1) = some true := by decide +kernel
  cases hs : exSwap with
  | none => rw [hs] at h1; cases h1
  | some s =>
    rw [hs] at h1 h2
    simp only [Option.map_some, Option.some.injEq, Bool.and_eq_true, decide_eq_true_eq] at h1 h2
    obtain ⟨k1, k2, k3⟩ := checkLog_spec h2
    exact ⟨s, rfl, k1, k2, k3, h1⟩

end Arroba.Store

namespace Arroba.Fire

/-- The collector starts when only event 1 is in the log, but the last number allocated is far beyond it, so it preloads
nothing. A subscriber with cursor 1 connects, and has not copied the rollback window when event 101 is emitted. -/
def exUnloaded : List Act :=
  [.call 0 (some 1), .begin 0] ++ emit 101 0 1 ++ [.copyRollback 0, .replay 0, .goLive 0]

/-- **C66 is false** if there are events, but none of them was preloaded: that subscriber never gets event 1, although
the log is written in order and nothing is evicted. -/
theorem C66_window_false : ∃ s, Reach exCfg false s ∧ s.loc 0 = .live ∧ s.cursor 0 = some 1 ∧ s.unevicted 0 = true ∧
    s.unmerged 0 = true ∧ s.stored.map (·.seq) = [101, 1] ∧ s.seqs 0 = [101] ∧ s.queue 0 = [] := by
  have h : ((acts exCfg false (.init 10 (evs [1]) [] 100 0) exUnloaded).map (fun s =>
        (s.loc 0, s.cursor 0, s.unevicted 0, s.unmerged 0)) = some (.live, some 1, true, true)) ∧
      (acts exCfg false (.init 10 (evs [1]) [] 100 0) exUnloaded).map (fun s =>
        (s.stored.map (·.seq), s.seqs 0, s.queue 0)) = some ([101, 1], [101], []) := by decide +kernel
  obtain ⟨s, h1, h2⟩ := Option.map_eq_some_iff.1 h.1
  have h3 := h.2
  rw [h1] at h3
  simp only [Option.map_some, Option.some.injEq, Prod.mk.injEq] at h2 h3
  obtain ⟨a1, a2, a3, a4⟩ := h2
  obtain ⟨a5, a6, a7⟩ := h3
  exact ⟨s, (Reach.init 0 (Starts.evs (stored := [1]) (events := []) (by decide) (by decide) (by decide)
    (by decide) (by decide))).acts h1, a1, a2, a3, a4, a5, a6, a7⟩

end Arroba.Fire
