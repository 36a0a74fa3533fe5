import Verif.Firehose.SessionProofs
import Verif.Firehose.Preload
import Verif.Props.C39
import Verif.Props.C72

/-!
# C74: a consumer that connects again misses nothing

`Consumed` (Firehose/Sessions.lean) is a consumer of the firehose that is cut off and connects again, as often as it
likes, also after the server was restarted. `preload` (Firehose/Preload.lean) is how the collector starts.
-/

namespace Arroba.Fire

variable {cfg : Cfg} {p : Nat} {s : State}

/-- **C74, one connection, partial.** If the log is written in order, then at any time, wherever the subscription is, what a
subscriber with cursor `c` has yielded is in order, without repetitions, in the log, and without gaps from `c` on.

Partial: see `C74_log_partial`. -/
theorem C74_session_partial (h : InOrder cfg p s) {i c : Nat} (hc : s.cursor i = some c) (hl : s.loc i ≠ .dead)
    (hu : s.Undisturbed i c) : (s.out i).Pairwise (fun a b => a.seq < b.seq) ∧ (∀ x ∈ s.out i, x ∈ s.stored) ∧
    ∀ x ∈ s.out i, ∀ e ∈ s.stored, c ≤ e.seq → e.seq ≤ x.seq → e ∈ s.out i := h.sofar hc hl hu

end Arroba.Fire

namespace Arroba.Store

open Arroba.Tree

section
variable {C R : Type} [DecidableEq C] {L : Lib C R} {Z : Nat} {be : Backend} {al : Allow} {u x w w' : World C R}
  {cfg : Fire.Cfg} {p : Nat} {s : Fire.State} {c : Nat} {got : List (Nat × Message C R)}

/-- **C74, partial.** For every execution of the server, in either backend, and every consumer that connects as often as it
likes and is cut off at any time: what it has is, in order and once, exactly the log from `c` on up to some number.

Partial: excludes connections for which events were evicted from the rollback window, or merged into it, while they were
connecting (C38, C36), and what `Joint` excludes: requests at the same time (`C74_inflight_false`), exceptions in the middle of
handing out an event, and collectors that start without an event although there are some (`C66_window_false`); and imports
(C46). -/
theorem C74_log_partial (hL : L.OK Z) (hi : ¬ al.imports) (h : Consumed L be al c w got) :
    (got.map (·.1)).Pairwise (· < ·) ∧
    ∀ n, n ∈ got.map (·.1) ↔ (∃ b, Logged L w 0 none b ∧ b.seq = n) ∧ c ≤ n ∧ n < Fire.nextAfter c (got.map (·.1)) :=
  ⟨(h.upto hL hi).2.1.sorted, (h.upto hL hi).2.1.mem⟩

/-- **C74, up to date, partial.** If the last connection is live and its queue is empty, the consumer has everything from `c`
on that the collector has come to. -/
theorem C74_complete_partial (hL : L.OK Z) (hi : ¬ al.imports) (h : Consumed L be al c w got)
    (hw : Relation.ReflTransGen (Step L be al) w w') (hj : Joint L be al cfg p w' s) {i cur : Nat}
    (hcur : s.cursor i = some cur) (hc : cur ≤ Fire.nextAfter c (got.map (·.1))) (hl : s.loc i = .live)
    (hu : s.Undisturbed i cur) {sent : List (Nat × Message C R)}
    (hs : sent.map (·.1) = ((s.out i).map (·.seq)).filter fun n => decide (Fire.nextAfter c (got.map (·.1)) ≤ n))
    (hm : ∀ x ∈ sent, MadeFor L be al w' x.1 x.2) (hq : s.queue i = []) (hlk : s.col.locked = false)
    (hk : ∀ sc e, s.col ≠ .taken sc e) : Consumed L be al c w' (got ++ sent) ∧
    ∀ b, Logged L w' 0 none b → c ≤ b.seq → b.seq ≤ s.lastSeq → b.seq ∈ (got ++ sent).map (·.1) := by
  have h' : Consumed L be al c w' (got ++ sent) := .session h hw hj hcur hc (by rw [hl]; simp) hu hs hm
  refine ⟨h', fun b hb hcb hle => ?_⟩
  have hok := hj.ok hL hi
  unfold Fire.State.Undisturbed at hu
  rw [hl] at hu
  obtain ⟨_, hlog⟩ := Fire.C66_log_partial hok.order hl hcur hu.1 hu.2 hlk hk
  obtain ⟨hr, hup, _⟩ := h.upto hL hi
  obtain ⟨_, _, hg, hnew⟩ := later_seq hL hi hr hw
  rw [List.map_append, hs]
  by_cases hn : b.seq < Fire.nextAfter c (got.map (·.1))
  · refine List.mem_append_left _ ((hup.mem _).2 ⟨?_, hcb, hn⟩)
    rcases hnew _ _ hb.1 with g | g
    · exact ⟨b, ⟨g, hb.2⟩, rfl⟩
    · rcases Fire.nextAfter_cases c (got.map (·.1)) with ⟨_, g'⟩ | ⟨m, _, g1, g2⟩
      · omega
      · obtain ⟨b', hb', rfl⟩ := ((hup.mem m).1 g1).1
        have := hb'.le_last hL hr
        omega
  · refine List.mem_append_right _ (List.mem_filter.2 ⟨?_, decide_eq_true (by omega)⟩)
    rcases hok.todo b hb with ⟨e, he, hes⟩ | ⟨g, _⟩
    · have := (hlog e (by omega)).2 ⟨he, by omega⟩
      rw [hq, List.append_nil] at this
      exact List.mem_map.2 ⟨e, this, hes⟩
    · omega

/-- **C74, mirrors, partial.** Let a consumer's mirror be right at some time (`u`). Then whenever it has everything that was in
the log at some later time (`x`), and nothing newer, its mirror is right for that later time, however often it was cut
off meanwhile, and whenever the messages were made.

Partial: as `C74_log_partial` and `C66_mirror_partial`. -/
theorem C74_mirror_partial (hL : L.OK Z) (ht : ¬ al.torn) (hp : ¬ al.partway) (hra : ¬ al.raising) (hi : ¬ al.imports)
    (hplain : PlainRecords L) (hu : Reach L be al u) (hux : Relation.ReflTransGen (Step L be al) u x)
    (hxw : Relation.ReflTransGen (Step L be al) x w) {m : Mirror R} (hmir : Mirrors L be u m)
    (h : Consumed L be al (u.last + 1) w got)
    (hall : ∀ b, Logged L x 0 none b → b.seq < Fire.nextAfter (u.last + 1) (got.map (·.1)))
    (hout : ∀ n ∈ got.map (·.1), n ≤ x.last) :
    Mirrors L be x ((got.map (·.2)).foldl Mirror.next m) := by
  obtain ⟨_, hup, hmade⟩ := h.upto hL hi
  obtain ⟨hrx, _⟩ := later_seq hL hi hu hux
  obtain ⟨_, _, hgx, hnew⟩ := later_seq hL hi hrx hxw
  refine mirror_numbers hL ht hp hra hi hplain hu hux hxw hmir hup.sorted (fun n => ?_) ?_
  · rw [hup.mem]
    constructor
    · rintro ⟨⟨b, hb, rfl⟩, h2, h3⟩
      refine ⟨by omega, b, ⟨?_, hb.2⟩, rfl⟩
      rcases hnew _ _ hb.1 with g | g
      · exact g
      · have := hout b.seq ((hup.mem _).2 ⟨⟨b, hb, rfl⟩, h2, h3⟩)
        omega
    · rintro ⟨h1, b, hb, rfl⟩
      exact ⟨⟨b, hb.grow hgx, rfl⟩, by omega, hall b hb⟩
  · rw [List.forall₂_map_left_iff, List.forall₂_map_right_iff, List.forall₂_same]
    exact hmade

/-- **C74, messages, partial.** There is a message for every event in the log, so every connection can go on. -/
theorem C74_messages_partial (hL : L.OK Z) (ht : ¬ al.torn) (hp : ¬ al.partway) (hi : ¬ al.imports)
    (hplain : PlainRecords L) (h : Joint L be al cfg p w s) {i c : Nat} (hc : s.cursor i = some c)
    (hl : s.loc i ≠ .dead) (hu : s.Undisturbed i c) (n : Nat) : ∃ sent : List (Nat × Message C R),
    sent.map (·.1) = ((s.out i).map (·.seq)).filter (fun m => decide (n ≤ m)) ∧ ∀ x ∈ sent, MadeFor L be al w x.1 x.2 := by
  have hok := h.ok hL hi
  have hin : ∀ m ∈ ((s.out i).map (·.seq)).filter (fun m => decide (n ≤ m)), ∃ msg, MadeFor L be al w m msg := by
    intro m hm
    obtain ⟨e, he, rfl⟩ := List.mem_map.1 (List.mem_filter.1 hm).1
    obtain ⟨b, k1, k2⟩ := hok.logged e ((hok.order.sofar hc hl hu).2.1 e he)
    rw [← k2]
    exact logged_message hL ht hp hi hplain hok.reach k1
  generalize ((s.out i).map (·.seq)).filter (fun m => decide (n ≤ m)) = l at hin
  induction l with
  | nil => exact ⟨[], rfl, fun _ h => (nomatch h)⟩
  | cons a l ih =>
    obtain ⟨msg, hmsg⟩ := hin a (.head _)
    obtain ⟨sent, h1, h2⟩ := ih fun m hm => hin m (.tail _ hm)
    refine ⟨(a, msg) :: sent, by rw [List.map_cons, h1], fun x hx => ?_⟩
    rcases List.mem_cons.1 hx with rfl | hx
    · exact hmsg
    · exact h2 x hx

/-! ### How the collector starts -/

theorem mapM_announced {ms : List (Block C R)} {ss : List (Sent C R)} {f : Sent C R → Except Err (Message C R)}
    (h : List.Forall₂ (fun b e => ∃ msg, f e = .ok msg ∧ Announces L w b msg) ms ss) :
    ∃ msgs, ss.mapM f = .ok msgs ∧ List.Forall₂ (Announces L w) ms msgs := by
  induction h with
  | nil => exact ⟨[], rfl, .nil⟩
  | @cons b e ms ss h1 _ ih =>
    obtain ⟨msg, g1, g2⟩ := h1
    obtain ⟨msgs, g3, g4⟩ := ih
    refine ⟨msg :: msgs, ?_, .cons g2 g4⟩
    rw [List.mapM_cons, g1, g3]
    rfl

/-- **C74, the collector starts, partial.** Making the messages for the last events raises nothing. The rollback window has the
right message for each of the last ROLLBACK_WINDOW commits and events with one of the last PRELOAD_WINDOW numbers, in order, and
`last_seq` is the number of the last.

Partial: the hypotheses are those of C57; see `C74_start_false`. -/
theorem C74_start_partial (hL : L.OK Z) (ht : ¬ al.torn) (hp : ¬ al.partway) (hplain : PlainRecords L)
    (h : Reach L be al w) {pw window : Nat} {field : R → Option Nat} {q : List (Block C R)}
    (hpw : al.imports → pw ≤ w.last)
    (hq : Query L w (preloadStart pw w.last) none q) : ∃ (ms : List (Block C R)) (msgs : List (Message C R)),
    ms.Pairwise (fun a b => a.seq < b.seq) ∧ (∀ b, b ∈ ms ↔ Logged L w 0 none b ∧ w.last < b.seq + pw) ∧
    preload L w field window w.last q =
      .ok (msgs, (((ms.drop (ms.length - window)).getLast?).map (·.seq)).getD w.last) ∧
    List.Forall₂ (Announces L w) (ms.drop (ms.length - window)) msgs := by
  have hpw : al.imports → 1 ≤ preloadStart pw w.last := fun g => by
    have := hpw g
    unfold preloadStart
    omega
  obtain ⟨h1, ms, h2, h3, h4⟩ := C30_log_partial hL hp hplain h hpw hq
  have hlog : ∀ b, Logged L w (preloadStart pw w.last) none b ↔ Logged L w 0 none b ∧ w.last < b.seq + pw := fun b => by
    unfold Logged preloadStart
    constructor
    · rintro ⟨g1, g2, g3, g4⟩
      exact ⟨⟨g1, g2, by omega, g4⟩, by omega⟩
    · rintro ⟨⟨g1, g2, _, g4⟩, g3⟩
      exact ⟨g1, g2, by omega, g4⟩
  have hn : ∀ c, Sent.commit c ∈ (readEvents L w q).1 → (c.blocks.map (·.1)).Nodup := scan_nodup (by simp)
  have ha := announced hL (fun _ _ h => h) h.addressed (pc := fun e => e.prev.bind w.read)
    (fun s co x hv hx => by
      unfold Sent.prev at hx
      dsimp only at hx
      rw [hv] at hx
      exact Option.bind_eq_some_iff.1 hx) h4 (fun b hb co hv => by
      obtain ⟨g1, _, g3, _⟩ := (h3 b).1 hb
      refine Reach.told hL ht h g1 hv ?_
      by_cases hm : al.imports
      · exact (hpw hm).trans g3
      · exact Reach.native hL hm h g1) hn
  obtain ⟨all, g1, g2⟩ := mapM_announced ha
  have hlen : ms.length = all.length := g2.length_eq
  have hd : List.Forall₂ (Announces L w) (ms.drop (ms.length - window)) (all.drop (all.length - window)) := by
    rw [hlen]; exact List.forall₂_drop _ g2
  refine ⟨ms, all.drop (all.length - window), h2, fun b => (h3 b).trans (hlog b), ?_, hd⟩
  have hsub : ∀ b ∈ ms.drop (ms.length - window), Logged L w (preloadStart pw w.last) none b := fun b hb =>
    (h3 b).1 (List.mem_of_mem_drop hb)
  have hseq : ∀ {b msg}, Logged L w (preloadStart pw w.last) none b → Announces L w b msg →
      msg.curSeq field = some b.seq := by
    intro b msg hb hbm
    have := hbm.seq hL h hb.1
    unfold Message.seq at this
    unfold Message.curSeq
    cases msg <;> simp_all
  unfold preload
  have hre : readEvents L w q = ((readEvents L w q).1, none) := by rw [← h1]
  rw [hre]
  dsimp only
  rw [g1]
  show (match (all.drop (all.length - window)).head?, (all.drop (all.length - window)).getLast? with
    | some a, some b =>
      match b.curSeq field, a.curSeq field with
      | some n, some _ => Except.ok (all.drop (all.length - window), n)
      | _, _ => .error Err.key
    | _, _ => .ok (all.drop (all.length - window), w.last)) = _
  generalize all.drop (all.length - window) = rb at hd
  generalize ms.drop (ms.length - window) = mb at hd hsub
  cases hd with
  | nil => rfl
  | @cons b m mb rb hbm hrest =>
    obtain ⟨b', hb', hlast⟩ : ∃ b', (b :: mb).getLast? = some b' ∧ ∃ m', (m :: rb).getLast? = some m' ∧ Announces L w b' m' := by
      have hd := List.Forall₂.cons hbm hrest
      have hr := List.forall₂_reverse_iff.2 hd
      rw [← List.head?_reverse, ← List.head?_reverse]
      cases hrev : (b :: mb).reverse with
      | nil => simp at hrev
      | cons y ys =>
        rw [hrev] at hr
        cases hr' : (m :: rb).reverse with
        | nil => simp at hr'
        | cons z zs =>
          rw [hr'] at hr
          cases hr with
          | cons k _ => exact ⟨y, rfl, z, rfl, k⟩
    obtain ⟨m', hm', hb'm⟩ := hlast
    rw [hm', hb', List.head?_cons]
    dsimp only
    rw [hseq (hsub b' (List.mem_of_getLast? hb')) hb'm, hseq (hsub b (.head _)) hbm]
    rfl

/-- **C74, replaying, partial.** A subscriber with a cursor can replay the window that was preloaded: that raises nothing, and
yields exactly the messages from its cursor on. Partial: as `C74_start_partial`; see `C74_replay_false`. -/
theorem C74_replay_partial (hL : L.OK Z) (h : Reach L be al w) {field : R → Option Nat} {ms : List (Block C R)}
    {msgs : List (Message C R)} (hm : ∀ b ∈ ms, Logged L w 0 none b) (ha : List.Forall₂ (Announces L w) ms msgs) (c : Nat) :
    (replayWindow field c msgs).2 = none ∧
    List.Forall₂ (Announces L w) (ms.filter fun b => decide (c ≤ b.seq)) (replayWindow field c msgs).1 := by
  induction ha with
  | nil => exact ⟨rfl, .nil⟩
  | @cons b m ms msgs hbm _ ih =>
    obtain ⟨h1, h2⟩ := ih fun b hb => hm b (.tail _ hb)
    have hseq : m.curSeq field = some b.seq := by
      have := hbm.seq hL h (hm b (.head _)).1
      unfold Message.seq at this
      unfold Message.curSeq
      cases m <;> simp_all
    unfold replayWindow
    rw [hseq]
    dsimp only
    refine ⟨h1, ?_⟩
    by_cases hc : c ≤ b.seq
    · rw [if_pos hc, List.filter_cons_of_pos (by simpa using hc)]
      exact .cons hbm h2
    · rw [if_neg hc, List.filter_cons_of_neg (by simpa using hc)]
      exact h2

/-- A window with something that has no number. -/
theorem replayWindow_raises {field : R → Option Nat} {msgs : List (Message C R)} (h : ∃ m ∈ msgs, m.curSeq field = none)
    (c : Nat) : (replayWindow field c msgs).2 = some .key := by
  induction msgs with
  | nil => obtain ⟨_, h, _⟩ := h; cases h
  | cons a msgs ih =>
    unfold replayWindow
    cases ha : a.curSeq field with
    | none => rfl
    | some n =>
      obtain ⟨m, hm, hn⟩ := h
      rcases List.mem_cons.1 hm with rfl | hm
      · rw [ha] at hn; cases hn
      · exact ih ⟨m, hm, hn⟩

end

/-! ### A case that meets the hypotheses -/

/-- The consumer of C66 is cut off while it replays the window. -/
def exCut : Option Fire.State := fireRun Fire.exCfg exJoint0 (exJoin.take 13)

/-- After two commits the server is restarted. It preloads the last three events. -/
def exAgain0 : Fire.State := .init 10 (Fire.evs [10, 9, 8, 7, 6, 5, 4, 3, 2, 1]) (Fire.evs [8, 9, 10]) 10 0

/-- The consumer connects again, with the last number it has. -/
def exAgain : Option Fire.State := fireRun Fire.exCfg exAgain0
  ([.call 3 (some 5), .begin 3] ++ Fire.load 3 5 ++ Fire.load 3 6 ++ Fire.load 3 7 ++ Fire.load 3 8 ++
    [.replay 3, .replay 3, .replay 3, .goLive 3])

theorem exAgain0_joint (be : Backend) : Joint exL be .orderly Fire.exCfg 8 (exW2 be) exAgain0 := by
  have hlast : (exW2 be).last = 10 := by cases be <;> decide +kernel
  have := Joint.start (L := exL) (be := be) (al := .orderly) (cfg := Fire.exCfg) (p := 8)
    (stored := Fire.evs [10, 9, 8, 7, 6, 5, 4, 3, 2, 1]) (events := Fire.evs [8, 9, 10]) 0 (exW2_reach be)
    (Fire.Starts.evs (by decide) (by decide) (by decide) (by decide) (by decide)) (by decide)
    (by rw [hlast]; decide) (by
      intro e
      constructor
      · intro h
        revert e
        decide
      · rintro ⟨h1, h2⟩
        revert e
        decide) (by decide) (by
      intro n
      rw [← mem_logNumbers (exW2_reach be) n,
        show logNumbers (exW2 be) = [1, 2, 3, 4, 5, 6, 7, 8, 9, 10] by cases be <;> decide +kernel]
      simp [Fire.evs, Fire.ev]
      omega)
  rw [hlast] at this
  exact this

/-- It has 1 to 5 from the first connection, and ends up with everything, once, although it was sent 5 twice. The same is true
of its mirror: it is right. -/
example (be : Backend) : ∃ got : List (Nat × Message SC Nat), Consumed exL be .orderly 1 (exW2 be) got ∧
    got.map (·.1) = [1, 2, 3, 4, 5, 6, 7, 8, 9, 10] ∧
    Mirrors exL be (exW2 be) ((got.map (·.2)).foldl Mirror.next fun _ => none) := by
  have hcut : (exCut.map fun s => (s.seqs 0, s.cursor 0, decide (s.Undisturbed 0 1 ∧ s.loc 0 ≠ .dead))) =
      some ([1, 2, 3, 4, 5], some 1, true) := by decide +kernel
  have hagain : (exAgain.map fun s => (s.seqs 3, s.cursor 3, decide (s.Undisturbed 3 5 ∧ s.loc 3 ≠ .dead))) =
      some ([5, 6, 7, 8, 9, 10], some 5, true) := by decide +kernel
  obtain ⟨s1, h1, k1⟩ := Option.map_eq_some_iff.1 hcut
  obtain ⟨s2, h2, k2⟩ := Option.map_eq_some_iff.1 hagain
  simp only [Prod.mk.injEq, decide_eq_true_eq] at k1 k2
  obtain ⟨a1, a2, a3, a4⟩ := k1
  obtain ⟨b1, b2, b3, b4⟩ := k2
  have j1 := (exJoint0_joint be).run h1
  have j2 := (exAgain0_joint be).run h2
  obtain ⟨sent1, c1, c2⟩ := C74_messages_partial exL_ok (fun h => h) (fun h => h) (fun h => h) (fun _ _ => ⟨rfl, rfl⟩) j1
    a2 a4 a3 1
  obtain ⟨sent2, d1, d2⟩ := C74_messages_partial exL_ok (fun h => h) (fun h => h) (fun h => h) (fun _ _ => ⟨rfl, rfl⟩) j2
    b2 b4 b3 6
  have a1 : (s1.out 0).map (·.seq) = _ := a1
  have b1 : (s2.out 3).map (·.seq) = _ := b1
  have c1' : sent1.map (·.1) = [1, 2, 3, 4, 5] := by rw [c1, a1]; decide
  have d1' : sent2.map (·.1) = [6, 7, 8, 9, 10] := by rw [d1, b1]; decide
  have e1 : Consumed exL be .orderly 1 (exW0 be) ([] ++ sent1) :=
    .session (.none (exW0_reach be)) .refl j1 a2 (by decide) a4 a3 c1 c2
  have e2 : Consumed exL be .orderly 1 (exW2 be) (([] ++ sent1) ++ sent2) :=
    .session e1 ((Relation.ReflTransGen.single (exW0_step be)).tail (exW1_step be)) j2 b2
      (by rw [List.nil_append, c1']; decide) b4 b3 (by rw [List.nil_append, c1']; exact d1) d2
  have e3 : ((([] ++ sent1) ++ sent2 : List (Nat × Message SC Nat)).map fun x => x.1) = [1, 2, 3, 4, 5, 6, 7, 8, 9, 10] := by
    rw [List.nil_append, List.map_append, c1', d1']; rfl
  refine ⟨_, e2, e3, ?_⟩
  have hr := exW2_reach be
  have hlast : (exW2 be).last = 10 := by cases be <;> decide +kernel
  have huw : Relation.ReflTransGen (Step exL be .orderly) .empty (exW2 be) := by
    clear e2 e1 j2 d2
    generalize exW2 be = w at hr
    induction hr with
    | empty => exact .refl
    | step _ h' ih => exact .tail ih h'
  have hz : (World.empty : ExWorld).last + 1 = 1 := by decide
  refine C74_mirror_partial exL_ok (fun h => h) (fun h => h) (fun h => h) (fun h => h) (fun _ _ => ⟨rfl, rfl⟩) .empty huw
    .refl ?_ (by rw [hz]; exact e2) ?_ ?_
  · intro d hd m
    constructor
    · intro h; cases h
    · rintro ⟨w1, s, o, h1, _⟩
      unfold loadRepo at h1
      split at h1
      · cases h1
      · cases be <;> cases h1
  · intro b hb
    rw [hz, e3]
    have := hb.le_last exL_ok hr
    rw [hlast] at this
    show b.seq < 11
    omega
  · rw [e3, hlast]
    decide

/-- The collector starts on that server, with a window of four. -/
example (be : Backend) : ∃ q msgs, Query exL (exW2 be) (preloadStart 6 (exW2 be).last) none q ∧
    preload exL (exW2 be) (fun _ => none) 4 (exW2 be).last q = .ok (msgs, 10) ∧ msgs.map (·.seq) = [7, 8, 9, 10].map some := by
  have hk : (match preload exL (exW2 be) (fun _ => none) 4 (exW2 be).last (blocksBySeq (exW2 be) 5) with
      | .ok (msgs, n) => decide (n = 10 ∧ msgs.map (·.seq) = [7, 8, 9, 10].map some)
      | .error _ => false) = true := by cases be <;> decide +kernel
  have hq : checkLog (exW2 be) 5 = true := by cases be <;> decide +kernel
  refine ⟨blocksBySeq (exW2 be) 5, ?_⟩
  rw [show preloadStart 6 (exW2 be).last = 5 by cases be <;> decide +kernel]
  split at hk
  · rename_i msgs n he
    have := of_decide_eq_true hk
    rw [this.1] at he
    exact ⟨msgs, (checkLog_spec hq).1, he, this.2⟩
  · cases hk

/-! ### What is false -/

/-- **C74 is false** if a record looks like an event (C30) and has no `seq`. After a restart the record is preloaded with the
window; from then on every subscriber with a cursor, whichever, is ended by a KeyError when it replays the window. -/
theorem C74_replay_false : Reach exLE .memory .orderly exFake ∧
    ∃ q msgs, Query exLE exFake (preloadStart 4000 exFake.last) none q ∧
      preload exLE exFake (fun _ => none) 50000 exFake.last q = .ok (msgs, 5) ∧
      ∀ c, (replayWindow (fun _ => none) c msgs).2 = some .key := by
  have h : (match preload exLE exFake (fun _ => none) 50000 exFake.last (blocksFrom exFake 0) with
      | .ok (msgs, n) => decide (n = 5) && msgs.any fun m => (m.curSeq fun _ => none).isNone
      | .error _ => false) = true := by decide +kernel
  refine ⟨C30_lookalike_false.1, blocksFrom exFake 0, ?_⟩
  split at h
  · rename_i msgs n he
    rw [Bool.and_eq_true, decide_eq_true_eq, List.any_eq_true] at h
    obtain ⟨rfl, m, hm, hn⟩ := h
    refine ⟨msgs, ?_, he, fun c => replayWindow_raises ⟨m, hm, by simpa using hn⟩ c⟩
    rw [show preloadStart 4000 exFake.last = 0 by decide +kernel]
    exact Query.of_perm C30_lookalike_false.1 (by decide +kernel) (List.Perm.refl _)
  · cases h

/-- **C74 is false** if such a record is the first that is preloaded: then the collector does not start. -/
theorem C74_start_false : Reach exLE .memory .orderly exFake ∧
    ∃ q, Query exLE exFake (preloadStart 1 exFake.last) none q ∧
      preload exLE exFake (fun _ => none) 50000 exFake.last q = .error .key := by
  have h : (match preload exLE exFake (fun _ => none) 50000 exFake.last (blocksFrom exFake 5) with
      | .ok _ => false
      | .error e => decide (e = .key)) = true := by decide +kernel
  refine ⟨C30_lookalike_false.1, blocksFrom exFake 5, ?_, by
    split at h
    · cases h
    · rename_i e he
      rw [he, of_decide_eq_true h]⟩
  rw [show preloadStart 1 exFake.last = 5 by decide +kernel]
  exact Query.of_perm C30_lookalike_false.1 (by decide +kernel) (List.Perm.refl _)

end Arroba.Store

namespace Arroba.Fire

/-- **C74 is false** if a request is being served, perhaps by another process, while the collector starts: number 3 is
allocated, and its event not stored yet, when the collector preloads 1, 2 and 4. A running collector that has come to 2 would
wait for it. This one goes on after 4: event 3 is never emitted, whatever happens, although it is not lost; and a
subscriber with cursor 3 goes on with 4. -/
theorem C74_inflight_false : ∃ s, Reach exCfg false s ∧ s.stored = evs [3, 4, 2, 1] ∧ s.lost = [] ∧ s.hist = evs [1, 2, 4] ∧
    verdict exCfg (.init 10 (evs [4, 2, 1]) (evs [1, 2]) 4 0) 1 (ev 4) = .wait ∧
    (∀ as s', acts exCfg false s as = some s' → ev 3 ∉ s'.hist) ∧
    ∃ as s', acts exCfg false s as = some s' ∧ s'.loc 0 = .live ∧ s'.cursor 0 = some 3 ∧ s'.Undisturbed 0 3 ∧
      s'.seqs 0 = [4, 5] := by
  have h0 : (acts exCfg false (.init 10 (evs [4, 2, 1]) (evs [1, 2, 4]) 4 0) [.store (ev 3)]).map (fun s =>
      (decide (s.stored = evs [3, 4, 2, 1] ∧ s.lost = [] ∧ s.hist = evs [1, 2, 4]),
        decide (ev 3 ∉ s.hist ∧ (ev 3).seq ≤ s.lastSeq), s.col)) = some (true, true, .waiting) := by decide +kernel
  obtain ⟨s, h1, h2⟩ := Option.map_eq_some_iff.1 h0
  injection h2 with a1 h2
  injection h2 with a2 a3
  have a1 := of_decide_eq_true a1
  have a2 := of_decide_eq_true a2
  have hr : Reach exCfg false s := (Reach.init 0 (Starts.evs (stored := [4, 2, 1]) (events := [1, 2, 4]) (by decide)
    (by decide) (by decide) (by decide) (by decide))).acts h1
  refine ⟨s, hr, a1.1, a1.2.1, a1.2.2, by decide, fun as s' hs => C39_gone a2.1 a2.2 (by rw [a3]; simp) hs, ?_⟩
  have h3 : ((acts exCfg false (.init 10 (evs [4, 2, 1]) (evs [1, 2, 4]) 4 0) [.store (ev 3)]).bind fun s =>
      acts exCfg false s ([.call 0 (some 3), .begin 0, .copyRollback 0, .replay 0, .replay 0, .replay 0, .goLive 0] ++
        emit 5 1 1 ++ [.pull 0])).map (fun s => (s.loc 0, s.cursor 0, s.unevicted 0, s.unmerged 0, s.seqs 0)) =
      some (.live, some 3, true, true, [4, 5]) := by decide +kernel
  rw [h1, Option.bind_some] at h3
  obtain ⟨s', h4, h5⟩ := Option.map_eq_some_iff.1 h3
  simp only [Prod.mk.injEq] at h5
  refine ⟨_, s', h4, h5.1, h5.2.1, ?_, h5.2.2.2.2⟩
  unfold State.Undisturbed
  rw [h5.1]
  exact ⟨h5.2.2.1, .inl h5.2.2.2.1⟩

end Arroba.Fire
