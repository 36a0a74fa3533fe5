import Verif.Storage.UntidyProofs
import Verif.Props.C67
import Verif.Props.C75

/-!
# C76: the firehose goes on when calls run at the same time and fail

Any number of calls of `commit` run concurrently on one Datastore, as in C58 and C67. Transactions may be aborted and retried, and calls
may fail, at any time, also after they have written their blocks (which C67 excludes).
-/

namespace Arroba.Store

open Arroba.Tree

section
variable {C R : Type} [DecidableEq C] {L : Lib C R} {Z : Nat} {al : Allow} {w : World C R}
  {job : Nat → Job R} {as : List (Act C)} {s : CState C R} {W : List (Nat × CommitData C R)}

theorem last_lt_next (hL : L.OK Z) {be : Backend} (hr : Reach L be al w) : w.last < w.next := by
  have := (hr.plain hL).1.pos
  unfold World.last World.next
  omega

/-- What a stored block is. -/
theorem UInv.kinds (hL : L.OK Z) (hr : Reach L .datastore al w) (h : UInv L Z job w.next w.blocks W s) {c : C} {b : Block C R}
    (hb : s.w.read c = some b) : (dictGet w.blocks c = some b ∧ b.seq < w.next) ∨
      (w.next ≤ b.seq ∧ ∃ x ∈ W, PartOf L x.2 b) ∨
      (w.next ≤ b.seq ∧ (∃ e, b.val = .event e) ∧ ∀ x ∈ W, x.2.commit.seq ≠ b.seq) := by
  rcases h.blk c b hb with h1 | ⟨x, h1, h2⟩ | ⟨h0, _, h2, _, h4⟩
  · have := (hr.plain hL).1.core.blocks.seqs c b h1
    have := last_lt_next hL hr
    exact .inl ⟨h1, by omega⟩
  · have := (h.com x h1).1.1
    exact .inr (.inl ⟨by rw [h2.1]; exact this, x, h1, h2⟩)
  · exact .inr (.inr ⟨h0, h2, h4⟩)

/-- A stored commit with a new number was written by a call. -/
theorem UInv.caller (hL : L.OK Z) (hr : Reach L .datastore al w) (h : UInv L Z job w.next w.blocks W s) {c : C} {b : Block C R}
    {co : Commit C} (hb : s.w.read c = some b) (hv : b.val = .commit co) (hlo : w.next ≤ b.seq) : ∃ x ∈ W, b = x.2.commit := by
  rcases h.kinds hL hr hb with ⟨_, g⟩ | ⟨_, x, h1, _, g⟩ | ⟨_, ⟨e, g⟩, _⟩
  · omega
  · rcases g with ⟨r, g, _⟩ | ⟨d, g⟩ | g
    · rw [hv] at g; cases g
    · rw [hv] at g; cases g
    · exact ⟨x, h1, g⟩
  · rw [hv] at g; cases g

/-- Each attempt has its commit in the storage, maybe with what another attempt wrote beside it. -/
theorem UInv.marker (hL : L.OK Z) (hr : Reach L .datastore al w) (hc : CInv L Z job w.next s)
    (h : UInv L Z job w.next w.blocks W s) {x : Nat × CommitData C R} (hx : x ∈ W) :
    ∃ y ∈ W, s.w.read (L.hash y.2.commit.val) = some y.2.commit ∧ y.2.commit.val = x.2.commit.val ∧
      y.2.commit.seq = x.2.commit.seq := by
  obtain ⟨⟨c0, _⟩, ⟨row, m, m', co, e1, e2, e3, e4, e5, e6, e7, e8, e9⟩, _, co', e10, hlater⟩ := h.com x hx
  have hv : x.2.commit.val = .commit co := by rw [e4]
  have : co' = co := by rw [hv] at e10; cases e10; rfl
  subst this
  obtain ⟨b, hb, hbv⟩ := (e9.root hc.addr).1
  have hb' : s.w.read (L.hash (.commit co')) = some b := hb
  have hnew : w.next ≤ b.seq := by
    rcases h.kinds hL hr hb' with ⟨g, _⟩ | ⟨g, _⟩ | ⟨g, _⟩
    · exfalso
      obtain ⟨n, key, nonce, h1, h2, h3⟩ := hlater
      have hB := (hr.plain hL).1.core.blocks
      have hlt := last_lt_next hL hr
      have hle := hB.seqs _ b g
      rcases hB.commits _ b co' g hbv with g | g
      · have := intToTid_inj g.rev h2
        omega
      · rcases g.apart with g | g
        · exact g n (by omega) h2
        · exact g key nonce h3
    · exact g
    · exact g
  obtain ⟨y, hy, rfl⟩ := h.caller hL hr hb' hbv hnew
  refine ⟨y, hy, by rw [hbv]; exact hb, by rw [hbv, hv], ?_⟩
  obtain ⟨_, ⟨_, _, _, co2, _, _, _, f4, _, _, _, f8, _⟩, _⟩ := h.com y hy
  have : co2 = co' := by rw [f4] at hbv; cases hbv; rfl
  subst this
  exact intToTid_inj f8 e8

theorem UInv.commitVal (h : UInv L Z job w.next w.blocks W s) {x : Nat × CommitData C R} (hx : x ∈ W) :
    ∃ co, x.2.commit.val = .commit co ∧ co.did = (job x.1).did ∧ x.2.commit.repo = (job x.1).did := by
  obtain ⟨_, ⟨row, m, m', co, e1, e2, e3, e4, e5, _⟩, _⟩ := h.com x hx
  exact ⟨co, by rw [e4], e5, by rw [e4]⟩

theorem UInv.told (hL : L.OK Z) (hc : CInv L Z job w.next s) (h : UInv L Z job w.next w.blocks W s)
    {x : Nat × CommitData C R} (hx : x ∈ W) (hread : s.w.read (L.hash x.2.commit.val) = some x.2.commit) {co : Commit C}
    (hv : x.2.commit.val = .commit co) : Told L Z s.w x.2.commit co := by
  obtain ⟨_, ⟨row, m, m', co', e1, e2, e3, e4, e5, e6, e7, e8, e9⟩, h3, _⟩ := h.com x hx
  have : co' = co := by rw [e4] at hv; cases hv; rfl
  subst this
  have hops : x.2.commit.ops = some (opsOf L m (job x.1).writes) := by rw [e4]
  refine ⟨hc.addr, hc.store, hread, hv, e8, _, m', hops, (e9.root hc.addr).2, ⟨m, (job x.1).writes, ?_, e3, e2, rfl⟩, h3 _ hops⟩
  rw [e6]
  obtain ⟨b, co, g1, g2, g3, _, g5⟩ := e1.commitAt hL hc.addr
  refine ⟨b, co, ?_, g2, (g5.root hc.addr).2⟩
  exact (commitAt_ok hc.addr g1).2.2.1

theorem UInv.toldAll (hL : L.OK Z) (ht : ¬ al.torn) (hr : Reach L .datastore al w) (hc : CInv L Z job w.next s)
    (h : UInv L Z job w.next w.blocks W s) {b : Block C R} {co : Commit C} (hb : s.w.read (L.hash b.val) = some b)
    (hv : b.val = .commit co) (h1 : 1 ≤ b.seq) : Told L Z s.w b co := by
  rcases h.kinds hL hr hb with ⟨g, _⟩ | ⟨g, _⟩ | ⟨g, _⟩
  · obtain ⟨_, _, _, t4, t5, ops, m', t6, t7, t8, t9⟩ := Reach.told hL ht hr g hv h1
    exact ⟨hc.addr, hc.store, hb, t4, t5, ops, m', t6, t7.grow h.keep, t8.grow h.keep, t9.grow h.keep⟩
  all_goals
    obtain ⟨x, hx, rfl⟩ := h.caller hL hr hb hv g
    exact h.told hL hc hx hb hv

theorem UInv.readable (hL : L.OK Z) (hplain : PlainRecords L) (hr : Reach L .datastore al w) (hc : CInv L Z job w.next s)
    (h : UInv L Z job w.next w.blocks W s) {start : Nat} (hi : al.imports → 1 ≤ start) {q : List (Block C R)}
    (hq : Query L s.w start none q) : Readable L s.w q := by
  have hin : ∀ b ∈ q, s.w.read (L.hash b.val) = some b := fun b hb => ((hq.mem b).1 hb).1
  have haddr : ∀ c y, s.w.read c = some y → c = L.hash y.val := fun c y hy => (hc.addr _ _ hy).symm
  have hlo := (next_eq hL hr).2
  have hB := (hr.plain hL).1.core.blocks
  have hs := Reach.grouped hL hr
  have hone : ∀ b ∈ q, 1 ≤ b.seq := by
    intro b hbq
    by_cases g : al.imports
    · exact (hi g).trans ((hq.mem b).1 hbq).2.1
    · rcases h.kinds hL hr (hin b hbq) with ⟨k, _⟩ | ⟨k, _⟩ | ⟨k, _⟩
      · exact hr.native hL g k
      · omega
      · omega
  have hmem : ∀ b ∈ q, ∀ c y, s.w.read c = some y → y.seq = b.seq → y ∈ q := by
    intro b hbq c y hy he
    have := haddr c y hy
    subst this
    obtain ⟨_, g2, _⟩ := (hq.mem b).1 hbq
    exact (hq.mem y).2 ⟨hy, by omega, .inl rfl⟩
  have hnoev : ∀ x ∈ W, ∀ b, PartOf L x.2 b → ¬ b.isEvent := by
    rintro x hx b ⟨_, g⟩ he
    unfold Block.isEvent at he
    rcases g with ⟨r, g, _⟩ | ⟨d, g⟩ | g
    · rw [g] at he; exact he
    · rw [g] at he; exact he
    · obtain ⟨co, hco, _⟩ := h.commitVal hx
      rw [g, hco] at he; exact he
  refine ⟨hq.sorted, hq.nodup, hin, hmem, haddr, ?_, ?_, ?_, ?_, ?_⟩
  · intro b hbq; have := hone b hbq; omega
  · intro b hbq
    rcases h.kinds hL hr (hin b hbq) with ⟨k, _⟩ | ⟨_, x, hx, k⟩ | ⟨_, ⟨e, k⟩, _⟩
    · obtain ⟨c', m, h1, h2, h3⟩ := hs.marked _ b k (hone b hbq)
      exact ⟨m, hmem b hbq _ _ (h.keep _ _ h1) h3, (isLog_marker m).2 h2, h3⟩
    · obtain ⟨y, y1, y2, y3, y4⟩ := h.marker hL hr hc hx
      obtain ⟨co, hco, _⟩ := h.commitVal y1
      exact ⟨y.2.commit, hmem b hbq _ _ y2 (by rw [y4, k.1]), by unfold Block.isLog; rw [hco], by rw [y4, k.1]⟩
    · exact ⟨b, hbq, by unfold Block.isLog; rw [k], rfl⟩
  · intro b hbq m hmq he hsq
    suffices hcc : L.hash m.val = L.hash b.val by
      have g := hin m hmq
      rw [hcc, hin b hbq] at g
      exact (Option.some.inj g).symm
    rcases h.kinds hL hr (hin b hbq) with ⟨k, k'⟩ | ⟨_, x, hx, k⟩ | ⟨k0, ⟨e, k⟩, k'⟩
    · rcases h.kinds hL hr (hin m hmq) with ⟨j, _⟩ | ⟨j, _⟩ | ⟨j, _⟩
      · exact hs.alone _ _ _ _ k j he (hone b hbq) hsq
      · omega
      · omega
    · exact absurd he (hnoev x hx b k)
    · rcases h.kinds hL hr (hin m hmq) with ⟨_, j⟩ | ⟨_, x, hx, j⟩ | ⟨_, ⟨e', j⟩, _⟩
      · omega
      · exact absurd (by rw [← j.1, hsq]) (k' x hx)
      · exact h.same _ _ m b e' e (hin m hmq) (hin b hbq) j k (by omega) hsq
  · intro b hbq
    have hrec : ∀ r, b.val = .record r → L.eventLike r = false ∧ L.commitLike r = false := by
      intro r hv
      rcases h.kinds hL hr (hin b hbq) with ⟨k, _⟩ | ⟨_, x, hx, _, k⟩ | ⟨_, ⟨e, k⟩, _⟩
      · exact hplain r ((hB.recs _ b r k hv).1 (hone b hbq)).1
      · rcases k with ⟨r', k, k'⟩ | ⟨d, k⟩ | k
        · rw [hv] at k; cases k; exact hplain r k'
        · rw [hv] at k; cases k
        · obtain ⟨co, hco, _⟩ := h.commitVal hx
          rw [← k, hv] at hco; cases hco
      · rw [hv] at k; cases k
    cases hv : b.val with
    | node d => simp [looksEvent, looksCommit, Block.isEvent, Block.isCommit, hv]
    | commit c => simp [looksEvent, looksCommit, Block.isEvent, Block.isCommit, hv]
    | event e => simp [looksEvent, looksCommit, Block.isEvent, Block.isCommit, hv]
    | record r =>
      obtain ⟨h1, h2⟩ := hrec r hv
      simp [looksEvent, looksCommit, Block.isEvent, Block.isCommit, hv, h1, h2]
  · intro b hbq co hv
    rcases h.kinds hL hr (hin b hbq) with ⟨k, _⟩ | ⟨g, _⟩ | ⟨g, _⟩
    · have hp := hB.own k hv (hone b hbq)
      refine ⟨?_, ?_⟩
      · obtain ⟨ops, h1, h2⟩ := hp.ops
        refine ⟨ops, h1, fun op ho hd => ?_⟩
        obtain ⟨r, k1, y, k2, _⟩ := h2 op ho hd
        exact ⟨_, y, k1, h.keep _ _ k2⟩
      · obtain ⟨t, l, _, _, _, _, h5, h6⟩ := hp.root
        rw [← h6]
        have := h5 t (by simp [nodes])
        unfold nodeIn at this
        split at this
        · rename_i hg; exact ⟨_, h.keep _ _ hg⟩
        · cases this
    all_goals
      obtain ⟨x, hx, rfl⟩ := h.caller hL hr (hin b hbq) hv g
      obtain ⟨ops, m', o1, o2, _, o4⟩ := (h.told hL hc hx (hin _ hbq) hv).ops
      refine ⟨⟨ops, o1, fun op ho hd => ?_⟩, ?_⟩
      · obtain ⟨r, r1, y, r2, _⟩ := o4 op ho hd
        exact ⟨_, y, r1, r2⟩
      · obtain ⟨t, _, t2, t3⟩ := o2
        have := t2 t (by simp [nodes])
        unfold nodeIn at this
        unfold World.read
        rw [← t3]
        cases hg : dictGet s.w.blocks (cidOf L.env.H t) with
        | some y => exact ⟨y, rfl⟩
        | none => rw [hg] at this; cases this

/-- Commits and events with the same number are of the same repo. -/
theorem UInv.together (hL : L.OK Z) (hr : Reach L .datastore al w) (h : UInv L Z job w.next w.blocks W s) {b m : Block C R}
    {start : Nat} (hb : Logged L s.w start none b) (hm : Logged L s.w start none m) (h1 : 1 ≤ b.seq) (he : m.seq = b.seq) :
    m.repo = b.repo := by
  obtain ⟨b1, b2, _⟩ := hb
  obtain ⟨m1, m2, _⟩ := hm
  have hcom : ∀ y : Block C R, ((∃ co, y.val = .commit co) ∨ ∃ e, y.val = .event e) → ∀ x ∈ W, PartOf L x.2 y → y = x.2.commit := by
    rintro y hy x hx ⟨_, g⟩
    rcases g with ⟨r, g, _⟩ | ⟨d, g⟩ | g
    · rw [g] at hy; rcases hy with ⟨_, h⟩ | ⟨_, h⟩ <;> cases h
    · rw [g] at hy; rcases hy with ⟨_, h⟩ | ⟨_, h⟩ <;> cases h
    · exact g
  rcases h.kinds hL hr b1 with ⟨k, k'⟩ | ⟨k0, x, hx, k⟩ | ⟨k0, ⟨e, k⟩, k'⟩ <;>
    rcases h.kinds hL hr m1 with ⟨j, j'⟩ | ⟨j0, y, hy, j⟩ | ⟨j0, ⟨e', j⟩, j'⟩
  · exact (Reach.grouped hL hr).together _ _ _ _ k j h1 he
  · omega
  · omega
  · omega
  · have e1 := hcom b b2 x hx k
    have e2 := hcom m m2 y hy j
    subst e1 e2
    obtain ⟨_, _, _, r1⟩ := h.commitVal hx
    obtain ⟨_, _, _, r2⟩ := h.commitVal hy
    rw [r1, r2, h.one y hy x hx he]
  · exact absurd (by rw [he, k.1]) (j' x hx)
  · omega
  · exact absurd (by rw [← he, j.1]) (k' y hy)
  · have := h.same _ _ m b e' e m1 b1 j k (by omega) he
    rw [this] at m1
    have := m1.symm.trans b1
    cases this
    rfl

theorem UInv.log (hL : L.OK Z) (hplain : PlainRecords L) (hr : Reach L .datastore al w) (hc : CInv L Z job w.next s)
    (h : UInv L Z job w.next w.blocks W s) {start : Nat} (hi : al.imports → 1 ≤ start) {q : List (Block C R)}
    (hq : Query L s.w start none q) : (readEvents L s.w q).2 = none ∧ ∃ ms : List (Block C R), LogOf L s.w start none ms ∧
      List.Forall₂ (Delivers s.w) ms (readEvents L s.w q).1 ∧ ∀ b ∈ ms, 1 ≤ b.seq := by
  have ho := h.readable hL hplain hr hc hi hq
  obtain ⟨h1, h2⟩ := readEvents_winners ho
  have hsound : ∀ b ∈ winners q, Logged L s.w start none b := by
    intro b hb
    obtain ⟨g1, g2⟩ := winners_mem hb
    obtain ⟨k1, k2, k3⟩ := (hq.mem b).1 g1
    refine ⟨k1, ?_, k2, k3⟩
    unfold Block.isLog at g2
    cases hv : b.val with
    | commit co => exact .inl ⟨co, rfl⟩
    | event e => exact .inr ⟨e, rfl⟩
    | node d => rw [hv] at g2; cases g2
    | record r => rw [hv] at g2; cases g2
  have hpos : ∀ b ∈ q, 1 ≤ b.seq := fun b hb => by have := ho.pos b hb; omega
  refine ⟨h1, winners q, ⟨winners_sorted ho.sorted, hsound, fun b hb => ?_⟩, h2, fun b hb => hpos b (winners_mem hb).1⟩
  obtain ⟨g1, g2, g3, g4⟩ := hb
  have hbq : b ∈ q := (hq.mem b).2 ⟨g1, g3, g4⟩
  obtain ⟨m, h3, h4⟩ := winners_all hbq (by unfold Block.isLog; rcases g2 with ⟨co, g2⟩ | ⟨e, g2⟩ <;> rw [g2])
  exact ⟨m, h3, h4, h.together hL hr ⟨g1, g2, g3, g4⟩ (hsound m h3) (hpos b hbq) h4⟩

/-- **C76, the log can be read.** At any moment of any schedule of concurrent commits, status changes and events, in which transactions
are aborted and calls fail at any time: reading the log from any number on raises nothing, and gives one message for each number that
was used, in order, which is right for a commit or event that is stored with that number. -/
theorem C76_log (hL : L.OK Z) (ht : ¬ al.torn) (hplain : PlainRecords L) (hr : Reach L .datastore al w)
    (hj : ∀ i, isDid (job i).did) (hs : (CState.init w).run L job as = some s) {start : Nat} (hi : al.imports → 1 ≤ start)
    {q : List (Block C R)} (hq : Query L s.w start none q) :
    (readEvents L s.w q).2 = none ∧ ∃ ms : List (Block C R), LogOf L s.w start none ms ∧
      List.Forall₂ (fun b e => ∃ msg, processEvent L s.w none e = .ok msg ∧ Announces L s.w b msg) ms (readEvents L s.w q).1 := by
  have hc := (CInv.init hL hr job).run hL hj hs
  obtain ⟨W, h⟩ := (UInv.init hL hr job).run hL hj (CInv.init hL hr job) hs
  obtain ⟨h1, ms, h2, h3, h4⟩ := h.log hL hplain hr hc hi hq
  exact ⟨h1, ms, h2, announced hL (fun _ _ h => h) hc.addr (pc := fun _ => none) (fun _ _ _ _ h => nomatch h) h3
    (fun b hb co hv => h.toldAll hL ht hr hc (h2.sound b hb).1 hv (h4 b hb)) (scan_nodup (by simp))⟩

/-- **C76, the firehose goes on.** A pass of the collector in between raises nothing, wherever it begins; and if it does not wait for
missing numbers, it emits a message for every number from there on. -/
theorem C76_pass (hL : L.OK Z) (ht : ¬ al.torn) (hplain : PlainRecords L) (hr : Reach L .datastore al w)
    (hj : ∀ i, isDid (job i).did) (hs : (CState.init w).run L job as = some s)
    {field : R → Option Nat} {last : Nat} {q : List (Block C R)} (hq : Query L s.w (last + 1) none q) :
    (∀ goes, (collectPass L s.w field goes last q).2.2 = none) ∧
    ∃ ms : List (Block C R), LogOf L s.w (last + 1) none ms ∧
      List.Forall₂ (Announces L s.w) ms (collectPass L s.w field (fun _ _ => true) last q).2.1 ∧
      (collectPass L s.w field (fun _ _ => true) last q).1 = (ms.getLast?.map (·.seq)).getD last := by
  have hc := (CInv.init hL hr job).run hL hj hs
  obtain ⟨W, h⟩ := (UInv.init hL hr job).run hL hj (CInv.init hL hr job) hs
  obtain ⟨h1, ms, h2, h4', h5⟩ := h.log hL hplain hr hc (fun _ => Nat.le_add_left _ _) hq
  have h4 := announced hL (fun _ _ h => h) hc.addr (pc := fun _ => none) (fun _ _ _ _ h => nomatch h) h4'
    (fun b hb co hv => h.toldAll hL ht hr hc (h2.sound b hb).1 hv (h5 b hb)) (scan_nodup (by simp))
  have hev := h.evs
  have hcur : List.Forall₂ (fun b e => e.curSeq field = some b.seq ∧
      ∃ msg, processEvent L s.w none e = .ok msg ∧ Announces L s.w b msg) ms (readEvents L s.w q).1 := by
    have hm := h2.sound
    clear h1 h2 h5
    generalize (readEvents L s.w q).1 = ss at h4 h4'
    induction h4 with
    | nil => exact .nil
    | @cons b e ms ss h5 _ ih =>
      cases h4' with
      | cons h6 h7 =>
        refine .cons ⟨?_, h5⟩ (ih (fun b hb => hm b (List.mem_cons_of_mem _ hb)) h7)
        obtain ⟨g1, g2, _⟩ := hm b List.mem_cons_self
        unfold Delivers at h6
        rcases g2 with ⟨co, g2⟩ | ⟨x, g2⟩
        · rw [g2] at h6
          obtain ⟨d, rfl, _⟩ := h6
          rfl
        · rw [g2] at h6
          rw [h6]
          exact congrArg some (hev _ b x g1 g2).1
  refine ⟨fun goes => ?_, ms, h2, ?_⟩
  · unfold collectPass
    rw [h1]
    refine passOver_raises _ _ fun e he => ?_
    obtain ⟨b, _, g1, msg, g2, _⟩ := forall₂_mem_right hcur he
    exact ⟨by rw [g1]; rfl, msg, g2⟩
  · unfold collectPass
    rw [h1]
    exact passOver_all hcur h2.ascending last fun b hb => by
      have := (h2.sound b hb).2.2.1
      omega

/-- An attempt of a call: its writes, applied to the records of some earlier commit of the repo. -/
def AttemptOf (L : Lib C R) (w : World C R) (j : Job R) (b : Block C R) : Prop :=
  ∃ co p m m', b.val = .commit co ∧ co.did = j.did ∧ b.repo = j.did ∧ co.prev = some p ∧ CommitShows L w p m ∧
    specWrites L m j.writes = .ok m' ∧ CommitShows L w (L.hash b.val) m'

/-- **C76, whose commits these are.** The commits in the log with new numbers are attempts of the calls: each number is of one call,
and of no call that has another number. The number of a call that has returned is in the log, with the commit that it returned, or with
the same one. -/
theorem C76_attempts (hL : L.OK Z) (hr : Reach L .datastore al w)
    (hj : ∀ i, isDid (job i).did) (hs : (CState.init w).run L job as = some s) :
    (∃ owner : Nat → Nat, ∀ b co, Logged L s.w ((lastSeq w.seqs subscribeRepos).getD 0 + 1) none b → b.val = .commit co →
      AttemptOf L s.w (job (owner b.seq)) b ∧ ∀ k, (s.pc k).seq = some b.seq → k = owner b.seq) ∧
    ∀ i cd, s.pc i = .done cd → ∃ b, Logged L s.w ((lastSeq w.seqs subscribeRepos).getD 0 + 1) none b ∧
      b.val = cd.commit.val ∧ b.seq = cd.commit.seq := by
  have hc := (CInv.init hL hr job).run hL hj hs
  obtain ⟨W, h⟩ := (UInv.init hL hr job).run hL hj (CInv.init hL hr job) hs
  rw [← (next_eq hL hr).1]
  constructor
  · classical
    refine ⟨fun n => if hn : ∃ x ∈ W, x.2.commit.seq = n then hn.choose.1 else 0, fun b co hb hv => ?_⟩
    obtain ⟨b1, _, b3, _⟩ := hb
    obtain ⟨x, hx, rfl⟩ := h.caller hL hr b1 hv b3
    have hn : ∃ y ∈ W, y.2.commit.seq = x.2.commit.seq := ⟨x, hx, rfl⟩
    have he : (if hn : ∃ y ∈ W, y.2.commit.seq = x.2.commit.seq then hn.choose.1 else 0) = x.1 := by
      rw [dif_pos hn]
      exact h.one _ hn.choose_spec.1 x hx hn.choose_spec.2
    dsimp only
    rw [he]
    refine ⟨?_, h.own x hx⟩
    obtain ⟨_, ⟨row, m, m', co', e1, e2, e3, e4, e5, e6, e7, e8, e9⟩, _⟩ := h.com x hx
    have hv' : x.2.commit.val = .commit co' := by rw [e4]
    refine ⟨co', row.head, m, m', hv', e5, by rw [e4], e6, e1.commitShows hL hc.addr, e2, ?_⟩
    exact Holds.commitShows hL hc.addr (d := (job x.1).did) ⟨co', by rw [hv'], e5, e9⟩
  · intro i cd hi
    have hx := h.wrote i cd (by rw [hi]; rfl)
    obtain ⟨y, y1, y2, y3, y4⟩ := h.marker hL hr hc hx
    obtain ⟨co, hco, _⟩ := h.commitVal y1
    exact ⟨y.2.commit, ⟨y2, .inl ⟨co, hco⟩, (h.com y y1).1.1, .inl rfl⟩, y3, y4⟩

/-! ### Mirrors -/

/-- In this schedule, no call for the repo `d` is aborted or fails once it has written its blocks. -/
def TidyFor (L : Lib C R) (job : Nat → Job R) (d : Did) : CState C R → List (Act C) → Prop
  | _, [] => True
  | s, a :: as => (∀ i row ver cd, s.pc i = .written row ver cd → (job i).did = d → a ≠ .abort i ∧ ∀ e, a ≠ .fail i e) ∧
      ∀ s', s.act L job a = some s' → TidyFor L job d s' as

theorem wrote_act {s s' : CState C R} {a : Act C} {k : Nat} {cd : CommitData C R} (hk : (s.pc k).wrote = some cd)
    (hs : s.act L job a = some s')
    (ha : ∀ row ver cd, s.pc k = .written row ver cd → a ≠ .abort k ∧ ∀ e, a ≠ .fail k e) :
    (s'.pc k).wrote = some cd ∧ (a.call = some k → ∀ row ver cd', s'.pc k ≠ .written row ver cd') := by
  by_cases hc : a.call = some k
  · cases a with
    | step i nonce =>
      cases hc
      simp only [CState.act] at hs
      unfold Store.stepCall at hs
      dsimp only at hs
      cases hpc : s.pc k with
      | written row ver cd' =>
        rw [hpc] at hs hk
        dsimp only at hs
        split at hs
        · cases hs
          simp only [CState.at, Function.update_self]
          exact ⟨hk, fun _ _ _ _ h => nomatch h⟩
        · cases hs
      | done cd' => rw [hpc] at hs; cases hs
      | _ => rw [hpc] at hk; cases hk
    | abort i =>
      cases hc
      cases hpc : s.pc k with
      | written row ver cd' => exact absurd rfl (ha _ _ _ hpc).1
      | done cd' => simp only [CState.act, abortCall, hpc] at hs; cases hs
      | _ => rw [hpc] at hk; cases hk
    | fail i e =>
      cases hc
      cases hpc : s.pc k with
      | written row ver cd' => exact absurd rfl ((ha _ _ _ hpc).2 e)
      | done cd' => simp only [CState.act, failCall, hpc] at hs; cases hs
      | _ => rw [hpc] at hk; cases hk
    | setStatus d st => cases hc
    | event d kind t => cases hc
  · rw [act_pc hc hs]
    exact ⟨hk, fun h => absurd h hc⟩

theorem UInv.run_for (hL : L.OK Z) (hj : ∀ i, isDid (job i).did) {d : Did} {lo : Nat} {old : List (C × Block C R)} :
    ∀ {as : List (Act C)} {W : List (Nat × CommitData C R)} {s s' : CState C R}, CInv L Z job lo s → UInv L Z job lo old W s →
    (∀ x ∈ W, (job x.1).did = d → (s.pc x.1).wrote = some x.2) → TidyFor L job d s as →
    s.run L job as = some s' → ∃ W', UInv L Z job lo old W' s' ∧ ∀ x ∈ W', (job x.1).did = d → (s'.pc x.1).wrote = some x.2
  | [], W, s, s', _, h, hd, _, hs => by cases hs; exact ⟨W, h, hd⟩
  | a :: as, W, s, s', hc, h, hd, ht, hs => by
    unfold CState.run at hs
    cases ha : s.act L job a with
    | none => rw [ha] at hs; cases hs
    | some s1 =>
      rw [ha] at hs
      have hk := fun x hx hxd => wrote_act (hd x hx hxd) ha fun row ver cd hp => ht.1 x.1 row ver cd hp hxd
      rcases h.act hL hc ha with h | ⟨i, nonce, row, ver, cd, e1, e2, h⟩
      · exact h.run_for hL hj (hc.act hL hj ha).1 (fun x hx hxd => (hk x hx hxd).1) (ht.2 s1 ha) hs
      · refine h.run_for hL hj (hc.act hL hj ha).1 (fun x hx hxd => ?_) (ht.2 s1 ha) hs
        rcases List.mem_cons.1 hx with rfl | hx
        · rw [e2]; rfl
        · exact (hk x hx hxd).1

theorem RepoChain.follow {v : World C R} {h h' : Option C} {bs : List (Block C R)} (hc : RepoChain L h bs h') : Follow L v h bs h' := by
  induction hc with
  | nil h => exact .nil fun _ => Iff.rfl
  | cons hv hp _ ih => exact .cons (fun _ => Iff.rfl) hv hp ih

/-- **C76, mirrors, partial.** Let a consumer's mirror of the repo `d` be right when it all begins, and let it go on with the messages
from the next sequence number on. If no call for `d` was aborted or failed after it had written its blocks, and none is between writing
its blocks and the end of its transaction, and the transactions for `d` committed in the order of the calls' sequence numbers, then
after applying the messages in order the mirror of the repo is right again: whatever happened to the calls for other repos.

Partial: `C67_retry_false`, `C76_stale_false` and `C66_concurrent_false` show why this is needed of the calls for `d`. -/
theorem C76_mirror_partial (hL : L.OK Z) (hplain : PlainRecords L) (ht : ¬ al.torn) (hr : Reach L .datastore al w)
    (hj : ∀ i, isDid (job i).did) {d : Did} (hd : isDid d) (htd : TidyFor L job d (.init w) as)
    (hs : (CState.init w).run L job as = some s)
    (hidle : ∀ i row ver cd, (job i).did = d → s.pc i ≠ .written row ver cd)
    (hord : s.log.Pairwise fun a b => (job a.1).did = d → (job b.1).did = d → a.2.commit.seq < b.2.commit.seq)
    {mir : Mirror R} (hm : ∀ m, mir d = some m ↔ Shows L .datastore w d m)
    {q : List (Block C R)} (hq : Query L s.w ((lastSeq w.seqs subscribeRepos).getD 0 + 1) none q) :
    ∃ msgs, List.Forall₂ (fun e msg => processEvent L s.w none e = .ok msg) (readEvents L s.w q).1 msgs ∧
      ∀ m, msgs.foldl Mirror.next mir d = some m ↔ Shows L .datastore s.w d m := by
  have hi := CInv.init hL hr job
  have hc := hi.run hL hj hs
  obtain ⟨W, h, hW⟩ := (UInv.init hL hr job).run_for hL hj (d := d) hi (by simp) htd hs
  obtain ⟨_, ms, h2, h3⟩ := C76_log hL ht hplain hr hj hs (fun _ => Nat.le_add_left _ _) hq
  rw [← (next_eq hL hr).1] at h2
  have hlog := C58_acknowledged hL hr hj hs
  have hdone : ∀ x ∈ W, (job x.1).did = d → x ∈ s.log := by
    intro x hx hxd
    have := hW x hx hxd
    refine (hlog.2 x.1 x.2).1 ?_
    cases hp : s.pc x.1 with
    | done cd' => rw [hp] at this; cases this; rfl
    | written row ver cd' => exact absurd hp (hidle _ _ _ _ hxd)
    | _ => rw [hp] at this; cases this
  have hlogW : ∀ x ∈ s.log, x ∈ W := fun x hx => h.wrote x.1 x.2 (by rw [(hlog.2 x.1 x.2).2 hx]; rfl)
  have hin : ∀ x ∈ W, (x.2.commit.inDid d = true ↔ (job x.1).did = d) := by
    intro x hx
    obtain ⟨co, h1, h2, _⟩ := h.commitVal hx
    simp [Block.inDid, h1, h2]
  have hread : ∀ x ∈ W, (job x.1).did = d → s.w.read (L.hash x.2.commit.val) = some x.2.commit := by
    intro x hx hxd
    obtain ⟨y, y1, y2, y3, y4⟩ := h.marker hL hr hc hx
    have e := h.one y y1 x hx y4
    have k1 := hW y y1 (by rw [e]; exact hxd)
    have k2 := hW x hx hxd
    rw [e, k2] at k1
    rw [Option.some.inj k1]; exact y2
  have hlink := linked_run hL hj (H := headOf L .datastore w) hi (.nil _) hs
  have hk := CInv.retains hL hj hi hs
  have hfol : Follow L s.w (headOf L .datastore w d) (ms.filter (·.inDid d)) (headOf L .datastore s.w d) := by
    have : ms.filter (·.inDid d) = (s.log.map (·.2.commit)).filter (·.inDid d) := by
      refine eq_of_ascending (h2.ascending.filter _) ?_ fun b => ?_
      · rw [List.pairwise_filter, List.pairwise_map]
        refine hord.imp_of_mem ?_
        intro a b ha hb hlt hda hdb
        exact hlt ((hin a (hlogW a ha)).1 hda) ((hin b (hlogW b hb)).1 hdb)
      · rw [List.mem_filter, List.mem_filter, List.mem_map]
        constructor
        · rintro ⟨g1, g3⟩
          obtain ⟨k1, k2, k3, _⟩ := h2.sound b g1
          have : ∃ co, b.val = .commit co := by
            unfold Block.inDid at g3
            cases hv : b.val with
            | commit co => exact ⟨co, rfl⟩
            | _ => rw [hv] at g3; cases g3
          obtain ⟨co, hv⟩ := this
          obtain ⟨x, hx, rfl⟩ := h.caller hL hr k1 hv k3
          exact ⟨⟨x, hdone x hx ((hin x hx).1 g3), rfl⟩, g3⟩
        · rintro ⟨⟨x, g1, rfl⟩, g3⟩
          have hx := hlogW x g1
          have hxd := (hin x hx).1 g3
          obtain ⟨co, hv, _⟩ := h.commitVal hx
          refine ⟨h2.mem ⟨hread x hx hxd, .inl ⟨co, hv⟩, (h.com x hx).1.1, .inl rfl⟩ fun m hm he => ?_, g3⟩
          obtain ⟨k1, k2, k3, _⟩ := hm
          rcases k2 with ⟨co', k2⟩ | ⟨e, k2⟩
          · obtain ⟨y, hy, rfl⟩ := h.caller hL hr k1 k2 k3
            have e := h.one y hy x hx he
            have j1 := hW y hy (by rw [e]; exact hxd)
            have j2 := hW x hx hxd
            rw [e, j2] at j1
            rw [Option.some.inj j1]
          · rcases h.kinds hL hr k1 with ⟨_, j⟩ | ⟨_, y, hy, _, j⟩ | ⟨_, _, j⟩
            · omega
            · obtain ⟨co', hv', _⟩ := h.commitVal hy
              rcases j with ⟨_, j, _⟩ | ⟨_, j⟩ | j
              · rw [k2] at j; cases j
              · rw [k2] at j; cases j
              · rw [j, hv'] at k2; cases k2
            · exact absurd he.symm (j x hx)
    rw [this]
    exact (hlink.chain d).follow
  have hm' : MirrorsHead L s.w d (headOf L .datastore w d) mir := by
    intro m
    refine (hm m).trans ((hi.shows_iff hL hd m).trans ?_)
    constructor
    · rintro ⟨row, g1, g2⟩
      exact ⟨row.head, by have g1 : dictGet w.rows d = some row := g1; simp [headOf, g1], (g2.keeps hk).commitShows hL hc.addr⟩
    · rintro ⟨c, g1, g2⟩
      obtain ⟨row, g3, rfl⟩ := Option.map_eq_some_iff.1 (show (dictGet w.rows d).map (·.head) = some c from g1)
      obtain ⟨_, m', g4⟩ := hi.rows d row (dictGet_mem g3)
      have := ((g4.keeps hk).commitShows hL hc.addr).unique g2
      subst this
      exact ⟨row, g3, g4⟩
  obtain ⟨msgs, k1, k2⟩ := mirrored_one hL hd h3 (·.inDid d) (fun b => by
    unfold Block.inDid
    cases b.val <;> simp) hfol hm'
  refine ⟨msgs, k1, fun m => (k2 m).trans ?_⟩
  rw [hc.shows_iff hL hd m]
  constructor
  · rintro ⟨c, g1, g2⟩
    obtain ⟨row, g3, rfl⟩ := Option.map_eq_some_iff.1 (show (dictGet s.w.rows d).map (·.head) = some c from g1)
    obtain ⟨_, m', g4⟩ := hc.rows d row (dictGet_mem g3)
    have := (g4.commitShows hL hc.addr).unique g2
    subst this
    exact ⟨row, g3, g4⟩
  · rintro ⟨row, g1, g2⟩
    exact ⟨row.head, by simp [headOf, g1], g2.commitShows hL hc.addr⟩

end

/-! ### A case that meets the hypotheses -/

/-- Nothing happens to calls for `d`. -/
theorem TidyFor.of_acts {C R : Type} [DecidableEq C] {L : Lib C R} {job : Nat → Job R} {d : Did} :
    ∀ {as : List (Act C)} {s : CState C R}, (∀ i, .abort i ∈ as → (job i).did ≠ d) → (∀ i e, .fail i e ∈ as → (job i).did ≠ d) →
    TidyFor L job d s as
  | [], _, _, _ => trivial
  | a :: as, s, h, h' => ⟨fun i row ver cd _ hd => ⟨fun ha => h i (by rw [ha]; exact .head _) hd,
      fun e ha => h' i e (by rw [ha]; exact .head _) hd⟩,
    fun s' _ => TidyFor.of_acts (fun i hi => h i (.tail _ hi)) (fun i e hi => h' i e (.tail _ hi))⟩

/-- Call 0, for the first repo, writes its blocks; call 2, for the second one, creates the same record, so it does not have to write it;
then call 0 fails, and call 2 goes on. -/
def exUntidy : List (Act SC) :=
  steps 0 6 ++ steps 2 5 ++ [.event exDid (.account true none) 9, .fail 0 .value] ++ steps 2 2

/-- The log can be read, a pass of the collector emits all of it, and a mirror of the second repo is right. The message for the record of
the second repo needs the block that the failed call has written. -/
example : ∃ s, (CState.init (exW1 .datastore)).run exL exJob exUntidy = some s ∧ s.log.map (·.1) = [2] ∧
    (readEvents exL s.w (blocksBySeq s.w 1)).2 = none ∧
    (∀ goes, (collectPass exL s.w (fun _ => none) goes 0 (blocksBySeq s.w 1)).2.2 = none) ∧
    readRecord s.w .datastore exDid2 "c" = some (some (.record 3)) ∧
    readRecord s.w .datastore exDid "c" = some none ∧
    (readEvents exL s.w (blocksBySeq s.w ((lastSeq (exW1 .datastore).seqs subscribeRepos).getD 0 + 1))).1.length = 3 ∧
    ∀ mir : Mirror Nat, (∀ m, mir exDid2 = some m ↔ Shows exL .datastore (exW1 .datastore) exDid2 m) →
      ∃ msgs, List.Forall₂ (fun e msg => processEvent exL s.w none e = .ok msg)
        (readEvents exL s.w (blocksBySeq s.w ((lastSeq (exW1 .datastore).seqs subscribeRepos).getD 0 + 1))).1 msgs ∧
        ∀ m, msgs.foldl Mirror.next mir exDid2 = some m ↔ Shows exL .datastore s.w exDid2 m := by
  have hr := exW1_reach .datastore
  have h1 : ((CState.init (exW1 .datastore)).run exL exJob exUntidy).map (fun s =>
      checkLog s.w 1 && checkLog s.w ((lastSeq (exW1 .datastore).seqs subscribeRepos).getD 0 + 1) &&
      decide (readRecord s.w .datastore exDid2 "c" = some (some (.record 3))) &&
      decide (readRecord s.w .datastore exDid "c" = some none) &&
      decide ((readEvents exL s.w (blocksBySeq s.w ((lastSeq (exW1 .datastore).seqs subscribeRepos).getD 0 + 1))).1.length = 3)) =
      some true := by decide +kernel
  have h2 : ((CState.init (exW1 .datastore)).run exL exJob exUntidy).map (fun s => s.log.map (·.1)) = some [2] := by
    decide +kernel
  have h3 : ((CState.init (exW1 .datastore)).run exL exJob exUntidy).map (fun s =>
      match s.pc 2 with
      | .done _ => true
      | _ => false) = some true := by decide +kernel
  obtain ⟨s, hs, h1⟩ := Option.map_eq_some_iff.1 h1
  rw [hs, Option.map_some, Option.some.injEq] at h2 h3
  simp only [Bool.and_eq_true, decide_eq_true_eq] at h1
  obtain ⟨⟨⟨⟨a0, a1⟩, a2⟩, a3⟩, a4⟩ := h1
  have hq := (checkLog_spec a0).1
  refine ⟨s, hs, h2, (C76_log exL_ok (fun h => h) (fun _ _ => ⟨rfl, rfl⟩) hr exJob_did hs (fun h => h.elim) hq).1,
    (C76_pass exL_ok (fun h => h) (fun _ _ => ⟨rfl, rfl⟩) hr exJob_did hs hq).1, a2, a3, a4, fun mir hm =>
    C76_mirror_partial exL_ok (fun _ _ => ⟨rfl, rfl⟩) (fun h => h) hr exJob_did (by unfold isDid; decide +kernel)
      (TidyFor.of_acts (fun i hi => ?_) fun i e hi => ?_) hs (fun i row ver cd _ hi => ?_) ?_ hm (checkLog_spec a1).1⟩
  · revert hi
    simp [exUntidy, steps]
  · have : i = 0 := by
      revert hi
      simp [exUntidy, steps]
      exact fun h _ => h
    subst this
    decide +kernel
  · by_cases h : i = 0 ∨ i = 2
    · rcases h with rfl | rfl
      · rename_i hd
        exact absurd hd (by decide +kernel)
      · rw [hi] at h3; cases h3
    · have := run_pc (i := i) (fun a ha => by
        have : ∀ a ∈ exUntidy, a.call = none ∨ a.call = some 0 ∨ a.call = some 2 := by decide
        rcases this a ha with e | e | e <;> rw [e]
        · exact fun h => nomatch h
        · exact fun e => h (.inl (Option.some.inj e).symm)
        · exact fun e => h (.inr (Option.some.inj e).symm)) hs
      rw [hi] at this
      cases this
  · revert h2
    cases s.log with
    | nil => intro _; exact .nil
    | cons a l =>
      cases l with
      | nil => intro _; exact List.pairwise_singleton _ _
      | cons b l => intro h; simp at h

/-- `C67_retry_false` shows what happens to the mirror of the call's own repo; but here, too, the log can be read, and both numbers are
in it. -/
example : ∃ s, exRetry = some s ∧ (readEvents exL s.w (blocksBySeq s.w 1)).2 = none ∧ (∃ e, s.pc 0 = .failed e) ∧
    (readEvents exL s.w (blocksBySeq s.w 10)).1.length = 2 := by
  obtain ⟨s, hs, hq, _, _, h1, _⟩ := C67_retry_false
  have h2 : exRetry.map (fun s => decide ((readEvents exL s.w (blocksBySeq s.w 10)).1.length = 2)) = some true := by
    decide +kernel
  rw [hs, Option.map_some, Option.some.injEq, decide_eq_true_eq] at h2
  refine ⟨s, hs, (C76_log exL_ok (fun h => h) (fun _ _ => ⟨rfl, rfl⟩) (exW1_reach .datastore) (job := exBoth) (fun i => ?_) hs
    (fun h => h.elim) hq).1, h1, h2⟩
  unfold exBoth isDid
  split <;> decide +kernel

/-! ### Why retried calls are excluded for mirrors -/

/-- Call 1 changes the record "a" from 1 to 5; call 0 sets it to 1. -/
def exBack (i : Nat) : Job Nat :=
  if i = 0 then ⟨exDid, [wr .update "a" (some 1)]⟩ else ⟨exDid, [wr .update "a" (some 5)]⟩

/-- Call 1 takes its sequence number, and then call 0 does, and writes its blocks: there was nothing to change. But then call 1's
transaction commits; so call 0's is aborted, and retried, and commits. -/
def exOutdated : Option (CState SC Nat) :=
  (CState.init (exW1 .datastore)).run exL exBack (steps 1 1 ++ steps 0 6 ++ steps 1 6 ++ [.abort 0] ++ List.replicate 6 (.step 0 1))

/-- The blocks in another order that Datastore may return: those with the same number the other way round. -/
def blocksTurned (w : ExWorld) (start : Nat) : List (Block SC Nat) :=
  blocksBySeq { w with blocks := w.blocks.reverse } start

def messagesTurned (w : ExWorld) (start : Nat) : List (Message SC Nat) :=
  ((readEvents exL w (blocksTurned w start)).1.mapM fun e => (processEvent exL w none e).toOption).getD []

/-- **C76 is false of mirrors** of a repo with calls that are retried after they have written their blocks, even if all calls return,
and their transactions commit in the order of their numbers: the first attempt of a call may have had nothing to change, and there may
be a message for this attempt instead of the one that took effect. Then a consumer that gets all messages in order ends up with another
record than the server. -/
theorem C76_stale_false : ∃ s, exOutdated = some s ∧ Query exL s.w 1 none (blocksTurned s.w 1) ∧
    (readEvents exL s.w (blocksTurned s.w 1)).2 = none ∧
    (readEvents exL s.w (blocksTurned s.w 1)).1.mapM (fun e => (processEvent exL s.w none e).toOption) =
      some (messagesTurned s.w 1) ∧
    s.log.map (·.1) = [1, 0] ∧ s.log.Pairwise (fun a b => a.2.commit.seq < b.2.commit.seq) ∧
    readRecord s.w .datastore exDid "a" = some (some (.record 1)) ∧
    (((messagesTurned s.w 1).foldl Mirror.next fun _ => none) exDid).map (fun m => m (key "coll/a")) = some (some 5) := by
  have h1 : (exOutdated.map fun s => decide (readRecord s.w .datastore exDid "a" = some (some (.record 1))) &&
      decide ((((messagesTurned s.w 1).foldl Mirror.next fun _ => none) exDid).map (fun m => m (key "coll/a")) =
        some (some 5))) = some true := by decide +kernel
  have h2 : (exOutdated.map fun s => decide ((s.w.blocks.map (·.1)).Nodup) &&
      s.w.blocks.all (fun x => decide (exL.hash x.2.val = x.1)) &&
      decide ((blocksTurned s.w 1).Pairwise (fun a b => a.seq ≤ b.seq)) &&
      decide ((blocksTurned s.w 1).Perm ((s.w.blocks.map (·.2)).filter (fun b => decide (1 ≤ b.seq) && inRepo none b))) &&
      ((readEvents exL s.w (blocksTurned s.w 1)).1.mapM fun e => (processEvent exL s.w none e).toOption).isSome &&
      (readEvents exL s.w (blocksTurned s.w 1)).2.isNone) = some true := by decide +kernel
  have h3 : (exOutdated.map fun s => decide (s.log.map (·.1) = [1, 0]) &&
      decide (s.log.Pairwise (fun a b => a.2.commit.seq < b.2.commit.seq))) = some true := by decide +kernel
  cases hs : exOutdated with
  | none => rw [hs] at h1; cases h1
  | some s =>
    rw [hs] at h1 h2 h3
    simp only [Option.map_some, Option.some.injEq, Bool.and_eq_true, decide_eq_true_eq, List.all_eq_true,
      Option.isNone_iff_eq_none] at h1 h2 h3
    obtain ⟨⟨⟨⟨⟨b1, b2⟩, b3⟩, b4⟩, b5⟩, b6⟩ := h2
    refine ⟨s, rfl, Query.of_blocks b1 (fun c b h => b2 _ (dictGet_mem h)) b3 b4, b6, ?_, h3.1, h3.2, h1⟩
    unfold messagesTurned
    obtain ⟨ms, hms⟩ := Option.isSome_iff_exists.1 b5
    rw [hms, Option.getD_some]

end Arroba.Store
