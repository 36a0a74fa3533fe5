import Verif.Storage.Events
import Verif.Storage.PlainReach

/-! Helper lemmas: what `read_events_by_seq` yields when the sequence numbers are in order. -/

namespace Arroba.Store

variable {C R : Type} [DecidableEq C]

/-- A commit. -/
def Block.isCommit (b : Block C R) : Bool :=
  match b.val with
  | .commit _ => true
  | _ => false

/-- A commit or an event. -/
def Block.isLog (b : Block C R) : Bool :=
  match b.val with
  | .commit _ => true
  | .event _ => true
  | _ => false

omit [DecidableEq C] in
theorem isLog_marker (b : Block C R) : b.isLog = true ↔ b.marker := by
  unfold Block.isLog Block.marker
  cases b.val <;> simp

/-- `s` is what a subscriber should get for the stored commit or event `b`: the event itself; or the
commit, its predecessor, and exactly the blocks stored with it, the records its operations created
or updated, and its tree's root. -/
def Delivers (w : World C R) (b : Block C R) (s : Sent C R) : Prop :=
  match b.val with
  | .event e => s = .event (.event e)
  | .commit co => ∃ d, s = .commit ⟨b, d, co.prev⟩ ∧
      ∀ c x, dictGet d c = some x ↔ ∃ y, x = some y ∧ w.read c = some y ∧
        (y.seq = b.seq ∨ (∃ op ∈ b.ops.getD [], op.action ≠ .delete ∧ op.cid = some c) ∨ c = co.data)
  | _ => False

theorem addRecords_spec (w : World C R) : ∀ (ops : List (CommitOp C))
    (d : List (C × Option (Block C R))),
    (∀ op ∈ ops, op.action ≠ .delete → ∃ c y, op.cid = some c ∧ w.read c = some y) →
    ∃ d', addRecords w d ops = .ok d' ∧ ∀ c x, dictGet d' c = some x ↔
      dictGet d c = some x ∨
      (dictGet d c = none ∧ (∃ op ∈ ops, op.action ≠ .delete ∧ op.cid = some c) ∧ x = w.read c)
  | [], d, _ => ⟨d, rfl, fun c x => by simp⟩
  | op :: ops, d, h => by
    have htl : ∀ op ∈ ops, op.action ≠ .delete → ∃ c y, op.cid = some c ∧ w.read c = some y :=
      fun o ho => h o (List.mem_cons_of_mem _ ho)
    unfold addRecords
    by_cases hd : op.action = .delete
    · rw [if_pos hd]
      obtain ⟨d', h1, h2⟩ := addRecords_spec w ops d htl
      refine ⟨d', h1, fun c x => ?_⟩
      rw [h2 c x]
      simp [hd]
    · rw [if_neg hd]
      obtain ⟨c0, y, hc, hy⟩ := h op List.mem_cons_self hd
      rw [hc]
      dsimp only
      cases hg : dictGet d c0 with
      | some z =>
        dsimp only
        obtain ⟨d', h1, h2⟩ := addRecords_spec w ops d htl
        refine ⟨d', h1, fun c x => ?_⟩
        rw [h2 c x]
        constructor
        · rintro (g | ⟨g1, ⟨o, ho, g2⟩, g3⟩)
          · exact .inl g
          · exact .inr ⟨g1, ⟨o, List.mem_cons_of_mem _ ho, g2⟩, g3⟩
        · rintro (g | ⟨g1, ⟨o, ho, g2⟩, g3⟩)
          · exact .inl g
          · rcases List.mem_cons.1 ho with rfl | ho
            · rw [hc] at g2
              have := Option.some.inj g2.2
              subst this
              rw [hg] at g1; cases g1
            · exact .inr ⟨g1, ⟨o, ho, g2⟩, g3⟩
      | none =>
        dsimp only
        rw [hy]
        dsimp only
        obtain ⟨d', h1, h2⟩ := addRecords_spec w ops (dictSet d c0 (some y)) htl
        refine ⟨d', h1, fun c x => ?_⟩
        rw [h2 c x, dictGet_dictSet]
        by_cases hcc : c = c0
        · subst hcc
          rw [if_pos rfl, hg]
          constructor
          · rintro (g | ⟨g1, _⟩)
            · cases g
              exact .inr ⟨rfl, ⟨op, List.mem_cons_self, hd, hc⟩, hy.symm⟩
            · cases g1
          · rintro (g | ⟨_, _, g⟩)
            · cases g
            · rw [g, hy]; exact .inl rfl
        · rw [if_neg hcc]
          constructor
          · rintro (g | ⟨g1, ⟨o, ho, g2⟩, g3⟩)
            · exact .inl g
            · exact .inr ⟨g1, ⟨o, List.mem_cons_of_mem _ ho, g2⟩, g3⟩
          · rintro (g | ⟨g1, ⟨o, ho, g2⟩, g3⟩)
            · exact .inl g
            · rcases List.mem_cons.1 ho with rfl | ho
              · rw [hc] at g2
                exact absurd (Option.some.inj g2.2).symm hcc
              · exact .inr ⟨g1, ⟨o, ho, g2⟩, g3⟩

/-- The blocks of the sequence number being read. -/
structure St (L : Lib C R) (s : Scanner C R) (g : List (Block C R)) : Prop where
  seq : ∀ y ∈ g, s.seq = some y.seq
  start : g = [] → s.seq = none
  blocks : ∀ c x, dictGet s.blocks c = some x ↔ ∃ y ∈ g, looksEvent L y.val = false ∧
    L.hash y.val = c ∧ x = some y
  commit : s.commit = (g.filter Block.isCommit).getLast?

/-- What is needed of the list of blocks: whole sequence numbers, each with a commit or an event. There may be several
commits with the same number. -/
structure Readable (L : Lib C R) (w : World C R) (q : List (Block C R)) : Prop where
  sorted : q.Pairwise (fun a b => a.seq ≤ b.seq)
  nodup : q.Nodup
  stored : ∀ b ∈ q, w.read (L.hash b.val) = some b
  whole : ∀ b ∈ q, ∀ c y, w.read c = some y → y.seq = b.seq → y ∈ q
  addr : ∀ c y, w.read c = some y → c = L.hash y.val
  pos : ∀ b ∈ q, b.seq ≠ 0
  marked : ∀ b ∈ q, ∃ m ∈ q, m.isLog = true ∧ m.seq = b.seq
  alone : ∀ b ∈ q, ∀ m ∈ q, b.isEvent → m.seq = b.seq → m = b
  plain : ∀ b ∈ q, (looksEvent L b.val = true ↔ b.isEvent) ∧ looksCommit L b.val = b.isCommit
  ops : ∀ b ∈ q, ∀ co, b.val = .commit co → (∃ ops, b.ops = some ops ∧
    ∀ op ∈ ops, op.action ≠ .delete → ∃ c y, op.cid = some c ∧ w.read c = some y) ∧
    ∃ y, w.read co.data = some y

/-- The commits and events that are delivered: the last one of each sequence number. -/
def winners : List (Block C R) → List (Block C R)
  | [] => []
  | b :: bs =>
    if b.isLog && !(bs.any fun m => m.isLog && m.seq == b.seq) then b :: winners bs else winners bs

/-- What is needed of the list of blocks: whole sequence numbers of an orderly storage. -/
structure Orderly (L : Lib C R) (w : World C R) (q : List (Block C R)) : Prop where
  sorted : q.Pairwise (fun a b => a.seq ≤ b.seq)
  nodup : q.Nodup
  stored : ∀ b ∈ q, w.read (L.hash b.val) = some b
  whole : ∀ b ∈ q, ∀ c y, w.read c = some y → y.seq = b.seq → y ∈ q
  addr : ∀ c y, w.read c = some y → c = L.hash y.val
  pos : ∀ b ∈ q, b.seq ≠ 0
  marked : ∀ b ∈ q, ∃ m ∈ q, m.isLog = true ∧ m.seq = b.seq
  unique : ∀ b ∈ q, ∀ m ∈ q, b.isLog = true → m.isLog = true → b.seq = m.seq → b = m
  alone : ∀ b ∈ q, ∀ m ∈ q, b.isEvent → m.seq = b.seq → m = b
  plain : ∀ b ∈ q, (looksEvent L b.val = true ↔ b.isEvent) ∧ looksCommit L b.val = b.isCommit
  ops : ∀ b ∈ q, ∀ co, b.val = .commit co → (∃ ops, b.ops = some ops ∧
    ∀ op ∈ ops, op.action ≠ .delete → ∃ c y, op.cid = some c ∧ w.read c = some y) ∧
    ∃ y, w.read co.data = some y

section
variable {L : Lib C R} {w : World C R}

omit [DecidableEq C] in
theorem isCommit_iff {b : Block C R} : b.isCommit = true ↔ ∃ co, b.val = .commit co := by
  unfold Block.isCommit
  cases b.val <;> simp

omit [DecidableEq C] in
theorem isCommit_log {b : Block C R} (h : b.isCommit = true) : b.isLog = true := by
  unfold Block.isCommit at h
  unfold Block.isLog
  revert h
  cases b.val <;> simp

omit [DecidableEq C] in
theorem isLog_cases {b : Block C R} (h : b.isLog = true) : b.isEvent ∨ b.isCommit = true := by
  unfold Block.isLog at h
  unfold Block.isEvent Block.isCommit
  revert h
  cases b.val <;> simp

omit [DecidableEq C] in
theorem isCommit_not_event {b : Block C R} (h : b.isCommit = true) : ¬ b.isEvent := by
  unfold Block.isCommit at h
  unfold Block.isEvent
  revert h
  cases b.val <;> simp

omit [DecidableEq C] in
theorem winners_mem {b : Block C R} : ∀ {l : List (Block C R)}, b ∈ winners l → b ∈ l ∧ b.isLog = true
  | [], h => nomatch h
  | a :: l, h => by
    unfold winners at h
    split at h
    · rename_i hc
      simp only [Bool.and_eq_true] at hc
      rcases List.mem_cons.1 h with rfl | h
      · exact ⟨.head _, hc.1⟩
      · exact ⟨.tail _ (winners_mem h).1, (winners_mem h).2⟩
    · exact ⟨.tail _ (winners_mem h).1, (winners_mem h).2⟩

omit [DecidableEq C] in
/-- Every number of a commit or event has its winner. -/
theorem winners_all {b : Block C R} : ∀ {l : List (Block C R)}, b ∈ l → b.isLog = true →
    ∃ m ∈ winners l, m.seq = b.seq
  | [], h, _ => nomatch h
  | a :: l, h, hb => by
    unfold winners
    by_cases hl : ∃ m ∈ l, m.isLog = true ∧ m.seq = b.seq
    · obtain ⟨m, h1, h2, h3⟩ := hl
      obtain ⟨x, h4, h5⟩ := winners_all h1 h2
      split
      · exact ⟨x, .tail _ h4, h5.trans h3⟩
      · exact ⟨x, h4, h5.trans h3⟩
    · rcases List.mem_cons.1 h with rfl | h
      · rw [if_pos]
        · exact ⟨b, .head _, rfl⟩
        · simp only [hb, Bool.true_and, Bool.not_eq_true', List.any_eq_false, Bool.and_eq_true, beq_iff_eq]
          exact fun m h1 h2 => hl ⟨m, h1, h2⟩
      · exact absurd ⟨b, h, hb, rfl⟩ hl

omit [DecidableEq C] in
theorem winners_sorted : ∀ {l : List (Block C R)}, l.Pairwise (fun a b => a.seq ≤ b.seq) →
    (winners l).Pairwise fun a b => a.seq < b.seq
  | [], _ => .nil
  | a :: l, h => by
    obtain ⟨h1, h2⟩ := List.pairwise_cons.1 h
    unfold winners
    split
    · rename_i hc
      refine List.pairwise_cons.2 ⟨fun b hb => ?_, winners_sorted h2⟩
      obtain ⟨k1, k2⟩ := winners_mem hb
      refine lt_of_le_of_ne (h1 b k1) fun he => ?_
      simp only [Bool.and_eq_true, Bool.not_eq_true', List.any_eq_false, beq_iff_eq, not_and] at hc
      exact hc.2 b k1 k2 he.symm
    · exact winners_sorted h2

omit [DecidableEq C] in
theorem winners_unique : ∀ {l : List (Block C R)}, l.Nodup →
    (∀ b ∈ l, ∀ m ∈ l, b.isLog = true → m.isLog = true → b.seq = m.seq → b = m) → winners l = l.filter Block.isLog
  | [], _, _ => rfl
  | a :: l, hn, h => by
    obtain ⟨h1, h2⟩ := List.nodup_cons.1 hn
    have ih := winners_unique h2 fun b hb m hm => h b (.tail _ hb) m (.tail _ hm)
    unfold winners
    rw [List.filter_cons, ih]
    cases ha : a.isLog with
    | false => rfl
    | true =>
      rw [if_pos, if_pos rfl]
      simp only [Bool.true_and, Bool.not_eq_true', List.any_eq_false, Bool.and_eq_true, beq_iff_eq]
      rintro m hm ⟨k1, k2⟩
      exact h1 (h a (.head _) m (.tail _ hm) ha k1 k2.symm ▸ hm)

omit [DecidableEq C] in
/-- Blocks that are neither commits nor events do not matter. -/
theorem winners_skip {b : Block C R} (hb : b.isLog = false) : ∀ (a l : List (Block C R)),
    winners (a ++ b :: l) = winners (a ++ l)
  | [], l => by
    rw [List.nil_append, List.nil_append, winners, hb]
    rfl
  | x :: a, l => by
    rw [List.cons_append, List.cons_append, winners, winners, winners_skip hb a l]
    simp [List.any_append, hb]

omit [DecidableEq C] in
theorem winners_append : ∀ {a l : List (Block C R)}, (∀ x ∈ a, ∀ y ∈ l, x.seq < y.seq) →
    winners (a ++ l) = winners a ++ winners l
  | [], l, _ => rfl
  | x :: a, l, h => by
    have ih := winners_append (a := a) (l := l) fun y hy => h y (.tail _ hy)
    have : (l.any fun m => m.isLog && m.seq == x.seq) = false := by
      simp only [List.any_eq_false, Bool.and_eq_true, beq_iff_eq, not_and]
      intro m hm _ he
      have := h x (.head _) m hm
      omega
    rw [List.cons_append, winners, winners, ih, List.any_append, this, Bool.or_false]
    split <;> rfl

omit [DecidableEq C] in
/-- Of commits with the same number, the last one is delivered. -/
theorem winners_same : ∀ {l : List (Block C R)}, (∀ x ∈ l, x.isLog = true) → (∀ x ∈ l, ∀ y ∈ l, x.seq = y.seq) →
    winners l = l.getLast?.toList
  | [], _, _ => rfl
  | [a], h, _ => by simp [winners, h a (.head _)]
  | a :: b :: l, h, hs => by
    have ih := winners_same (l := b :: l) (fun x hx => h x (.tail _ hx)) fun x hx y hy => hs x (.tail _ hx) y (.tail _ hy)
    rw [winners, if_neg, ih, List.getLast?_cons_cons]
    simp [h b (.tail _ (.head _)), hs b (.tail _ (.head _)) a (.head _)]

omit [DecidableEq C] in
theorem not_log {b : Block C R} (h : ¬ b.isEvent) (hc : b.isCommit = false) : b.isLog = false := by
  cases h' : b.isLog with
  | false => rfl
  | true =>
    rcases isLog_cases h' with k | k
    · exact absurd k h
    · rw [hc] at k; cases k

theorem makeCommit_spec {q g : List (Block C R)} (hq : Readable L w q) {s : Scanner C R}
    (hs : St L s g) (hg : ∀ y ∈ g, y ∈ q) {z : Block C R} (hz : z ∈ g) (hc : z.isCommit = true)
    (hall : ∀ y ∈ q, y.seq = z.seq → y ∈ g) :
    ∃ sc, makeCommit w z s.blocks = .ok sc ∧ Delivers w z (.commit sc) := by
  obtain ⟨co, hco⟩ := isCommit_iff.1 hc
  obtain ⟨⟨ops, ho, hr⟩, ⟨yd, hyd⟩⟩ := hq.ops z (hg z hz) co hco
  obtain ⟨d', h1, h2⟩ := addRecords_spec w ops s.blocks hr
  have hblk : ∀ c x, dictGet s.blocks c = some x ↔
      ∃ y, x = some y ∧ w.read c = some y ∧ y.seq = z.seq := by
    intro c x
    rw [hs.blocks c x]
    constructor
    · rintro ⟨y, hy, _, rfl, rfl⟩
      exact ⟨y, rfl, hq.stored y (hg y hy), by
        have := hs.seq y hy
        rw [hs.seq z hz] at this
        exact (Option.some.inj this).symm⟩
    · rintro ⟨y, rfl, hy, he⟩
      have hyq := hq.whole z (hg z hz) c y hy he
      refine ⟨y, hall y hyq he, ?_, (hq.addr c y hy).symm, rfl⟩
      cases hev : looksEvent L y.val with
      | false => rfl
      | true =>
        exfalso
        have := hq.alone y hyq z (hg z hz) ((hq.plain y hyq).1.1 hev) he.symm
        subst this
        exact isCommit_not_event hc ((hq.plain _ hyq).1.1 hev)
  have hd' : ∀ c x, dictGet d' c = some x ↔ ∃ y, x = some y ∧ w.read c = some y ∧
      (y.seq = z.seq ∨ ∃ op ∈ ops, op.action ≠ .delete ∧ op.cid = some c) := by
    intro c x
    rw [h2 c x, hblk c x]
    constructor
    · rintro (⟨y, g1, g2, g3⟩ | ⟨g1, ⟨op, hop, g2, g3⟩, g4⟩)
      · exact ⟨y, g1, g2, .inl g3⟩
      · obtain ⟨c', y, k1, k2⟩ := hr op hop g2
        rw [g3] at k1
        cases k1
        exact ⟨y, g4.trans k2, k2, .inr ⟨op, hop, g2, g3⟩⟩
    · rintro ⟨y, g1, g2, g3⟩
      by_cases hy : y.seq = z.seq
      · exact .inl ⟨y, g1, g2, hy⟩
      · refine .inr ⟨?_, g3.resolve_left hy, g1.trans g2.symm⟩
        cases hgg : dictGet s.blocks c with
        | none => rfl
        | some x' =>
          obtain ⟨y', k1, k2, k3⟩ := (hblk c x').1 hgg
          rw [g2] at k2; cases k2
          exact absurd k3 hy
  refine ⟨⟨z, match dictGet d' co.data with
    | some _ => d'
    | none => dictSet d' co.data (w.read co.data), co.prev⟩, ?_, ?_⟩
  · unfold makeCommit
    rw [ho]
    dsimp only
    rw [h1]
    dsimp only
    rw [hco]
    rfl
  · unfold Delivers
    rw [hco]
    refine ⟨_, rfl, fun c x => ?_⟩
    rw [ho]
    cases hgd : dictGet d' co.data with
    | some x' =>
      dsimp only
      rw [hd' c x]
      constructor
      · rintro ⟨y, g1, g2, g3 | g3⟩
        · exact ⟨y, g1, g2, .inl g3⟩
        · exact ⟨y, g1, g2, .inr (.inl g3)⟩
      · rintro ⟨y, g1, g2, g3 | g3 | rfl⟩
        · exact ⟨y, g1, g2, .inl g3⟩
        · exact ⟨y, g1, g2, .inr g3⟩
        · obtain ⟨y', k1, k2, k3⟩ := (hd' _ x').1 hgd
          rw [g2] at k2; cases k2
          exact ⟨y, g1, g2, k3⟩
    | none =>
      dsimp only
      rw [dictGet_dictSet]
      by_cases hcc : c = co.data
      · subst hcc
        rw [if_pos rfl, hyd]
        constructor
        · intro h; cases h; exact ⟨yd, rfl, rfl, .inr (.inr rfl)⟩
        · rintro ⟨y, g1, g2, _⟩
          rw [g1, g2]
      · rw [if_neg hcc, hd' c x]
        constructor
        · rintro ⟨y, g1, g2, g3 | g3⟩
          · exact ⟨y, g1, g2, .inl g3⟩
          · exact ⟨y, g1, g2, .inr (.inl g3)⟩
        · rintro ⟨y, g1, g2, g3 | g3 | rfl⟩
          · exact ⟨y, g1, g2, .inl g3⟩
          · exact ⟨y, g1, g2, .inr g3⟩
          · exact absurd rfl hcc

theorem St.of_some {g : List (Block C R)} {s : Scanner C R} (hs : St L s g) {z : Block C R} (h : s.commit = some z) :
    z ∈ g ∧ z.isCommit = true := by
  rw [hs.commit] at h
  exact List.mem_filter.1 (List.mem_of_getLast? h)

theorem St.of_none {g : List (Block C R)} {s : Scanner C R} (hs : St L s g) (h : s.commit = none) :
    ∀ z ∈ g, z.isCommit = false := by
  rw [hs.commit, List.getLast?_eq_none_iff, List.filter_eq_nil_iff] at h
  exact fun z hz => by simpa using h z hz

/-- A completed sequence number yields its last commit. -/
theorem flush_spec {q g : List (Block C R)} (hq : Readable L w q) {s : Scanner C R}
    (hs : St L s g) (hg : ∀ y ∈ g, y ∈ q)
    (hall : ∀ z ∈ g, ∀ y ∈ q, y.seq = z.seq → y ∈ g) :
    ∃ out, flush w s = .ok out ∧ List.Forall₂ (Delivers w) (winners (g.filter Block.isCommit)) out := by
  have hwin : winners (g.filter Block.isCommit) = s.commit.toList := by
    rw [hs.commit]
    refine winners_same (fun x hx => isCommit_log (List.mem_filter.1 hx).2) fun x hx y hy => ?_
    have h1 := hs.seq x (List.mem_filter.1 hx).1
    rw [hs.seq y (List.mem_filter.1 hy).1] at h1
    exact (Option.some.inj h1).symm
  rw [hwin]
  unfold flush
  cases hc : s.commit with
  | some z =>
    obtain ⟨hz, hzc⟩ := hs.of_some hc
    obtain ⟨sc, h1, h2⟩ := makeCommit_spec hq hs hg hz hzc (hall z hz)
    dsimp only
    rw [h1]
    exact ⟨_, rfl, .cons h2 .nil⟩
  | none =>
    have hno := hs.of_none hc
    have hb : s.blocks = [] := by
      cases hbl : s.blocks with
      | nil => rfl
      | cons p ps =>
        exfalso
        have h1 : dictGet s.blocks p.1 = some p.2 := by
          rw [hbl]; simp [dictGet]
        obtain ⟨y, hy, g1, _⟩ := (hs.blocks _ _).1 h1
        obtain ⟨m, hm, k1, k2⟩ := hq.marked y (hg y hy)
        have hmg := hall y hy m hm k2
        rcases isLog_cases k1 with k3 | k3
        · have := hq.alone m hm y (hg y hy) k3 k2.symm
          subst this
          rw [(hq.plain _ hm).1.2 k3] at g1; cases g1
        · rw [hno m hmg] at k3; cases k3
    dsimp only
    rw [if_neg (by simp [hb])]
    exact ⟨_, rfl, .nil⟩

theorem scan_nil {q g : List (Block C R)} (hq : Readable L w q) {s : Scanner C R}
    (hs : St L s g) (hg : ∀ y ∈ g, y ∈ q) :
    scan L w s [] = match flush w s with
      | .error e => ([], some e)
      | .ok out => (out, none) := by
  unfold scan flush
  by_cases hb : s.blocks = []
  · rw [if_pos hb]
    cases hc : s.commit with
    | none => simp [hb]
    | some z =>
      exfalso
      obtain ⟨hz, hzc⟩ := hs.of_some hc
      have hev : looksEvent L z.val = false := by
        cases h : looksEvent L z.val with
        | false => rfl
        | true => exact absurd ((hq.plain z (hg z hz)).1.1 h) (isCommit_not_event hzc)
      have := (hs.blocks (L.hash z.val) (some z)).2 ⟨z, hz, hev, rfl, rfl⟩
      rw [hb] at this
      cases this
  · rw [if_neg hb]
    cases hc : s.commit with
    | none => simp [hb]
    | some z =>
      dsimp only
      cases makeCommit w z s.blocks <;> rfl

/-- The state after one more block of the same sequence number. -/
theorem St.push {q g : List (Block C R)} (hq : Readable L w q) {s : Scanner C R} (hs : St L s g)
    (hg : ∀ y ∈ g, y ∈ q) {b : Block C R} (hb : b ∈ q) (hbs : s.seq = some b.seq)
    (hne : looksEvent L b.val = false) :
    St L { s with
      blocks := dictSet s.blocks (L.hash b.val) (some b),
      commit := if looksCommit L b.val then some b else s.commit } (g ++ [b]) := by
  refine ⟨?_, by simp, ?_, ?_⟩
  · intro y hy
    rcases List.mem_append.1 hy with hy | hy
    · exact hs.seq y hy
    · rw [List.mem_singleton.1 hy]; exact hbs
  · intro c x
    dsimp only
    rw [dictGet_dictSet]
    by_cases hc : c = L.hash b.val
    · subst hc
      rw [if_pos rfl]
      constructor
      · intro h; cases h
        exact ⟨b, by simp, hne, rfl, rfl⟩
      · rintro ⟨y, hy, _, h1, rfl⟩
        have hyq : y ∈ q := by
          rcases List.mem_append.1 hy with hy | hy
          · exact hg y hy
          · rw [List.mem_singleton.1 hy]; exact hb
        have h2 := hq.stored y hyq
        rw [h1, hq.stored b hb] at h2
        cases h2; rfl
    · rw [if_neg hc, hs.blocks c x]
      constructor
      · rintro ⟨y, hy, h⟩; exact ⟨y, List.mem_append_left _ hy, h⟩
      · rintro ⟨y, hy, h1, h2, h3⟩
        rcases List.mem_append.1 hy with hy | hy
        · exact ⟨y, hy, h1, h2, h3⟩
        · rw [List.mem_singleton.1 hy] at h2
          exact absurd h2.symm hc
  · dsimp only
    rw [(hq.plain b hb).2, List.filter_append]
    cases hbc : b.isCommit with
    | true => simp [hbc]
    | false => simpa [hbc] using hs.commit

theorem St.init : St L (⟨none, none, []⟩ : Scanner C R) [] :=
  ⟨by simp, by simp, by simp [dictGet], by simp⟩

theorem St.first {n : Nat} : ∀ y ∈ ([] : List (Block C R)), (some n : Option Nat) = some y.seq := by
  simp

theorem scan_spec {q : List (Block C R)} (hq : Readable L w q) : ∀ (l done g : List (Block C R))
    (s : Scanner C R), q = done ++ g ++ l → (∀ x ∈ done, ∀ y ∈ g ++ l, x.seq < y.seq) → St L s g →
    (∀ y ∈ g, y.isEvent → g = [y]) →
    (scan L w s l).2 = none ∧
    List.Forall₂ (Delivers w) (winners (g.filter Block.isCommit ++ l)) (scan L w s l).1
  | [], done, g, s, hsplit, hdone, hs, _ => by
    have hg : ∀ y ∈ g, y ∈ q := fun y hy => by rw [hsplit]; simp [hy]
    obtain ⟨out, h1, h2⟩ := flush_spec hq hs hg (by
      intro z hz y hy he
      rw [hsplit, List.append_nil] at hy
      rcases List.mem_append.1 hy with hy | hy
      · have := hdone y hy z (by simp [hz]); omega
      · exact hy)
    rw [scan_nil hq hs hg, h1]
    simpa using h2
  | b :: bs, done, g, s, hsplit, hdone, hs, hev => by
    have hg : ∀ y ∈ g, y ∈ q := fun y hy => by rw [hsplit]; simp [hy]
    have hb : b ∈ q := by rw [hsplit]; simp
    have hnd := hq.nodup
    rw [hsplit] at hnd
    have hbg : b ∉ g := fun h => by
      have := (List.nodup_append.1 hnd).2.2 b (List.mem_append_right _ h) b List.mem_cons_self
      exact this rfl
    unfold scan
    rw [if_neg (hq.pos b hb)]
    have hord := hq.sorted
    rw [hsplit] at hord
    have hbs : ∀ y ∈ bs, b.seq ≤ y.seq := by
      have := (List.pairwise_append.1 hord).2.1
      exact (List.pairwise_cons.1 this).1
    by_cases hsq : s.seq = some b.seq
    · -- the same sequence number
      rw [if_neg (by simp [hsq])]
      dsimp only
      have hgne : ∃ y, y ∈ g := by
        cases g with
        | nil => rw [hs.start rfl] at hsq; cases hsq
        | cons y ys => exact ⟨y, by simp⟩
      obtain ⟨y, hy⟩ := hgne
      have hys : y.seq = b.seq := by
        have := hs.seq y hy
        rw [hsq] at this
        exact (Option.some.inj this).symm
      have hbne : ¬ b.isEvent := fun h => by
        have := hq.alone b hb y (hg y hy) h hys
        subst this; exact hbg hy
      have hgev : ∀ x ∈ g, ¬ x.isEvent := fun x hx h => by
        have e1 := hs.seq x hx
        rw [hsq] at e1
        have := hq.alone x (hg x hx) b hb h (Option.some.inj e1)
        subst this; exact hbg hx
      have hne : looksEvent L b.val = false := by
        cases h : looksEvent L b.val with
        | false => rfl
        | true => exact absurd ((hq.plain b hb).1.1 h) hbne
      rw [if_neg (by simp [hne])]
      dsimp only
      have ih := scan_spec hq bs done (g ++ [b]) _ (by rw [hsplit]; simp)
        (by intro x hx z hz; exact hdone x hx z (by simpa using hz)) (hs.push hq hg hb hsq hne)
        (by
          intro z hz hze
          rcases List.mem_append.1 hz with hz | hz
          · exact absurd hze (hgev z hz)
          · rw [List.mem_singleton.1 hz] at hze; exact absurd hze hbne)
      refine ⟨ih.1, ?_⟩
      have e : winners ((g ++ [b]).filter Block.isCommit ++ bs) = winners (g.filter Block.isCommit ++ b :: bs) := by
        rw [List.filter_append, List.append_assoc]
        cases hbc : b.isCommit with
        | true => simp [hbc]
        | false => rw [winners_skip (not_log hbne hbc)]; simp [hbc]
      rw [← e]
      simpa using ih.2
    · rw [if_pos hsq]
      have hlt : ∀ x ∈ done ++ g, x.seq < b.seq := by
        intro x hx
        rcases List.mem_append.1 hx with hx' | hx'
        · exact hdone x hx' b (by simp)
        · have h1 := (List.pairwise_append.1 hord).2.2 x hx b List.mem_cons_self
          have h2 : x.seq ≠ b.seq := fun h => hsq (by rw [hs.seq x hx', h])
          omega
      obtain ⟨out, h1, h2⟩ := flush_spec hq hs hg (by
        intro z hz y hy he
        rw [hsplit] at hy
        rcases List.mem_append.1 hy with hy | hy
        · rcases List.mem_append.1 hy with hy | hy
          · have := hdone y hy z (by simp [hz]); omega
          · exact hy
        · exfalso
          have k1 := hlt z (List.mem_append_right _ hz)
          rcases List.mem_cons.1 hy with rfl | hy
          · omega
          · have := hbs y hy; omega)
      rw [h1]
      dsimp only
      have hdone' : ∀ x ∈ done ++ g, ∀ y ∈ [b] ++ bs, x.seq < y.seq := by
        intro x hx y hy
        have k1 := hlt x hx
        rcases List.mem_append.1 hy with hy | hy
        · rw [List.mem_singleton.1 hy]; exact k1
        · have := hbs y hy; omega
      rw [winners_append (fun x hx y hy => hdone' x (List.mem_append_right _ (List.mem_filter.1 hx).1) y
        (by simpa using hy))]
      cases hne : looksEvent L b.val with
      | true =>
        rw [if_pos rfl]
        have hbe := (hq.plain b hb).1.1 hne
        have ih := scan_spec hq bs (done ++ g) [b] ⟨some b.seq, none, []⟩ (by rw [hsplit]; simp)
          hdone' ⟨by simp, by simp, by simp [dictGet, hne], by
            have : b.isCommit = false := by
              cases h : b.isCommit with
              | false => rfl
              | true => exact absurd hbe (isCommit_not_event h)
            simp [this]⟩
          (by intro y hy _; rw [List.mem_singleton.1 hy])
        have hbl : b.isLog = true := by
          rw [isLog_marker]; exact hbe.marker
        have hbc : b.isCommit = false := by
          cases h : b.isCommit with
          | false => rfl
          | true => exact absurd hbe (isCommit_not_event h)
        refine ⟨ih.1, ?_⟩
        dsimp only
        refine List.rel_append h2 ?_
        have hany : (bs.any fun m => m.isLog && m.seq == b.seq) = false := by
          simp only [List.any_eq_false, Bool.and_eq_true, beq_iff_eq, not_and]
          intro m hm _ he
          have hmq : m ∈ q := by rw [hsplit]; simp [hm]
          have := hq.alone b hb m hmq hbe he
          subst this
          exact (List.nodup_cons.1 (List.nodup_append.1 hnd).2.1).1 hm
        rw [winners, hbl, hany]
        refine .cons ?_ ?_
        · unfold Delivers
          unfold Block.isEvent at hbe
          revert hbe
          cases b.val <;> simp
        · have := ih.2
          rw [List.filter_cons, if_neg (by simp [hbc])] at this
          exact this
      | false =>
        rw [if_neg (by simp)]
        have hbne : ¬ b.isEvent := fun h => by
          rw [(hq.plain b hb).1.2 h] at hne; cases hne
        have hst : St L ({ (⟨some b.seq, none, []⟩ : Scanner C R) with
            blocks := dictSet [] (L.hash b.val) (some b),
            commit := if looksCommit L b.val then some b else none }) ([b]) := by
          refine ⟨by simp, by simp, ?_, ?_⟩
          · intro c x
            dsimp only
            rw [dictGet_dictSet]
            by_cases hc : c = L.hash b.val
            · rw [if_pos hc]
              constructor
              · intro h; cases h; exact ⟨b, by simp, hne, hc.symm, rfl⟩
              · rintro ⟨y, hy, _, _, rfl⟩; rw [List.mem_singleton.1 hy]
            · rw [if_neg hc]
              constructor
              · intro h; cases h
              · rintro ⟨y, hy, _, h, _⟩
                rw [List.mem_singleton.1 hy] at h
                exact absurd h.symm hc
          · dsimp only
            rw [(hq.plain b hb).2]
            cases hbc : b.isCommit <;> simp [hbc]
        have ih := scan_spec hq bs (done ++ g) [b] _ (by rw [hsplit]; simp) hdone' hst
          (by intro y hy _; rw [List.mem_singleton.1 hy])
        refine ⟨ih.1, ?_⟩
        dsimp only
        refine List.rel_append h2 ?_
        have e : winners ([b].filter Block.isCommit ++ bs) = winners (b :: bs) := by
          cases hbc : b.isCommit with
          | true => simp [hbc]
          | false =>
            have := winners_skip (not_log hbne hbc) [] bs
            rw [List.nil_append, List.nil_append] at this
            rw [this]; simp [hbc]
        rw [← e]
        exact ih.2

theorem readEvents_winners {q : List (Block C R)} (hq : Readable L w q) :
    (readEvents L w q).2 = none ∧ List.Forall₂ (Delivers w) (winners q) (readEvents L w q).1 := by
  have := scan_spec hq q [] [] ⟨none, none, []⟩ (by simp) (by simp) .init (by simp)
  unfold readEvents
  simpa using this

theorem Orderly.readable {q : List (Block C R)} (hq : Orderly L w q) : Readable L w q :=
  ⟨hq.sorted, hq.nodup, hq.stored, hq.whole, hq.addr, hq.pos, hq.marked, hq.alone, hq.plain, hq.ops⟩

theorem readEvents_spec {q : List (Block C R)} (hq : Orderly L w q) :
    (readEvents L w q).2 = none ∧
    List.Forall₂ (Delivers w) (q.filter Block.isLog) (readEvents L w q).1 := by
  rw [← winners_unique hq.nodup hq.unique]
  exact readEvents_winners hq.readable

end

end Arroba.Store
