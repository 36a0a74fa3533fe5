import Verif.Firehose.Backfill
import Verif.Props.C25
import Verif.Props.C53
import Verif.Props.C63
import Verif.Props.C66

/-! Helper lemmas for C80. -/

namespace Arroba.Fire

/-- What a live subscriber has yielded is in the log. -/
theorem yielded_stored {cfg : Cfg} {p : Nat} {s : State} (h : InOrder cfg p s) {i : Nat} (hl : s.loc i = .live)
    (hq : s.col.locked = false) {e : Ev} (he : e ∈ s.out i) : e ∈ s.stored := by
  have hr := h.reach
  have hmem := List.mem_append_left (s.queue i) he
  rw [C37_live_partial hr hl hq] at hmem
  rcases List.mem_append.1 hmem with g | g
  · have := h.old.kept i
    unfold Kept at this
    rw [show (s.view i).loc = .live from hl] at this
    exact this.1 e g
  · exact hr.inv.core.inStored e (List.mem_append_right s.merged (List.mem_of_mem_drop g))

end Arroba.Fire

namespace Arroba.Store

open Arroba.Tree

section
variable {C R : Type} [DecidableEq C] {L : Lib C R} {Z : Nat} {be : Backend} {al : Allow} {u x w : World C R}

theorem carCommit_eq {car : Xrpc.Car C R} (hn : (car.blocks.map (·.1)).Nodup) {c : C} {co : Commit C}
    (h : (c, .commit co) ∈ car.blocks) : carCommit car c = some co := by
  unfold carCommit
  have : ∀ {l : List (C × Val C R)}, (l.map (·.1)).Nodup → (c, .commit co) ∈ l →
      l.find? (fun b => decide (b.1 = c)) = some (c, .commit co) := by
    intro l
    induction l with
    | nil => intro _ h; cases h
    | cons a l ih =>
      intro hn h
      rw [List.map_cons, List.nodup_cons] at hn
      rcases List.mem_cons.1 h with h | h
      · rw [← h, List.find?_cons_of_pos (by simp)]
      · have hne : a.1 ≠ c := by
          rintro rfl
          exact hn.1 (List.mem_map.2 ⟨_, h, rfl⟩)
        rw [List.find?_cons_of_neg (by simpa using hne), ih hn.2 h]
  rw [this hn h]

/-- The copy `s` is that of the commit `c`, whose sequence number is `n`. -/
def CopyAt (L : Lib C R) (w : World C R) (s : Copy C R) (c : C) (n : Nat) : Prop :=
  ∃ b co, w.read c = some b ∧ b.val = .commit co ∧ b.seq = n ∧ co.rev = s.rev ∧ co.data = s.data ∧
    CommitShows L w c s.records

/-- The message for a commit that follows the copy. -/
theorem CopyAt.next (hL : L.OK Z) (hrev : ∀ c b co, w.read c = some b → b.val = .commit co →
      Tid.intToTid 0 b.seq (some 0) = .ok co.rev) {s : Copy C R} {c : C} {n : Nat} (h : CopyAt L w s c n)
    {b : Block C R} {co : Commit C} {p : Payload C R} {t : List Char} (hb : w.read (L.hash b.val) = some b)
    (hv : b.val = .commit co) (hp : co.prev = none ∨ co.prev = some c) (hn : n < b.seq) (hm : Describes L w b co p) :
    ∃ s', s.next co.did (.commit t p) = some s' ∧ CopyAt L w s' (L.hash b.val) b.seq := by
  obtain ⟨b0, co0, h1, h2, h3, h4, h5, h6⟩ := h
  have hlt : s.rev < p.rev := by
    rw [hm.rev, ← h4]
    exact rev_lt (hrev _ _ _ h1 h2) (hrev _ _ _ hb hv) (by omega)
  have hcc : carCommit p.blocks p.commit = some co := by
    refine carCommit_eq hm.nodup ?_
    rw [hm.commit, ← hv]
    exact hm.new b hb rfl
  obtain ⟨m, m', e1, e2, e3, _⟩ := hm.effect
  have hfold := mirrorOps hL hm.nodup e3 hm.records
  have hpd := hm.prevData
  unfold Copy.next
  dsimp only
  rw [if_pos ⟨hm.repo, hlt⟩]
  cases hpr : co.prev with
  | none =>
    rw [hpr] at hpd e1
    dsimp only at hpd e1
    subst e1
    rw [if_pos hpd, hcc, hfold]
    exact ⟨_, rfl, b, co, hb, hv, rfl, hm.rev.symm, rfl, e2⟩
  | some q =>
    rw [hpr] at hpd e1 hp
    dsimp only at hpd e1
    obtain ⟨b', co', k1, k2, hpd⟩ := hpd
    have hq : q = c := by
      rcases hp with h | h
      · cases h
      · exact Option.some.inj h
    subst hq
    rw [h1] at k1; cases k1
    rw [h2] at k2; cases k2
    have hmm : m = s.records := e1.unique h6
    subst hmm
    rw [if_neg (by rw [hpd]; simp), if_pos (by rw [hpd, h5]), hcc, hfold]
    exact ⟨_, rfl, b, co, hb, hv, rfl, hm.rev.symm, rfl, e2⟩

/-- A message for an old commit is skipped. -/
theorem CopyAt.skip (hrev : ∀ c b co, w.read c = some b → b.val = .commit co →
      Tid.intToTid 0 b.seq (some 0) = .ok co.rev) {s : Copy C R} {c : C} {n : Nat} (h : CopyAt L w s c n)
    {b : Block C R} {co : Commit C} {p : Payload C R} {t : List Char} (hb : w.read (L.hash b.val) = some b)
    (hv : b.val = .commit co) (hn : b.seq ≤ n) (hm : Describes L w b co p) {d : Did} :
    s.next d (.commit t p) = some s := by
  obtain ⟨b0, co0, h1, h2, h3, h4, h5, h6⟩ := h
  have hge : ¬ s.rev < p.rev := by
    rw [hm.rev, ← h4]
    intro hlt
    have r1 := hrev _ _ _ h1 h2
    have r2 := hrev _ _ _ hb hv
    rcases Nat.lt_or_ge b.seq b0.seq with h | h
    · exact absurd (List.lt_trans hlt (rev_lt r2 r1 h)) (List.lt_irrefl _)
    · rw [show b.seq = b0.seq by omega, r1] at r2
      have hh : co0.rev = co.rev := Except.ok.inj r2
      rw [hh] at hlt
      exact List.lt_irrefl _ hlt
  unfold Copy.next
  dsimp only
  rw [if_neg (fun h => hge h.2)]

/-- A copy that is right goes on being right. -/
theorem copy_linked (hL : L.OK Z) (hrev : ∀ c b co, w.read c = some b → b.val = .commit co →
      Tid.intToTid 0 b.seq (some 0) = .ok co.rev) {d : Did} {ul n₀ : Nat} {ms : List (Block C R)}
    {msgs : List (Message C R)} (hf : List.Forall₂ (Announces L w) ms msgs) :
    ∀ {H H' : Did → Option C} {s : Copy C R} {c : C} {n : Nat}, (∀ b ∈ ms, w.read (L.hash b.val) = some b) →
      ms.Pairwise (fun a b => a.seq < b.seq) →
      (∀ b ∈ ms, b.seq ≤ ul → ∀ co, b.val = .commit co → co.did = d → b.seq ≤ n₀) →
      Linked L H (ms.filter fun b => b.isCommit && decide (ul < b.seq)) H' → H d = some c → CopyAt L w s c n → n₀ ≤ n →
      (∀ b ∈ ms, ul < b.seq → n < b.seq) →
      ∃ s' c' n', msgs.foldlM (Copy.next d) s = some s' ∧ H' d = some c' ∧ CopyAt L w s' c' n' := by
  induction hf with
  | nil => intro H H' s c n _ _ _ hl hc hs _ _; cases hl; exact ⟨s, c, n, rfl, hc, hs⟩
  | @cons b msg ms msgs hd _ ih =>
    intro H H' s c n hrd hpw hold hl hc hs hn₀ hnew
    have hrd' : ∀ b ∈ ms, w.read (L.hash b.val) = some b := fun b hb => hrd b (.tail _ hb)
    rw [List.pairwise_cons] at hpw
    have hold' : ∀ b ∈ ms, b.seq ≤ ul → ∀ co, b.val = .commit co → co.did = d → b.seq ≤ n₀ :=
      fun b hb => hold b (.tail _ hb)
    have hnew' : ∀ b ∈ ms, ul < b.seq → n < b.seq := fun b hb => hnew b (.tail _ hb)
    rw [List.foldlM_cons]
    unfold Announces at hd
    cases hval : b.val with
    | node x => rw [hval] at hd; exact hd.elim
    | record r => rw [hval] at hd; exact hd.elim
    | event ev =>
      rw [hval] at hd
      dsimp only at hd
      subst hd
      rw [List.filter_cons_of_neg (by simp [Block.isCommit, hval])] at hl
      exact ih hrd' hpw.2 hold' hl hc hs hn₀ hnew'
    | commit co =>
      rw [hval] at hd
      dsimp only at hd
      obtain ⟨p, rfl, hdesc⟩ := hd
      by_cases hul : ul < b.seq
      · rw [List.filter_cons_of_pos (by simp [Block.isCommit, hval, hul])] at hl
        cases hl with
        | @cons _ _ _ co' _ hv' hp' hl' =>
          rw [hval] at hv'; cases hv'
          by_cases hdd : co.did = d
          · subst hdd
            rw [hc] at hp'
            obtain ⟨s', g1, g2⟩ := hs.next hL hrev (t := "#commit".toList) (hrd b (.head _)) hval hp'
              (hnew b (.head _) hul) hdesc
            rw [g1]
            exact ih hrd' hpw.2 hold' hl' (Function.update_self ..) g2
              (hn₀.trans (Nat.le_of_lt (hnew b (.head _) hul))) (fun y hy _ => hpw.1 y hy)
          · have hsame : s.next d (.commit "#commit".toList p) = some s := by
              unfold Copy.next
              dsimp only
              rw [if_neg (fun h => hdd (by rw [← hdesc.repo]; exact h.1))]
            rw [hsame]
            exact ih hrd' hpw.2 hold' hl' (by rw [Function.update_of_ne (Ne.symm hdd)]; exact hc) hs hn₀ hnew'
      · rw [List.filter_cons_of_neg (by simp [hul])] at hl
        have hsame : s.next d (.commit "#commit".toList p) = some s := by
          by_cases hdd : co.did = d
          · exact hs.skip hrev (hrd b (.head _)) hval
              ((hold b (.head _) (by omega) co hval hdd).trans hn₀) hdesc
          · unfold Copy.next
            dsimp only
            rw [if_neg (fun h => hdd (by rw [← hdesc.repo]; exact h.1))]
        rw [hsame]
        exact ih hrd' hpw.2 hold' hl hc hs hn₀ hnew'

omit [DecidableEq C] in
/-- The head of a repo is the newest of its commits. -/
theorem Linked.newest {H H' : Did → Option C} {bs : List (Block C R)} (h : Linked L H bs H') :
    bs.Pairwise (fun a b => a.seq < b.seq) → ∀ d,
      ((∀ b ∈ bs, ∀ co, b.val = .commit co → co.did ≠ d) ∧ H' d = H d) ∨
      ∃ b ∈ bs, H' d = some (L.hash b.val) ∧ ∀ b' ∈ bs, ∀ co, b'.val = .commit co → co.did = d → b'.seq ≤ b.seq := by
  induction h with
  | nil H => intro _ d; exact .inl ⟨fun b hb => (nomatch hb), rfl⟩
  | @cons H H' b co bs hv hp h ih =>
    intro hpw d
    rw [List.pairwise_cons] at hpw
    rcases ih hpw.2 d with ⟨h1, h2⟩ | ⟨y, hy, h1, h2⟩
    · by_cases hdd : co.did = d
      · right
        subst hdd
        refine ⟨b, .head _, by rw [h2, Function.update_self], fun b' hb' co' hv' hco' => ?_⟩
        rcases List.mem_cons.1 hb' with rfl | hb'
        · exact Nat.le_refl _
        · exact absurd hco' (h1 b' hb' co' hv')
      · left
        refine ⟨fun b' hb' co' hv' => ?_, by rw [h2, Function.update_of_ne (Ne.symm hdd)]⟩
        rcases List.mem_cons.1 hb' with rfl | hb'
        · rw [hv] at hv'; cases hv'; exact hdd
        · exact h1 b' hb' co' hv'
    · right
      refine ⟨y, .tail _ hy, h1, fun b' hb' co' hv' hco' => ?_⟩
      rcases List.mem_cons.1 hb' with rfl | hb'
      · exact Nat.le_of_lt (hpw.1 y hy)
      · exact h2 b' hb' co' hv' hco'

theorem Reach.steps (h : Reach L be al u) : Relation.ReflTransGen (Step L be al) .empty u := by
  induction h with
  | empty => exact .refl
  | step _ h' ih => exact .tail ih h'

/-- In a history without failed commits and imports, the head of a repo has the largest sequence number of its
commits. -/
theorem head_newest (hL : L.OK Z) (hp : ¬ al.partway) (hra : ¬ al.raising) (hi : ¬ al.imports)
    (hplain : PlainRecords L) (hu : Reach L be al u) {d : Did} {c : C} {b : Block C R}
    (hc : headOf L be u d = some c) (hb : u.read c = some b) {b' : Block C R} {co : Commit C}
    (hb' : u.read (L.hash b'.val) = some b') (hv : b'.val = .commit co) (hd : co.did = d) : b'.seq ≤ b.seq := by
  obtain ⟨_, _, _, hlink⟩ := linked_reach hL hp hra hi (.empty (L := L) (be := be) (al := al)) hu.steps
  obtain ⟨_, ms, h1, h2, _⟩ := C30_log_partial hL hp hplain hu (fun h => absurd h hi)
    (C30_memory_blocks hu (L := L) 1 none)
  have hl := hlink (ms.filter Block.isCommit) (h1.filter _) (by
    intro b
    have h0 : (World.empty : World C R).last = 0 := rfl
    rw [List.mem_filter, h2 b, h0]
    unfold Logged
    constructor
    · rintro ⟨⟨g1, _, g3, _⟩, g5⟩
      exact ⟨g1, g5, by omega⟩
    · rintro ⟨g1, g2, g3⟩
      exact ⟨⟨g1, .inl (Block.isCommit_iff.1 g2), by omega, .inl rfl⟩, g2⟩)
  have hmem : b' ∈ ms.filter Block.isCommit := List.mem_filter.2
    ⟨(h2 b').2 ⟨hb', .inl ⟨co, hv⟩, hu.native hL hi hb', .inl rfl⟩, Block.isCommit_iff.2 ⟨co, hv⟩⟩
  rcases hl.newest (h1.filter _) d with ⟨g1, _⟩ | ⟨y, hy, g1, g2⟩
  · exact absurd hd (g1 b' hmem co hv)
  · rw [hc] at g1
    cases g1
    have hyr := ((h2 y).1 (List.mem_filter.1 hy).1).1
    rw [hyr] at hb
    cases hb
    exact g2 b' hmem co hv hd

/-- The sequence number in the rev. -/
theorem Reach.revs (hL : L.OK Z) (hi : ¬ al.imports) (hw : Reach L be al w) {c : C} {b : Block C R} {co : Commit C}
    (hb : w.read c = some b) (hv : b.val = .commit co) : Tid.intToTid 0 b.seq (some 0) = .ok co.rev := by
  obtain ⟨bs, _, h2, _⟩ := C25_chain hL hi hw hb hv
  obtain ⟨co', h3, _, _, _, h5⟩ := h2 b (.head _)
  rw [hv] at h3; cases h3
  exact h5

/-- A consumer whose copy was right at some time (`u`), and that has since applied, in order, the messages for all events
that came into the log until some later time (`x`), and possibly for older ones. -/
theorem copy_numbers (hL : L.OK Z) (ht : ¬ al.torn) (hp : ¬ al.partway) (hra : ¬ al.raising) (hi : ¬ al.imports)
    (hplain : PlainRecords L) (hu : Reach L be al u) (hux : Relation.ReflTransGen (Step L be al) u x)
    (hxw : Relation.ReflTransGen (Step L be al) x w) {d : Did} (hd : isDid d) {s : Copy C R} (hs : IsCopy L be u d s)
    {nums : List Nat} (hpw : nums.Pairwise (· < ·)) (hn : ∀ n ∈ nums, ∃ b, Logged L x 0 none b ∧ b.seq = n)
    (hall : ∀ b, Logged L x 0 none b → u.last < b.seq → b.seq ∈ nums) {msgs : List (Message C R)}
    (hmsgs : List.Forall₂ (MadeFor L be al w) nums msgs) :
    ∃ s', msgs.foldlM (Copy.next d) s = some s' ∧ IsCopy L be x d s' := by
  obtain ⟨hrx, hlu, hgu, hlink⟩ := linked_reach hL hp hra hi hu hux
  obtain ⟨_, _, _, hnewu⟩ := later_seq hL hi hu hux
  obtain ⟨hrw, hlx, hgx, hnew⟩ := later_seq hL hi hrx hxw
  have hwu := (hu.inv hL ht).1
  have hwx := (hrx.inv hL ht).1
  have hww := (hrw.inv hL ht).1
  obtain ⟨_, ms', h1, h2, _⟩ := C30_log_partial hL hp hplain hrx (fun h => absurd h hi)
    (C30_memory_blocks hrx (L := L) 0 none)
  -- the blocks of the messages
  let ms := ms'.filter fun b => decide (b.seq ∈ nums)
  have hms : ∀ b, b ∈ ms ↔ Logged L x 0 none b ∧ b.seq ∈ nums := fun b => by
    rw [List.mem_filter, h2 b, decide_eq_true_eq]
  have hmsp : ms.Pairwise (fun a b => a.seq < b.seq) := h1.filter _
  have hnum : ms.map (·.seq) = nums := by
    refine map_ascending (List.pairwise_map.2 hmsp) hpw fun n => ?_
    rw [List.mem_map]
    constructor
    · rintro ⟨b, hb, rfl⟩; exact ((hms b).1 hb).2
    · intro h
      obtain ⟨b, hb, rfl⟩ := hn n h
      exact ⟨b, (hms b).2 ⟨hb, h⟩, rfl⟩
  have hann : List.Forall₂ (Announces L w) ms msgs := by
    have hlogs : ∀ b ∈ ms, Logged L w 0 none b := fun b hb => by
      obtain ⟨g1, g2, _, g4⟩ := ((hms b).1 hb).1
      exact ⟨hgx _ _ g1, g2, Nat.zero_le _, g4⟩
    have key : ∀ {es : List Nat} {msgs : List (Message C R)}
        (_ : List.Forall₂ (MadeFor L be al w) es msgs) {ms : List (Block C R)},
        ms.map (·.seq) = es → (∀ b ∈ ms, Logged L w 0 none b) → List.Forall₂ (Announces L w) ms msgs := by
      intro es msgs hf
      induction hf with
      | nil => intro ms h _; rw [List.map_eq_nil_iff] at h; subst h; exact .nil
      | @cons e msg es msgs hd _ ih =>
        intro ms h hin
        cases ms with
        | nil => cases h
        | cons b ms =>
          rw [List.map_cons, List.cons.injEq] at h
          exact .cons (hd.announces hL ht hp hi hplain (hin b (.head _)) h.1)
            (ih h.2 fun b hb => hin b (.tail _ hb))
    exact key hmsgs hnum hlogs
  have hl := hlink (ms.filter fun b => b.isCommit && decide (u.last < b.seq)) (hmsp.filter _) (by
    intro b
    rw [List.mem_filter, hms b, Bool.and_eq_true, decide_eq_true_eq]
    unfold Logged
    constructor
    · rintro ⟨⟨⟨g1, _⟩, _⟩, g5, g6⟩
      exact ⟨g1, g5, g6⟩
    · rintro ⟨g1, g2, g3⟩
      have hlg : Logged L x 0 none b := ⟨g1, .inl (Block.isCommit_iff.1 g2), Nat.zero_le _, .inl rfl⟩
      exact ⟨⟨hlg, hall b hlg g3⟩, g2, g3⟩)
  obtain ⟨⟨head, b0, co0, i1, i2, i3, i4, i5⟩, i6⟩ := hs
  rw [readHead_eq hL hwu.core hd] at i1
  have hat : CopyAt L w s head b0.seq := by
    refine ⟨b0, co0, hgx _ _ (hgu _ _ i2), i3, rfl, i4, i5, ?_⟩
    obtain ⟨c, k1, k2⟩ := (shows_head hL hwu.core hww.core (hgu.trans hgx) hd s.records).1 i6
    rw [i1] at k1; cases k1
    exact k2
  obtain ⟨s', c', n', g1, g2, b', co', g3, g4, g5, g6, g7, g8⟩ := copy_linked hL
    (fun c b co h1 h2 => hrw.revs hL hi h1 h2) hann (d := d) (ul := u.last) (n₀ := b0.seq)
    (fun b hb => hgx _ _ ((hms b).1 hb).1.1) hmsp
    (fun b hb hle co hv hco => by
      rcases hnewu _ _ ((hms b).1 hb).1.1 with g | g
      · exact head_newest hL hp hra hi hplain hu i1 i2 g hv hco
      · omega)
    hl i1 hat (Nat.le_refl _)
    (fun b hb hlt => Nat.lt_of_le_of_lt (hwu.core.blocks.seqs _ _ i2) hlt)
  obtain ⟨bx, cox, j1, j2, j3, m', j4⟩ := head_root hwx.core g2
  have hbx := hgx _ _ j1
  rw [show dictGet w.blocks c' = w.read c' from rfl, g3] at hbx
  cases hbx
  rw [g4] at j2; cases j2
  refine ⟨s', g1, ⟨c', b', co', ?_, j1, g4, g6, g7⟩, ?_⟩
  · rw [readHead_eq hL hwx.core hd]; exact g2
  · exact (shows_head hL hwx.core hww.core hgx hd s'.records).2 ⟨c', g2, g8⟩

/-- Commits with the same root have the same records. -/
theorem CommitShows.same {c c' : C} {b b' : Block C R} {co co' : Commit C} {m : Key → Option R}
    (h : CommitShows L w c m) (hb : w.read c = some b) (hv : b.val = .commit co) (hb' : w.read c' = some b')
    (hv' : b'.val = .commit co') (hd : co.data = co'.data) : CommitShows L w c' m := by
  rw [Xrpc.commitShows_iff] at h ⊢
  obtain ⟨b1, co1, h1, h2, h3⟩ := h
  rw [hb] at h1; cases h1
  rw [hv] at h2; cases h2
  rw [hd] at h3
  exact ⟨b', co', hb', hv', h3.paths, h3.get, h3.contents⟩

/-- A message made for an event is the right one for some event of the log. -/
theorem MadeFor.some_announces (hL : L.OK Z) (ht : ¬ al.torn) (hp : ¬ al.partway) (hi : ¬ al.imports)
    (hplain : PlainRecords L) {n : Nat} {msg : Message C R} (h : MadeFor L be al w n msg) :
    ∃ b, w.read (L.hash b.val) = some b ∧ Announces L w b msg := by
  obtain ⟨w', v, start, q, s, h1, h2, h3, h4, h5, h6, h7, h8⟩ := h
  obtain ⟨hw, _, hg, _⟩ := later_seq hL hi h1 h2
  obtain ⟨ms, _, k2, k3⟩ := C57_messages_partial hL ht hp hplain h1 h4 h3 (fun h => absurd h hi) h5
  obtain ⟨b', hb', msg', e1, e2⟩ := forall₂_mem_right k3 h6
  rw [h7] at e1
  cases e1
  have hlog := (k2 b').1 hb'
  exact ⟨b', hg _ _ hlog.1, e2.grow hL ht hi h1 h2 hlog.1⟩

/-- Whatever message comes: it is refused, or the copy is again that of a commit. -/
theorem OfCommit.next (hL : L.OK Z) {d : Did} {s s' : Copy C R} (h : OfCommit L w d s) {b : Block C R}
    {msg : Message C R} (hb : w.read (L.hash b.val) = some b) (hm : Announces L w b msg)
    (hn : s.next d msg = some s') : OfCommit L w d s' := by
  unfold Announces at hm
  cases hval : b.val with
  | node x => rw [hval] at hm; exact hm.elim
  | record r => rw [hval] at hm; exact hm.elim
  | event ev =>
    rw [hval] at hm
    dsimp only at hm
    subst hm
    cases hn
    exact h
  | commit co =>
    rw [hval] at hm
    dsimp only at hm
    obtain ⟨p, rfl, hm⟩ := hm
    obtain ⟨m, m', e1, e2, e3, _⟩ := hm.effect
    have hfold := mirrorOps hL hm.nodup e3 hm.records
    have hpd := hm.prevData
    have hcc : carCommit p.blocks p.commit = some co := by
      refine carCommit_eq hm.nodup ?_
      rw [hm.commit, ← hval]
      exact hm.new b hb rfl
    unfold Copy.next at hn
    dsimp only at hn
    split at hn
    · rename_i hif
      rw [hm.repo] at hif
      rw [hcc] at hn
      cases hpr : co.prev with
      | none =>
        rw [hpr] at hpd e1
        dsimp only at hpd e1
        subst e1
        rw [if_pos hpd, hfold] at hn
        cases hn
        exact ⟨_, b, co, hb, hval, hif.1, hm.rev.symm, rfl, e2⟩
      | some q =>
        rw [hpr] at hpd e1
        dsimp only at hpd e1
        obtain ⟨b', co', k1, k2, hpd⟩ := hpd
        rw [if_neg (by rw [hpd]; simp)] at hn
        split at hn
        · rename_i heq
          obtain ⟨c, b0, co0, g1, g2, g3, g4, g5, g6⟩ := h
          have hdata : co0.data = co'.data := by
            rw [g5]
            rw [hpd] at heq
            exact (Option.some.inj heq).symm
          have hmm := (g6.same g1 g2 k1 k2 hdata).unique e1
          rw [hmm, hfold] at hn
          cases hn
          exact ⟨_, b, co, hb, hval, hif.1, hm.rev.symm, rfl, e2⟩
        · cases hn
    · cases hn
      exact h

theorem OfCommit.fold (hL : L.OK Z) {d : Did} {msgs : List (Message C R)} :
    ∀ {s s' : Copy C R}, OfCommit L w d s →
      (∀ msg ∈ msgs, ∃ b, w.read (L.hash b.val) = some b ∧ Announces L w b msg) →
      msgs.foldlM (Copy.next d) s = some s' → OfCommit L w d s' := by
  induction msgs with
  | nil => intro s s' h _ hs; cases hs; exact h
  | cons msg msgs ih =>
    intro s s' h hm hs
    rw [List.foldlM_cons] at hs
    obtain ⟨s1, h1, h2⟩ := Option.bind_eq_some_iff.1 hs
    obtain ⟨b, k1, k2⟩ := hm msg (.head _)
    exact ih (h.next hL k1 k2 h1) (fun m hmem => hm m (.tail _ hmem)) h2

/-- The copy of a repo is that of a commit, also later. -/
theorem IsCopy.ofCommit (hL : L.OK Z) (ht : ¬ al.torn) (hi : ¬ al.imports) (hu : Reach L be al u)
    (huw : Relation.ReflTransGen (Step L be al) u w) {d : Did} (hd : isDid d) {s : Copy C R} (h : IsCopy L be u d s) :
    OfCommit L w d s := by
  obtain ⟨hrw, _, hg, _⟩ := later_seq hL hi hu huw
  have hwu := (hu.inv hL ht).1
  have hww := (hrw.inv hL ht).1
  obtain ⟨⟨head, b0, co0, i1, i2, i3, i4, i5⟩, i6⟩ := h
  rw [readHead_eq hL hwu.core hd] at i1
  obtain ⟨c, k1, k2⟩ := (shows_head hL hwu.core hww.core hg hd s.records).1 i6
  rw [i1] at k1; cases k1
  obtain ⟨bx, cox, j1, j2, j3, _⟩ := head_root hwu.core i1
  rw [show dictGet u.blocks head = u.read head from rfl, i2] at j1; cases j1
  rw [i3] at j2; cases j2
  exact ⟨head, b0, co0, hg _ _ i2, i3, j3, i4, i5, k2⟩

/-- A copy of a commit with the current rev is a copy of the repo. -/
theorem OfCommit.current (hL : L.OK Z) (ht : ¬ al.torn) (hp : ¬ al.partway) (hi : ¬ al.imports) (hplain : PlainRecords L)
    (hw : Reach L be al w) {d : Did} (hd : isDid d) {s : Copy C R} (h : OfCommit L w d s)
    (hrev : ∃ head b co, readHead L be w d = some head ∧ w.read head = some b ∧ b.val = .commit co ∧ co.rev = s.rev) :
    IsCopy L be w d s := by
  have hww := (hw.inv hL ht).1
  obtain ⟨c, b, co, g1, g2, g3, g4, g5, g6⟩ := h
  obtain ⟨head, b', co', k1, k2, k3, k4⟩ := hrev
  have r1 := hw.revs hL hi g1 g2
  have r2 := hw.revs hL hi k2 k3
  have hseq : b.seq = b'.seq := by
    rcases Nat.lt_trichotomy b.seq b'.seq with hlt | heq | hlt
    · have := rev_lt r1 r2 hlt
      rw [g4, k4] at this
      exact absurd this (List.lt_irrefl _)
    · exact heq
    · have := rev_lt r2 r1 hlt
      rw [g4, k4] at this
      exact absurd this (List.lt_irrefl _)
  have ha := hww.core.blocks.addr
  have a1 := ha _ _ g1
  have a2 := ha _ _ k2
  have : b = b' := Logged.unique hL hp hi hplain hw
    ⟨by rw [a1]; exact g1, .inl ⟨co, g2⟩, Nat.zero_le _, .inl rfl⟩
    ⟨by rw [a2]; exact k2, .inl ⟨co', k3⟩, Nat.zero_le _, .inl rfl⟩ hseq
  subst this
  rw [a1] at a2
  subst a2
  rw [g2] at k3; cases k3
  refine ⟨⟨c, b, co, k1, g1, g2, g4, g5⟩, ?_⟩
  rw [readHead_eq hL hww.core hd] at k1
  exact (shows_head hL hww.core hww.core (fun _ _ h => h) hd s.records).2 ⟨c, k1, g6⟩

end

end Arroba.Store

namespace Arroba.Xrpc

open Arroba.Store Arroba.Tree

section
variable {C R : Type} [DecidableEq C] {L : Lib C R} {Z : Nat} {be : Backend} {al : Allow} {u : World C R} {cfg : Config R}
  {ord : Nat → List (Raw C R) → List (Raw C R)} {g : Gate} {q : Key} {d : Did}

/-- What `getRepo` returns contains a copy of the repo, and no other. -/
theorem fetched (hL : L.OK Z) (hu : Reach L be .untorn u) (hord : ∀ f l, (ord f l).Perm l) (hg : g.closed = false)
    (hn : Names cfg be u q d) : ∃ u' car, getRepo cfg L be ord g u q none = (u', .ok car) ∧ (∃ s, Fetched L car s) ∧
      ∀ s, Fetched L car s → IsCopy L be u d s := by
  have hd := hn.isDid hL hu
  have hc := (hu.inv hL (fun h => h)).1.core
  obtain ⟨w', head, hv, rest, h1, h2, h3, h4, h5⟩ := C17_export_partial hL hu hord hg hn
  have h3' := h3
  rw [readHead_eq hL hc hd] at h3'
  obtain ⟨b, co, i1, i2, i3, m, i4⟩ := head_root hc h3'
  have hmem : (head, Val.commit co) ∈ (head, hv) :: rest := (h5 _ _).2 ⟨.head, b, i1, i2⟩
  have hshow := car_shows hL hc i1 i2 i4 (car := ⟨[head], (head, hv) :: rest⟩) h4 (fun c v a a' => (h5 c v).2 ⟨a, a'⟩)
  have hcc := carCommit_eq (car := ⟨[head], (head, hv) :: rest⟩) h4 hmem
  refine ⟨w', _, h1, ⟨⟨co.rev, co.data, m⟩, head, co, rfl, hcc, rfl, rfl, hshow⟩, ?_⟩
  rintro s ⟨head', co', k1, k2, k3, k4, k5⟩
  cases k1
  rw [hcc] at k2; cases k2
  have := k5.unique hshow
  refine ⟨⟨head, b, co, h3, i1, i2, k3, k4⟩, ?_⟩
  rw [this]
  exact (shows_iff hL hc hd).2 ((records_iff hL hc hd m).2 ⟨head, b, co, h3', i1, i2, i3, i4⟩)

end

end Arroba.Xrpc
