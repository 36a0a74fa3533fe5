import Verif.Firehose.Joint
import Verif.Firehose.MirrorProofs
import Verif.Storage.FreshProofs
import Verif.Props.C38

/-! Helper lemmas for C66. -/

namespace Arroba.Fire

variable {cfg : Cfg} {p : Nat} {s s' : State}

theorem act_lastSeq (hr : Reach cfg false s) (a : Act) (hs : act cfg false s a = some s') :
    s'.lastSeq = s.lastSeq ∨ ∃ e ∈ s.stored, s'.lastSeq = e.seq := by
  cases a <;> first
    | (simp only [Fire.act] at hs
       repeat' (first | (split at hs) | (cases hs; done))
       all_goals
         (cases hs
          left
          (try unfold State.merge); (try unfold State.handoff); (repeat' split) <;> rfl))
    | skip
  rename_i now
  simp only [Fire.act] at hs
  split at hs
  · rename_i sc e hc
    split at hs
    · cases hs; exact .inl rfl
    · cases hs; exact .inl rfl
    · cases hs
      exact .inr ⟨e, hr.inv.core.got sc e hc, rfl⟩
  · cases hs

end Arroba.Fire

namespace Arroba.Store

open Arroba.Tree

section
variable {C R : Type} [DecidableEq C] {L : Lib C R} {Z : Nat} {be : Backend} {al : Allow} {u x w w' : World C R}
  {cfg : Fire.Cfg} {p : Nat} {s : Fire.State}

/-- What is stored later has a larger sequence number. -/
theorem later_seq (hL : L.OK Z) (hi : ¬ al.imports) (hw : Reach L be al w)
    (h : Relation.ReflTransGen (Step L be al) w w') : Reach L be al w' ∧ w.last ≤ w'.last ∧ Grows w.blocks w'.blocks ∧
    ∀ c b, w'.read c = some b → w.read c = some b ∨ w.last < b.seq := by
  induction h with
  | refl => exact ⟨hw, le_refl _, fun _ _ h => h, fun _ _ h => .inl h⟩
  | @tail y z _ hs ih =>
    obtain ⟨i1, i2, i3, i4⟩ := ih
    refine ⟨.step i1 hs, i2.trans hs.last_le, Grows.trans i3 hs.puts.grows, fun c b hb => ?_⟩
    rcases (hs.makes (lo := w.last) ⟨(i1.plain hL).1.pos, i2⟩).get hb with g | ⟨_, g, _⟩
    · exact i4 c b g
    · rcases g with g | ⟨g, _⟩
      · exact .inr g
      · exact absurd g hi

/-- No two commits or events have the same number. -/
theorem Logged.unique (hL : L.OK Z) (hp : ¬ al.partway) (hi : ¬ al.imports) (hplain : PlainRecords L)
    (hw : Reach L be al w) {a b : Block C R} {n m : Nat} (ha : Logged L w n none a) (hb : Logged L w m none b)
    (h : a.seq = b.seq) : a = b := by
  have hq := C30_memory_blocks hw (L := L) 0 none
  have ho := Reach.orderly_list hL hp hplain hw (fun h => absurd h hi) hq
  have key : ∀ {b : Block C R} {n : Nat}, Logged L w n none b →
      b ∈ readBlocksMemory w 0 none ∧ b.isLog = true := by
    rintro b n ⟨h1, h2, _, h4⟩
    refine ⟨(hq.mem b).2 ⟨h1, Nat.zero_le _, h4⟩, ?_⟩
    unfold Block.isLog
    rcases h2 with ⟨co, h2⟩ | ⟨e, h2⟩ <;> rw [h2]
  exact ho.unique a (key ha).1 b (key hb).1 (key ha).2 (key hb).2 h

theorem Logged.grow {b : Block C R} {n : Nat} {r : Option Did} (h : Logged L w n r b) (hg : Grows w.blocks w'.blocks) :
    Logged L w' n r b := ⟨hg _ _ h.1, h.2⟩

theorem Logged.le_last (hL : L.OK Z) (hw : Reach L be al w) {b : Block C R} {n : Nat} {r : Option Did}
    (h : Logged L w n r b) : b.seq ≤ w.last := (hw.plain hL).1.core.blocks.seqs _ _ h.1

/-- What is known about the joint states. -/
structure JointOK (L : Lib C R) (be : Backend) (al : Allow) (cfg : Fire.Cfg) (p : Nat) (w : World C R)
    (s : Fire.State) : Prop where
  reach : Reach L be al w
  order : Fire.InOrder cfg p s
  logged : ∀ e ∈ s.stored, ∃ b, Logged L w 0 none b ∧ b.seq = e.seq
  todo : ∀ b, Logged L w 0 none b → (∃ e ∈ s.stored, e.seq = b.seq) ∨
    s.lastSeq < b.seq ∧ ∀ x ∈ s.stored, x.seq < b.seq
  last : s.lastSeq ≤ w.last

theorem JointOK.le (hL : L.OK Z) (h : JointOK L be al cfg p w s) {e : Fire.Ev} (he : e ∈ s.stored) : e.seq ≤ w.last := by
  obtain ⟨b, h1, h2⟩ := h.logged e he
  rw [← h2]
  exact (h.reach.plain hL).1.core.blocks.seqs _ _ h1.1

theorem Joint.ok (hL : L.OK Z) (hi : ¬ al.imports) (h : Joint L be al cfg p w s) : JointOK L be al cfg p w s := by
  induction h with
  | @start w stored events now hw h hd hp hm hn hl =>
    have hle : ∀ e ∈ stored, e.seq ≤ w.last := by
      intro e he
      obtain ⟨b, h1, h2⟩ := (hl e.seq).1 ⟨e, he, rfl⟩
      rw [← h2]
      exact (hw.plain hL).1.core.blocks.seqs _ _ h1.1
    refine ⟨hw, .init now h hd hp hm hn, fun e he => ?_, fun b hb => .inl ((hl _).2 ⟨b, hb, rfl⟩), ?_⟩
    · obtain ⟨b, h1, h2⟩ := (hl e.seq).1 ⟨e, he, rfl⟩
      exact ⟨b, h1, h2⟩
    · show (match (Fire.lastN cfg.window events).getLast? with
        | some e => e.seq
        | none => w.last) ≤ w.last
      split
      · rename_i e he
        exact hle e ((hm e).1 ((Fire.lastN_suffix _ _).mem (List.mem_of_getLast? he))).1
      · exact le_refl _
  | @serve w w' s h hs ih =>
    obtain ⟨k1, k2, k3, k4⟩ := later_seq hL hi ih.reach (.single hs)
    refine ⟨k1, ih.order, fun e he => ?_, fun b hb => ?_, ih.last.trans k2⟩
    · obtain ⟨b, h1, h2⟩ := ih.logged e he
      exact ⟨b, h1.grow k3, h2⟩
    · rcases k4 _ _ hb.1 with g | g
      · exact ih.todo b ⟨g, hb.2⟩
      · refine .inr ⟨Nat.lt_of_le_of_lt ih.last g, fun x hx => Nat.lt_of_le_of_lt (ih.le hL hx) g⟩
  | @«show» w s s' h e b hb he hprev hs ih =>
    have hne : ∀ x ∈ s.stored, x.seq ≠ e.seq := by
      simp only [Fire.act] at hs
      split at hs
      · rename_i hc
        simpa using hc.2
      · cases hs
    have hlt : s.lastSeq < e.seq ∧ ∀ x ∈ s.stored, x.seq < e.seq := by
      rcases ih.todo b hb with ⟨x, hx, g⟩ | g
      · exact absurd (g.trans he) (hne x hx)
      · rw [← he]; exact g
    have hst : s'.stored = e :: s.stored ∧ s'.lastSeq = s.lastSeq := by
      simp only [Fire.act] at hs
      split at hs
      · cases hs; exact ⟨rfl, rfl⟩
      · cases hs
    refine ⟨ih.reach, .step _ ih.order hs ?_ ?_ ?_, fun y hy => ?_, fun b' hb' => ?_, hst.2 ▸ ih.last⟩
    · rintro _ ⟨⟩; exact hlt
    · rintro _ _ ⟨⟩
    · rintro _ ⟨⟩
    · rw [hst.1] at hy
      rcases List.mem_cons.1 hy with rfl | hy
      · exact ⟨b, hb, he⟩
      · exact ih.logged y hy
    · rw [hst.1, hst.2]
      rcases ih.todo b' hb' with ⟨y, hy, g⟩ | g
      · exact .inl ⟨y, .tail _ hy, g⟩
      · rcases Nat.lt_trichotomy b'.seq e.seq with k | k | k
        · obtain ⟨y, hy, g'⟩ := hprev b' hb' k
          exact .inl ⟨y, .tail _ hy, g'⟩
        · exact .inl ⟨e, .head _, k.symm⟩
        · refine .inr ⟨g.1, fun y hy => ?_⟩
          rcases List.mem_cons.1 hy with rfl | hy
          · exact k
          · exact g.2 y hy
  | @fire w s s' h a hs h1 h2 h3 ih =>
    have hst := Fire.act_stored_eq a hs h1
    have hl := Fire.act_lastSeq ih.order.reach a hs
    refine ⟨ih.reach, .step a ih.order hs (fun e he => absurd he (h1 e)) h2 h3, hst ▸ ih.logged, fun b hb => ?_, ?_⟩
    · rw [hst]
      rcases ih.todo b hb with g | g
      · exact .inl g
      · refine .inr ⟨?_, g.2⟩
        rcases hl with e | ⟨x, hx, e⟩
        · rw [e]; exact g.1
        · rw [e]; exact g.2 x hx
    · rcases hl with e | ⟨x, hx, e⟩
      · rw [e]; exact ih.last
      · rw [e]; exact ih.le hL hx

/-! ### Messages stay right -/

omit [DecidableEq C] in
theorem _root_.Arroba.Xrpc.Inside.grow' [DecidableEq C] {h c : C} (hi : Xrpc.Inside w h c) (hg : Grows w.blocks w'.blocks) : Xrpc.Inside w' h c := by
  induction hi with
  | head => exact .head
  | root h hv => exact .root (hg _ _ h) hv
  | left _ h hv hc ih => exact .left ih (hg _ _ h) hv hc
  | tree _ h hv he hc ih => exact .tree ih (hg _ _ h) hv he hc
  | record _ h hv he ih => exact .record ih (hg _ _ h) hv he

theorem CommitShows.grow (hL : L.OK Z) {n n' : Nat} (hw : Core L Z n w) (hw' : Core L Z n' w')
    (hg : Grows w.blocks w'.blocks) {c : C} {b : Block C R} {co : Commit C} (hb : w.read c = some b)
    (hv : b.val = .commit co) {m : Key → Option R} (h : CommitShows L w c m) : CommitShows L w' c m := by
  obtain ⟨m', hr⟩ := hw.blocks.root hb hv
  have := (hr.commitShows hL hw hb hv).unique h
  subst this
  exact (hr.grow hg).commitShows hL hw' (hg _ _ hb) hv

/-- A message that describes a commit goes on doing so. -/
theorem Describes.grow (hL : L.OK Z) (ht : ¬ al.torn) (hi : ¬ al.imports) (hw : Reach L be al w)
    (h : Relation.ReflTransGen (Step L be al) w w') {b : Block C R} {co : Commit C} {p : Payload C R}
    (hb : w.read (L.hash b.val) = some b) (hv : b.val = .commit co) (hd : Describes L w b co p) :
    Describes L w' b co p := by
  obtain ⟨hw', _, hg, hnew⟩ := later_seq hL hi hw h
  have hc := (hw.inv hL ht).1.core
  have hc' := (hw'.inv hL ht).1.core
  refine { hd with prevData := ?_, new := ?_, only := ?_, effect := ?_ }
  · have := hd.prevData
    split
    · rename_i hn; rw [hn] at this; exact this
    · rename_i q hn
      rw [hn] at this
      obtain ⟨b', co', h1, h2, h3⟩ := this
      exact ⟨b', co', hg _ _ h1, h2, h3⟩
  · intro y hy hs
    rcases hnew _ _ hy with g | g
    · exact hd.new y g hs
    · have := (hw.plain hL).1.core.blocks.seqs _ _ hb
      omega
  · intro c v hcv
    obtain ⟨h1, y, h2, h3, h4⟩ := hd.only c v hcv
    refine ⟨h1, y, hg _ _ h2, h3, ?_⟩
    rcases h4 with h4 | h4 | h4
    · exact .inl h4
    · exact .inr (.inl h4)
    · exact .inr (.inr (h4.grow' hg))
  · obtain ⟨m, m', e1, e2, e3⟩ := hd.effect
    refine ⟨m, m', ?_, e2.grow hL hc hc' hg hb hv, e3⟩
    have hpd := hd.prevData
    split
    · rename_i hn; rw [hn] at e1; exact e1
    · rename_i q hn
      rw [hn] at e1 hpd
      obtain ⟨b', co', h1, h2, _⟩ := hpd
      exact e1.grow hL hc hc' hg h1 h2

theorem Announces.grow (hL : L.OK Z) (ht : ¬ al.torn) (hi : ¬ al.imports) (hw : Reach L be al w)
    (h : Relation.ReflTransGen (Step L be al) w w') {b : Block C R} {msg : Message C R}
    (hb : w.read (L.hash b.val) = some b) (ha : Announces L w b msg) : Announces L w' b msg := by
  unfold Announces at ha ⊢
  cases hv : b.val with
  | node d => rw [hv] at ha; exact ha.elim
  | record r => rw [hv] at ha; exact ha.elim
  | event e => rw [hv] at ha; exact ha
  | commit co =>
    rw [hv] at ha
    obtain ⟨p, h1, h2⟩ := ha
    exact ⟨p, h1, h2.grow hL ht hi hw h hb hv⟩

theorem Announces.seq (hL : L.OK Z) (hw : Reach L be al w) {b : Block C R} {msg : Message C R}
    (hb : w.read (L.hash b.val) = some b) (ha : Announces L w b msg) : msg.seq = some b.seq := by
  unfold Announces at ha
  cases hv : b.val with
  | node d => rw [hv] at ha; exact ha.elim
  | record r => rw [hv] at ha; exact ha.elim
  | event e =>
    rw [hv] at ha
    dsimp only at ha
    rw [ha]
    unfold Message.seq
    exact congrArg some ((hw.plain hL).1.core.blocks.events _ _ e hb hv).1
  | commit co =>
    rw [hv] at ha
    obtain ⟨p, rfl, h2⟩ := ha
    exact congrArg some h2.seq

theorem forall₂_mem_right {α β : Type} {P : α → β → Prop} {a : List α} {l : List β} (h : List.Forall₂ P a l) {y : β}
    (hy : y ∈ l) : ∃ x ∈ a, P x y := by
  induction h with
  | nil => cases hy
  | cons h1 _ ih =>
    rcases List.mem_cons.1 hy with rfl | hy
    · exact ⟨_, .head _, h1⟩
    · obtain ⟨x, hx, h⟩ := ih hy
      exact ⟨x, .tail _ hx, h⟩

/-- A message with number `n` is the right one for the commit or event with that number. -/
theorem MadeFor.announces (hL : L.OK Z) (ht : ¬ al.torn) (hp : ¬ al.partway) (hi : ¬ al.imports) (hplain : PlainRecords L)
    {n : Nat} {msg : Message C R} (h : MadeFor L be al w n msg) {b : Block C R} (hb : Logged L w 0 none b)
    (hn : b.seq = n) : Announces L w b msg := by
  obtain ⟨w', v, start, q, s, h1, h2, h3, h4, h5, h6, h7, h8⟩ := h
  obtain ⟨hw, _, hg, _⟩ := later_seq hL hi h1 h2
  obtain ⟨ms, _, k2, k3⟩ := C57_messages_partial hL ht hp hplain h1 h4 h3 (fun h => absurd h hi) h5
  obtain ⟨b', hb', msg', e1, e2⟩ := forall₂_mem_right k3 h6
  rw [h7] at e1
  cases e1
  have hlog := (k2 b').1 hb'
  have hs := e2.seq hL h1 hlog.1
  rw [h8] at hs
  have : b' = b := (hlog.grow hg).unique hL hp hi hplain hw hb (by rw [hn]; exact (Option.some.inj hs).symm)
  subst this
  exact e2.grow hL ht hi h1 h2 hlog.1

/-- The right messages, one after the other, lead from heads to heads. -/
theorem mirror_linked (hL : L.OK Z) {n : Nat} (hw : Core L Z n w) {ms : List (Block C R)} {msgs : List (Message C R)}
    (hf : List.Forall₂ (Announces L w) ms msgs) : ∀ {H H' : Did → Option C} {s : Mirror R},
      (∀ b ∈ ms, w.read (L.hash b.val) = some b) → Linked L H (ms.filter Block.isCommit) H' →
      MirrorsHeads L w H s → MirrorsHeads L w H' (msgs.foldl Mirror.next s) := by
  induction hf with
  | nil => intro H H' s _ hl hm; cases hl; exact hm
  | @cons b msg ms msgs hd _ ih =>
    intro H H' s hrd hl hm
    unfold Announces at hd
    have hin : ∀ b ∈ ms, w.read (L.hash b.val) = some b := fun b hb => hrd b (.tail _ hb)
    cases hval : b.val with
    | node d => rw [hval] at hd; exact hd.elim
    | record r => rw [hval] at hd; exact hd.elim
    | event ev =>
      rw [hval] at hd
      dsimp only at hd
      rw [List.filter_cons_of_neg (by simp [Block.isCommit, hval])] at hl
      rw [List.foldl_cons, hd]
      exact ih hin hl hm
    | commit co =>
      rw [hval] at hd
      dsimp only at hd
      obtain ⟨p, rfl, hdesc⟩ := hd
      rw [List.filter_cons_of_pos (by simp [Block.isCommit, hval])] at hl
      cases hl with
      | @cons _ _ _ co' _ hv' hp' hl' =>
        rw [hval] at hv'; cases hv'
        have hdid : isDid co.did := hw.blocks.did (hrd b (.head _)) hval
        exact ih hin hl' (hm.next hL (t := "#commit".toList) hdid hp' hdesc)

end

end Arroba.Store
