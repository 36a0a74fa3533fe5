import Verif.Storage.ConcurrentLog
import Verif.Storage.GroupProofs

/-! Helper lemmas: what concurrent commits leave in the log, when transactions are aborted and calls fail at any time. -/

namespace Arroba.Store

variable {C R : Type} [DecidableEq C]

open Arroba.Tree

section
variable {L : Lib C R} {Z : Nat}

/-- The blocks that a call is about to write. As `Batch`, but the commit may be stored already, by an earlier attempt. -/
structure Bundle (L : Lib C R) (blocks : List (C × Block C R)) (cd : CommitData C R) (bs : List (Block C R)) : Prop where
  members : ∀ b ∈ bs, PartOf L cd b
  made : ∃ co key nonce, cd.commit.val = .commit co ∧ Tid.intToTid 0 cd.commit.seq (some 0) = .ok co.rev ∧
    co.sig = L.sign key { co with sig := [] } nonce
  ops : ∀ ops, cd.commit.ops = some ops → ∀ op ∈ ops, op.action ≠ .delete → ∃ r, op.cid = some (L.rcid r) ∧
    (Has L blocks (.record r) ∨ .record r ∈ bs.map (·.val))

theorem Bundle.keeps {a b : List (C × Block C R)} (hk : Retains L a b) {cd : CommitData C R} {bs : List (Block C R)}
    (h : Bundle L a cd bs) : Bundle L b cd bs :=
  ⟨h.members, h.made, fun ops ho op hop hd => by
    obtain ⟨r, h1, h2⟩ := h.ops ops ho op hop hd
    exact ⟨r, h1, h2.imp_left (hk _)⟩⟩

def PcAny (L : Lib C R) (old blocks : List (C × Block C R)) : Pc C R → Prop
  | .applied seq _ _ st => MadeRecords L seq st
  | .built _ _ cd => Bundle L blocks cd (cd.blocks.map (·.2)) ∧ ∀ x ∈ cd.blocks, x.1 = L.hash x.2.val
  | .queried _ _ cd new => Bundle L blocks cd new ∧ ∀ b ∈ new, dictGet old (L.hash b.val) = none
  | _ => True

theorem PcAny.keeps {old a b : List (C × Block C R)} (hk : Retains L a b) {p : Pc C R} (h : PcAny L old a p) :
    PcAny L old b p := by
  cases p with
  | built _ _ cd => exact ⟨h.1.keeps hk, h.2⟩
  | queried _ _ cd new => exact ⟨h.1.keeps hk, h.2⟩
  | _ => exact h

/-- `W`: the calls that have written a commit, with the commit; a call can have written several. What was stored at the beginning
(`old`) still is, and everything else belongs to one of these commits, or is an event. -/
structure UInv (L : Lib C R) (Z : Nat) (job : Nat → Job R) (lo : Nat) (old : List (C × Block C R))
    (W : List (Nat × CommitData C R)) (s : CState C R) : Prop where
  keep : ∀ c b, dictGet old c = some b → s.w.read c = some b
  blk : ∀ c b, s.w.read c = some b → dictGet old c = some b ∨ (∃ x ∈ W, PartOf L x.2 b) ∨
    (lo ≤ b.seq ∧ b.seq < s.w.next ∧ (∃ e, b.val = .event e) ∧ (∀ i, (s.pc i).seq ≠ some b.seq) ∧
      ∀ x ∈ W, x.2.commit.seq ≠ b.seq)
  evs : ∀ c b e, s.w.read c = some b → b.val = .event e → e.seq = b.seq ∧ b.seq < s.w.next
  same : ∀ c c' b b' e e', s.w.read c = some b → s.w.read c' = some b' → b.val = .event e → b'.val = .event e' →
    lo ≤ b.seq → b.seq = b'.seq → c = c'
  com : ∀ x ∈ W, (lo ≤ x.2.commit.seq ∧ x.2.commit.seq < s.w.next) ∧
    (∃ row, Entry L Z s.w.blocks (job x.1) [] row x.2) ∧
    (∀ ops, x.2.commit.ops = some ops → POps L s.w.blocks ops) ∧ ∃ co, x.2.commit.val = .commit co ∧ Later L lo co
  own : ∀ x ∈ W, ∀ k, (s.pc k).seq = some x.2.commit.seq → k = x.1
  one : ∀ x ∈ W, ∀ y ∈ W, x.2.commit.seq = y.2.commit.seq → x.1 = y.1
  wrote : ∀ k cd, (s.pc k).wrote = some cd → (k, cd) ∈ W
  pcs : ∀ i, PcAny L old s.w.blocks (s.pc i)

variable {job : Nat → Job R} {lo : Nat} {old : List (C × Block C R)} {W : List (Nat × CommitData C R)} {s s' : CState C R}

/-- An action that stores nothing. -/
theorem UInv.move (h : UInv L Z job lo old W s)
    (hb : s'.w.blocks = s.w.blocks) (hn : s.w.next ≤ s'.w.next) {i : Nat} {p : Pc C R}
    (hpc : ∀ k, s'.pc k = if k = i then p else s.pc k)
    (hs : ∀ n, p.seq = some n → (s.pc i).seq = some n ∨ s.w.next ≤ n)
    (hw : p.wrote = (s.pc i).wrote ∨ p.wrote = none) (hp : PcAny L old s.w.blocks p) :
    UInv L Z job lo old W s' := by
  have hrd : ∀ c, s'.w.read c = s.w.read c := by intro c; unfold World.read; rw [hb]
  refine ⟨fun c b hc => by rw [hrd]; exact h.keep c b hc, fun c b hc => ?_, fun c b e hc hv => ?_,
    fun c c' b b' e e' hc hc' => ?_, fun x hx => ?_, fun x hx k hk => ?_, h.one, fun k cd hk => ?_, fun k => ?_⟩
  · rw [hrd] at hc
    rcases h.blk c b hc with h1 | h1 | ⟨h0, h1, h2, h3, h4⟩
    · exact .inl h1
    · exact .inr (.inl h1)
    · refine .inr (.inr ⟨h0, by omega, h2, fun k hk => ?_, h4⟩)
      rw [hpc] at hk
      split at hk
      · rename_i he
        subst he
        rcases hs _ hk with h' | h'
        · exact h3 _ h'
        · omega
      · exact h3 _ hk
  · rw [hrd] at hc
    obtain ⟨h1, h2⟩ := h.evs c b e hc hv
    exact ⟨h1, by omega⟩
  · rw [hrd] at hc hc'
    exact h.same c c' b b' e e' hc hc'
  · obtain ⟨⟨c0, c0'⟩, c1⟩ := h.com x hx
    rw [hb]
    exact ⟨⟨c0, by omega⟩, c1⟩
  · rw [hpc] at hk
    split at hk
    · rename_i he
      subst he
      rcases hs _ hk with h' | h'
      · exact h.own x hx _ h'
      · have := (h.com x hx).1.2
        omega
    · exact h.own x hx _ hk
  · rw [hpc] at hk
    split at hk
    · rename_i he
      subst he
      rcases hw with hw | hw
      · exact h.wrote _ _ (hw ▸ hk)
      · rw [hw] at hk; cases hk
    · exact h.wrote _ _ hk
  · rw [hpc, hb]
    split
    · exact hp
    · exact h.pcs k

theorem UInv.written (hL : L.OK Z) (hc : CInv L Z job lo s) (h : UInv L Z job lo old W s) {i : Nat} {row : Row C} {ver : Nat}
    {cd : CommitData C R} {new : List (Block C R)} (hpc : s.pc i = .queried row ver cd new) :
    UInv L Z job lo old ((i, cd) :: W)
      ({ s with w := { s.w with blocks := overwrite L s.w.blocks new } }.at i (.written row ver cd)) := by
  have hb : Bundle L s.w.blocks cd new ∧ ∀ b ∈ new, dictGet old (L.hash b.val) = none := by
    have := h.pcs i; rw [hpc] at this; exact this
  obtain ⟨hb, hnew⟩ := hb
  have hp := hc.pcs i
  rw [hpc] at hp
  obtain ⟨_, he⟩ := hp
  have hi : (s.pc i).seq = some cd.commit.seq := by rw [hpc]; rfl
  have hhas := fun v => has_overwrite hL.inj new (blocks := s.w.blocks) v
  have hk : Retains L s.w.blocks (overwrite L s.w.blocks new) := fun v hv => (hhas v).2 (.inl hv)
  obtain ⟨co, key, nonce, m1, m2, m3⟩ := hb.made
  have hsq : ∀ k, (({ s with w := { s.w with blocks := overwrite L s.w.blocks new } }.at i (.written row ver cd)).pc k).seq =
      (s.pc k).seq := by
    intro k
    simp only [CState.at, Function.update_apply]
    split
    · rename_i he; rw [he, hi]; rfl
    · rfl
  have hnoev : ∀ b ∈ new, ∀ e, b.val ≠ .event e := by
    intro b hb' e hv
    rcases (hb.members b hb').2 with ⟨r, g, _⟩ | ⟨d, g⟩ | rfl
    · rw [hv] at g; cases g
    · rw [hv] at g; cases g
    · rw [hv] at m1; cases m1
  have hold : ∀ c b e, dictGet (overwrite L s.w.blocks new) c = some b → b.val = .event e → s.w.read c = some b := by
    intro c b e hg hv
    rcases get_overwrite (L := L) c new s.w.blocks with ⟨x, x1, _, x3⟩ | ⟨_, x2⟩
    · rw [hg] at x3; cases x3
      exact absurd hv (hnoev b x1 e)
    · rw [x2] at hg; exact hg
  refine ⟨fun c b hg => ?_, fun c b hg => ?_, fun c b e hg hv => ?_, fun c c' b b' e e' hg hg' hv hv' => ?_,
    fun x hx => ?_, fun x hx k hk' => ?_, fun x hx y hy hxy => ?_, fun k cd' hk' => ?_, fun k => ?_⟩
  · show dictGet (overwrite L s.w.blocks new) c = some b
    rcases get_overwrite (L := L) c new s.w.blocks with ⟨x, x1, x2, _⟩ | ⟨_, x2⟩
    · have := hnew x x1
      rw [x2, hg] at this; cases this
    · rw [x2]; exact h.keep c b hg
  · have hg : dictGet (overwrite L s.w.blocks new) c = some b := hg
    rcases get_overwrite (L := L) c new s.w.blocks with ⟨x, x1, _, x3⟩ | ⟨_, x2⟩
    · rw [hg] at x3; cases x3
      exact .inr (.inl ⟨(i, cd), List.mem_cons_self, hb.members b x1⟩)
    · rw [x2] at hg
      rcases h.blk c b hg with h1 | ⟨x, h1, h2⟩ | ⟨h0, h1, h2, h3, h4⟩
      · exact .inl h1
      · exact .inr (.inl ⟨x, List.mem_cons_of_mem _ h1, h2⟩)
      · refine .inr (.inr ⟨h0, h1, h2, fun k => by rw [hsq]; exact h3 k, fun x hx => ?_⟩)
        rcases List.mem_cons.1 hx with rfl | hx
        · exact fun he => h3 i (by rw [hi, he])
        · exact h4 x hx
  · exact h.evs c b e (hold c b e hg hv) hv
  · exact h.same c c' b b' e e' (hold c b e hg hv) (hold c' b' e' hg' hv') hv hv'
  · rcases List.mem_cons.1 hx with rfl | hx
    · refine ⟨hc.seqs i _ hi, ⟨row, he.move hk (fun v hv => .inl ((hhas v).2 hv)) (by simp)⟩, fun ops ho op hop hd => ?_,
        co, m1, _, key, nonce, (hc.seqs i _ hi).1, m2, m3⟩
      obtain ⟨r, h1, h2⟩ := hb.ops ops ho op hop hd
      exact ⟨r, h1, (hhas _).2 h2⟩
    · obtain ⟨c0, ⟨row', c2⟩, c3, c4⟩ := h.com x hx
      exact ⟨c0, ⟨row', c2.move hk (fun v hv => .inl (hk v (by simpa using hv))) (by simp)⟩,
        fun ops ho => (c3 ops ho).keeps hk, c4⟩
  · rw [hsq] at hk'
    rcases List.mem_cons.1 hx with rfl | hx
    · exact hc.distinct _ _ _ hk' hi
    · exact h.own x hx k hk'
  · rcases List.mem_cons.1 hx with rfl | hx <;> rcases List.mem_cons.1 hy with rfl | hy
    · rfl
    · exact h.own y hy i (by rw [hi]; exact congrArg some hxy)
    · exact (h.own x hx i (by rw [hi]; exact congrArg some hxy.symm)).symm
    · exact h.one x hx y hy hxy
  · simp only [CState.at, Function.update_apply] at hk'
    split at hk'
    · rename_i hki
      subst hki
      cases hk'
      exact List.mem_cons_self
    · exact List.mem_cons_of_mem _ (h.wrote k cd' hk')
  · simp only [CState.at, Function.update_apply]
    split
    · trivial
    · exact (h.pcs k).keeps hk

theorem UInv.event (hL : L.OK Z) (hc : CInv L Z job lo s) (h : UInv L Z job lo old W s) (d : Did) (kind : EventKind C) (t : Nat) :
    UInv L Z job lo old W (storeEvent L s d kind t) := by
  obtain ⟨a1, a2, a3, a4⟩ := alloc_fresh s.w
  let v : Val C R := .event ⟨kind, s.w.alloc.1, d, t⟩
  let b : Block C R := ⟨v, s.w.alloc.1, none, d⟩
  have hrd : ∀ c x, (storeEvent L s d kind t).w.read c = some x → (c = L.hash v ∧ x = b) ∨ s.w.read c = some x := by
    intro c x hx
    have hx : dictGet (dictSetDefault s.w.blocks (L.hash v) b) c = some x := hx
    rw [dictGet_dictSetDefault] at hx
    split at hx
    · rename_i y hy
      rw [← hx]; exact .inr hy
    · split at hx
      · rename_i he
        cases hx
        exact .inl ⟨he.symm, rfl⟩
      · cases hx
  have hg := putBlocks_grows (L := L) [b] s.w.blocks
  have hk : Retains L s.w.blocks (putBlocks L s.w.blocks [b]) := fun v hv => hv.grow hg
  have hn : (storeEvent L s d kind t).w.next = s.w.next + 1 := a2
  refine ⟨fun c x hx => hg _ _ (h.keep c x hx), fun c x hx => ?_, fun c x e hx hv => ?_,
    fun c c' x x' e e' hx hx' hv hv' hlo heq => ?_, fun x hx => ?_, h.own, h.one, h.wrote, fun k => ?_⟩
  · rcases hrd c x hx with ⟨rfl, rfl⟩ | hx
    · have hlo := hc.next
      refine .inr (.inr ⟨?_, ?_, ⟨_, rfl⟩, fun i hi => ?_, fun x hx he => ?_⟩)
      · show lo ≤ s.w.alloc.1; omega
      · rw [hn]; show s.w.alloc.1 < _; omega
      · have := (hc.seqs i _ hi).2
        have : s.w.alloc.1 < s.w.next := this
        omega
      · have := (h.com x hx).1.2
        have : x.2.commit.seq = s.w.alloc.1 := he
        omega
    · rcases h.blk c x hx with h1 | h1 | ⟨h0, h1, h2⟩
      · exact .inl h1
      · exact .inr (.inl h1)
      · exact .inr (.inr ⟨h0, by omega, h2⟩)
  · rcases hrd c x hx with ⟨rfl, rfl⟩ | hx
    · cases hv
      refine ⟨rfl, ?_⟩
      rw [hn]; show s.w.alloc.1 < _; omega
    · obtain ⟨h1, h2⟩ := h.evs c x e hx hv
      exact ⟨h1, by omega⟩
  · rcases hrd c x hx with ⟨rfl, rfl⟩ | hx <;> rcases hrd c' x' hx' with ⟨rfl, rfl⟩ | hx'
    · rfl
    · have := (h.evs c' x' e' hx' hv').2
      have : s.w.alloc.1 = x'.seq := heq
      omega
    · have := (h.evs c x e hx hv).2
      have : x.seq = s.w.alloc.1 := heq
      omega
    · exact h.same c c' x x' e e' hx hx' hv hv' hlo heq
  · obtain ⟨c0, ⟨row, c2⟩, c3, c4⟩ := h.com x hx
    exact ⟨⟨c0.1, by omega⟩, ⟨row, c2.move hk (fun v hv => .inl (hk v (by simpa using hv))) (by simp)⟩,
      fun ops ho => (c3 ops ho).keeps hk, c4⟩
  · exact (h.pcs k).keeps hk

theorem UInv.stepCall (hL : L.OK Z) (hc : CInv L Z job lo s) (h : UInv L Z job lo old W s) {i nonce : Nat}
    (hs : Store.stepCall L job s i nonce = some s') : UInv L Z job lo old W s' ∨
      ∃ row ver cd, s'.pc i = .written row ver cd ∧ UInv L Z job lo old ((i, cd) :: W) s' := by
  have hp := hc.pcs i
  have hg : ∀ p : Pc C R, p.wrote = none → (∀ n, p.seq = some n → (s.pc i).seq = some n) → PcAny L old s.w.blocks p →
      UInv L Z job lo old W (s.at i p) := fun p h1 h2 h3 =>
    h.move rfl (le_refl _) (fun k => by simp only [CState.at, Function.update_apply]) (fun n hn => .inl (h2 n hn)) (.inr h1) h3
  have hq := h.pcs i
  have hfail : ∀ e, UInv L Z job lo old W (s.at i (.failed e)) := fun e => hg _ rfl (fun n hn => nomatch hn) trivial
  unfold Store.stepCall at hs
  dsimp only at hs
  cases hpc : s.pc i with
  | start =>
    rw [hpc] at hs
    cases hs
    obtain ⟨a1, a2, a3, a4⟩ := alloc_fresh s.w
    refine .inl (h.move (i := i) (p := .ready s.w.alloc.1) rfl ?_ (fun k => by simp only [CState.at, Function.update_apply])
      (fun n hn => ?_) (.inr rfl) trivial)
    · show s.w.next ≤ s.w.alloc.2.next; omega
    · cases hn; right; omega
  | ready seq =>
    rw [hpc] at hs
    dsimp only at hs
    split at hs
    · cases hs; exact .inl (hfail _)
    · split at hs
      · cases hs; exact .inl (hfail _)
      · cases hs
        exact .inl (hg _ rfl (fun n hn => by rw [hpc]; exact hn) trivial)
  | loaded seq row ver co =>
    rw [hpc] at hs hp
    dsimp only at hs
    obtain ⟨h1, h2, h3, m, h4⟩ := hp
    split at hs
    · cases hs; exact .inl (hfail _)
    · obtain ⟨l, t, g1, g2, g3⟩ := (h4.root hc.addr).2.load
      have hl : PLoop L Z s.w.blocks seq (job i).did ⟨load co.data, [], []⟩ := ⟨⟨l, t, _, g1⟩, by simp, by simp⟩
      have hws := hl.writes hL (ws := (job i).writes)
      rw [show s.w.rd = nodeIn s.w.blocks from rfl] at hs
      split at hs
      · cases hs; exact .inl (hfail _)
      · rename_i st hst
        rw [hst] at hws
        cases hs
        refine .inl (hg _ rfl (fun n hn => by rw [hpc]; exact hn) ⟨fun x hx => ?_, hws.ops⟩)
        obtain ⟨r, e1, e2, _⟩ := hws.new x hx
        exact ⟨r, _, e1, e2⟩
  | applied seq row ver st =>
    rw [hpc] at hs hp hq
    dsimp only at hs
    obtain ⟨h1, m, m', h2, h3, h4, h5, h6⟩ := hp
    rw [show s.w.rd = nodeIn s.w.blocks from rfl] at hs
    cases hb : buildCommit L (nodeIn s.w.blocks) st row.key nonce seq (job i).did (some row.head) with
    | error e => rw [hb] at hs; cases hs; exact .inl (hfail _)
    | ok cd =>
      rw [hb] at hs
      cases hs
      obtain ⟨co, g1, _⟩ := buildCommit_pending hL hc.addr hc.store h6 hb
      have hseq : cd.commit.seq = seq := by rw [g1]
      obtain ⟨k1, k2⟩ := buildCommit_batch hL h6 hq hb
      exact .inl (hg _ rfl (fun n hn => by rw [hpc]; rw [← hseq]; exact hn) ⟨⟨k1.members, k1.made, k1.ops⟩, k2⟩)
  | built row ver cd =>
    rw [hpc] at hs hp hq
    cases hs
    obtain ⟨hb, hx⟩ := hq
    refine .inl (hg _ rfl (fun n hn => by rw [hpc]; exact hn) ?_)
    have hm := missing_spec hL hc.addr hx
    have hsub : ∀ b ∈ missing s.w.blocks cd.blocks, b ∈ cd.blocks.map (·.2) ∧ dictGet s.w.blocks (L.hash b.val) = none := by
      intro b hb
      obtain ⟨x, hx', rfl⟩ := List.mem_map.1 hb
      obtain ⟨g1, g2⟩ := List.mem_filter.1 hx'
      refine ⟨List.mem_map.2 ⟨x, g1, rfl⟩, ?_⟩
      rw [← hx x g1]
      simpa using g2
    refine ⟨⟨fun b hb' => hb.members b (hsub b hb').1, hb.made, fun ops ho op hop hd => ?_⟩, fun b hb' => ?_⟩
    · obtain ⟨r, h1, h2⟩ := hb.ops ops ho op hop hd
      rw [List.map_map] at h2
      exact ⟨r, h1, hm.1 _ h2⟩
    · cases hd : dictGet old (L.hash b.val) with
      | none => rfl
      | some x =>
        have := h.keep _ _ hd
        rw [show s.w.read _ = dictGet s.w.blocks _ from rfl, (hsub b hb').2] at this
        cases this
  | queried row ver cd new =>
    rw [hpc] at hs
    cases hs
    exact .inr ⟨row, ver, cd, by simp [CState.at], h.written hL hc hpc⟩
  | written row ver cd =>
    rw [hpc] at hs
    dsimp only at hs
    split at hs
    · cases hs
      exact .inl (h.move (i := i) (p := .done cd) rfl (le_refl _) (fun k => by simp only [CState.at, Function.update_apply])
        (fun n hn => .inl (by rw [hpc]; exact hn)) (.inl (by rw [hpc]; rfl)) trivial)
    · cases hs
  | done cd => rw [hpc] at hs; cases hs
  | failed e => rw [hpc] at hs; cases hs

theorem UInv.act (hL : L.OK Z) (hc : CInv L Z job lo s) (h : UInv L Z job lo old W s) {a : Act C}
    (hs : s.act L job a = some s') : UInv L Z job lo old W s' ∨
      ∃ i nonce row ver cd, a = .step i nonce ∧ s'.pc i = .written row ver cd ∧ UInv L Z job lo old ((i, cd) :: W) s' := by
  have hg : ∀ i (p : Pc C R), p.wrote = none → (∀ n, p.seq = some n → (s.pc i).seq = some n) →
      PcAny L old s.w.blocks p → UInv L Z job lo old W (s.at i p) := fun i p h1 h2 h3 =>
    h.move rfl (le_refl _) (fun k => by simp only [CState.at, Function.update_apply]) (fun n hn => .inl (h2 n hn)) (.inr h1) h3
  cases a with
  | step i nonce =>
    rcases h.stepCall hL hc hs with h | ⟨row, ver, cd, h1, h2⟩
    · exact .inl h
    · exact .inr ⟨i, nonce, row, ver, cd, rfl, h1, h2⟩
  | abort i =>
    left
    simp only [CState.act, abortCall] at hs
    cases hpc : s.pc i with
    | start => rw [hpc] at hs; cases hs
    | ready _ => rw [hpc] at hs; cases hs
    | done _ => rw [hpc] at hs; cases hs
    | failed _ => rw [hpc] at hs; cases hs
    | _ =>
      rw [hpc] at hs; cases hs
      exact hg i _ rfl (fun n hn => by rw [hpc]; exact hn) trivial
  | fail i e =>
    left
    simp only [CState.act, failCall] at hs
    cases hpc : s.pc i with
    | done cd => rw [hpc] at hs; cases hs
    | failed e' => rw [hpc] at hs; cases hs
    | _ => rw [hpc] at hs; cases hs; exact hg i _ rfl (fun n hn => nomatch hn) trivial
  | setStatus d st =>
    left
    simp only [CState.act, setStatusRow] at hs
    cases hr : dictGet s.w.rows d with
    | none => rw [hr] at hs; cases hs
    | some row =>
      rw [hr] at hs
      cases hs
      refine h.move (i := 0) (p := s.pc 0) rfl (le_refl _) (fun k => ?_) (fun n hn => .inl hn) (.inl rfl) (h.pcs 0)
      split
      · rename_i he; rw [he]
      · rfl
  | event d kind t =>
    simp only [CState.act] at hs
    cases hs
    exact .inl (h.event hL hc d kind t)

theorem UInv.init (hL : L.OK Z) {al : Allow} {w : World C R} (h : Reach L .datastore al w)
    (job : Nat → Job R) : UInv L Z job w.next w.blocks [] (.init w) := by
  obtain ⟨hw, _⟩ := h.plain hL
  have hb := hw.core.blocks
  have hlast : w.last < w.next := by
    have := hw.pos
    unfold World.last World.next
    omega
  refine ⟨fun c b hc => hc, fun c b hc => .inl hc, fun c b e hc hv => ?_, fun c c' b b' e e' hc _ _ _ hlo => ?_,
    by simp, by simp, by simp, fun i cd hi => (nomatch hi), fun i => trivial⟩
  · have := hb.seqs c b hc
    exact ⟨(hb.events c b e hc hv).1, by show b.seq < w.next; omega⟩
  · have := hb.seqs c b hc
    omega

theorem UInv.run (hL : L.OK Z) (hj : ∀ i, isDid (job i).did) :
    ∀ {as : List (Act C)} {W : List (Nat × CommitData C R)} {s s' : CState C R}, CInv L Z job lo s → UInv L Z job lo old W s →
    s.run L job as = some s' → ∃ W', UInv L Z job lo old W' s'
  | [], W, s, s', _, h, hs => by cases hs; exact ⟨W, h⟩
  | a :: as, W, s, s', hc, h, hs => by
    unfold CState.run at hs
    cases ha : s.act L job a with
    | none => rw [ha] at hs; cases hs
    | some s1 =>
      rw [ha] at hs
      rcases h.act hL hc ha with h | ⟨_, _, _, _, _, _, _, h⟩
      · exact h.run hL hj (hc.act hL hj ha).1 hs
      · exact h.run hL hj (hc.act hL hj ha).1 hs

end

end Arroba.Store
