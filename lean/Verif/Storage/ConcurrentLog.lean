import Verif.Storage.ConcurrentProofs
import Verif.Storage.EventProofs

/-! Helper lemmas: what concurrent commits leave in the log. -/

namespace Arroba.Store

variable {C R : Type} [DecidableEq C]

open Arroba.Tree

/-- The commit that a call has written. -/
def Pc.wrote : Pc C R → Option (CommitData C R)
  | .written _ _ cd => some cd
  | .done cd => some cd
  | _ => none

section
variable {L : Lib C R} {Z : Nat}

/-- The value of a block that belongs to the commit `cd`. -/
def PartOf (L : Lib C R) (cd : CommitData C R) (b : Block C R) : Prop :=
  b.seq = cd.commit.seq ∧ ((∃ r, b.val = .record r ∧ L.valid r = true) ∨ (∃ d, b.val = .node d) ∨ b = cd.commit)

/-- The blocks that a call is about to write. -/
structure Batch (L : Lib C R) (blocks : List (C × Block C R)) (cd : CommitData C R) (bs : List (Block C R)) :
    Prop where
  members : ∀ b ∈ bs, PartOf L cd b
  commit : cd.commit ∈ bs
  made : ∃ co key nonce, cd.commit.val = .commit co ∧ Tid.intToTid 0 cd.commit.seq (some 0) = .ok co.rev ∧
    co.sig = L.sign key { co with sig := [] } nonce
  ops : ∀ ops, cd.commit.ops = some ops → ∀ op ∈ ops, op.action ≠ .delete → ∃ r, op.cid = some (L.rcid r) ∧
    (Has L blocks (.record r) ∨ .record r ∈ bs.map (·.val))

/-- The records that a call has made. -/
structure MadeRecords (L : Lib C R) (seq : Nat) (st : LoopState C R) : Prop where
  new : ∀ x ∈ st.blocks, ∃ r did, x = (L.rcid r, ⟨.record r, seq, none, did⟩) ∧ L.valid r = true
  ops : ∀ op ∈ st.ops, op.action ≠ .delete → ∃ r, op.cid = some (L.rcid r) ∧ L.rcid r ∈ st.blocks.map (·.1)

/-- `co` could be a commit made from the sequence number `lo` on. -/
def Later (L : Lib C R) (lo : Nat) (co : Commit C) : Prop :=
  ∃ n key nonce, lo ≤ n ∧ Tid.intToTid 0 n (some 0) = .ok co.rev ∧ co.sig = L.sign key { co with sig := [] } nonce

def PcLog (L : Lib C R) (blocks : List (C × Block C R)) : Pc C R → Prop
  | .applied seq _ _ st => MadeRecords L seq st
  | .built _ _ cd => Batch L blocks cd (cd.blocks.map (·.2)) ∧ ∀ x ∈ cd.blocks, x.1 = L.hash x.2.val
  | .queried _ _ cd new => Batch L blocks cd new
  | _ => True

/-- The blocks stored since the sequence number `lo` belong to calls that have written them, or are events. -/
structure LInv (L : Lib C R) (Z : Nat) (job : Nat → Job R) (lo : Nat) (s : CState C R) : Prop where
  blk : ∀ c b, s.w.read c = some b → (b.seq < lo ∧ ∀ co, b.val = .commit co → ¬ Later L lo co) ∨
    (∃ i cd, (s.pc i).wrote = some cd ∧ PartOf L cd b) ∨
    (b.seq < s.w.next ∧ (∃ e, b.val = .event e) ∧ ∀ i, (s.pc i).seq ≠ some b.seq)
  evs : ∀ c b e, s.w.read c = some b → b.val = .event e → e.seq = b.seq ∧ b.seq < s.w.next
  same : ∀ c c' b b' e e', s.w.read c = some b → s.w.read c' = some b' → b.val = .event e → b'.val = .event e' →
    lo ≤ b.seq → b.seq = b'.seq → c = c'
  com : ∀ i cd, (s.pc i).wrote = some cd → s.w.read (L.hash cd.commit.val) = some cd.commit ∧
    (∃ row, Entry L Z s.w.blocks (job i) [] row cd) ∧ ∀ ops, cd.commit.ops = some ops → POps L s.w.blocks ops
  pcs : ∀ i, PcLog L s.w.blocks (s.pc i)

theorem PcLog.keeps {a b : List (C × Block C R)} (hk : Retains L a b) {p : Pc C R} (h : PcLog L a p) :
    PcLog L b p := by
  have hb : ∀ {cd : CommitData C R} {bs}, Batch L a cd bs → Batch L b cd bs := fun h =>
    ⟨h.members, h.commit, h.made, fun ops ho op hop hd => by
      obtain ⟨r, h1, h2⟩ := h.ops ops ho op hop hd
      exact ⟨r, h1, h2.imp_left (hk _)⟩⟩
  cases p with
  | built _ _ cd => exact ⟨hb h.1, h.2⟩
  | queried _ _ cd new => exact hb (show Batch L a cd new from h)
  | _ => exact h

theorem POps.keeps {a b : List (C × Block C R)} (hk : Retains L a b) {ops : List (CommitOp C)} (h : POps L a ops) :
    POps L b ops := by
  intro op ho hd
  obtain ⟨r, h1, h2⟩ := h op ho hd
  exact ⟨r, h1, hk _ h2⟩

theorem Pc.wrote_seq {p : Pc C R} {cd : CommitData C R} (h : p.wrote = some cd) : p.seq = some cd.commit.seq := by
  cases p <;> cases h <;> rfl

/-- An action that stores nothing. -/
theorem LInv.move {job : Nat → Job R} {lo : Nat} {s s' : CState C R} (h : LInv L Z job lo s)
    (hb : s'.w.blocks = s.w.blocks) (hn : s.w.next ≤ s'.w.next) {i : Nat} {p : Pc C R}
    (hpc : ∀ k, s'.pc k = if k = i then p else s.pc k) (hw : p.wrote = (s.pc i).wrote)
    (hs : ∀ n, p.seq = some n → (s.pc i).seq = some n ∨ s.w.next ≤ n) (hp : PcLog L s.w.blocks p) :
    LInv L Z job lo s' := by
  have hwr : ∀ k, (s'.pc k).wrote = (s.pc k).wrote := by
    intro k
    rw [hpc]
    split
    · rename_i he; rw [he]; exact hw
    · rfl
  have hrd : ∀ c, s'.w.read c = s.w.read c := by intro c; unfold World.read; rw [hb]
  refine ⟨fun c b hc => ?_, fun c b e hc hv => ?_, fun c c' b b' e e' hc hc' => ?_, fun k cd hk => ?_, fun k => ?_⟩
  · rw [hrd] at hc
    rcases h.blk c b hc with h1 | ⟨k, cd, h1, h2⟩ | ⟨h1, h2, h3⟩
    · exact .inl h1
    · exact .inr (.inl ⟨k, cd, by rw [hwr]; exact h1, h2⟩)
    · refine .inr (.inr ⟨by omega, h2, fun k hk => ?_⟩)
      rw [hpc] at hk
      split at hk
      · rename_i he
        subst he
        rcases hs _ hk with h' | h'
        · exact h3 _ h'
        · omega
      · exact h3 _ hk
  · rw [hrd] at hc
    obtain ⟨h1, h2⟩ := h.evs c b e hc hv
    exact ⟨h1, by omega⟩
  · rw [hrd] at hc hc'
    exact h.same c c' b b' e e' hc hc'
  · rw [hwr] at hk
    rw [hrd, hb]
    exact h.com k cd hk
  · rw [hpc, hb]
    split
    · exact hp
    · exact h.pcs k

theorem get_overwrite (c : C) : ∀ (new : List (Block C R)) (blocks : List (C × Block C R)),
    (∃ b ∈ new, L.hash b.val = c ∧ dictGet (overwrite L blocks new) c = some b) ∨
    ((∀ x ∈ new, L.hash x.val ≠ c) ∧ dictGet (overwrite L blocks new) c = dictGet blocks c)
  | [], blocks => .inr ⟨by simp, rfl⟩
  | x :: new, blocks => by
    rw [overwrite_cons]
    rcases get_overwrite c new (dictSet blocks (L.hash x.val) x) with ⟨b, h1, h2⟩ | ⟨h1, h2⟩
    · exact .inl ⟨b, .tail _ h1, h2⟩
    · rw [dictGet_dictSet] at h2
      split at h2
      · rename_i he
        exact .inl ⟨x, .head _, he.symm, h2⟩
      · rename_i he
        refine .inr ⟨fun y hy => ?_, h2⟩
        rcases List.mem_cons.1 hy with rfl | hy
        · exact fun h => he h.symm
        · exact h1 y hy

theorem buildCommit_batch (hL : L.OK Z) {blocks : List (C × Block C R)} {seq : Nat} {did : Did}
    {st : LoopState C R} {m : Key → Option R} {prev : Option C} {key nonce : Nat}
    {cd : CommitData C R} (h : LoopOK L Z blocks seq did st m) (hw : MadeRecords L seq st)
    (hb : buildCommit L (nodeIn blocks) st key nonce seq did prev = .ok cd) :
    Batch L blocks cd (cd.blocks.map (·.2)) ∧ ∀ x ∈ cd.blocks, x.1 = L.hash x.2.val := by
  obtain ⟨l, t, hi⟩ := h.inv
  have hbd := hi.bound
  have hfu := hL.fuel
  obtain ⟨bl, hu1, hu2⟩ := getUnstoredBlocks_spec hi.repr hi.wf hi.valid (f := L.fuel) (by omega)
  unfold buildCommit at hb
  rw [hu1, ok_bind] at hb
  dsimp only at hb
  cases hsc : signedCommit L key nonce did seq prev (cidOf L.env.H t) with
  | error e => rw [hsc] at hb; cases hb
  | ok co =>
  rw [hsc, ok_bind] at hb
  cases hb
  unfold signedCommit at hsc
  cases hrev : Tid.intToTid 0 seq (some 0) with
  | error e => rw [hrev] at hsc; cases hsc
  | ok rev =>
  rw [hrev, ok_bind] at hsc
  simp only [Except.ok.injEq] at hsc
  let cb : Block C R := ⟨.commit co, seq, some st.ops, did⟩
  let all := dictSet (dictUpdate st.blocks (mstBlocks (R := R) seq did bl)) (L.hash cb.val) cb
  have hmem : ∀ x ∈ all, (∃ r did, x = (L.rcid r, ⟨.record r, seq, none, did⟩) ∧ L.valid r = true) ∨
      (∃ d, x = (L.hash (.node d), ⟨.node d, seq, none, did⟩)) ∨ x = (L.hash cb.val, cb) := by
    intro x hx
    rcases mem_dictSet hx with rfl | hx
    · exact .inr (.inr rfl)
    · rcases mem_dictUpdate hx with hx | hx
      · exact .inl (hw.new x hx)
      · obtain ⟨⟨c, d⟩, hcd, rfl⟩ := List.mem_map.1 hx
        obtain ⟨s, hs, hc, hd, _⟩ := hu2.1 c d hcd
        exact .inr (.inl ⟨d, by rw [hc, hd]; rfl⟩)
  have haddr : ∀ x ∈ all, x.1 = L.hash x.2.val := by
    intro x hx
    rcases hmem x hx with ⟨r, did, rfl, _⟩ | ⟨d, rfl⟩ | rfl <;> rfl
  have hval : ∀ v : Val C R, L.hash v ∈ all.map (·.1) → v ∈ (all.map (·.2)).map (·.val) := by
    intro v hv
    obtain ⟨x, hx, he⟩ := List.mem_map.1 hv
    rw [List.map_map]
    exact List.mem_map.2 ⟨x, hx, hL.inj ((haddr x hx).symm.trans he)⟩
  refine ⟨⟨?_, ?_, ⟨co, key, nonce, rfl, by rw [← hsc]; exact hrev, by rw [← hsc]⟩, ?_⟩, haddr⟩
  · intro b hb
    obtain ⟨x, hx, rfl⟩ := List.mem_map.1 hb
    rcases hmem x hx with ⟨r, did, rfl, hv⟩ | ⟨d, rfl⟩ | rfl
    · exact ⟨rfl, .inl ⟨r, rfl, hv⟩⟩
    · exact ⟨rfl, .inr (.inl ⟨d, rfl⟩)⟩
    · exact ⟨rfl, .inr (.inr rfl)⟩
  · have hk : L.hash cb.val ∈ all.map (·.1) := keys_dictSet.2 (.inl rfl)
    obtain ⟨x, hx, he⟩ := List.mem_map.1 hk
    have hxv : x.2.val = cb.val := hL.inj ((haddr x hx).symm.trans he)
    refine List.mem_map.2 ⟨x, hx, ?_⟩
    rcases hmem x hx with ⟨r, did, rfl, _⟩ | ⟨d, rfl⟩ | rfl
    · cases hxv
    · cases hxv
    · rfl
  · intro ops ho op hop hd
    cases ho
    obtain ⟨r, h1, h2⟩ := hw.ops op hop hd
    exact ⟨r, h1, .inr (hval _ (keys_dictSet.2 (.inr (keys_dictUpdate.2 (.inl h2)))))⟩

/-- A commit that is about to be written is not stored. -/
theorem LInv.fresh (hL : L.OK Z) {job : Nat → Job R} {lo : Nat} {s : CState C R} (hc : CInv L Z job lo s)
    (h : LInv L Z job lo s) {i : Nat} {cd : CommitData C R} (hi : (s.pc i).seq = some cd.commit.seq)
    (hw : (s.pc i).wrote = none) {bs : List (Block C R)} (hb : Batch L s.w.blocks cd bs) :
    dictGet s.w.blocks (L.hash cd.commit.val) = none := by
  cases hg : dictGet s.w.blocks (L.hash cd.commit.val) with
  | none => rfl
  | some b =>
    exfalso
    have hv : b.val = cd.commit.val := hL.inj (hc.addr _ _ hg)
    obtain ⟨co, key, nonce, h1, h2, h3⟩ := hb.made
    rcases h.blk _ b hg with ⟨g1, g2⟩ | ⟨k, cd', g1, g2, g3⟩ | ⟨_, ⟨e, g1⟩, _⟩
    · exact g2 co (hv.trans h1) ⟨_, key, nonce, (hc.seqs i _ hi).1, h2, h3⟩
    · rcases g3 with ⟨r, g3, _⟩ | ⟨d, g3⟩ | rfl
      · rw [hv, h1] at g3; cases g3
      · rw [hv, h1] at g3; cases g3
      · obtain ⟨_, ⟨row, _, _, co', _, _, _, e1, _, _, _, e2, _⟩, _⟩ := h.com k cd' g1
        have e3 : cd'.commit.val = .commit co' := by rw [e1]
        rw [hv, h1] at e3
        cases e3
        have := intToTid_inj h2 e2
        have := hc.distinct i k _ hi (by rw [this]; exact Pc.wrote_seq g1)
        subst this
        rw [hw] at g1; cases g1
    · rw [hv, h1] at g1; cases g1

theorem LInv.written (hL : L.OK Z) {job : Nat → Job R} {lo : Nat} {s : CState C R} (hc : CInv L Z job lo s)
    (h : LInv L Z job lo s) {i : Nat} {row : Row C} {ver : Nat} {cd : CommitData C R} {new : List (Block C R)}
    (hpc : s.pc i = .queried row ver cd new) :
    LInv L Z job lo ({ s with w := { s.w with blocks := overwrite L s.w.blocks new } }.at i (.written row ver cd)) := by
  have hb : Batch L s.w.blocks cd new := by have := h.pcs i; rw [hpc] at this; exact this
  have hp := hc.pcs i
  rw [hpc] at hp
  obtain ⟨_, he⟩ := hp
  have hi : (s.pc i).seq = some cd.commit.seq := by rw [hpc]; rfl
  have hw : (s.pc i).wrote = none := by rw [hpc]; rfl
  have hhas := fun v => has_overwrite hL.inj new (blocks := s.w.blocks) v
  have hk : Retains L s.w.blocks (overwrite L s.w.blocks new) := fun v hv => (hhas v).2 (.inl hv)
  obtain ⟨co, key, nonce, m1, m2, m3⟩ := hb.made
  have hwr : ∀ k, (({ s with w := { s.w with blocks := overwrite L s.w.blocks new } }.at i (.written row ver cd)).pc k).wrote =
      if k = i then some cd else (s.pc k).wrote := by
    intro k
    simp only [CState.at, Function.update_apply]
    split <;> rfl
  have hsq : ∀ k, (({ s with w := { s.w with blocks := overwrite L s.w.blocks new } }.at i (.written row ver cd)).pc k).seq =
      (s.pc k).seq := by
    intro k
    simp only [CState.at, Function.update_apply]
    split
    · rename_i he; rw [he, hi]; rfl
    · rfl
  have hnoev : ∀ b ∈ new, ∀ e, b.val ≠ .event e := by
    intro b hb' e hv
    rcases (hb.members b hb').2 with ⟨r, g, _⟩ | ⟨d, g⟩ | rfl
    · rw [hv] at g; cases g
    · rw [hv] at g; cases g
    · rw [hv] at m1; cases m1
  have hold : ∀ c b e, dictGet (overwrite L s.w.blocks new) c = some b → b.val = .event e → s.w.read c = some b := by
    intro c b e hg hv
    rcases get_overwrite (L := L) c new s.w.blocks with ⟨x, x1, _, x3⟩ | ⟨_, x2⟩
    · rw [hg] at x3; cases x3
      exact absurd hv (hnoev b x1 e)
    · rw [x2] at hg; exact hg
  refine ⟨fun c b hg => ?_, fun c b e hg hv => ?_, fun c c' b b' e e' hg hg' hv hv' => ?_, fun k cd' hk' => ?_, fun k => ?_⟩
  · have hg : dictGet (overwrite L s.w.blocks new) c = some b := hg
    rcases get_overwrite (L := L) c new s.w.blocks with ⟨x, x1, _, x3⟩ | ⟨_, x2⟩
    · rw [hg] at x3; cases x3
      exact .inr (.inl ⟨i, cd, by rw [hwr, if_pos rfl], hb.members b x1⟩)
    · rw [x2] at hg
      rcases h.blk c b hg with h1 | ⟨k, cd', h1, h2⟩ | ⟨h1, h2, h3⟩
      · exact .inl h1
      · refine .inr (.inl ⟨k, cd', ?_, h2⟩)
        rw [hwr, if_neg]
        · exact h1
        · rintro rfl; rw [hw] at h1; cases h1
      · exact .inr (.inr ⟨h1, h2, fun k => by rw [hsq]; exact h3 k⟩)
  · exact h.evs c b e (hold c b e hg hv) hv
  · exact h.same c c' b b' e e' (hold c b e hg hv) (hold c' b' e' hg' hv') hv hv'
  · rw [hwr] at hk'
    show dictGet (overwrite L s.w.blocks new) _ = _ ∧ _
    split at hk'
    · rename_i hki
      subst hki
      cases hk'
      refine ⟨?_, ⟨row, he.move hk (fun v hv => .inl ((hhas v).2 hv)) (by simp)⟩, fun ops ho op hop hd => ?_⟩
      · rcases get_overwrite (L := L) (L.hash cd.commit.val) new s.w.blocks with ⟨x, x1, x2, x3⟩ | ⟨x1, _⟩
        · rw [x3]
          have hv := hL.inj x2
          rcases (hb.members x x1).2 with ⟨r, g, _⟩ | ⟨d, g⟩ | rfl
          · rw [hv, m1] at g; cases g
          · rw [hv, m1] at g; cases g
          · rfl
        · exact absurd rfl (x1 _ hb.commit)
      · obtain ⟨r, h1, h2⟩ := hb.ops ops ho op hop hd
        exact ⟨r, h1, (hhas _).2 h2⟩
    · rename_i hki
      obtain ⟨c1, ⟨row', c2⟩, c3⟩ := h.com k cd' hk'
      refine ⟨?_, ⟨row', c2.move hk (fun v hv => .inl (hk v (by simpa using hv))) (by simp)⟩, fun ops ho => (c3 ops ho).keeps hk⟩
      rcases get_overwrite (L := L) (L.hash cd'.commit.val) new s.w.blocks with ⟨x, x1, x2, x3⟩ | ⟨_, x2⟩
      · exfalso
        have hv := hL.inj x2
        obtain ⟨_, _, co', _, _, _, e1, _, _, _, e2, _⟩ := c2
        have e3 : cd'.commit.val = .commit co' := by rw [e1]
        rcases (hb.members x x1).2 with ⟨r, g, _⟩ | ⟨d, g⟩ | rfl
        · rw [hv, e3] at g; cases g
        · rw [hv, e3] at g; cases g
        · rw [hv, e3] at m1; cases m1
          have := intToTid_inj m2 e2
          exact hki (hc.distinct i k _ hi (by rw [this]; exact Pc.wrote_seq hk')).symm
      · rw [x2]; exact c1
  · simp only [CState.at, Function.update_apply]
    split
    · trivial
    · exact (h.pcs k).keeps hk

theorem LInv.event (hL : L.OK Z) {job : Nat → Job R} {lo : Nat} {s : CState C R} (hc : CInv L Z job lo s)
    (h : LInv L Z job lo s) (d : Did) (kind : EventKind C) (t : Nat) :
    LInv L Z job lo (storeEvent L s d kind t) := by
  obtain ⟨a1, a2, a3, a4⟩ := alloc_fresh s.w
  let v : Val C R := .event ⟨kind, s.w.alloc.1, d, t⟩
  let b : Block C R := ⟨v, s.w.alloc.1, none, d⟩
  have hnone : dictGet s.w.blocks (L.hash v) = none := by
    cases hg : dictGet s.w.blocks (L.hash v) with
    | none => rfl
    | some x =>
      exfalso
      have hv : x.val = v := hL.inj (hc.addr _ _ hg)
      obtain ⟨h1, h2⟩ := h.evs _ x _ hg hv
      have : s.w.alloc.1 = x.seq := h1
      omega
  have hrd : ∀ c x, (storeEvent L s d kind t).w.read c = some x → (c = L.hash v ∧ x = b) ∨ s.w.read c = some x := by
    intro c x hx
    have hx : dictGet (dictSetDefault s.w.blocks (L.hash v) b) c = some x := hx
    rw [dictGet_dictSetDefault] at hx
    split at hx
    · rename_i y hy
      rw [← hx]; exact .inr hy
    · split at hx
      · rename_i he
        cases hx
        exact .inl ⟨he.symm, rfl⟩
      · cases hx
  have hg := putBlocks_grows (L := L) [b] s.w.blocks
  have hk : Retains L s.w.blocks (putBlocks L s.w.blocks [b]) := fun v hv => hv.grow hg
  have hn : (storeEvent L s d kind t).w.next = s.w.next + 1 := a2
  refine ⟨fun c x hx => ?_, fun c x e hx hv => ?_, fun c c' x x' e e' hx hx' hv hv' hlo heq => ?_, fun k cd hk' => ?_, fun k => ?_⟩
  · rcases hrd c x hx with ⟨rfl, rfl⟩ | hx
    · refine .inr (.inr ⟨?_, ⟨_, rfl⟩, fun i hi => ?_⟩)
      · rw [hn]; show s.w.alloc.1 < _; omega
      · have := (hc.seqs i _ hi).2
        have : s.w.alloc.1 < s.w.next := this
        omega
    · rcases h.blk c x hx with h1 | h1 | ⟨h1, h2⟩
      · exact .inl h1
      · exact .inr (.inl h1)
      · exact .inr (.inr ⟨by omega, h2⟩)
  · rcases hrd c x hx with ⟨rfl, rfl⟩ | hx
    · cases hv
      refine ⟨rfl, ?_⟩
      rw [hn]; show s.w.alloc.1 < _; omega
    · obtain ⟨h1, h2⟩ := h.evs c x e hx hv
      exact ⟨h1, by omega⟩
  · rcases hrd c x hx with ⟨rfl, rfl⟩ | hx <;> rcases hrd c' x' hx' with ⟨rfl, rfl⟩ | hx'
    · rfl
    · have := (h.evs c' x' e' hx' hv').2
      have : s.w.alloc.1 = x'.seq := heq
      omega
    · have := (h.evs c x e hx hv).2
      have : x.seq = s.w.alloc.1 := heq
      omega
    · exact h.same c c' x x' e e' hx hx' hv hv' hlo heq
  · obtain ⟨c1, ⟨row, c2⟩, c3⟩ := h.com k cd hk'
    exact ⟨hg _ _ c1, ⟨row, c2.move hk (fun v hv => .inl (hk v (by simpa using hv))) (by simp)⟩, fun ops ho => (c3 ops ho).keeps hk⟩
  · exact (h.pcs k).keeps hk

theorem LInv.stepCall (hL : L.OK Z) {job : Nat → Job R} (hj : ∀ i, isDid (job i).did) {lo : Nat}
    {s s' : CState C R} (hc : CInv L Z job lo s) (h : LInv L Z job lo s) {i nonce : Nat}
    (hs : Store.stepCall L job s i nonce = some s') : LInv L Z job lo s' := by
  have hp := hc.pcs i
  have hg : ∀ p : Pc C R, p.wrote = (s.pc i).wrote → (∀ n, p.seq = some n → (s.pc i).seq = some n) →
      PcLog L s.w.blocks p → LInv L Z job lo (s.at i p) := fun p h1 h2 h3 =>
    h.move rfl (le_refl _) (fun k => by simp only [CState.at, Function.update_apply]) h1 (fun n hn => .inl (h2 n hn)) h3
  have hq := h.pcs i
  unfold Store.stepCall at hs
  dsimp only at hs
  cases hpc : s.pc i with
  | start =>
    rw [hpc] at hs
    cases hs
    obtain ⟨a1, a2, a3, a4⟩ := alloc_fresh s.w
    refine h.move (i := i) (p := .ready s.w.alloc.1) rfl ?_ (fun k => by simp only [CState.at, Function.update_apply])
      (by rw [hpc]; rfl) (fun n hn => ?_) trivial
    · show s.w.next ≤ s.w.alloc.2.next; omega
    · cases hn; right; omega
  | ready seq =>
    rw [hpc] at hs
    dsimp only at hs
    have hfail : ∀ e, LInv L Z job lo (s.at i (.failed e)) := fun e =>
      hg _ (by rw [hpc]; rfl) (fun n hn => nomatch hn) trivial
    split at hs
    · cases hs; exact hfail _
    · split at hs
      · cases hs; exact hfail _
      · cases hs
        exact hg _ (by rw [hpc]; rfl) (fun n hn => by rw [hpc]; exact hn) trivial
  | loaded seq row ver co =>
    rw [hpc] at hs hp
    dsimp only at hs
    have hfail : ∀ e, LInv L Z job lo (s.at i (.failed e)) := fun e =>
      hg _ (by rw [hpc]; rfl) (fun n hn => nomatch hn) trivial
    obtain ⟨h1, h2, h3, m, h4⟩ := hp
    split at hs
    · cases hs; exact hfail _
    · obtain ⟨l, t, g1, g2, g3⟩ := (h4.root hc.addr).2.load
      have hl : PLoop L Z s.w.blocks seq (job i).did ⟨load co.data, [], []⟩ := ⟨⟨l, t, _, g1⟩, by simp, by simp⟩
      have hws := hl.writes hL (ws := (job i).writes)
      rw [show s.w.rd = nodeIn s.w.blocks from rfl] at hs
      split at hs
      · cases hs; exact hfail _
      · rename_i st hst
        rw [hst] at hws
        cases hs
        refine hg _ (by rw [hpc]; rfl) (fun n hn => by rw [hpc]; exact hn) ⟨fun x hx => ?_, hws.ops⟩
        obtain ⟨r, e1, e2, _⟩ := hws.new x hx
        exact ⟨r, _, e1, e2⟩
  | applied seq row ver st =>
    rw [hpc] at hs hp hq
    dsimp only at hs
    have hfail : ∀ e, LInv L Z job lo (s.at i (.failed e)) := fun e =>
      hg _ (by rw [hpc]; rfl) (fun n hn => nomatch hn) trivial
    obtain ⟨h1, m, m', h2, h3, h4, h5, h6⟩ := hp
    rw [show s.w.rd = nodeIn s.w.blocks from rfl] at hs
    cases hb : buildCommit L (nodeIn s.w.blocks) st row.key nonce seq (job i).did (some row.head) with
    | error e => rw [hb] at hs; cases hs; exact hfail _
    | ok cd =>
      rw [hb] at hs
      cases hs
      obtain ⟨co, g1, _⟩ := buildCommit_pending hL hc.addr hc.store h6 hb
      have hseq : cd.commit.seq = seq := by rw [g1]
      exact hg _ (by rw [hpc]; rfl) (fun n hn => by rw [hpc]; rw [← hseq]; exact hn) (buildCommit_batch hL h6 hq hb)
  | built row ver cd =>
    rw [hpc] at hs hp hq
    cases hs
    obtain ⟨hb, hx⟩ := hq
    refine hg _ (by rw [hpc]; rfl) (fun n hn => by rw [hpc]; exact hn) ?_
    have hm := missing_spec hL hc.addr hx
    have hsub : ∀ b ∈ missing s.w.blocks cd.blocks, b ∈ cd.blocks.map (·.2) := by
      intro b hb
      obtain ⟨x, hx, rfl⟩ := List.mem_map.1 hb
      exact List.mem_map.2 ⟨x, (List.mem_filter.1 hx).1, rfl⟩
    refine ⟨fun b hb' => hb.members b (hsub b hb'), ?_, hb.made, fun ops ho op hop hd => ?_⟩
    · obtain ⟨x, h1, h2⟩ := List.mem_map.1 hb.commit
      refine List.mem_map.2 ⟨x, List.mem_filter.2 ⟨h1, ?_⟩, h2⟩
      rw [hx x h1, h2, LInv.fresh hL hc h (i := i) (by rw [hpc]; rfl) (by rw [hpc]; rfl) hb]
      rfl
    · obtain ⟨r, h1, h2⟩ := hb.ops ops ho op hop hd
      rw [List.map_map] at h2
      exact ⟨r, h1, hm.1 _ h2⟩
  | queried row ver cd new =>
    rw [hpc] at hs
    cases hs
    exact h.written hL hc hpc
  | written row ver cd =>
    rw [hpc] at hs
    dsimp only at hs
    split at hs
    · cases hs
      exact h.move (i := i) (p := .done cd) rfl (le_refl _) (fun k => by simp only [CState.at, Function.update_apply])
        (by rw [hpc]; rfl) (fun n hn => .inl (by rw [hpc]; exact hn)) trivial
    · cases hs
  | done cd => rw [hpc] at hs; cases hs
  | failed e => rw [hpc] at hs; cases hs

theorem LInv.act (hL : L.OK Z) {job : Nat → Job R} (hj : ∀ i, isDid (job i).did) {lo : Nat}
    {s s' : CState C R} (hc : CInv L Z job lo s) (h : LInv L Z job lo s) {a : Act C}
    (ht : ∀ i row ver cd, s.pc i = .written row ver cd → a ≠ .abort i ∧ ∀ e, a ≠ .fail i e)
    (hs : s.act L job a = some s') : LInv L Z job lo s' := by
  have hg : ∀ i (p : Pc C R), (s.pc i).wrote = none → p.wrote = none → (∀ n, p.seq = some n → (s.pc i).seq = some n) →
      PcLog L s.w.blocks p → LInv L Z job lo (s.at i p) := fun i p h0 h1 h2 h3 =>
    h.move rfl (le_refl _) (fun k => by simp only [CState.at, Function.update_apply]) (by rw [h0, h1])
      (fun n hn => .inl (h2 n hn)) h3
  cases a with
  | step i nonce => exact h.stepCall hL hj hc hs
  | abort i =>
    simp only [CState.act, abortCall] at hs
    cases hpc : s.pc i with
    | written row ver cd => exact absurd rfl (ht i row ver cd hpc).1
    | loaded seq row ver co =>
      rw [hpc] at hs; cases hs
      exact hg i _ (by rw [hpc]; rfl) rfl (fun n hn => by rw [hpc]; exact hn) trivial
    | applied seq row ver st =>
      rw [hpc] at hs; cases hs
      exact hg i _ (by rw [hpc]; rfl) rfl (fun n hn => by rw [hpc]; exact hn) trivial
    | built row ver cd =>
      rw [hpc] at hs; cases hs
      exact hg i _ (by rw [hpc]; rfl) rfl (fun n hn => by rw [hpc]; exact hn) trivial
    | queried row ver cd new =>
      rw [hpc] at hs; cases hs
      exact hg i _ (by rw [hpc]; rfl) rfl (fun n hn => by rw [hpc]; exact hn) trivial
    | _ => rw [hpc] at hs; cases hs
  | fail i e =>
    simp only [CState.act, failCall] at hs
    cases hpc : s.pc i with
    | written row ver cd => exact absurd rfl ((ht i row ver cd hpc).2 e)
    | done cd => rw [hpc] at hs; cases hs
    | failed e' => rw [hpc] at hs; cases hs
    | _ => rw [hpc] at hs; cases hs; exact hg i _ (by rw [hpc]; rfl) rfl (fun n hn => nomatch hn) trivial
  | setStatus d st =>
    simp only [CState.act, setStatusRow] at hs
    cases hr : dictGet s.w.rows d with
    | none => rw [hr] at hs; cases hs
    | some row =>
      rw [hr] at hs
      cases hs
      refine h.move (i := 0) (p := s.pc 0) rfl (le_refl _) (fun k => ?_) rfl (fun n hn => .inl hn) (h.pcs 0)
      split
      · rename_i he; rw [he]
      · rfl
  | event d kind t =>
    simp only [CState.act] at hs
    cases hs
    exact h.event hL hc d kind t

theorem LInv.run (hL : L.OK Z) {job : Nat → Job R} (hj : ∀ i, isDid (job i).did) {lo : Nat} :
    ∀ {as : List (Act C)} {s s' : CState C R}, CInv L Z job lo s → LInv L Z job lo s → Tidy L job s as →
    s.run L job as = some s' → LInv L Z job lo s'
  | [], s, s', _, h, _, hs => by cases hs; exact h
  | a :: as, s, s', hc, h, ht, hs => by
    unfold CState.run at hs
    cases ha : s.act L job a with
    | none => rw [ha] at hs; cases hs
    | some s1 =>
      rw [ha] at hs
      exact (h.act hL hj hc ht.1 ha).run hL hj (hc.act hL hj ha).1 (ht.2 _ ha) hs

theorem LInv.init (hL : L.OK Z) {al : Allow} {w : World C R} (h : Reach L .datastore al w)
    (job : Nat → Job R) : LInv L Z job w.next (.init w) := by
  obtain ⟨hw, _⟩ := h.plain hL
  have hb := hw.core.blocks
  have hlast : w.last < w.next := by
    have := hw.pos
    unfold World.last World.next
    omega
  refine ⟨fun c b hc => .inl ⟨?_, fun co hv => ?_⟩, fun c b e hc hv => ?_, fun c c' b b' e e' hc _ _ _ hlo => ?_,
    fun i cd hi => (nomatch hi), fun i => trivial⟩
  · have := hb.seqs c b hc; omega
  · rintro ⟨n, key, nonce, h1, h2, h3⟩
    rcases hb.commits c b co hc hv with g | g
    · have := intToTid_inj g.rev h2
      have := hb.seqs c b hc
      omega
    · rcases g.apart with g | g
      · exact g n (by omega) h2
      · exact g key nonce h3
  · have := hb.seqs c b hc
    exact ⟨(hb.events c b e hc hv).1, by show b.seq < w.next; omega⟩
  · have := hb.seqs c b hc
    omega

end

end Arroba.Store
