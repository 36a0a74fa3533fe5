import Verif.Firehose.PayloadProofs

/-! Helper lemmas: `process_event` on a commit. -/

namespace Arroba.Store

open Arroba.Tree

variable {C R : Type} [DecidableEq C] {L : Lib C R} {Z : Nat} {be : Backend} {al : Allow} {w v : World C R}
  {b : Block C R} {co : Commit C}

/-- What is needed of a stored commit. -/
structure Told (L : Lib C R) (Z : Nat) (w : World C R) (b : Block C R) (co : Commit C) : Prop where
  addr : Addressed L w.blocks
  store : StoreOK L.env (nodeIn w.blocks)
  read : w.read (L.hash b.val) = some b
  val : b.val = .commit co
  rev : Tid.intToTid 0 b.seq (some 0) = .ok co.rev
  ops : ∃ ops m', b.ops = some ops ∧ RootOK L Z w.blocks co.data m' ∧ OpsJust L Z w.blocks co.prev ops m' ∧
    POps L w.blocks ops

theorem Reach.told (hL : L.OK Z) (ht : ¬ al.torn) (hr : Reach L be al w) {b : Block C R} {co : Commit C}
    (hb : w.read (L.hash b.val) = some b) (hv : b.val = .commit co) (hseq : 1 ≤ b.seq) : Told L Z w b co := by
  have hB := (hr.inv hL ht).1.core.blocks
  have hc := hB.own hb hv hseq
  obtain ⟨ops, m', o1, o2, o3⟩ := hc.ops
  obtain ⟨ops', e1, e2⟩ := ((Reach.plain hL hr).1.core.blocks.own hb hv hseq).ops
  rw [o1] at e1
  cases e1
  exact ⟨hB.addr, hB.store, hb, hv, hc.rev, ops, m', o1, o2, o3, e2⟩

theorem Told.prevData (h : Told L Z w b co) (hg : ∀ c b, w.read c = some b → v.read c = some b) {pc : Option (Block C R)}
    (hpc : ∀ x, pc = some x → ∃ p, co.prev = some p ∧ v.read p = some x) :
    match co.prev with
    | none => Store.prevData v co.prev pc = none
    | some q => ∃ b' co', w.read q = some b' ∧ b'.val = .commit co' ∧ Store.prevData v co.prev pc = some co'.data := by
  obtain ⟨ops, m', _, _, ⟨m, ws, o3, _⟩, _⟩ := h.ops
  cases hp : co.prev with
  | none => rfl
  | some q =>
    rw [hp] at o3
    obtain ⟨b', co', h1, h2, _⟩ := o3
    refine ⟨b', co', h1, h2, ?_⟩
    have : (pc <|> v.read q) = some b' := by
      cases pc with
      | none => exact hg _ _ h1
      | some x =>
        obtain ⟨p, e1, e2⟩ := hpc x rfl
        rw [hp] at e1
        cases e1
        rw [hg _ _ h1] at e2
        cases e2
        rfl
    unfold Store.prevData
    dsimp only
    rw [this]
    obtain ⟨val, _, _, _⟩ := b'
    dsimp only at h2
    subst h2
    rfl

theorem Told.message (hL : L.OK Z) (ht : Told L Z w b co) (hg : ∀ c b, w.read c = some b → v.read c = some b)
    (ha' : Addressed L v.blocks) {s : SentCommit C R}
    (hs : Delivers w b (.commit s)) (hn : (s.blocks.map (·.1)).Nodup) {pc : Option (Block C R)}
    (hpc : ∀ x, pc = some x → ∃ p, co.prev = some p ∧ v.read p = some x) :
    ∃ p, processEvent L v pc (.commit s) = .ok (.commit "#commit".toList p) ∧ Describes L w b co p := by
  have hb := ht.read
  have hv := ht.val
  obtain ⟨ops, m', o1, o2, ⟨m, writes, o3, _, o4, o5⟩, opsrec⟩ := ht.ops
  unfold Delivers at hs
  rw [hv] at hs
  obtain ⟨d, hs1, hd⟩ := hs
  obtain rfl : s = _ := Sent.commit.inj hs1
  dsimp only at hn
  rw [o1, Option.getD_some] at hd
  obtain ⟨t, t1, t2, t3⟩ := o2
  obtain ⟨l, hl, hwf⟩ := t1.wf
  have haddr : ∀ c y, w.read c = some y → L.hash y.val = c := fun c y h => ht.addr c y h
  have haddr' : ∀ c y, v.read c = some y → L.hash y.val = c := fun c y h => ha' c y h
  -- the tree and the blocks given
  have hnode : ∀ s ∈ nodes t, (v.read (cidOf L.env.H s)).bind Xrpc.asNode = some (nodeOf L.env.H s) := by
    intro s hs
    obtain ⟨x, b1, b2⟩ := Xrpc.stored_read t2 hs
    rw [hg _ _ b1, Option.bind_some, Xrpc.asNode, b2]
  have hgood : Good L.env v.read Xrpc.asNode t d := ⟨hnode, fun s hs hd' => by
    obtain ⟨x, hx⟩ := Option.isSome_iff_exists.1 hd'
    obtain ⟨y, rfl, hy, _⟩ := (hd _ _).1 hx
    unfold Knows readOnly coverGet
    dsimp only
    rw [hx]
    have := hnode s hs
    rw [hg _ _ hy] at this
    exact this⟩
  -- the operations
  have hm : ∀ k, m k ≠ none → validKey k = true := by
    cases hp : co.prev with
    | none =>
      rw [hp] at o3
      dsimp only at o3
      subst o3
      intro k hk
      exact absurd rfl hk
    | some q =>
      rw [hp] at o3
      obtain ⟨b', co', _, _, tp, q1, _⟩ := o3
      intro k hk
      have := congrFun q1.map k
      cases hmk : m k with
      | none => exact absurd hmk hk
      | some r =>
        rw [hmk] at this
        exact q1.valid _ (dictGet_mem this)
  have htr := opsOf_trace hL o4
  rw [← o5] at htr
  obtain ⟨w1, w2, w3⟩ := htr.wire
  have hkeys : ∀ op ∈ ops, validKey op.path = true := by
    rw [o5]
    exact opsOf_keys hm o4
  obtain ⟨B, c1, c2, c3, c4, n, t₀, L₀, g1, g2, g3, g4, g5, g6, g7⟩ := invert_spec (E := L.env) hL.zeros hL.fuel hwf hl
    t1.sorted t1.valid hgood w2 hkeys (by rw [t1.map, w3])
  rw [t3] at c1
  -- what is in the CAR file
  have hP : Closed v.read (Xrpc.asNode (C := C) (R := R))
      (fun c => Xrpc.Inside w (L.hash b.val) c ∧ (w.read c).isSome) := by
    rintro c ⟨hi, hs⟩ d' hd' x hx
    obtain ⟨y, hy⟩ := Option.isSome_iff_exists.1 hs
    rw [hg _ _ hy, Option.bind_some] at hd'
    have hyv : y.val = .node d' := by
      unfold Xrpc.asNode at hd'
      split at hd'
      · cases hd'; assumption
      · cases hd'
    refine ⟨?_, ?_⟩
    · simp only [NodeData.children, List.mem_append, Option.mem_toList, List.mem_filterMap] at hx
      rcases hx with hx | ⟨e, he, hx⟩
      · exact .left hi hy hyv hx
      · exact .tree hi hy hyv he hx
    · have hn : nodeIn w.blocks c = some d' := by
        unfold nodeIn
        have hy : dictGet w.blocks c = some y := hy
        rw [hy]
        obtain ⟨val, _, _, _⟩ := y
        dsimp only at hyv
        subst hyv
        rfl
      have := ht.store.closed c d' hn x hx
      unfold nodeIn at this
      unfold World.read
      cases hz : dictGet w.blocks x with
      | none => rw [hz] at this; cases this
      | some z => rfl
  obtain ⟨f1, f2⟩ := addCoveringProofs_from (Q := fun c => (w.read c).isSome ∧
      ((∃ x, dictGet d c = some x) ∨ Xrpc.Inside w (L.hash b.val) c)) hP (fun c h => ⟨h.2, .inr h.1⟩)
    (root := co.data) ⟨.root hb hv, by
      obtain ⟨x, hx, _⟩ := Xrpc.stored_read t2 (s := t) (by simp [nodes])
      rw [← t3, hx]; rfl⟩ (B := d) ⟨hn, fun c x hx => by
      have hx' := dictGet_of_mem hn hx
      obtain ⟨y, rfl, hy, _⟩ := (hd _ _).1 hx'
      exact ⟨(hg _ _ hy).symm, by rw [hy]; rfl, .inl ⟨_, hx'⟩⟩⟩ c1
  obtain ⟨bs, p1, p2, p3⟩ := Xrpc.proofBlocks_ok (L := L) haddr' f2 (fun c hc => by
    obtain ⟨y, hy⟩ := Option.isSome_iff_exists.1 hc.1
    rw [hg _ _ hy]; rfl)
  have hcar := carNodes_eq (L := L) (roots := [L.hash b.val]) (fun c x hx => haddr' c x ((f2 c _ hx).1.symm)) p1
  -- records
  have hrec : ∀ op ∈ ops, op.action ≠ .delete → ∃ r y, op.cid = some (L.hash (.record r)) ∧
      w.read (L.hash (.record r)) = some y ∧ y.val = .record r := by
    intro op ho hd'
    obtain ⟨r, h1, y, h2, h3⟩ := opsrec op ho hd'
    exact ⟨r, y, h1, h2, h3⟩
  have hin : ∀ c y, dictGet d c = some (some y) → (c, y.val) ∈ bs := fun c y h => (p3 _ _).2 ⟨y, dictGet_mem (c2 _ _ h), rfl⟩
  have hwire : ∀ op ∈ ops, ∀ c, (wireOp op).cid = some c → op.action ≠ .delete ∧ op.cid = some c := by
    intro op _ c hc
    unfold wireOp at hc
    dsimp only at hc
    split at hc
    · cases hc
    · rename_i ha; exact ⟨ha, hc⟩
  refine ⟨{ repo := co.did, ops := ops.map wireOp, commit := L.hash b.val, blocks := ⟨[L.hash b.val], bs⟩, seq := b.seq,
            rev := co.rev, since := none, rebase := false, blobs := [], tooBig := false,
            prevData := Store.prevData v co.prev pc }, ?_, ?_⟩
  · simp only [processEvent, hv, o1, c1, ok_bind, p1, ht.rev]
  refine ⟨rfl, rfl, rfl, rfl, ?_, rfl, by rw [p2]; exact f1, ?_, ?_, ?_, ?_⟩
  · exact ht.prevData hg hpc
  · intro y hy hseq
    exact hin _ _ ((hd _ _).2 ⟨y, rfl, hy, .inl hseq⟩)
  · intro op ho c hc
    obtain ⟨op', ho', rfl⟩ := List.mem_map.1 ho
    obtain ⟨h1, h2⟩ := hwire op' ho' c hc
    obtain ⟨r, y, e1, e2, e3⟩ := hrec op' ho' h1
    rw [h2] at e1
    cases e1
    refine ⟨r, rfl, ?_⟩
    rw [← e3]
    have := hin (L.hash (.record r)) y ((hd _ _).2 ⟨y, rfl, e2, .inr (.inl ⟨op', ho', h1, h2⟩)⟩)
    rw [e3] at this ⊢
    exact this
  · intro c x hx
    obtain ⟨y, hy, rfl⟩ := (p3 c x).1 hx
    obtain ⟨e1, e2, e3⟩ := f2 c _ hy
    obtain ⟨y', hy'⟩ := Option.isSome_iff_exists.1 e2
    rw [hg _ _ hy'] at e1
    cases e1
    refine ⟨(haddr _ _ hy').symm, y, hy', rfl, ?_⟩
    rcases e3 with ⟨z, hz⟩ | hi
    · obtain ⟨y', _, k2, k3⟩ := (hd _ _).1 hz
      rw [hy'] at k2
      cases k2
      rcases k3 with k3 | ⟨op, ho, k4, k5⟩ | k3
      · exact .inl k3
      · refine .inr (.inl ⟨wireOp op, List.mem_map_of_mem ho, ?_⟩)
        unfold wireOp
        dsimp only
        rw [if_neg k4, k5]
      · subst k3
        exact .inr (.inr (.root hb hv))
    · exact .inr (.inr hi)
  · refine ⟨m, m', ?_, RootOK.shown hL ht.addr hb hv ⟨t, t1, t2, t3⟩, w1, ?_, n, t₀, ?_, ?_, ?_, g4, g6, ?_⟩
    · cases hp : co.prev with
      | none => rw [hp] at o3; exact o3
      | some q =>
        rw [hp] at o3
        obtain ⟨b', co', q1, q2, q3⟩ := o3
        exact RootOK.shown hL ht.addr q1 q2 q3
    · intro op ho
      obtain ⟨op', ho', rfl⟩ := List.mem_map.1 ho
      rw [hcar, ← t3]
      have := c4 op' ho'
      rw [t1.map] at this
      exact this
    · rw [hcar, ← t3, undoWire_eq]
      exact g1
    · rw [hcar, ← t3, checkWire_eq _ w2, checkOps_covering (E := L.env) hL.zeros hL.fuel hwf hl t1.sorted t1.valid hgood w2
        hkeys (by rw [t1.map, w3]) (by rw [t3]; exact c1)]
      exact g1
    · rw [hcar]
      exact g2
    · rintro ⟨t', hv', ht'⟩ hne c hpd ⟨t'', hv'', rfl⟩
      obtain ⟨_, hw'⟩ := hv'.1
      obtain ⟨_, hw''⟩ := hv''.1
      have := cid_unique hL hw' hwf (ht'.trans t3.symm)
      subst this
      have htrim := g7 hv'.2.1 (neverEmpty_take w2 hne)
      dsimp only at hpd
      have hprev := ht.prevData hg hpc
      cases hp : co.prev with
      | none =>
        rw [hp] at hprev hpd
        dsimp only at hprev
        rw [hprev] at hpd
        cases hpd
      | some q =>
        rw [hp] at hprev hpd o3
        obtain ⟨b', co', q1, q2, q3⟩ := hprev
        obtain ⟨b'', co'', r1, r2, tp, r3, r4, r5⟩ := o3
        have : some b' = some b'' := q1.symm.trans r1
        cases this
        rw [q2] at r2
        cases r2
        rw [q3] at hpd
        have hpd := Option.some.inj hpd
        obtain ⟨_, _, hwp⟩ := r3.wf
        have := cid_unique hL hwp hw'' (r5.trans hpd)
        subst this
        rw [canonical g3 hwp htrim hv''.2.1 (sorted_ext g4 r3.sorted (by rw [g6, r3.map]))]

theorem processCommit_spec (hL : L.OK Z) (ht : ¬ al.torn) (hr : Reach L be al w)
    (hg : ∀ c b, w.read c = some b → v.read c = some b) (hr' : Reach L be al v)
    {b : Block C R} {co : Commit C} (hb : w.read (L.hash b.val) = some b) (hv : b.val = .commit co) (hseq : 1 ≤ b.seq) {s : SentCommit C R}
    (hs : Delivers w b (.commit s)) (hn : (s.blocks.map (·.1)).Nodup) {pc : Option (Block C R)}
    (hpc : ∀ x, pc = some x → ∃ p, co.prev = some p ∧ v.read p = some x) :
    ∃ p, processEvent L v pc (.commit s) = .ok (.commit "#commit".toList p) ∧ Describes L w b co p :=
  (Reach.told hL ht hr hb hv hseq).message hL hg hr'.addressed hs hn hpc

end Arroba.Store
