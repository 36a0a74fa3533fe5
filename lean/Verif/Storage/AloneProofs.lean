import Verif.Storage.ConcurrentProofs
import Verif.Xrpc.ImportProofs
import Verif.Mst.CoverRead

/-! Helper lemmas: a call of `commit` that nothing interferes with. -/

namespace Arroba.Store

variable {C R : Type} [DecidableEq C]

section
variable {L : Lib C R} {Z : Nat}

theorem overwrite_missing : ∀ {bs blocks : List (C × Block C R)}, (bs.map (·.1)).Nodup →
    (∀ x ∈ bs, x.1 = L.hash x.2.val) →
    overwrite L blocks (missing blocks bs) = putBlocks L blocks (bs.map (·.2))
  | [], blocks, _, _ => rfl
  | x :: bs, blocks, hn, ha => by
    rw [List.map_cons, List.nodup_cons] at hn
    have hx := ha x (by simp)
    have ih := fun bl => overwrite_missing (blocks := bl) hn.2 (fun y hy => ha y (by simp [hy]))
    rw [List.map_cons, putBlocks_cons, ← hx]
    cases hg : dictGet blocks x.1 with
    | some b =>
      have e1 : missing blocks (x :: bs) = missing blocks bs := by simp [missing, hg]
      have e2 : dictSetDefault blocks x.1 x.2 = blocks := by simp [dictSetDefault, hg]
      rw [e1, e2]; exact ih _
    | none =>
      have e1 : missing blocks (x :: bs) = x.2 :: missing blocks bs := by simp [missing, hg]
      have e2 : dictSetDefault blocks x.1 x.2 = blocks ++ [x] := by simp [dictSetDefault, hg]
      have e3 : missing blocks bs = missing (blocks ++ [x]) bs := by
        unfold missing
        congr 1
        refine List.filter_congr fun y hy => ?_
        have : x.1 ≠ y.1 := fun e => hn.1 (by rw [e]; exact List.mem_map_of_mem hy)
        rw [dictGet_append]
        cases dictGet blocks y.1 with
        | some _ => rfl
        | none => simp [dictGet, this]
      rw [e1, e2, overwrite_cons, ← hx, Xrpc.dictSet_fresh hg, e3]; exact ih _

theorem applyWrite_nodup {rd : C → Option (NodeData C)} {seq : Nat} {did : Did}
    {st st' : LoopState C R} {w : Write R} (hn : (st.blocks.map (·.1)).Nodup)
    (h : applyWrite L rd seq did st w = .ok st') : (st'.blocks.map (·.1)).Nodup := by
  unfold applyWrite at h
  obtain ⟨prev, _, h⟩ := bind_ok h
  cases ha : w.action with
  | delete =>
    rw [ha] at h
    obtain ⟨n, _, h⟩ := bind_ok h
    cases h; exact hn
  | create =>
    rw [ha] at h
    obtain ⟨r, _, h⟩ := bind_ok h
    obtain ⟨n, _, h⟩ := bind_ok h
    cases h; exact dictSet_nodup hn
  | update =>
    rw [ha] at h
    obtain ⟨r, _, h⟩ := bind_ok h
    obtain ⟨p, _, h⟩ := bind_ok h
    obtain ⟨n, _, h⟩ := bind_ok h
    obtain ⟨p', _, h⟩ := bind_ok h
    cases h; exact dictSet_nodup hn

theorem applyWrites_nodup {rd : C → Option (NodeData C)} {seq : Nat} {did : Did} :
    ∀ {ws : List (Write R)} {st st' : LoopState C R}, (st.blocks.map (·.1)).Nodup →
    applyWrites L rd seq did st ws = .ok st' → (st'.blocks.map (·.1)).Nodup
  | [], st, st', hn, h => by cases h; exact hn
  | w :: ws, st, st', hn, h => by
    unfold applyWrites at h
    obtain ⟨st1, h1, h2⟩ := bind_ok h
    exact applyWrites_nodup (applyWrite_nodup hn h1) h2

theorem buildCommit_nodup {rd : C → Option (NodeData C)} {st : LoopState C R} {key nonce seq : Nat}
    {did : Did} {prev : Option C} {cd : CommitData C R} (hn : (st.blocks.map (·.1)).Nodup)
    (h : buildCommit L rd st key nonce seq did prev = .ok cd) : (cd.blocks.map (·.1)).Nodup := by
  unfold buildCommit at h
  obtain ⟨u, _, h⟩ := bind_ok h
  obtain ⟨co, _, h⟩ := bind_ok h
  cases h
  exact dictSet_nodup (dictUpdate_nodup _ hn)

theorem commitAt_val {w : World C R} {c : C} {b : Block C R} {co : Commit C}
    (h : commitAt w c = .ok (b, co)) : b.val = .commit co := by
  unfold commitAt at h
  cases hr : w.read c with
  | none => rw [hr] at h; cases h
  | some b' =>
    rw [hr] at h
    dsimp only at h
    cases hv : b'.val with
    | commit co' => rw [hv] at h; cases h; exact hv
    | _ => rw [hv] at h; cases h

theorem finish_datastore {w : World C R} {r s : Ref} {so : RepoObj C R} (hs : w.heap[s]? = some so)
    (mst : Node C) (cd : CommitData C R) (nonce : Nat) :
    (∃ w' e, finishCommit L .datastore w r s mst true cd { nonce := nonce } = (w', .error e)) ∨
    ∃ w', finishCommit L .datastore w r s mst true cd { nonce := nonce } = (w', .ok cd) ∧
      w'.blocks = putBlocks L w.blocks (cd.blocks.map (·.2)) ∧ w'.seqs = w.seqs ∧
      ∃ co row, cd.commit.val = .commit co ∧ dictGet w.rows co.did = some row ∧
        w'.rows = dictSet w.rows co.did ⟨so.handle, L.hash cd.commit.val, so.status, row.key⟩ := by
  unfold finishCommit
  rw [if_neg (by simp)]
  dsimp only
  rw [if_pos rfl, if_neg (by simp)]
  have hlt : s < w.heap.length := (List.getElem?_eq_some_iff.1 hs).1
  rw [show ({ w with blocks := putBlocks L w.blocks (cd.blocks.map (·.2)) } : World C R).modObj s
      (fun o => { o with head := some cd.commit }) =
    { w with blocks := putBlocks L w.blocks (cd.blocks.map (·.2)),
             heap := w.heap.set s { so with head := some cd.commit } } by
    unfold World.modObj
    rw [show ({ w with blocks := putBlocks L w.blocks (cd.blocks.map (·.2)) } : World C R).heap[s]?
      = some so from hs]
    rfl]
  unfold storeRepo
  dsimp only
  rw [List.getElem?_set_self hlt]
  dsimp only
  obtain ⟨⟨v, q, ops, rp⟩, bl, pr⟩ := cd
  cases v with
  | commit co =>
    simp only [RepoObj.did]
    cases hr : dictGet w.rows co.did with
    | none => exact .inl ⟨_, _, rfl⟩
    | some row =>
      dsimp only
      refine .inr ⟨_, rfl, ?_, ?_, co, row, rfl, hr, ?_⟩
      · rw [modObj_blocks]
      · unfold World.modObj; split <;> rfl
      · unfold World.modObj; split <;> rfl
  | _ => exact .inl ⟨_, _, rfl⟩

/-- What a successful commit to an existing repo of the Datastore does, when nothing goes wrong. -/
theorem commit_datastore {w w' : World C R} {r : Ref} {o : RepoObj C R} {d : Did}
    {writes : List (Write R)} {nonce : Nat} {cd : CommitData C R} (ho : w.heap[r]? = some o)
    (hd : o.did = some d)
    (h : commit L .datastore w r writes none [{ nonce := nonce }] false = (w', .ok cd)) :
    ∃ row b co st, findRow w.alloc.2 d = some row ∧ commitAt w.alloc.2 row.head = .ok (b, co) ∧
      writes.length ≤ maxOps ∧
      applyWrites L w.alloc.2.rd w.alloc.1 d ⟨load co.data, [], []⟩ writes = .ok st ∧
      buildCommit L w.alloc.2.rd st row.key nonce w.alloc.1 d (some (L.hash b.val)) = .ok cd ∧
      w'.blocks = putBlocks L w.blocks (cd.blocks.map (·.2)) ∧ w'.seqs = w.alloc.2.seqs ∧
      ∃ d' row', cd.commit.val = .commit d' ∧ dictGet w.rows d'.did = some row' ∧
        w'.rows = dictSet w.rows d'.did ⟨row.handle, L.hash cd.commit.val, row.status, row'.key⟩ := by
  unfold commit at h
  dsimp only at h
  have hal : w.alloc.2.heap[r]? = some o := ho
  unfold commitTx at h
  unfold commitBody at h
  rw [hal] at h
  dsimp only at h
  by_cases hz : w.alloc.1 = 0
  · rw [if_pos hz] at h
    simp only [Prod.mk.injEq, reduceCtorEq, and_false, false_and, Bool.false_eq_true, if_false] at h
  rw [if_neg hz] at h
  by_cases hst : o.status = none
  swap
  · rw [if_pos hst] at h
    simp only [Prod.mk.injEq, reduceCtorEq, and_false, false_and, Bool.false_eq_true, if_false] at h
  rw [if_neg (by simpa using hst)] at h
  unfold beginCommit at h
  rw [hd] at h
  dsimp only at h
  unfold loadRepo at h
  by_cases hne : d = []
  · rw [if_pos hne] at h
    simp only [Prod.mk.injEq, reduceCtorEq, and_false, false_and, Bool.false_eq_true, if_false] at h
  rw [if_neg hne] at h
  dsimp only at h
  cases hrow : findRow w.alloc.2 d with
  | none =>
    rw [hrow] at h
    simp only [Prod.mk.injEq, reduceCtorEq, and_false, false_and, Bool.false_eq_true, if_false] at h
  | some row =>
  rw [hrow] at h
  dsimp only at h
  unfold repoLoad at h
  cases hco : commitAt w.alloc.2 row.head with
  | error e =>
    rw [hco] at h
    simp only [Prod.mk.injEq, reduceCtorEq, and_false, false_and, Bool.false_eq_true, if_false] at h
  | ok bc =>
  obtain ⟨b, co⟩ := bc
  rw [hco] at h
  simp only [World.newObj, List.getElem?_append_right, le_refl, Nat.sub_self,
    List.getElem?_cons_zero, Option.bind_some] at h
  by_cases hlen : maxOps < writes.length
  · rw [if_pos hlen] at h
    simp only [Prod.mk.injEq, reduceCtorEq, and_false, false_and, Bool.false_eq_true, if_false] at h
  rw [if_neg hlen] at h
  rw [show ({ w.alloc.2 with heap := w.alloc.2.heap ++
    [⟨load co.data, some b, row.handle, row.status, row.key, false⟩] } : World C R).rd =
      w.alloc.2.rd from rfl] at h
  cases hap : applyWrites L w.alloc.2.rd w.alloc.1 d ⟨load co.data, [], []⟩ writes with
  | error e =>
    rw [hap] at h
    simp only [Prod.mk.injEq, reduceCtorEq, and_false, false_and, Bool.false_eq_true, if_false] at h
  | ok st =>
  rw [hap] at h
  dsimp only at h
  rw [if_neg (by simp)] at h
  cases hbc : buildCommit L w.alloc.2.rd st row.key nonce w.alloc.1 d (some (L.hash b.val)) with
  | error e =>
    rw [hbc] at h
    simp only [Prod.mk.injEq, reduceCtorEq, and_false, false_and, Bool.false_eq_true, if_false] at h
  | ok cd' =>
  rw [hbc] at h
  dsimp only at h
  have hv := (commitAt_val hco)
  rw [show (⟨load co.data, some b, row.handle, row.status, row.key, false⟩ : RepoObj C R).did.isSome
    = true by
      obtain ⟨v, q, ops, rp⟩ := b
      simp only at hv
      subst hv
      rfl] at h
  rcases finish_datastore (L := L) (r := r) (s := w.alloc.2.heap.length)
    (w := ({ w.alloc.2 with heap := w.alloc.2.heap ++
      [⟨load co.data, some b, row.handle, row.status, row.key, false⟩] } : World C R).setObj
        w.alloc.2.heap.length
      ⟨L.touch w.alloc.2.rd st.mst, some b, row.handle, row.status, row.key, false⟩)
    (so := ⟨L.touch w.alloc.2.rd st.mst, some b, row.handle, row.status, row.key, false⟩)
    (by simp [World.setObj]) (L.touch w.alloc.2.rd st.mst) cd' nonce with
    ⟨w1, e, hf⟩ | ⟨w1, hf, f1, f2, co', row', f3, f4, f5⟩
  · rw [hf] at h
    simp only [Prod.mk.injEq, reduceCtorEq, and_false, false_and, Bool.false_eq_true, if_false] at h
  · rw [hf] at h
    simp only [Bool.false_eq_true, and_false, if_false, Bool.and_false, Prod.mk.injEq,
      Except.ok.injEq] at h
    obtain ⟨rfl, rfl⟩ := h
    refine ⟨row, b, co, st, rfl, hco, by omega, hap, hbc, ?_, ?_, co', row', f3, f4, ?_⟩
    · rw [logIf_blocks]; exact f1
    · unfold World.logIf; split <;> exact f2
    · unfold World.logIf; split <;> exact f5

theorem at_pc (s : CState C R) (i : Nat) (p : Pc C R) : (s.at i p).pc i = p := by
  simp [CState.at]

theorem at_at (s : CState C R) (i : Nat) (p q : Pc C R) : (s.at i p).at i q = s.at i q := by
  simp [CState.at]

theorem run_step {job : Nat → Job R} {s s' : CState C R} {a : Act C} {as : List (Act C)}
    (h : s.act L job a = some s') : s.run L job (a :: as) = s'.run L job as := by
  unfold CState.run
  rw [h]
  cases as <;> rfl

/-- A commit that nothing interferes with does the same in seven steps. -/
theorem run_alone (hL : L.OK Z) {al : Allow} {w w' : World C R} (hr : Reach L .datastore al w)
    {r : Ref} {o : RepoObj C R} {d : Did} {writes : List (Write R)} {nonce : Nat}
    {cd : CommitData C R} (ho : w.heap[r]? = some o) (hd : o.did = some d) (hdid : isDid d)
    (h : commit L .datastore w r writes none [{ nonce := nonce }] false = (w', .ok cd)) :
    ∃ s, (CState.init w).run L (fun _ => ⟨d, writes⟩) (List.replicate 7 (.step 0 nonce)) = some s ∧
      s.pc 0 = .done cd ∧ s.w.blocks = w'.blocks ∧ s.w.rows = w'.rows ∧ s.w.seqs = w'.seqs := by
  obtain ⟨row, b, co, st, h1, h2, h3, h4, h5, h6, h7, co', row', h8, h9, h10⟩ :=
    commit_datastore ho hd h
  have hi := CInv.init hL hr (fun _ => (⟨d, writes⟩ : Job R))
  have hb : L.hash b.val = row.head := by
    obtain ⟨_, _, g1, _⟩ := commitAt_ok (L := L) (w := w.alloc.2) hi.addr h2
    exact hi.addr _ _ g1
  rw [hb] at h5
  have hrow : dictGet w.rows d = some row := by
    have hrows : ∀ d row, (d, row) ∈ w.rows → ∀ h, row.handle = some h → ¬ isDid h :=
      fun d row hr => (hi.rows d row hr).1
    rw [← findRow_did hrows hdid]
    exact h1
  obtain ⟨_, m, hm⟩ := hi.rows d row (dictGet_mem hrow)
  obtain ⟨b1, co1, c1, c2, c3, c4, c5⟩ := hm.commitAt hL hi.addr
  have c1' : commitAt w.alloc.2 row.head = .ok (b1, co1) := c1
  rw [h2] at c1'
  cases c1'
  obtain ⟨l, t, g1, g2, g3⟩ := (c5.root hi.addr).2.load
  have hl : LoopOK L Z w.blocks w.alloc.1 d ⟨load co.data, [], []⟩ m :=
    ⟨⟨l, t, g1⟩, by simp, fun k r' hk => .inl (g2.recs k r' hk)⟩
  have hws := hl.writes hL (ws := writes)
  have h4' : applyWrites L (nodeIn w.blocks) w.alloc.1 d ⟨load co.data, [], []⟩ writes = .ok st := h4
  have hst : ∃ m', LoopOK L Z w.blocks w.alloc.1 d st m' := by
    cases hsw : specWrites L m writes with
    | error e =>
      rw [hsw] at hws
      obtain ⟨n, hn, _⟩ := hws
      rw [h4'] at hn; cases hn
    | ok m' =>
      rw [hsw] at hws
      obtain ⟨st', hn, hst, _⟩ := hws
      rw [h4'] at hn; cases hn
      exact ⟨m', hst⟩
  obtain ⟨m', hst⟩ := hst
  obtain ⟨co2, e1, e2, _, _, _, _, e3, _⟩ := buildCommit_pending hL (blocks := w.blocks) hi.addr
    hi.store hst h5
  have hco : co2 = co' := by rw [e1] at h8; cases h8; rfl
  subst hco
  rw [e2] at h9 h10
  rw [hrow] at h9
  cases h9
  have hnd : (cd.blocks.map (·.1)).Nodup :=
    buildCommit_nodup (applyWrites_nodup (by simp) h4) h5
  have how := overwrite_missing (L := L) (blocks := w.blocks) hnd (fun x hx => (e3 x hx).1)
  have p1 : (CState.init w).act L (fun _ => ⟨d, writes⟩) (.step 0 nonce) =
      some ({ CState.init w with w := w.alloc.2 }.at 0 (.ready w.alloc.1)) := rfl
  let s1 : CState C R := { CState.init w with w := w.alloc.2 }
  let jb : Nat → Job R := fun _ => ⟨d, writes⟩
  have p2 : (s1.at 0 (.ready w.alloc.1)).act L jb (.step 0 nonce) =
      some (s1.at 0 (.loaded w.alloc.1 row 0 co)) := by
    simp only [CState.act, stepCall, at_pc, at_at]
    rw [show findRow (s1.at 0 (.ready w.alloc.1)).w d = some row from h1]
    dsimp only
    rw [show commitAt (s1.at 0 (.ready w.alloc.1)).w row.head = .ok (b, co) from h2]
    rfl
  have p3 : (s1.at 0 (.loaded w.alloc.1 row 0 co)).act L jb (.step 0 nonce) =
      some (s1.at 0 (.applied w.alloc.1 row 0 st)) := by
    simp only [CState.act, stepCall, at_pc, at_at]
    rw [if_neg (show ¬ maxOps < writes.length by omega)]
    rw [show applyWrites L (s1.at 0 (.loaded w.alloc.1 row 0 co)).w.rd w.alloc.1 d
      ⟨load co.data, [], []⟩ writes = .ok st from h4]
  have p4 : (s1.at 0 (.applied w.alloc.1 row 0 st)).act L jb (.step 0 nonce) =
      some (s1.at 0 (.built row 0 cd)) := by
    simp only [CState.act, stepCall, at_pc, at_at]
    rw [show buildCommit L (s1.at 0 (.applied w.alloc.1 row 0 st)).w.rd st row.key nonce w.alloc.1 d
      (some row.head) = .ok cd from h5]
  have p5 : (s1.at 0 (.built row 0 cd)).act L jb (.step 0 nonce) =
      some (s1.at 0 (.queried row 0 cd (missing w.blocks cd.blocks))) := by
    simp only [CState.act, stepCall, at_pc, at_at]
    rfl
  let s2 : CState C R :=
    { s1 with w := { s1.w with blocks := overwrite L w.blocks (missing w.blocks cd.blocks) } }
  have p6 : (s1.at 0 (.queried row 0 cd (missing w.blocks cd.blocks))).act L jb (.step 0 nonce) =
      some (s2.at 0 (.written row 0 cd)) := by
    simp only [CState.act, stepCall, at_pc]
    simp [CState.at, s2, s1]
    rfl
  let s3 : CState C R :=
    { s2 with
      w := { s2.w with rows := dictSet w.rows d { row with head := L.hash cd.commit.val } }
      ver := Function.update (fun _ => 0) d 1
      log := [(0, cd)] }
  have p7 : (s2.at 0 (.written row 0 cd)).act L jb (.step 0 nonce) = some (s3.at 0 (.done cd)) := by
    simp only [CState.act, stepCall, at_pc]
    simp [CState.at, s3, s2, s1, CState.init, jb]
    rfl
  refine ⟨s3.at 0 (.done cd), ?_, at_pc _ _ _, ?_, ?_, ?_⟩
  · show CState.run L jb (CState.init w) [.step 0 nonce, .step 0 nonce, .step 0 nonce, .step 0 nonce,
      .step 0 nonce, .step 0 nonce, .step 0 nonce] = _
    rw [run_step p1, run_step p2, run_step p3, run_step p4, run_step p5, run_step p6, run_step p7]
    rfl
  · exact how.trans h6.symm
  · exact h10.symm
  · exact h7.symm

end

end Arroba.Store
