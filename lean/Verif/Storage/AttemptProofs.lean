import Verif.Storage.WorldProofs

/-! Helper lemmas: what one attempt of `_commit` on an existing repo does. -/

namespace Arroba.Store

variable {C R : Type} [DecidableEq C]

open Arroba.Tree

/-- The heads of stored repos are older than `seq`. -/
def HeadsLt (be : Backend) (seq : Nat) (w : World C R) : Prop :=
  match be with
  | .memory => ∀ c b, dictGet w.blocks c = some b → b.seq < seq
  | .datastore => ∀ d row b, (d, row) ∈ w.rows → dictGet w.blocks row.head = some b → b.seq < seq

/-- Only `repo.mst` of some object changed, and only with `MemoryStorage`. -/
structure Quiet (be : Backend) (w w' : World C R) : Prop where
  eq : w' = { w with heap := w'.heap }
  heap : w'.heap = w.heap ∨ (be = .memory ∧ ∃ (s : Nat) (so : RepoObj C R) (n : Node C),
    w.heap[s]? = some so ∧ w'.heap = w.heap.set s { so with mst := n })

/-- Only blocks were added (Datastore). -/
structure Wrote (L : Lib C R) (Z : Nat) (be : Backend) (seq : Nat) (w w' : World C R) : Prop where
  be : be = .datastore
  eq : w' = { w with blocks := w'.blocks }
  grows : Grows w.blocks w'.blocks
  ok : BlocksOK L Z seq w'.blocks
  new : ∀ c b, dictGet w'.blocks c = some b → dictGet w.blocks c = some b ∨ b.seq = seq

/-- Reasons for a commit to fail. -/
inductive Fails (L : Lib C R) (Z : Nat) (be : Backend) (seq : Nat) (w : World C R)
    (o : RepoObj C R) (writes : List (Write R)) (x : Luck) : Err → Prop
  | inactive (h : o.status ≠ none) : Fails L Z be seq w o writes x .inactive
  | noDid (h : o.did = none) : Fails L Z be seq w o writes x .assertion
  | missing (d : Did) (h : o.did = some d) (h' : loadRepo be w d = (w, .ok none)) :
      Fails L Z be seq w o writes x .attribute
  | many (h : 200 < writes.length) : Fails L Z be seq w o writes x .value
  | bad (d : Did) (m : Key → Option R) (e : Err) (h : o.did = some d)
      (h' : RecordsOf L Z be w d m) (h'' : specWrites L m writes = .error e) :
      Fails L Z be seq w o writes x e
  | sign (h : x.signFails = true) : Fails L Z be seq w o writes x .attribute
  | tid (h : 32 ^ 11 ≤ seq) : Fails L Z be seq w o writes x .assertion
  | io (h : be = .datastore) (h' : x.writeFails = true ∨ x.storeFails = true) :
      Fails L Z be seq w o writes x .runtime

/-- What a successful attempt leaves behind. -/
structure Finished (L : Lib C R) (Z : Nat) (be : Backend) (seq : Nat) (w : World C R) (r : Ref)
    (writes : List (Write R)) (x : Luck) (did : Did) (m m' : Key → Option R) (s : Ref)
    (n : Node C) (cd : CommitData C R) (co : Commit C) (w' : World C R) : Prop where
  caller : ∃ o, w.heap[r]? = some o ∧ o.did = some did ∧ o.status = none
  few : writes.length ≤ 200
  noSignFail : x.signFails = false
  tid : seq < 32 ^ 11
  io : be = .datastore → x.writeFails = false ∧ x.storeFails = false
  spec : specWrites L m writes = .ok m'
  stored : ∃ w1 so b, loadRepo be w did = (w1, .ok (some s)) ∧ w1.heap[s]? = some so ∧
    ObjRep L Z w.blocks so m ∧ so.did = some did ∧ so.head = some b ∧ w1.blocks = w.blocks ∧
    Built L Z w.blocks seq did (some (L.hash b.val)) so.key x.nonce (opsOf L m writes) m' n cd co ∧
    match be with
    | .memory => w1 = w ∧ dictGet w.repos did = some s ∧ w'.rows = w.rows ∧
        w'.repos = dictSet w.repos did s
    | .datastore => s = w.heap.length ∧ w'.repos = w.repos ∧
        ∃ row, dictGet w.rows did = some row ∧ dictGet w.blocks row.head = some b ∧
          so = ⟨load (match b.val with | .commit c => c.data | _ => co.data), some b, row.handle,
            row.status, row.key, false⟩ ∧
          w'.rows = dictSet w.rows did { row with head := L.hash cd.commit.val }
  blocks : w'.blocks = putBlocks L w.blocks (cd.blocks.map (·.2))
  seqs : w'.seqs = w.seqs
  log : w'.log = w.log
  heap : ∀ i, w'.heap[i]? = if i = r ∨ (be = .memory ∧ i = s) then
    (w.heap[i]?).map (upd n cd.commit) else w.heap[i]?

/-- A successful attempt. -/
structure Done (L : Lib C R) (Z : Nat) (be : Backend) (seq : Nat) (w : World C R) (r : Ref)
    (writes : List (Write R)) (x : Luck) (did : Did) (m m' : Key → Option R) (s : Ref)
    (n : Node C) (cd : CommitData C R) (co : Commit C) (w' : World C R) : Prop extends
    Finished L Z be seq w r writes x did m m' s n cd co w' where
  body : ∃ w1, commitBody L be w r writes seq none x = (w1, .ok cd)

section
variable {L : Lib C R} {Z : Nat}

theorem beginCommit_none {be : Backend} {w : World C R} {seq : Nat} (hw : Core L Z seq w)
    {r : Ref} {o : RepoObj C R} (ho : w.heap[r]? = some o) :
    (o.did = none ∧ beginCommit L be w r o none = (w, .error .assertion)) ∨
    (∃ d, o.did = some d ∧ loadRepo be w d = (w, .ok none) ∧
      beginCommit L be w r o none = (w, .error .attribute)) ∨
    (∃ d s so m b co w1, o.did = some d ∧ isDid d ∧ loadRepo be w d = (w1, .ok (some s)) ∧
      w1.heap[s]? = some so ∧
      ObjRep L Z w.blocks so m ∧ so.did = some d ∧ so.head = some b ∧ b.val = .commit co ∧
      co.did = d ∧
      beginCommit L be w r o none = (w1, .ok (s, d, some (L.hash b.val))) ∧
      match be with
      | .memory => w1 = w ∧ dictGet w.repos d = some s
      | .datastore => s = w.heap.length ∧ w1 = { w with heap := w.heap ++ [so] } ∧
          ∃ row, dictGet w.rows d = some row ∧ dictGet w.blocks row.head = some b ∧
            so = ⟨load co.data, some b, row.handle, row.status, row.key, false⟩) := by
  unfold beginCommit
  cases hd : o.did with
  | none => exact .inl ⟨rfl, rfl⟩
  | some d =>
    right
    obtain ⟨m', hm'⟩ := hw.heap r o ho
    have hq := hm'.isDid hw.blocks hd
    rcases loadRepo_spec hw be hq with h | ⟨s, so, m, b, co, w1, h1, h2, h3, h4, h5, h6, h7, h8⟩
    · left
      exact ⟨d, rfl, h, by simp only [h]⟩
    · right
      refine ⟨d, s, so, m, b, co, w1, rfl, hq, h1, h2, h3, h4, h5, h6, h7, ?_, h8⟩
      simp only [h1, h2, Option.bind_some, h5]

theorem finish_existing {be : Backend} {w : World C R} {r s : Ref} {so : RepoObj C R} {n : Node C}
    {cd : CommitData C R} {co : Commit C} {did : Did} {x : Luck} (hso : w.heap[s]? = some so)
    (hcd : cd.commit.val = .commit co) (hdid : co.did = did) :
    if be = .datastore ∧ x.writeFails then
      finishCommit L be w r s n true cd x = (w, .error .runtime)
    else if be = .datastore ∧ x.storeFails then
      ∃ w', finishCommit L be w r s n true cd x = (w', .error .runtime) ∧
        w'.blocks = putBlocks L w.blocks (cd.blocks.map (·.2)) ∧ w'.seqs = w.seqs ∧
        w'.rows = w.rows ∧ w'.repos = w.repos ∧ w'.log = w.log ∧
        (∀ i, i ≠ s → w'.heap[i]? = w.heap[i]?) ∧ w'.heap.length = w.heap.length
    else match be with
      | .memory => ∃ w', finishCommit L be w r s n true cd x = (w', .ok cd) ∧
          w'.blocks = putBlocks L w.blocks (cd.blocks.map (·.2)) ∧ w'.seqs = w.seqs ∧
          w'.log = w.log ∧ w'.rows = w.rows ∧ w'.repos = dictSet w.repos did s ∧
          ∀ i, w'.heap[i]? = if i = r then (w.heap[i]?).map (upd n cd.commit)
            else if i = s then (w.heap[i]?).map (fun o => { o with head := some cd.commit })
            else w.heap[i]?
      | .datastore =>
          match dictGet w.rows did with
          | none => True
          | some row => ∃ w', finishCommit L be w r s n true cd x = (w', .ok cd) ∧
            w'.blocks = putBlocks L w.blocks (cd.blocks.map (·.2)) ∧ w'.seqs = w.seqs ∧
            w'.log = w.log ∧ w'.repos = w.repos ∧
            w'.rows = dictSet w.rows did ⟨so.handle, L.hash cd.commit.val, so.status, row.key⟩ ∧
            ∀ i, w'.heap[i]? = if i = r then (w.heap[i]?).map (upd n cd.commit)
              else if i = s then (w.heap[i]?).map (fun o => { o with head := some cd.commit })
              else w.heap[i]? := by
  unfold finishCommit
  by_cases h1 : be = .datastore ∧ x.writeFails = true
  · rw [if_pos h1, if_pos h1]
  · rw [if_neg h1, if_neg h1]
    simp only [if_true]
    set w1 : World C R := { w with blocks := putBlocks L w.blocks (cd.blocks.map (·.2)) } with hw1
    set w2 := w1.modObj s (fun o => { o with head := some cd.commit }) with hw2
    have e2 : w2 = { w1 with heap := w2.heap } := modObj_with _ _ _
    have g2 : ∀ i, w2.heap[i]? = if i = s then
        (w.heap[i]?).map (fun o => { o with head := some cd.commit }) else w.heap[i]? :=
      fun i => heap_modObj w1 s _ i
    have hs2 : w2.heap[s]? = some { so with head := some cd.commit } := by
      rw [g2 s, if_pos rfl, hso]; rfl
    have hd2 : ({ so with head := some cd.commit } : RepoObj C R).did = some did :=
      hdid ▸ did_eq rfl hcd
    by_cases h2 : be = .datastore ∧ x.storeFails = true
    · rw [if_pos h2, if_pos h2]
      refine ⟨w2, rfl, by rw [e2], by rw [e2], by rw [e2], by rw [e2], by rw [e2], ?_, ?_⟩
      · intro i hi; rw [g2, if_neg hi]
      · rw [hw2]; unfold World.modObj
        cases w1.heap[s]? <;> simp [World.setObj, hw1]
    · rw [if_neg h2, if_neg h2]
      have hfin : ∀ w3 : World C R, w3.heap = w2.heap → ∀ i, (w3.modObj r
          (fun o => { o with mst := n, head := some cd.commit })).heap[i]? =
          if i = r then (w.heap[i]?).map (upd n cd.commit)
            else if i = s then (w.heap[i]?).map (fun o => { o with head := some cd.commit })
            else w.heap[i]? := by
        intro w3 h3 i
        rw [heap_modObj, h3, g2]
        by_cases hi : i = r
        · simp only [hi, if_true]
          by_cases hr : r = s
          · simp only [hr, if_true, Option.map_map]; rfl
          · simp only [hr, if_false]; rfl
        · simp only [hi, if_false]
      cases be with
      | memory =>
        simp only
        have hst : storeRepo L .memory w2 s = ({ w2 with repos := dictSet w2.repos did s }, .ok ()) := by
          unfold storeRepo; rw [hs2]; simp only [hd2]
        rw [hst]
        simp only
        refine ⟨_, rfl, ?_, ?_, ?_, ?_, ?_, hfin _ rfl⟩ <;> rw [modObj_with] <;> simp only <;>
          rw [e2]
      | datastore =>
        simp only
        cases hrow : dictGet w.rows did with
        | none => trivial
        | some row =>
          simp only
          have hst : storeRepo L .datastore w2 s = ({ w2 with
              rows := dictSet w2.rows did
                ⟨so.handle, L.hash cd.commit.val, so.status, row.key⟩ }, .ok ()) := by
            unfold storeRepo; rw [hs2]; simp only [hd2]
            rw [show w2.rows = w.rows by rw [e2], hrow]
          rw [hst]
          simp only
          refine ⟨_, rfl, ?_, ?_, ?_, ?_, ?_, hfin _ rfl⟩ <;> rw [modObj_with] <;> simp only <;>
            rw [e2]

theorem collect_self (w : World C R) : w.collect w = w := by
  simp [World.collect]

theorem Quiet.refl (be : Backend) (w : World C R) : Quiet be w w := ⟨rfl, .inl rfl⟩

theorem Built.newSeq {blocks : List (C × Block C R)} {seq : Nat} {did : Did} {prev : Option C}
    {key nonce : Nat} {ops : List (CommitOp C)} {m : Key → Option R} {n : Node C}
    {cd : CommitData C R} {co : Commit C}
    (h : Built L Z blocks seq did prev key nonce ops m n cd co) {c : C} {b : Block C R}
    (hb : dictGet (putBlocks L blocks (cd.blocks.map (·.2))) c = some b) :
    dictGet blocks c = some b ∨ b.seq = seq := by
  rcases putBlocks_get _ _ hb with h' | ⟨_, h', _⟩
  · exact .inl h'
  · obtain ⟨y, hy, rfl⟩ := List.mem_map.1 h'
    exact .inr (h.members y hy).2.1

theorem attempt_finished (hL : L.OK Z) {be : Backend} {w : World C R} {seq : Nat}
    (hw : Core L Z seq w) (hseq : 1 ≤ seq) (hh : HeadsLt be seq w) {r : Ref} {o : RepoObj C R}
    (ho : w.heap[r]? = some o) (writes : List (Write R)) (x : Luck) :
    (∃ w1 e, commitBody L be w r writes seq none x = (w1, .error e) ∧
      (Quiet be w (w1.collect w) ∨ (x.storeFails = true ∧ Wrote L Z be seq w (w1.collect w))) ∧
      (writes.length ≤ 1 → x.signFails = false → seq < 32 ^ 11 → (w1.collect w).heap = w.heap) ∧
      Fails L Z be seq w o writes x e) ∨
    (∃ w1 cd did m m' s n co, commitBody L be w r writes seq none x = (w1, .ok cd) ∧
      Finished L Z be seq w r writes x did m m' s n cd co (w1.collect w)) := by
  rw [commitBody_eq, ho]
  simp only
  rw [if_neg (by omega)]
  by_cases hst : o.status ≠ none
  · rw [if_pos hst]
    exact .inl ⟨w, _, rfl, .inl (by rw [collect_self]; exact .refl _ _),
      fun _ _ _ => by rw [collect_self], .inactive hst⟩
  rw [if_neg hst]
  rcases beginCommit_none (be := be) hw ho with ⟨h1, h2⟩ | ⟨d, h1, h2, h3⟩ |
    ⟨d, s, so, m, b, co₀, w1, hod, hq, hload, hs, hm, hsd, hhead, hbv, hcd, hbeg, hbe⟩
  · rw [h2]
    exact .inl ⟨w, _, rfl, .inl (by rw [collect_self]; exact .refl _ _),
      fun _ _ _ => by rw [collect_self], .noDid h1⟩
  · rw [h3]
    exact .inl ⟨w, _, rfl, .inl (by rw [collect_self]; exact .refl _ _),
      fun _ _ _ => by rw [collect_self], .missing d h1 h2⟩
  rw [hbeg]
  simp only
  have hblk : w1.blocks = w.blocks := by
    cases be with
    | memory => rw [hbe.1]
    | datastore => rw [hbe.2.1]
  have hrows : w1.rows = w.rows := by
    cases be with
    | memory => rw [hbe.1]
    | datastore => rw [hbe.2.1]
  have hrepos : w1.repos = w.repos := by
    cases be with
    | memory => rw [hbe.1]
    | datastore => rw [hbe.2.1]
  have hrec : RecordsOf L Z be w d m := ⟨s, w1, so, hload, hs, hblk ▸ hm⟩
  have hprev : ∀ p, some (L.hash b.val) = some p → ∃ b' co', dictGet w1.blocks p = some b' ∧
      b'.val = .commit co' ∧ co'.did = d ∧ b'.seq < seq ∧ RootOK L Z w1.blocks co'.data m := by
    intro p hp
    cases hp
    obtain ⟨_, co1, _, _, k1, k2⟩ := hm.root hL hw.blocks hhead
    rw [hbv] at k1
    cases k1
    obtain ⟨l, t, _, _, hx⟩ := hm.tree
    obtain ⟨b', co', g1, g2, g3, g4⟩ := hx b hhead
    rw [hbv] at g3
    cases g3
    refine ⟨b', co₀, hblk ▸ g1, g2.trans hbv, hcd, ?_, hblk ▸ k2⟩
    cases be with
    | memory => exact hh _ b' g1
    | datastore =>
      obtain ⟨_, _, row, hr1, hr2, _⟩ := hbe
      have := hw.blocks.addr _ _ hr2
      rw [this] at g1
      rw [hr2] at g1
      cases g1
      exact hh d row _ (dictGet_mem hr1) hr2
  have hset : ∀ n' : Node C, Quiet be w ((w1.setObj s { so with mst := n' }).collect w) := by
    intro n'
    cases be with
    | memory =>
      obtain ⟨rfl, _⟩ := hbe
      refine ⟨rfl, .inr ⟨rfl, s, so, n', hs, ?_⟩⟩
      show (w1.heap.set s { so with mst := n' }).take w1.heap.length = _
      rw [List.take_of_length_le (by simp)]
    | datastore =>
      obtain ⟨rfl, rfl, _⟩ := hbe
      refine ⟨rfl, .inl ?_⟩
      simp [World.collect, World.setObj]
  have hcol1 : Quiet be w (w1.collect w) := by
    cases be with
    | memory => obtain ⟨rfl, _⟩ := hbe; rw [collect_self]; exact .refl _ _
    | datastore =>
      obtain ⟨rfl, rfl, _⟩ := hbe
      exact ⟨rfl, .inl (by simp [World.collect])⟩
  have hcolh : (w1.collect w).heap = w.heap := by
    cases be with
    | memory => obtain ⟨rfl, _⟩ := hbe; rw [collect_self]
    | datastore => obtain ⟨rfl, rfl, _⟩ := hbe; simp [World.collect]
  have hds : be = .datastore → ∀ n' : Node C,
      ((w1.setObj s { so with mst := n' }).collect w).heap = w.heap := by
    rintro rfl n'
    obtain ⟨rfl, rfl, _⟩ := hbe
    simp [World.collect, World.setObj]
  have hsame : ((w1.setObj s { so with mst := so.mst }).collect w).heap = w.heap := by
    have e : w1.setObj s { so with mst := so.mst } = w1 := by
      have : w1.heap.set s so = w1.heap := by
        apply List.ext_getElem?
        intro i
        rw [List.getElem?_set]
        by_cases hi : s = i
        · subst hi
          rw [if_pos rfl, hs, if_pos (List.getElem?_eq_some_iff.1 hs).1]
        · rw [if_neg hi]
      show { w1 with heap := w1.heap.set s so } = w1
      rw [this]
    rw [e, hcolh]
  have hspec := rest_spec hL (be := be) (r := r) (writes := writes) (x := x) (hblk.symm ▸ hw.blocks)
    hseq hs (hblk.symm ▸ hm) hq hprev (fun h => by cases h)
  by_cases hlen : maxOps < writes.length
  · rw [if_pos hlen] at hspec
    rw [hspec]
    exact .inl ⟨w1, _, rfl, .inl hcol1, fun _ _ _ => hcolh, .many hlen⟩
  rw [if_neg hlen] at hspec
  cases hsw : specWrites L m writes with
  | error e =>
    rw [hsw] at hspec
    obtain ⟨n, hn, hn'⟩ := hspec
    rw [hn]
    exact .inl ⟨_, _, rfl, .inl (hset n), fun h1 _ _ => by rw [hn' h1, hsame], .bad d m e hod hrec hsw⟩
  | ok m' =>
    rw [hsw] at hspec
    obtain ⟨n, _, hn⟩ := hspec
    by_cases hsf : x.signFails = true
    · rw [if_pos hsf] at hn
      rw [hn]
      exact .inl ⟨_, _, rfl, .inl (hset n), fun _ h _ => absurd hsf (by simp [h]), .sign hsf⟩
    rw [if_neg hsf] at hn
    by_cases hmax : 32 ^ 11 ≤ seq
    · rw [if_pos hmax] at hn
      rw [hn]
      exact .inl ⟨_, _, rfl, .inl (hset n), fun _ _ h => by omega, .tid hmax⟩
    rw [if_neg hmax] at hn
    obtain ⟨cd, co, hbuilt, hn⟩ := hn
    rw [hn, hsd, show (some d).isSome = true from rfl]
    rw [hblk] at hbuilt
    have hv : cd.commit.val = .commit co := by rw [hbuilt.commit]
    have hsl : s < w1.heap.length := by
      rw [List.getElem?_eq_some_iff] at hs; exact hs.1
    have hs' : (w1.setObj s { so with mst := n }).heap[s]? = some { so with mst := n } := by
      rw [heap_setObj, if_pos rfl, hs]; rfl
    have hfin := finish_existing (L := L) (be := be) (r := r) (n := n) (x := x) hs' hv hbuilt.codid
    by_cases hwf : be = .datastore ∧ x.writeFails = true
    · rw [if_pos hwf] at hfin
      rw [hfin]
      exact .inl ⟨_, _, rfl, .inl (hset n), fun _ _ _ => hds hwf.1 n, .io hwf.1 (.inl hwf.2)⟩
    rw [if_neg hwf] at hfin
    by_cases hsf' : be = .datastore ∧ x.storeFails = true
    · rw [if_pos hsf'] at hfin
      obtain ⟨w2, g1, g2, g3, g4, g5, g6, g7, g8⟩ := hfin
      rw [g1]
      have hsfx := hsf'.2
      suffices h : Wrote L Z be seq w (w2.collect w) by
        refine .inl ⟨_, _, rfl, .inr ⟨hsfx, h⟩, fun _ _ _ => by rw [h.eq], .io hsf'.1 (.inr hsf'.2)⟩
      obtain ⟨rfl, _⟩ := hsf'
      obtain ⟨rfl, rfl, _⟩ := hbe
      refine ⟨rfl, ?_, ?_, ?_, ?_⟩
      · have hh : w2.heap.take w.heap.length = w.heap := by
          apply List.ext_getElem?
          intro i
          by_cases hi : i < w.heap.length
          · rw [List.getElem?_take_of_lt hi, g7 i (Nat.ne_of_lt hi), heap_setObj,
              if_neg (Nat.ne_of_lt hi)]
            exact List.getElem?_append_left hi
          · rw [List.getElem?_eq_none (by simp; left; exact Nat.le_of_not_lt hi),
              List.getElem?_eq_none (Nat.le_of_not_lt hi)]
        cases w2
        simp only [World.collect, World.mk.injEq] at *
        exact ⟨trivial, g3, hh, g5, g4, g6⟩
      · simp only [World.collect, g2]; exact putBlocks_grows _ _
      · simp only [World.collect, g2]; exact hbuilt.ok
      · intro c b' hb'
        simp only [World.collect, g2] at hb'
        exact hbuilt.newSeq hb'
    rw [if_neg hsf'] at hfin
    right
    cases be with
    | memory =>
      obtain ⟨rfl, hmem⟩ := hbe
      obtain ⟨w2, g1, g2, g3, g4, g5, g6, g7⟩ := hfin
      have hlen2 : w2.heap.length = w1.heap.length := by
        have h1 : ∀ i : Nat, (w2.heap[i]?).isSome = (w1.heap[i]?).isSome := by
          intro i
          rw [g7 i]
          simp only [heap_setObj]
          split
          · split <;> simp
          · split <;> simp
        rcases Nat.lt_trichotomy w2.heap.length w1.heap.length with h | h | h
        · have := h1 w2.heap.length; simp [h] at this
        · exact h
        · have := h1 w1.heap.length; simp [h] at this
      have hcol : w2.collect w1 = w2 := by
        simp only [World.collect, ← hlen2, List.take_length]
      refine ⟨w2, cd, d, m, m', s, n, co, g1, ?_⟩
      rw [hcol]
      refine ⟨⟨o, ho, hod, by simpa using hst⟩, by simpa [maxOps] using hlen, by simpa using hsf,
        by omega, (fun h => by cases h), hsw, ⟨w1, so, b, hload, hs, hm, hsd, hhead, rfl, hbuilt, rfl,
          hmem, g5, g6⟩, g2, g3, g4, ?_⟩
      intro i
      rw [g7 i, heap_setObj]
      by_cases hi : i = r
      · simp only [hi, true_or, if_true]
        by_cases hr : r = s
        · simp only [hr, if_true, Option.map_map]
          rw [hs]; rfl
        · simp only [hr, if_false]
      · simp only [hi, if_false, false_or, true_and]
        by_cases hs2 : i = s
        · simp only [hs2, if_true, hs]; rfl
        · simp only [hs2, if_false]
    | datastore =>
      obtain ⟨rfl, rfl, row, hr1, hr2, hr3⟩ := hbe
      simp only [World.setObj, hr1] at hfin
      obtain ⟨w2, g1, g2, g3, g4, g5, g6, g7⟩ := hfin
      refine ⟨w2, cd, d, m, m', w.heap.length, n, co, g1, ?_⟩
      have hwf' : x.writeFails = false := by simpa using hwf
      have hsf'' : x.storeFails = false := by simpa using hsf'
      refine ⟨⟨o, ho, hod, by simpa using hst⟩, by simpa [maxOps] using hlen, by simpa using hsf,
        by omega, fun _ => ⟨hwf', hsf''⟩, hsw, ⟨_, so, b, hload, hs, hm, hsd, hhead, rfl, hbuilt, rfl,
          g5, row, hr1, hr2, ?_, ?_⟩, g2, g3, g4, ?_⟩
      · rw [hbv]; exact hr3
      · simp only [World.collect, g6, hr3]
      · intro i
        simp only [World.collect, reduceCtorEq, false_and, or_false]
        have hrl : r < w.heap.length := by
          rw [List.getElem?_eq_some_iff] at ho; exact ho.1
        by_cases hi : i < w.heap.length
        · rw [List.getElem?_take_of_lt hi, g7 i]
          have e : ((w.heap ++ [so]).set w.heap.length { so with mst := n })[i]? = w.heap[i]? := by
            rw [List.getElem?_set_ne (Nat.ne_of_gt hi), List.getElem?_append_left hi]
          rw [e]
          by_cases hir : i = r
          · simp only [hir, if_true]
          · rw [if_neg hir, if_neg hir, if_neg (Nat.ne_of_lt hi)]
        · have hir : i ≠ r := fun h => hi (h ▸ hrl)
          rw [List.getElem?_eq_none (by simp; left; exact Nat.le_of_not_lt hi), if_neg hir,
            List.getElem?_eq_none (Nat.le_of_not_lt hi)]

theorem attempt_none (hL : L.OK Z) {be : Backend} {w : World C R} {seq : Nat}
    (hw : Core L Z seq w) (hseq : 1 ≤ seq) (hh : HeadsLt be seq w) {r : Ref} {o : RepoObj C R}
    (ho : w.heap[r]? = some o) (writes : List (Write R)) (x : Luck) :
    (∃ w1 e, commitBody L be w r writes seq none x = (w1, .error e) ∧
      (Quiet be w (w1.collect w) ∨ (x.storeFails = true ∧ Wrote L Z be seq w (w1.collect w))) ∧
      (writes.length ≤ 1 → x.signFails = false → seq < 32 ^ 11 → (w1.collect w).heap = w.heap) ∧
      Fails L Z be seq w o writes x e) ∨
    (∃ w1 cd did m m' s n co, commitBody L be w r writes seq none x = (w1, .ok cd) ∧
      Done L Z be seq w r writes x did m m' s n cd co (w1.collect w)) := by
  rcases attempt_finished hL hw hseq hh ho writes x with h | ⟨w1, cd, did, m, m', s, n, co, h1, h2⟩
  · exact .inl h
  · exact .inr ⟨w1, cd, did, m, m', s, n, co, h1, h2, ⟨w1, h1⟩⟩

end

end Arroba.Store
