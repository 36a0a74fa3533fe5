import Verif.Storage.LogProofs

/-!
Helper lemmas: what holds of the stored blocks in every history, including those in which a failed
`MemoryStorage` commit has left a changed tree behind. Trees are only known to be well-formed;
nothing is said about the records they refer to.
-/

namespace Arroba.Store

variable {C R : Type} [DecidableEq C]

open Arroba.Tree

/-- `c` is the root CID of a tree whose nodes are all stored. -/
def PRoot (L : Lib C R) (Z : Nat) (blocks : List (C × Block C R)) (c : C) : Prop :=
  ∃ t l, l ≤ Z ∧ WF L.zeros l t ∧ Sorted t ∧ ValidKeys t ∧ Stored L.env (nodeIn blocks) t ∧
    cidOf L.env.H t = c

/-- The records of created and updated paths are stored. -/
def POps (L : Lib C R) (blocks : List (C × Block C R)) (ops : List (CommitOp C)) : Prop :=
  ∀ op ∈ ops, op.action ≠ .delete → ∃ r, op.cid = some (L.rcid r) ∧ Has L blocks (.record r)

/-- A stored commit. -/
structure PCommit (L : Lib C R) (Z : Nat) (blocks : List (C × Block C R)) (b : Block C R)
    (co : Commit C) : Prop where
  version : co.version = 3
  rev : Tid.intToTid 0 b.seq (some 0) = .ok co.rev
  repo : b.repo = co.did
  did : isDid co.did
  ops : ∃ ops, b.ops = some ops ∧ POps L blocks ops
  prev : ∀ p, co.prev = some p → ∃ b' co', dictGet blocks p = some b' ∧ b'.val = .commit co' ∧
    co'.did = co.did ∧ b'.seq < b.seq
  root : PRoot L Z blocks co.data

/-- An imported commit: its tree is stored, and it is none of this server's. -/
structure PForeign (L : Lib C R) (Z hi : Nat) (blocks : List (C × Block C R)) (b : Block C R)
    (co : Commit C) : Prop where
  seq : b.seq = 0
  did : isDid co.did
  apart : Alien L hi co
  root : PRoot L Z blocks co.data

/-- The stored blocks; `hi` is the last allocated sequence number. Imported blocks have the number 0. -/
structure PBlocks (L : Lib C R) (Z hi : Nat) (blocks : List (C × Block C R)) : Prop where
  addr : Addressed L blocks
  store : StoreOK L.env (nodeIn blocks)
  seqs : ∀ c b, dictGet blocks c = some b → b.seq ≤ hi
  recs : ∀ c b r, dictGet blocks c = some b → b.val = .record r →
    (1 ≤ b.seq → L.valid r = true ∧ L.size r ≤ maxRecordSize) ∧ b.ops = none
  commits : ∀ c b co, dictGet blocks c = some b → b.val = .commit co →
    PCommit L Z blocks b co ∨ PForeign L Z hi blocks b co
  events : ∀ c b e, dictGet blocks c = some b → b.val = .event e →
    e.seq = b.seq ∧ b.repo = e.did ∧ b.ops = none

/-- The head of an object is a stored commit. -/
def PHead (L : Lib C R) (blocks : List (C × Block C R)) (b : Block C R) : Prop :=
  ∃ b' co, dictGet blocks (L.hash b.val) = some b' ∧ b'.val = b.val ∧ b.val = .commit co ∧
    b'.seq = b.seq

structure PObj (L : Lib C R) (Z : Nat) (blocks : List (C × Block C R)) (o : RepoObj C R) :
    Prop where
  tree : ∃ l t M, Inv L.env (nodeIn blocks) Z l t o.mst M
  head : ∀ b, o.head = some b → PHead L blocks b
  handle : ∀ h, o.handle = some h → ¬ isDid h

/-- All blocks have numbers up to `hi`; the heads of stored repos up to `lo`. -/
structure PCore (L : Lib C R) (Z : Nat) (be : Backend) (hi lo : Nat) (w : World C R) : Prop where
  blocks : PBlocks L Z hi w.blocks
  heap : ∀ (r : Nat) o, w.heap[r]? = some o → PObj L Z w.blocks o
  repos : ∀ d r, (d, r) ∈ w.repos → be = .memory ∧
    ∃ (o : RepoObj C R), w.heap[r]? = some o ∧ o.did = some d
  rows : ∀ d row, (d, row) ∈ w.rows → (∀ h, row.handle = some h → ¬ isDid h) ∧
    ∃ b co, dictGet w.blocks row.head = some b ∧ b.val = .commit co ∧ co.did = d ∧ b.seq ≤ lo
  heads : be = .memory → ∀ (r : Nat) (o : RepoObj C R) b, w.heap[r]? = some o → o.head = some b →
    b.seq ≤ lo

section
variable {L : Lib C R} {Z : Nat}

theorem PRoot.grow {a b : List (C × Block C R)} {c : C} (h : PRoot L Z a c) (hg : Grows a b) :
    PRoot L Z b c := by
  obtain ⟨t, l, h1, h2, h3, h4, h5, h6⟩ := h
  exact ⟨t, l, h1, h2, h3, h4, h5.mono hg.nodeIn, h6⟩

theorem POps.grow {a b : List (C × Block C R)} {ops : List (CommitOp C)} (h : POps L a ops)
    (hg : Grows a b) : POps L b ops := by
  intro op ho hd
  obtain ⟨r, h1, h2⟩ := h op ho hd
  exact ⟨r, h1, h2.grow hg⟩

theorem PCommit.grow {a b : List (C × Block C R)} {x : Block C R} {co : Commit C}
    (h : PCommit L Z a x co) (hg : Grows a b) : PCommit L Z b x co := by
  refine ⟨h.version, h.rev, h.repo, h.did, ?_, fun p hp => ?_, h.root.grow hg⟩
  · obtain ⟨ops, h1, h2⟩ := h.ops
    exact ⟨ops, h1, h2.grow hg⟩
  · obtain ⟨b', co', h1, h2⟩ := h.prev p hp
    exact ⟨b', co', hg _ _ h1, h2⟩

theorem PForeign.grow {hi : Nat} {a b : List (C × Block C R)} {x : Block C R} {co : Commit C}
    (h : PForeign L Z hi a x co) (hg : Grows a b) : PForeign L Z hi b x co :=
  ⟨h.seq, h.did, h.apart, h.root.grow hg⟩

theorem PForeign.mono {hi hi' : Nat} {a : List (C × Block C R)} {x : Block C R} {co : Commit C}
    (h : PForeign L Z hi a x co) (hl : hi ≤ hi') : PForeign L Z hi' a x co :=
  ⟨h.seq, h.did, h.apart.mono hl, h.root⟩

theorem PBlocks.did {hi : Nat} {blocks : List (C × Block C R)} (h : PBlocks L Z hi blocks) {c : C}
    {b : Block C R} {co : Commit C} (hb : dictGet blocks c = some b) (hv : b.val = .commit co) : isDid co.did :=
  (h.commits c b co hb hv).elim (·.did) (·.did)

theorem PBlocks.root {hi : Nat} {blocks : List (C × Block C R)} (h : PBlocks L Z hi blocks) {c : C}
    {b : Block C R} {co : Commit C} (hb : dictGet blocks c = some b) (hv : b.val = .commit co) :
    PRoot L Z blocks co.data :=
  (h.commits c b co hb hv).elim (·.root) (·.root)

/-- A commit with a sequence number was made by this server. -/
theorem PBlocks.own {hi : Nat} {blocks : List (C × Block C R)} (h : PBlocks L Z hi blocks) {c : C}
    {b : Block C R} {co : Commit C} (hb : dictGet blocks c = some b) (hv : b.val = .commit co) (hs : 1 ≤ b.seq) :
    PCommit L Z blocks b co :=
  (h.commits c b co hb hv).resolve_right fun h => by have := h.seq; omega

theorem PBlocks.mono {hi hi' : Nat} {blocks : List (C × Block C R)} (h : PBlocks L Z hi blocks)
    (hl : hi ≤ hi') : PBlocks L Z hi' blocks :=
  ⟨h.addr, h.store, fun c b hb => (h.seqs c b hb).trans hl, h.recs,
    fun c b co hb hv => (h.commits c b co hb hv).imp_right (·.mono hl), h.events⟩

theorem PHead.grow {a b : List (C × Block C R)} {x : Block C R} (h : PHead L a x)
    (hg : Grows a b) : PHead L b x := by
  obtain ⟨b', co, h1, h2⟩ := h
  exact ⟨b', co, hg _ _ h1, h2⟩

theorem PObj.grow {a b : List (C × Block C R)} {o : RepoObj C R} (h : PObj L Z a o)
    (hg : Grows a b) : PObj L Z b o := by
  obtain ⟨⟨l, t, M, h1⟩, h2, h3⟩ := h
  exact ⟨⟨l, t, M, h1.mono hg.nodeIn⟩, fun x hx => (h2 x hx).grow hg, h3⟩

theorem PObj.isDid {hi : Nat} {blocks : List (C × Block C R)} (hb : PBlocks L Z hi blocks)
    {o : RepoObj C R} (h : PObj L Z blocks o) {d : Did} (hd : o.did = some d) : isDid d := by
  obtain ⟨b, co, h1, h2, rfl⟩ := did_some hd
  obtain ⟨b', co', g1, g2, g3, _⟩ := h.head b h1
  rw [h2] at g3; cases g3
  exact hb.did g1 (g2.trans h2)

/-! ### The write loop -/

/-- Invariant of the write loop. -/
structure PLoop (L : Lib C R) (Z : Nat) (blocks : List (C × Block C R)) (seq : Nat) (did : Did)
    (st : LoopState C R) : Prop where
  inv : ∃ l t M, Inv L.env (nodeIn blocks) Z l t st.mst M
  new : ∀ cb ∈ st.blocks, ∃ r, cb = (L.rcid r, ⟨.record r, seq, none, did⟩) ∧ L.valid r = true ∧
    L.size r ≤ maxRecordSize
  ops : ∀ op ∈ st.ops, op.action ≠ .delete → ∃ r, op.cid = some (L.rcid r) ∧
    L.rcid r ∈ st.blocks.map (·.1)

theorem checkedRecord_ok {w : Write R} {r : R} (h : checkedRecord L w = .ok r) :
    L.valid r = true ∧ L.size r ≤ maxRecordSize := by
  rw [checkedRecord_eq] at h
  have hr := specRecord_some h
  unfold specRecord at h
  rw [hr] at h
  simp only at h
  split at h
  · cases h
  · rename_i h1
    split at h
    · cases h
    · rename_i h2
      simp only [Bool.not_eq_false] at h1
      exact ⟨h1, by simpa [maxRecordSize] using h2⟩

variable {blocks : List (C × Block C R)} {seq : Nat} {did : Did}

theorem PLoop.addOp {st : LoopState C R} (h : PLoop L Z blocks seq did st) {n : Node C}
    (hn : ∃ l t M, Inv L.env (nodeIn blocks) Z l t n M) {r : R}
    (hr : L.valid r = true ∧ L.size r ≤ maxRecordSize) {ops : List (CommitOp C)}
    (ho : ∀ op ∈ ops, op ∈ st.ops ∨ op.cid = some (L.rcid r)) :
    PLoop L Z blocks seq did ⟨n, dictSet st.blocks (L.rcid r) ⟨.record r, seq, none, did⟩, ops⟩ := by
  refine ⟨hn, ?_, ?_⟩
  · intro cb hcb
    rcases mem_dictSet hcb with rfl | hcb
    · exact ⟨r, rfl, hr⟩
    · exact h.new cb hcb
  · intro op hop hd
    rcases ho op hop with h' | h'
    · obtain ⟨r', g1, g2⟩ := h.ops op h' hd
      exact ⟨r', g1, keys_dictSet.2 (.inr g2)⟩
    · exact ⟨r, h', keys_dictSet.2 (.inl rfl)⟩

theorem checkedRecord_err {w : Write R} {e : Err} (h : checkedRecord L w = .error e) : e ≠ .runtime := by
  unfold checkedRecord ensure at h
  rintro rfl
  split at h
  · cases h
  · split at h
    · split at h <;> cases h
    · cases h

theorem PLoop.write (hL : L.OK Z) {st : LoopState C R} (h : PLoop L Z blocks seq did st)
    (w : Write R) :
    match applyWrite L (nodeIn blocks) seq did st w with
    | .error (n, e) => e ≠ .runtime ∧ ∃ l t M, Inv L.env (nodeIn blocks) Z l t n M
    | .ok st' => PLoop L Z blocks seq did st' := by
  obtain ⟨l, t, M, hi⟩ := h.inv
  have hget := hi.get hL.fuel w.path
  unfold applyWrite
  cases ha : w.action with
  | create =>
    have hp : prevCidOf L (nodeIn blocks) st.mst w = .ok none := by simp [prevCidOf, ha]
    simp only [atTree_ok hp, ok_bind]
    cases hr : checkedRecord L w with
    | error e => exact ⟨checkedRecord_err hr, l, t, M, hi⟩
    | ok r =>
      simp only [atTree_ok rfl, ok_bind]
      have hs := hi.step hL.zeros hL.fuel (.add w.path (L.rcid r))
      cases he : (specStep M (.add w.path (L.rcid r))).2 with
      | some e =>
        rw [he] at hs
        simp only [applyOp] at hs
        rw [show L.hash (.record r) = L.rcid r from rfl, atTree_err hs.1]
        refine ⟨?_, l, t, M, hi⟩
        unfold specStep at he
        rintro rfl
        dsimp only at he
        split at he
        · cases he
        · split at he <;> cases he
      | none =>
        rw [he] at hs
        obtain ⟨n', t', l', h1, h2, _⟩ := hs
        simp only [applyOp] at h1
        rw [show L.hash (.record r) = L.rcid r from rfl, atTree_ok h1, ok_bind]
        refine h.addOp ⟨l', t', _, h2.cachedStar hL.fuel (hL.touch _ _)⟩ (checkedRecord_ok hr) ?_
        intro op hop
        rcases List.mem_append.1 hop with h' | h'
        · exact .inl h'
        · simp only [List.mem_singleton] at h'
          subst h'; exact .inr rfl
  | update =>
    by_cases hm : M w.path = none
    · have hp : prevCidOf L (nodeIn blocks) st.mst w = .error .value := by
        simp [prevCidOf, ha, hget, hm]
      rw [atTree_err hp]
      exact ⟨by simp, l, t, M, hi⟩
    · obtain ⟨c₀, hc₀⟩ := Option.ne_none_iff_exists'.1 hm
      have hp : prevCidOf L (nodeIn blocks) st.mst w = .ok (some c₀) := by
        simp [prevCidOf, ha, hget, hc₀]
      simp only [atTree_ok hp, ok_bind]
      cases hr : checkedRecord L w with
      | error e => exact ⟨checkedRecord_err hr, l, t, M, hi⟩
      | ok r =>
        simp only [atTree_ok rfl, ok_bind]
        obtain ⟨n', t', h1, h2, h3⟩ := hi.update hL.fuel hL.nodeInj (k := w.path) hm (L.rcid r)
        rw [show L.hash (.record r) = L.rcid r from rfl, atTree_ok (hi.pointer hL.fuel), ok_bind,
          atTree_ok h1, ok_bind, atTree_ok (h2.pointer hL.fuel), ok_bind]
        refine h.addOp ⟨l, t', _, h2.cachedStar hL.fuel (hL.touch _ _)⟩ (checkedRecord_ok hr) ?_
        intro op hop
        split at hop
        · exact .inl hop
        · rcases List.mem_append.1 hop with h' | h'
          · exact .inl h'
          · simp only [List.mem_singleton] at h'
            subst h'; exact .inr rfl
  | delete =>
    by_cases hm : M w.path = none
    · have hp : prevCidOf L (nodeIn blocks) st.mst w = .error .value := by
        simp [prevCidOf, ha, hget, hm]
      rw [atTree_err hp]
      exact ⟨by simp, l, t, M, hi⟩
    · obtain ⟨c₀, hc₀⟩ := Option.ne_none_iff_exists'.1 hm
      have hp : prevCidOf L (nodeIn blocks) st.mst w = .ok (some c₀) := by
        simp [prevCidOf, ha, hget, hc₀]
      have hs := hi.step hL.zeros hL.fuel (.delete w.path)
      simp only [specStep, applyOp, hc₀] at hs
      obtain ⟨n', t', l', h1, h2, _⟩ := hs
      simp only [atTree_ok hp, ok_bind, atTree_ok h1]
      refine ⟨⟨l', t', _, h2.cachedStar hL.fuel (hL.touch _ _)⟩, h.new, ?_⟩
      intro op hop hd
      rcases List.mem_append.1 hop with h' | h'
      · exact h.ops op h' hd
      · simp only [List.mem_singleton] at h'
        subst h'; exact absurd rfl hd

theorem PLoop.writes (hL : L.OK Z) : ∀ {ws : List (Write R)} {st : LoopState C R},
    PLoop L Z blocks seq did st →
    match applyWrites L (nodeIn blocks) seq did st ws with
    | .error (n, e) => e ≠ .runtime ∧ ∃ l t M, Inv L.env (nodeIn blocks) Z l t n M
    | .ok st' => PLoop L Z blocks seq did st'
  | [], st, h => h
  | w :: ws, st, h => by
    have h1 := h.write hL w
    unfold applyWrites
    cases hw : applyWrite L (nodeIn blocks) seq did st w with
    | error p =>
      rw [hw] at h1
      exact h1
    | ok st' =>
      rw [hw] at h1
      rw [ok_bind]
      exact PLoop.writes hL h1

/-! ### Building a commit -/

/-- What `buildCommit` returns, and the block store once its blocks are written. -/
structure PBuilt (L : Lib C R) (Z : Nat) (blocks : List (C × Block C R)) (seq : Nat) (did : Did)
    (prev : Option C) (key nonce : Nat) (n : Node C) (cd : CommitData C R) (co : Commit C) :
    Prop where
  commit : ∃ ops, cd.commit = ⟨.commit co, seq, some ops, did⟩
  version : co.version = 3
  codid : co.did = did
  rev : Tid.intToTid 0 seq (some 0) = .ok co.rev
  coprev : co.prev = prev
  cdprev : cd.prev = prev
  sig : co.sig = L.sign key { co with sig := [] } nonce
  members : ∀ cb ∈ cd.blocks, cb.1 = L.hash cb.2.val ∧ cb.2.seq = seq ∧ cb.2.repo = did ∧
    ((∃ r, cb.2.val = .record r ∧ cb.2.ops = none) ∨ (∃ d, cb.2.val = .node d ∧ cb.2.ops = none) ∨
      cb.2 = cd.commit)
  ok : PBlocks L Z seq (putBlocks L blocks (cd.blocks.map (·.2)))
  head : PHead L (putBlocks L blocks (cd.blocks.map (·.2))) cd.commit
  tree : ∃ l t M, Inv L.env (nodeIn (putBlocks L blocks (cd.blocks.map (·.2)))) Z l t n M ∧
    cidOf L.env.H t = co.data

theorem buildCommit_plain (hL : L.OK Z) {st : LoopState C R} {prev : Option C} {key nonce : Nat}
    (hb : PBlocks L Z seq blocks) (h : PLoop L Z blocks seq did st) (hseq : 1 ≤ seq)
    (hdid : isDid did)
    (hprev : ∀ p, prev = some p → ∃ b' co', dictGet blocks p = some b' ∧ b'.val = .commit co' ∧
      co'.did = did ∧ b'.seq < seq) {cd : CommitData C R}
    (hcd : buildCommit L (nodeIn blocks) st key nonce seq did prev = .ok cd) :
    ∃ co, PBuilt L Z blocks seq did prev key nonce (L.touch (nodeIn blocks) st.mst) cd co := by
  obtain ⟨l, t, M, hi⟩ := h.inv
  have hbd := hi.bound
  have hfu := hL.fuel
  obtain ⟨bl, hu1, hu2⟩ := getUnstoredBlocks_spec hi.repr hi.wf hi.valid (f := L.fuel) (by omega)
  unfold buildCommit at hcd
  rw [hu1, ok_bind] at hcd
  cases hrev : Tid.intToTid 0 seq (some 0) with
  | error e =>
    unfold signedCommit at hcd
    rw [hrev] at hcd
    cases hcd
  | ok rev =>
  let un : Commit C := ⟨3, did, rev, prev, cidOf L.env.H t, []⟩
  let co : Commit C := { un with sig := L.sign key un nonce }
  have hsc : signedCommit L key nonce did seq prev (cidOf L.env.H t) = .ok co := by
    unfold signedCommit; rw [hrev]; rfl
  let cb : Block C R := ⟨.commit co, seq, some st.ops, did⟩
  let all := dictSet (dictUpdate st.blocks (mstBlocks (R := R) seq did bl)) (L.hash cb.val) cb
  have hbuild : cd = ⟨cb, all, prev⟩ := by
    rw [hsc, ok_bind] at hcd; cases hcd; rfl
  subst hbuild
  have hmem : ∀ x ∈ all, (∃ r, x = (L.rcid r, ⟨.record r, seq, none, did⟩) ∧ L.valid r = true ∧
        L.size r ≤ maxRecordSize) ∨
      (∃ d, x = (L.hash (.node d), ⟨.node d, seq, none, did⟩) ∧ (L.hash (.node d), d) ∈ bl) ∨
      x = (L.hash cb.val, cb) := by
    intro x hx
    rcases mem_dictSet hx with rfl | hx
    · exact .inr (.inr rfl)
    · rcases mem_dictUpdate hx with hx | hx
      · exact .inl (h.new x hx)
      · obtain ⟨⟨c, d⟩, hcd, rfl⟩ := List.mem_map.1 hx
        obtain ⟨s, _, hc, hd, _⟩ := hu2.1 c d hcd
        have : c = L.hash (.node d) := by rw [hc, hd]; rfl
        subst this
        exact .inr (.inl ⟨d, rfl, hcd⟩)
  have hkeys : ∀ c, c ∈ all.map (·.1) ↔
      c = L.hash cb.val ∨ c ∈ st.blocks.map (·.1) ∨ c ∈ bl.map (·.1) := by
    intro c
    have e : (mstBlocks (R := R) seq did bl).map (·.1) = bl.map (·.1) := by
      simp [mstBlocks]
    rw [keys_dictSet, keys_dictUpdate, e]
  have haddr : ∀ x ∈ all, x.1 = L.hash x.2.val := by
    intro x hx
    rcases hmem x hx with ⟨r, rfl, _⟩ | ⟨d, rfl, _⟩ | rfl <;> rfl
  have hval : ∀ v : Val C R, (∃ b ∈ all.map (·.2), b.val = v) ↔ L.hash v ∈ all.map (·.1) := by
    intro v
    constructor
    · rintro ⟨b, hb, rfl⟩
      obtain ⟨x, hx, rfl⟩ := List.mem_map.1 hb
      exact List.mem_map.2 ⟨x, hx, haddr x hx⟩
    · intro hv
      obtain ⟨x, hx, he⟩ := List.mem_map.1 hv
      exact ⟨x.2, List.mem_map_of_mem hx, hL.inj ((haddr x hx).symm.trans he)⟩
  have hblc : ∀ c d, (c, d) ∈ bl → c = L.hash (.node d) := by
    intro c d hcd
    obtain ⟨s, _, hc, hd, _⟩ := hu2.1 c d hcd
    rw [hc, hd]; rfl
  have hnode : ∀ d, (∃ b ∈ all.map (·.2), b.val = .node d) ↔ L.hash (.node d) ∈ bl.map (·.1) := by
    intro d
    rw [hval, hkeys]
    constructor
    · rintro (h' | h' | h')
      · exact absurd (hL.inj h') (by simp [cb])
      · obtain ⟨x, hx, he⟩ := List.mem_map.1 h'
        obtain ⟨r, rfl, _⟩ := h.new x hx
        exact absurd (hL.inj he) (by simp)
      · exact h'
    · exact fun h' => .inr (.inr h')
  have hput := nodeIn_put hL.inj hb.addr (all.map (·.2)) bl hblc hnode
  have hbl := writeBlocks_stored hL.nodeInj hb.store (WF_nodes hi.wf) hu2
  have hg : Grows blocks (putBlocks L blocks (all.map (·.2))) := putBlocks_grows _ _
  have hi' : Inv L.env (nodeIn (putBlocks L blocks (all.map (·.2)))) Z l t
      (L.touch (nodeIn blocks) st.mst) M :=
    (hi.cachedStar hL.fuel (hL.touch _ _)).mono (by rw [hput]; exact hbl.2.2)
  have hroot : PRoot L Z (putBlocks L blocks (all.map (·.2))) (cidOf L.env.H t) :=
    ⟨t, l, hi.bound, hi.wf, hi.sorted, hi.valid, by rw [hput]; exact hbl.1, rfl⟩
  have hops : POps L (putBlocks L blocks (all.map (·.2))) st.ops := by
    intro op hop hd
    obtain ⟨r, g1, g2⟩ := h.ops op hop hd
    exact ⟨r, g1, (has_put hL.inj hb.addr _ _).2
      (.inr ((hval (.record r)).2 ((hkeys _).2 (.inr (.inl g2)))))⟩
  have hcbin : (L.hash cb.val, cb) ∈ all := by
    have : L.hash cb.val ∈ all.map (·.1) := (hkeys _).2 (.inl rfl)
    obtain ⟨x, hx, he⟩ := List.mem_map.1 this
    rcases hmem x hx with ⟨r, rfl, _⟩ | ⟨d, rfl, _⟩ | rfl
    · exact absurd (hL.inj he) (by simp [cb])
    · exact absurd (hL.inj he) (by simp [cb])
    · exact hx
  have hok : PBlocks L Z seq (putBlocks L blocks (all.map (·.2))) := by
    refine ⟨hb.addr.put _, by rw [hput]; exact hbl.2.1, ?_, ?_, ?_, ?_⟩
    · intro c b hc
      rcases putBlocks_get _ _ hc with h' | ⟨_, h', _⟩
      · exact hb.seqs c b h'
      · obtain ⟨x, hx, rfl⟩ := List.mem_map.1 h'
        have : x.2.seq = seq := by rcases hmem x hx with ⟨r, rfl, _⟩ | ⟨d, rfl, _⟩ | rfl <;> rfl
        omega
    · intro c b r hc hv
      rcases putBlocks_get _ _ hc with h' | ⟨_, h', _⟩
      · exact hb.recs c b r h' hv
      · obtain ⟨x, hx, rfl⟩ := List.mem_map.1 h'
        rcases hmem x hx with ⟨r', rfl, g1, g2⟩ | ⟨d, rfl, _⟩ | rfl
        · cases hv; exact ⟨fun _ => ⟨g1, g2⟩, rfl⟩
        · cases hv
        · cases hv
    · intro c b co' hc hv
      rcases putBlocks_get _ _ hc with h' | ⟨_, h', _⟩
      · exact (hb.commits c b co' h' hv).imp (·.grow hg) (·.grow hg)
      · obtain ⟨x, hx, rfl⟩ := List.mem_map.1 h'
        rcases hmem x hx with ⟨r, rfl, _⟩ | ⟨d, rfl, _⟩ | rfl
        · cases hv
        · cases hv
        · cases hv
          refine .inl ⟨rfl, hrev, rfl, hdid, ⟨st.ops, rfl, hops⟩, ?_, hroot⟩
          intro p hp
          obtain ⟨b', co', h1, h2⟩ := hprev p hp
          exact ⟨b', co', hg _ _ h1, h2⟩
    · intro c b e hc hv
      rcases putBlocks_get _ _ hc with h' | ⟨_, h', _⟩
      · exact hb.events c b e h' hv
      · obtain ⟨x, hx, rfl⟩ := List.mem_map.1 h'
        rcases hmem x hx with ⟨r, rfl, _⟩ | ⟨d, rfl, _⟩ | rfl <;> cases hv
  refine ⟨co, ⟨st.ops, rfl⟩, rfl, rfl, hrev, rfl, rfl, rfl, ?_, hok, ?_, l, t, M, hi', rfl⟩
  · intro x hx
    refine ⟨haddr x hx, ?_⟩
    rcases hmem x hx with ⟨r, rfl, _⟩ | ⟨d, rfl, _⟩ | rfl
    · exact ⟨rfl, rfl, .inl ⟨r, rfl, rfl⟩⟩
    · exact ⟨rfl, rfl, .inr (.inl ⟨d, rfl, rfl⟩)⟩
    · exact ⟨rfl, rfl, .inr (.inr rfl)⟩
  · obtain ⟨b, hb1, hb2⟩ : Has L (putBlocks L blocks (all.map (·.2))) cb.val :=
      (has_put hL.inj hb.addr _ _).2 (.inr ⟨cb, List.mem_map.2 ⟨_, hcbin, rfl⟩, rfl⟩)
    exact ⟨b, co, hb1, hb2, rfl, (hok.commits _ b co hb1 hb2).elim (fun h => intToTid_inj h.rev hrev)
      (fun h => h.apart.elim (fun h => absurd hrev (h _ (Nat.le_refl _))) (fun h => absurd rfl (h _ _)))⟩

end

end Arroba.Store
