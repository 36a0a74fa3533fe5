import Verif.Storage.WriteProofs
import Verif.Util.TidProofs
import Verif.Storage.NodeProofs

/-! Helper lemmas: the block store, its invariant, and how a commit extends it. -/

namespace Arroba

theorem dictGet_dictSetDefault {α β : Type} [DecidableEq α] (d : List (α × β)) (k : α) (v : β)
    (k' : α) : dictGet (dictSetDefault d k v) k' =
      match dictGet d k' with
      | some x => some x
      | none => if k = k' then some v else none := by
  unfold dictSetDefault
  cases h : dictGet d k with
  | some x =>
    simp only
    cases h' : dictGet d k' with
    | some y => rfl
    | none =>
      have : k ≠ k' := fun e => by rw [e, h'] at h; cases h
      simp [this]
  | none =>
    simp only [dictGet_append]
    cases h' : dictGet d k' with
    | some y => rfl
    | none => simp [dictGet]

end Arroba

namespace Arroba.Store

variable {C R : Type} [DecidableEq C]

open Arroba.Tree

/-- Nothing stored is lost or replaced. -/
def Grows (a b : List (C × Block C R)) : Prop := ∀ c x, dictGet a c = some x → dictGet b c = some x

theorem Grows.refl (a : List (C × Block C R)) : Grows a a := fun _ _ h => h

theorem Grows.trans {a b c : List (C × Block C R)} (h : Grows a b) (h' : Grows b c) : Grows a c :=
  fun x y hxy => h' x y (h x y hxy)

theorem Grows.nodeIn {a b : List (C × Block C R)} (h : Grows a b) :
    ∀ c d, nodeIn a c = some d → nodeIn b c = some d := by
  intro c d hd
  unfold Store.nodeIn at hd ⊢
  cases hc : dictGet a c with
  | none => rw [hc] at hd; cases hd
  | some x => rw [hc] at hd; rw [h c x hc]; exact hd

/-- The value `v` is stored under its CID. -/
def Has (L : Lib C R) (blocks : List (C × Block C R)) (v : Val C R) : Prop :=
  ∃ b, dictGet blocks (L.hash v) = some b ∧ b.val = v

theorem Has.grow {L : Lib C R} {a b : List (C × Block C R)} {v : Val C R} (hv : Has L a v)
    (h : Grows a b) : Has L b v := by
  obtain ⟨x, h1, h2⟩ := hv
  exact ⟨x, h _ _ h1, h2⟩

/-- Blocks are stored under their CIDs. -/
def Addressed (L : Lib C R) (blocks : List (C × Block C R)) : Prop :=
  ∀ c b, dictGet blocks c = some b → L.hash b.val = c

section
variable {L : Lib C R}

theorem putBlocks_snoc (blocks : List (C × Block C R)) (bs : List (Block C R)) (b : Block C R) :
    putBlocks L blocks (bs ++ [b]) = dictSetDefault (putBlocks L blocks bs) (L.hash b.val) b := by
  simp [putBlocks, List.foldl_append]

theorem putBlocks_cons (blocks : List (C × Block C R)) (bs : List (Block C R)) (b : Block C R) :
    putBlocks L blocks (b :: bs) = putBlocks L (dictSetDefault blocks (L.hash b.val) b) bs := rfl

theorem setDefault_grows (blocks : List (C × Block C R)) (c : C) (b : Block C R) :
    Grows blocks (dictSetDefault blocks c b) := by
  intro c' x h
  rw [dictGet_dictSetDefault, h]

theorem putBlocks_grows (bs : List (Block C R)) : ∀ (blocks : List (C × Block C R)),
    Grows blocks (putBlocks L blocks bs) := by
  induction bs with
  | nil => exact fun _ => .refl _
  | cons b bs ih => exact fun blocks => (setDefault_grows _ _ _).trans (ih _)

theorem putBlocks_get (bs : List (Block C R)) : ∀ (blocks : List (C × Block C R)) {c b},
    dictGet (putBlocks L blocks bs) c = some b →
    dictGet blocks c = some b ∨ (dictGet blocks c = none ∧ b ∈ bs ∧ L.hash b.val = c) := by
  induction bs with
  | nil => intro blocks c b h; exact .inl h
  | cons x bs ih =>
    intro blocks c b h
    rcases ih _ h with h' | ⟨h1, h2, h3⟩
    · rw [dictGet_dictSetDefault] at h'
      cases hc : dictGet blocks c with
      | some y => rw [hc] at h'; exact .inl h'
      | none =>
        rw [hc] at h'
        simp only at h'
        split at h'
        · cases h'; rename_i he; exact .inr ⟨rfl, List.mem_cons_self, he⟩
        · cases h'
    · rw [dictGet_dictSetDefault] at h1
      cases hc : dictGet blocks c with
      | some y => rw [hc] at h1; cases h1
      | none => exact .inr ⟨rfl, List.mem_cons_of_mem _ h2, h3⟩

theorem putBlocks_isSome (bs : List (Block C R)) : ∀ (blocks : List (C × Block C R)) {b},
    b ∈ bs → (dictGet (putBlocks L blocks bs) (L.hash b.val)).isSome := by
  induction bs with
  | nil => intro _ b h; cases h
  | cons x bs ih =>
    intro blocks b h
    rcases List.mem_cons.1 h with rfl | h
    · have : dictGet (dictSetDefault blocks (L.hash b.val) b) (L.hash b.val) ≠ none := by
        rw [dictGet_dictSetDefault]; split <;> simp
      obtain ⟨y, hy⟩ := Option.ne_none_iff_exists'.1 this
      rw [putBlocks_cons, putBlocks_grows bs _ _ _ hy]; rfl
    · exact ih _ h

theorem Addressed.put {blocks : List (C × Block C R)} (h : Addressed L blocks)
    (bs : List (Block C R)) : Addressed L (putBlocks L blocks bs) := by
  intro c b hb
  rcases putBlocks_get bs _ hb with h' | ⟨_, _, h'⟩
  · exact h c b h'
  · exact h'

theorem has_put (hinj : Function.Injective L.hash) {blocks : List (C × Block C R)}
    (ha : Addressed L blocks) (bs : List (Block C R)) (v : Val C R) :
    Has L (putBlocks L blocks bs) v ↔ Has L blocks v ∨ ∃ b ∈ bs, b.val = v := by
  constructor
  · rintro ⟨b, h1, h2⟩
    rcases putBlocks_get bs _ h1 with h' | ⟨_, h', _⟩
    · exact .inl ⟨b, h', h2⟩
    · exact .inr ⟨b, h', h2⟩
  · rintro (h | ⟨b, hb, rfl⟩)
    · exact h.grow (putBlocks_grows _ _)
    · obtain ⟨x, hx⟩ := Option.isSome_iff_exists.1 (putBlocks_isSome (L := L) bs blocks hb)
      exact ⟨x, hx, hinj ((ha.put bs) _ _ hx)⟩

theorem nodeIn_iff {blocks : List (C × Block C R)} (ha : Addressed L blocks) (c : C)
    (d : NodeData C) : nodeIn blocks c = some d ↔ L.hash (.node d) = c ∧ Has L blocks (.node d) := by
  unfold nodeIn
  constructor
  · intro h
    cases hc : dictGet blocks c with
    | none => rw [hc] at h; cases h
    | some b =>
      obtain ⟨v, s, o, r⟩ := b
      have := ha _ _ hc
      rw [hc] at h
      cases v with
      | node d' => simp only [Option.some.injEq] at h; subst h; exact ⟨this, _, this ▸ hc, rfl⟩
      | _ => cases h
  · rintro ⟨rfl, ⟨v, s, o, r⟩, h1, h2⟩
    simp only at h2
    subst h2
    rw [h1]

theorem nodeIn_put (hinj : Function.Injective L.hash) {blocks : List (C × Block C R)}
    (ha : Addressed L blocks) (bs : List (Block C R)) (bl : List (C × NodeData C))
    (hbl : ∀ c d, (c, d) ∈ bl → c = L.hash (.node d))
    (hbs : ∀ d, (∃ b ∈ bs, b.val = .node d) ↔ L.hash (.node d) ∈ bl.map (·.1)) :
    nodeIn (putBlocks L blocks bs) = writeBlocks (nodeIn blocks) bl := by
  funext c
  apply Option.ext
  intro d
  rw [nodeIn_iff (ha.put bs), has_put hinj ha, hbs]
  unfold writeBlocks
  cases hc : dictGet bl c with
  | some d' =>
    have h1 := hbl _ _ (dictGet_mem hc)
    simp only [Option.some.injEq]
    constructor
    · rintro ⟨rfl, _⟩
      have := hinj h1; cases this; rfl
    · rintro rfl
      exact ⟨h1.symm, .inr (h1 ▸ List.mem_map_of_mem (f := (·.1)) (dictGet_mem hc))⟩
  | none =>
    have hn : c ∉ bl.map (·.1) := by
      intro hm; rw [← dictGet_isSome, hc] at hm; cases hm
    simp only [nodeIn_iff ha]
    constructor
    · rintro ⟨rfl, h | h⟩
      · exact ⟨rfl, h⟩
      · exact absurd h hn
    · rintro ⟨rfl, h⟩; exact ⟨rfl, .inl h⟩

end

/-! ### The invariant of the block store -/

/-- The tree `t` holds the records `m`, and their blocks are stored. -/
structure TreeOK (L : Lib C R) (Z : Nat) (blocks : List (C × Block C R)) (t : Tree C)
    (m : Key → Option R) : Prop where
  wf : ∃ l, l ≤ Z ∧ WF L.zeros l t
  sorted : Sorted t
  valid : ValidKeys t
  map : dictGet (leaves t) = fun k => (m k).map L.rcid
  recs : ∀ k r, m k = some r → Has L blocks (.record r)

/-- `c` is the root CID of a completely stored tree holding the records `m`. -/
def RootOK (L : Lib C R) (Z : Nat) (blocks : List (C × Block C R)) (c : C)
    (m : Key → Option R) : Prop :=
  ∃ t, TreeOK L Z blocks t m ∧ Stored L.env (nodeIn blocks) t ∧ cidOf L.env.H t = c

/-- The operations `ops` are those of writes that lead from the records of the commit `prev` (none
for a first commit) to `m'`. -/
def OpsJust (L : Lib C R) (Z : Nat) (blocks : List (C × Block C R)) (prev : Option C)
    (ops : List (CommitOp C)) (m' : Key → Option R) : Prop :=
  ∃ m writes, (match prev with
    | none => m = fun _ => none
    | some p => ∃ b co, dictGet blocks p = some b ∧ b.val = .commit co ∧
        RootOK L Z blocks co.data m) ∧ writes.length ≤ 200 ∧
    specWrites L m writes = .ok m' ∧ ops = opsOf L m writes

/-- A stored commit is well-formed and everything it refers to is stored. -/
structure CommitOK (L : Lib C R) (Z : Nat) (blocks : List (C × Block C R)) (b : Block C R)
    (co : Commit C) : Prop where
  version : co.version = 3
  rev : Tid.intToTid 0 b.seq (some 0) = .ok co.rev
  repo : b.repo = co.did
  did : isDid co.did
  ops : ∃ ops m', b.ops = some ops ∧ RootOK L Z blocks co.data m' ∧ OpsJust L Z blocks co.prev ops m'
  prev : ∀ p, co.prev = some p → ∃ b' co', dictGet blocks p = some b' ∧ b'.val = .commit co' ∧
    co'.did = co.did ∧ b'.seq < b.seq
  root : ∃ m, RootOK L Z blocks co.data m

/-- A commit that was imported: its tree is stored, and it is none of this server's. -/
structure Foreign (L : Lib C R) (Z last : Nat) (blocks : List (C × Block C R)) (b : Block C R)
    (co : Commit C) : Prop where
  seq : b.seq = 0
  did : isDid co.did
  apart : Alien L last co
  root : ∃ m, RootOK L Z blocks co.data m

/-- Invariant of the block store; `last` is the last allocated sequence number. Imported blocks have the
number 0. -/
structure BlocksOK (L : Lib C R) (Z : Nat) (last : Nat) (blocks : List (C × Block C R)) :
    Prop where
  addr : Addressed L blocks
  store : StoreOK L.env (nodeIn blocks)
  seqs : ∀ c b, dictGet blocks c = some b → b.seq ≤ last
  commits : ∀ c b co, dictGet blocks c = some b → b.val = .commit co →
    CommitOK L Z blocks b co ∨ Foreign L Z last blocks b co
  events : ∀ c b e, dictGet blocks c = some b → b.val = .event e →
    e.seq = b.seq ∧ b.repo = e.did ∧ b.ops = none
  links : ∀ c b d, dictGet blocks c = some b → b.val = .node d →
    ∀ c' ∈ d.children ++ d.e.map (·.v), ∃ b', dictGet blocks c' = some b' ∧ (b.seq ≠ 0 → b'.seq ≤ b.seq)

section
variable {L : Lib C R} {Z : Nat}

theorem TreeOK.grow {a b : List (C × Block C R)} {t : Tree C} {m : Key → Option R}
    (h : TreeOK L Z a t m) (hg : Grows a b) : TreeOK L Z b t m :=
  ⟨h.wf, h.sorted, h.valid, h.map, fun k r hk => (h.recs k r hk).grow hg⟩

theorem RootOK.grow {a b : List (C × Block C R)} {c : C} {m : Key → Option R}
    (h : RootOK L Z a c m) (hg : Grows a b) : RootOK L Z b c m := by
  obtain ⟨t, h1, h2, h3⟩ := h
  exact ⟨t, h1.grow hg, h2.mono hg.nodeIn, h3⟩

theorem OpsJust.grow {a b : List (C × Block C R)} {prev : Option C} {ops : List (CommitOp C)}
    {m' : Key → Option R} (h : OpsJust L Z a prev ops m') (hg : Grows a b) :
    OpsJust L Z b prev ops m' := by
  obtain ⟨m, ws, h1, h2⟩ := h
  refine ⟨m, ws, ?_, h2⟩
  cases prev with
  | none => exact h1
  | some p =>
    obtain ⟨x, co, g1, g2, g3⟩ := h1
    exact ⟨x, co, hg _ _ g1, g2, g3.grow hg⟩

theorem CommitOK.grow {a b : List (C × Block C R)} {x : Block C R} {co : Commit C}
    (h : CommitOK L Z a x co) (hg : Grows a b) : CommitOK L Z b x co := by
  refine ⟨h.version, h.rev, h.repo, h.did, ?_, fun p hp => ?_, ?_⟩
  · obtain ⟨ops, m', h1, h2, h3⟩ := h.ops
    exact ⟨ops, m', h1, h2.grow hg, h3.grow hg⟩
  · obtain ⟨b', co', h1, h2⟩ := h.prev p hp
    exact ⟨b', co', hg _ _ h1, h2⟩
  · obtain ⟨m, hm⟩ := h.root
    exact ⟨m, hm.grow hg⟩

theorem Foreign.grow {last : Nat} {a b : List (C × Block C R)} {x : Block C R} {co : Commit C}
    (h : Foreign L Z last a x co) (hg : Grows a b) : Foreign L Z last b x co := by
  obtain ⟨m, hm⟩ := h.root
  exact ⟨h.seq, h.did, h.apart, m, hm.grow hg⟩

theorem Alien.mono {last last' : Nat} {co : Commit C} (h : Alien L last co) (hl : last ≤ last') :
    Alien L last' co :=
  h.imp (fun h n hn => h n (hl.trans hn)) id

theorem Foreign.mono {last last' : Nat} {a : List (C × Block C R)} {x : Block C R} {co : Commit C}
    (h : Foreign L Z last a x co) (hl : last ≤ last') : Foreign L Z last' a x co :=
  ⟨h.seq, h.did, h.apart.mono hl, h.root⟩

theorem BlocksOK.did {last : Nat} {blocks : List (C × Block C R)} (h : BlocksOK L Z last blocks) {c : C}
    {b : Block C R} {co : Commit C} (hb : dictGet blocks c = some b) (hv : b.val = .commit co) : isDid co.did :=
  (h.commits c b co hb hv).elim (·.did) (·.did)

theorem BlocksOK.root {last : Nat} {blocks : List (C × Block C R)} (h : BlocksOK L Z last blocks) {c : C}
    {b : Block C R} {co : Commit C} (hb : dictGet blocks c = some b) (hv : b.val = .commit co) :
    ∃ m, RootOK L Z blocks co.data m :=
  (h.commits c b co hb hv).elim (·.root) (·.root)

/-- A commit with a sequence number was made by this server. -/
theorem BlocksOK.own {last : Nat} {blocks : List (C × Block C R)} (h : BlocksOK L Z last blocks) {c : C}
    {b : Block C R} {co : Commit C} (hb : dictGet blocks c = some b) (hv : b.val = .commit co) (hs : 1 ≤ b.seq) :
    CommitOK L Z blocks b co :=
  (h.commits c b co hb hv).resolve_right fun h => by have := h.seq; omega

theorem BlocksOK.mono {last last' : Nat} {blocks : List (C × Block C R)}
    (h : BlocksOK L Z last blocks) (hl : last ≤ last') : BlocksOK L Z last' blocks :=
  ⟨h.addr, h.store, fun c b hb => (h.seqs c b hb).trans hl,
    fun c b co hb hv => (h.commits c b co hb hv).imp_right (·.mono hl),
    h.events, h.links⟩

theorem cid_unique (hL : L.OK Z) {t t' : Tree C} {l l' : Nat} (hw : WF L.zeros l t)
    (hw' : WF L.zeros l' t') (h : cidOf L.env.H t = cidOf L.env.H t') : t = t' := by
  rcases cid_inj hw hw' h with h | h
  · exact h
  · exact absurd hL.nodeInj h.not_inj

/-- A root CID determines the records. -/
theorem TreeOK.unique (hL : L.OK Z) {a b : List (C × Block C R)} {t : Tree C}
    {m m' : Key → Option R} (h : TreeOK L Z a t m) (h' : TreeOK L Z b t m') : m = m' := by
  have := h.map.symm.trans h'.map
  funext k
  have hk := congrFun this k
  exact Option.map_injective hL.rcidInj hk

theorem RootOK.unique (hL : L.OK Z) {a b : List (C × Block C R)} {c : C} {m m' : Key → Option R}
    (h : RootOK L Z a c m) (h' : RootOK L Z b c m') : m = m' := by
  obtain ⟨t, h1, h2, h3⟩ := h
  obtain ⟨t', h1', h2', h3'⟩ := h'
  obtain ⟨l, _, hw⟩ := h1.wf
  obtain ⟨l', _, hw'⟩ := h1'.wf
  have := cid_unique hL hw hw' (h3.trans h3'.symm)
  subst this
  exact h1.unique hL h1'

/-- Loading a stored root. -/
theorem RootOK.load {blocks : List (C × Block C R)} {c : C} {m : Key → Option R}
    (h : RootOK L Z blocks c m) : ∃ l t, Inv L.env (nodeIn blocks) Z l t (load c)
      (fun k => (m k).map L.rcid) ∧ TreeOK L Z blocks t m ∧ cidOf L.env.H t = c := by
  obtain ⟨t, h1, h2, rfl⟩ := h
  obtain ⟨l, hl, hw⟩ := h1.wf
  have hr : ∀ l, ReprN L.env (nodeIn blocks) l t (Arroba.load (cidOf L.env.H t)) := fun l =>
    ⟨⟨fun _ => ⟨rfl, h2⟩, fun _ => rfl, by simp [Arroba.load, Node.layer]⟩,
      by simp [Arroba.load, Node.entries]⟩
  by_cases ht : t = nil
  · subst ht
    exact ⟨0, nil, ⟨hr 0, by simp [WF], h1.sorted, h1.valid, fun _ => rfl, by omega, h1.map⟩, h1,
      rfl⟩
  · exact ⟨l, t, ⟨hr l, hw, h1.sorted, h1.valid, fun h => absurd h ht, hl, h1.map⟩, h1, rfl⟩

theorem _root_.Arroba.Inv.treeOK {blocks : List (C × Block C R)} {l : Nat} {t : Tree C} {n : Node C}
    {m : Key → Option R} {rd : C → Option (NodeData C)}
    (h : Inv L.env rd Z l t n (fun k => (m k).map L.rcid))
    (hr : ∀ k r, m k = some r → Has L blocks (.record r)) : TreeOK L Z blocks t m :=
  ⟨⟨l, h.bound, h.wf⟩, h.sorted, h.valid, h.map, hr⟩

theorem intToTid_ok {seq : Nat} (h : seq < 32 ^ 11) :
    ∃ rev, Tid.intToTid 0 seq (some 0) = .ok rev := by
  have := Tid.intToTid_spec 0 seq 0 (by omega)
  rw [if_pos h] at this
  exact ⟨_, this⟩

theorem intToTid_inj {a b : Nat} {rev : Key} (ha : Tid.intToTid 0 a (some 0) = .ok rev)
    (hb : Tid.intToTid 0 b (some 0) = .ok rev) : a = b := by
  have h1 := Tid.intToTid_spec 0 a 0 (by omega)
  have h2 := Tid.intToTid_spec 0 b 0 (by omega)
  rw [show ((0 : Nat) : Int) = 0 from rfl] at h1 h2
  rw [ha] at h1
  rw [hb] at h2
  split at h1
  · rename_i hla
    split at h2
    · rename_i hlb
      simp only [Except.ok.injEq] at h1 h2
      have := h1.symm.trans h2
      have := List.append_cancel_right this
      rcases Nat.lt_trichotomy a b with h | h | h
      · have := Tid.numeral_lt hlb h; simp_all
      · exact h
      · have := Tid.numeral_lt hla h; simp_all
    · cases h2
  · cases h1

/-- What `buildCommit` returns, and the state of the block store once its blocks are written. -/
structure Built (L : Lib C R) (Z : Nat) (blocks : List (C × Block C R)) (seq : Nat) (did : Did)
    (prev : Option C) (key nonce : Nat) (ops : List (CommitOp C)) (m : Key → Option R)
    (n : Node C) (cd : CommitData C R) (co : Commit C) : Prop where
  commit : cd.commit = ⟨.commit co, seq, some ops, did⟩
  version : co.version = 3
  codid : co.did = did
  rev : Tid.intToTid 0 seq (some 0) = .ok co.rev
  coprev : co.prev = prev
  cdprev : cd.prev = prev
  sig : co.sig = L.sign key { co with sig := [] } nonce
  members : ∀ cb ∈ cd.blocks, cb.1 = L.hash cb.2.val ∧ cb.2.seq = seq ∧ cb.2.repo = did ∧
    ((∃ r, cb.2.val = .record r ∧ cb.2.ops = none) ∨ (∃ d, cb.2.val = .node d ∧ cb.2.ops = none) ∨
      cb.2 = cd.commit)
  mem : (L.hash cd.commit.val, cd.commit) ∈ cd.blocks
  ok : BlocksOK L Z seq (putBlocks L blocks (cd.blocks.map (·.2)))
  head : ∃ b, dictGet (putBlocks L blocks (cd.blocks.map (·.2))) (L.hash cd.commit.val) = some b ∧
    b.val = cd.commit.val ∧ b.seq = seq
  tree : ∃ l t, Inv L.env (nodeIn (putBlocks L blocks (cd.blocks.map (·.2)))) Z l t n
      (fun k => (m k).map L.rcid) ∧
    TreeOK L Z (putBlocks L blocks (cd.blocks.map (·.2))) t m ∧ cidOf L.env.H t = co.data

theorem buildCommit_spec (hL : L.OK Z) {blocks : List (C × Block C R)} {seq : Nat} {did : Did}
    {st : LoopState C R} {m : Key → Option R} {prev : Option C} {key nonce : Nat}
    (hb : BlocksOK L Z seq blocks) (h : LoopOK L Z blocks seq did st m) (hseq : 1 ≤ seq)
    (hmax : seq < 32 ^ 11) (hdid : isDid did)
    (hprev : ∀ p, prev = some p → ∃ b' co', dictGet blocks p = some b' ∧ b'.val = .commit co' ∧
      co'.did = did ∧ b'.seq < seq) (hops : OpsJust L Z blocks prev st.ops m) :
    ∃ cd co, buildCommit L (nodeIn blocks) st key nonce seq did prev = .ok cd ∧
      Built L Z blocks seq did prev key nonce st.ops m (L.touch (nodeIn blocks) st.mst) cd co := by
  obtain ⟨l, t, hi⟩ := h.inv
  have hbd := hi.bound
  have hfu := hL.fuel
  obtain ⟨bl, hu1, hu2⟩ := getUnstoredBlocks_spec hi.repr hi.wf hi.valid (f := L.fuel) (by omega)
  obtain ⟨rev, hrev⟩ := intToTid_ok hmax
  let un : Commit C := ⟨3, did, rev, prev, cidOf L.env.H t, []⟩
  let co : Commit C := { un with sig := L.sign key un nonce }
  have hsc : signedCommit L key nonce did seq prev (cidOf L.env.H t) = .ok co := by
    unfold signedCommit; rw [hrev]; rfl
  let cb : Block C R := ⟨.commit co, seq, some st.ops, did⟩
  let all := dictSet (dictUpdate st.blocks (mstBlocks (R := R) seq did bl)) (L.hash cb.val) cb
  have hbuild : buildCommit L (nodeIn blocks) st key nonce seq did prev = .ok ⟨cb, all, prev⟩ := by
    unfold buildCommit; rw [hu1, ok_bind, hsc, ok_bind]
  -- members of the block dict
  have hmem : ∀ x ∈ all, (∃ r, x = (L.rcid r, ⟨.record r, seq, none, did⟩)) ∨
      (∃ d, x = (L.hash (.node d), ⟨.node d, seq, none, did⟩) ∧ (L.hash (.node d), d) ∈ bl) ∨
      x = (L.hash cb.val, cb) := by
    intro x hx
    rcases mem_dictSet hx with rfl | hx
    · exact .inr (.inr rfl)
    · rcases mem_dictUpdate hx with hx | hx
      · obtain ⟨r, hr⟩ := h.new x hx; exact .inl ⟨r, hr⟩
      · obtain ⟨⟨c, d⟩, hcd, rfl⟩ := List.mem_map.1 hx
        obtain ⟨s, _, hc, hd, _⟩ := hu2.1 c d hcd
        have : c = L.hash (.node d) := by rw [hc, hd]; rfl
        subst this
        exact .inr (.inl ⟨d, rfl, hcd⟩)
  have hkeys : ∀ c, c ∈ all.map (·.1) ↔
      c = L.hash cb.val ∨ c ∈ st.blocks.map (·.1) ∨ c ∈ bl.map (·.1) := by
    intro c
    have e : (mstBlocks (R := R) seq did bl).map (·.1) = bl.map (·.1) := by
      simp [mstBlocks]
    rw [keys_dictSet, keys_dictUpdate, e]
  have haddr : ∀ x ∈ all, x.1 = L.hash x.2.val := by
    intro x hx
    rcases hmem x hx with ⟨r, rfl⟩ | ⟨d, rfl, _⟩ | rfl <;> rfl
  have hval : ∀ v : Val C R, (∃ b ∈ all.map (·.2), b.val = v) ↔ L.hash v ∈ all.map (·.1) := by
    intro v
    constructor
    · rintro ⟨b, hb, rfl⟩
      obtain ⟨x, hx, rfl⟩ := List.mem_map.1 hb
      exact List.mem_map.2 ⟨x, hx, haddr x hx⟩
    · intro hv
      obtain ⟨x, hx, he⟩ := List.mem_map.1 hv
      exact ⟨x.2, List.mem_map_of_mem hx, hL.inj ((haddr x hx).symm.trans he)⟩
  have hblc : ∀ c d, (c, d) ∈ bl → c = L.hash (.node d) := by
    intro c d hcd
    obtain ⟨s, _, hc, hd, _⟩ := hu2.1 c d hcd
    rw [hc, hd]; rfl
  have hnode : ∀ d, (∃ b ∈ all.map (·.2), b.val = .node d) ↔ L.hash (.node d) ∈ bl.map (·.1) := by
    intro d
    rw [hval, hkeys]
    constructor
    · rintro (h' | h' | h')
      · exact absurd (hL.inj h') (by simp [cb])
      · obtain ⟨x, hx, he⟩ := List.mem_map.1 h'
        obtain ⟨r, rfl⟩ := h.new x hx
        exact absurd (hL.inj he) (by simp)
      · exact h'
    · exact fun h' => .inr (.inr h')
  have hput := nodeIn_put hL.inj hb.addr (all.map (·.2)) bl hblc hnode
  have hbl := writeBlocks_stored hL.nodeInj hb.store (WF_nodes hi.wf) hu2
  have hg : Grows blocks (putBlocks L blocks (all.map (·.2))) := putBlocks_grows _ _
  have hrec : ∀ k r, m k = some r → Has L (putBlocks L blocks (all.map (·.2))) (.record r) := by
    intro k r hk
    rw [has_put hL.inj hb.addr]
    rcases h.here k r hk with h' | h'
    · exact .inl h'
    · exact .inr ((hval _).2 ((hkeys _).2 (.inr (.inl h'))))
  have hi' : Inv L.env (nodeIn (putBlocks L blocks (all.map (·.2)))) Z l t
      (L.touch (nodeIn blocks) st.mst) (fun k => (m k).map L.rcid) :=
    (hi.cachedStar hL.fuel (hL.touch _ _)).mono (by rw [hput]; exact hbl.2.2)
  have htree := hi'.treeOK hrec
  have hroot : RootOK L Z (putBlocks L blocks (all.map (·.2))) (cidOf L.env.H t) m :=
    ⟨t, htree, by rw [hput]; exact hbl.1, rfl⟩
  have hcbin : (L.hash cb.val, cb) ∈ all := by
    have : L.hash cb.val ∈ all.map (·.1) := (hkeys _).2 (.inl rfl)
    obtain ⟨x, hx, he⟩ := List.mem_map.1 this
    rcases hmem x hx with ⟨r, rfl⟩ | ⟨d, rfl, _⟩ | rfl
    · exact absurd (hL.inj he) (by simp [cb])
    · exact absurd (hL.inj he) (by simp [cb])
    · exact hx
  have hok : BlocksOK L Z seq (putBlocks L blocks (all.map (·.2))) := by
    have hseqs : ∀ c b, dictGet (putBlocks L blocks (all.map (·.2))) c = some b →
        b.seq ≤ seq := by
      intro c b hc
      rcases putBlocks_get _ _ hc with h' | ⟨_, h', _⟩
      · exact hb.seqs c b h'
      · obtain ⟨x, hx, rfl⟩ := List.mem_map.1 h'
        have : x.2.seq = seq := by rcases hmem x hx with ⟨r, rfl⟩ | ⟨d, rfl, _⟩ | rfl <;> rfl
        omega
    have hst : StoreOK L.env (nodeIn (putBlocks L blocks (all.map (·.2)))) := by
      rw [hput]; exact hbl.2.1
    refine ⟨hb.addr.put _, hst, hseqs, ?_, ?_, ?_⟩
    · intro c b co' hc hv
      rcases putBlocks_get _ _ hc with h' | ⟨_, h', _⟩
      · exact (hb.commits c b co' h' hv).imp (·.grow hg) (·.grow hg)
      · obtain ⟨x, hx, rfl⟩ := List.mem_map.1 h'
        rcases hmem x hx with ⟨r, rfl⟩ | ⟨d, rfl, _⟩ | rfl
        · cases hv
        · cases hv
        · cases hv
          refine .inl ⟨rfl, hrev, rfl, hdid, ⟨st.ops, m, rfl, hroot, hops.grow hg⟩, ?_, ⟨m, hroot⟩⟩
          intro p hp
          obtain ⟨b', co', h1, h2⟩ := hprev p hp
          exact ⟨b', co', hg _ _ h1, h2⟩
    · intro c b e hc hv
      rcases putBlocks_get _ _ hc with h' | ⟨_, h', _⟩
      · exact hb.events c b e h' hv
      · obtain ⟨x, hx, rfl⟩ := List.mem_map.1 h'
        rcases hmem x hx with ⟨r, rfl⟩ | ⟨d, rfl, _⟩ | rfl <;> cases hv
    · intro c b d hc hv c' hc'
      rcases putBlocks_get _ _ hc with h' | ⟨_, h', _⟩
      · obtain ⟨b', h1, h2⟩ := hb.links c b d h' hv c' hc'
        exact ⟨b', hg _ _ h1, h2⟩
      · obtain ⟨x, hx, rfl⟩ := List.mem_map.1 h'
        rcases hmem x hx with ⟨r, rfl⟩ | ⟨d', rfl, hd'⟩ | rfl
        · cases hv
        · cases hv
          suffices ∃ b', dictGet (putBlocks L blocks (all.map (·.2))) c' = some b' by
            obtain ⟨b', hb'⟩ := this
            exact ⟨b', hb', fun _ => hseqs _ _ hb'⟩
          rcases List.mem_append.1 hc' with hc' | hc'
          · have hn : nodeIn (putBlocks L blocks (all.map (·.2))) c = some d := by
              simp [nodeIn, hc]
            have := hst.closed c d hn c' hc'
            simp only [nodeIn] at this
            cases hg' : dictGet (putBlocks L blocks (all.map (·.2))) c' with
            | none => rw [hg'] at this; cases this
            | some b' => exact ⟨b', rfl⟩
          · obtain ⟨e, he, rfl⟩ := List.mem_map.1 hc'
            obtain ⟨s, hs, _, rfl, _⟩ := hu2.1 _ _ hd'
            obtain ⟨k, hk⟩ := ser_vals he
            have hk' := (mem_leaves_iff hi.sorted _ _).1 (leaves_of_node hs _ hk)
            rw [hi.map] at hk'
            obtain ⟨r, hr, hr'⟩ := Option.map_eq_some_iff.1 hk'
            obtain ⟨b', hb1, _⟩ := hrec k r hr
            exact ⟨b', by rw [← hr']; exact hb1⟩
        · cases hv
  refine ⟨⟨cb, all, prev⟩, co, hbuild, rfl, rfl, rfl, hrev, rfl, rfl, rfl, ?_, hcbin, hok, ?_,
    l, t, hi', htree, rfl⟩
  · intro x hx
    refine ⟨haddr x hx, ?_⟩
    rcases hmem x hx with ⟨r, rfl⟩ | ⟨d, rfl, _⟩ | rfl
    · exact ⟨rfl, rfl, .inl ⟨r, rfl, rfl⟩⟩
    · exact ⟨rfl, rfl, .inr (.inl ⟨d, rfl, rfl⟩)⟩
    · exact ⟨rfl, rfl, .inr (.inr rfl)⟩
  · obtain ⟨b, hb1, hb2⟩ : Has L (putBlocks L blocks (all.map (·.2))) cb.val :=
      (has_put hL.inj hb.addr _ _).2 (.inr ⟨cb, List.mem_map.2 ⟨_, hcbin, rfl⟩, rfl⟩)
    exact ⟨b, hb1, hb2, (hok.commits _ b co hb1 hb2).elim (fun h => intToTid_inj h.rev hrev)
      (fun h => h.apart.elim (fun h => absurd hrev (h _ (le_refl _))) (fun h => absurd rfl (h _ _)))⟩

end

end Arroba.Store
