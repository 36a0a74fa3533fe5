import Verif.Storage.Concurrent
import Verif.Storage.ReadProofs
import Verif.Storage.EffectProofs

/-! Helper lemmas: the invariant of concurrent commits. -/

namespace Arroba.Store

variable {C R : Type} [DecidableEq C]

open Arroba.Tree

section
variable {L : Lib C R} {Z : Nat}

/-- Every value stored in `a` is stored in `b`; who stored it, and when, may differ. -/
def Retains (L : Lib C R) (a b : List (C × Block C R)) : Prop := ∀ v, Has L a v → Has L b v

theorem Retains.refl (a : List (C × Block C R)) : Retains L a a := fun _ h => h

theorem Retains.nodeIn {a b : List (C × Block C R)} (ha : Addressed L a) (hb : Addressed L b)
    (h : Retains L a b) : ∀ c d, Store.nodeIn a c = some d → Store.nodeIn b c = some d := by
  intro c d hd
  rw [nodeIn_iff ha] at hd
  rw [nodeIn_iff hb]
  exact ⟨hd.1, h _ hd.2⟩

theorem Has.of_get (hinj : Function.Injective L.hash) {blocks : List (C × Block C R)}
    (ha : Addressed L blocks) {v : Val C R} (h : (dictGet blocks (L.hash v)).isSome) :
    Has L blocks v := by
  obtain ⟨b, hb⟩ := Option.isSome_iff_exists.1 h
  exact ⟨b, hb, hinj (ha _ _ hb)⟩

/-! ### Overwriting -/

theorem overwrite_cons (blocks : List (C × Block C R)) (b : Block C R) (bs : List (Block C R)) :
    overwrite L blocks (b :: bs) = overwrite L (dictSet blocks (L.hash b.val) b) bs := rfl

theorem Addressed.set {blocks : List (C × Block C R)} (h : Addressed L blocks) (b : Block C R) :
    Addressed L (dictSet blocks (L.hash b.val) b) := by
  intro c x hx
  rw [dictGet_dictSet] at hx
  split at hx
  · rename_i he; cases hx; exact he.symm
  · exact h c x hx

theorem has_set (hinj : Function.Injective L.hash) {blocks : List (C × Block C R)}
    (b : Block C R) (v : Val C R) :
    Has L (dictSet blocks (L.hash b.val) b) v ↔ Has L blocks v ∨ b.val = v := by
  unfold Has
  simp only [dictGet_dictSet]
  by_cases h : L.hash v = L.hash b.val
  · have := hinj h
    simp [this]
  · have : b.val ≠ v := fun e => h (by rw [e])
    simp [h, this]

theorem Addressed.overwrite {blocks : List (C × Block C R)} (h : Addressed L blocks)
    (bs : List (Block C R)) : Addressed L (Store.overwrite L blocks bs) := by
  induction bs generalizing blocks with
  | nil => exact h
  | cons b bs ih => exact ih (h.set b)

theorem has_overwrite (hinj : Function.Injective L.hash) (bs : List (Block C R)) :
    ∀ {blocks : List (C × Block C R)} (v : Val C R),
    Has L (overwrite L blocks bs) v ↔ Has L blocks v ∨ v ∈ bs.map (·.val) := by
  induction bs with
  | nil => intro blocks v; simp [overwrite]
  | cons b bs ih =>
    intro blocks v
    rw [overwrite_cons, ih, has_set hinj, List.map_cons, List.mem_cons, or_assoc, eq_comm (a := b.val)]

/-! ### Commits that are stored, or about to be -/

/-- The commit `co` and the tree it points to, which holds the records `m`, are stored except for
the values `vs`. -/
structure Pending (L : Lib C R) (Z : Nat) (blocks : List (C × Block C R)) (vs : List (Val C R))
    (co : Commit C) (m : Key → Option R) : Prop where
  commit : Has L blocks (.commit co) ∨ .commit co ∈ vs
  tree : ∃ t, (∃ l, l ≤ Z ∧ WF L.zeros l t) ∧ Sorted t ∧ ValidKeys t ∧
    dictGet (leaves t) = (fun k => (m k).map L.rcid) ∧ cidOf L.env.H t = co.data ∧
    (∀ k r, m k = some r → Has L blocks (.record r) ∨ .record r ∈ vs) ∧
    ∀ s ∈ nodes t, Has L blocks (.node (nodeOf L.env.H s)) ∨ .node (nodeOf L.env.H s) ∈ vs
  kids : ∀ d, .node d ∈ vs → ∀ c ∈ d.children, ∃ d', L.hash (.node d') = c ∧
    (Has L blocks (.node d') ∨ .node d' ∈ vs)

theorem Pending.move {a b : List (C × Block C R)} {vs vs' : List (Val C R)} {co : Commit C}
    {m : Key → Option R} (h : Pending L Z a vs co m)
    (hm : ∀ v, Has L a v ∨ v ∈ vs → Has L b v ∨ v ∈ vs') (hs : ∀ v ∈ vs', v ∈ vs) :
    Pending L Z b vs' co m := by
  obtain ⟨t, h1, h2, h3, h4, h5, h6, h7⟩ := h.tree
  refine ⟨hm _ h.commit, ⟨t, h1, h2, h3, h4, h5, fun k r hk => hm _ (h6 k r hk),
    fun s hs' => hm _ (h7 s hs')⟩, fun d hd c hc => ?_⟩
  obtain ⟨d', g1, g2⟩ := h.kids d (hs _ hd) c hc
  exact ⟨d', g1, hm _ g2⟩

theorem Pending.keeps {a b : List (C × Block C R)} {vs : List (Val C R)} {co : Commit C}
    {m : Key → Option R} (h : Pending L Z a vs co m) (hk : Retains L a b) :
    Pending L Z b vs co m :=
  h.move (fun v hv => hv.imp_left (hk v)) (fun _ h => h)

theorem Pending.root {blocks : List (C × Block C R)} (ha : Addressed L blocks) {co : Commit C}
    {m : Key → Option R} (h : Pending L Z blocks [] co m) :
    Has L blocks (.commit co) ∧ RootOK L Z blocks co.data m := by
  obtain ⟨t, h1, h2, h3, h4, h5, h6, h7⟩ := h.tree
  refine ⟨by simpa using h.commit, t, ⟨h1, h2, h3, h4, fun k r hk => by simpa using h6 k r hk⟩, ?_, h5⟩
  intro s hs
  rw [nodeIn_iff ha]
  exact ⟨rfl, by simpa using h7 s hs⟩

theorem Pending.of_root {blocks : List (C × Block C R)} (ha : Addressed L blocks) {co : Commit C}
    {m : Key → Option R} (hc : Has L blocks (.commit co)) (h : RootOK L Z blocks co.data m) :
    Pending L Z blocks [] co m := by
  obtain ⟨t, h1, h2, h3⟩ := h
  refine ⟨.inl hc, ⟨t, h1.wf, h1.sorted, h1.valid, h1.map, h3, fun k r hk => .inl (h1.recs k r hk),
    fun s hs => .inl ((nodeIn_iff ha _ _).1 (h2 s hs)).2⟩, by simp⟩

/-- Closure of the store under children, by values. -/
theorem storeOK_iff {blocks : List (C × Block C R)} (ha : Addressed L blocks) :
    StoreOK L.env (nodeIn blocks) ↔ ∀ d, Has L blocks (.node d) → ∀ c ∈ d.children,
      ∃ d', L.hash (.node d') = c ∧ Has L blocks (.node d') := by
  constructor
  · intro h d hd c hc
    obtain ⟨d', hd'⟩ := Option.isSome_iff_exists.1
      (h.closed _ d ((nodeIn_iff ha _ _).2 ⟨rfl, hd⟩) c hc)
    exact ⟨d', (nodeIn_iff ha _ _).1 hd'⟩
  · intro h
    refine ⟨fun c d hcd => ((nodeIn_iff ha _ _).1 hcd).1, fun c d hcd c' hc' => ?_⟩
    obtain ⟨d', h1, h2⟩ := h d ((nodeIn_iff ha _ _).1 hcd).2 c' hc'
    rw [(nodeIn_iff ha _ _).2 ⟨h1, h2⟩]; rfl

theorem LoopOK.keeps {a b : List (C × Block C R)} (ha : Addressed L a) (hb : Addressed L b)
    (hk : Retains L a b) {seq : Nat} {did : Did} {st : LoopState C R} {m : Key → Option R}
    (h : LoopOK L Z a seq did st m) : LoopOK L Z b seq did st m := by
  obtain ⟨l, t, hi⟩ := h.inv
  exact ⟨⟨l, t, hi.mono (hk.nodeIn ha hb)⟩, h.new, fun k r hr => (h.here k r hr).imp_left (hk _)⟩

/-- What `buildCommit` returns, when all that is known of the store is that blocks are stored under
their CIDs and nodes with their children. -/
theorem buildCommit_pending (hL : L.OK Z) {blocks : List (C × Block C R)} {seq : Nat} {did : Did}
    {st : LoopState C R} {m : Key → Option R} {prev : Option C} {key nonce : Nat}
    {cd : CommitData C R} (ha : Addressed L blocks) (hst : StoreOK L.env (nodeIn blocks))
    (h : LoopOK L Z blocks seq did st m)
    (hb : buildCommit L (nodeIn blocks) st key nonce seq did prev = .ok cd) :
    ∃ co, cd.commit = ⟨.commit co, seq, some st.ops, did⟩ ∧ co.did = did ∧ co.prev = prev ∧
      cd.prev = prev ∧ Tid.intToTid 0 seq (some 0) = .ok co.rev ∧
      co.sig = L.sign key { co with sig := [] } nonce ∧
      (∀ x ∈ cd.blocks, x.1 = L.hash x.2.val ∧ x.2.seq = seq) ∧
      Pending L Z blocks (cd.blocks.map (·.2.val)) co m := by
  obtain ⟨l, t, hi⟩ := h.inv
  have hbd := hi.bound
  have hfu := hL.fuel
  obtain ⟨bl, hu1, hu2⟩ := getUnstoredBlocks_spec hi.repr hi.wf hi.valid (f := L.fuel) (by omega)
  unfold buildCommit at hb
  rw [hu1, ok_bind] at hb
  dsimp only at hb
  cases hsc : signedCommit L key nonce did seq prev (cidOf L.env.H t) with
  | error e => rw [hsc] at hb; cases hb
  | ok co =>
  rw [hsc, ok_bind] at hb
  cases hb
  unfold signedCommit at hsc
  cases hrev : Tid.intToTid 0 seq (some 0) with
  | error e => rw [hrev] at hsc; cases hsc
  | ok rev =>
  rw [hrev, ok_bind] at hsc
  simp only [Except.ok.injEq] at hsc
  have hblc : ∀ c d, (c, d) ∈ bl → ∃ s ∈ nodes t, c = L.hash (.node d) ∧ d = nodeOf L.env.H s := by
    intro c d hcd
    obtain ⟨s, hs, hc, hd, _⟩ := hu2.1 c d hcd
    exact ⟨s, hs, by rw [hc, hd]; rfl, hd⟩
  let cb : Block C R := ⟨.commit co, seq, some st.ops, did⟩
  let all := dictSet (dictUpdate st.blocks (mstBlocks (R := R) seq did bl)) (L.hash cb.val) cb
  have hmem : ∀ x ∈ all, (∃ r, x = (L.rcid r, ⟨.record r, seq, none, did⟩)) ∨
      (∃ s ∈ nodes t, x = (L.hash (.node (nodeOf L.env.H s)), ⟨.node (nodeOf L.env.H s), seq, none, did⟩)) ∨
      x = (L.hash cb.val, cb) := by
    intro x hx
    rcases mem_dictSet hx with rfl | hx
    · exact .inr (.inr rfl)
    · rcases mem_dictUpdate hx with hx | hx
      · obtain ⟨r, hr⟩ := h.new x hx; exact .inl ⟨r, hr⟩
      · obtain ⟨⟨c, d⟩, hcd, rfl⟩ := List.mem_map.1 hx
        obtain ⟨s, hs, rfl, rfl⟩ := hblc c d hcd
        exact .inr (.inl ⟨s, hs, rfl⟩)
  have haddr : ∀ x ∈ all, x.1 = L.hash x.2.val := by
    intro x hx
    rcases hmem x hx with ⟨r, rfl⟩ | ⟨s, _, rfl⟩ | rfl <;> rfl
  have hval : ∀ v : Val C R, L.hash v ∈ all.map (·.1) → v ∈ all.map (·.2.val) := by
    intro v hv
    obtain ⟨x, hx, he⟩ := List.mem_map.1 hv
    exact List.mem_map.2 ⟨x, hx, hL.inj ((haddr x hx).symm.trans he)⟩
  have hkeys : ∀ c, c ∈ all.map (·.1) ↔
      c = L.hash cb.val ∨ c ∈ st.blocks.map (·.1) ∨ c ∈ bl.map (·.1) := by
    intro c
    have e : (mstBlocks (R := R) seq did bl).map (·.1) = bl.map (·.1) := by
      simp [mstBlocks]
    rw [keys_dictSet, keys_dictUpdate, e]
  have hnodes : ∀ s ∈ nodes t, Has L blocks (.node (nodeOf L.env.H s)) ∨
      .node (nodeOf L.env.H s) ∈ all.map (·.2.val) := by
    intro s hs
    rcases hu2.2 s hs with h1 | ⟨s', hs', h2, h3⟩
    · exact .inr (hval _ ((hkeys _).2 (.inr (.inr h1))))
    · obtain ⟨l', hl'⟩ := WF_nodes hi.wf s' hs'
      exact .inl ((nodeIn_iff ha _ _).1 (hst.stored hL.nodeInj hl' h2 s h3)).2
  refine ⟨co, rfl, by rw [← hsc], by rw [← hsc], rfl, by rw [← hsc], by rw [← hsc], ?_, ?_, ?_, ?_⟩
  · intro x hx
    refine ⟨haddr x hx, ?_⟩
    rcases hmem x hx with ⟨r, rfl⟩ | ⟨s, _, rfl⟩ | rfl <;> rfl
  · exact .inr (hval _ ((hkeys _).2 (.inl rfl)))
  · refine ⟨t, ⟨l, hbd, hi.wf⟩, hi.sorted, hi.valid, hi.map, by rw [← hsc], fun k r hk => ?_, hnodes⟩
    rcases h.here k r hk with h' | h'
    · exact .inl h'
    · exact .inr (hval _ ((hkeys _).2 (.inr (.inl h'))))
  · intro d hd c hc
    obtain ⟨x, hx, he⟩ := List.mem_map.1 hd
    rcases hmem x hx with ⟨r, rfl⟩ | ⟨s, hs, rfl⟩ | rfl
    · cases he
    · cases he
      obtain ⟨u, hu, rfl⟩ := children_subs hc
      exact ⟨_, rfl, hnodes u (nodes_trans hs (by simp [nodes, subs_kids hu]))⟩
    · cases he

/-! ### The invariant -/

/-- The stored commit `c` of the repo `d` holds the records `m`. -/
def Holds (L : Lib C R) (Z : Nat) (blocks : List (C × Block C R)) (d : Did) (c : C)
    (m : Key → Option R) : Prop :=
  ∃ co, L.hash (.commit co) = c ∧ co.did = d ∧ Pending L Z blocks [] co m

theorem Holds.keeps {a b : List (C × Block C R)} {d : Did} {c : C} {m : Key → Option R}
    (h : Holds L Z a d c m) (hk : Retains L a b) : Holds L Z b d c m := by
  obtain ⟨co, h1, h2, h3⟩ := h
  exact ⟨co, h1, h2, h3.keeps hk⟩

theorem Holds.unique (hL : L.OK Z) {a b : List (C × Block C R)} (ha : Addressed L a)
    (hb : Addressed L b) {d d' : Did} {c : C} {m m' : Key → Option R} (h : Holds L Z a d c m)
    (h' : Holds L Z b d' c m') : m = m' := by
  obtain ⟨co, h1, h2, h3⟩ := h
  obtain ⟨co', h1', h2', h3'⟩ := h'
  have := hL.inj (h1.trans h1'.symm)
  cases this
  exact (h3.root ha).2.unique hL (h3'.root hb).2

/-- The commit `cd` is the result of the call `j` on the head of `row`, and is stored except for
the values `vs`. -/
def Entry (L : Lib C R) (Z : Nat) (blocks : List (C × Block C R)) (j : Job R) (vs : List (Val C R))
    (row : Row C) (cd : CommitData C R) : Prop :=
  ∃ m m' co, Holds L Z blocks j.did row.head m ∧ specWrites L m j.writes = .ok m' ∧
    j.writes.length ≤ 200 ∧
    cd.commit = ⟨.commit co, cd.commit.seq, some (opsOf L m j.writes), j.did⟩ ∧
    co.did = j.did ∧ co.prev = some row.head ∧ cd.prev = some row.head ∧
    Tid.intToTid 0 cd.commit.seq (some 0) = .ok co.rev ∧ Pending L Z blocks vs co m'

theorem Entry.move {a b : List (C × Block C R)} {vs vs' : List (Val C R)} {j : Job R} {row : Row C}
    {cd : CommitData C R} (h : Entry L Z a j vs row cd) (hk : Retains L a b)
    (hm : ∀ v, Has L a v ∨ v ∈ vs → Has L b v ∨ v ∈ vs') (hs : ∀ v ∈ vs', v ∈ vs) :
    Entry L Z b j vs' row cd := by
  obtain ⟨m, m', co, h1, h2, h3, h4, h5, h6, h7, h8, h9⟩ := h
  exact ⟨m, m', co, h1.keeps hk, h2, h3, h4, h5, h6, h7, h8, h9.move hm hs⟩

/-- The transaction's view of the repo is not newer than the stored one, and if it is as new, then
it is the same. -/
def Snap (s : CState C R) (d : Did) (row : Row C) (ver : Nat) : Prop :=
  ver ≤ s.ver d ∧ (ver = s.ver d → dictGet s.w.rows d = some row)

/-- What is known about a call in progress. -/
def PcOK (L : Lib C R) (Z : Nat) (s : CState C R) (i : Nat) (j : Job R) : Pc C R → Prop
  | .start => True
  | .ready _ => True
  | .loaded _ row ver co => Snap s j.did row ver ∧ L.hash (.commit co) = row.head ∧ co.did = j.did ∧
      ∃ m, Pending L Z s.w.blocks [] co m
  | .applied seq row ver st => Snap s j.did row ver ∧ ∃ m m', Holds L Z s.w.blocks j.did row.head m ∧
      specWrites L m j.writes = .ok m' ∧ j.writes.length ≤ 200 ∧ st.ops = opsOf L m j.writes ∧
      LoopOK L Z s.w.blocks seq j.did st m'
  | .built row ver cd => Snap s j.did row ver ∧
      Entry L Z s.w.blocks j (cd.blocks.map (·.2.val)) row cd ∧ ∀ x ∈ cd.blocks, x.1 = L.hash x.2.val
  | .queried row ver cd new => Snap s j.did row ver ∧ Entry L Z s.w.blocks j (new.map (·.val)) row cd
  | .written row ver cd => Snap s j.did row ver ∧ Entry L Z s.w.blocks j [] row cd
  | .done cd => (i, cd) ∈ s.log
  | .failed _ => True

/-- The next sequence number. -/
def World.next (w : World C R) : Nat := (dictGet w.seqs subscribeRepos).getD 1

/-- The sequence number a call holds. -/
def Pc.seq : Pc C R → Option Nat
  | .start => none
  | .ready seq => some seq
  | .loaded seq _ _ _ => some seq
  | .applied seq _ _ _ => some seq
  | .built _ _ cd => some cd.commit.seq
  | .queried _ _ cd _ => some cd.commit.seq
  | .written _ _ cd => some cd.commit.seq
  | .done cd => some cd.commit.seq
  | .failed _ => none

structure CInv (L : Lib C R) (Z : Nat) (job : Nat → Job R) (lo : Nat) (s : CState C R) : Prop where
  addr : Addressed L s.w.blocks
  store : StoreOK L.env (nodeIn s.w.blocks)
  rows : ∀ d row, (d, row) ∈ s.w.rows → (∀ h, row.handle = some h → ¬ isDid h) ∧
    ∃ m, Holds L Z s.w.blocks d row.head m
  pcs : ∀ i, PcOK L Z s i (job i) (s.pc i)
  next : lo ≤ s.w.next
  seqs : ∀ i n, (s.pc i).seq = some n → lo ≤ n ∧ n < s.w.next
  distinct : ∀ i k n, (s.pc i).seq = some n → (s.pc k).seq = some n → i = k
  finished : ∀ i cd, (i, cd) ∈ s.log → s.pc i = .done cd
  once : (s.log.map (·.1)).Nodup

/-- What a step does to the rest of the state. -/
structure Frame (L : Lib C R) (s s' : CState C R) : Prop where
  addr : Addressed L s'.w.blocks
  keeps : Retains L s.w.blocks s'.w.blocks
  ver : ∀ d, s.ver d ≤ s'.ver d
  rows : ∀ d, s'.ver d = s.ver d → dictGet s'.w.rows d = dictGet s.w.rows d
  log : ∀ x ∈ s.log, x ∈ s'.log

theorem Snap.frame {s s' : CState C R} (hf : Frame L s s') {d : Did} {row : Row C} {ver : Nat}
    (h : Snap s d row ver) : Snap s' d row ver := by
  refine ⟨h.1.trans (hf.ver d), fun he => ?_⟩
  have : s'.ver d = s.ver d := by have := hf.ver d; have := h.1; omega
  rw [hf.rows d this]
  exact h.2 (he.trans this)

theorem PcOK.frame {s s' : CState C R} (ha : Addressed L s.w.blocks) (hf : Frame L s s') {i : Nat}
    {j : Job R} {p : Pc C R} (h : PcOK L Z s i j p) : PcOK L Z s' i j p := by
  have hm : ∀ (vs : List (Val C R)) v, Has L s.w.blocks v ∨ v ∈ vs → Has L s'.w.blocks v ∨ v ∈ vs :=
    fun vs v hv => hv.imp_left (hf.keeps v)
  cases p with
  | start => trivial
  | ready seq => trivial
  | loaded seq row ver co =>
    obtain ⟨h1, h2, h3, m, h4⟩ := h
    exact ⟨h1.frame hf, h2, h3, m, h4.keeps hf.keeps⟩
  | applied seq row ver st =>
    obtain ⟨h1, m, m', h2, h3, h4, h5, h6⟩ := h
    exact ⟨h1.frame hf, m, m', h2.keeps hf.keeps, h3, h4, h5, h6.keeps ha hf.addr hf.keeps⟩
  | built row ver cd =>
    obtain ⟨h1, h2, h3⟩ := h
    exact ⟨h1.frame hf, h2.move hf.keeps (hm _) (fun _ h => h), h3⟩
  | queried row ver cd new =>
    obtain ⟨h1, h2⟩ := h
    exact ⟨h1.frame hf, h2.move hf.keeps (hm _) (fun _ h => h)⟩
  | written row ver cd =>
    obtain ⟨h1, h2⟩ := h
    exact ⟨h1.frame hf, h2.move hf.keeps (hm _) (fun _ h => h)⟩
  | done cd => exact hf.log _ h
  | failed e => trivial

/-- A step of call `i` that changes nothing stored. -/
theorem CInv.goto {job : Nat → Job R} {lo : Nat} {s : CState C R} (h : CInv L Z job lo s) {i : Nat}
    {p : Pc C R} (hp : PcOK L Z s i (job i) p) (hs : p.seq = none ∨ p.seq = (s.pc i).seq)
    (hd : ∀ cd, s.pc i ≠ .done cd) : CInv L Z job lo (s.at i p) := by
  have hpc : ∀ k, (s.at i p).pc k = if k = i then p else s.pc k := by
    intro k; simp only [CState.at, Function.update_apply]
  have hseq : ∀ k n, ((s.at i p).pc k).seq = some n → (s.pc k).seq = some n := by
    intro k n hn
    rw [hpc] at hn
    split at hn
    · rename_i he
      subst he
      rcases hs with hs | hs
      · rw [hs] at hn; cases hn
      · rw [← hs]; exact hn
    · exact hn
  refine ⟨h.addr, h.store, h.rows, fun k => ?_, h.next, fun k n hn => h.seqs k n (hseq k n hn),
    fun a b n ha hb => h.distinct a b n (hseq a n ha) (hseq b n hb), fun k cd hk => ?_, h.once⟩
  · rw [hpc]
    split
    · rename_i he; subst he; exact hp
    · exact h.pcs k
  · rw [hpc]
    have := h.finished k cd hk
    split
    · rename_i he; subst he; exact absurd this (hd cd)
    · exact this

theorem findRow_did {w : World C R} (h : ∀ d row, (d, row) ∈ w.rows →
    ∀ h, row.handle = some h → ¬ isDid h) {q : Did} (hq : isDid q) :
    findRow w q = dictGet w.rows q := by
  unfold findRow
  cases hg : dictGet w.rows q with
  | some row => rfl
  | none =>
    simp only
    have : w.rows.find? (fun kv => decide (kv.2.handle = some q)) = none := by
      rw [List.find?_eq_none]
      intro kv hkv
      simp only [decide_eq_true_eq]
      exact fun he => h kv.1 kv.2 hkv q he hq
    rw [this]; rfl

theorem alloc_fresh (w : World C R) : w.alloc.1 = w.next ∧ w.alloc.2.next = w.next + 1 ∧
    w.alloc.2.blocks = w.blocks ∧ w.alloc.2.rows = w.rows := by
  have h1 : w.alloc.1 = w.next := by
    simp only [World.alloc, World.next, allocate, dictGet_dictSetDefault]
    cases dictGet w.seqs subscribeRepos <;> simp
  refine ⟨h1, ?_, rfl, rfl⟩
  rw [← h1]
  simp [World.alloc, World.next, allocate, dictGet_dictSet]

theorem commitAt_ok {w : World C R} (ha : Addressed L w.blocks) {c : C} {b : Block C R}
    {co : Commit C} (h : commitAt w c = .ok (b, co)) : L.hash (.commit co) = c ∧
      Has L w.blocks (.commit co) ∧ dictGet w.blocks c = some b ∧ b.val = .commit co := by
  unfold commitAt World.read at h
  cases hc : dictGet w.blocks c with
  | none => rw [hc] at h; cases h
  | some b' =>
    rw [hc] at h
    dsimp only at h
    cases hv : b'.val with
    | commit co' =>
      rw [hv] at h
      cases h
      have := ha _ _ hc
      rw [hv] at this
      exact ⟨this, ⟨b, by rw [this]; exact hc, hv⟩, rfl, hv⟩
    | _ => rw [hv] at h; cases h

theorem Holds.commitAt {w : World C R} (hL : L.OK Z) (ha : Addressed L w.blocks) {d : Did} {c : C}
    {m : Key → Option R} (h : Holds L Z w.blocks d c m) :
    ∃ b co, Store.commitAt w c = .ok (b, co) ∧ b.val = .commit co ∧ L.hash (.commit co) = c ∧
      co.did = d ∧ Pending L Z w.blocks [] co m := by
  obtain ⟨co, h1, h2, h3⟩ := h
  obtain ⟨b, hb, hv⟩ := (h3.root ha).1
  refine ⟨b, co, ?_, hv, h1, h2, h3⟩
  unfold Store.commitAt World.read
  rw [← h1, hb]
  dsimp only
  rw [hv]

theorem missing_spec (hL : L.OK Z) {blocks bs : List (C × Block C R)} (ha : Addressed L blocks)
    (hbs : ∀ x ∈ bs, x.1 = L.hash x.2.val) :
    (∀ v, Has L blocks v ∨ v ∈ bs.map (·.2.val) →
      Has L blocks v ∨ v ∈ (missing blocks bs).map (·.val)) ∧
    ∀ v ∈ (missing blocks bs).map (·.val), v ∈ bs.map (·.2.val) := by
  constructor
  · rintro v (h | h)
    · exact .inl h
    · obtain ⟨x, hx, rfl⟩ := List.mem_map.1 h
      cases hg : dictGet blocks x.1 with
      | some b => exact .inl (.of_get hL.inj ha (by rw [← hbs x hx, hg]; rfl))
      | none =>
        refine .inr (List.mem_map.2 ⟨x.2, List.mem_map.2 ⟨x, ?_, rfl⟩, rfl⟩)
        simp [hx, hg]
  · intro v hv
    obtain ⟨b, hb, rfl⟩ := List.mem_map.1 hv
    obtain ⟨x, hx, rfl⟩ := List.mem_map.1 hb
    exact List.mem_map.2 ⟨x, (List.mem_filter.1 hx).1, rfl⟩

/-- A step of call `i` that changes what is stored. -/
theorem CInv.change {job : Nat → Job R} {lo : Nat} {s s' : CState C R} (h : CInv L Z job lo s)
    (hf : Frame L s s') {i : Nat} {p : Pc C R} (hpc : ∀ k, s'.pc k = if k = i then p else s.pc k)
    (hstore : StoreOK L.env (nodeIn s'.w.blocks))
    (hrows : ∀ d row, (d, row) ∈ s'.w.rows → (∀ h, row.handle = some h → ¬ isDid h) ∧
      ∃ m, Holds L Z s'.w.blocks d row.head m)
    (hp : PcOK L Z s' i (job i) p) (hnext : s.w.next ≤ s'.w.next)
    (hseq : ∀ n, p.seq = some n → (s.pc i).seq = some n ∨ (n = s.w.next ∧ n < s'.w.next))
    (hlog : (s'.log = s.log ∧ ∀ cd, s.pc i = .done cd → p = .done cd) ∨
      ∃ cd, p = .done cd ∧ s'.log = s.log ++ [(i, cd)] ∧ ∀ cd, s.pc i ≠ .done cd) :
    CInv L Z job lo s' := by
  have hseq' : ∀ k n, (s'.pc k).seq = some n → (s.pc k).seq = some n ∨
      (k = i ∧ n = s.w.next ∧ n < s'.w.next) := by
    intro k n hn
    rw [hpc] at hn
    split at hn
    · rename_i he; subst he
      rcases hseq n hn with h' | h'
      · exact .inl h'
      · exact .inr ⟨rfl, h'⟩
    · exact .inl hn
  refine ⟨hf.addr, hstore, hrows, fun k => ?_, h.next.trans hnext, fun k n hn => ?_,
    fun a b n hna hnb => ?_, ?_, ?_⟩
  · rw [hpc]
    split
    · rename_i he; subst he; exact hp
    · exact (h.pcs k).frame h.addr hf
  · rcases hseq' k n hn with h' | ⟨_, rfl, h'⟩
    · have := h.seqs k n h'; exact ⟨this.1, by omega⟩
    · exact ⟨h.next, h'⟩
  · rcases hseq' a n hna with ha | ⟨ha, hn, _⟩ <;> rcases hseq' b n hnb with hb | ⟨hb, hn', _⟩
    · exact h.distinct a b n ha hb
    · have := (h.seqs a n ha).2; omega
    · have := (h.seqs b n hb).2; omega
    · rw [ha, hb]
  · rcases hlog with ⟨h1, h2⟩ | ⟨cd, rfl, h1, h2⟩
    · intro k cd hk
      rw [h1] at hk
      have := h.finished k cd hk
      rw [hpc]
      split
      · rename_i he; subst he; exact h2 cd this
      · exact this
    · intro k cd' hk
      rw [h1, List.mem_append] at hk
      rw [hpc]
      rcases hk with hk | hk
      · have := h.finished k cd' hk
        split
        · rename_i he; subst he; exact absurd this (h2 cd')
        · exact this
      · simp only [List.mem_singleton, Prod.mk.injEq] at hk
        obtain ⟨rfl, rfl⟩ := hk
        rw [if_pos rfl]
  · rcases hlog with ⟨h1, _⟩ | ⟨cd, rfl, h1, h2⟩
    · rw [h1]; exact h.once
    · rw [h1, List.map_append]
      refine List.nodup_append.2 ⟨h.once, by simp, fun x hx y hy hxy => ?_⟩
      simp only [List.map_cons, List.map_nil, List.mem_singleton] at hy
      subst hy hxy
      obtain ⟨⟨a, cd'⟩, hk, he⟩ := List.mem_map.1 hx
      simp only at he
      subst he
      exact h2 cd' (h.finished _ _ hk)

theorem Frame.same {s s' : CState C R} (ha : Addressed L s.w.blocks)
    (h1 : s'.w.blocks = s.w.blocks) (h2 : s'.w.rows = s.w.rows) (h3 : s'.ver = s.ver)
    (h4 : s'.log = s.log) : Frame L s s' :=
  ⟨by rw [h1]; exact ha, by rw [h1]; exact .refl _, by rw [h3]; exact fun _ => le_refl _,
    by rw [h2]; exact fun _ _ => rfl, by rw [h4]; exact fun _ h => h⟩

theorem CInv.stepCall (hL : L.OK Z) {job : Nat → Job R} (hj : ∀ i, isDid (job i).did) {lo : Nat}
    {s s' : CState C R} (h : CInv L Z job lo s) {i nonce : Nat}
    (hs : Store.stepCall L job s i nonce = some s') : CInv L Z job lo s' ∧ Frame L s s' := by
  have hp := h.pcs i
  unfold Store.stepCall at hs
  dsimp only at hs
  cases hpc : s.pc i with
  | start =>
    rw [hpc] at hs
    cases hs
    obtain ⟨a1, a2, a3, a4⟩ := alloc_fresh s.w
    have hf : Frame L s ({ s with w := s.w.alloc.2 }.at i (.ready s.w.alloc.1)) :=
      .same h.addr rfl rfl rfl rfl
    refine ⟨h.change hf (i := i) (p := .ready s.w.alloc.1) (fun k => ?_) h.store h.rows trivial
      ?_ ?_ (.inl ⟨rfl, fun cd hc => by rw [hpc] at hc; cases hc⟩), hf⟩
    · simp only [CState.at, Function.update_apply]
    · show s.w.next ≤ s.w.alloc.2.next
      omega
    · intro n hn
      cases hn
      refine .inr ⟨a1, ?_⟩
      show s.w.alloc.1 < s.w.alloc.2.next
      omega
  | ready seq =>
    rw [hpc] at hs
    dsimp only at hs
    have hnd : ∀ cd, s.pc i ≠ .done cd := fun cd hc => by rw [hpc] at hc; cases hc
    have hfail : ∀ e, s' = s.at i (.failed e) → CInv L Z job lo s' ∧ Frame L s s' := by
      rintro e rfl
      exact ⟨h.goto trivial (.inl rfl) hnd, .same h.addr rfl rfl rfl rfl⟩
    rw [findRow_did (fun d row hr => (h.rows d row hr).1) (hj i)] at hs
    cases hr : dictGet s.w.rows (job i).did with
    | none => rw [hr] at hs; cases hs; exact hfail _ rfl
    | some row =>
      rw [hr] at hs
      dsimp only at hs
      obtain ⟨_, m, hm⟩ := h.rows _ _ (dictGet_mem hr)
      obtain ⟨b, co, hc, hv, h1, h2, h3⟩ := hm.commitAt hL h.addr
      rw [hc] at hs
      cases hs
      refine ⟨h.goto ⟨⟨le_refl _, fun _ => hr⟩, h1, h2, m, h3⟩ (.inr (by rw [hpc]; rfl)) hnd,
        .same h.addr rfl rfl rfl rfl⟩
  | loaded seq row ver co =>
    rw [hpc] at hs hp
    dsimp only at hs
    have hnd : ∀ cd, s.pc i ≠ .done cd := fun cd hc => by rw [hpc] at hc; cases hc
    have hfail : ∀ e, s' = s.at i (.failed e) → CInv L Z job lo s' ∧ Frame L s s' := by
      rintro e rfl
      exact ⟨h.goto trivial (.inl rfl) hnd, .same h.addr rfl rfl rfl rfl⟩
    obtain ⟨h1, h2, h3, m, h4⟩ := hp
    split at hs
    · cases hs; exact hfail _ rfl
    · rename_i hlen
      obtain ⟨l, t, g1, g2, g3⟩ := (h4.root h.addr).2.load
      have hl : LoopOK L Z s.w.blocks seq (job i).did ⟨load co.data, [], []⟩ m :=
        ⟨⟨l, t, g1⟩, by simp, fun k r' hk => .inl (g2.recs k r' hk)⟩
      have hws := hl.writes hL (ws := (job i).writes)
      rw [show s.w.rd = nodeIn s.w.blocks from rfl] at hs
      cases hsw : specWrites L m (job i).writes with
      | error e =>
        rw [hsw] at hws
        obtain ⟨n, hn, _⟩ := hws
        rw [hn] at hs
        cases hs; exact hfail _ rfl
      | ok m' =>
        rw [hsw] at hws
        obtain ⟨st, hn, hst, hops⟩ := hws
        rw [hn] at hs
        cases hs
        refine ⟨h.goto ⟨h1, m, m', ⟨co, h2, h3, h4⟩, hsw, ?_, by simpa using hops, hst⟩
          (.inr (by rw [hpc]; rfl)) hnd, .same h.addr rfl rfl rfl rfl⟩
        simpa [maxOps] using hlen
  | applied seq row ver st =>
    rw [hpc] at hs hp
    dsimp only at hs
    have hnd : ∀ cd, s.pc i ≠ .done cd := fun cd hc => by rw [hpc] at hc; cases hc
    have hfail : ∀ e, s' = s.at i (.failed e) → CInv L Z job lo s' ∧ Frame L s s' := by
      rintro e rfl
      exact ⟨h.goto trivial (.inl rfl) hnd, .same h.addr rfl rfl rfl rfl⟩
    obtain ⟨h1, m, m', h2, h3, h4, h5, h6⟩ := hp
    rw [show s.w.rd = nodeIn s.w.blocks from rfl] at hs
    cases hb : buildCommit L (nodeIn s.w.blocks) st row.key nonce seq (job i).did (some row.head) with
    | error e => rw [hb] at hs; cases hs; exact hfail _ rfl
    | ok cd =>
      rw [hb] at hs
      cases hs
      obtain ⟨co, g1, g2, g3, g4, g5, g6, g7, g8⟩ := buildCommit_pending hL h.addr h.store h6 hb
      have hseq : cd.commit.seq = seq := by rw [g1]
      refine ⟨h.goto ⟨h1, ⟨m, m', co, h2, h3, h4, ?_, g2, g3, g4, by rw [hseq]; exact g5, g8⟩,
        fun x hx => (g7 x hx).1⟩ (.inr (by rw [hpc]; simp [Pc.seq, hseq])) hnd,
        .same h.addr rfl rfl rfl rfl⟩
      rw [g1, ← h5]
  | built row ver cd =>
    rw [hpc] at hs hp
    cases hs
    have hnd : ∀ cd, s.pc i ≠ .done cd := fun cd hc => by rw [hpc] at hc; cases hc
    obtain ⟨h1, h2, h3⟩ := hp
    have hm := missing_spec hL h.addr h3
    exact ⟨h.goto ⟨h1, h2.move (.refl _) hm.1 hm.2⟩ (.inr (by rw [hpc]; rfl)) hnd,
      .same h.addr rfl rfl rfl rfl⟩
  | queried row ver cd new =>
    rw [hpc] at hs hp
    cases hs
    obtain ⟨h1, h2⟩ := hp
    have hhas := fun v => has_overwrite hL.inj new (blocks := s.w.blocks) v
    have hk : Retains L s.w.blocks (overwrite L s.w.blocks new) := fun v hv => (hhas v).2 (.inl hv)
    have ha := h.addr.overwrite new
    have hf : Frame L s ({ s with w := { s.w with blocks := overwrite L s.w.blocks new } }.at i
        (.written row ver cd)) :=
      ⟨ha, hk, fun _ => le_refl _, fun _ _ => rfl, fun _ h => h⟩
    refine ⟨h.change hf (i := i) (p := .written row ver cd) (fun k => ?_) ?_ ?_ ?_ (le_refl _) ?_
      (.inl ⟨rfl, fun cd hc => by rw [hpc] at hc; cases hc⟩), hf⟩
    · simp only [CState.at, Function.update_apply]
    · show StoreOK L.env (nodeIn (overwrite L s.w.blocks new))
      rw [storeOK_iff ha]
      intro d hd c hc
      rcases (hhas _).1 hd with hd | hd
      · obtain ⟨d', g1, g2⟩ := (storeOK_iff h.addr).1 h.store d hd c hc
        exact ⟨d', g1, hk _ g2⟩
      · obtain ⟨_, _, co, _, _, _, _, _, _, _, _, hpe⟩ := h2
        obtain ⟨d', g1, g2⟩ := hpe.kids d hd c hc
        exact ⟨d', g1, (hhas _).2 g2⟩
    · intro d row' hr
      obtain ⟨g1, m, g2⟩ := h.rows d row' hr
      exact ⟨g1, m, g2.keeps hk⟩
    · exact ⟨h1.frame hf, h2.move hk (fun v hv => .inl ((hhas v).2 hv)) (by simp)⟩
    · intro n hn
      left; rw [hpc]; exact hn
  | written row ver cd =>
    rw [hpc] at hs hp
    dsimp only at hs
    split at hs
    · rename_i hver
      cases hs
      obtain ⟨h1, h2⟩ := hp
      have hrow := h1.2 hver.symm
      obtain ⟨m, m', co, g1, g2, g3, g4, g5, g6, g7, g8, g9⟩ := h2
      have hf : Frame L s ({ s with
          w := { s.w with rows := dictSet s.w.rows (job i).did { row with head := L.hash cd.commit.val } }
          ver := Function.update s.ver (job i).did (ver + 1)
          log := s.log ++ [(i, cd)] }.at i (.done cd)) := by
        refine ⟨h.addr, .refl _, fun d => ?_, fun d hd => ?_, fun x hx => ?_⟩
        · simp only [CState.at, Function.update_apply]
          split
          · rename_i he; rw [he]; omega
          · exact le_refl _
        · simp only [CState.at, Function.update_apply] at hd ⊢
          split at hd
          · rename_i he; rw [he] at hd; omega
          · rename_i he
            rw [dictGet_dictSet, if_neg he]
        · exact List.mem_append_left _ hx
      refine ⟨h.change hf (i := i) (p := .done cd) (fun k => ?_) h.store ?_ ?_ (le_refl _) ?_
        (.inr ⟨cd, rfl, rfl, fun cd hc => by rw [hpc] at hc; cases hc⟩), hf⟩
      · simp only [CState.at, Function.update_apply]
      · intro d row' hr
        rcases mem_dictSet hr with he | hr
        · cases he
          exact ⟨(h.rows _ _ (dictGet_mem hrow)).1, m', co, by rw [g4], g5, g9⟩
        · exact h.rows d row' hr
      · exact List.mem_append_right _ (by simp)
      · intro n hn
        left; rw [hpc]; exact hn
    · cases hs
  | done cd => rw [hpc] at hs; cases hs
  | failed e => rw [hpc] at hs; cases hs

theorem CInv.act (hL : L.OK Z) {job : Nat → Job R} (hj : ∀ i, isDid (job i).did) {lo : Nat}
    {s s' : CState C R} (h : CInv L Z job lo s) {a : Act C}
    (hs : s.act L job a = some s') : CInv L Z job lo s' ∧ Frame L s s' := by
  cases a with
  | step i nonce => exact h.stepCall hL hj hs
  | abort i =>
    simp only [CState.act, abortCall] at hs
    have key : ∀ n, (s.pc i).seq = some n → (∀ cd, s.pc i ≠ .done cd) → s' = s.at i (.ready n) →
        CInv L Z job lo s' ∧ Frame L s s' := by
      rintro n h1 h2 rfl
      exact ⟨h.goto trivial (.inr (by rw [h1]; rfl)) h2, .same h.addr rfl rfl rfl rfl⟩
    cases hpc : s.pc i with
    | loaded seq row ver co =>
      rw [hpc] at hs; cases hs
      exact key _ (by rw [hpc]; rfl) (by rw [hpc]; exact fun _ h => nomatch h) rfl
    | applied seq row ver st =>
      rw [hpc] at hs; cases hs
      exact key _ (by rw [hpc]; rfl) (by rw [hpc]; exact fun _ h => nomatch h) rfl
    | built row ver cd =>
      rw [hpc] at hs; cases hs
      exact key _ (by rw [hpc]; rfl) (by rw [hpc]; exact fun _ h => nomatch h) rfl
    | queried row ver cd new =>
      rw [hpc] at hs; cases hs
      exact key _ (by rw [hpc]; rfl) (by rw [hpc]; exact fun _ h => nomatch h) rfl
    | written row ver cd =>
      rw [hpc] at hs; cases hs
      exact key _ (by rw [hpc]; rfl) (by rw [hpc]; exact fun _ h => nomatch h) rfl
    | _ => rw [hpc] at hs; cases hs
  | fail i e =>
    simp only [CState.act, failCall] at hs
    have key : (∀ cd, s.pc i ≠ .done cd) → s' = s.at i (.failed e) →
        CInv L Z job lo s' ∧ Frame L s s' := by
      rintro h2 rfl
      exact ⟨h.goto trivial (.inl rfl) h2, .same h.addr rfl rfl rfl rfl⟩
    cases hpc : s.pc i with
    | done cd => rw [hpc] at hs; cases hs
    | failed e' => rw [hpc] at hs; cases hs
    | _ => rw [hpc] at hs; cases hs; exact key (by rw [hpc]; exact fun _ h => nomatch h) rfl
  | setStatus d st =>
    simp only [CState.act, setStatusRow] at hs
    cases hr : dictGet s.w.rows d with
    | none => rw [hr] at hs; cases hs
    | some row =>
      rw [hr] at hs
      cases hs
      have hf : Frame L s { s with
          w := { s.w with rows := dictSet s.w.rows d { row with status := st } }
          ver := Function.update s.ver d (s.ver d + 1) } := by
        refine ⟨h.addr, .refl _, fun d' => ?_, fun d' hd => ?_, fun x hx => hx⟩
        · simp only [Function.update_apply]
          split
          · rename_i he; rw [he]; omega
          · exact le_refl _
        · simp only [Function.update_apply] at hd ⊢
          split at hd
          · rename_i he; rw [he] at hd; omega
          · rename_i he
            rw [dictGet_dictSet, if_neg he]
      refine ⟨h.change hf (i := 0) (p := s.pc 0) (fun k => ?_) h.store ?_ ((h.pcs 0).frame h.addr hf)
        (le_refl _) (fun n hn => .inl hn) (.inl ⟨rfl, fun _ h => h⟩), hf⟩
      · split
        · rename_i he; subst he; rfl
        · rfl
      · intro d' row' hr'
        rcases mem_dictSet hr' with he | hr'
        · cases he
          exact h.rows d row (dictGet_mem hr)
        · exact h.rows d' row' hr'
  | event d kind t =>
    simp only [CState.act] at hs
    cases hs
    obtain ⟨a1, a2, a3, a4⟩ := alloc_fresh s.w
    let v : Val C R := .event ⟨kind, s.w.alloc.1, d, t⟩
    let b : Block C R := ⟨v, s.w.alloc.1, none, d⟩
    have e : (storeEvent L s d kind t).w.blocks = putBlocks L s.w.blocks [b] := rfl
    have hg := putBlocks_grows (L := L) [b] s.w.blocks
    have hk : Retains L s.w.blocks (putBlocks L s.w.blocks [b]) := fun v hv => hv.grow hg
    have ha : Addressed L (putBlocks L s.w.blocks [b]) := h.addr.put [b]
    have hf : Frame L s (storeEvent L s d kind t) :=
      ⟨by rw [e]; exact ha, by rw [e]; exact hk, fun _ => le_refl _, fun _ _ => rfl, fun _ h => h⟩
    refine ⟨h.change hf (i := 0) (p := s.pc 0) (fun k => ?_) ?_ ?_ ((h.pcs 0).frame h.addr hf)
      ?_ (fun n hn => .inl hn) (.inl ⟨rfl, fun _ h => h⟩), hf⟩
    · show s.pc k = _
      split
      · rename_i he; subst he; rfl
      · rfl
    · rw [e, storeOK_iff ha]
      intro d' hd c hc
      rcases (has_put hL.inj h.addr [b] _).1 hd with hd | ⟨b', hb', hv⟩
      · obtain ⟨d'', g1, g2⟩ := (storeOK_iff h.addr).1 h.store d' hd c hc
        exact ⟨d'', g1, hk _ g2⟩
      · simp only [List.mem_singleton] at hb'
        subst hb'
        cases hv
    · intro d' row' hr
      obtain ⟨g1, m, g2⟩ := h.rows d' row' hr
      exact ⟨g1, m, by rw [e]; exact g2.keeps hk⟩
    · show s.w.next ≤ s.w.alloc.2.next
      omega

theorem CInv.run (hL : L.OK Z) {job : Nat → Job R} (hj : ∀ i, isDid (job i).did) {lo : Nat} :
    ∀ {as : List (Act C)} {s s' : CState C R}, CInv L Z job lo s → s.run L job as = some s' →
    CInv L Z job lo s'
  | [], s, s', h, hs => by cases hs; exact h
  | a :: as, s, s', h, hs => by
    unfold CState.run at hs
    cases ha : s.act L job a with
    | none => rw [ha] at hs; cases hs
    | some s1 => rw [ha] at hs; exact (h.act hL hj ha).1.run hL hj hs

/-- The start: any state of the Datastore that calls made one after the other lead to. -/
theorem CInv.init (hL : L.OK Z) {al : Allow} {w : World C R} (h : Reach L .datastore al w)
    (job : Nat → Job R) : CInv L Z job w.next (.init w) := by
  have hw := (h.datastore.inv hL (by simp)).1
  have hb := hw.core.blocks
  refine ⟨hb.addr, hb.store, fun d row hr => ?_, fun i => trivial, le_refl _,
    fun i n hn => (nomatch hn), fun i k n hn => (nomatch hn), fun i cd hc => (nomatch hc), .nil⟩
  obtain ⟨h1, b, co, h2, h3, h4⟩ := hw.core.rows d row hr
  obtain ⟨m, hm⟩ := hb.root h2 h3
  have := hb.addr _ _ h2
  rw [h3] at this
  exact ⟨h1, m, co, this, h4, .of_root hb.addr ⟨b, by rw [this]; exact h2, h3⟩ hm⟩

end

end Arroba.Store
