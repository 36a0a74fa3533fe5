import Verif.Storage.EffectProofs
import Verif.Storage.PlainReach
import Verif.Storage.GrowProofs
import Verif.Storage.Example
import Verif.Storage.FreshProofs
import Verif.Props.C19

/-! # C25: commit chain integrity -/

namespace Arroba.Store

variable {C R : Type} [DecidableEq C]

open Arroba.Tree

/-- Following `prev` from the commit `c` with `Storage.read` ends at a commit without `prev`; `bs`
are the commit blocks met, newest first. -/
inductive Chain (w : World C R) : C → List (Block C R) → Prop
  | first {c : C} {b : Block C R} {co : Commit C} (h : w.read c = some b) (hv : b.val = .commit co)
      (hp : co.prev = none) : Chain w c [b]
  | next {c p : C} {b : Block C R} {co : Commit C} {bs : List (Block C R)}
      (h : w.read c = some b) (hv : b.val = .commit co) (hp : co.prev = some p)
      (hc : Chain w p bs) : Chain w c (b :: bs)

/-- The same, but ending at an imported commit, if there is one. Imported blocks have the sequence number 0. -/
inductive ChainSince (w : World C R) : C → List (Block C R) → Prop
  | first {c : C} {b : Block C R} {co : Commit C} (h : w.read c = some b) (hv : b.val = .commit co)
      (hp : co.prev = none) : ChainSince w c [b]
  | imported {c : C} {b : Block C R} {co : Commit C} (h : w.read c = some b) (hv : b.val = .commit co)
      (hs : b.seq = 0) : ChainSince w c [b]
  | next {c p : C} {b : Block C R} {co : Commit C} {bs : List (Block C R)}
      (h : w.read c = some b) (hv : b.val = .commit co) (hs : 1 ≤ b.seq) (hp : co.prev = some p)
      (hc : ChainSince w p bs) : ChainSince w c (b :: bs)

section
variable {L : Lib C R} {Z : Nat} {be : Backend} {al : Allow} {w : World C R}

theorem Chain.grow {w w' : World C R} (hg : Grows w.blocks w'.blocks) {c : C} {bs : List (Block C R)}
    (h : Chain w c bs) : Chain w' c bs := by
  induction h with
  | first h hv hp => exact .first (hg _ _ h) hv hp
  | next h hv hp _ ih => exact .next (hg _ _ h) hv hp ih

theorem Chain.unique {c : C} {bs bs' : List (Block C R)} (h : Chain w c bs) (h' : Chain w c bs') :
    bs = bs' := by
  induction h generalizing bs' with
  | first h hv hp =>
    cases h' with
    | first h2 hv2 hp2 => rw [h] at h2; cases h2; rfl
    | next h2 hv2 hp2 _ =>
      rw [h] at h2; cases h2; rw [hv] at hv2; cases hv2; rw [hp] at hp2; cases hp2
  | next h hv hp _ ih =>
    cases h' with
    | first h2 hv2 hp2 =>
      rw [h] at h2; cases h2; rw [hv] at hv2; cases hv2; rw [hp] at hp2; cases hp2
    | next h2 hv2 hp2 hc =>
      rw [h] at h2; cases h2; rw [hv] at hv2; cases hv2; rw [hp] at hp2; cases hp2
      rw [ih hc]

theorem ChainSince.grow {w w' : World C R} (hg : Grows w.blocks w'.blocks) {c : C} {bs : List (Block C R)}
    (h : ChainSince w c bs) : ChainSince w' c bs := by
  induction h with
  | first h hv hp => exact .first (hg _ _ h) hv hp
  | imported h hv hs => exact .imported (hg _ _ h) hv hs
  | next h hv hs hp _ ih => exact .next (hg _ _ h) hv hs hp ih

theorem ChainSince.all (hn : ∀ c b, w.read c = some b → 1 ≤ b.seq) {c : C} {bs : List (Block C R)}
    (h : ChainSince w c bs) : Chain w c bs := by
  induction h with
  | first h hv hp => exact .first h hv hp
  | imported h _ hs => have := hn _ _ h; omega
  | next h hv _ hp _ ih => exact .next h hv hp ih

/-- **C25 (one commit).** In every history: a successful commit carries version 3, the repo's DID,
the previous head as `prev`, the TID of its freshly allocated sequence number as `rev` and a
signature over all of this; `data` is the CID of the tree that the caller's `Repo` object holds
afterwards. It is stored under its own CID, and it is the new head of the repo as well as of the
caller's object. -/
theorem C25_commit (hL : L.OK Z) (hr : Reach L be al w) {r : Ref}
    {o : RepoObj C R} {d : Did} (ho : w.heap[r]? = some o) (hd : o.did = some d)
    {writes : List (Write R)} {xs : List Luck}
    {cbFails : Bool} {w' : World C R} {cd : CommitData C R}
    (hok : commit L be w r writes none xs cbFails = (w', .ok cd)) :
    ∃ co b o', cd.commit.val = .commit co ∧ co.version = 3 ∧ co.did = d ∧
      co.prev = readHead L be w d ∧ co.prev ≠ none ∧ cd.prev = co.prev ∧
      cd.commit.seq = w.alloc.1 ∧ Tid.intToTid 0 w.alloc.1 (some 0) = .ok co.rev ∧
      (∃ key nonce, co.sig = L.sign key { co with sig := [] } nonce) ∧
      w'.read (L.hash cd.commit.val) = some b ∧ b.val = cd.commit.val ∧ b.seq = cd.commit.seq ∧
      readHead L be w' d = some (L.hash cd.commit.val) ∧
      w'.heap[r]? = some o' ∧ o'.head = some cd.commit ∧
      getPointer L.env w'.rd L.fuel o'.mst = .ok co.data := by
  obtain ⟨hw, hl⟩ := hr.plain hL
  obtain ⟨w1, w2, res, h1, h2, h3, h4, h5, h6, h7, h8⟩ := commit_plain hL hw (r := r)
    (repoDid := none) (fun d hd => by cases hd) writes xs cbFails
  rw [hok] at h1
  obtain ⟨rfl, rfl⟩ := Prod.mk.inj h1
  rcases h8 with ⟨⟨e, he⟩, _⟩ | ⟨cd', wk, did, prev, co, hres, hk, _, _, _, hkh, hkd, _, hdone⟩
  · cases he
  have hcd : cd = cd' := by
    rcases hres with h | ⟨e, h⟩ <;> cases h
    rfl
  subst hcd
  have hdd : d = did := by
    obtain ⟨oc, k1, _, k2⟩ := hdone.caller
    obtain ⟨o', g1, g2⟩ := hkd r o d (.inl rfl) ho hd
    rw [g1] at k1; cases k1
    rw [k2 rfl] at g2; exact (Option.some.inj g2).symm
  subst hdd
  obtain ⟨o', j1, j2, key, nonce, hb⟩ := hdone.obj
  obtain ⟨⟨p, hp⟩, q1, q2, _⟩ := hdone.heads
  obtain ⟨ops, hcd⟩ := hb.commit
  obtain ⟨b', co', k1, k2, k3, k4⟩ := hb.head
  obtain ⟨ll, t, M, i2, i4⟩ := hb.tree
  obtain ⟨l, rfl⟩ := h2
  refine ⟨co, b', o', by rw [hcd], hb.version, hb.codid, ?_, ?_, ?_, ?_, ?_, ⟨key, nonce, hb.sig⟩,
    ?_, k2, k4, ?_, j1, j2, ?_⟩
  · rw [hb.coprev, hw.core.readHead hdone.isDid, ← hkh, q1]
  · rw [hb.coprev, hp]; simp
  · rw [hb.cdprev, hb.coprev]
  · rw [hcd]; exact hw.alloc.1.symm
  · rw [hw.alloc.1]; exact hb.rev
  · exact (hdone.blocks ▸ k1 :)
  · have := h3.core.readHead (L := L) hdone.isDid
    rw [q2] at this
    exact (SameButLog.pworld (w := w1) (w' := { w1 with log := l }) ⟨l, rfl⟩ h3).core.readHead
      hdone.isDid |>.trans ((headOf_log (w := w1) ⟨l, rfl⟩ d).trans q2)
  · have hf := hL.fuel
    have hbd := i2.bound
    have := getPointer_spec i2.repr i2.wf i2.valid (f := L.fuel) (by omega)
    rw [← i4]
    have e : ({ w1 with log := l } : World C R).rd =
        nodeIn (putBlocks L wk.blocks (cd.blocks.map (·.2))) := by
      rw [← hdone.blocks]; rfl
    rw [e]
    exact this

theorem rev_lt {b b' : Nat} {s t : Key} (h : Tid.intToTid 0 b (some 0) = .ok s)
    (h' : Tid.intToTid 0 b' (some 0) = .ok t) (hlt : b < b') : s < t :=
  C19_order_any_clock 0 0 0 0 (by omega) (by omega) b b' s t h h' hlt

/-- **C25 (chains, with imports).** In every reachable state, following `prev` from any stored commit leads to
a first commit, or to an imported one, without gaps. All commits on the way belong to the same DID, and but for
the imported one have version 3, revs that are the TIDs of their sequence numbers, and sequence numbers and revs
that strictly decrease. -/
theorem C25_chain_since (hL : L.OK Z) (hr : Reach L be al w) {c : C}
    {b : Block C R} {co : Commit C} (hb : w.read c = some b) (hv : b.val = .commit co) :
    ∃ bs, ChainSince w c (b :: bs) ∧ (∀ x ∈ b :: bs, ∃ co', x.val = .commit co' ∧ co'.did = co.did ∧
        (x.seq = 0 ∨ co'.version = 3 ∧ x.repo = co.did ∧ Tid.intToTid 0 x.seq (some 0) = .ok co'.rev)) ∧
      (b :: bs).Pairwise (fun x y => y.seq < x.seq) ∧
      (b :: bs).Pairwise (fun x y => y.seq ≠ 0 → ∀ cx cy, x.val = .commit cx → y.val = .commit cy →
        cy.rev < cx.rev) := by
  obtain ⟨hw, hl⟩ := hr.plain hL
  have main : ∀ n, ∀ {c : C} {b : Block C R} {co : Commit C}, b.seq ≤ n → w.read c = some b →
      b.val = .commit co → ∃ bs, ChainSince w c (b :: bs) ∧
        (∀ x ∈ b :: bs, ∃ co', x.val = .commit co' ∧ co'.did = co.did ∧
        (x.seq = 0 ∨ co'.version = 3 ∧ x.repo = co.did ∧ Tid.intToTid 0 x.seq (some 0) = .ok co'.rev)) ∧
      (b :: bs).Pairwise (fun x y => y.seq < x.seq) := by
    intro n
    induction n with
    | zero =>
      intro c b co hn hb hv
      refine ⟨[], .imported hb hv (by omega), fun x hx => ?_, List.pairwise_singleton _ _⟩
      simp only [List.mem_singleton] at hx
      subst hx
      exact ⟨co, hv, rfl, .inl (by omega)⟩
    | succ n ih =>
      intro c b co hn hb hv
      by_cases hs : 1 ≤ b.seq
      · have hc := hw.core.blocks.own hb hv hs
        cases hp : co.prev with
        | none =>
          refine ⟨[], .first hb hv hp, fun x hx => ?_, List.pairwise_singleton _ _⟩
          simp only [List.mem_singleton] at hx
          subst hx
          exact ⟨co, hv, rfl, .inr ⟨hc.version, hc.repo, hc.rev⟩⟩
        | some p =>
          obtain ⟨b', co', h1, h2, h3, h4⟩ := hc.prev p hp
          obtain ⟨bs, g1, g2, g3⟩ := ih (by omega) h1 h2
          refine ⟨b' :: bs, .next hb hv hs hp g1, fun x hx => ?_, List.pairwise_cons.2 ⟨?_, g3⟩⟩
          · rcases List.mem_cons.1 hx with rfl | hx
            · exact ⟨co, hv, rfl, .inr ⟨hc.version, hc.repo, hc.rev⟩⟩
            · rw [← h3]; exact g2 x hx
          · intro y hy
            rcases List.mem_cons.1 hy with rfl | hy
            · exact h4
            · exact ((List.pairwise_cons.1 g3).1 y hy).trans h4
      · exact ih (by omega) hb hv
  obtain ⟨bs, g1, g2, g3⟩ := main _ (le_refl _) hb hv
  refine ⟨bs, g1, g2, g3, ?_⟩
  refine List.Pairwise.imp_of_mem ?_ g3
  intro x y hx hy hlt hy0 cx cy hcx hcy
  obtain ⟨cx', i1, _, i2⟩ := g2 x hx
  obtain ⟨cy', j1, _, j2⟩ := g2 y hy
  rw [hcx] at i1; cases i1
  rw [hcy] at j1; cases j1
  exact rev_lt (j2.resolve_left hy0).2.2 (i2.resolve_left (by omega)).2.2 hlt

/-- **C25 (chains).** Without imports: in every reachable state, following `prev` from any stored commit leads to
a first commit, without gaps. All commits on the way belong to the same DID and have version 3,
their revs are the TIDs of their sequence numbers, and both strictly decrease. -/
theorem C25_chain (hL : L.OK Z) (hi : ¬ al.imports) (hr : Reach L be al w) {c : C}
    {b : Block C R} {co : Commit C} (hb : w.read c = some b) (hv : b.val = .commit co) :
    ∃ bs, Chain w c (b :: bs) ∧ (∀ x ∈ b :: bs, ∃ co', x.val = .commit co' ∧ co'.version = 3 ∧
        co'.did = co.did ∧ x.repo = co.did ∧ Tid.intToTid 0 x.seq (some 0) = .ok co'.rev) ∧
      (b :: bs).Pairwise (fun x y => y.seq < x.seq) ∧
      (b :: bs).Pairwise (fun x y => ∀ cx cy, x.val = .commit cx → y.val = .commit cy →
        cy.rev < cx.rev) := by
  obtain ⟨bs, h1, h2, h3, h4⟩ := C25_chain_since hL hr hb hv
  have hn : ∀ c b, w.read c = some b → 1 ≤ b.seq := fun c b h => hr.native hL hi h
  have hch := h1.all hn
  have hm : ∀ {c : C} {bs : List (Block C R)}, Chain w c bs → ∀ x ∈ bs, 1 ≤ x.seq := by
    intro c bs h
    induction h with
    | first h _ _ => intro x hx; rw [List.mem_singleton.1 hx]; exact hn _ _ h
    | next h _ _ _ ih =>
      intro x hx
      rcases List.mem_cons.1 hx with rfl | hx
      · exact hn _ _ h
      · exact ih x hx
  refine ⟨bs, hch, fun x hx => ?_, h3, ?_⟩
  · obtain ⟨co', g1, g2, g3⟩ := h2 x hx
    have := hm hch x hx
    obtain ⟨g4, g5, g6⟩ := g3.resolve_left (by omega)
    exact ⟨co', g1, g4, g2, g5, g6⟩
  · refine List.Pairwise.imp_of_mem ?_ h4
    intro x y _ hy h
    have := hm hch y hy
    exact h (by omega)

/-- **C25 (heads).** The head of every repo that `load_repo` finds is such a commit, of that very
DID. -/
theorem C25_head (hL : L.OK Z) (hr : Reach L be al w) {d : Did}
    (hd : isDid d) {c : C} (hh : readHead L be w d = some c) :
    ∃ b co, w.read c = some b ∧ b.val = .commit co ∧ co.did = d := by
  obtain ⟨hw, hl⟩ := hr.plain hL
  rw [hw.core.readHead hd] at hh
  unfold headOf at hh
  cases be with
  | memory =>
    simp only at hh
    cases hs : dictGet w.repos d with
    | none => rw [hs] at hh; cases hh
    | some s =>
      rw [hs] at hh
      simp only at hh
      obtain ⟨_, o, ho, hod⟩ := hw.core.repos d s (dictGet_mem hs)
      obtain ⟨b, co, h1, h2, h3⟩ := did_some hod
      rw [ho] at hh
      simp only [Option.bind_some, h1, Option.map_some, Option.some.injEq] at hh
      obtain ⟨b', co', k1, k2, k3, _⟩ := (hw.core.heap s o ho).head b h1
      rw [h2] at k3
      cases k3
      subst hh
      exact ⟨b', co, k1, k2.trans h2, h3⟩
  | datastore =>
    simp only at hh
    cases hs : dictGet w.rows d with
    | none => rw [hs] at hh; cases hh
    | some row =>
      rw [hs] at hh
      simp only [Option.map_some, Option.some.injEq] at hh
      obtain ⟨_, b, co, h1, h2, h3, _⟩ := hw.core.rows d row (dictGet_mem hs)
      subst hh
      exact ⟨b, co, h1, h2, h3⟩

/-- **C25 (history, with imports).** Every API call either leaves the head of a repo alone, or creates the repo
anew with a commit without `prev`, or imports it, if there was none, or puts one new commit in front of its chain,
which is otherwise unchanged. So the chain of a repo is its whole history since it was created or imported. -/
theorem C25_history_since (hL : L.OK Z) (hr : Reach L be al w)
    {w' : World C R} (hs : Step L be al w w') {d : Did} (hd : isDid d) :
    readHead L be w' d = readHead L be w d ∨
    (∃ c b, readHead L be w' d = some c ∧ Chain w' c [b]) ∨
    (∃ c b, readHead L be w d = none ∧ readHead L be w' d = some c ∧ b.seq = 0 ∧ ChainSince w' c [b]) ∨
    (∃ c p b bs, readHead L be w d = some p ∧ ChainSince w p bs ∧ readHead L be w' d = some c ∧
      1 ≤ b.seq ∧ ChainSince w' c (b :: bs)) := by
  obtain ⟨hw, hl⟩ := hr.plain hL
  have hr' := Reach.step hr hs
  obtain ⟨hw', hl'⟩ := hr'.plain hL
  have hg := hs.puts.grows
  have he := (hs.plain hL hw).eff
  have e := hw.core.readHead hd
  have e' := hw'.core.readHead hd
  cases he with
  | none h => left; rw [e, e', h]
  | create d' b co hb hp h =>
    by_cases hdd : d = d'
    · subst hdd
      right; left
      rw [h, if_pos rfl] at e'
      obtain ⟨b', co', h1, h2, _⟩ := C25_head hL hr' hd e'
      have := hw'.core.blocks.addr _ _ h1
      have := hL.inj this
      rw [h2, hb] at this
      cases this
      exact ⟨_, b', e', .first h1 h2 hp⟩
    · left; rw [e, e', h, if_neg hdd]
  | «import» d' co hco hi hs h hno =>
    by_cases hdd : d = d'
    · subst hdd
      right; right; left
      rw [h, if_pos rfl] at e'
      obtain ⟨b, h1, h2, h3⟩ := hs
      exact ⟨_, b, e.trans hno, e', h3, .imported h1 h2 h3⟩
    · left; rw [e, e', h, if_neg hdd]
  | commit d' b co hb hp hp' hsq h =>
    by_cases hdd : d = d'
    · subst hdd
      right; right; right
      rw [h, if_pos rfl] at e'
      rw [← e] at hp
      cases hpp : readHead L be w d with
      | none => rw [hpp] at hp; exact absurd hp hp'
      | some p =>
        obtain ⟨b', co', h1, h2, _⟩ := C25_head hL hr' hd e'
        have := hw'.core.blocks.addr _ _ h1
        have := hL.inj this
        rw [h2, hb] at this
        cases this
        obtain ⟨b0, co0, k1, k2, _⟩ := C25_head hL hr hd hpp
        obtain ⟨bs, k3, _⟩ := C25_chain_since hL hr k1 k2
        obtain ⟨b1, m1, m2⟩ := hsq
        have h1' : dictGet w'.blocks (L.hash b.val) = some b' := h1
        rw [m1] at h1'
        cases h1'
        exact ⟨_, p, b', _, rfl, k3, e', m2, .next h1 h2 m2 (hp.trans hpp) (k3.grow hg)⟩
    · left; rw [e, e', h, if_neg hdd]

/-- **C25 (history).** Without imports: every API call either leaves the head of a repo alone, or creates the
repo anew with a commit without `prev`, or puts one new commit in front of its chain, which is otherwise
unchanged. So the chain of a repo is its whole history since it was created. -/
theorem C25_history (hL : L.OK Z) (hi : ¬ al.imports) (hr : Reach L be al w)
    {w' : World C R} (hs : Step L be al w w') {d : Did} (hd : isDid d) :
    readHead L be w' d = readHead L be w d ∨
    (∃ c b, readHead L be w' d = some c ∧ Chain w' c [b]) ∨
    (∃ c p b bs, readHead L be w d = some p ∧ Chain w p bs ∧ readHead L be w' d = some c ∧
      Chain w' c (b :: bs)) := by
  have hn : ∀ c b, w.read c = some b → 1 ≤ b.seq := fun c b h => hr.native hL hi h
  have hn' : ∀ c b, w'.read c = some b → 1 ≤ b.seq := fun c b h => (hr.step hs).native hL hi h
  rcases C25_history_since hL hr hs hd with h | h | ⟨c, b, _, _, h, h'⟩ | ⟨c, p, b, bs, h1, h2, h3, _, h4⟩
  · exact .inl h
  · exact .inr (.inl h)
  · cases h' with
    | first h1 => have := hn' _ _ h1; omega
    | imported h1 => have := hn' _ _ h1; omega
    | next h1 => have := hn' _ _ h1; omega
  · exact .inr (.inr ⟨c, p, b, bs, h1, h2.all hn, h3, h4.all hn'⟩)

end

/-! ### Examples -/

/-- Follows `prev` for at most `n` steps. -/
def exChain (w : ExWorld) : Nat → SC → List (Nat × Key)
  | 0, _ => []
  | n + 1, c => match w.read c with
    | some ⟨.commit co, s, _, _⟩ => (s, co.rev) :: (match co.prev with
      | some p => exChain w n p
      | none => [])
    | _ => []

/-- The repo of the example has three commits, with sequence numbers 10, 9 and 1 (the other
numbers went to events and to a second repo). -/
example (be : Backend) : ((readHead exL be (exW2 be) exDid).map (exChain (exW2 be) 5)).map
    (·.map (·.1)) = some [10, 9, 1] := by
  cases be <;> decide +kernel

/-- Creating a repo for a DID that already has one replaces it silently: the new head has no
`prev`, and the records are gone. This is why the second case of `C25_history` does not
require that there was no such repo before. -/
theorem C25_recreate (be : Backend) :
    let w' := (repoCreate exL be (exW2 be) exDid (some exHandle) 7 true 0 lucky false).1
    Reach exL be .orderly w' ∧
    ((readHead exL be (exW2 be) exDid).map (exChain (exW2 be) 5)).map (·.map (·.1)) =
      some [10, 9, 1] ∧
    ((readHead exL be w' exDid).map (exChain w' 5)).map (·.map (·.1)) = some [11] := by
  refine ⟨.step (exW2_reach be) (.create exDid (some exHandle) 7 true 0 lucky false ?_ ?_ ?_
    (.inr rfl) (.inr rfl)), ?_⟩
  · unfold isDid; decide +kernel
  · rintro h ⟨⟩; unfold isDid; decide +kernel
  · right; decide
  · cases be <;> decide +kernel

end Arroba.Store
