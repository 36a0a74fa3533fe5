import Verif.Xrpc.GetRepoProofs
import Verif.Props.C17
import Verif.Props.C22
import Verif.Props.C43
import Verif.Props.C46

/-!
# C65: the sync methods agree about the head, and blocks can be had by their CIDs

`Names cfg be w q d`: the active repo `d`, and no other, is known by the name `q`, a DID, a handle or an `at://` URI.
-/

namespace Arroba.Xrpc

open Arroba.Store

variable {C R : Type} [DecidableEq C] {L : Lib C R} {Z : Nat} {be : Backend} {al : Allow}
  {w : World C R} {cfg : Config R} {q : Key} {d : Did}

/-- `server.load_repo` finds the repo, with its head. -/
theorem load_head (hL : L.OK Z) (hr : Reach L be al w) (hn : Names cfg be w q d) :
    ∃ w' r o b co, load cfg be w q = (w', .ok r) ∧ Loaded w w' ∧ w'.heap[r]? = some o ∧ o.head = some b ∧
      b.val = .commit co ∧ co.did = d ∧ loadRepo be w d = (w', .ok (some r)) ∧
      readHead L be w d = some (L.hash b.val) ∧ ∃ b', w.read (L.hash b.val) = some b' ∧ b'.val = b.val := by
  obtain ⟨_, name, k1, k2, k3⟩ := hn
  rcases load_spec (cfg := cfg) (hr.plain hL).1.core k1 k2 with
    ⟨_, h4⟩ | ⟨d', st, w1, r, o, g1, g2, g3, g4, g5, g6, g7⟩
  · exact absurd ((k3 d none).2 ⟨rfl, rfl⟩) (h4 d none)
  obtain ⟨rfl, rfl⟩ := (k3 d' st).1 g1
  obtain ⟨g8, _⟩ := loadRepo_did hL hr g2 g3 g4
  rw [if_pos rfl] at g7
  obtain ⟨b, co, j1, j2, j3⟩ := did_some g4
  have hr1 : Reach L be al w1 := by
    have := Step.loadRepo (L := L) (be := be) (al := al) (w := w) name
    rw [g2] at this
    exact .step hr this
  obtain ⟨b', _, i1, i2, _⟩ := ((hr1.plain hL).1.core.heap r o g3).head b j1
  rw [g6.blocks] at i1
  refine ⟨w1, r, o, b, co, g7, g6, g3, j1, j2, j3, g8, ?_, b', i1, i2⟩
  unfold readHead
  rw [g8]
  simp only [g3, Option.bind_some, j1, Option.map_some]

/-- **C65 (names).** The `at://` URI of any record of a repo names the repo, just as its DID or handle does: the answers
are the same. -/
theorem C65_at_uri {name collection rkey : Key} (hd0 : name ≠ []) (hc0 : collection ≠ []) (hr0 : rkey ≠ [])
    (hd : ∀ c ∈ name, IsAtChar c) (hc : ∀ c ∈ collection, IsAtChar c) (hr : ∀ c ∈ rkey, IsAtChar c) :
    ∃ uri, AtUri.atUri name collection rkey = .ok uri ∧ (∀ d, Names cfg be w uri d ↔ Names cfg be w name d) ∧
      getLatestCommit cfg L be w uri = getLatestCommit cfg L be w name ∧
      (∀ cids, getBlocks cfg L be w uri cids = getBlocks cfg L be w name cids) ∧
      (∀ ord g since, getRepo cfg L be ord g w uri since = getRepo cfg L be ord g w name since) ∧
      getRepoStatus cfg be w uri = getRepoStatus cfg be w name := by
  obtain ⟨uri, h1, h2⟩ := C22_round_trip cfg.netlocOk name collection rkey hd0 hc0 hr0 hd hc hr
  have huri : startsWith uri AtUri.scheme = true ∧ uri ≠ [] := by
    unfold AtUri.parseAtUri at h2
    split at h2
    · cases h2
    · rename_i h
      rw [not_or, Decidable.not_not] at h
      exact ⟨h.2, h.1⟩
  have hname : ¬ startsWith name AtUri.scheme = true := by
    intro h
    have : '/' ∈ name := by
      unfold startsWith at h
      have hp : AtUri.scheme <+: name := by simpa using h
      exact hp.subset (by decide)
    exact (hd _ this).spec.1 rfl
  have ht : target cfg uri = target cfg name := by
    unfold target
    rw [if_pos huri.1, h2, if_neg hname]
  have hl : load cfg be w uri = load cfg be w name := by
    unfold load
    rw [ht]
  refine ⟨uri, h1, fun d => ?_, ?_, fun cids => ?_, fun ord g since => ?_, ?_⟩
  · unfold Names
    rw [ht]
    simp only [ne_eq, huri.2, not_false_eq_true, hd0]
  · unfold getLatestCommit; rw [hl]
  · unfold getBlocks; rw [hl]
  · unfold getRepo; rw [hl]
  · unfold getRepoStatus; rw [hl]

/-- **C65 (the head).** getLatestCommit answers with the CID and the rev of the repo's head, a commit of this repo that
is stored under this CID. (getHead: only the CID.) -/
theorem C65_latest (hL : L.OK Z) (hr : Reach L be al w) (hn : Names cfg be w q d) :
    ∃ w' c rev b co, getLatestCommit cfg L be w q = (w', .ok (c, rev)) ∧ Loaded w w' ∧
      readHead L be w d = some c ∧ w.read c = some b ∧ b.val = .commit co ∧ co.did = d ∧ co.rev = rev := by
  obtain ⟨w', r, o, b, co, h1, h2, h3, h4, h5, h6, _, h7, b', h8, h9⟩ := load_head hL hr hn
  refine ⟨w', L.hash b.val, co.rev, b', co, ?_, h2, h7, h8, h9.trans h5, h6, rfl⟩
  unfold getLatestCommit
  rw [h1]
  simp only [h3, Option.bind_some, h4, h5]

/-- **C65 (agreement).** The root of what getRepo exports (whenever it answers), and of what getBlocks answers, and what listRepos has
for the repo, is this CID. -/
theorem C65_agree (hL : L.OK Z) (hr : Reach L be al w) (hn : Names cfg be w q d) {w' : World C R} {c : C} {rev : Key}
    (h : getLatestCommit cfg L be w q = (w', .ok (c, rev))) :
    (∀ ord g since w1 car, getRepo cfg L be ord g w q since = (w1, .ok car) → car.roots = [c]) ∧
    (∀ cids w1 car, getBlocks cfg L be w q cids = (w1, .ok car) → car.roots = [c]) ∧
    ∀ limit cursor page, 1 ≤ limit → (∀ x, cursor = some x → x ≠ []) → listRepos L be w limit cursor = .ok page →
      ∀ x ∈ page.items, x.did = d → x.head = c ∧ x.status = none ∧
        ((∃ b, w.read c = some b ∧ 1 ≤ b.seq) → x.rev = rev) := by
  obtain ⟨w0, r, o, b, co, h1, h2, h3, h4, h5, h6, h6', h7, b', h8, h9⟩ := load_head hL hr hn
  have hc : c = L.hash b.val ∧ rev = co.rev := by
    unfold getLatestCommit at h
    rw [h1] at h
    simp only [h3, Option.bind_some, h4, h5, Prod.mk.injEq, Except.ok.injEq] at h
    rw [h5]
    exact ⟨h.2.1.symm, h.2.2.symm⟩
  obtain ⟨rfl, rfl⟩ := hc
  refine ⟨fun ord g since w1 car hg => ?_, fun cids w1 car hg => ?_, fun limit cursor page hl hcu hp x hx hd => ?_⟩
  · unfold getRepo at hg
    rw [h1] at hg
    dsimp only at hg
    split at hg
    · cases hg
    split at hg
    · cases hg
    rw [h3] at hg
    simp only [h4] at hg
    split at hg
    · cases hg
    · cases hg; rfl
  · unfold getBlocks at hg
    rw [h1] at hg
    dsimp only at hg
    split at hg
    · cases hg
    rw [h3] at hg
    simp only [Option.bind_some, h4] at hg
    split at hg
    · cases hg
    · rename_i he; cases he
    · rename_i he; cases he; cases hg; rfl
  · obtain ⟨p, e1, e2⟩ := C43_page hL hr hl hcu
    rw [hp] at e1
    cases e1
    obtain ⟨_, w1, s, o', b1, co', f1, f2, f3, f4, _, f5, f6, f7⟩ := e2.correct x hx
    rw [hd, h6'] at f1
    obtain ⟨rfl, rfl⟩ : w0 = w1 ∧ r = s := by
      simp only [Prod.mk.injEq, Except.ok.injEq, Option.some.injEq] at f1; exact f1
    rw [h3] at f2
    cases f2
    rw [h4] at f3
    cases f3
    rw [h5] at f4
    cases f4
    have hst : o.status = none := by
      obtain ⟨_, name, k1, k2, k3⟩ := hn
      rcases load_spec (cfg := cfg) (hr.plain hL).1.core k1 k2 with
        ⟨_, h4⟩ | ⟨d', st, w2, r2, o2, g1, g2, g3, g4, g5, g6, g7⟩
      · exact absurd ((k3 d none).2 ⟨rfl, rfl⟩) (h4 d none)
      · obtain ⟨rfl, rfl⟩ := (k3 d' st).1 g1
        rw [if_pos rfl, h1] at g7
        cases g7
        rw [h3] at g3
        cases g3
        exact g5
    refine ⟨f5, by rw [f7, hst]; rfl, ?_⟩
    rintro ⟨b2, e1, e2⟩
    refine f6 ?_
    have hr1 : Reach L be al w0 := by
      have := Step.loadRepo (L := L) (be := be) (al := al) (w := w) d
      rw [h6'] at this
      exact .step hr this
    obtain ⟨b3, _, i1, i2, _, i3⟩ := ((hr1.plain hL).1.core.heap r o h3).head b h4
    rw [h2.blocks] at i1
    unfold World.read at e1
    rw [e1] at i1
    cases i1
    omega

/-- **C65 (blocks), partial.** getBlocks answers with exactly the blocks that are asked for, in this order, each stored under its CID,
which is the CID of its content; if one isn't stored, or can't be decoded, with BlockNotFound.

Missing: that the blocks are ones of the repo, see `C65_other_false`. -/
theorem C65_blocks_partial (hL : L.OK Z) (hr : Reach L be al w) (hn : Names cfg be w q d) (cids : List C) :
    ∃ w', Loaded w w' ∧ getBlocks cfg L be w q none = (w', .error (.xrpc "BlockNotFound")) ∧
      ((∃ c ∈ cids, w.read c = none) → getBlocks cfg L be w q (some cids) = (w', .error (.xrpc "BlockNotFound"))) ∧
      ((∀ c ∈ cids, w.read c ≠ none) → ∃ head blocks, getBlocks cfg L be w q (some cids) = (w', .ok ⟨[head], blocks⟩) ∧
        readHead L be w d = some head ∧ blocks.map (·.1) = cids ∧
        ∀ c v, (c, v) ∈ blocks → L.hash v = c ∧ ∃ b, w.read c = some b ∧ b.val = v) := by
  obtain ⟨w', r, o, b, co, h1, h2, h3, h4, h5, h6, _, h7, b', h8, h9⟩ := load_head hL hr hn
  have hread : ∀ c, w'.read c = w.read c := by intro c; unfold World.read; rw [h2.blocks]
  refine ⟨w', h2, ?_, ?_, ?_⟩
  · unfold getBlocks
    rw [h1]
  · intro h
    have key : ∀ cids : List C, (∃ c ∈ cids, w.read c = none) →
        readBlocks w' cids = .error (.xrpc "BlockNotFound") := by
      intro cids
      induction cids with
      | nil => rintro ⟨_, h, _⟩; cases h
      | cons c cs ih =>
        rintro ⟨c', hm, hc⟩
        unfold readBlocks
        rw [hread]
        cases hb : w.read c with
        | none => rfl
        | some b =>
          dsimp only
          rcases List.mem_cons.mp hm with rfl | hm
          · rw [hc] at hb; cases hb
          · rw [ih ⟨c', hm, hc⟩]; rfl
    unfold getBlocks
    rw [h1]
    dsimp only
    rw [key cids h]
  · intro h
    have key : ∀ cids : List C, (∀ c ∈ cids, w.read c ≠ none) → ∃ bl, readBlocks w' cids = .ok bl ∧
        bl.map (·.1) = cids ∧ ∀ c v, (c, v) ∈ bl → ∃ b, w.read c = some b ∧ b.val = v := by
      intro cids
      induction cids with
      | nil => exact fun _ => ⟨[], rfl, rfl, fun _ _ h => nomatch h⟩
      | cons c cs ih =>
        intro h
        obtain ⟨bl, i1, i2, i3⟩ := ih fun c hc => h c (.tail _ hc)
        cases hb : w.read c with
        | none => exact absurd hb (h c List.mem_cons_self)
        | some b =>
          refine ⟨(c, b.val) :: bl, ?_, by simp [i2], ?_⟩
          · unfold readBlocks
            rw [hread, hb]
            dsimp only
            rw [i1]; rfl
          · intro c' v hm
            rcases List.mem_cons.mp hm with hm | hm
            · cases hm; exact ⟨b, hb, rfl⟩
            · exact i3 c' v hm
    obtain ⟨bl, i1, i2, i3⟩ := key cids h
    refine ⟨_, bl, ?_, h7, i2, fun c v hm => ?_⟩
    · unfold getBlocks
      rw [h1]
      dsimp only
      rw [i1, h3]
      simp only [Option.bind_some, h4]
    · obtain ⟨b, e1, e2⟩ := i3 c v hm
      exact ⟨e2 ▸ hr.addressed c b e1, b, e1, e2⟩

/-! ### Examples -/

/-- The hypotheses are met; the head and two blocks. -/
example (be : Backend) : Reach exL be .orderly (exW1 be) ∧ Names exCfg be (exW1 be) exHandle exDid ∧
    (getLatestCommit exCfg exL be (exW1 be) exHandle).2.toOption.map (·.2) = revOf exL be (exW1 be) exDid ∧
    (getBlocks exCfg exL be (exW1 be) exHandle (some [exL.hash (.record 2), exL.hash (.record 1)])).2.toOption.map
      (·.blocks) = some [(exL.hash (.record 2), .record 2), (exL.hash (.record 1), .record 1)] ∧
    (getBlocks exCfg exL be (exW1 be) exHandle (some [exL.hash (.record 2), exL.hash (.record 3)])).2.toBool = false := by
  refine ⟨exW1_reach be, exNames be, ?_, ?_, ?_⟩ <;> cases be <;> decide +kernel

/-- **False: blocks of other repos.** getBlocks for one repo answers with the blocks of all others too, even those of a repo
that is deactivated, for which it itself and getRecord raise RepoDeactivated. Here the record is Alice's, who is
deactivated, and is asked for as one of Bob's, who has no records. -/
theorem C65_other_false (be : Backend) : Reach exL be .orderly (exInactive be) ∧
    (getRepoStatus exCfg be (exInactive be) exDid).2 = .ok false ∧
    (getBlocks exCfg exL be (exInactive be) exDid (some [exL.hash (.record 1)])).2.toBool = false ∧
    (exRead be (exInactive be) exDid2 "a") = some (.ok none) ∧
    (getBlocks exCfg exL be (exInactive be) exDid2 (some [exL.hash (.record 1)])).2.toOption.map (·.blocks) =
      some [(exL.hash (.record 1), .record 1)] := by
  refine ⟨exInactive_reach be, ?_, ?_, ?_, ?_⟩ <;> cases be <;> decide +kernel

/-- Alice's repo by the URI of a record. -/
example (be : Backend) : ∃ uri, AtUri.atUri exHandle "coll".toList "a".toList = .ok uri ∧
    Names exCfg be (exW1 be) uri exDid := by
  obtain ⟨uri, h1, h2, _⟩ := C65_at_uri (cfg := exCfg) (L := exL) (be := be) (w := exW1 be) (name := exHandle)
    (collection := "coll".toList) (rkey := "a".toList) (by decide) (by decide) (by decide)
    (by unfold IsAtChar; decide +kernel) (by unfold IsAtChar; decide) (by unfold IsAtChar; decide)
  exact ⟨uri, h1, (h2 exDid).2 (exNames be)⟩

end Arroba.Xrpc
