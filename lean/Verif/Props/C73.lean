import Verif.Firehose.SizeProofs
import Verif.Props.C45
import Verif.Props.C57

/-!
# C73: commits, firehose messages and proofs stay small, however large the repo

`Z` bounds the layers of the tree: no path's hash has more than `Z` leading pairs of zero bits (128 for SHA-256). None of
the bounds depends on how many records the repo has.
-/

namespace Arroba

open Arroba.Tree

section
variable {C : Type} [DecidableEq C] {E : Env C} {rd : C → Option (NodeData C)} {Z fuel : Nat} {n n' : Node C}
  {ops ops' : List (Op C)} {outs outs' : List (Option Err)}

theorem unstoredKids_nodup {rec : Node C → Except Err (C × List (C × NodeData C))} :
    ∀ {es : List (Ent C)} {acc bl : List (C × NodeData C)}, (acc.map (·.1)).Nodup → unstoredKids rec es acc = .ok bl →
      (bl.map (·.1)).Nodup
  | [], acc, bl, hn, h => by cases h; exact hn
  | .leaf _ _ :: rest, acc, bl, hn, h => unstoredKids_nodup (es := rest) hn h
  | .tree m :: rest, acc, bl, hn, h => by
    unfold unstoredKids at h
    obtain ⟨r, _, h⟩ := bind_ok h
    exact unstoredKids_nodup (es := rest) (dictUpdate_nodup _ hn) h

theorem getUnstoredBlocks_nodup {f : Nat} {c : C} {bl : List (C × NodeData C)}
    (h : getUnstoredBlocks E rd f n = .ok (c, bl)) : (bl.map (·.1)).Nodup := by
  cases f with
  | zero => cases h
  | succ f =>
    unfold getUnstoredBlocks at h
    obtain ⟨p, _, h⟩ := bind_ok h
    split at h
    · cases h; simp
    · obtain ⟨es, _, h⟩ := bind_ok h
      obtain ⟨d, _, h⟩ := bind_ok h
      obtain ⟨b, hb, h⟩ := bind_ok h
      cases h
      exact unstoredKids_nodup (by simp) hb

/-- **C73, trees.** Of two trees, however they were made and however large they are, the first of which is stored: if they
agree on all paths but those in `ks`, then at most `2 * Z` nodes for each of these paths, and the root, have to be written
to store the other. -/
theorem C73_tree (hinj : Function.Injective E.H) (hZ : ∀ k, E.zeros k ≤ Z) (hf : Z + 2 ≤ fuel)
    (h : Run E fuel rd n ops outs) (h' : Run E fuel rd n' ops' outs') {p : C} (hp : getPointer E rd fuel n = .ok p)
    (hs : (rd p).isSome) {ks : List Key} (hne : ks ≠ []) (hk : ∀ k, k ∉ ks → get E rd fuel n' k = get E rd fuel n k)
    {c : C} {bl : List (C × NodeData C)} (hu : getUnstoredBlocks E rd fuel n' = .ok (c, bl)) :
    bl.length ≤ 2 * ks.length * Z + 1 := by
  obtain ⟨hst, _, L, t, hi, _⟩ := h.inv hinj hZ hf
  obtain ⟨_, _, L', t', hi', _⟩ := h'.inv hinj hZ hf
  have hb := hi.bound
  have hb' := hi'.bound
  rw [getPointer_spec hi.repr hi.wf hi.valid (by omega)] at hp
  cases hp
  have hstd := hst.stored hinj hi.wf hs
  obtain ⟨new, n1, n2⟩ := few_nodes hi.wf hi'.wf hi.sorted hi'.sorted hne (fun k hkk => by
    have := hk k hkk
    rw [get_spec hi.repr hi.wf hi.sorted (by omega), get_spec hi'.repr hi'.wf hi'.sorted (by omega)] at this
    simpa using this)
  obtain ⟨bl', h1, h2⟩ := getUnstoredBlocks_spec hi'.repr hi'.wf hi'.valid (f := fuel) (by omega)
  rw [hu] at h1
  cases h1
  have hsub : ∀ x ∈ bl.map (·.1), x ∈ new.map (cidOf E.H) := by
    intro x hx
    obtain ⟨⟨x', d⟩, hm, rfl⟩ := List.mem_map.1 hx
    obtain ⟨s, hs, hc, _, hrd⟩ := h2.1 x' d hm
    subst hc
    rcases n2 s hs with h | h
    · rw [hstd s h] at hrd; cases hrd
    · exact List.mem_map_of_mem h
  have := ((getUnstoredBlocks_nodup hu).subperm hsub).length_le
  simp only [List.length_map] at this
  have : 2 * ks.length * L' ≤ 2 * ks.length * Z := Nat.mul_le_mul_left _ hb'
  omega

/-- The path of an operation. -/
def Op.path : Op C → Key
  | .add k _ => k
  | .update k _ => k
  | .delete k => k

omit [DecidableEq C] in
theorem specRun_off : ∀ {ops' ops : List (Op C)} {k : Key}, k ∉ ops'.map Op.path →
    (specRun (ops ++ ops')).1 k = (specRun ops).1 k := by
  intro ops' ops k
  induction ops' using List.reverseRecOn with
  | nil => simp
  | append_singleton l op ih =>
    intro hk
    simp only [List.map_append, List.map_cons, List.map_nil, List.mem_append, List.mem_singleton, not_or] at hk
    rw [← ih hk.1, ← List.append_assoc]
    unfold specRun
    rw [List.foldl_append]
    simp only [List.foldl_cons, List.foldl_nil]
    generalize (List.foldl (fun s op => ((specStep s.1 op).1, s.2 ++ [(specStep s.1 op).2])) (fun _ => none, [])
      (ops ++ l)).1 = m
    cases op with
    | add a v =>
      simp only [specStep]
      split
      · rfl
      · split
        · rfl
        · exact Function.update_of_ne hk.2 _ _
    | update a v =>
      simp only [specStep]
      split
      · rfl
      · split
        · rfl
        · exact Function.update_of_ne hk.2 _ _
    | delete a =>
      simp only [specStep]
      split
      · rfl
      · exact Function.update_of_ne hk.2 _ _

/-- **C73, operations.** After a tree has been stored, storing it again after `n` operations takes at most `2 * Z` new nodes for
each, and the root. -/
theorem C73_steps (hinj : Function.Injective E.H) (hZ : ∀ k, E.zeros k ≤ Z) (hf : Z + 2 ≤ fuel)
    (h : Run E fuel rd n ops outs) {c : C} {bl : List (C × NodeData C)} (hu : getUnstoredBlocks E rd fuel n = .ok (c, bl))
    {ops' : List (Op C)} (hne : ops' ≠ []) {c' : C} {bl' : List (C × NodeData C)}
    (hu' : getUnstoredBlocks E (writeBlocks rd bl) fuel (execFrom E (writeBlocks rd bl) fuel n ops').1 = .ok (c', bl')) :
    bl'.length ≤ 2 * ops'.length * Z + 1 := by
  have hp := h.persist hu
  have he := hp.exec (ops' := ops')
  obtain ⟨hst, _, L, t, hi, _⟩ := h.inv hinj hZ hf
  have hb := hi.bound
  obtain ⟨bl1, h1, h2⟩ := getUnstoredBlocks_spec hi.repr hi.wf hi.valid (f := fuel) (by omega)
  rw [hu] at h1
  cases h1
  obtain ⟨s1, _, s3⟩ := writeBlocks_stored hinj hst (WF_nodes hi.wf) h2
  have hgp : getPointer E (writeBlocks rd bl) fuel n = .ok (cidOf E.H t) :=
    getPointer_spec (hi.repr.mono s3) hi.wf hi.valid (by omega)
  have := C73_tree hinj hZ hf hp he hgp (by rw [s1 t (by simp [nodes])]; rfl) (ks := ops'.map Op.path) (by simpa using hne)
    (fun k hk => by
      obtain ⟨_, _, L1, t1, i1, _⟩ := hp.inv hinj hZ hf
      obtain ⟨_, _, L2, t2, i2, _⟩ := he.inv hinj hZ hf
      have b1 := i1.bound
      have b2 := i2.bound
      rw [get_spec i1.repr i1.wf i1.sorted (by omega), get_spec i2.repr i2.wf i2.sorted (by omega), i1.map, i2.map,
        specRun_off hk]) hu'
  simpa using this

end

/-- The example tree has five nodes. After one more operation, four of the nodes are new. -/
example : (∃ c bl c' bl', getUnstoredBlocks exE noBlocks 130 (exAfter exOps) = .ok (c, bl) ∧
    getUnstoredBlocks exE (writeBlocks noBlocks bl) 130
      (execFrom exE (writeBlocks noBlocks bl) 130 (exAfter exOps) [.add (key "a/e") (.val 8)]).1 = .ok (c', bl') ∧
    bl.length = 5 ∧ bl'.length = 4) := by
  have h : (match getUnstoredBlocks exE noBlocks 130 (exAfter exOps) with
    | .ok (_, bl) => match getUnstoredBlocks exE (writeBlocks noBlocks bl) 130
        (execFrom exE (writeBlocks noBlocks bl) 130 (exAfter exOps) [.add (key "a/e") (.val 8)]).1 with
      | .ok (_, bl') => decide (bl.length = 5 ∧ bl'.length = 4)
      | .error _ => false
    | .error _ => false) = true := by decide +kernel
  split at h
  · rename_i c bl h1
    split at h
    · rename_i c' bl' h2
      exact ⟨c, bl, c', bl', h1, h2, by simpa using h⟩
    · cases h
  · cases h

end Arroba

namespace Arroba.Store

open Arroba.Tree

section
variable {C R : Type} [DecidableEq C] {L : Lib C R} {Z : Nat} {be : Backend} {al : Allow} {w w' v : World C R}

theorem commitCost_max : commitCost Z maxOps = 400 * Z + 202 := by
  unfold commitCost maxOps
  rw [show max 1 200 = 200 from rfl]
  omega

/-- **C73, commits, partial.** After any history, including failures and retries: a commit of `n` writes that succeeds
consists of at most `n` record blocks, `2 * Z` tree nodes for each write, the root, and the commit. A commit without
writes counts as one with one.

Partial: excludes `MemoryStorage` after a commit that failed in the middle (`torn`), whose writes stay in the tree (C23) and
are part of the next commit. -/
theorem C73_commit_partial (hL : L.OK Z) (ht : ¬ al.torn) (h : Reach L be al w) {r : Ref} {writes : List (Write R)}
    {xs : List Luck} {cbFails : Bool} {cd : CommitData C R} (hc : commit L be w r writes none xs cbFails = (w', .ok cd)) :
    cd.blocks.length ≤ writes.length + 2 * max 1 writes.length * Z + 2 := by
  rcases commit_cases hL (h.inv hL ht).1 (be := be) r writes xs cbFails with
    ⟨e, w1, _, _, h1, _⟩ | ⟨w1, _, wk, x, did, m, m', s, n, cd', co, h1, _, _, hm, _, hd, _⟩
  · rw [hc] at h1; cases h1
  · rw [hc] at h1
    simp only [Prod.mk.injEq] at h1
    split at h1
    · exact absurd h1.2 (by simp)
    · obtain ⟨_, rfl⟩ : w' = w1 ∧ cd = cd' := ⟨h1.1, by simpa using h1.2⟩
      obtain ⟨w2, hb⟩ := hd.body
      have := (body_length hL hm.core (be := be) r writes x).2
      rw [hb] at this
      exact this cd rfl

/-- **C73, storage, partial.** Whether a commit succeeds or not, it adds at most that many blocks to the storage, unless the
Datastore fails after blocks have been written. -/
theorem C73_growth_partial (hL : L.OK Z) (ht : ¬ al.torn) (h : Reach L be al w) (r : Ref) (writes : List (Write R))
    {xs : List Luck} (hx : ∀ x ∈ xs, x.storeFails = false ∧ x.txFails = false) (cbFails : Bool) :
    (commit L be w r writes none xs cbFails).1.blocks.length ≤
      w.blocks.length + (writes.length + 2 * max 1 writes.length * Z + 2) := by
  have hw := (h.inv hL ht).1
  have hc := hw.alloc.1.core
  rw [hw.alloc.2.2.1, ← hw.alloc.2.1] at hc
  exact commit_length cbFails hx fun x => (body_length hL hc r writes x).1

/-- **C73, sequence numbers, partial.** At most `400 * Z + 202` blocks are stored with one sequence number.

Partial: excludes commits that failed in the middle (`torn`, `partway`). -/
theorem C73_seq_partial (hL : L.OK Z) (ht : ¬ al.torn) (hp : ¬ al.partway) (h : Reach L be al w) {s : Nat} (hs : 1 ≤ s)
    {cs : List C} (hn : cs.Nodup) (hc : ∀ c ∈ cs, ∃ b, w.read c = some b ∧ b.seq = s) : cs.length ≤ 400 * Z + 202 := by
  have h1 := h.withSeq hL ht hp hs
  have hsub : ∀ c ∈ cs, c ∈ (w.withSeq s).map (·.1) := by
    intro c hcc
    obtain ⟨b, h2, h3⟩ := hc c hcc
    refine List.mem_map.2 ⟨(c, b), ?_, rfl⟩
    unfold World.withSeq
    rw [List.mem_filter]
    exact ⟨dictGet_mem h2, by simpa using h3⟩
  have := (hn.subperm hsub).length_le
  rw [List.length_map] at this
  rw [commitCost_max] at h1
  omega

/-- **C73, firehose messages, partial.** A `#commit` message has at most `1000 * Z + 603` blocks, with everything that its
proofs need, no matter how large the repo is.

Partial: as for C57. -/
theorem C73_message_partial (hL : L.OK Z) (ht : ¬ al.torn) (hp : ¬ al.partway) (hplain : PlainRecords L)
    (h : Reach L be al w) (hg : ∀ c b, w.read c = some b → v.read c = some b)
    {start : Nat} (hi : al.imports → 1 ≤ start) {repo : Option Did} {q : List (Block C R)} (hq : Query L w start repo q)
    {s : Sent C R} (hs : s ∈ (readEvents L w q).1) {kind : Key} {p : Payload C R}
    (hm : processEvent L v none s = .ok (.commit kind p)) : p.blocks.blocks.length ≤ 1000 * Z + 603 := by
  obtain ⟨_, ms, hpw, h2, h3⟩ := C30_log_partial hL hp hplain h hi hq
  have hn : ∀ c, Sent.commit c ∈ (readEvents L w q).1 → (c.blocks.map (·.1)).Nodup := scan_nodup (by simp)
  obtain ⟨b, hb, hd⟩ : ∃ b ∈ ms, Delivers w b s := by
    generalize (readEvents L w q).1 = ss at h3 hs
    clear h2 hpw
    induction h3 with
    | nil => cases hs
    | cons hx _ ih =>
      rcases List.mem_cons.1 hs with rfl | hs
      · exact ⟨_, .head _, hx⟩
      · obtain ⟨b, g1, g2⟩ := ih hs
        exact ⟨b, .tail _ g1, g2⟩
  obtain ⟨g1, _, g3, _⟩ := (h2 b).1 hb
  have hseq : 1 ≤ b.seq := by
    by_cases hm : al.imports
    · exact (hi hm).trans g3
    · exact Reach.native hL hm h g1
  cases s with
  | event x => cases x <;> cases hm
  | commit sc =>
    obtain ⟨co, hv⟩ : ∃ co, b.val = .commit co := by
      unfold Delivers at hd
      cases hv : b.val with
      | commit co => exact ⟨co, rfl⟩
      | node d => rw [hv] at hd; exact hd.elim
      | record r => rw [hv] at hd; exact hd.elim
      | event e => rw [hv] at hd; cases hd
    have h4 := (Reach.told hL ht h g1 hv hseq).message_length hL hg hd (hn sc hs) hm
    have h5 := h.withSeq hL ht hp hseq
    rw [commitCost_max] at h5
    unfold maxOps at h4
    omega

end

/-! ### Cases that meet the hypotheses -/

/-- A commit of the example. -/
example (be : Backend) : ∃ w' cd, commit exL be (exW0 be) 0 exWrites none lucky false = (w', .ok cd) ∧
    1 ≤ cd.blocks.length ∧ cd.blocks.length ≤ exWrites.length + 2 * max 1 exWrites.length * 128 + 2 := by
  have h : (match (commit exL be (exW0 be) 0 exWrites none lucky false).2 with
    | .ok cd => decide (1 ≤ cd.blocks.length)
    | .error _ => false) = true := by cases be <;> decide +kernel
  cases hc : commit exL be (exW0 be) 0 exWrites none lucky false with
  | mk w' res =>
    rw [hc] at h
    cases res with
    | error e => cases h
    | ok cd => exact ⟨w', cd, rfl, by simpa using h, C73_commit_partial exL_ok (fun h => h) (exW0_reach be) hc⟩

/-- All messages of the example. -/
example (be : Backend) {s : Sent SC Nat} (hs : s ∈ (readEvents exL (exW2 be) (blocksFrom (exW2 be) 0)).1) {kind : Key}
    {p : Payload SC Nat} (hm : processEvent exL (exW2 be) none s = .ok (.commit kind p)) :
    p.blocks.blocks.length ≤ 1000 * 128 + 603 := by
  have hq : Query exL (exW2 be) 0 none (blocksFrom (exW2 be) 0) :=
    Query.of_perm (exW2_reach be) (by cases be <;> decide +kernel) (List.Perm.refl _)
  exact C73_message_partial exL_ok (fun h => h) (fun h => h) (fun _ _ => ⟨rfl, rfl⟩) (exW2_reach be) (fun _ _ h => h)
    (fun h => h.elim) hq hs hm

end Arroba.Store

namespace Arroba.Xrpc

open Arroba.Store

section
variable {C R : Type} [DecidableEq C] {L : Lib C R} {Z : Nat} {cfg : Config R} {be : Backend} {w w' : World C R}

/-- **C73, proofs, partial.** The answer of `com.atproto.sync.getRecord` has the record, the commit, and at most `3 * Z + 1`
tree nodes.

Partial: as for C45. -/
theorem C73_get_record_partial (hL : L.OK Z) (hr : Reach L be .untorn w) {q : Key} {d : Did} (hn : Names cfg be w q d)
    {collection rkey : Key} {car : Car C R} (h : syncGetRecord cfg L be w q collection rkey = (w', .ok car)) :
    car.blocks.length ≤ 3 * Z + 3 :=
  syncGetRecord_length hL hr hn h

end

/-- A record of the example: it, the commit and three nodes. -/
example (be : Backend) : ∃ w' car, syncGetRecord exCfg exL be (exW1 be) exHandle "coll".toList "a".toList = (w', .ok car) ∧
    car.blocks.length = 5 ∧ car.blocks.length ≤ 3 * 128 + 3 := by
  have h : (match (syncGetRecord exCfg exL be (exW1 be) exHandle "coll".toList "a".toList).2 with
    | .ok car => decide (car.blocks.length = 5)
    | .error _ => false) = true := by cases be <;> decide +kernel
  have hr : Reach exL be .untorn (exW1 be) := (exW1_reach be).weaken (al' := .untorn)
    (by exact fun h => h) (fun _ => trivial) (fun _ => trivial) (fun _ => trivial)
  cases hc : syncGetRecord exCfg exL be (exW1 be) exHandle "coll".toList "a".toList with
  | mk w' res =>
    rw [hc] at h
    cases res with
    | error e => cases h
    | ok car => exact ⟨w', car, rfl, by simpa using h, C73_get_record_partial exL_ok hr (exNames be) hc⟩

end Arroba.Xrpc
