import Verif.Xrpc.SyncRecordProofs
import Verif.Props.C41

/-!
# C45: `com.atproto.sync.getRecord` returns a proof of the record

`Proves L car head path r` (RecordSpec.lean): with nothing but the blocks in `car`, the record `r` at `path` can be
traced from the commit `head`. False in general: the covering proof is computed for the name of the collection instead
of the record's path (xrpc_sync.py 222-224), see `C45_false`. It is right for the records that come directly after that
name in the order of paths.
-/

namespace Arroba.Xrpc

open Arroba.Store Arroba.Tree

variable {C R : Type} [DecidableEq C] {L : Lib C R} {Z : Nat} {be : Backend} {al : Allow} {w : World C R}
  {cfg : Config R} {q : Key} {d : Did} {m : Key → Option R} {collection rkey : Key}

/-- No record: RecordNotFound. -/
theorem C45_missing (hL : L.OK Z) (hr : Reach L be .untorn w) (hn : Names cfg be w q d) (hm : Shows L be w d m)
    (hk : m (pathOf collection rkey) = none) :
    ∃ w', Loaded w w' ∧ syncGetRecord cfg L be w q collection rkey = (w', .error (.xrpc "RecordNotFound")) := by
  obtain ⟨w', head, hv, co, t, l, bs, h1, -, -, -, -, -, -, -, -, -, -, -, -, h⟩ :=
    syncGetRecord_spec hL hr hn hm collection rkey
  have hp : collection ++ '/' :: rkey = pathOf collection rkey := rfl
  rw [hp, hk] at h
  exact ⟨w', h1, h⟩

/-- **C45 (what is in it, partial).** For every record of an active repo, the request succeeds. The root of the CAR file
is the repo's head; it has the head commit, the record and the root of the commit's tree, and nothing but blocks of the
repo, with the contents they have in storage, each once. Missing: the other nodes on the way to the record. -/
theorem C45_contents_partial (hL : L.OK Z) (hr : Reach L be .untorn w) (hn : Names cfg be w q d) (hm : Shows L be w d m)
    {r : R} (hk : m (pathOf collection rkey) = some r) :
    ∃ w' head co car, syncGetRecord cfg L be w q collection rkey = (w', .ok car) ∧ Loaded w w' ∧
      readHead L be w d = some head ∧ car.roots = [head] ∧ (head, .commit co) ∈ car.blocks ∧
      (L.hash (.record r), .record r) ∈ car.blocks ∧ (∃ x, (co.data, .node x) ∈ car.blocks) ∧
      (car.blocks.map (·.1)).Nodup ∧
      ∀ c v, (c, v) ∈ car.blocks → Inside w head c ∧ ∃ b, w.read c = some b ∧ b.val = v := by
  obtain ⟨w', head, hv, co, t, l, bs, h1, h2, rfl, ⟨b, h3, h4⟩, h5, h6, h7, h8, h9, h10, h11, h12, h13, h⟩ :=
    syncGetRecord_spec hL hr hn hm collection rkey
  have hp : collection ++ '/' :: rkey = pathOf collection rkey := rfl
  rw [hp, hk] at h
  obtain ⟨b', r1, r2⟩ := h10 _ r hk
  have hval : ∀ s ∈ nodes t, ∀ e ∈ (nodeOf L.env.H s).e, ∃ b r, w.read e.v = some b ∧ b.val = .record r := by
    intro s hs e he
    obtain ⟨k, hk⟩ := ser_vals he
    have hk' := (mem_leaves_iff h7 _ _).1 (leaves_of_node hs _ hk)
    rw [h9] at hk'
    obtain ⟨r, hr, hr'⟩ := Option.map_eq_some_iff.1 hk'
    obtain ⟨b, hb1, hb2⟩ := h10 k r hr
    exact ⟨b, r, by rw [← hr']; exact hb1, hb2⟩
  have hins := inside_iff (L := L) h3 h4 h5 h8 h6 hval
  have hnodes : ∀ c v, (c, v) ∈ bs → ∃ b x, w.read c = some b ∧ b.val = v ∧ v = .node x := by
    intro c v hcv
    obtain ⟨s, hs, rfl, rfl⟩ := h12 c v hcv
    obtain ⟨b, b1, b2⟩ := stored_read h8 hs
    exact ⟨b, _, b1, b2, rfl⟩
  have hrin : Inside w head (L.hash (.record r)) := by
    refine (hins _).2 (.inr ?_)
    -- the node that has the record
    have hleaf : (pathOf collection rkey, L.rcid r) ∈ leaves t := by
      rw [mem_leaves_iff h7, h9]
      exact congrArg (Option.map L.rcid) hk
    obtain ⟨s, hs, e, he, hev⟩ := leaf_node (H := L.env.H) hleaf
    exact ⟨s, hs, .inr ⟨e, he, hev.symm⟩⟩
  refine ⟨w', head, co, _, h, h1, h2, rfl, by simp, by simp, ⟨nodeOf L.env.H t, ?_⟩, ?_, ?_⟩
  · rw [h5]
    exact .tail _ (.tail _ (h13 t (.inl rfl)))
  · rw [List.map_cons, List.map_cons, List.nodup_cons, List.nodup_cons]
    refine ⟨?_, ?_, h11⟩
    · intro hx
      rcases List.mem_cons.1 hx with hx | hx
      · dsimp only at hx
        have r1 : w.read (L.hash (.record r)) = some b' := r1
        rw [hx, h3] at r1
        cases r1
        rw [h4] at r2
        cases r2
      · obtain ⟨⟨c, v⟩, y1, y2⟩ := List.mem_map.1 hx
        dsimp only at y2
        subst y2
        obtain ⟨b2, x, z1, z2, z3⟩ := hnodes _ v y1
        have r1 : w.read (L.hash (.record r)) = some b' := r1
        rw [z1] at r1
        cases r1
        rw [r2] at z2
        rw [z3] at z2
        cases z2
    · intro hx
      obtain ⟨⟨c, v⟩, y1, y2⟩ := List.mem_map.1 hx
      dsimp only at y2
      subst y2
      obtain ⟨b2, x, z1, z2, z3⟩ := hnodes _ v y1
      rw [h3] at z1
      cases z1
      rw [h4, z3] at z2
      cases z2
  · intro c v hcv
    rcases List.mem_cons.1 hcv with hcv | hcv
    · obtain ⟨rfl, rfl⟩ := Prod.mk.inj hcv
      exact ⟨hrin, b', r1, r2⟩
    rcases List.mem_cons.1 hcv with hcv | hcv
    · obtain ⟨rfl, rfl⟩ := Prod.mk.inj hcv
      exact ⟨.head, b, h3, h4⟩
    · obtain ⟨s, hs, rfl, rfl⟩ := h12 c v hcv
      exact ⟨(hins _).2 (.inr ⟨s, hs, .inl rfl⟩), stored_read h8 hs⟩

/-- **C45 (proof, partial).** If no record's path is between the name of the collection and that of the record, the CAR
file proves the record. Missing: the other records, for which it is false in general (`C45_false`). -/
theorem C45_proof_partial (hL : L.OK Z) (hr : Reach L be .untorn w) (hn : Names cfg be w q d) (hm : Shows L be w d m)
    {r : R} (hk : m (pathOf collection rkey) = some r)
    (hfirst : ∀ k, collection < k → k < pathOf collection rkey → m k = none) :
    ∃ w' head car, syncGetRecord cfg L be w q collection rkey = (w', .ok car) ∧ readHead L be w d = some head ∧
      Proves L car head (pathOf collection rkey) r := by
  obtain ⟨w', head, hv, co, t, l, bs, h1, h2, rfl, ⟨b, h3, h4⟩, h5, h6, h7, h8, h9, h10, h11, h12, h13, h⟩ :=
    syncGetRecord_spec hL hr hn hm collection rkey
  have hp : collection ++ '/' :: rkey = pathOf collection rkey := rfl
  rw [hp, hk] at h
  have hleaf : (pathOf collection rkey, L.rcid r) ∈ leaves t := by
    rw [mem_leaves_iff h7, h9]
    exact congrArg (Option.map L.rcid) hk
  have hlt : collection < pathOf collection rkey := by
    unfold pathOf
    exact lt_append_cons '/' rkey collection
  refine ⟨w', head, _, h, h2, rfl, co, by simp, by simp, ?_⟩
  rw [h5]
  refine leads_of_nodes (E := L.env) h6 (fun s hs hks => ?_) t (by simp [nodes]) hleaf
  refine .tail _ (.tail _ (h13 s ?_))
  simp only [nodes, List.mem_cons] at hs
  rcases hs with rfl | hs
  · exact .inl rfl
  refine .inr ⟨by simp [nodes, hs], ?_⟩
  obtain ⟨_, _, xs, ys, _, g2, _, _⟩ := spans_leaves (lo := none) (hi := none) hs
  refine ⟨xs, ys, g2, fun x hx => ?_, fun y hy => ?_⟩
  all_goals
    have hsort : (xs ++ leaves s ++ ys).Pairwise (fun a b : Key × C => a.1 < b.1) := g2 ▸ h7
    rw [List.pairwise_append, List.pairwise_append] at hsort
  · have hxk : x.1 < pathOf collection rkey := hsort.1.2.2 x hx _ hks
    by_contra hc
    have hmx : (x.1, x.2) ∈ leaves t := by rw [g2]; simp [hx]
    rw [mem_leaves_iff h7, h9] at hmx
    dsimp only at hmx
    rw [hfirst x.1 (lt_of_not_ge hc) hxk] at hmx
    cases hmx
  · have hyk : pathOf collection rkey < y.1 := hsort.2.2 _ (List.mem_append_right _ hks) y hy
    exact (hlt.trans hyk).le

/-- With `DatastoreStorage`, in every reachable state, whatever failed before. -/
theorem C45_proof_datastore_partial (hL : L.OK Z) (hr : Reach L .datastore al w) (hn : Names cfg .datastore w q d)
    (hm : Shows L .datastore w d m) {r : R} (hk : m (pathOf collection rkey) = some r)
    (hfirst : ∀ k, collection < k → k < pathOf collection rkey → m k = none) :
    ∃ w' head car, syncGetRecord cfg L .datastore w q collection rkey = (w', .ok car) ∧
      readHead L .datastore w d = some head ∧ Proves L car head (pathOf collection rkey) r :=
  C45_proof_partial hL (hr.datastore.weaken (al' := .untorn) (by exact fun h => h) (fun _ => trivial) (fun _ => trivial)
    (fun _ => trivial)) hn hm hk hfirst

/-! ### A case that meets the hypotheses -/

instance : DecidableEq (Key × List (Key × Val SC Nat)) :=
  haveI : DecidableEq (List (Key × Val SC Nat)) := inferInstance
  inferInstance

/-- Alice's records are `coll/a` and `coll/b`. -/
theorem exShows (be : Backend) : ∃ m, Shows exL be (exW1 be) exDid m ∧ m (pathOf "coll".toList "a".toList) = some 1 ∧
    ∀ k, m k ≠ none → k = pathOf "coll".toList "a".toList ∨ k = pathOf "coll".toList "b".toList := by
  have hr : Reach exL be .untorn (exW1 be) := (exW1_reach be).weaken (al' := .untorn)
    (by exact fun h => h) (fun _ => trivial) (fun _ => trivial) (fun _ => trivial)
  obtain ⟨m, hm⟩ : ∃ m, Shows exL be (exW1 be) exDid m := by
    obtain ⟨_, _, _, hb, _, _, _, _, m, _, _, _, _, _, _, _, _, _, _, _, _, _, h, _⟩ := (exNames be).tree exL_ok hr
    have hd : isDid exDid := by unfold isDid; decide +kernel
    have hc := (hr.inv exL_ok (fun h => h)).1.core
    rw [readHead_eq exL_ok hc hd] at h
    exact stored_shows exL_ok hc hd h
  obtain ⟨w1, s, o, h1, h2, h3⟩ := id hm
  have h : (match loadRepo be (exW1 be) exDid with
      | (w1, .ok (some s)) =>
        match w1.heap[s]? with
        | some o => match getContents exL w1 o with
          | .ok cs => some cs
          | .error _ => none
        | none => none
      | _ => none) = some [("coll".toList, [("a".toList, Val.record 1), ("b".toList, Val.record 2)])] := by
    cases be <;> decide +kernel
  obtain ⟨cs, c1, c2⟩ := h3.contents
  rw [h1] at h
  dsimp only at h
  rw [h2] at h
  dsimp only at h
  rw [c1] at h
  cases h
  refine ⟨m, hm, ?_, fun k hk => ?_⟩
  · have := c2 "coll".toList "a".toList
    unfold pathOf
    cases hv : m ("coll".toList ++ '/' :: "a".toList) with
    | none => rw [hv] at this; exact absurd this (by decide +kernel)
    | some v =>
      rw [hv] at this
      have h' : ((dictGet [("coll".toList, [("a".toList, (Val.record 1 : Val SC Nat)), ("b".toList, Val.record 2)])]
        "coll".toList).bind (dictGet · "a".toList)) = some (.record 1) := by decide +kernel
      rw [h'] at this
      cases this
      rfl
  · obtain ⟨_, a, b, rfl, _⟩ := h3.paths k hk
    have := c2 a b
    obtain ⟨v, hv⟩ := Option.ne_none_iff_exists'.1 hk
    rw [hv] at this
    simp only [dictGet] at this
    by_cases ha : "coll".toList = a
    · subst ha
      rw [if_pos rfl, Option.bind_some] at this
      simp only [dictGet] at this
      by_cases hb : "a".toList = b
      · subst hb; exact .inl rfl
      · rw [if_neg hb] at this
        by_cases hb : "b".toList = b
        · subst hb; exact .inr rfl
        · rw [if_neg hb] at this; cases this
    · rw [if_neg ha] at this
      cases this

example (be : Backend) : ∃ w' head car,
    syncGetRecord exCfg exL be (exW1 be) exHandle "coll".toList "a".toList = (w', .ok car) ∧
      readHead exL be (exW1 be) exDid = some head ∧ Proves exL car head (pathOf "coll".toList "a".toList) 1 := by
  have hr : Reach exL be .untorn (exW1 be) := (exW1_reach be).weaken (al' := .untorn)
    (by exact fun h => h) (fun _ => trivial) (fun _ => trivial) (fun _ => trivial)
  obtain ⟨m, hm, h1, h2⟩ := exShows be
  refine C45_proof_partial exL_ok hr (exNames be) hm h1 (fun k _ hk2 => ?_)
  by_contra hk
  rcases h2 k hk with rfl | rfl
  · exact absurd hk2 (lt_irrefl _)
  · exact absurd hk2 (by decide +kernel)

/-! ### The counterexample -/

/-- A third record, `coll/c`. -/
def exThree (be : Backend) : ExWorld :=
  (commit exL be (exW1 be) 0 [wr .create "c" (some 3)] none lucky false).1

theorem exThree_reach (be : Backend) : Reach exL be .orderly (exThree be) := by
  refine .step (exW1_reach be) (.commit 0 _ lucky false ⟨.inr (.of_ok ?_), ?_, ?_, .inr rfl⟩)
  · cases be <;> decide +kernel
  · right; decide
  · right; cases be <;> decide +kernel

omit [DecidableEq C] in
theorem Leads.node {car : Car C R} {path : Key} {cid c : C} (h : Leads car path cid c) :
    ∃ c' x, (c', .node x) ∈ car.blocks ∧ (path, cid) ∈ nodeRecords [] x.e := by
  induction h with
  | here h hr => exact ⟨_, _, h, hr⟩
  | left _ _ _ ih => exact ih
  | tree _ _ _ _ ih => exact ih

/-- **C45 is false**: of the three records `coll/a`, `coll/b` and `coll/c`, where the second is on a higher layer, the
answer for the last one does not have the node that the record is in. -/
theorem C45_false (be : Backend) : Reach exL be .orderly (exThree be) ∧
    exGet be (exThree be) "c" = .ok ⟨"at://did:plc:alice/coll/c".toList, .record 3, .record 3⟩ ∧
    ∃ w' car, syncGetRecord exCfg exL be (exThree be) exHandle "coll".toList "c".toList = (w', .ok car) ∧
      ∀ head, ¬ Proves exL car head (pathOf "coll".toList "c".toList) 3 := by
  refine ⟨exThree_reach be, by cases be <;> decide +kernel, ?_⟩
  have h : (match (syncGetRecord exCfg exL be (exThree be) exHandle "coll".toList "c".toList).2 with
      | .ok car => car.blocks.all fun x => match x.2 with
        | .node d => !(nodeRecords [] d.e).contains (pathOf "coll".toList "c".toList, SC.record 3)
        | _ => true
      | .error _ => false) = true := by
    cases be <;> decide +kernel
  cases hres : syncGetRecord exCfg exL be (exThree be) exHandle "coll".toList "c".toList with
  | mk w' res =>
    rw [hres] at h
    cases res with
    | error e => cases h
    | ok car =>
      refine ⟨w', car, rfl, ?_⟩
      rintro head ⟨_, co, _, _, hl⟩
      obtain ⟨c', x, h1, h2⟩ := hl.node
      have := List.all_eq_true.1 h _ h1
      simp only [Bool.not_eq_true', List.contains_eq_mem, decide_eq_false_iff_not] at this
      exact this h2

end Arroba.Xrpc
