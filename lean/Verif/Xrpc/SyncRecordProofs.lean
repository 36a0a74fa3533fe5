import Verif.Xrpc.SyncRecord
import Verif.Xrpc.RecordSpec
import Verif.Xrpc.GetRepoProofs
import Verif.Mst.CoverRead
import Verif.Mst.CovProofs3

/-! Helper lemmas: what `com.atproto.sync.getRecord` answers. -/

namespace Arroba.Xrpc

open Arroba.Store Arroba.Tree

variable {C R : Type} [DecidableEq C] {L : Lib C R} {Z : Nat} {be : Backend} {al : Allow}
  {w : World C R} {cfg : Config R}

omit [DecidableEq C] in
/-- A record of a tree is in its root node or in a child. -/
theorem nodeRecords_ser {H : NodeData C → C} {k : Key} {v : C} : ∀ {t : Tree C} (last : Key), (k, v) ∈ leaves t →
    (k, v) ∈ nodeRecords last ((ser H t).2 last) ∨ ∃ s ∈ subs t, (k, v) ∈ leaves s := by
  intro t
  induction t with
  | nil => intro last h; cases h
  | leaf k' v' r ih =>
    intro last h
    have hk : last.take (commonPrefixLen last k') ++ k'.drop (commonPrefixLen last k') = k' := by
      exact commonPrefixLen_recover _ _
    simp only [ser, nodeRecords, hk, List.mem_cons]
    simp only [leaves, List.mem_cons] at h
    rcases h with h | h
    · exact .inl (.inl h)
    · rcases ih k' h with h | ⟨s, hs, h⟩
      · exact .inl (.inr h)
      · exact .inr ⟨s, by simpa [subs] using hs, h⟩
  | sub c r _ ih =>
    intro last h
    simp only [leaves, List.mem_append] at h
    rcases h with h | h
    · exact .inr ⟨c, by simp [subs], h⟩
    · rcases ih last h with h | ⟨s, hs, h⟩
      · exact .inl h
      · exact .inr ⟨s, by simp [subs, hs], h⟩

omit [DecidableEq C] in
theorem nodeRecords_mem {k : Key} {v : C} : ∀ {es : List (EntryData C)} {last : Key}, (k, v) ∈ nodeRecords last es →
    ∃ e ∈ es, e.v = v
  | [], _, h => by cases h
  | e :: es, last, h => by
    simp only [nodeRecords, List.mem_cons] at h
    rcases h with h | h
    · exact ⟨e, .head _, (Prod.mk.inj h).2.symm⟩
    · obtain ⟨e', h1, h2⟩ := nodeRecords_mem h
      exact ⟨e', .tail _ h1, h2⟩

/-- The node that has a record. -/
theorem leaf_node {H : NodeData C → C} {k : Key} {v : C} : ∀ {t : Tree C}, (k, v) ∈ leaves t →
    ∃ s ∈ nodes t, ∃ e ∈ (nodeOf H s).e, e.v = v := by
  intro t
  induction hk : (kids t).length using Nat.strong_induction_on generalizing t with
  | _ n ih =>
    intro h
    rcases nodeRecords_ser (H := H) [] h with h | ⟨s, hs, h⟩
    · obtain ⟨e, h1, h2⟩ := nodeRecords_mem h
      exact ⟨t, by simp [nodes], e, h1, h2⟩
    · obtain ⟨u, h1, h2⟩ := ih _ (hk ▸ kids_length (subs_kids hs)) (t := s) rfl h
      exact ⟨u, nodes_trans (by simp [nodes, subs_kids hs]) h1, h2⟩

theorem lt_append_cons (c : Char) (k : Key) : ∀ l : Key, l < l ++ c :: k
  | [] => List.nil_lt_cons _ _
  | a :: l => by
    rw [List.cons_append, List.cons_lt_cons_iff]
    exact .inr ⟨rfl, lt_append_cons c k l⟩

/-- If all nodes that have the record below them are in `car`, it can be traced. -/
theorem leads_of_nodes {E : Env C} {t : Tree C} {l : Nat} (hw : WF E.zeros l t) {car : Car C R} {k : Key} {v : C}
    (h : ∀ s ∈ nodes t, (k, v) ∈ leaves s → (cidOf E.H s, .node (nodeOf E.H s)) ∈ car.blocks) :
    ∀ s ∈ nodes t, (k, v) ∈ leaves s → Leads car k v (cidOf E.H s) := by
  intro s
  induction hk : (kids s).length using Nat.strong_induction_on generalizing s with
  | _ n ih =>
    intro hs hkv
    have hcar := h s hs hkv
    rcases nodeRecords_ser (H := E.H) [] hkv with hr | ⟨u, hu, hkv'⟩
    · exact .here hcar hr
    · have hut : u ∈ nodes t := nodes_trans hs (by simp [nodes, subs_kids hu])
      obtain ⟨ls, hws⟩ := WF_nodes hw s hs
      have hl := ih _ (hk ▸ kids_length (subs_kids hu)) u rfl hut hkv'
      have hc := subs_children (E := E) hws hu
      simp only [NodeData.children, List.mem_append, Option.mem_toList, List.mem_filterMap] at hc
      rcases hc with hc | ⟨e, he, hc⟩
      · exact .left hcar hc hl
      · exact .tree hcar he hc hl

/-- The tree of a repo that is known by a name. -/
theorem Names.tree (hL : L.OK Z) (hr : Reach L be .untorn w) {q : Key} {d : Did} (hn : Names cfg be w q d) :
    ∃ w1 r o hb hb' co t l m, Xrpc.load cfg be w q = (w1, .ok r) ∧ w1.heap[r]? = some o ∧ Loaded w w1 ∧
      o.head = some hb ∧ hb.val = .commit co ∧ w.read (L.hash hb.val) = some hb' ∧ hb'.val = hb.val ∧
      co.data = cidOf L.env.H t ∧ WF L.zeros l t ∧ l ≤ Z ∧ Stored L.env (nodeIn w.blocks) t ∧ TreeOK L Z w.blocks t m ∧
      getPointer L.env w1.rd L.fuel o.mst = .ok (cidOf L.env.H t) ∧ readHead L be w d = some (L.hash hb.val) ∧
      ObjShows L w1 o m ∧ ∀ m', Shows L be w d m' → m' = m := by
  obtain ⟨_, name, k1, k2, k3⟩ := hn
  rcases load_spec (cfg := cfg) (hr.plain hL).1.core k1 k2 with
    ⟨_, h4⟩ | ⟨d', st, w1, r, o, g1, g2, g3, g4, g5, g6, g7⟩
  · exact absurd ((k3 d none).2 ⟨rfl, rfl⟩) (h4 d none)
  obtain ⟨rfl, rfl⟩ := (k3 d' st).1 g1
  rw [if_pos rfl] at g7
  obtain ⟨g8, hdid⟩ := loadRepo_did hL hr g2 g3 g4
  have hr1 : Reach L be .untorn w1 := by
    have := Step.loadRepo (L := L) (be := be) (al := .untorn) (w := w) name
    rw [g2] at this
    exact .step hr this
  have hc := (hr.inv hL (fun h => h)).1.core
  obtain ⟨m, hm⟩ := (hr1.inv hL (fun h => h)).1.core.heap r o g3
  have hshow := hm.shows hL
  rw [g6.blocks] at hm
  obtain ⟨⟨l, t, i1, i2, i3⟩, _⟩ := hm
  obtain ⟨hb, co, j1, j2, j3⟩ := did_some g4
  obtain ⟨hb', co', j4, j5, j6, j7⟩ := i3 hb j1
  rw [j2] at j6
  cases j6
  obtain ⟨m', t', t1, t2, t3⟩ := hc.blocks.root j4 (j5.trans j2)
  obtain ⟨l', hl', hw'⟩ := t1.wf
  have : t' = t := cid_unique hL hw' i1.wf (t3.trans j7)
  subst this
  have hrd : w1.rd = nodeIn w.blocks := by unfold World.rd; rw [g6.blocks]
  have hp : getPointer L.env w1.rd L.fuel o.mst = .ok (cidOf L.env.H t') := by
    rw [hrd]
    have := hL.fuel
    have := i1.bound
    exact getPointer_spec i1.repr i1.wf i1.valid (by omega)
  refine ⟨w1, r, o, hb, hb', co, t', l, m, g7, g3, g6, j1, j2, j4, j5, j7, i1.wf, i1.bound, t2, i2, hp, ?_, hshow, ?_⟩
  · unfold readHead
    rw [g8]
    dsimp only
    rw [g3, Option.bind_some, j1]
    rfl
  · rintro m'' ⟨w2, s, o2, p1, p2, p3⟩
    rw [g8] at p1
    cases p1
    rw [g3] at p2
    cases p2
    exact p3.unique hshow

theorem proofBlocks_ok {w' : World C R} {P : C → Prop} (ha : ∀ c b, w'.read c = some b → L.hash b.val = c) :
    ∀ {B : Blocks C (Block C R)}, (∀ c v, (c, v) ∈ B → v = w'.read c ∧ P c) → (∀ c, P c → (w'.read c).isSome) →
    ∃ bs, proofBlocks L B = .ok bs ∧ bs.map (·.1) = B.map (·.1) ∧
      ∀ c v, (c, v) ∈ bs ↔ ∃ b, (c, some b) ∈ B ∧ b.val = v
  | [], _, _ => ⟨[], rfl, rfl, fun c v => by simp⟩
  | (c, v) :: B, h, hP => by
    obtain ⟨bs, h1, h2, h3⟩ := proofBlocks_ok ha (B := B) (fun c v hm => h c v (.tail _ hm)) hP
    obtain ⟨rfl, hc⟩ := h c v (.head _)
    obtain ⟨b, hb⟩ := Option.isSome_iff_exists.1 (hP c hc)
    refine ⟨(c, b.val) :: bs, ?_, by simp [h2], fun c' v' => ?_⟩
    · rw [hb]
      unfold proofBlocks
      rw [h1, ok_bind, ha c b hb]
    · rw [hb, List.mem_cons, h3]
      constructor
      · rintro (h | ⟨b', h, h'⟩)
        · obtain ⟨rfl, rfl⟩ := Prod.mk.inj h
          exact ⟨b, .head _, rfl⟩
        · exact ⟨b', .tail _ h, h'⟩
      · rintro ⟨b', h, h'⟩
        rcases List.mem_cons.1 h with h | h
        · obtain ⟨rfl, h⟩ := Prod.mk.inj h
          cases h
          exact .inl (by rw [h'])
        · exact .inr ⟨b', h, h'⟩

/-- What `com.atproto.sync.getRecord` answers. -/
theorem syncGetRecord_spec (hL : L.OK Z) (hr : Reach L be .untorn w) {q : Key} {d : Did} (hn : Names cfg be w q d)
    {m : Key → Option R} (hm : Shows L be w d m) (collection rkey : Key) :
    ∃ w' head hv co t l bs, Loaded w w' ∧ readHead L be w d = some head ∧ hv = Val.commit co ∧
      (∃ b, w.read head = some b ∧ b.val = hv) ∧ co.data = cidOf L.env.H t ∧ WF L.zeros l t ∧ Sorted t ∧
      Stored L.env (nodeIn w.blocks) t ∧ (dictGet (leaves t) = fun k => (m k).map L.rcid) ∧
      (∀ k r, m k = some r → ∃ b, w.read (L.rcid r) = some b ∧ b.val = .record r) ∧
      (bs.map (·.1)).Nodup ∧
      (∀ c v, (c, v) ∈ bs → ∃ s ∈ nodes t, c = cidOf L.env.H s ∧ v = .node (nodeOf L.env.H s)) ∧
      (∀ s, s = t ∨ Beside t collection s → (cidOf L.env.H s, .node (nodeOf L.env.H s)) ∈ bs) ∧
      syncGetRecord cfg L be w q collection rkey = (w', match m (collection ++ '/' :: rkey) with
        | none => .error (.xrpc "RecordNotFound")
        | some r => .ok ⟨[head], (L.hash (.record r), .record r) :: (head, hv) :: bs⟩) := by
  obtain ⟨w1, r, o, hb, hb', co, t, l, m', h1, h2, h3, h4, h5, h6, h7, h8, h9, hlZ, h10, h11, h12, h13, h14, h15⟩ :=
    hn.tree hL hr
  obtain rfl := h15 m hm
  have hread : ∀ c, w1.read c = w.read c := by intro c; unfold World.read; rw [h3.blocks]
  have hnode : ∀ s ∈ nodes t, (w1.read (cidOf L.env.H s)).bind asNode = some (nodeOf L.env.H s) := by
    intro s hs
    obtain ⟨b, b1, b2⟩ := stored_read h10 hs
    rw [hread, b1, Option.bind_some, asNode, b2]
  have hfuel := hL.fuel
  have hg : Good L.env w1.read asNode t ([] : Blocks C (Block C R)) := ⟨hnode, fun s hs hd => by simp [dictGet] at hd⟩
  obtain ⟨B, a1, _, _, a4⟩ := addCoveringProofs_spec (f := L.fuel) (ps := [collection]) h9 h11.sorted (by omega) hg
  have hP : Closed w1.read (asNode (C := C) (R := R)) (fun c => ∃ s ∈ nodes t, c = cidOf L.env.H s) := by
    rintro c ⟨s, hs, rfl⟩ d' hd x hx
    rw [hnode s hs] at hd
    cases hd
    obtain ⟨u, hu, rfl⟩ := children_subs hx
    exact ⟨u, nodes_trans hs (by simp [nodes, subs_kids hu]), rfl⟩
  obtain ⟨f1, f2⟩ := addCoveringProofs_from hP (fun _ h => h) ⟨t, by simp [nodes], rfl⟩ (B := []) ⟨by simp, by simp⟩ a1
  have haddr : ∀ c b, w1.read c = some b → L.hash b.val = c := by
    intro c b hcb
    rw [hread] at hcb
    exact (hr.addressed c b hcb)
  obtain ⟨bs, p1, p2, p3⟩ := proofBlocks_ok (L := L) haddr f2 (fun c hc => by
    obtain ⟨s, hs, rfl⟩ := hc
    obtain ⟨b, b1, _⟩ := stored_read h10 hs
    rw [hread, b1]
    rfl)
  refine ⟨w1, L.hash hb.val, hb.val, co, t, l, bs, h3, h13, h5, ⟨hb', h6, h7⟩, h8, h9, h11.sorted, h10, h11.map,
    fun k r hk => h11.recs k r hk, by rw [p2]; exact f1, ?_, ?_, ?_⟩
  · intro c v hv
    obtain ⟨b, hb1, rfl⟩ := (p3 c v).1 hv
    obtain ⟨e1, s, hs, rfl⟩ := f2 c _ hb1
    refine ⟨s, hs, rfl, ?_⟩
    obtain ⟨b', b1, b2⟩ := stored_read h10 hs
    rw [hread, b1] at e1
    cases e1
    exact b2
  · intro s hs
    have hk : Knows L.env asNode B s := by
      rcases hs with rfl | hs
      · exact (a4 collection (by simp)).1
      · rcases hs.span h9 h11.sorted with rfl | ⟨a, b, x1, x2⟩
        · exact (a4 collection (by simp)).1
        · exact (a4 collection (by simp)).2 _ x1 x2
    unfold Knows readOnly coverGet at hk
    dsimp only at hk
    cases hd : dictGet B (cidOf L.env.H s) with
    | none => rw [hd] at hk; cases hk
    | some v =>
      rw [hd] at hk
      cases v with
      | none => cases hk
      | some v =>
        refine (p3 _ _).2 ⟨v, dictGet_mem hd, ?_⟩
        have hk : asNode v = some (nodeOf L.env.H s) := hk
        unfold asNode at hk
        cases hv : v.val with
        | node d' => rw [hv] at hk; cases hk; rfl
        | _ => rw [hv] at hk; cases hk
  · unfold syncGetRecord
    rw [h1]
    dsimp only
    rw [h2]
    dsimp only
    rw [h14.get]
    cases hp : m (collection ++ '/' :: rkey) with
    | none => rfl
    | some v =>
      dsimp only [Option.map_some]
      rw [h12]
      dsimp only
      rw [a1]
      dsimp only
      rw [p1, h4]

end Arroba.Xrpc
