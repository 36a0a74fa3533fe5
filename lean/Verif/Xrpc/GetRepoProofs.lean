import Verif.Xrpc.ExportProofs
import Verif.Xrpc.ExportSpec
import Verif.Xrpc.CrudProofs
import Verif.Storage.FreshProofs

/-! Helper lemmas: what `getRepo` answers. -/

namespace Arroba.Xrpc

open Arroba.Store Arroba.Tree

variable {C R : Type} [DecidableEq C] {L : Lib C R} {Z : Nat} {be : Backend} {al : Allow}
  {w : World C R} {cfg : Config R}

/-! ### The blocks of a repo and its tree -/

theorem stored_read {t s : Tree C} (h : Stored L.env (nodeIn w.blocks) t)
    (hs : s ∈ nodes t) : ∃ b, w.read (cidOf L.env.H s) = some b ∧ b.val = .node (nodeOf L.env.H s) := by
  have := h s hs
  simp only [nodeIn] at this
  unfold World.read
  cases hg : dictGet w.blocks (cidOf L.env.H s) with
  | none => rw [hg] at this; cases this
  | some b =>
    rw [hg] at this
    obtain ⟨v, q, p, d⟩ := b
    cases v with
    | node x => simp only [Option.some.injEq] at this; exact ⟨_, rfl, by rw [this]⟩
    | _ => cases this

/-- What is inside a repo is its head commit, the nodes of the tree and the records in them. -/
theorem inside_iff {head : C} {hb : Block C R} {co : Commit C} {t : Tree C} {l : Nat}
    (hread : w.read head = some hb) (hval : hb.val = .commit co) (hroot : co.data = cidOf L.env.H t)
    (hst : Stored L.env (nodeIn w.blocks) t) (hwf : WF L.zeros l t)
    (hrec : ∀ s ∈ nodes t, ∀ e ∈ (nodeOf L.env.H s).e, ∃ b r, w.read e.v = some b ∧ b.val = .record r)
    (c : C) : Inside w head c ↔ c = head ∨ ∃ s ∈ nodes t, c = cidOf L.env.H s ∨
      ∃ e ∈ (nodeOf L.env.H s).e, c = e.v := by
  constructor
  · have hnode : ∀ {c b d}, (c = head ∨ ∃ s ∈ nodes t, c = cidOf L.env.H s ∨
        ∃ e ∈ (nodeOf L.env.H s).e, c = e.v) → w.read c = some b → b.val = .node d →
        ∃ s ∈ nodes t, d = nodeOf L.env.H s := by
      rintro c b d (rfl | ⟨s, hs, rfl | ⟨e, he, rfl⟩⟩) h1 h2
      · rw [hread] at h1; cases h1; rw [hval] at h2; cases h2
      · obtain ⟨b', g1, g2⟩ := stored_read hst hs
        rw [h1] at g1
        cases g1
        rw [h2] at g2
        cases g2
        exact ⟨s, hs, rfl⟩
      · obtain ⟨b', r, g1, g2⟩ := hrec s hs e he
        rw [h1] at g1
        cases g1
        rw [h2] at g2
        cases g2
    have hchild : ∀ {s c}, s ∈ nodes t → c ∈ (nodeOf L.env.H s).children →
        ∃ s ∈ nodes t, c = cidOf L.env.H s := by
      intro s c hs hc
      obtain ⟨u, hu, rfl⟩ := children_subs hc
      exact ⟨u, nodes_trans hs (by simp [nodes, subs_kids hu]), rfl⟩
    intro h
    induction h with
    | head => exact .inl rfl
    | root h hv =>
      rw [hread] at h
      cases h
      rw [hval] at hv
      cases hv
      exact .inr ⟨t, by simp [nodes], .inl hroot⟩
    | @left c c' b d hi h hv hc ih =>
      obtain ⟨s, hs, rfl⟩ := hnode ih h hv
      obtain ⟨u, hu, rfl⟩ := hchild (c := c') hs (by simp [NodeData.children, hc])
      exact .inr ⟨u, hu, .inl rfl⟩
    | @tree c c' b d e hi h hv he hc ih =>
      obtain ⟨s, hs, rfl⟩ := hnode ih h hv
      obtain ⟨u, hu, rfl⟩ := hchild (c := c') hs (by
        simp only [NodeData.children, List.mem_append, List.mem_filterMap]
        exact .inr ⟨_, he, hc⟩)
      exact .inr ⟨u, hu, .inl rfl⟩
    | record hi h hv he ih =>
      obtain ⟨s, hs, rfl⟩ := hnode ih h hv
      exact .inr ⟨s, hs, .inr ⟨_, he, rfl⟩⟩
  · have hn : ∀ s ∈ nodes t, Inside w head (cidOf L.env.H s) := by
      -- from the root down
      suffices h : ∀ (u : Tree C), u ∈ nodes t → Inside w head (cidOf L.env.H u) →
          ∀ s ∈ kids u, Inside w head (cidOf L.env.H s) by
        intro s hs
        have h0 : Inside w head (cidOf L.env.H t) := hroot ▸ .root hread hval
        rcases List.mem_cons.1 hs with rfl | hs
        · exact h0
        · exact h t (by simp [nodes]) h0 s hs
      intro u
      induction hk : (kids u).length using Nat.strong_induction_on generalizing u with
      | _ k ih =>
        intro hu hi s hs
        obtain ⟨x, hx, hsx⟩ := kids_subs hs
        obtain ⟨lu, hwu⟩ := WF_nodes hwf u hu
        have hxt : x ∈ nodes t := nodes_trans hu (by simp [nodes, subs_kids hx])
        have hxi : Inside w head (cidOf L.env.H x) := by
          have hc := subs_children (E := L.env) hwu hx
          obtain ⟨b, g1, g2⟩ := stored_read hst hu
          simp only [NodeData.children, List.mem_append, Option.mem_toList, List.mem_filterMap] at hc
          rcases hc with hc | ⟨e, he, hc⟩
          · exact .left hi g1 g2 hc
          · exact .tree hi g1 g2 he hc
        rcases List.mem_cons.1 hsx with rfl | hsx
        · exact hxi
        · exact ih _ (hk ▸ kids_length (subs_kids hx)) x rfl hxt hxi s hsx
    rintro (rfl | ⟨s, hs, rfl | ⟨e, he, rfl⟩⟩)
    · exact .head
    · exact hn s hs
    · obtain ⟨b, g1, g2⟩ := stored_read hst hs
      exact .record (hn s hs) g1 g2 he

/-- Blocks are never older than what they link to, unless they were imported. -/
theorem kids_seq {seq : Nat} (hna : ∀ c b, w.read c = some b → b.seq ≠ 0) (hb : BlocksOK L Z seq w.blocks) {t : Tree C} {l : Nat}
    (hst : Stored L.env (nodeIn w.blocks) t) (hwf : WF L.zeros l t) :
    ∀ s ∈ nodes t, ∀ u ∈ kids s, seqAt w (cidOf L.env.H u) ≤ seqAt w (cidOf L.env.H s) := by
  intro s
  induction hk : (kids s).length using Nat.strong_induction_on generalizing s with
  | _ k ih =>
    intro hs u hu
    obtain ⟨x, hx, hux⟩ := kids_subs hu
    obtain ⟨ls, hws⟩ := WF_nodes hwf s hs
    have hxt : x ∈ nodes t := nodes_trans hs (by simp [nodes, subs_kids hx])
    have hle : seqAt w (cidOf L.env.H x) ≤ seqAt w (cidOf L.env.H s) := by
      obtain ⟨b, g1, g2⟩ := stored_read hst hs
      obtain ⟨b', g3, g4⟩ := hb.links _ b _ g1 g2 (cidOf L.env.H x)
        (List.mem_append_left _ (subs_children (E := L.env) hws hx))
      have g3' : w.read (cidOf L.env.H x) = some b' := g3
      simp only [seqAt, g1, g3', Option.map_some, Option.getD_some]
      exact g4 (hna _ _ g1)
    rcases List.mem_cons.1 hux with rfl | hux
    · exact hle
    · exact (ih _ (hk ▸ kids_length (subs_kids hx)) x rfl hxt u hux).trans hle

/-- What `getRepo` answers. -/
theorem getRepo_spec (hL : L.OK Z) (ht : ¬ al.torn) (hr : Reach L be al w)
    {ord : Nat → List (Raw C R) → List (Raw C R)} (hord : ∀ f l, (ord f l).Perm l) {g : Gate}
    (hg : g.closed = false) {q : Key} {d : Did} (hn : Names cfg be w q d) {since : Option Key}
    {start : Int} (hs : sinceSeq since = .ok start) (him : al.imports → start ≤ 0) :
    ∃ w' head hv rest, getRepo cfg L be ord g w q since = (w', .ok ⟨[head], (head, hv) :: rest⟩) ∧
      Loaded w w' ∧ readHead L be w d = some head ∧ (∃ b, w.read head = some b ∧ b.val = hv) ∧
      (head :: rest.map (·.1)).Nodup ∧
      (∀ c v, (c, v) ∈ rest ↔ c ≠ head ∧ Inside w head c ∧ (∃ b, w.read c = some b ∧ b.val = v ∧
        ((∃ d, v = .node d ∧ start ≤ b.seq) ∨ Recent w head start c))) ∧
      (∀ c b, Inside w head c → w.read c = some b → start ≤ b.seq → c ≠ head → (c, b.val) ∈ rest) := by
  obtain ⟨_, name, k1, k2, k3⟩ := hn
  rcases load_spec (cfg := cfg) (hr.plain hL).1.core k1 k2 with
    ⟨_, h4⟩ | ⟨d', st, w1, r, o, g1, g2, g3, g4, g5, g6, g7⟩
  · exact absurd ((k3 d none).2 ⟨rfl, rfl⟩) (h4 d none)
  obtain ⟨rfl, rfl⟩ := (k3 d' st).1 g1
  obtain ⟨g8, hdid⟩ := loadRepo_did hL hr g2 g3 g4
  have hr1 : Reach L be al w1 := by
    have := Step.loadRepo (L := L) (be := be) (al := al) (w := w) name
    rw [g2] at this
    exact .step hr this
  have hc := (hr.inv hL ht).1.core
  obtain ⟨m, hm⟩ := (hr1.inv hL ht).1.core.heap r o g3
  rw [g6.blocks] at hm
  obtain ⟨⟨l, t, i1, i2, i3⟩, _⟩ := hm
  obtain ⟨hb, co, j1, j2, j3⟩ := did_some g4
  obtain ⟨hb', co', j4, j5, j6, j7⟩ := i3 hb j1
  rw [j2] at j6
  cases j6
  -- the tree is completely stored
  obtain ⟨m', t', t1, t2, t3⟩ := hc.blocks.root j4 (j5.trans j2)
  obtain ⟨l', hl', hw'⟩ := t1.wf
  have : t' = t := cid_unique hL hw' i1.wf (t3.trans j7)
  subst this
  have hrd : w1.rd = nodeIn w.blocks := by unfold World.rd; rw [g6.blocks]
  have hp : getPointer L.env w1.rd L.fuel o.mst = .ok (cidOf L.env.H t') := by
    rw [hrd]
    have := hL.fuel
    have := i1.bound
    exact getPointer_spec i1.repr i1.wf i1.valid (by omega)
  have hread : ∀ c, w1.read c = w.read c := by intro c; unfold World.read; rw [g6.blocks]
  have hseq : ∀ c, seqAt w1 c = seqAt w c := fun c => by unfold seqAt; rw [hread]
  have hval : ∀ s ∈ nodes t', ∀ e ∈ (nodeOf L.env.H s).e, ∃ b r, w.read e.v = some b ∧
      b.val = .record r := by
    intro s hs e he
    obtain ⟨k, hk⟩ := ser_vals he
    have hk' := (mem_leaves_iff t1.sorted _ _).1 (leaves_of_node hs _ hk)
    rw [t1.map] at hk'
    obtain ⟨r, hr, hr'⟩ := Option.map_eq_some_iff.1 hk'
    obtain ⟨b, hb1, hb2⟩ := t1.recs k r hr
    exact ⟨b, r, by rw [← hr']; exact hb1, hb2⟩
  have hflat : ([t'] : List (Tree C)).flatMap nodes = nodes t' := by simp
  have hna : ¬ al.imports → ∀ c b, w.read c = some b → b.seq ≠ 0 := fun hi c b h => by
    have := hr.native hL hi h
    omega
  have hkids : ∀ s ∈ nodes t', ∀ u ∈ kids s, start ≤ seqAt w (cidOf L.env.H u) →
      start ≤ seqAt w (cidOf L.env.H s) := by
    intro s hs u hu h
    by_cases hi : al.imports
    · have := him hi
      omega
    · have := kids_seq (hna hi) hc.blocks t2 i1.wf s hs u hu
      omega
  obtain ⟨ys, zs, y1, y2, y3, y4⟩ := loadAllLoop_spec (w := w1) (H := L.env.H) (start := start)
    (z := L.zeros) (be := be) (ord := ord) hord (f := L.fuel) (ts := [t'])
    (fetch := [cidOf L.env.H t']) (records := []) (.refl _)
    (by rw [hflat]; exact cids_nodup hL.nodeInj i1.wf i1.sorted)
    (by
      rw [hflat]
      intro s hs
      rw [hread]
      exact stored_read t2 hs)
    (by
      intro s hs
      rw [List.mem_singleton] at hs
      subst hs
      have := hL.fuel
      have := i1.bound
      exact ⟨l, by omega, i1.wf⟩)
    (by
      rw [hflat]
      intro s hs e he
      obtain ⟨b, _, hb, _⟩ := hval s hs e he
      rw [hread, hb]; rfl)
    (by intro c hc; cases hc)
    (by
      rw [hflat]
      intro s hs u hu
      rw [hseq, hseq]
      exact hkids s hs u hu)
  rw [hflat] at y2 y4
  have hkeep : ∀ s, keep L.env.H w1 start s = keep L.env.H w start s := fun s => by
    unfold keep; rw [hseq]
  -- the head
  set head := L.hash hb.val with hhead
  have hhr : w.read head = some hb' := j4
  have hins := inside_iff (L := L) hhr (j5.trans j2) j7 t2 i1.wf hval
  have hnc : ∀ {s}, s ∈ nodes t' → cidOf L.env.H s ≠ head := by
    intro s hs he
    obtain ⟨b, h1, h2⟩ := stored_read t2 hs
    rw [he, hhr] at h1
    cases h1
    rw [j5, j2] at h2
    cases h2
  have hvc : ∀ {s}, s ∈ nodes t' → ∀ e ∈ (nodeOf L.env.H s).e, e.v ≠ head := by
    intro s hs e he h
    obtain ⟨b, r, h1, h2⟩ := hval s hs e he
    rw [h, hhr] at h1
    cases h1
    rw [j5, j2] at h2
    cases h2
  have hym : ∀ c v, (c, v) ∈ ys ↔ ∃ s ∈ nodes t', start ≤ seqAt w (cidOf L.env.H s) ∧
      c = cidOf L.env.H s ∧ v = .node (nodeOf L.env.H s) := by
    intro c v
    rw [y2.mem_iff, List.mem_map]
    constructor
    · rintro ⟨s, hs, he⟩
      obtain ⟨rfl, rfl⟩ := Prod.mk.inj he
      obtain ⟨h1, h2⟩ := List.mem_filter.1 hs
      rw [hkeep, keep, decide_eq_true_eq] at h2
      exact ⟨s, h1, h2, rfl, rfl⟩
    · rintro ⟨s, h1, h2, rfl, rfl⟩
      refine ⟨s, List.mem_filter.2 ⟨h1, ?_⟩, rfl⟩
      rw [hkeep, keep, decide_eq_true_eq]
      exact h2
  have hzm : ∀ c v, (c, v) ∈ zs ↔ (∃ b, w.read c = some b ∧ b.val = v) ∧ ∃ s ∈ nodes t',
      start ≤ seqAt w (cidOf L.env.H s) ∧ ∃ e ∈ (nodeOf L.env.H s).e, c = e.v := by
    intro c v
    rw [y4, hread]
    refine and_congr_right fun _ => ⟨?_, ?_⟩
    · rintro (h | ⟨s, h1, h2, h3⟩)
      · cases h
      · rw [hkeep, keep, decide_eq_true_eq] at h2
        obtain ⟨e, he, rfl⟩ := List.mem_map.1 h3
        exact ⟨s, h1, h2, e, he, rfl⟩
    · rintro ⟨s, h1, h2, e, he, rfl⟩
      refine .inr ⟨s, h1, ?_, List.mem_map_of_mem he⟩
      rw [hkeep, keep, decide_eq_true_eq]
      exact h2
  have hrecent : ∀ c, Recent w head start c ↔ ∃ s ∈ nodes t',
      start ≤ seqAt w (cidOf L.env.H s) ∧ ∃ e ∈ (nodeOf L.env.H s).e, c = e.v := by
    intro c
    constructor
    · rintro ⟨c', b, d, e, h1, h2, h3, h4, h5, rfl⟩
      rcases (hins c').1 h1 with rfl | ⟨s, hs, rfl | ⟨e', he', rfl⟩⟩
      · rw [hhr] at h2; cases h2; rw [j5, j2] at h3; cases h3
      · obtain ⟨b', p1, p2⟩ := stored_read t2 hs
        rw [h2] at p1
        cases p1
        rw [h3] at p2
        cases p2
        refine ⟨s, hs, ?_, e, h5, rfl⟩
        simpa only [seqAt, h2, Option.map_some, Option.getD_some] using h4
      · obtain ⟨b', r, p1, p2⟩ := hval s hs e' he'
        rw [h2] at p1; cases p1; rw [h3] at p2; cases p2
    · rintro ⟨s, hs, h1, e, he, rfl⟩
      obtain ⟨b', p1, p2⟩ := stored_read t2 hs
      refine ⟨_, b', _, e, (hins _).2 (.inr ⟨s, hs, .inl rfl⟩), p1, p2, ?_, he, rfl⟩
      simpa only [seqAt, p1, Option.map_some, Option.getD_some] using h1
  refine ⟨w1, head, hb.val, ys ++ zs, ?_, g6, ?_, ⟨hb', hhr, j5⟩, ?_, ?_, ?_⟩
  · unfold getRepo
    rw [g7, if_pos rfl]
    dsimp only
    rw [if_neg (by rw [hg]; simp), hs]
    dsimp only
    rw [g3]
    dsimp only
    rw [j1]
    dsimp only
    unfold loadAll
    rw [hp]
    dsimp only
    rw [y1]
  · unfold readHead
    rw [g8]
    dsimp only
    rw [g3, Option.bind_some, j1]
    rfl
  · rw [List.map_append, List.nodup_cons, List.nodup_append]
    refine ⟨?_, ?_, y3, ?_⟩
    · intro h
      rcases List.mem_append.1 h with h | h
      · obtain ⟨⟨c, v⟩, h1, h2⟩ := List.mem_map.1 h
        obtain ⟨s, hs, _, rfl, _⟩ := (hym c v).1 h1
        exact hnc hs h2
      · obtain ⟨⟨c, v⟩, h1, h2⟩ := List.mem_map.1 h
        obtain ⟨_, s, hs, _, e, he, rfl⟩ := (hzm c v).1 h1
        exact hvc hs e he h2
    · refine ((y2.map _).nodup_iff).2 ?_
      rw [List.map_map]
      refine List.Nodup.sublist ?_ (cids_nodup hL.nodeInj i1.wf i1.sorted)
      exact (List.filter_sublist).map _
    · intro a ha b hb he
      obtain ⟨⟨c, v⟩, h1, rfl⟩ := List.mem_map.1 ha
      obtain ⟨⟨c', v'⟩, h2, rfl⟩ := List.mem_map.1 hb
      dsimp only at he
      subst he
      obtain ⟨s, hs, _, rfl, _⟩ := (hym c v).1 h1
      obtain ⟨_, s', hs', _, e, he, hce⟩ := (hzm _ v').1 h2
      obtain ⟨x, p1, p2⟩ := stored_read t2 hs
      obtain ⟨x', rr, p3, p4⟩ := hval s' hs' e he
      rw [hce, p3] at p1
      cases p1
      rw [p4] at p2
      cases p2
  · intro c v
    rw [List.mem_append, hym, hzm, hins, hrecent]
    constructor
    · rintro (⟨s, hs, h1, rfl, rfl⟩ | ⟨⟨b, h1, h2⟩, s, hs, h3, e, he, rfl⟩)
      · obtain ⟨x, p1, p2⟩ := stored_read t2 hs
        refine ⟨hnc hs, .inr ⟨s, hs, .inl rfl⟩, x, p1, p2, .inl ⟨_, rfl, ?_⟩⟩
        simpa only [seqAt, p1, Option.map_some, Option.getD_some] using h1
      · exact ⟨hvc hs e he, .inr ⟨s, hs, .inr ⟨e, he, rfl⟩⟩, b, h1, h2,
          .inr ⟨s, hs, h3, e, he, rfl⟩⟩
    · rintro ⟨h1, h2, b, h3, h4, h5⟩
      rcases h5 with ⟨d, rfl, h5⟩ | h5
      · rcases h2 with h2 | ⟨s, hs, rfl | ⟨e, he, rfl⟩⟩
        · exact absurd h2 h1
        · obtain ⟨x, p1, p2⟩ := stored_read t2 hs
          rw [h3] at p1
          cases p1
          refine .inl ⟨s, hs, ?_, rfl, h4.symm.trans p2⟩
          simpa only [seqAt, h3, Option.map_some, Option.getD_some] using h5
        · obtain ⟨x, rr, p1, p2⟩ := hval s hs e he
          rw [h3] at p1; cases p1; rw [h4] at p2; cases p2
      · exact .inr ⟨⟨b, h3, h4⟩, h5⟩
  · intro c b h1 h2 h3 h4
    rw [List.mem_append, hym, hzm]
    rcases (hins c).1 h1 with h1 | ⟨s, hs, rfl | ⟨e, he, rfl⟩⟩
    · exact absurd h1 h4
    · obtain ⟨x, p1, p2⟩ := stored_read t2 hs
      rw [h2] at p1
      cases p1
      refine .inl ⟨s, hs, ?_, rfl, p2⟩
      simpa only [seqAt, h2, Option.map_some, Option.getD_some] using h3
    · refine .inr ⟨⟨b, h2, rfl⟩, s, hs, ?_, e, he, rfl⟩
      obtain ⟨x, p1, p2⟩ := stored_read t2 hs
      obtain ⟨b', p3, p4⟩ := hc.blocks.links _ x _ p1 p2 e.v
        (List.mem_append_right _ (List.mem_map_of_mem he))
      have p3' : w.read e.v = some b' := p3
      rw [h2] at p3'
      cases p3'
      simp only [seqAt, p1, Option.map_some, Option.getD_some]
      by_cases hi : al.imports
      · have := him hi
        omega
      · have := p4 (hna hi _ _ p1)
        omega

end Arroba.Xrpc
