import Verif.Storage.SeqProofs
import Verif.Storage.NodeProofs

/-! Helper lemmas: what `import_repo` stores keeps the invariants. -/

namespace Arroba.Store

variable {C R : Type} [DecidableEq C]

open Arroba.Tree

theorem importBlocks_get (did : Did) : ∀ (l : List (C × Val C R)) (blocks : List (C × Block C R)) (c : C),
    dictGet (importBlocks did blocks l) c = match dictGet blocks c with
      | some b => some b
      | none => (dictGet l c).map (fun v => ⟨v, 0, none, did⟩)
  | [], blocks, c => by
    unfold importBlocks
    rw [List.foldl_nil]
    cases dictGet blocks c <;> rfl
  | (c', v) :: l, blocks, c => by
    have := importBlocks_get did l (dictSetDefault blocks c' ⟨v, 0, none, did⟩) c
    unfold importBlocks at this ⊢
    rw [List.foldl_cons, this, dictGet_dictSetDefault]
    cases dictGet blocks c with
    | some b => rfl
    | none =>
      dsimp only
      by_cases hc : c' = c
      · subst hc
        rw [if_pos rfl]
        dsimp only
        unfold dictGet
        rw [if_pos rfl]
        rfl
      · rw [if_neg hc]
        dsimp only
        conv => rhs; unfold dictGet
        rw [if_neg hc]

theorem importBlocks_append (did : Did) : ∀ (l : List (C × Val C R)) (blocks : List (C × Block C R)),
    ∃ l', importBlocks did blocks l = blocks ++ l' ∧ ∀ x ∈ l', x.2.seq = 0
  | [], blocks => ⟨[], (List.append_nil _).symm, fun _ h => by cases h⟩
  | (c, v) :: l, blocks => by
    obtain ⟨l', h1, h2⟩ := importBlocks_append did l (dictSetDefault blocks c ⟨v, 0, none, did⟩)
    unfold importBlocks at h1 ⊢
    rw [List.foldl_cons, h1]
    unfold dictSetDefault
    cases dictGet blocks c with
    | some _ => exact ⟨l', rfl, h2⟩
    | none =>
      refine ⟨(c, ⟨v, 0, none, did⟩) :: l', by simp, fun x hx => ?_⟩
      rcases List.mem_cons.mp hx with rfl | hx
      · rfl
      · exact h2 x hx

theorem importBlocks_grows (did : Did) (new : List (C × Val C R)) (blocks : List (C × Block C R)) :
    Grows blocks (importBlocks did blocks new) := by
  intro c b hb
  rw [importBlocks_get, hb]

theorem importBlocks_only {did : Did} {new : List (C × Val C R)} {blocks : List (C × Block C R)} {c : C}
    {b : Block C R} (hb : dictGet (importBlocks did blocks new) c = some b) :
    dictGet blocks c = some b ∨ dictGet blocks c = none ∧ b = ⟨b.val, 0, none, did⟩ ∧ (c, b.val) ∈ new := by
  rw [importBlocks_get] at hb
  cases hb' : dictGet blocks c with
  | some b' => rw [hb'] at hb; exact .inl hb
  | none =>
    rw [hb'] at hb
    cases hv : dictGet new c with
    | none => rw [hv] at hb; cases hb
    | some v => rw [hv] at hb; cases hb; exact .inr ⟨rfl, rfl, dictGet_mem hv⟩

section
variable {L : Lib C R} {Z : Nat}

theorem importBlocks_addr {did : Did} {new : List (C × Val C R)} {blocks : List (C × Block C R)}
    (ha : Addressed L blocks) (hc : ∀ x ∈ new, L.hash x.2 = x.1) :
    Addressed L (importBlocks did blocks new) := by
  intro c b hb
  rcases importBlocks_only hb with h | ⟨_, _, h⟩
  · exact ha c b h
  · exact hc _ h

theorem importBlocks_has (hL : L.OK Z) {did : Did} {new : List (C × Val C R)} {blocks : List (C × Block C R)}
    (ha : Addressed L blocks) (hc : ∀ x ∈ new, L.hash x.2 = x.1) {c : C} {v : Val C R} (h : (c, v) ∈ new) :
    ∃ b, dictGet (importBlocks did blocks new) c = some b ∧ b.val = v := by
  rw [importBlocks_get]
  cases hb : dictGet blocks c with
  | some b => exact ⟨b, rfl, hL.inj ((ha _ _ hb).trans (hc _ h).symm)⟩
  | none =>
    cases hv : dictGet new c with
    | none => exact absurd rfl (dictGet_eq_none.1 hv _ h)
    | some u => exact ⟨_, rfl, hL.inj ((hc _ (dictGet_mem hv)).trans (hc _ h).symm)⟩

theorem importBlocks_node (hL : L.OK Z) {did : Did} {new : List (C × Val C R)} {blocks : List (C × Block C R)}
    (ha : Addressed L blocks) (hc : ∀ x ∈ new, L.hash x.2 = x.1) {c : C} {d : NodeData C}
    (h : (c, .node d) ∈ new) : nodeIn (importBlocks did blocks new) c = some d := by
  obtain ⟨b, hb, hv⟩ := importBlocks_has hL ha hc (did := did) h
  rw [nodeIn_iff (importBlocks_addr ha hc)]
  have := hc _ h
  simp only at this
  exact ⟨this, b, this ▸ hb, hv⟩

/-- With blocks that are sound and complete, the store stays sound and complete. -/
theorem importBlocks_store (hL : L.OK Z) {did : Did} {new : List (C × Val C R)} {blocks : List (C × Block C R)}
    (ha : Addressed L blocks) (hs : StoreOK L.env (nodeIn blocks)) (hnew : Whole L new) :
    StoreOK L.env (nodeIn (importBlocks did blocks new)) := by
  have haddr := importBlocks_addr (did := did) ha hnew.cids
  refine ⟨fun c d h => ((nodeIn_iff haddr c d).1 h).1, fun c d h c' hc' => ?_⟩
  obtain ⟨h1, b, h2, h3⟩ := (nodeIn_iff haddr c d).1 h
  rcases importBlocks_only h2 with g | ⟨_, _, g⟩
  · obtain ⟨d', hd'⟩ := Option.isSome_iff_exists.1
      (hs.closed c d ((nodeIn_iff ha c d).2 ⟨h1, b, g, h3⟩) c' hc')
    rw [(importBlocks_grows did new blocks).nodeIn _ _ hd']
    rfl
  · rw [h3] at g
    obtain ⟨d', hd'⟩ := hnew.children _ d g c' hc'
    rw [importBlocks_node hL ha hnew.cids hd']
    rfl

/-- The tree of an imported commit, with its records. -/
theorem importBlocks_root (hL : L.OK Z) {did : Did} {new : List (C × Val C R)} {blocks : List (C × Block C R)}
    (ha : Addressed L blocks) (hs : StoreOK L.env (nodeIn blocks)) (hnew : Whole L new) {c : C} {co : Commit C}
    (hc : (c, .commit co) ∈ new) : ∃ m, RootOK L Z (importBlocks did blocks new) co.data m := by
  obtain ⟨_, ⟨l, t, hl, hwf, hsort, hval, hcid⟩, d, hd⟩ := hnew.commits c co hc
  have haddr := importBlocks_addr (did := did) ha hnew.cids
  have hst := importBlocks_store hL (did := did) ha hs hnew
  have hroot := importBlocks_node hL (did := did) ha hnew.cids hd
  have hstored : Stored L.env (nodeIn (importBlocks did blocks new)) t :=
    hst.stored hL.nodeInj hwf (by rw [hcid, hroot]; rfl)
  have hmem : ∀ s ∈ nodes t, (cidOf L.env.H s, .node (nodeOf L.env.H s)) ∈ new := by
    intro s hs
    have h0 : StoreOK L.env (nodeIn ([] : List (C × Block C R))) := by
      refine ⟨?_, ?_⟩ <;> intro c d h <;> simp [nodeIn, dictGet] at h
    have ha0 : Addressed L ([] : List (C × Block C R)) := by intro c b h; simp [dictGet] at h
    have := (importBlocks_store hL (did := did) ha0 h0 hnew).stored hL.nodeInj hwf
      (by rw [hcid, importBlocks_node hL (did := did) ha0 hnew.cids hd]; rfl) s hs
    obtain ⟨h1, b, h2, h3⟩ := (nodeIn_iff (importBlocks_addr ha0 hnew.cids) _ _).1 this
    rcases importBlocks_only h2 with g | ⟨_, _, g⟩
    · simp [dictGet] at g
    · rw [h3, h1] at g
      exact g
  have hrec : ∀ x ∈ leaves t, ∃ r, L.rcid r = x.2 ∧ Has L (importBlocks did blocks new) (.record r) := by
    rintro ⟨k, v⟩ hx
    obtain ⟨s, hs, e, he, rfl⟩ := ser_all_vals (H := L.env.H) hx
    obtain ⟨r, hr⟩ := hnew.records _ _ (hmem s hs) e he
    obtain ⟨b, hb, hv⟩ := importBlocks_has hL ha hnew.cids (did := did) hr
    have := hnew.cids _ hr
    simp only at this
    exact ⟨r, this, b, this ▸ hb, hv⟩
  have hch : ∀ k, ∃ o : Option R, o.map L.rcid = dictGet (leaves t) k ∧
      ∀ r, o = some r → Has L (importBlocks did blocks new) (.record r) := by
    intro k
    cases hk : dictGet (leaves t) k with
    | none => exact ⟨none, rfl, fun _ h => nomatch h⟩
    | some v =>
      obtain ⟨r, h1, h2⟩ := hrec _ (dictGet_mem hk)
      exact ⟨some r, by simp [h1], fun r' h => by cases h; exact h2⟩
  choose m hm1 hm2 using hch
  refine ⟨m, t, ⟨⟨l, ?_, hwf⟩, hsort, hval, funext fun k => (hm1 k).symm, hm2⟩, hstored, hcid⟩
  rcases hl with rfl | ⟨k, hk⟩
  · exact Nat.zero_le _
  · exact hk.trans (hL.zeros k)

theorem importBlocks_ok (hL : L.OK Z) {w : World C R} (hb : BlocksOK L Z w.last w.blocks) {did : Did}
    {new : List (C × Val C R)} (hnew : Whole L new) (ha : Aliens L w new) :
    BlocksOK L Z w.last (importBlocks did w.blocks new) := by
  have hg := importBlocks_grows did new w.blocks
  refine ⟨importBlocks_addr hb.addr hnew.cids, importBlocks_store hL hb.addr hb.store hnew, ?_, ?_, ?_, ?_⟩
  · intro c b h
    rcases importBlocks_only h with g | ⟨_, g, _⟩
    · exact hb.seqs c b g
    · rw [g]; exact Nat.zero_le _
  · intro c b co h hv
    rcases importBlocks_only h with g | ⟨g0, g, g'⟩
    · exact (hb.commits c b co g hv).imp (·.grow hg) (·.grow hg)
    · rw [hv] at g'
      exact .inr ⟨by rw [g], (hnew.commits c co g').1, ha c co g' g0, importBlocks_root hL hb.addr hb.store hnew g'⟩
  · intro c b e h hv
    rcases importBlocks_only h with g | ⟨_, _, g⟩
    · exact hb.events c b e g hv
    · exact absurd hv (hnew.plain _ g e)
  · intro c b d h hv c' hc'
    rcases importBlocks_only h with g | ⟨_, g, g'⟩
    · obtain ⟨b', h1, h2⟩ := hb.links c b d g hv c' hc'
      exact ⟨b', hg _ _ h1, h2⟩
    · rw [hv] at g'
      have : ∃ v, (c', v) ∈ new := by
        rcases List.mem_append.1 hc' with h | h
        · obtain ⟨d', h⟩ := hnew.children _ _ g' _ h
          exact ⟨_, h⟩
        · obtain ⟨e, he, rfl⟩ := List.mem_map.1 h
          obtain ⟨r, h⟩ := hnew.records _ _ g' e he
          exact ⟨_, h⟩
      obtain ⟨v, hv'⟩ := this
      obtain ⟨b', h1, _⟩ := importBlocks_has hL hb.addr hnew.cids (did := did) hv'
      exact ⟨b', h1, fun h => absurd (by rw [g]) h⟩

/-- The world after the blocks are written and the `Repo` object is made. -/
theorem import_obj (hL : L.OK Z) {w : World C R} (hw : WorldOK L Z w) {co : Commit C} {handle : Option Key}
    {key : Nat} {new : List (C × Val C R)} (hnew : Whole L new)
    (hhead : (L.hash (.commit co), .commit co) ∈ new) (hh : ∀ h, handle = some h → ¬ isDid h)
    (ha : Aliens L w new) :
    WorldOK L Z { w with
      blocks := importBlocks co.did w.blocks new
      heap := w.heap ++ [⟨Arroba.load co.data, some ⟨.commit co, 0, none, co.did⟩, handle,
        some .deactivated, key, false⟩] } := by
  have hb := importBlocks_ok hL hw.core.blocks (did := co.did) hnew ha
  have hc := hw.core.addBlocks (importBlocks_grows co.did new w.blocks) hb
  obtain ⟨m, hm⟩ := importBlocks_root hL (did := co.did) hw.core.blocks.addr hw.core.blocks.store hnew hhead
  obtain ⟨l, t, g1, g2, g3⟩ := hm.load
  obtain ⟨bh, hbh, hbv⟩ := importBlocks_has hL hw.core.blocks.addr hnew.cids (did := co.did) hhead
  refine ⟨hw.pos, hb, ?_, ?_, hc.rows⟩
  · intro i o hi
    simp only [List.getElem?_append] at hi
    split at hi
    · exact hc.heap i o hi
    · have : i - w.heap.length = 0 := by
        by_contra hne
        rw [List.getElem?_eq_none (by simp; omega)] at hi
        cases hi
      rw [this] at hi
      cases hi
      refine ⟨m, ⟨l, t, g1, g2, ?_⟩, hh⟩
      intro x hx
      cases hx
      exact ⟨bh, co, hbh, hbv, rfl, g3.symm⟩
  · intro d i hi
    obtain ⟨o, h1, h2⟩ := hc.repos d i hi
    refine ⟨o, ?_, h2⟩
    simp only [List.getElem?_append, (List.getElem?_eq_some_iff.1 h1).1, if_true]
    exact h1

theorem import_seqs {al : Allow} {w : World C R} {did : Did} {new : List (C × Val C R)}
    (h : w.SeqsOK al) :
    SeqOK al (importBlocks did w.blocks new) w.log w.last := by
  have hg := importBlocks_grows did new w.blocks
  refine ⟨?_, ?_, ?_, ?_, ?_⟩
  · intro c b hb h1
    rcases importBlocks_only hb with g | ⟨_, g, _⟩
    · obtain ⟨c', b', h2, h3⟩ := h.marked c b g h1
      exact ⟨c', b', hg _ _ h2, h3⟩
    · rw [g] at h1; exact absurd h1 (by simp)
  · intro c b c' b' hb hb' hm hm' h1 hs
    rcases importBlocks_only hb with g | ⟨_, g, _⟩
    · rcases importBlocks_only hb' with g' | ⟨_, g', _⟩
      · exact h.unique c b c' b' g g' hm hm' h1 hs
      · rw [hs, g'] at h1; exact absurd h1 (by simp)
    · rw [g] at h1; exact absurd h1 (by simp)
  · intro c b c' b' hb hb' he h1 hs
    rcases importBlocks_only hb with g | ⟨_, g, _⟩
    · rcases importBlocks_only hb' with g' | ⟨_, g', _⟩
      · exact h.alone c b c' b' g g' he h1 hs
      · rw [← hs, g'] at h1; exact absurd h1 (by simp)
    · rw [g] at h1; exact absurd h1 (by simp)
  · intro hs n h1 h2
    rcases h.accounted hs n h1 h2 with ⟨c, b, g1, g2⟩ | g
    · exact .inl ⟨c, b, hg _ _ g1, g2⟩
    · exact .inr g
  · intro hr n hn
    obtain ⟨g0, g1, g2⟩ := h.exclusive hr n hn
    refine ⟨g0, g1, fun c b hb => ?_⟩
    rcases importBlocks_only hb with g | ⟨_, g, _⟩
    · exact g2 c b g
    · rw [g]; exact fun h => by simp only at h; omega

/-- What `import_repo` writes. -/
theorem importInto_eq (be : Backend) (w : World C R) (co : Commit C) (handle : Option Key) (key : Nat)
    (new : List (C × Val C R)) : importInto L be w co handle key new =
    ({ w with
        blocks := importBlocks co.did w.blocks new
        heap := w.heap ++ [⟨Arroba.load co.data, some ⟨.commit co, 0, none, co.did⟩, handle, some .deactivated,
          key, false⟩]
        repos := match be with
          | .memory => dictSet w.repos co.did w.heap.length
          | .datastore => w.repos
        rows := match be with
          | .memory => w.rows
          | .datastore => dictSet w.rows co.did ⟨handle, L.hash (.commit co), some .deactivated, key⟩ },
      .ok ()) := by
  unfold importInto createRepo
  dsimp only [World.newObj]
  rw [List.getElem?_append_right (Nat.le_refl _), Nat.sub_self, List.getElem?_cons_zero]
  dsimp only [RepoObj.did]
  cases be <;> rfl

theorem importInto_heap {be : Backend} {w : World C R} {co : Commit C} {handle : Option Key} {key : Nat}
    {new : List (C × Val C R)} {i : Nat} {o : RepoObj C R} (h : w.heap[i]? = some o) :
    (importInto L be w co handle key new).1.heap[i]? = some o := by
  rw [importInto_eq]
  dsimp only
  rw [List.getElem?_append, if_pos (List.getElem?_eq_some_iff.1 h).1, h]

theorem importInto_stored {be : Backend} {w : World C R} {co : Commit C} {handle : Option Key} {key : Nat}
    {new : List (C × Val C R)} {d : Did} (h : d ≠ co.did) :
    dictGet (importInto L be w co handle key new).1.repos d = dictGet w.repos d ∧
    dictGet (importInto L be w co handle key new).1.rows d = dictGet w.rows d := by
  rw [importInto_eq]
  cases be
  · exact ⟨by dsimp only; rw [dictGet_dictSet, if_neg h], rfl⟩
  · exact ⟨rfl, by dsimp only; rw [dictGet_dictSet, if_neg h]⟩

end

end Arroba.Store
