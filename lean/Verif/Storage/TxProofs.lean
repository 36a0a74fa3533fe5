import Verif.Storage.AttemptProofs
import Verif.Mst.DiffProofs

/-! Helper lemmas: attempts preserve the invariant; transactions with retries. -/

namespace Arroba.Store

variable {C R : Type} [DecidableEq C]

open Arroba.Tree

/-- The CID of the head of a stored repo. -/
def headOf (L : Lib C R) (be : Backend) (w : World C R) (d : Did) : Option C :=
  match be with
  | .memory => match dictGet w.repos d with
    | none => none
    | some r => ((w.heap[r]?).bind (·.head)).map (fun b => L.hash b.val)
  | .datastore => (dictGet w.rows d).map (·.head)

section
variable {L : Lib C R} {Z : Nat}

theorem Core.mono {seq seq' : Nat} {w : World C R} (h : Core L Z seq w) (hs : seq ≤ seq') :
    Core L Z seq' w := ⟨h.blocks.mono hs, h.heap, h.repos, h.rows⟩

/-- Blocks may be added. -/
theorem Core.addBlocks {seq seq' : Nat} {w : World C R} (h : Core L Z seq w)
    {blocks : List (C × Block C R)} (hg : Grows w.blocks blocks) (hb : BlocksOK L Z seq' blocks) :
    Core L Z seq' { w with blocks := blocks } := by
  refine ⟨hb, fun r o ho => ?_, h.repos, fun d row hr => ?_⟩
  · obtain ⟨m, hm⟩ := h.heap r o ho
    exact ⟨m, hm.grow hg⟩
  · obtain ⟨h1, b, co, h2, h3⟩ := h.rows d row hr
    exact ⟨h1, b, co, hg _ _ h2, h3⟩

theorem records_iff (hL : L.OK Z) {be : Backend} {seq : Nat} {w : World C R} (hw : Core L Z seq w)
    {d : Did} (hd : isDid d) (m : Key → Option R) :
    RecordsOf L Z be w d m ↔ ∃ c b co, headOf L be w d = some c ∧ dictGet w.blocks c = some b ∧
      b.val = .commit co ∧ co.did = d ∧ RootOK L Z w.blocks co.data m := by
  have key : ∀ {s so m b co w1}, loadRepo be w d = (w1, .ok (some s)) → w1.heap[s]? = some so →
      ObjRep L Z w.blocks so m → so.did = some d → so.head = some b → b.val = .commit co →
      co.did = d →
      (match be with
      | .memory => w1 = w ∧ dictGet w.repos d = some s
      | .datastore => s = w.heap.length ∧ w1 = { w with heap := w.heap ++ [so] } ∧
          ∃ row, dictGet w.rows d = some row ∧ dictGet w.blocks row.head = some b ∧
            so = ⟨load co.data, some b, row.handle, row.status, row.key, false⟩) →
      w1.blocks = w.blocks ∧ headOf L be w d = some (L.hash b.val) := by
    intro s so m b co w1 h1 h2 h3 h4 h5 h6 h7 h8
    unfold headOf
    cases be with
    | memory =>
      obtain ⟨rfl, h8⟩ := h8
      refine ⟨rfl, ?_⟩
      simp only [h8, h2, Option.bind_some, h5, Option.map_some]
    | datastore =>
      obtain ⟨_, rfl, row, h8, h9, _⟩ := h8
      refine ⟨rfl, ?_⟩
      simp only [h8, Option.map_some, hw.blocks.addr _ _ h9]
  constructor
  · rintro ⟨s, w1, so, h1, h2, h3⟩
    rcases loadRepo_spec hw be hd with h | ⟨s', so', m', b, co, w1', g1, g2, g3, g4, g5, g6, g7, g8⟩
    · rw [h] at h1; simp at h1
    · obtain ⟨e1, e2⟩ := key g1 g2 g3 g4 g5 g6 g7 g8
      rw [g1] at h1
      simp only [Prod.mk.injEq, Except.ok.injEq, Option.some.injEq] at h1
      obtain ⟨rfl, rfl⟩ := h1
      rw [g2] at h2
      cases h2
      rw [e1] at h3
      obtain ⟨b', co', k1, k2, k3, k4⟩ := h3.root hL hw.blocks g5
      rw [g6] at k3
      cases k3
      exact ⟨_, b', co, e2, k1, k2, g7, k4⟩
  · rintro ⟨c, b, co, h1, h2, h3, h4, h5⟩
    rcases loadRepo_spec hw be hd with h | ⟨s', so', m', b', co', w1', g1, g2, g3, g4, g5, g6, g7, g8⟩
    · exfalso
      unfold loadRepo at h
      rw [if_neg (isDid_ne_nil hd)] at h
      unfold headOf at h1
      cases be with
      | memory =>
        simp only at h h1
        rw [findRepo_eq hw hd (fun _ h => h)] at h
        simp only [Prod.mk.injEq, Except.ok.injEq, true_and] at h
        rw [h] at h1
        cases h1
      | datastore =>
        simp only at h h1
        rw [findRow_some hw hd] at h
        cases hr : dictGet w.rows d with
        | none => rw [hr] at h1; cases h1
        | some row =>
          rw [hr] at h
          simp only at h
          split at h <;> simp at h
    · obtain ⟨e1, e2⟩ := key g1 g2 g3 g4 g5 g6 g7 g8
      rw [h1] at e2
      cases e2
      obtain ⟨b'', co'', k1, k2, k3, k4⟩ := g3.root hL hw.blocks g5
      rw [k1] at h2
      cases h2
      rw [k2] at h3
      cases h3
      have := k4.unique hL h5
      subst this
      exact ⟨s', w1', so', g1, g2, e1 ▸ g3⟩

theorem Built.grows {blocks : List (C × Block C R)} {cd : CommitData C R} :
    Grows blocks (putBlocks L blocks (cd.blocks.map (·.2))) := putBlocks_grows _ _

theorem Built.objRep {blocks : List (C × Block C R)} {seq : Nat} {did : Did} {prev : Option C}
    {key nonce : Nat} {ops : List (CommitOp C)} {m : Key → Option R} {n : Node C}
    {cd : CommitData C R} {co : Commit C}
    (h : Built L Z blocks seq did prev key nonce ops m n cd co) {o : RepoObj C R}
    (hh : ∀ h, o.handle = some h → ¬ isDid h) :
    ObjRep L Z (putBlocks L blocks (cd.blocks.map (·.2))) (upd n cd.commit o) m := by
  obtain ⟨l, t, h1, h2, h3⟩ := h.tree
  refine ⟨⟨l, t, h1, h2, fun b hb => ?_⟩, hh⟩
  simp only [upd, Option.some.injEq] at hb
  subst hb
  obtain ⟨b', g1, g2, _⟩ := h.head
  exact ⟨b', co, g1, g2, by rw [h.commit], h3.symm⟩

theorem Built.did {blocks : List (C × Block C R)} {seq : Nat} {did : Did} {prev : Option C}
    {key nonce : Nat} {ops : List (CommitOp C)} {m : Key → Option R} {n : Node C}
    {cd : CommitData C R} {co : Commit C}
    (h : Built L Z blocks seq did prev key nonce ops m n cd co) (o : RepoObj C R) :
    (upd n cd.commit o).did = some did := by
  rw [← h.codid]
  exact did_eq (b := cd.commit) rfl (by rw [h.commit])

section Done
variable {be : Backend} {seq : Nat} {w w' : World C R} {r s : Ref} {writes : List (Write R)}
  {x : Luck} {did : Did} {m m' : Key → Option R} {n : Node C} {cd : CommitData C R} {co : Commit C}

theorem Done.grows (h : Done L Z be seq w r writes x did m m' s n cd co w') :
    Grows w.blocks w'.blocks := by
  rw [h.blocks]; exact putBlocks_grows _ _

theorem Done.core (hw : Core L Z seq w) (h : Done L Z be seq w r writes x did m m' s n cd co w') :
    Core L Z seq w' := by
  obtain ⟨w1, so, b, g1, g2, g3, g4, g5, g6, hb, hbe⟩ := h.stored
  obtain ⟨o, ho, hod, _⟩ := h.caller
  have hg := h.grows
  refine ⟨h.blocks ▸ hb.ok, fun i o' hi => ?_, fun d r' hr => ?_, fun d row hr => ?_⟩
  · rw [h.heap i] at hi
    split at hi
    · cases hw' : w.heap[i]? with
      | none => rw [hw'] at hi; cases hi
      | some oi =>
        rw [hw'] at hi
        cases hi
        obtain ⟨mi, hmi⟩ := hw.heap i oi hw'
        exact ⟨m', h.blocks ▸ hb.objRep hmi.handle⟩
    · obtain ⟨mi, hmi⟩ := hw.heap i o' hi
      exact ⟨mi, hmi.grow hg⟩
  · have hold : ∀ d r', (d, r') ∈ w.repos → ∃ (o : RepoObj C R), w'.heap[r']? = some o ∧
        o.did = some d := by
      intro d r' hr
      obtain ⟨oi, h1, h2⟩ := hw.repos d r' hr
      rw [h.heap r', h1]
      split
      · rename_i hc
        refine ⟨_, rfl, ?_⟩
        rw [hb.did]
        rcases hc with rfl | ⟨rfl, rfl⟩
        · rw [ho] at h1; cases h1; rw [← hod, h2]
        · simp only at hbe
          obtain ⟨rfl, _⟩ := hbe
          rw [g2] at h1; cases h1; rw [← g4, h2]
      · exact ⟨oi, rfl, h2⟩
    cases be with
    | memory =>
      obtain ⟨rfl, k1, k2, k3⟩ := hbe
      rw [k3] at hr
      rcases mem_dictSet hr with hr | hr
      · cases hr; exact hold _ _ (dictGet_mem k1)
      · exact hold _ _ hr
    | datastore =>
      obtain ⟨_, k2, _⟩ := hbe
      rw [k2] at hr
      exact hold _ _ hr
  · have hold : ∀ d row, (d, row) ∈ w.rows → (∀ h, row.handle = some h → ¬ isDid h) ∧
        ∃ b co, dictGet w'.blocks row.head = some b ∧ b.val = .commit co ∧ co.did = d := by
      intro d row hr
      obtain ⟨h1, b, co, h2, h3⟩ := hw.rows d row hr
      exact ⟨h1, b, co, hg _ _ h2, h3⟩
    cases be with
    | memory =>
      obtain ⟨_, _, k2, _⟩ := hbe
      rw [k2] at hr
      exact hold _ _ hr
    | datastore =>
      obtain ⟨_, _, row0, k1, _, _, k2⟩ := hbe
      rw [k2] at hr
      rcases mem_dictSet hr with hr | hr
      · cases hr
        refine ⟨(hw.rows _ _ (dictGet_mem k1)).1, ?_⟩
        obtain ⟨b', g1, g2, _⟩ := hb.head
        exact ⟨b', co, h.blocks ▸ g1, g2.trans (by rw [hb.commit]), hb.codid⟩
      · exact hold _ _ hr

theorem Done.headOf (hw : Core L Z seq w) (h : Done L Z be seq w r writes x did m m' s n cd co w')
    (d : Did) :
    headOf L be w' d = if d = did then some (L.hash cd.commit.val) else Store.headOf L be w d := by
  obtain ⟨w1, so, b, g1, g2, g3, g4, g5, g6, hb, hbe⟩ := h.stored
  obtain ⟨o, ho, hod, _⟩ := h.caller
  unfold Store.headOf
  cases be with
  | memory =>
    obtain ⟨rfl, k1, k2, k3⟩ := hbe
    simp only
    rw [k3, dictGet_dictSet]
    by_cases hd : d = did
    · subst hd
      simp only [if_true]
      rw [h.heap s, if_pos (.inr ⟨rfl, rfl⟩), g2]
      rfl
    · rw [if_neg hd, if_neg hd]
      cases hr : dictGet w1.repos d with
      | none => rfl
      | some r' =>
        simp only
        obtain ⟨oi, h1, h2⟩ := hw.repos d r' (dictGet_mem hr)
        rw [h.heap r', if_neg]
        rintro (rfl | ⟨_, rfl⟩)
        · rw [ho] at h1; cases h1; rw [hod] at h2; cases h2; exact hd rfl
        · rw [g2] at h1; cases h1; rw [g4] at h2; cases h2; exact hd rfl
  | datastore =>
    obtain ⟨_, _, row0, k1, _, _, k2⟩ := hbe
    simp only
    rw [k2, dictGet_dictSet]
    by_cases hd : d = did
    · subst hd; simp
    · rw [if_neg hd, if_neg hd]

theorem Done.root (h : Done L Z be seq w r writes x did m m' s n cd co w') (hL : L.OK Z) :
    RootOK L Z w'.blocks co.data m' := by
  obtain ⟨w1, so, b, g1, g2, g3, g4, g5, g6, hb, hbe⟩ := h.stored
  have h1 := hb.objRep (o := { so with handle := none }) (by intro _ h; cases h)
  obtain ⟨b', co', k1, k2, k3, k4⟩ := h1.root hL hb.ok (b := cd.commit) rfl
  rw [hb.commit] at k3
  cases k3
  rw [h.blocks]; exact k4

end Done

/-! ### Transactions -/

/-- The worlds in which the attempts of a transaction start: `w0` with left-overs of the earlier
ones. -/
structure Mid (L : Lib C R) (Z : Nat) (be : Backend) (seq : Nat) (r : Ref) (w0 w : World C R) :
    Prop where
  core : Core L Z seq w
  heads : HeadsLt be seq w
  rows : w.rows = w0.rows
  repos : w.repos = w0.repos
  seqs : w.seqs = w0.seqs
  log : w.log = w0.log
  grows : Grows w0.blocks w.blocks
  new : ∀ c b, dictGet w.blocks c = some b → dictGet w0.blocks c = some b ∨ b.seq = seq
  heap : ∀ i : Nat, w.heap[i]? = w0.heap[i]? ∨ (i = r ∧ be = .datastore ∧
    ∃ (o : RepoObj C R) (n : Node C) (b : Block C R),
    w0.heap[i]? = some o ∧ w.heap[i]? = some (upd n b o) ∧ (upd n b o).did = o.did)

theorem Mid.headOf {be : Backend} {seq : Nat} {r : Ref} {w0 w : World C R}
    (h : Mid L Z be seq r w0 w) (d : Did) : headOf L be w d = Store.headOf L be w0 d := by
  unfold Store.headOf
  cases be with
  | memory =>
    simp only [h.repos]
    cases dictGet w0.repos d with
    | none => rfl
    | some r' =>
      simp only
      rcases h.heap r' with h1 | ⟨_, h1, _⟩
      · rw [h1]
      · cases h1
  | datastore => simp only [h.rows]

theorem HeadsLt.rows {be : Backend} {seq : Nat} {w w' : World C R} (hw : Core L Z seq w)
    (h : HeadsLt be seq w) (hbe : be = .datastore) (hr : w'.rows = w.rows)
    (hg : Grows w.blocks w'.blocks) : HeadsLt be seq w' := by
  subst hbe
  intro d row b h1 h2
  rw [hr] at h1
  obtain ⟨_, b', _, g1, _⟩ := hw.rows d row h1
  rw [hg _ _ g1] at h2
  cases h2
  exact h d row _ h1 g1

/-- After an attempt that failed. -/
theorem Mid.failed {be : Backend} {seq : Nat} {r : Ref} {w0 w w' : World C R} (hw : Mid L Z be seq r w0 w)
    (ht : be = .datastore) (h : Quiet be w w' ∨ Wrote L Z be seq w w') : Mid L Z be seq r w0 w' := by
  rcases h with h2 | h2
  · have hself : w' = w := by
      rcases h2.heap with h | ⟨h, _⟩
      · rw [h2.eq, h]
      · rw [ht] at h; cases h
    rw [hself]; exact hw
  · rw [h2.eq]
    refine ⟨hw.core.addBlocks h2.grows h2.ok, hw.heads.rows hw.core ht rfl h2.grows, hw.rows,
      hw.repos, hw.seqs, hw.log, hw.grows.trans h2.grows, fun c b hb => ?_, hw.heap⟩
    rcases h2.new c b hb with h | h
    · exact hw.new c b h
    · exact .inr h

/-- After an attempt whose transaction was aborted. -/
theorem Mid.aborted {be : Backend} {seq : Nat} {r s : Ref} {w0 w w' : World C R} {writes : List (Write R)} {x : Luck}
    {did : Did} {m m' : Key → Option R} {n : Node C} {cd : CommitData C R} {co : Commit C}
    (hw : Mid L Z be seq r w0 w) (ht : be = .datastore) (h2 : Done L Z be seq w r writes x did m m' s n cd co w') :
    Mid L Z be seq r w0 { w' with rows := w.rows } := by
  have hg := h2.grows
  have hc := h2.core hw.core
  obtain ⟨w1', so, b, g1, g2, g3, g4, g5, g6, hb, hbe⟩ := h2.stored
  obtain ⟨o, ho, hod, _⟩ := h2.caller
  refine ⟨⟨hc.blocks, hc.heap, hc.repos, fun d row hr => ?_⟩, ?_, hw.rows, ?_, ?_, ?_,
    hw.grows.trans hg, ?_, ?_⟩
  · obtain ⟨h1, b, co, h3, h4⟩ := hw.core.rows d row hr
    exact ⟨h1, b, co, hg _ _ h3, h4⟩
  · exact hw.heads.rows hw.core ht rfl hg
  · subst ht
    obtain ⟨_, k, _⟩ := hbe
    exact k.trans hw.repos
  · exact h2.seqs.trans hw.seqs
  · exact h2.log.trans hw.log
  · intro c b' hb'
    simp only [h2.blocks] at hb'
    rcases hb.newSeq hb' with h | h
    · exact hw.new c b' h
    · exact .inr h
  · intro i
    have hi := h2.heap i
    simp only at hi ⊢
    rw [hi]
    by_cases hir : i = r
    · right
      subst hir
      refine ⟨rfl, ht, ?_⟩
      rw [if_pos (.inl rfl), ho]
      rcases hw.heap i with h | ⟨_, _, o₀, n₀, b₀, k1, k2, k3⟩
      · exact ⟨o, n, cd.commit, by rw [← h, ho], rfl, by rw [hb.did, hod]⟩
      · rw [ho] at k2
        cases k2
        refine ⟨o₀, n, cd.commit, k1, rfl, ?_⟩
        rw [hb.did, ← hod, k3]
    · rw [if_neg (by rintro (h | ⟨h, _⟩); exact hir h; rw [ht] at h; cases h)]
      rcases hw.heap i with h | ⟨h, _⟩
      · exact .inl h
      · exact absurd h hir

theorem tx_none (hL : L.OK Z) {be : Backend} {seq : Nat} {w0 : World C R} {r : Ref}
    (hseq : 1 ≤ seq) (writes : List (Write R)) : ∀ (xs : List Luck) (w : World C R),
    Mid L Z be seq r w0 w →
    (∃ e w' wk, commitTx L be r writes seq none w xs = (w', .error e) ∧ Mid L Z be seq r w0 wk ∧
      (Quiet be wk w' ∨ Wrote L Z be seq wk w') ∧
      ((∀ x ∈ xs, x.storeFails = false ∧ x.txFails = false) → wk = w ∧ Quiet be wk w') ∧
      ((writes.length ≤ 1 ∧ (∀ x ∈ xs, x.signFails = false) ∧ seq < 32 ^ 11) → w'.heap = wk.heap) ∧
      (xs = [] ∨ (be = .datastore ∧ ∃ x ∈ xs, x.txFails = true) ∨ w.heap[r]? = none ∨
        ∃ x ∈ xs, ∃ o, wk.heap[r]? = some o ∧ Fails L Z be seq wk o writes x e)) ∨
    (∃ w' wk x did m m' s n cd co, commitTx L be r writes seq none w xs = (w', .ok cd) ∧
      Mid L Z be seq r w0 wk ∧ x ∈ xs ∧ Done L Z be seq wk r writes x did m m' s n cd co w' ∧
      ((∀ x ∈ xs, x.storeFails = false ∧ x.txFails = false) → wk = w))
  | [], w, hw => .inl ⟨_, w, w, rfl, hw, .inl (.refl _ _), fun _ => ⟨rfl, .refl _ _⟩, fun _ => rfl,
      .inl rfl⟩
  | x :: xs, w, hw => by
    unfold commitTx
    cases ho : w.heap[r]? with
    | none =>
      have : commitBody L be w r writes seq none x = (w, .error .attribute) := by
        rw [commitBody_eq, ho]
      rw [this]
      left
      have e : ({ w.collect w with rows := w.rows } : World C R) = w := by rw [collect_self]
      dsimp only
      rw [if_neg (fun h => by cases h.2.2)]
      exact ⟨_, _, w, rfl, hw, .inl (by rw [e]; exact .refl _ _),
        fun _ => ⟨rfl, by rw [e]; exact .refl _ _⟩, fun _ => by rw [e], .inr (.inr (.inl rfl))⟩
    | some o =>
      rcases attempt_none hL hw.core hseq hw.heads ho writes x with
        ⟨w1, e, h1, h2, h3, h4⟩ | ⟨w1, cd, did, m, m', s, n, co, h1, h2⟩
      · rw [h1]
        have er : ({ w1.collect w with rows := w.rows } : World C R) = w1.collect w := by
          have : (w1.collect w).rows = w.rows := by
            rcases h2 with h2 | ⟨_, h2⟩ <;> rw [h2.eq]
          rw [← this]
        dsimp only
        by_cases ht : be = .datastore ∧ x.txFails = true ∧ e = .runtime
        · rw [if_pos ht, er]
          have hmid : Mid L Z be seq r w0 (w1.collect w) := hw.failed ht.1 (h2.imp_right And.right)
          have hnot : ¬ ∀ y ∈ x :: xs, y.storeFails = false ∧ y.txFails = false := by
            intro h
            have := (h x List.mem_cons_self).2
            rw [ht.2.1] at this; cases this
          rcases tx_none hL hseq writes xs _ hmid with
            ⟨e, w', wk, k1, k2, k3, _, k4, _⟩ | ⟨w', wk, x', did', q1, q2, q3, q4, q5, q6, k1, k2, k3, k4, _⟩
          · exact .inl ⟨e, w', wk, k1, k2, k3, fun h => absurd h hnot,
              fun hx => k4 ⟨hx.1, fun y hy => hx.2.1 y (List.mem_cons_of_mem _ hy), hx.2.2⟩,
              .inr (.inl ⟨ht.1, x, List.mem_cons_self, ht.2.1⟩)⟩
          · exact .inr ⟨w', wk, x', did', q1, q2, q3, q4, q5, q6, k1, k2,
              List.mem_cons_of_mem _ k3, k4, fun h => absurd h hnot⟩
        rw [if_neg ht]
        left
        refine ⟨e, w1.collect w, w, by rw [er], hw, ?_, fun hx => ⟨rfl, ?_⟩, fun hx => h3 hx.1
          (hx.2.1 x List.mem_cons_self) hx.2.2, .inr (.inr (.inr ⟨x, List.mem_cons_self, o, ho, h4⟩))⟩
        · rcases h2 with h2 | ⟨_, h2⟩
          · exact .inl h2
          · exact .inr h2
        · rcases h2 with h2 | ⟨h, h2⟩
          · exact h2
          · have := (hx x List.mem_cons_self).1
            rw [h] at this; cases this
      · rw [h1]
        simp only
        by_cases ht : be = .datastore ∧ x.txFails = true
        · rw [if_pos ht]
          have hmid : Mid L Z be seq r w0 { w1.collect w with rows := w.rows } := hw.aborted ht.1 h2
          have hnot : ¬ ∀ y ∈ x :: xs, y.storeFails = false ∧ y.txFails = false := by
            intro h
            have := (h x List.mem_cons_self).2
            rw [ht.2] at this; cases this
          rcases tx_none hL hseq writes xs _ hmid with
            ⟨e, w', wk, k1, k2, k3, _, k4, _⟩ | ⟨w', wk, x', did', q1, q2, q3, q4, q5, q6, k1, k2, k3, k4, _⟩
          · exact .inl ⟨e, w', wk, k1, k2, k3, fun h => absurd h hnot,
              fun hx => k4 ⟨hx.1, fun y hy => hx.2.1 y (List.mem_cons_of_mem _ hy), hx.2.2⟩,
              .inr (.inl ⟨ht.1, x, List.mem_cons_self, ht.2⟩)⟩
          · exact .inr ⟨w', wk, x', did', q1, q2, q3, q4, q5, q6, k1, k2,
              List.mem_cons_of_mem _ k3, k4, fun h => absurd h hnot⟩
        · rw [if_neg ht]
          exact .inr ⟨_, w, x, did, m, m', s, n, cd, co, rfl, hw, List.mem_cons_self, h2,
            fun _ => rfl⟩

end

end Arroba.Store
