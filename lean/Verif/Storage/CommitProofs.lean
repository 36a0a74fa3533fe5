import Verif.Storage.ReadProofs

/-! Helper lemmas: the outcome of `Storage.commit` in a healthy world. -/

namespace Arroba.Store

variable {C R : Type} [DecidableEq C]

open Arroba.Tree

section
variable {L : Lib C R} {Z : Nat}

/-- Whether the caller's `Repo` object has a callback. -/
def World.cb (w : World C R) (r : Ref) : Bool := ((w.heap[r]?).map (·.callback)).getD false

/-- A world up to the callback log. -/
def SameButLog (w w' : World C R) : Prop := ∃ l, w' = { w with log := l }

theorem headOf_log {be : Backend} {w w' : World C R} (h : SameButLog w w') (d : Did) :
    headOf L be w' d = headOf L be w d := by
  obtain ⟨l, rfl⟩ := h; rfl

theorem logIf_same (w : World C R) (b : Bool) (c : CbCall C) : SameButLog w (w.logIf b c) :=
  ⟨_, logIf_with w b c⟩

theorem SameButLog.trans {w1 w2 w3 : World C R} (h : SameButLog w1 w2) (h' : SameButLog w2 w3) :
    SameButLog w1 w3 := by
  obtain ⟨l, rfl⟩ := h; obtain ⟨l', rfl⟩ := h'; exact ⟨l', rfl⟩

theorem SameButLog.core {w w' : World C R} {seq : Nat} (h : SameButLog w w') (hc : Core L Z seq w) :
    Core L Z seq w' := by
  obtain ⟨l, rfl⟩ := h; exact hc.congr rfl rfl rfl rfl

theorem commit_cases (hL : L.OK Z) {be : Backend} {w : World C R} (hw : WorldOK L Z w) (r : Ref)
    (writes : List (Write R)) (xs : List Luck) (cbFails : Bool) :
    (∃ e w' w1 wk, commit L be w r writes none xs cbFails = (w', .error e) ∧ SameButLog w1 w' ∧
      commitTx L be r writes w.alloc.1 none w.alloc.2 xs = (w1, .error e) ∧
      Mid L Z be (w.last + 1) r w.alloc.2 wk ∧
      (Quiet be wk w1 ∨ Wrote L Z be (w.last + 1) wk w1) ∧
      ((∀ x ∈ xs, x.storeFails = false ∧ x.txFails = false) → wk = w.alloc.2 ∧ Quiet be wk w1) ∧
      ((writes.length ≤ 1 ∧ (∀ x ∈ xs, x.signFails = false) ∧ w.last + 1 < 32 ^ 11) →
        w1.heap = wk.heap) ∧
      (xs = [] ∨ (be = .datastore ∧ ∃ x ∈ xs, x.txFails = true) ∨ w.heap[r]? = none ∨
        ∃ x ∈ xs, ∃ o, wk.heap[r]? = some o ∧ Fails L Z be (w.last + 1) wk o writes x e)) ∨
    (∃ w' w1 wk x did m m' s n cd co, commit L be w r writes none xs cbFails =
        (w', if (w.cb r && cbFails) = true then .error .runtime else .ok cd) ∧
      SameButLog w1 w' ∧ commitTx L be r writes w.alloc.1 none w.alloc.2 xs = (w1, .ok cd) ∧
      Mid L Z be (w.last + 1) r w.alloc.2 wk ∧ x ∈ xs ∧
      Done L Z be (w.last + 1) wk r writes x did m m' s n cd co w1 ∧
      ((∀ x ∈ xs, x.storeFails = false ∧ x.txFails = false) → wk = w.alloc.2)) := by
  have hs := hw.alloc.2.1
  rcases tx_none hL (hseq := by omega) writes xs _ (.refl hw be r) with
    ⟨e, w1, wk, h1, h2, h3, h4, h5, h6⟩ | ⟨w1, wk, x, did, m, m', s, n, cd, co, h1, h2, h3, h4, h5⟩
  · left
    rw [← hs] at h1
    refine ⟨e, w1.logIf (w.cb r) (.lost w.alloc.1), w1, wk, ?_, logIf_same _ _ _, h1, h2, h3, h4,
      h5, h6⟩
    rw [commit_eq, h1]
    rfl
  · right
    rw [← hs] at h1
    by_cases hc : (w.cb r && cbFails) = true
    · refine ⟨(w1.logIf (w.cb r) (.commit (L.hash cd.commit.val) w.alloc.1)).logIf (w.cb r)
        (.lost w.alloc.1), w1, wk, x, did, m, m', s, n, cd, co, ?_,
        (logIf_same _ _ _).trans (logIf_same _ _ _), h1, h2, h3, h4, h5⟩
      rw [commit_eq, h1]
      simp only
      rw [if_pos hc]
      exact if_pos hc
    · refine ⟨w1.logIf (w.cb r) (.commit (L.hash cd.commit.val) w.alloc.1), w1, wk, x, did, m, m',
        s, n, cd, co, ?_, logIf_same _ _ _, h1, h2, h3, h4, h5⟩
      rw [commit_eq, h1]
      simp only
      rw [if_neg hc]
      exact if_neg hc

/-- The left-overs of earlier attempts are invisible. -/
theorem Mid.shows (hL : L.OK Z) {be : Backend} {w wk : World C R} {r : Ref} (hw : WorldOK L Z w)
    (h : Mid L Z be (w.last + 1) r w.alloc.2 wk) {d : Did} (hd : isDid d) (m : Key → Option R) :
    Shows L be wk d m ↔ Shows L be w d m :=
  shows_of_head hL hw.core h.core hd (h.headOf d) h.grows m

theorem Done.isDid {be : Backend} {seq : Nat} {w w' : World C R} {r s : Ref}
    {writes : List (Write R)} {x : Luck} {did : Did} {m m' : Key → Option R} {n : Node C}
    {cd : CommitData C R} {co : Commit C} (hw : Core L Z seq w)
    (h : Done L Z be seq w r writes x did m m' s n cd co w') : isDid did := by
  obtain ⟨o, ho, hd, _⟩ := h.caller
  obtain ⟨m0, hm⟩ := hw.heap r o ho
  exact hm.isDid hw.blocks hd

theorem Done.before (hL : L.OK Z) {be : Backend} {seq : Nat} {w w' : World C R} {r s : Ref}
    {writes : List (Write R)} {x : Luck} {did : Did} {m m' : Key → Option R} {n : Node C}
    {cd : CommitData C R} {co : Commit C} (hw : Core L Z seq w)
    (h : Done L Z be seq w r writes x did m m' s n cd co w') : Shows L be w did m := by
  rw [shows_iff hL hw (h.isDid hw)]
  obtain ⟨w1, so, b, g1, g2, g3, g4, g5, g6, _⟩ := h.stored
  exact ⟨s, w1, so, g1, g2, g6 ▸ g3⟩

theorem Done.after (hL : L.OK Z) {be : Backend} {seq : Nat} {w w' : World C R} {r s : Ref}
    {writes : List (Write R)} {x : Luck} {did : Did} {m m' : Key → Option R} {n : Node C}
    {cd : CommitData C R} {co : Commit C} (hw : Core L Z seq w)
    (h : Done L Z be seq w r writes x did m m' s n cd co w') : Shows L be w' did m' := by
  have hd := h.isDid hw
  rw [shows_iff hL (h.core hw) hd, records_iff hL (h.core hw) hd]
  obtain ⟨w1, so, b, _, _, _, _, _, _, hb, _⟩ := h.stored
  obtain ⟨b', g1, g2, _⟩ := hb.head
  refine ⟨L.hash cd.commit.val, b', co, ?_, ?_, ?_, hb.codid, h.root hL⟩
  · rw [h.headOf hw, if_pos rfl]
  · rw [h.blocks]; exact g1
  · rw [g2, hb.commit]

/-- The caller's object is up to date. -/
theorem Done.object (hL : L.OK Z) {be : Backend} {seq : Nat} {w w' : World C R} {r s : Ref}
    {writes : List (Write R)} {x : Luck} {did : Did} {m m' : Key → Option R} {n : Node C}
    {cd : CommitData C R} {co : Commit C} (hw : Core L Z seq w)
    (h : Done L Z be seq w r writes x did m m' s n cd co w') :
    ∃ o', w'.heap[r]? = some o' ∧ o'.head = some cd.commit ∧ o'.did = some did ∧
      ObjShows L w' o' m' := by
  obtain ⟨w1, so, b, _, _, _, _, _, _, hb, _⟩ := h.stored
  obtain ⟨o, ho, hod, _⟩ := h.caller
  obtain ⟨mo, hmo⟩ := hw.heap r o ho
  refine ⟨upd n cd.commit o, ?_, rfl, hb.did o, ?_⟩
  · rw [h.heap r, if_pos (.inl rfl), ho]; rfl
  · have := hb.objRep (o := o) hmo.handle
    rw [← h.blocks] at this
    exact this.shows hL

theorem Shows.unique (hL : L.OK Z) {be : Backend} {seq : Nat} {w : World C R} (hw : Core L Z seq w)
    {d : Did} (hd : isDid d) {m m' : Key → Option R} (h : Shows L be w d m)
    (h' : Shows L be w d m') : m = m' :=
  ((shows_iff hL hw hd).1 h).unique hL ((shows_iff hL hw hd).1 h')

/-- Two worlds that differ only in the log look alike. -/
theorem shows_log (hL : L.OK Z) {be : Backend} {seq : Nat} {w w' : World C R} (hw : Core L Z seq w)
    (h : SameButLog w w') {d : Did} (hd : isDid d) (m : Key → Option R) :
    Shows L be w' d m ↔ Shows L be w d m :=
  shows_of_head hL hw (h.core hw) hd (headOf_log h d) (by obtain ⟨l, rfl⟩ := h; exact .refl _) m

end

end Arroba.Store
