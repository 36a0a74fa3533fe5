import Verif.Storage.TxProofs

/-! Helper lemmas: every API call preserves the invariant of the storage. -/

namespace Arroba.Store

variable {C R : Type} [DecidableEq C]

open Arroba.Tree

section
variable {L : Lib C R} {Z : Nat}

/-! ### Creating a repo -/

/-- A repo that is being created. -/
structure Newborn (L : Lib C R) (Z : Nat) (seq : Nat) (r : Ref) (did : Did) (o0 : RepoObj C R)
    (w0 w : World C R) : Prop where
  core : Core L Z seq w
  fresh : ∀ d, (d, r) ∉ w.repos
  rows : w.rows = w0.rows
  repos : w.repos = w0.repos
  seqs : w.seqs = w0.seqs
  log : w.log = w0.log
  grows : Grows w0.blocks w.blocks
  new : ∀ c b, dictGet w.blocks c = some b → dictGet w0.blocks c = some b ∨ b.seq = seq
  heap : ∀ i : Nat, i ≠ r → w.heap[i]? = w0.heap[i]?
  length : w.heap.length = w0.heap.length
  obj : ∃ o n h, w.heap[r]? = some o ∧ o = { o0 with mst := n, head := h } ∧ o0.status = none ∧
    ObjRep L Z w.blocks o (fun _ => none) ∧
    (h = none ∨ ∃ b co, h = some b ∧ b.val = .commit co ∧ co.did = did ∧ co.prev = none)

theorem ObjRep.noHead {blocks : List (C × Block C R)} {o : RepoObj C R} {m : Key → Option R}
    {l : Nat} {t : Tree C} {n : Node C}
    (hi : Inv L.env (nodeIn blocks) Z l t n (fun k => (m k).map L.rcid))
    (hr : ∀ k r, m k = some r → Has L blocks (.record r))
    (hh : ∀ h, o.handle = some h → ¬ Store.isDid h) :
    ObjRep L Z blocks { o with mst := n, head := none } m :=
  ⟨⟨l, t, hi, hi.treeOK hr, by intro b hb; cases hb⟩, hh⟩

theorem Newborn.set {seq : Nat} {r : Ref} {did : Did} {o0 : RepoObj C R} {w0 w : World C R}
    (h : Newborn L Z seq r did o0 w0 w) {blocks : List (C × Block C R)}
    (hg : Grows w.blocks blocks) (hb : BlocksOK L Z seq blocks)
    (hnew : ∀ c b, dictGet blocks c = some b → dictGet w.blocks c = some b ∨ b.seq = seq)
    {n : Node C} {hd : Option (Block C R)}
    (ho : ObjRep L Z blocks { o0 with mst := n, head := hd } (fun _ => none))
    (hh : hd = none ∨ ∃ b co, hd = some b ∧ b.val = .commit co ∧ co.did = did ∧ co.prev = none) :
    Newborn L Z seq r did o0 w0
      { w with blocks := blocks, heap := w.heap.set r { o0 with mst := n, head := hd } } := by
  have hc := h.core.addBlocks hg hb
  obtain ⟨o, _, _, ho1, _, hst, _⟩ := h.obj
  have hrl := (List.getElem?_eq_some_iff.1 ho1).1
  have hget : ∀ i : Nat, (w.heap.set r { o0 with mst := n, head := hd })[i]? =
      if i = r then some { o0 with mst := n, head := hd } else w.heap[i]? := by
    intro i
    rw [List.getElem?_set]
    by_cases hi : i = r
    · subst hi; simp [hrl]
    · rw [if_neg (fun h => hi h.symm), if_neg hi]
  refine ⟨⟨hb, ?_, ?_, hc.rows⟩, h.fresh, h.rows, h.repos, h.seqs, h.log, h.grows.trans hg, ?_, ?_,
    by simp [h.length], ?_⟩
  · intro i o' hi
    simp only [hget] at hi
    split at hi
    · cases hi; exact ⟨_, ho⟩
    · exact hc.heap i o' hi
  · intro d r' hr
    obtain ⟨o', h1, h2⟩ := h.core.repos d r' hr
    refine ⟨o', ?_, h2⟩
    simp only [hget]
    rw [if_neg, h1]
    rintro rfl
    exact h.fresh d hr
  · intro c b hb
    rcases hnew c b hb with h' | h'
    · exact h.new c b h'
    · exact .inr h'
  · intro i hi
    simp only [hget, if_neg hi]
    exact h.heap i hi
  · exact ⟨_, n, hd, by simp [hget], rfl, hst, ho, hh⟩

theorem attempt_create (hL : L.OK Z) {be : Backend} {w0 w : World C R} {seq : Nat} {r : Ref}
    {did : Did} {o0 : RepoObj C R} (hw : Newborn L Z seq r did o0 w0 w) (hseq : 1 ≤ seq)
    (hdid : isDid did) (x : Luck) :
    (∃ w1 e, commitBody L be w r [] seq (some did) x = (w1, .error e) ∧
      Newborn L Z seq r did o0 w0 w1 ∧ w1.blocks = w.blocks ∧
      (x.signFails = true ∨ x.writeFails = true ∨ 32 ^ 11 ≤ seq)) ∨
    (∃ w1 cd co n, commitBody L be w r [] seq (some did) x = (w1, .ok cd) ∧
      Newborn L Z seq r did o0 w0 w1 ∧
      Built L Z w.blocks seq did none o0.key x.nonce [] (fun _ => none) n cd co ∧
      w1.blocks = putBlocks L w.blocks (cd.blocks.map (·.2)) ∧
      w1.heap[r]? = some (upd n cd.commit o0)) := by
  obtain ⟨o, n0, h0, ho, hoe, hst, hrep, hhead⟩ := hw.obj
  rw [commitBody_eq, ho]
  simp only
  rw [if_neg (by omega), if_neg (by rw [hoe]; simpa using hst)]
  obtain ⟨l, t, hi, htr, _⟩ := hrep.tree
  have hoh : ∀ h, o0.handle = some h → ¬ isDid h := by
    have := hrep.handle; rw [hoe] at this; exact this
  have hno : ObjRep L Z w.blocks { o0 with mst := n0, head := none } (fun _ => none) := by
    refine ObjRep.noHead (l := l) (t := t) ?_ (fun k r h => by cases h) hoh
    rw [hoe] at hi; exact hi
  have hnb := hw.set (.refl _) hw.core.blocks (fun _ _ h => .inl h) hno (.inl rfl)
  have hbeg : beginCommit L be w r o (some did) =
      ({ w with heap := w.heap.set r { o0 with mst := n0, head := none } }, .ok (r, did, none)) := by
    unfold beginCommit
    subst hoe
    simp only
    rcases hhead with rfl | ⟨b, co, rfl, h2, h3, h4⟩
    · simp only
      congr
      have : w.heap.set r { o0 with mst := n0, head := none } = w.heap := by
        apply List.ext_getElem?
        intro i
        rw [List.getElem?_set]
        by_cases hi : r = i
        · subst hi
          rw [if_pos rfl, ho, if_pos (List.getElem?_eq_some_iff.1 ho).1]
        · rw [if_neg hi]
      cases w
      simp only at this ⊢
      rw [this]
    · simp only [h2, h3, h4, and_self, if_true]
      rfl
  rw [hbeg]
  simp only
  set wb : World C R := { w with heap := w.heap.set r { o0 with mst := n0, head := none } } with hwb
  obtain ⟨ob, nb, hb', hob, _⟩ := hnb.obj
  have hgetr : wb.heap[r]? = some { o0 with mst := n0, head := none } := by
    simp only [hwb]
    rw [List.getElem?_set, if_pos rfl, if_pos (List.getElem?_eq_some_iff.1 ho).1]
  have hspec := rest_spec hL (be := be) (r := r) (writes := []) (x := x) hnb.core.blocks hseq hgetr
    hno hdid (prev := none) (by intro p hp; cases hp) (fun _ => rfl)
  rw [if_neg (by simp)] at hspec
  simp only [specWrites] at hspec
  obtain ⟨n, ⟨l', t', hin⟩, hn⟩ := hspec
  have hset : ∀ (hd : Option (Block C R)), wb.setObj r { o0 with mst := n, head := hd } =
      { w with heap := w.heap.set r { o0 with mst := n, head := hd } } := by
    intro hd
    simp [World.setObj, hwb]
  have hfail : Newborn L Z seq r did o0 w0 (wb.setObj r { o0 with mst := n, head := none }) := by
    rw [hset]
    exact hw.set (.refl _) hw.core.blocks (fun _ _ h => .inl h)
      (ObjRep.noHead hin (fun k r h => by cases h) hoh) (.inl rfl)
  by_cases hsf : x.signFails = true
  · rw [if_pos hsf] at hn
    rw [hn]
    exact .inl ⟨_, _, rfl, hfail, rfl, .inl hsf⟩
  rw [if_neg hsf] at hn
  by_cases hmax : 32 ^ 11 ≤ seq
  · rw [if_pos hmax] at hn
    rw [hn]
    exact .inl ⟨_, _, rfl, hfail, rfl, .inr (.inr hmax)⟩
  rw [if_neg hmax] at hn
  obtain ⟨cd, co, hbuilt, hn⟩ := hn
  rw [hn]
  simp only [RepoObj.did, Option.isSome_none]
  unfold finishCommit
  by_cases hwf : be = .datastore ∧ x.writeFails = true
  · rw [if_pos hwf]
    exact .inl ⟨_, _, rfl, hfail, rfl, .inr (.inl hwf.2)⟩
  · rw [if_neg hwf]
    simp only [Bool.false_eq_true, if_false]
    right
    have hnew := hw.set (n := n) (hd := some cd.commit) (putBlocks_grows _ _) hbuilt.ok
      (fun c b h => hbuilt.newSeq h) (hbuilt.objRep hoh)
      (.inr ⟨cd.commit, co, rfl, by rw [hbuilt.commit], hbuilt.codid, hbuilt.coprev⟩)
    have hg1 : (wb.setObj r { o0 with mst := n, head := none }).heap[r]? =
        some { o0 with mst := n, head := none } := by
      rw [heap_setObj, if_pos rfl, hgetr]; rfl
    refine ⟨_, cd, co, n, rfl, ?_, hbuilt, ?_, ?_⟩
    · have e : ({ wb.setObj r { o0 with mst := n, head := none } with
            blocks := putBlocks L (wb.setObj r { o0 with mst := n, head := none }).blocks
              (cd.blocks.map (·.2)) } : World C R).modObj r
            (fun o => { o with mst := n, head := some cd.commit }) =
          { w with
            blocks := putBlocks L w.blocks (cd.blocks.map (·.2))
            heap := w.heap.set r { o0 with mst := n, head := some cd.commit } } := by
        unfold World.modObj
        simp only [hg1]
        simp [World.setObj, hwb]
      rw [e]
      exact hnew
    · rw [modObj_with]; rfl
    · rw [heap_modObj, if_pos rfl]
      simp only [hg1]; rfl

/-- Why the commit of a new repo may fail. -/
def CreateFails (seq : Nat) (xs : List Luck) : Prop :=
  xs = [] ∨ 32 ^ 11 ≤ seq ∨ ∃ x ∈ xs, x.signFails = true ∨ x.writeFails = true ∨ x.txFails = true

theorem collect_eq {w w' : World C R} (h : w'.heap.length = w.heap.length) : w'.collect w = w' := by
  simp only [World.collect, ← h, List.take_length]

theorem tx_create (hL : L.OK Z) {be : Backend} {w0 : World C R} {seq : Nat} {r : Ref}
    {did : Did} {o0 : RepoObj C R} (hseq : 1 ≤ seq) (hdid : isDid did) :
    ∀ (xs : List Luck) (w : World C R), Newborn L Z seq r did o0 w0 w →
    (∃ w1 e, commitTx L be r [] seq (some did) w xs = (w1, .error e) ∧
      Newborn L Z seq r did o0 w0 w1 ∧ ((∀ x ∈ xs, x.txFails = false) → w1.blocks = w.blocks) ∧
      CreateFails seq xs) ∨
    (∃ (w1 wk : World C R) (x : Luck) (cd : CommitData C R) (co : Commit C) (n : Node C),
      commitTx L be r [] seq (some did) w xs = (w1, .ok cd) ∧
      Newborn L Z seq r did o0 w0 w1 ∧ Newborn L Z seq r did o0 w0 wk ∧
      ((∀ x ∈ xs, x.txFails = false) → wk = w) ∧
      Built L Z wk.blocks seq did none o0.key x.nonce [] (fun _ => none) n cd co ∧
      w1.blocks = putBlocks L wk.blocks (cd.blocks.map (·.2)) ∧
      w1.heap[r]? = some (upd n cd.commit o0))
  | [], w, hw => .inl ⟨w, _, rfl, hw, fun _ => rfl, .inl rfl⟩
  | x :: xs, w, hw => by
    unfold commitTx
    rcases attempt_create hL (be := be) hw hseq hdid x with ⟨w1, e, h1, h2, h3, hc⟩ |
      ⟨w1, cd, co, n, h1, h2, h3, h4, h5⟩
    · rw [h1]
      simp only
      have e1 : ({ w1.collect w with rows := w.rows } : World C R) = w1 := by
        rw [collect_eq (h2.length.trans hw.length.symm), hw.rows, ← h2.rows]
      rw [e1]
      by_cases ht : be = .datastore ∧ x.txFails = true ∧ e = .runtime
      · rw [if_pos ht]
        have hnot : ¬ ∀ y ∈ x :: xs, y.txFails = false := by
          intro h
          have := h x List.mem_cons_self
          rw [ht.2.1] at this; cases this
        rcases tx_create hL hseq hdid xs w1 h2 with ⟨w2, e, k1, k2, k3, k4⟩ |
          ⟨w2, wk, x', cd', co', n', k1, k2, k3, k4, k5, k6, k7⟩
        · exact .inl ⟨w2, e, k1, k2, fun h => absurd h hnot,
            .inr (.inr ⟨x, List.mem_cons_self, .inr (.inr ht.2.1)⟩)⟩
        · exact .inr ⟨w2, wk, x', cd', co', n', k1, k2, k3, fun h => absurd h hnot, k5, k6, k7⟩
      rw [if_neg ht]
      left
      refine ⟨w1, e, rfl, h2, fun _ => h3, ?_⟩
      rcases hc with hc | hc | hc
      · exact .inr (.inr ⟨x, List.mem_cons_self, .inl hc⟩)
      · exact .inr (.inr ⟨x, List.mem_cons_self, .inr (.inl hc)⟩)
      · exact .inr (.inl hc)
    · rw [h1]
      simp only
      rw [collect_eq (h2.length.trans hw.length.symm)]
      by_cases ht : be = .datastore ∧ x.txFails = true
      · rw [if_pos ht]
        have e1 : ({ w1 with rows := w.rows } : World C R) = w1 := by
          rw [hw.rows, ← h2.rows]
        rw [e1]
        have hnot : ¬ ∀ y ∈ x :: xs, y.txFails = false := by
          intro h
          have := h x List.mem_cons_self
          rw [ht.2] at this; cases this
        rcases tx_create hL hseq hdid xs w1 h2 with ⟨w2, e, k1, k2, k3, k4⟩ |
          ⟨w2, wk, x', cd', co', n', k1, k2, k3, k4, k5, k6, k7⟩
        · exact .inl ⟨w2, e, k1, k2, fun h => absurd h hnot,
            .inr (.inr ⟨x, List.mem_cons_self, .inr (.inr ht.2)⟩)⟩
        · exact .inr ⟨w2, wk, x', cd', co', n', k1, k2, k3, fun h => absurd h hnot, k5, k6, k7⟩
      · rw [if_neg ht]
        exact .inr ⟨w1, w, x, cd, co, n, rfl, h2, hw, fun _ => rfl, h3, h4, h5⟩

/-! ### Sequence numbers -/

theorem alloc_spec (w : World C R) (h : 1 ≤ (dictGet w.seqs subscribeRepos).getD 1) :
    w.alloc.1 = w.last + 1 ∧ w.alloc.2 = { w with seqs := w.alloc.2.seqs } ∧
      w.alloc.2.last = w.last + 1 ∧ 1 ≤ (dictGet w.alloc.2.seqs subscribeRepos).getD 1 := by
  have e : (dictGet (dictSetDefault w.seqs subscribeRepos 1) subscribeRepos).getD 1 =
      (dictGet w.seqs subscribeRepos).getD 1 := by
    rw [dictGet_dictSetDefault]
    cases dictGet w.seqs subscribeRepos <;> simp
  have e1 : w.alloc.1 = (dictGet w.seqs subscribeRepos).getD 1 := by
    simp only [World.alloc, allocate, e]
  have e2 : dictGet w.alloc.2.seqs subscribeRepos =
      some ((dictGet w.seqs subscribeRepos).getD 1 + 1) := by
    simp only [World.alloc, allocate, e, dictGet_dictSet, if_true]
  refine ⟨?_, rfl, ?_, ?_⟩
  · rw [e1]; unfold World.last; omega
  · unfold World.last; rw [e2]; simp; omega
  · rw [e2]; simp

theorem Core.congr {seq : Nat} {w w' : World C R} (h : Core L Z seq w)
    (h1 : w'.blocks = w.blocks) (h2 : w'.heap = w.heap) (h3 : w'.repos = w.repos)
    (h4 : w'.rows = w.rows) : Core L Z seq w' := by
  obtain ⟨a, b, c, d⟩ := h
  cases w; cases w'
  simp only at h1 h2 h3 h4
  subst h1 h2 h3 h4
  exact ⟨a, b, c, d⟩

theorem logIf_with (w : World C R) (b : Bool) (c : CbCall C) :
    w.logIf b c = { w with log := (w.logIf b c).log } := by
  unfold World.logIf; split <;> rfl

theorem WorldOK.alloc {w : World C R} (h : WorldOK L Z w) : WorldOK L Z w.alloc.2 ∧
    w.alloc.1 = w.last + 1 ∧ w.alloc.2.last = w.last + 1 ∧
    (∀ c b, dictGet w.blocks c = some b → b.seq < w.last + 1) := by
  obtain ⟨h1, h2, h3, h4⟩ := alloc_spec w h.pos
  refine ⟨⟨h4, ?_⟩, h1, h3, fun c b hb => ?_⟩
  · rw [h3]
    exact (h.core.mono (Nat.le_succ _)).congr rfl rfl rfl rfl
  · have := (h.core.blocks.seqs c b hb); omega

theorem WorldOK.log {w : World C R} (h : WorldOK L Z w) (b : Bool) (c : CbCall C) :
    WorldOK L Z (w.logIf b c) := by
  rw [logIf_with]
  exact ⟨h.pos, (h.core).congr rfl rfl rfl rfl⟩

/-- A world that differs in sequence numbers as `w.alloc.2` does. -/
theorem WorldOK.of_core {w w' : World C R} (h : WorldOK L Z w) (hs : w'.seqs = w.alloc.2.seqs)
    (hc : Core L Z (w.last + 1) w') : WorldOK L Z w' := by
  obtain ⟨h1, h2, h3, h4⟩ := alloc_spec w h.pos
  refine ⟨by rw [hs]; exact h4, ?_⟩
  have : w'.last = w.last + 1 := by rw [← h3]; unfold World.last; rw [hs]
  rw [this]; exact hc

/-! ### Commits -/

theorem Mid.refl {w : World C R} (h : WorldOK L Z w) (be : Backend) (r : Ref) :
    Mid L Z be (w.last + 1) r w.alloc.2 w.alloc.2 := by
  obtain ⟨h1, h2, h3, h4⟩ := h.alloc
  refine ⟨h3 ▸ h1.core, ?_, rfl, rfl, rfl, rfl, .refl _, fun _ _ h => .inl h, fun i => .inl rfl⟩
  cases be with
  | memory => exact fun c b hb => h4 c b hb
  | datastore => exact fun d row b _ hb => h4 _ b hb

/-- Every live `Repo` object has a head. -/
def Live (w : World C R) : Prop := ∀ (r : Nat) (o : RepoObj C R), w.heap[r]? = some o → o.head ≠ none

theorem commit_eq (be : Backend) (w : World C R) (r : Ref) (writes : List (Write R))
    (repoDid : Option Did) (xs : List Luck) (cbFails : Bool) :
    commit L be w r writes repoDid xs cbFails =
      match commitTx L be r writes w.alloc.1 repoDid w.alloc.2 xs with
      | (w1, .error e) => (w1.logIf (((w.heap[r]?).map (·.callback)).getD false) (.lost w.alloc.1),
          .error e)
      | (w1, .ok cd) =>
        if (((w.heap[r]?).map (·.callback)).getD false && cbFails) = true then
          ((w1.logIf (((w.heap[r]?).map (·.callback)).getD false)
            (.commit (L.hash cd.commit.val) w.alloc.1)).logIf
              (((w.heap[r]?).map (·.callback)).getD false) (.lost w.alloc.1), .error .runtime)
        else (w1.logIf (((w.heap[r]?).map (·.callback)).getD false)
            (.commit (L.hash cd.commit.val) w.alloc.1), .ok cd) := rfl

theorem Quiet.untorn {be : Backend} {seq : Nat} {r : Ref} {w0 wk w1 : World C R} {e : Err}
    (hq : Quiet be wk w1) (hm : Mid L Z be seq r w0 wk)
    (hn : NotTorn be w0 (w1, (.error e : Except Err (CommitData C R)))) : w1 = wk := by
  suffices h : w1.heap = wk.heap by rw [hq.eq, h]
  rcases hq.heap with h | ⟨rfl, s, so, n, h1, h2⟩
  · exact h
  · have hsame : ∀ i : Nat, wk.heap[i]? = w0.heap[i]? := by
      intro i
      rcases hm.heap i with h | ⟨_, h, _⟩
      · exact h
      · cases h
    rcases hn with h | ⟨cd, h⟩ | h
    · cases h
    · cases h
    · obtain ⟨o', g1, g2⟩ := h s so (by rw [← hsame, h1])
      simp only at g1
      rw [h2, List.getElem?_set, if_pos rfl, if_pos (List.getElem?_eq_some_iff.1 h1).1] at g1
      cases g1
      simp only at g2
      subst g2
      rw [h2]
      apply List.ext_getElem?
      intro i
      rw [List.getElem?_set]
      by_cases hi : s = i
      · subst hi; rw [if_pos rfl, h1, if_pos (List.getElem?_eq_some_iff.1 h1).1]
      · rw [if_neg hi]

theorem Mid.live {be : Backend} {seq : Nat} {r : Ref} {w0 w : World C R}
    (h : Mid L Z be seq r w0 w) (hl : Live w0) : Live w := by
  intro i o hi
  rcases h.heap i with h' | ⟨_, _, o', n, b, h1, h2, _⟩
  · rw [h'] at hi; exact hl i o hi
  · rw [h2] at hi; cases hi; simp [upd]

theorem Done.live {be : Backend} {seq : Nat} {w w' : World C R} {r s : Ref}
    {writes : List (Write R)} {x : Luck} {did : Did} {m m' : Key → Option R} {n : Node C}
    {cd : CommitData C R} {co : Commit C}
    (h : Done L Z be seq w r writes x did m m' s n cd co w') (hl : Live w) : Live w' := by
  intro i o hi
  rw [h.heap i] at hi
  split at hi
  · cases hw : w.heap[i]? with
    | none => rw [hw] at hi; cases hi
    | some o' => rw [hw] at hi; cases hi; simp [upd]
  · exact hl i o hi

theorem Wrote.core {be : Backend} {seq : Nat} {w w' : World C R} (hw : Core L Z seq w)
    (h : Wrote L Z be seq w w') : Core L Z seq w' := by
  rw [h.eq]; exact hw.addBlocks h.grows h.ok

theorem commit_ok (hL : L.OK Z) {be : Backend} {w : World C R} (hw : WorldOK L Z w) (hl : Live w)
    (r : Ref) (writes : List (Write R)) (xs : List Luck) (cbFails : Bool)
    (ht : NotTorn be w (commitTx L be r writes w.alloc.1 none w.alloc.2 xs)) :
    WorldOK L Z (commit L be w r writes none xs cbFails).1 ∧
      Live (commit L be w r writes none xs cbFails).1 := by
  rw [commit_eq]
  have hs := hw.alloc.2.1
  have hlog : ∀ {w1 : World C R} (b : Bool) (c : CbCall C), WorldOK L Z w1 ∧ Live w1 →
      WorldOK L Z (w1.logIf b c) ∧ Live (w1.logIf b c) := by
    intro w1 b c h
    refine ⟨h.1.log b c, ?_⟩
    rw [logIf_with]; exact h.2
  have hl0 : Live w.alloc.2 := hl
  rcases tx_none hL (hseq := by omega) writes xs _ (.refl hw be r) with
    ⟨e, w', wk, h1, h2, h3, _, _⟩ | ⟨w', wk, x, did, m, m', s, n, cd, co, h1, h2, _, h3, _⟩
  · rw [← hs] at h1
    rw [h1] at ht ⊢
    apply hlog
    rcases h3 with h3 | h3
    · have := h3.untorn h2 ht
      subst this
      exact ⟨hw.of_core h2.seqs h2.core, h2.live hl0⟩
    · have h4 := h3.core h2.core
      refine ⟨hw.of_core ?_ h4, ?_⟩
      · rw [h3.eq]; exact h2.seqs
      · rw [h3.eq]; exact h2.live hl0
  · rw [← hs] at h1
    rw [h1]
    simp only
    have h4 : WorldOK L Z w' ∧ Live w' :=
      ⟨hw.of_core (h3.seqs.trans h2.seqs) (h3.core h2.core), h3.live (h2.live hl0)⟩
    split
    · exact hlog _ _ (hlog _ _ h4)
    · exact hlog _ _ h4

/-! ### Events -/

theorem putBlocks_one (blocks : List (C × Block C R)) (b : Block C R) :
    dictSetDefault blocks (L.hash b.val) b = putBlocks L blocks [b] := rfl

theorem BlocksOK.putEvent (hL : L.OK Z) {seq : Nat} {blocks : List (C × Block C R)}
    (h : BlocksOK L Z seq blocks) (kind : EventKind C) (d : Did) (time : Nat)
    (hs : 1 ≤ seq) :
    BlocksOK L Z seq (putBlocks L blocks [⟨.event ⟨kind, seq, d, time⟩, seq, none, d⟩]) := by
  set b : Block C R := ⟨.event ⟨kind, seq, d, time⟩, seq, none, d⟩ with hb
  have hg : Grows blocks (putBlocks L blocks [b]) := putBlocks_grows _ _
  have hn : nodeIn (putBlocks L blocks [b]) = nodeIn blocks := by
    rw [nodeIn_put hL.inj h.addr [b] [] (by simp) (by intro d; simp [hb])]
    funext c
    simp [writeBlocks, dictGet]
  refine ⟨h.addr.put _, hn ▸ h.store, ?_, ?_, ?_, ?_⟩
  · intro c x hx
    rcases putBlocks_get _ _ hx with h' | ⟨_, h', _⟩
    · exact h.seqs c x h'
    · simp only [List.mem_singleton] at h'; subst h'; simp [hb]
  · intro c x co hx hv
    rcases putBlocks_get _ _ hx with h' | ⟨_, h', _⟩
    · exact (h.commits c x co h' hv).imp (·.grow hg) (·.grow hg)
    · simp only [List.mem_singleton] at h'; subst h'; cases hv
  · intro c x e hx hv
    rcases putBlocks_get _ _ hx with h' | ⟨_, h', _⟩
    · exact h.events c x e h' hv
    · simp only [List.mem_singleton] at h'; subst h'; cases hv; simp [hb]
  · intro c x d hx hv c' hc'
    rcases putBlocks_get _ _ hx with h' | ⟨_, h', _⟩
    · obtain ⟨b', h1, h2⟩ := h.links c x d h' hv c' hc'
      exact ⟨b', hg _ _ h1, h2⟩
    · simp only [List.mem_singleton] at h'; subst h'; cases hv

/-- `write_event` on a repo that exists always succeeds; it stores exactly one new block. -/
theorem event_spec (hL : L.OK Z) (be : Backend) {w : World C R} (hw : WorldOK L Z w) {r : Ref}
    {o : RepoObj C R} {d : Did} (ho : w.heap[r]? = some o) (hd : o.did = some d)
    (kind : EventKind C) (time : Nat) :
    ∃ e : Event C, e = ⟨kind, w.last + 1, d, time⟩ ∧ dictGet w.blocks (L.hash (.event e)) = none ∧
      writeEvent L be w r kind time = (({ w.alloc.2 with
          blocks := putBlocks L w.blocks [⟨.event e, w.last + 1, none, d⟩] } : World C R).logIf
            o.callback (.event e), .ok ⟨.event e, w.last + 1, none, d⟩) ∧
      WorldOK L Z (writeEvent L be w r kind time).1 := by
  obtain ⟨h1, h2, h3, h4⟩ := hw.alloc
  refine ⟨⟨kind, w.last + 1, d, time⟩, rfl, ?_⟩
  set e : Event C := ⟨kind, w.last + 1, d, time⟩ with he
  have hfresh : dictGet w.blocks (L.hash (.event e)) = none := by
    cases hg : dictGet w.blocks (L.hash (.event e)) with
    | none => rfl
    | some b =>
      exfalso
      have hv := hL.inj (hw.core.blocks.addr _ _ hg)
      have := hw.core.blocks.events _ b e hg hv
      have h5 := h4 _ b hg
      rw [← this.1] at h5
      simp [he] at h5
  have hval : writeEvent L be w r kind time = (({ w.alloc.2 with
          blocks := putBlocks L w.blocks [⟨.event e, w.last + 1, none, d⟩] } : World C R).logIf
            o.callback (.event e), .ok ⟨.event e, w.last + 1, none, d⟩) := by
    unfold writeEvent
    simp only [ho, hd, h2]
    rw [← he]
    unfold write
    cases be with
    | memory => rfl
    | datastore =>
      simp only
      rw [if_neg (by omega)]
      have : dictGet (dictSetDefault w.alloc.2.blocks (L.hash (.event e))
          (⟨.event e, w.last + 1, none, d⟩ : Block C R)) (L.hash (.event e)) =
          some ⟨.event e, w.last + 1, none, d⟩ := by
        rw [dictGet_dictSetDefault, show w.alloc.2.blocks = w.blocks from rfl, hfresh]; simp
      rw [this]
      simp only [Nat.le_refl, if_true]
      rfl
  refine ⟨hfresh, hval, ?_⟩
  rw [hval]
  apply WorldOK.log
  refine hw.of_core rfl ?_
  have hc := h1.core
  rw [h3] at hc
  exact hc.addBlocks (putBlocks_grows _ _) (hc.blocks.putEvent hL kind d time (by omega))

/-! ### Status -/

theorem ObjRep.status {blocks : List (C × Block C R)} {o : RepoObj C R} {m : Key → Option R}
    (h : ObjRep L Z blocks o m) (s : Option Status) : ObjRep L Z blocks { o with status := s } m :=
  ⟨h.tree, h.handle⟩

theorem WorldOK.setObj {w : World C R} (h : WorldOK L Z w) {r : Ref} {o o' : RepoObj C R}
    (ho : w.heap[r]? = some o) (hd : o'.did = o.did) {m : Key → Option R}
    (hm : ObjRep L Z w.blocks o' m) : WorldOK L Z (w.setObj r o') := by
  refine ⟨h.pos, h.core.blocks, ?_, ?_, h.core.rows⟩
  · intro i oi hi
    rw [heap_setObj] at hi
    split at hi
    · rename_i hir
      subst hir
      rw [ho] at hi
      cases hi
      exact ⟨m, hm⟩
    · exact h.core.heap i oi hi
  · intro d i hi
    obtain ⟨oi, h1, h2⟩ := h.core.repos d i hi
    rw [heap_setObj]
    split
    · rename_i hir
      subst hir
      rw [ho] at h1
      cases h1
      exact ⟨o', by rw [ho]; rfl, hd.trans h2⟩
    · exact ⟨oi, h1, h2⟩

theorem Live.setObj {w : World C R} (h : Live w) {r : Ref} {o : RepoObj C R} (ho : o.head ≠ none) :
    Live (w.setObj r o) := by
  intro i oi hi
  rw [heap_setObj] at hi
  split at hi
  · cases hw : w.heap[i]? with
    | none => rw [hw] at hi; cases hi
    | some _ => rw [hw] at hi; cases hi; exact ho
  · exact h i oi hi

theorem Live.did {w : World C R} (hw : WorldOK L Z w) (hl : Live w) {r : Ref} {o : RepoObj C R}
    (ho : w.heap[r]? = some o) : ∃ d, o.did = some d := by
  obtain ⟨m, hm⟩ := hw.core.heap r o ho
  obtain ⟨b, hb⟩ := Option.ne_none_iff_exists'.1 (hl r o ho)
  obtain ⟨l, t, _, _, h3⟩ := hm.tree
  obtain ⟨b', co, _, _, h4, _⟩ := h3 b hb
  exact ⟨_, did_eq hb h4⟩

theorem event_ok (hL : L.OK Z) {be : Backend} {w : World C R} (hw : WorldOK L Z w) (hl : Live w)
    (r : Ref) (kind : EventKind C) (time : Nat) :
    WorldOK L Z (writeEvent L be w r kind time).1 ∧ Live (writeEvent L be w r kind time).1 := by
  cases ho : w.heap[r]? with
  | none =>
    have : writeEvent L be w r kind time = (w.alloc.2, .error .attribute) := by
      unfold writeEvent; simp only [ho]
    rw [this]
    exact ⟨hw.alloc.1, hl⟩
  | some o =>
    obtain ⟨d, hd⟩ := hl.did hw ho
    obtain ⟨e, _, _, h3, h4⟩ := event_spec hL be hw ho hd kind time
    refine ⟨h4, ?_⟩
    rw [h3, logIf_with]
    exact hl

/-- `_set_repo_status`, on the object and (Datastore) on the stored row. -/
theorem setRepoStatus_ok {be : Backend} {w : World C R} (hw : WorldOK L Z w) (hl : Live w)
    (r : Ref) (s : Option Status) :
    WorldOK L Z (setRepoStatus be w r s).1 ∧ Live (setRepoStatus be w r s).1 := by
  unfold setRepoStatus
  cases ho : w.heap[r]? with
  | none => exact ⟨hw, hl⟩
  | some o =>
    simp only
    obtain ⟨m, hm⟩ := hw.core.heap r o ho
    have h1 : WorldOK L Z (w.setObj r { o with status := s }) :=
      hw.setObj ho rfl (hm.status s)
    have h2 : Live (w.setObj r { o with status := s }) := hl.setObj (hl r o ho)
    cases be with
    | memory => exact ⟨h1, h2⟩
    | datastore =>
      simp only
      cases hd : o.did with
      | none => exact ⟨h1, h2⟩
      | some d =>
        simp only
        cases hr : dictGet (w.setObj r { o with status := s }).rows d with
        | none => exact ⟨h1, h2⟩
        | some row =>
          simp only
          refine ⟨⟨h1.pos, h1.core.blocks, h1.core.heap, h1.core.repos, fun d' row' hr' => ?_⟩, h2⟩
          rcases mem_dictSet hr' with hr' | hr'
          · cases hr'
            exact h1.core.rows d row (dictGet_mem hr)
          · exact h1.core.rows d' row' hr'

theorem setStatusEvent_ok (hL : L.OK Z) {be : Backend} {w : World C R} (hw : WorldOK L Z w)
    (hl : Live w) (r : Ref) (s : Option Status) (kind : EventKind C) (time : Nat) :
    WorldOK L Z (setStatusEvent L be w r s kind time).1 ∧
      Live (setStatusEvent L be w r s kind time).1 := by
  unfold setStatusEvent
  have h1 := setRepoStatus_ok (be := be) hw hl r s
  cases hs : setRepoStatus be w r s with
  | mk w1 res =>
    rw [hs] at h1
    cases res with
    | error e => exact h1
    | ok u =>
      simp only
      have h2 := event_ok hL (be := be) h1.1 h1.2 r kind time
      cases he : writeEvent L be w1 r kind time with
      | mk w2 res2 =>
        rw [he] at h2
        cases res2 <;> exact h2

/-! ### Loading -/

theorem repoLoad_ok {w : World C R} (hw : WorldOK L Z w) (hl : Live w) (c : C)
    (handle : Option Key) (status : Option Status) (key : Nat) (callback : Bool)
    (hh : ∀ h, handle = some h → ¬ isDid h) :
    WorldOK L Z (repoLoad w c handle status key callback).1 ∧
      Live (repoLoad w c handle status key callback).1 := by
  unfold repoLoad commitAt World.read
  cases hc : dictGet w.blocks c with
  | none => exact ⟨hw, hl⟩
  | some b =>
    simp only
    cases hv : b.val with
    | commit co =>
      simp only [World.newObj]
      obtain ⟨m, hm⟩ := hw.core.blocks.root hc hv
      obtain ⟨l, t, g1, g2, g3⟩ := hm.load
      have ha := hw.core.blocks.addr _ _ hc
      have hso : ObjRep L Z w.blocks ⟨load co.data, some b, handle, status, key, callback⟩ m := by
        refine ⟨⟨l, t, g1, g2, ?_⟩, hh⟩
        intro x hx
        simp only [Option.some.injEq] at hx
        subst hx
        exact ⟨b, co, by rw [ha]; exact hc, rfl, hv, g3.symm⟩
      refine ⟨⟨hw.pos, hw.core.blocks, ?_, ?_, hw.core.rows⟩, ?_⟩
      · intro i o hi
        simp only [List.getElem?_append] at hi
        split at hi
        · exact hw.core.heap i o hi
        · have : i - w.heap.length = 0 := by
            by_contra hne
            rw [List.getElem?_eq_none (by simp; omega)] at hi
            cases hi
          rw [this] at hi
          cases hi
          exact ⟨m, hso⟩
      · intro d i hi
        obtain ⟨o, h1, h2⟩ := hw.core.repos d i hi
        exact ⟨o, by
          simp only [List.getElem?_append, (List.getElem?_eq_some_iff.1 h1).1, if_true]
          exact h1, h2⟩
      · intro i o hi
        simp only [List.getElem?_append] at hi
        split at hi
        · exact hl i o hi
        · have : i - w.heap.length = 0 := by
            by_contra hne
            rw [List.getElem?_eq_none (by simp; omega)] at hi
            cases hi
          rw [this] at hi
          cases hi
          simp
    | node _ => exact ⟨hw, hl⟩
    | record _ => exact ⟨hw, hl⟩
    | event _ => exact ⟨hw, hl⟩

theorem loadRepo_ok {be : Backend} {w : World C R} (hw : WorldOK L Z w) (hl : Live w) (q : Key) :
    WorldOK L Z (loadRepo be w q).1 ∧ Live (loadRepo be w q).1 := by
  unfold loadRepo
  split
  · exact ⟨hw, hl⟩
  · cases be with
    | memory => exact ⟨hw, hl⟩
    | datastore =>
      simp only
      cases hr : findRow w q with
      | none => exact ⟨hw, hl⟩
      | some row =>
        simp only
        have hrow : ∃ d, (d, row) ∈ w.rows := by
          unfold findRow at hr
          split at hr
          · rename_i row' h; cases hr; exact ⟨q, dictGet_mem h⟩
          · rw [Option.map_eq_some_iff] at hr
            obtain ⟨kv, h1, rfl⟩ := hr
            exact ⟨kv.1, List.mem_of_find?_eq_some h1⟩
        obtain ⟨d, hrow⟩ := hrow
        have := repoLoad_ok hw hl row.head row.handle row.status row.key false
          (hw.core.rows d row hrow).1
        cases hl' : repoLoad w row.head row.handle row.status row.key false with
        | mk w1 res =>
          rw [hl'] at this
          cases res <;> exact this

end

end Arroba.Store
