import Verif.Storage.PlainWorld
import Verif.Storage.CommitProofs

/-! Helper lemmas: the invariant of `PlainProofs.lean` holds in every reachable world. -/

namespace Arroba.Store

variable {C R : Type} [DecidableEq C]

open Arroba.Tree

section
variable {L : Lib C R} {Z : Nat} {be : Backend} {w : World C R}

theorem PCore.undoRows {hi lo lo' : Nat} {w₀ : World C R} (h : PCore L Z .datastore hi lo' w)
    (h₀ : PCore L Z .datastore hi lo w₀) (hg : Grows w₀.blocks w.blocks) :
    PCore L Z .datastore hi lo { w with rows := w₀.rows } := by
  refine ⟨h.blocks, h.heap, h.repos, fun d row hd => ?_, fun hb => by cases hb⟩
  obtain ⟨g1, b, co, g2, g3⟩ := h₀.rows d row hd
  exact ⟨g1, b, co, hg _ _ g2, g3⟩

theorem PDone.grows {seq : Nat} {r : Ref} {repoDid : Option Did} {w' : World C R}
    {cd : CommitData C R} {did : Did} {prev : Option C} {co : Commit C}
    (h : PDone L Z be seq w r repoDid w' cd did prev co) : Grows w.blocks w'.blocks := by
  rw [h.blocks]; exact putBlocks_grows _ _

theorem collect_get {w w' : World C R} {i : Nat} (hi : i < w.heap.length) :
    (w'.collect w).heap[i]? = w'.heap[i]? := by
  show (w'.heap.take w.heap.length)[i]? = _
  rw [List.getElem?_take_of_lt hi]

theorem lt_of_get {w : World C R} {i : Nat} {o : RepoObj C R} (h : w.heap[i]? = some o) :
    i < w.heap.length := (List.getElem?_eq_some_iff.1 h).1

theorem Dids.collect {P : Nat → Prop} {w w' : World C R} (h : Dids P w w') :
    Dids P w (w'.collect w) := by
  intro i o d hp ho hd
  rw [collect_get (lt_of_get ho)]
  exact h i o d hp ho hd

theorem headOf_collect {w w' : World C R} (hl : be = .memory → w'.heap.length = w.heap.length)
    (d : Did) : headOf L be (w'.collect w) d = headOf L be w' d := by
  cases be with
  | datastore => rfl
  | memory => rw [collect_eq (hl rfl)]

theorem length_collect {w w' : World C R} (hl : w.heap.length ≤ w'.heap.length) :
    (w'.collect w).heap.length = w.heap.length := by
  show (w'.heap.take _).length = _
  rw [List.length_take]; omega

/-- What `commitTx` does. -/
theorem tx_plain (hL : L.OK Z) {seq lo : Nat} {r : Ref} {repoDid : Option Did}
    (writes : List (Write R)) (hlo : lo < seq) : ∀ (xs : List Luck) {w : World C R},
    PCore L Z be seq lo w → (∀ d, repoDid = some d → isDid d ∧ ∀ d', (d', r) ∉ w.repos) →
    match commitTx L be r writes seq repoDid w xs with
    | (w', .error _) => PCore L Z be seq lo w' ∧ w'.rows = w.rows ∧ w'.repos = w.repos ∧
        w'.heap.length = w.heap.length ∧ Grows w.blocks w'.blocks ∧
        (∀ d', headOf L be w' d' = headOf L be w d') ∧
        Dids (fun i => repoDid = none ∨ i ≠ r) w w' ∧
        ((∀ x ∈ xs, x.storeFails = false ∧ x.txFails = false) → w'.blocks = w.blocks)
    | (w', .ok cd) => PCore L Z be seq seq w' ∧ w'.heap.length = w.heap.length ∧
        ∃ wk did prev co, PCore L Z be seq lo wk ∧ wk.rows = w.rows ∧ wk.repos = w.repos ∧
          wk.heap.length = w.heap.length ∧ Grows w.blocks wk.blocks ∧
          (∀ d', headOf L be wk d' = headOf L be w d') ∧
          Dids (fun i => repoDid = none ∨ i ≠ r) w wk ∧
          PDone L Z be seq wk r repoDid w' cd did prev co ∧
          ((∀ x ∈ xs, x.storeFails = false ∧ x.txFails = false) → wk = w)
  | [], w, hw, hm => ⟨hw, rfl, rfl, rfl, fun _ _ h => h, fun _ => rfl, .refl _ _, fun _ => rfl⟩
  | x :: xs, w, hw, hm => by
    have ha := attempt_plain hL (writes := writes) (x := x) hw hlo hm
    unfold commitTx
    rcases hb : commitBody L be w r writes seq repoDid x with ⟨w1, res⟩
    rw [hb] at ha
    cases res with
    | error e =>
      obtain ⟨h1, h2, h3, h4, h5, h6, h7, h8, h9⟩ := ha
      dsimp only
      have hrows : ({ w1.collect w with rows := w.rows } : World C R) = w1.collect w := by
        rw [← h2]; rfl
      rw [hrows]
      have hcl : be = .datastore ∨ w1.heap.length ≤ w.heap.length := by
        cases be with
        | datastore => exact .inl rfl
        | memory => exact .inr (h5 rfl).le
      by_cases ht : be = .datastore ∧ x.txFails = true ∧ e = .runtime
      · rw [if_pos ht]
        have hw2 : PCore L Z be seq lo (w1.collect w) := h1.collect hcl
        have ih := tx_plain hL (r := r) (repoDid := repoDid) writes hlo xs (w := w1.collect w) hw2 (by
          intro d hd'
          obtain ⟨g1, g2⟩ := hm d hd'
          refine ⟨g1, fun d' => ?_⟩
          show (d', r) ∉ w1.repos
          rw [h3]; exact g2 d')
        have hdids : Dids (fun i => repoDid = none ∨ i ≠ r) w (w1.collect w) := h9.collect
        have hlen : (w1.collect w).heap.length = w.heap.length := length_collect h4
        have hhead : ∀ d', headOf L be (w1.collect w) d' = headOf L be w d' :=
          fun d' => (headOf_collect h5 d').trans (h8 d')
        have hr : (w1.collect w).rows = w.rows := h2
        have hno : ¬ ∀ y ∈ x :: xs, y.storeFails = false ∧ y.txFails = false := by
          intro h
          have := (h x List.mem_cons_self).2
          rw [ht.2.1] at this; cases this
        rcases hc : commitTx L be r writes seq repoDid (w1.collect w) xs with ⟨w2, res⟩
        rw [hc] at ih
        cases res with
        | error e =>
          obtain ⟨i1, i2, i3, i4, i5, i6, i7, i8⟩ := ih
          exact ⟨i1, i2.trans hr, i3.trans h3, i4.trans hlen, h6.trans i5,
            fun d' => (i6 d').trans (hhead d'), hdids.trans i7, fun h => absurd h hno⟩
        | ok cd2 =>
          obtain ⟨i0, i1, wk, did2, prev2, co2, i2, i3, i4, i5, i6, i7, i8, i9, i10⟩ := ih
          exact ⟨i0, i1.trans hlen, wk, did2, prev2, co2, i2, i3.trans hr, i4.trans h3, i5.trans hlen,
            h6.trans i6, fun d' => (i7 d').trans (hhead d'), hdids.trans i8, i9,
            fun h => absurd h hno⟩
      rw [if_neg ht]
      refine ⟨h1.collect hcl, h2, h3, length_collect h4, h6,
        fun d' => (headOf_collect h5 d').trans (h8 d'), h9.collect, fun hx => ?_⟩
      rcases h7 with h7 | ⟨_, h7⟩
      · exact h7
      · rw [(hx x List.mem_cons_self).1] at h7; cases h7
    | ok cd =>
      obtain ⟨h1, did, prev, co, hd⟩ := ha
      dsimp only
      have hcl : be = .datastore ∨ w1.heap.length ≤ w.heap.length := by
        cases be with
        | datastore => exact .inl rfl
        | memory => exact .inr (hd.length.2 rfl).le
      by_cases ht : be = .datastore ∧ x.txFails = true
      · rw [if_pos ht]
        have ihg := fun (w' : World C R) h h' =>
          tx_plain hL (r := r) (repoDid := repoDid) writes hlo xs (w := w') h h'
        obtain ⟨rfl, ht⟩ := ht
        have hw2 : PCore L Z .datastore seq lo ({ w1.collect w with rows := w.rows } : World C R) :=
          (h1.collect hcl).undoRows hw hd.grows
        have hrepos : w1.repos = w.repos := by
          have e1 : w1.repos = [] := by
            cases hr : w1.repos with
            | nil => rfl
            | cons a l =>
              obtain ⟨k, _⟩ := h1.repos a.1 a.2 (by rw [hr]; exact List.mem_cons_self)
              cases k
          have e2 : w.repos = [] := by
            cases hr : w.repos with
            | nil => rfl
            | cons a l =>
              obtain ⟨k, _⟩ := hw.repos a.1 a.2 (by rw [hr]; exact List.mem_cons_self)
              cases k
          rw [e1, e2]
        have ih := ihg _ hw2 (by
          intro d hd'
          obtain ⟨g1, g2⟩ := hm d hd'
          refine ⟨g1, fun d' => ?_⟩
          show (d', r) ∉ w1.repos
          rw [hrepos]; exact g2 d')
        have hdids : Dids (fun i => repoDid = none ∨ i ≠ r) w
            ({ w1.collect w with rows := w.rows } : World C R) := hd.dids.collect
        have hlen : ({ w1.collect w with rows := w.rows } : World C R).heap.length = w.heap.length :=
          length_collect hd.length.1
        have hno : ¬ ∀ y ∈ x :: xs, y.storeFails = false ∧ y.txFails = false := by
          intro h
          have := (h x List.mem_cons_self).2
          rw [ht] at this; cases this
        rcases hc : commitTx L .datastore r writes seq repoDid
          ({ w1.collect w with rows := w.rows } : World C R) xs with ⟨w2, res⟩
        rw [hc] at ih
        cases res with
        | error e =>
          obtain ⟨i1, i2, i3, i4, i5, i6, i7, i8⟩ := ih
          exact ⟨i1, i2, i3.trans hrepos, i4.trans hlen, hd.grows.trans i5,
            fun d' => (i6 d').trans (headOf_rows rfl d'), hdids.trans i7, fun h => absurd h hno⟩
        | ok cd2 =>
          obtain ⟨i0, i1, wk, did2, prev2, co2, i2, i3, i4, i5, i6, i7, i8, i9, i10⟩ := ih
          exact ⟨i0, i1.trans hlen, wk, did2, prev2, co2, i2, i3, i4.trans hrepos, i5.trans hlen,
            hd.grows.trans i6, fun d' => (i7 d').trans (headOf_rows rfl d'), hdids.trans i8, i9,
            fun h => absurd h hno⟩
      · rw [if_neg ht]
        refine ⟨h1.collect hcl, length_collect hd.length.1, w, did, prev, co, hw, rfl, rfl, rfl,
          fun _ _ h => h, fun _ => rfl, .refl _ _, ?_, fun _ => rfl⟩
        obtain ⟨k1, k2, k3, k4, k5, k6, k7, k8⟩ := hd
        refine ⟨k1, k2, k3, k4, ?_, ⟨(length_collect k6.1).ge, fun _ => length_collect k6.1⟩,
          k7.collect, ?_⟩
        · obtain ⟨o, ho, _⟩ := k1
          rw [collect_get (lt_of_get ho)]; exact k5
        · cases repoDid with
          | none =>
            obtain ⟨j1, j2, j3, j4⟩ := k8
            exact ⟨j1, j2, (headOf_collect k6.2 _).trans j3,
              fun d' hd' => (headOf_collect k6.2 _).trans (j4 d' hd')⟩
          | some d =>
            obtain ⟨j1, j2, j3, j4, j5⟩ := k8
            exact ⟨j1, j2, j3, j4, fun d' => (headOf_collect k6.2 _).trans (j5 d')⟩

/-! ### Worlds -/

/-- The invariant of a world. -/
structure PWorld (L : Lib C R) (Z : Nat) (be : Backend) (w : World C R) : Prop where
  pos : 1 ≤ (dictGet w.seqs subscribeRepos).getD 1
  core : PCore L Z be w.last w.last w

theorem PWorld.alloc (h : PWorld L Z be w) : w.alloc.1 = w.last + 1 ∧
    w.alloc.2.last = w.last + 1 ∧ PCore L Z be (w.last + 1) w.last w.alloc.2 ∧
    1 ≤ (dictGet w.alloc.2.seqs subscribeRepos).getD 1 := by
  obtain ⟨h1, h2, h3, h4⟩ := alloc_spec w h.pos
  exact ⟨h1, h3, (h.core.up (Nat.le_succ _) (le_refl _)).congr rfl rfl rfl rfl, h4⟩

theorem PWorld.of_core {w' : World C R} (h : PWorld L Z be w) (hs : w'.seqs = w.alloc.2.seqs)
    (hc : PCore L Z be (w.last + 1) (w.last + 1) w') : PWorld L Z be w' := by
  obtain ⟨h1, h3, _, h4⟩ := h.alloc
  have : w'.last = w.last + 1 := by rw [← h3]; unfold World.last; rw [hs]
  exact ⟨by rw [hs]; exact h4, by rw [this]; exact hc⟩

theorem PWorld.last_eq {w' : World C R} (h : PWorld L Z be w) (hs : w'.seqs = w.alloc.2.seqs) :
    w'.last = w.last + 1 := by
  rw [← h.alloc.2.1]; unfold World.last; rw [hs]

theorem PWorld.same {w' : World C R} (h : PWorld L Z be w) (hs : w'.seqs = w.seqs)
    (hc : PCore L Z be w.last w.last w') : PWorld L Z be w' := by
  have : w'.last = w.last := by unfold World.last; rw [hs]
  exact ⟨by rw [hs]; exact h.pos, by rw [this]; exact hc⟩

theorem PWorld.log (h : PWorld L Z be w) (b : Bool) (c : CbCall C) :
    PWorld L Z be (w.logIf b c) := by
  rw [logIf_with]
  exact ⟨h.pos, h.core.congr rfl rfl rfl rfl⟩

/-- How the heads of the stored repos change. -/
inductive PEff (L : Lib C R) (be : Backend) (al : Allow) (w w' : World C R) : Prop
  | none (h : ∀ d, headOf L be w' d = headOf L be w d)
  | create (d : Did) (b : Block C R) (co : Commit C) (hb : b.val = .commit co)
      (hp : co.prev = none)
      (h : ∀ d', headOf L be w' d' = if d' = d then some (L.hash b.val) else headOf L be w d')
  | commit (d : Did) (b : Block C R) (co : Commit C) (hb : b.val = .commit co)
      (hp : co.prev = headOf L be w d) (hp' : co.prev ≠ none)
      (hs : ∃ b', dictGet w'.blocks (L.hash b.val) = some b' ∧ 1 ≤ b'.seq)
      (h : ∀ d', headOf L be w' d' = if d' = d then some (L.hash b.val) else headOf L be w d')
  | import (d : Did) (co : Commit C) (hd : co.did = d) (hi : al.imports)
      (hs : ∃ b, dictGet w'.blocks (L.hash (.commit co)) = some b ∧ b.val = .commit co ∧ b.seq = 0)
      (h : ∀ d', headOf L be w' d' = if d' = d then some (L.hash (.commit co)) else headOf L be w d')
      (hno : headOf L be w d = .none)

/-- What every API call does. -/
structure PStep (L : Lib C R) (Z : Nat) (be : Backend) (al : Allow) (w w' : World C R) : Prop where
  world : PWorld L Z be w'
  eff : PEff L be al w w'
  live : Live w → Live w'
  seqs : ¬ al.partway → Live w → w.SeqsOK al → w'.SeqsOK al

theorem Live.of_dids {w' : World C R} (hw : PWorld L Z be w) (hl : Live w)
    (hd : Dids (fun _ => True) w w') (hlen : w'.heap.length ≤ w.heap.length) : Live w' := by
  intro i o' ho'
  obtain ⟨o, ho⟩ : ∃ o, w.heap[i]? = some o := by
    have : i < w.heap.length := by have := lt_of_get ho'; omega
    exact ⟨_, List.getElem?_eq_getElem this⟩
  obtain ⟨b, hb⟩ := Option.ne_none_iff_exists'.1 (hl i o ho)
  obtain ⟨b', co, _, _, g3, _⟩ := (hw.core.heap i o ho).head b hb
  obtain ⟨o'', h1, h2⟩ := hd i o co.did trivial ho (did_eq hb g3)
  rw [ho'] at h1; cases h1
  intro hn
  simp [RepoObj.did, hn] at h2

theorem PWorld.did (hw : PWorld L Z be w) (hl : Live w) {r : Nat} {o : RepoObj C R}
    (ho : w.heap[r]? = some o) : ∃ d, o.did = some d := by
  obtain ⟨b, hb⟩ := Option.ne_none_iff_exists'.1 (hl r o ho)
  obtain ⟨b', co, _, _, g3, _⟩ := (hw.core.heap r o ho).head b hb
  exact ⟨co.did, did_eq hb g3⟩

theorem PBuilt.newMarker {blocks : List (C × Block C R)} {seq : Nat} {did : Did} {prev : Option C}
    {key nonce : Nat} {n : Node C} {cd : CommitData C R} {co : Commit C}
    (h : PBuilt L Z blocks seq did prev key nonce n cd co) {c : C} {b : Block C R}
    (hb : dictGet (putBlocks L blocks (cd.blocks.map (·.2))) c = some b) :
    dictGet blocks c = some b ∨ (b.seq = seq ∧ b.repo = did ∧
      (b.marker → b = cd.commit ∧ c = L.hash cd.commit.val)) := by
  rcases putBlocks_get _ _ hb with h' | ⟨_, h', hc⟩
  · exact .inl h'
  · obtain ⟨y, hy, rfl⟩ := List.mem_map.1 h'
    obtain ⟨g1, g2, g3, g4⟩ := h.members y hy
    refine .inr ⟨g2, g3, fun hm => ?_⟩
    rcases g4 with ⟨r, g, _⟩ | ⟨d, g, _⟩ | g
    · simp [Block.marker, g] at hm
    · simp [Block.marker, g] at hm
    · exact ⟨g, by rw [← g, hc]⟩

theorem PBuilt.stored {blocks : List (C × Block C R)} {seq : Nat} {did : Did} {prev : Option C}
    {key nonce : Nat} {n : Node C} {cd : CommitData C R} {co : Commit C}
    (h : PBuilt L Z blocks seq did prev key nonce n cd co)
    (hlt : ∀ c b, dictGet blocks c = some b → b.seq < seq) :
    dictGet (putBlocks L blocks (cd.blocks.map (·.2))) (L.hash cd.commit.val) = some cd.commit := by
  obtain ⟨ops, hcd⟩ := h.commit
  obtain ⟨b, co', g1, g2, g3, g4⟩ := h.head
  rcases h.newMarker g1 with k | ⟨_, _, k⟩
  · have := hlt _ b k
    rw [g4, hcd] at this
    simp at this
  · have : b.marker := by
      unfold Block.marker; rw [g2, g3]; trivial
    rw [g1, (k this).1]

theorem PBuilt.seqOK {al : Allow} {blocks : List (C × Block C R)} {last : Nat} {did : Did}
    {prev : Option C} {key nonce : Nat} {n : Node C} {cd : CommitData C R} {co : Commit C}
    {log log' : List (CbCall C)}
    (h : PBuilt L Z blocks (last + 1) did prev key nonce n cd co)
    (hs : SeqOK al blocks log last)
    (hlt : ∀ c b, dictGet blocks c = some b → b.seq ≤ last)
    (hl1 : ∀ n, CbCall.lost n ∈ log → CbCall.lost n ∈ log')
    (hl2 : ¬ al.raising → ∀ n, CbCall.lost n ∈ log' → CbCall.lost n ∈ log) :
    SeqOK al (putBlocks L blocks (cd.blocks.map (·.2))) log' (last + 1) := by
  obtain ⟨ops, hcd⟩ := h.commit
  refine hs.add hlt (putBlocks_grows _ _) (h.stored fun c b hb => Nat.lt_succ_of_le (hlt c b hb))
    ?_ ?_ ?_ ?_ (.inl ?_) hl1 hl2 (did := did)
  · rw [hcd]; trivial
  · rw [hcd]
  · rw [hcd]
  · intro c b hb
    rcases h.newMarker hb with k | ⟨k1, k2, k3⟩
    · exact .inl k
    · exact .inr ⟨k1, k2, fun hm => (k3 hm).2⟩
  · rw [hcd]; exact fun h => h

/-! ### Sequence numbers -/

theorem World.SeqsOK.plose {al : Allow} {w1 : World C R} (h : w.SeqsOK al) (hw : PWorld L Z be w)
    {cb : Bool} (hb : w1.blocks = w.blocks) (hlog : w1.log = w.log) (hs : w1.seqs = w.alloc.2.seqs)
    (hsil : al.silent ∨ cb = true) :
    (w1.logIf cb (.lost (w.last + 1))).SeqsOK al := by
  unfold World.SeqsOK
  have e : (w1.logIf cb (.lost (w.last + 1))).last = w.last + 1 := by
    rw [logIf_with]; exact hw.last_eq hs
  have e2 : (w1.logIf cb (.lost (w.last + 1))).blocks = w.blocks := by rw [logIf_with]; exact hb
  rw [e, e2]
  refine SeqOK.lose h (fun c b hb => (hw.core.blocks.seqs c b hb)) ?_ ?_ ?_
  · intro n hn; rw [mem_logIf, hlog]; exact .inl hn
  · intro n hn
    rw [mem_logIf, hlog] at hn
    rcases hn with hn | ⟨_, hn⟩
    · exact .inl hn
    · cases hn; exact .inr rfl
  · intro hns
    rw [mem_logIf]
    rcases hsil with h' | h'
    · exact absurd h' hns
    · exact .inr ⟨h', rfl⟩

theorem World.SeqsOK.pcommit {al : Allow} {w1 : World C R} (h : w.SeqsOK al) (hw : PWorld L Z be w)
    {cb cbFails : Bool} {did : Did} {prev : Option C} {key nonce : Nat} {n : Node C}
    {cd : CommitData C R} {co : Commit C} {c : C}
    (hbuilt : PBuilt L Z w.blocks (w.last + 1) did prev key nonce n cd co)
    (hb : w1.blocks = putBlocks L w.blocks (cd.blocks.map (·.2))) (hlog : w1.log = w.log)
    (hs : w1.seqs = w.alloc.2.seqs) (hr : al.raising ∨ cbFails = false) :
    (if (cb && cbFails) = true then
      ((w1.logIf cb (.commit c (w.last + 1))).logIf cb (.lost (w.last + 1)))
      else (w1.logIf cb (.commit c (w.last + 1)))).SeqsOK al := by
  have hlt := fun c b hb => (hw.core.blocks.seqs c b hb)
  have hl := hw.last_eq hs
  split
  · rename_i hc
    simp only [Bool.and_eq_true] at hc
    have hr' : al.raising := by
      rcases hr with h | h
      · exact h
      · rw [h] at hc; cases hc.2
    unfold World.SeqsOK
    have e : ((w1.logIf cb (.commit c (w.last + 1))).logIf cb (.lost (w.last + 1))).last =
        w.last + 1 := by
      rw [logIf_with, logIf_with]; exact hl
    have e2 : ((w1.logIf cb (.commit c (w.last + 1))).logIf cb (.lost (w.last + 1))).blocks =
        putBlocks L w.blocks (cd.blocks.map (·.2)) := by
      rw [logIf_with, logIf_with]; exact hb
    rw [e, e2]
    refine hbuilt.seqOK h hlt ?_ (fun h => absurd hr' h)
    intro n hn
    rw [mem_logIf, mem_logIf, hlog]
    exact .inl (.inl hn)
  · unfold World.SeqsOK
    have e : (w1.logIf cb (.commit c (w.last + 1))).last = w.last + 1 := by
      rw [logIf_with]; exact hl
    have e2 : (w1.logIf cb (.commit c (w.last + 1))).blocks =
        putBlocks L w.blocks (cd.blocks.map (·.2)) := by
      rw [logIf_with]; exact hb
    rw [e, e2]
    refine hbuilt.seqOK h hlt ?_ ?_
    · intro n hn
      rw [mem_logIf, hlog]
      exact .inl hn
    · intro _ n hn
      rw [mem_logIf, hlog] at hn
      rcases hn with hn | ⟨_, hn⟩
      · exact hn
      · cases hn

/-! ### Commits -/

/-- The world of `commit` up to the callback log. -/
theorem commit_plain (hL : L.OK Z) (hw : PWorld L Z be w) {r : Ref} {repoDid : Option Did}
    (hm : ∀ d, repoDid = some d → isDid d ∧ ∀ d', (d', r) ∉ w.repos)
    (writes : List (Write R)) (xs : List Luck) (cbFails : Bool) :
    ∃ w1 w' res, commit L be w r writes repoDid xs cbFails = (w', res) ∧
      SameButLog w1 w' ∧ PWorld L Z be w1 ∧ w1.heap.length = w.heap.length ∧
      Dids (fun i => repoDid = none ∨ i ≠ r) w w1 ∧ Grows w.blocks w1.blocks ∧
      (∀ al, CreateAllowed al (((w.heap[r]?).map (·.callback)).getD false) xs cbFails →
        w.SeqsOK al → w'.SeqsOK al) ∧
      (((∃ e, res = .error e) ∧ w1.rows = w.rows ∧ w1.repos = w.repos ∧
        ∀ d', headOf L be w1 d' = headOf L be w d') ∨
      ∃ cd wk did prev co, (res = .ok cd ∨ ∃ e, res = .error e) ∧
        PCore L Z be (w.last + 1) w.last wk ∧ wk.rows = w.rows ∧ wk.repos = w.repos ∧
        wk.heap.length = w.heap.length ∧
        (∀ d', headOf L be wk d' = headOf L be w d') ∧
        Dids (fun i => repoDid = none ∨ i ≠ r) w wk ∧ Grows w.blocks wk.blocks ∧
        PDone L Z be (w.last + 1) wk r repoDid w1 cd did prev co) := by
  obtain ⟨a1, a2, a3, a4⟩ := hw.alloc
  have htx := tx_plain hL writes (Nat.lt_succ_self w.last) xs a3 hm
  have hst := commitTx_still (L := L) be r writes (w.last + 1) repoDid xs w.alloc.2
  unfold Store.commit
  simp only
  rw [a1]
  rcases hc : commitTx L be r writes (w.last + 1) repoDid w.alloc.2 xs with ⟨w1, res⟩
  rw [show w.last.succ = w.last + 1 from rfl, hc] at htx
  rw [hc] at hst
  obtain ⟨hlog, hseqs⟩ : w1.log = w.log ∧ w1.seqs = w.alloc.2.seqs := hst
  cases res with
  | error e =>
    obtain ⟨h1, h2, h3, h4, h5, h6, h7, h8⟩ := htx
    refine ⟨w1, _, _, rfl, logIf_same _ _ _, hw.of_core hseqs (h1.up (le_refl _) (Nat.le_succ _)),
      h4, h7, h5, ?_, .inl ⟨⟨e, rfl⟩, h2, h3, h6⟩⟩
    intro al ⟨k1, k2, k3⟩ hs
    exact hs.plose hw (h8 k1) hlog hseqs k2
  | ok cd =>
    obtain ⟨h0, h1, wk, did, prev, co, h2, h3, h4, h5, h6, h7, h8, h9, h10⟩ := htx
    have hd9 := h8.trans h9.dids
    have hg9 := Grows.trans h6 h9.grows
    have hseqsOK : ∀ al, CreateAllowed al (((w.heap[r]?).map (·.callback)).getD false) xs cbFails →
        w.SeqsOK al → (if ((((w.heap[r]?).map (·.callback)).getD false) && cbFails) = true then
      ((w1.logIf (((w.heap[r]?).map (·.callback)).getD false) (.commit (L.hash cd.commit.val) (w.last + 1))).logIf (((w.heap[r]?).map (·.callback)).getD false) (.lost (w.last + 1)))
      else (w1.logIf (((w.heap[r]?).map (·.callback)).getD false) (.commit (L.hash cd.commit.val) (w.last + 1)))).SeqsOK al := by
      intro al ⟨k1, k2, k3⟩ hs
      have := h10 k1
      subst this
      obtain ⟨key, nonce, n, hb⟩ := h9.built
      exact hs.pcommit hw hb h9.blocks hlog hseqs k3
    dsimp only
    by_cases hcb : ((((w.heap[r]?).map (·.callback)).getD false) && cbFails) = true
    · rw [if_pos hcb]
      refine ⟨w1, _, _, rfl, (logIf_same _ _ _).trans (logIf_same _ _ _), hw.of_core hseqs h0, h1, hd9,
        hg9, fun al ha hs => ?_, .inr ⟨cd, wk, did, prev, co, .inr ⟨_, rfl⟩, h2, h3, h4, h5, h7, h8,
          h6, h9⟩⟩
      have := hseqsOK al ha hs
      rw [if_pos hcb] at this
      exact this
    · rw [if_neg hcb]
      refine ⟨w1, _, _, rfl, logIf_same _ _ _, hw.of_core hseqs h0, h1, hd9,
        hg9, fun al ha hs => ?_, .inr ⟨cd, wk, did, prev, co, .inl rfl, h2, h3, h4, h5, h7, h8,
          h6, h9⟩⟩
      have := hseqsOK al ha hs
      rw [if_neg hcb] at this
      exact this

theorem SameButLog.pworld {w' : World C R} (h : SameButLog w w') (hw : PWorld L Z be w) :
    PWorld L Z be w' := by
  obtain ⟨l, rfl⟩ := h
  exact ⟨hw.pos, hw.core.congr rfl rfl rfl rfl⟩

theorem SameButLog.heap {w' : World C R} (h : SameButLog w w') : w'.heap = w.heap := by
  obtain ⟨l, rfl⟩ := h; rfl

theorem PDone.eff {al : Allow} {seq lo hi : Nat} {r : Ref} {wk w1 w' : World C R} {cd : CommitData C R}
    {did : Did} {prev : Option C} {co : Commit C}
    (h : PDone L Z be seq wk r none w1 cd did prev co) (hq : 1 ≤ seq)
    (hk : ∀ d', headOf L be wk d' = headOf L be w d') (hs : SameButLog w1 w') : PEff L be al w w' := by
  obtain ⟨⟨p, j1⟩, j2, j3, j4⟩ := h.heads
  obtain ⟨key, nonce, n, hb⟩ := h.built
  obtain ⟨ops, hcd⟩ := hb.commit
  refine .commit did cd.commit co (by rw [hcd]) ?_ ?_ ?_ ?_
  · rw [hb.coprev, ← hk, j2]
  · rw [hb.coprev, j1]; simp
  · obtain ⟨b', _, k1, _, _, k4⟩ := hb.head
    obtain ⟨l, rfl⟩ := hs
    exact ⟨b', h.blocks ▸ k1, by rw [k4, hcd]; exact hq⟩
  · intro d'
    rw [headOf_log hs]
    by_cases hd : d' = did
    · subst hd; rw [if_pos rfl]; exact j3
    · rw [if_neg hd, j4 d' hd, hk]

theorem commit_step (hL : L.OK Z) (hw : PWorld L Z be w) {al : Allow} (r : Ref)
    (writes : List (Write R)) (xs : List Luck) (cbFails : Bool)
    (ha : Allowed L be al w r writes none xs cbFails) :
    PStep L Z be al w (commit L be w r writes none xs cbFails).1 := by
  obtain ⟨w1, w', res, h1, h2, h3, h4, h5, h6, h7, h8⟩ := commit_plain hL hw (r := r)
    (repoDid := none) (fun d hd => by cases hd) writes xs cbFails
  rw [h1]
  refine ⟨h2.pworld h3, ?_, fun hl => ?_, fun hp hl hs => h7 al ⟨ha.partway.resolve_left hp, ?_, ha.raising⟩ hs⟩
  · rcases h8 with ⟨_, _, _, h⟩ | ⟨cd, wk, did, prev, co, _, _, _, _, _, g1, _, _, g2⟩
    · exact .none fun d => (headOf_log h2 d).trans (h d)
    · exact g2.eff (lo := 0) (hi := 0) (Nat.succ_pos _) g1 h2
  · have := Live.of_dids hw hl (w' := w1) (fun i o d _ ho hd => h5 i o d (.inl rfl) ho hd) h4.le
    intro i o; rw [h2.heap]; exact this i o
  · rcases ha.silent with h | h
    · exact .inl h
    · rw [h]; exact .inr rfl

/-! ### Events -/

theorem PBlocks.putEvent (hL : L.OK Z) {seq : Nat} {blocks : List (C × Block C R)}
    (h : PBlocks L Z seq blocks) (kind : EventKind C) (d : Did) (time : Nat)
    (hs : 1 ≤ seq) :
    PBlocks L Z seq (putBlocks L blocks [⟨.event ⟨kind, seq, d, time⟩, seq, none, d⟩]) := by
  set b : Block C R := ⟨.event ⟨kind, seq, d, time⟩, seq, none, d⟩ with hb
  have hg : Grows blocks (putBlocks L blocks [b]) := putBlocks_grows _ _
  have hn : nodeIn (putBlocks L blocks [b]) = nodeIn blocks := by
    rw [nodeIn_put hL.inj h.addr [b] [] (by simp) (by intro d; simp [hb])]
    funext c
    simp [writeBlocks, dictGet]
  have hnew : ∀ {c x}, dictGet (putBlocks L blocks [b]) c = some x →
      dictGet blocks c = some x ∨ x = b := by
    intro c x hx
    rcases putBlocks_get _ _ hx with h' | ⟨_, h', _⟩
    · exact .inl h'
    · exact .inr (List.mem_singleton.1 h')
  refine ⟨h.addr.put _, hn ▸ h.store, ?_, ?_, ?_, ?_⟩
  · intro c x hx
    rcases hnew hx with h' | rfl
    · exact h.seqs c x h'
    · exact le_refl _
  · intro c x r hx hv
    rcases hnew hx with h' | rfl
    · exact h.recs c x r h' hv
    · cases hv
  · intro c x co hx hv
    rcases hnew hx with h' | rfl
    · exact (h.commits c x co h' hv).imp (·.grow hg) (·.grow hg)
    · cases hv
  · intro c x e hx hv
    rcases hnew hx with h' | rfl
    · exact h.events c x e h' hv
    · cases hv; exact ⟨rfl, rfl, rfl⟩

/-- `write_event` on a repo that exists stores exactly one new block. -/
theorem event_plain (hL : L.OK Z) (hw : PWorld L Z be w) {r : Ref}
    {o : RepoObj C R} {d : Did} (ho : w.heap[r]? = some o) (hd : o.did = some d)
    (kind : EventKind C) (time : Nat) :
    ∃ e : Event C, e = ⟨kind, w.last + 1, d, time⟩ ∧ dictGet w.blocks (L.hash (.event e)) = none ∧
      writeEvent L be w r kind time = (({ w.alloc.2 with
          blocks := putBlocks L w.blocks [⟨.event e, w.last + 1, none, d⟩] } : World C R).logIf
            o.callback (.event e), .ok ⟨.event e, w.last + 1, none, d⟩) ∧
      PWorld L Z be (writeEvent L be w r kind time).1 ∧
      ∀ al, w.SeqsOK al → (writeEvent L be w r kind time).1.SeqsOK al := by
  obtain ⟨h2, h3, hc, h4⟩ := hw.alloc
  refine ⟨⟨kind, w.last + 1, d, time⟩, rfl, ?_⟩
  set e : Event C := ⟨kind, w.last + 1, d, time⟩ with he
  have hfresh : dictGet w.blocks (L.hash (.event e)) = none := by
    cases hg : dictGet w.blocks (L.hash (.event e)) with
    | none => rfl
    | some b =>
      exfalso
      have hv := hL.inj (hw.core.blocks.addr _ _ hg)
      have := hw.core.blocks.events _ b e hg hv
      have h5 := (hw.core.blocks.seqs _ b hg)
      rw [← this.1] at h5
      simp [he] at h5
  have hval : writeEvent L be w r kind time = (({ w.alloc.2 with
          blocks := putBlocks L w.blocks [⟨.event e, w.last + 1, none, d⟩] } : World C R).logIf
            o.callback (.event e), .ok ⟨.event e, w.last + 1, none, d⟩) := by
    unfold writeEvent
    simp only [ho, hd, h2]
    rw [← he]
    unfold write
    cases be with
    | memory => rfl
    | datastore =>
      simp only
      rw [if_neg (by omega)]
      have : dictGet (dictSetDefault w.alloc.2.blocks (L.hash (.event e))
          (⟨.event e, w.last + 1, none, d⟩ : Block C R)) (L.hash (.event e)) =
          some ⟨.event e, w.last + 1, none, d⟩ := by
        rw [dictGet_dictSetDefault, show w.alloc.2.blocks = w.blocks from rfl, hfresh]; simp
      rw [this]
      simp only [Nat.le_refl, if_true]
      rfl
  refine ⟨hfresh, hval, ?_, ?_⟩
  · rw [hval]
    apply PWorld.log
    refine hw.of_core rfl ?_
    exact (hc.up (le_refl _) (Nat.le_succ _)).withBlocks (putBlocks_grows _ _)
      (hc.blocks.putEvent hL kind d time (by omega))
  · intro al h
    rw [hval]
    unfold World.SeqsOK
    set b : Block C R := ⟨.event e, w.last + 1, none, d⟩ with hb
    have e1 : ((({ w.alloc.2 with blocks := putBlocks L w.blocks [b] } : World C R).logIf
        o.callback (.event e))).last = w.last + 1 := by
      rw [logIf_with]; exact hw.last_eq rfl
    have e2 : ((({ w.alloc.2 with blocks := putBlocks L w.blocks [b] } : World C R).logIf
        o.callback (.event e))).blocks = putBlocks L w.blocks [b] := by
      rw [logIf_with]
    simp only
    rw [e1, e2]
    have hlt := fun c b hb => (hw.core.blocks.seqs c b hb)
    refine SeqOK.add h hlt (putBlocks_grows _ _) (did := d) (c0 := L.hash b.val) (b0 := b) ?_ trivial
      rfl rfl ?_ (.inr ?_) ?_ ?_
    · rw [← putBlocks_one, dictGet_dictSetDefault, hfresh]; simp
    · intro c x hx
      rcases putBlocks_get _ _ hx with k | ⟨_, k, k'⟩
      · exact .inl k
      · simp only [List.mem_singleton] at k
        subst k
        exact .inr ⟨rfl, rfl, fun _ => k'.symm⟩
    · intro c x hx hs
      rcases putBlocks_get _ _ hx with k | ⟨_, k, k'⟩
      · have := hlt c x k; omega
      · simp only [List.mem_singleton] at k
        subst k; exact k'.symm
    · intro n hn
      rw [mem_logIf]; exact .inl hn
    · intro _ n hn
      rw [mem_logIf] at hn
      rcases hn with hn | ⟨_, hn⟩
      · exact hn
      · cases hn

/-- Nothing but blocks, sequence numbers and the log. -/
def SameObjs (w w' : World C R) : Prop :=
  w'.heap = w.heap ∧ w'.rows = w.rows ∧ w'.repos = w.repos

theorem SameObjs.headOf {w w' : World C R} (h : SameObjs w w') (d : Did) :
    headOf L be w' d = headOf L be w d := by
  unfold Store.headOf
  rw [h.1, h.2.1, h.2.2]

/-- `write_event` in general. -/
theorem event_any (hL : L.OK Z) (hw : PWorld L Z be w) (r : Ref) (kind : EventKind C) (time : Nat) :
    PWorld L Z be (writeEvent L be w r kind time).1 ∧
      SameObjs w (writeEvent L be w r kind time).1 := by
  cases ho : w.heap[r]? with
  | none =>
    unfold writeEvent
    simp only [ho]
    exact ⟨hw.of_core rfl (hw.alloc.2.2.1.up (le_refl _) (Nat.le_succ _)), rfl, rfl, rfl⟩
  | some o =>
    cases hd : o.did with
    | none =>
      unfold writeEvent
      simp only [ho, hd]
      exact ⟨hw.of_core rfl (hw.alloc.2.2.1.up (le_refl _) (Nat.le_succ _)), rfl, rfl, rfl⟩
    | some d =>
      obtain ⟨e, _, _, h3, h4, _⟩ := event_plain hL hw ho hd kind time
      refine ⟨h4, ?_⟩
      rw [h3, logIf_with]
      exact ⟨rfl, rfl, rfl⟩

theorem event_step (hL : L.OK Z) (hw : PWorld L Z be w) {al : Allow} (r : Ref) (kind : EventKind C)
    (time : Nat) (hr : r < w.heap.length) : PStep L Z be al w (writeEvent L be w r kind time).1 := by
  obtain ⟨h1, h2⟩ := event_any hL hw r kind time
  refine ⟨h1, .none fun d => h2.headOf d, fun hl i o => by rw [h2.1]; exact hl i o, fun _ hl hs => ?_⟩
  obtain ⟨d, hd⟩ := hw.did hl (List.getElem?_eq_getElem hr)
  obtain ⟨e, _, _, _, _, h5⟩ := event_plain hL hw (List.getElem?_eq_getElem hr) hd kind time
  exact h5 al hs

/-! ### Account statuses -/

theorem status_plain (hw : PWorld L Z be w) (r : Ref) (s : Option Status) :
    PWorld L Z be (setRepoStatus be w r s).1 ∧
    (setRepoStatus be w r s).1.blocks = w.blocks ∧ (setRepoStatus be w r s).1.log = w.log ∧
    (setRepoStatus be w r s).1.seqs = w.seqs ∧
    (setRepoStatus be w r s).1.heap.length = w.heap.length ∧
    Dids (fun _ => True) w (setRepoStatus be w r s).1 ∧
    (∀ d, headOf L be (setRepoStatus be w r s).1 d = headOf L be w d) ∧
    (∀ u, (setRepoStatus be w r s).2 = .ok u → r < w.heap.length) := by
  unfold setRepoStatus
  cases ho : w.heap[r]? with
  | none => exact ⟨hw, rfl, rfl, rfl, rfl, .refl _ _, fun _ => rfl, fun u h => by cases h⟩
  | some o =>
    have hm := hw.core.heap r o ho
    have hc : PCore L Z be w.last w.last (w.setObj r { o with status := s }) :=
      hw.core.setObj ho ⟨hm.tree, hm.head, hm.handle⟩ (.inl rfl)
        (fun hb b hbb => hw.core.heads hb r o b ho hbb)
    have hd : Dids (fun _ => True) w (w.setObj r { o with status := s }) :=
      Dids.setObj (o' := { o with status := s }) ho rfl
    have hh := fun d => headOf_sameHead (L := L) (be := be) (w := w) (o' := { o with status := s }) ho rfl d
    have hlen : (w.setObj r { o with status := s }).heap.length = w.heap.length := by
      simp [World.setObj]
    cases be with
    | memory => exact ⟨hw.same rfl hc, rfl, rfl, rfl, hlen, hd, hh, fun _ _ => lt_of_get ho⟩
    | datastore =>
      dsimp only
      cases hod : o.did with
      | none => exact ⟨hw.same rfl hc, rfl, rfl, rfl, hlen, hd, hh, fun u h => by cases h⟩
      | some d =>
        dsimp only
        cases hrow : dictGet (w.setObj r { o with status := s }).rows d with
        | none => exact ⟨hw.same rfl hc, rfl, rfl, rfl, hlen, hd, hh, fun u h => by cases h⟩
        | some row =>
          dsimp only
          refine ⟨hw.same rfl ⟨hc.blocks, hc.heap, hc.repos, ?_, hc.heads⟩, rfl, rfl, rfl, hlen, hd,
            ?_, fun _ _ => lt_of_get ho⟩
          · intro d' row' h
            rcases mem_dictSet h with h | h
            · cases h; exact hc.rows d row (dictGet_mem hrow)
            · exact hc.rows d' row' h
          · intro d'
            unfold Store.headOf
            simp only [dictGet_dictSet]
            by_cases h : d' = d
            · subst h
              have : dictGet w.rows d' = some row := hrow
              simp [this]
            · simp only [h, if_false]; rfl

theorem setStatus_step (hL : L.OK Z) (hw : PWorld L Z be w) {al : Allow} (r : Ref)
    (s : Option Status) (kind : EventKind C) (time : Nat) :
    PStep L Z be al w (setStatusEvent L be w r s kind time).1 := by
  obtain ⟨h1, h2, h3, h4, h5, h6, h7, h8⟩ := status_plain hw r s
  unfold setStatusEvent
  rcases hs : setRepoStatus be w r s with ⟨w1, res⟩
  rw [hs] at h1 h2 h3 h4 h5 h6 h7 h8
  have hlive : Live w → Live w1 := fun hl => Live.of_dids hw hl h6 h5.le
  cases res with
  | error e =>
    exact ⟨h1, .none h7, hlive, fun _ _ h => h.congr h2 h3 h4⟩
  | ok u =>
    have hr : r < w1.heap.length := by rw [h5]; exact h8 u rfl
    have := event_step (al := al) hL h1 r kind time hr
    dsimp only
    obtain ⟨k1, k2⟩ := event_any hL h1 r kind time
    have hgoal : PStep L Z be al w (writeEvent L be w1 r kind time).1 :=
      ⟨this.world, .none fun d => (k2.headOf d).trans (h7 d), fun hl => this.live (hlive hl),
        fun hp hl h => this.seqs hp (hlive hl) (h.congr h2 h3 h4)⟩
    rcases he : writeEvent L be w1 r kind time with ⟨w2, res2⟩
    rw [he] at hgoal
    cases res2 <;> exact hgoal

/-! ### New repos -/

theorem writeEvents_plain (hL : L.OK Z) {al : Allow} {r : Ref} {o : RepoObj C R} {d : Did}
    (hd : o.did = some d) (time : Nat) : ∀ (ks : List (EventKind C)) {w : World C R},
    PWorld L Z be w → w.heap[r]? = some o →
    ∃ w', writeEvents L be r time w ks = (w', .ok ()) ∧ PWorld L Z be w' ∧ SameObjs w w' ∧
      (w.SeqsOK al → w'.SeqsOK al)
  | [], w, hw, _ => ⟨w, rfl, hw, ⟨rfl, rfl, rfl⟩, id⟩
  | k :: ks, w, hw, ho => by
    obtain ⟨e, _, _, h1, h2, h3⟩ := event_plain hL (be := be) hw ho hd k time
    obtain ⟨_, hs⟩ := event_any hL (be := be) hw r k time
    unfold writeEvents
    rw [h1] at h2 h3 hs ⊢
    dsimp only at h2 h3 hs ⊢
    obtain ⟨w', g1, g2, g3, g4⟩ := writeEvents_plain hL (al := al) hd time
      ks h2 (by rw [hs.1]; exact ho)
    exact ⟨w', g1, g2, ⟨g3.1.trans hs.1, g3.2.1.trans hs.2.1, g3.2.2.trans hs.2.2⟩,
      fun h => g4 (h3 al h)⟩

theorem createRepo_plain (hw : PWorld L Z be w) {r : Ref} {o : RepoObj C R} {b : Block C R}
    {co : Commit C} (ho : w.heap[r]? = some o) (hh : o.head = some b) (hv : b.val = .commit co) :
    ∃ w', createRepo L be w r = (w', .ok ()) ∧ PWorld L Z be w' ∧ w'.heap = w.heap ∧
      w'.blocks = w.blocks ∧ w'.seqs = w.seqs ∧ w'.log = w.log ∧
      ∀ d, headOf L be w' d = if d = co.did then some (L.hash b.val) else headOf L be w d := by
  have hd := did_eq hh hv
  have hm := hw.core.heap r o ho
  unfold createRepo
  rw [ho]
  simp only [hd]
  cases be with
  | memory =>
    simp only [hh]
    refine ⟨_, rfl, hw.same rfl ⟨hw.core.blocks, hw.core.heap, ?_, hw.core.rows, hw.core.heads⟩,
      rfl, rfl, rfl, rfl, ?_⟩
    · intro d' r' h
      rcases mem_dictSet h with h | h
      · cases h; exact ⟨rfl, o, ho, hd⟩
      · exact hw.core.repos d' r' h
    · intro d'
      unfold Store.headOf
      simp only [dictGet_dictSet]
      by_cases h : d' = co.did
      · simp only [h, if_true, ho, Option.bind_some, hh, Option.map_some]
      · simp only [h, if_false]
  | datastore =>
    simp only [hh]
    refine ⟨_, rfl, hw.same rfl ⟨hw.core.blocks, hw.core.heap, hw.core.repos, ?_, hw.core.heads⟩,
      rfl, rfl, rfl, rfl, ?_⟩
    · intro d' row' h
      rcases mem_dictSet h with h | h
      · cases h
        obtain ⟨b', co', g1, g2, g3, g4⟩ := hm.head b hh
        exact ⟨hm.handle, b', co, g1, g2.trans hv, rfl, (hw.core.blocks.seqs _ _ g1)⟩
      · exact hw.core.rows d' row' h
    · intro d'
      unfold Store.headOf
      simp only [dictGet_dictSet]
      by_cases h : d' = co.did
      · simp only [h, if_true, Option.map_some]
      · simp only [h, if_false]

/-- A `Repo.create` that fails: its object is dropped. -/
theorem PStep.dropped (hw : PWorld L Z be w) {al : Allow} {w1 : World C R} (h1 : PWorld L Z be w1)
    (hlen : w.heap.length ≤ w1.heap.length) (hrepos : w1.repos = w.repos)
    (hheads : ∀ d, headOf L be w1 d = headOf L be w d)
    (hd : Dids (fun _ => True) w w1)
    (hs : ¬ al.partway → w.SeqsOK al → w1.SeqsOK al) : PStep L Z be al w (w1.collect w) := by
  have hget : ∀ (i : Nat), i < w.heap.length → (w1.collect w).heap[i]? = w1.heap[i]? := by
    intro i hi
    show (w1.heap.take w.heap.length)[i]? = _
    rw [List.getElem?_take, if_pos hi]
  have hget' : ∀ (i : Nat) (x : RepoObj C R), (w1.collect w).heap[i]? = some x →
      w1.heap[i]? = some x := by
    intro i x hx
    rw [show (w1.collect w).heap = w1.heap.take w.heap.length from rfl, List.getElem?_take] at hx
    split at hx
    · exact hx
    · cases hx
  have hd' : Dids (fun _ => True) w (w1.collect w) := by
    intro i o d hp ho hod
    obtain ⟨o', g1, g2⟩ := hd i o d hp ho hod
    exact ⟨o', by rw [hget i (lt_of_get ho)]; exact g1, g2⟩
  have hl : (w1.collect w).heap.length ≤ w.heap.length := by
    show (w1.heap.take w.heap.length).length ≤ _
    simp
  refine ⟨h1.same rfl ⟨h1.core.blocks, fun i x hx => h1.core.heap i x (hget' i x hx), ?_,
    h1.core.rows, fun hb i x b hx => h1.core.heads hb i x b (hget' i x hx)⟩, .none fun d => ?_,
    fun hlv => Live.of_dids hw hlv hd' hl, fun hp _ h => (hs hp h).congr rfl rfl rfl⟩
  · intro d r hm
    have hm : (d, r) ∈ w.repos := hrepos ▸ hm
    obtain ⟨g1, o, g2, g3⟩ := hw.core.repos d r hm
    exact ⟨g1, hd' r o d trivial g2 g3⟩
  · rw [← hheads d]
    cases be with
    | datastore => rfl
    | memory =>
      simp only [Store.headOf]
      rw [show (w1.collect w).repos = w1.repos from rfl]
      cases hg : dictGet w1.repos d with
      | none => rfl
      | some i =>
        dsimp only
        obtain ⟨_, o, g2, _⟩ := hw.core.repos d i (hrepos ▸ dictGet_mem hg)
        rw [hget i (lt_of_get g2)]

theorem create_step (hL : L.OK Z) (hw : PWorld L Z be w) {al : Allow} {did : Did}
    {handle : Option Key} {key : Nat} {callback : Bool} {time : Nat} {xs : List Luck}
    {cbFails : Bool} (hd : isDid did) (hh : ∀ h, handle = some h → ¬ isDid h)
    (hp : al.partway ∨ ∀ x ∈ xs, x.storeFails = false ∧ x.txFails = false)
    (hsil : al.silent ∨ callback = true) (hr : al.raising ∨ cbFails = false) :
    PStep L Z be al w (repoCreate L be w did handle key callback time xs cbFails).1 := by
  obtain ⟨root, hroot, hinv⟩ := create_root hL w.rd
  unfold repoCreate
  rw [hroot]
  dsimp only
  set o0 : RepoObj C R := ⟨root, none, handle, none, key, callback⟩ with ho0
  set w0 : World C R := (w.newObj o0).2 with hw0
  have hn : (w.newObj o0).1 = w.heap.length := rfl
  rw [hn]
  have hheap0 : w0.heap = w.heap ++ [o0] := rfl
  have hw0ok : PWorld L Z be w0 := hw.same rfl
    (hw.core.newObj ⟨⟨0, nil, _, hinv⟩, fun b hb => (by cases hb), hh⟩ (fun _ b hb => by cases hb))
  have hnot : ∀ d', (d', w.heap.length) ∉ w0.repos := by
    intro d' h
    obtain ⟨_, o, g, _⟩ := hw.core.repos d' _ h
    have := lt_of_get g
    omega
  have hget0 : w0.heap[w.heap.length]? = some o0 := by rw [hheap0]; simp
  have hold : ∀ (i : Nat) o, w.heap[i]? = some o → w0.heap[i]? = some o := by
    intro i o ho
    rw [hheap0, List.getElem?_append, if_pos (lt_of_get ho)]; exact ho
  have hhead0 : ∀ d', headOf L be w0 d' = headOf L be w d' := by
    intro d'
    cases be with
    | datastore => rfl
    | memory =>
      simp only [Store.headOf]
      rw [show w0.repos = w.repos from rfl]
      cases hg : dictGet w.repos d' with
      | none => rfl
      | some i =>
        dsimp only
        obtain ⟨_, o, g2, _⟩ := hw.core.repos d' i (dictGet_mem hg)
        rw [hold i o g2, g2]
  obtain ⟨w1, w', res, h1, h2, h3, h4, h5, h6, h7, h8⟩ := commit_plain hL hw0ok
    (r := w.heap.length) (repoDid := some did) (fun d h => by cases h; exact ⟨hd, hnot⟩) []
    xs cbFails
  have hdids : Dids (fun _ => True) w w1 := by
    intro i o d _ ho hod
    exact h5 i o d (.inr (by have := lt_of_get ho; omega)) (hold i o ho) hod
  have hlen : w1.heap.length = w.heap.length + 1 := by rw [h4, hheap0]; simp
  have hsame : w1.repos = w.repos ∧ ∀ d, headOf L be w1 d = headOf L be w d := by
    rcases h8 with ⟨_, _, k2, k3⟩ | ⟨cd, wk, did', prev, co, _, _, k1, k2, _, k3, _, _, k4⟩
    · exact ⟨k2, fun d => (k3 d).trans (hhead0 d)⟩
    · obtain ⟨_, _, j1, j2, j3⟩ := k4.heads
      exact ⟨j2.trans k2, fun d => (j3 d).trans ((k3 d).trans (hhead0 d))⟩
  have hcb : ((w0.heap[w.heap.length]?).map (·.callback)).getD false = callback := by
    rw [hget0]; rfl
  rw [hcb] at h7
  have hseqs : ¬ al.partway → w.SeqsOK al → w'.SeqsOK al := fun hnp h =>
    h7 al ⟨hp.resolve_left hnp, hsil, hr⟩ (h.congr rfl rfl rfl)
  have hheap' : w'.heap = w1.heap := h2.heap
  have hrepos' : w'.repos = w1.repos := by obtain ⟨l, rfl⟩ := h2; rfl
  have hdids' : Dids (fun _ => True) w w' := by
    intro i o d hp' ho hod
    rw [hheap']; exact hdids i o d hp' ho hod
  rw [h1]
  cases res with
  | error e =>
    exact PStep.dropped hw (h2.pworld h3) (by rw [hheap', hlen]; omega)
      (hrepos'.trans hsame.1) (fun d => (headOf_log h2 d).trans (hsame.2 d)) hdids' hseqs
  | ok cd =>
    rcases h8 with ⟨⟨e, he⟩, _⟩ | ⟨cd', wk, did', prev, co, hres, _, _, _, _, _, _, _, k4⟩
    · cases he
    · have : cd = cd' := by
        rcases hres with h | ⟨e, h⟩ <;> cases h
        rfl
      subst this
      obtain ⟨key', nonce, n, hb⟩ := k4.built
      obtain ⟨ops, hcd⟩ := hb.commit
      have hval : cd.commit.val = .commit co := by rw [hcd]
      obtain ⟨j1, j2, _⟩ := k4.heads
      obtain ⟨o', g1, g2, _⟩ := k4.obj
      dsimp only
      rw [hval]
      dsimp only
      have hget' : w'.heap[w.heap.length]? = some o' := by rw [hheap']; exact g1
      obtain ⟨w2, f1, f2, f3, f4⟩ := writeEvents_plain hL (al := al) (be := be)
        (did_eq g2 hval) time [.identity handle, .account true none, .sync (L.hash (.commit co)) co.rev]
        (h2.pworld h3) hget'
      rw [f1]
      dsimp only
      obtain ⟨w3, e1, e2, e3, e4, e5, e6, e7⟩ := createRepo_plain (be := be) f2
        (r := w.heap.length) (o := o') (b := cd.commit) (by rw [f3.1]; exact hget') g2 hval
      rw [e1]
      dsimp only
      refine ⟨e2.log _ _, .create did cd.commit co hval (by rw [hb.coprev, j2]) ?_, fun hl => ?_,
        fun hnp _ h => ?_⟩
      · intro d'
        have : headOf L be (w3.logIf callback (.commit (L.hash (.commit co)) cd.commit.seq)) d' =
            headOf L be w3 d' := headOf_log (logIf_same _ _ _) d'
        rw [this, e7 d', hb.codid, j1, f3.headOf, headOf_log h2, hsame.2]
      · intro i x hx
        rw [logIf_with] at hx
        replace hx : w3.heap[i]? = some x := hx
        rw [e3, f3.1, hheap'] at hx
        by_cases hi : i = w.heap.length
        · subst hi
          rw [g1] at hx; cases hx
          rw [g2]; simp
        · have hlt : i < w.heap.length := by
            have := lt_of_get hx
            omega
          obtain ⟨b, hb⟩ := Option.ne_none_iff_exists'.1 (hl i _ (List.getElem?_eq_getElem hlt))
          obtain ⟨d, hd⟩ := hw.did hl (List.getElem?_eq_getElem hlt)
          obtain ⟨x', q1, q2⟩ := hdids i _ d trivial (List.getElem?_eq_getElem hlt) hd
          rw [hx] at q1; cases q1
          intro hn
          simp [RepoObj.did, hn] at q2
      · have h7 := f4 (hseqs hnp h)
        have h8 : w3.SeqsOK al := h7.congr e4 e6 e5
        unfold World.SeqsOK at h8 ⊢
        have e1 : (w3.logIf callback (.commit (L.hash (.commit co)) cd.commit.seq)).blocks =
            w3.blocks := by rw [logIf_with]
        have e2 : (w3.logIf callback (.commit (L.hash (.commit co)) cd.commit.seq)).last =
            w3.last := by rw [logIf_with]; rfl
        have e3 : ∀ n, CbCall.lost n ∈ (w3.logIf callback
            (.commit (L.hash (.commit co)) cd.commit.seq)).log ↔ CbCall.lost n ∈ w3.log := by
          intro n
          rw [mem_logIf]
          simp
        rw [e1, e2]
        refine ⟨h8.marked, h8.unique, h8.alone, fun h n h1 h2 => ?_, fun h n hn => ?_⟩
        · rw [e3]; exact h8.accounted h n h1 h2
        · rw [e3] at hn; exact h8.exclusive h n hn

/-! ### Reading heads -/

theorem PCore.readHead {hi lo : Nat} (hw : PCore L Z be hi lo w) {d : Did} (hd : isDid d) :
    readHead L be w d = headOf L be w d := by
  unfold Store.readHead Store.headOf
  rcases hw.loadDid hd with h | ⟨s, so, b, co, w1, h1, h2, h3, h4, h5, h6, h7, h8, h9, h10, h11, h12⟩
  · rw [h]
    simp only
    unfold Store.loadRepo at h
    rw [if_neg (isDid_ne_nil hd)] at h
    cases be with
    | memory =>
      simp only at h ⊢
      rw [hw.findRepo hd (l := w.repos) (fun _ h => h)] at h
      simp only [Prod.mk.injEq, Except.ok.injEq, true_and] at h
      rw [h]
    | datastore =>
      simp only at h ⊢
      rw [hw.findRow hd] at h
      cases hr : dictGet w.rows d with
      | none => rfl
      | some row =>
        rw [hr] at h
        simp only at h
        obtain ⟨_, b, co, g1, g2, _⟩ := hw.rows d row (dictGet_mem hr)
        have hc : commitAt w row.head = .ok (b, co) := by
          unfold commitAt World.read; rw [g1]; simp only [g2]
        simp [Store.repoLoad, hc, World.newObj] at h
  · rw [h1]
    simp only [h2, Option.bind_some, h3, Option.map_some]
    cases be with
    | memory =>
      obtain ⟨rfl, h13⟩ := h12
      simp only [h13, h2, Option.bind_some, h3, Option.map_some]
    | datastore =>
      obtain ⟨_, row, h13, h14, _⟩ := h12
      simp only [h13, Option.map_some, hw.blocks.addr _ _ h14]

/-! ### Every step -/

theorem headOf_newObj (hw : PWorld L Z be w) (o : RepoObj C R) (d : Did) :
    headOf L be { w with heap := w.heap ++ [o] } d = headOf L be w d := by
  cases be with
  | datastore => rfl
  | memory =>
    simp only [Store.headOf]
    cases hg : dictGet w.repos d with
    | none => rfl
    | some i =>
      dsimp only
      obtain ⟨_, x, g2, _⟩ := hw.core.repos d i (dictGet_mem hg)
      rw [List.getElem?_append, if_pos (lt_of_get g2)]

theorem append_step (hw : PWorld L Z be w) {al : Allow} {o : RepoObj C R}
    (hc : PCore L Z be w.last w.last { w with heap := w.heap ++ [o] }) (ho : o.head ≠ none) :
    PStep L Z be al w { w with heap := w.heap ++ [o] } := by
  refine ⟨hw.same rfl hc, .none fun d => headOf_newObj hw o d, fun hl i x hx => ?_,
    fun _ _ h => h.congr rfl rfl rfl⟩
  replace hx : (w.heap ++ [o])[i]? = some x := hx
  rw [List.getElem?_append] at hx
  split at hx
  · exact hl i x hx
  · rw [List.getElem?_singleton] at hx
    split at hx
    · cases hx; exact ho
    · cases hx

theorem PStep.id (hw : PWorld L Z be w) {al : Allow} : PStep L Z be al w w :=
  ⟨hw, .none fun _ => rfl, fun h => h, fun _ _ h => h⟩

theorem repoLoad_step (hw : PWorld L Z be w) {al : Allow} (c : C) {handle : Option Key}
    (hh : ∀ h, handle = some h → ¬ isDid h) (status : Option Status) (key : Nat)
    (callback : Bool) : PStep L Z be al w (repoLoad w c handle status key callback).1 := by
  have hc := hw.core.repoLoad c hh status key callback
  unfold Store.repoLoad at hc ⊢
  split at hc
  · exact .id hw
  · exact append_step hw hc (by simp)

theorem loadRepo_step (hw : PWorld L Z be w) {al : Allow} (q : Key) :
    PStep L Z be al w (loadRepo be w q).1 := by
  unfold Store.loadRepo
  split
  · exact .id hw
  · cases be with
    | memory => exact .id hw
    | datastore =>
      dsimp only
      split
      · exact .id hw
      · rename_i row hf
        have hh : ∀ h, row.handle = some h → ¬ isDid h := by
          unfold Store.findRow at hf
          split at hf
          · rename_i hg; cases hf; exact (hw.core.rows q row (dictGet_mem hg)).1
          · cases hfind : w.rows.find? (fun kv => decide (kv.2.handle = some q)) with
            | none => rw [hfind] at hf; cases hf
            | some kv =>
              rw [hfind] at hf; cases hf
              exact (hw.core.rows kv.1 kv.2 (List.mem_of_find?_eq_some hfind)).1
        have := repoLoad_step (al := al) hw row.head hh row.status row.key false
        split <;> (rename_i he; rw [he] at this; exact this)

theorem setObj_step (hw : PWorld L Z be w) {al : Allow} {r : Ref} {o o' : RepoObj C R}
    (ho : w.heap[r]? = some o) (ht : ∃ l t M, Inv L.env (nodeIn w.blocks) Z l t o'.mst M)
    (hh : o'.head = o.head) (hh' : o'.handle = o.handle) : PStep L Z be al w (w.setObj r o') := by
  have hm := hw.core.heap r o ho
  have hd : o'.did = o.did := by unfold RepoObj.did; rw [hh]
  refine ⟨hw.same rfl (hw.core.setObj ho ⟨ht, by rw [hh]; exact hm.head, by rw [hh']; exact hm.handle⟩
    (.inl hd) (fun hb b hbb => hw.core.heads hb r o b ho (hh ▸ hbb))),
    .none fun d => headOf_sameHead ho hh d, fun hl => ?_, fun _ _ h => h.congr rfl rfl rfl⟩
  exact Live.of_dids hw hl (Dids.setObj ho hd) (by simp [World.setObj])

theorem RootOK.plain {blocks : List (C × Block C R)} {c : C} {m : Key → Option R}
    (h : RootOK L Z blocks c m) : PRoot L Z blocks c := by
  obtain ⟨t, h1, h2, h3⟩ := h
  obtain ⟨l, hl, hw⟩ := h1.wf
  exact ⟨t, l, hl, hw, h1.sorted, h1.valid, h2, h3⟩

theorem importBlocks_plain (hL : L.OK Z) (hb : PBlocks L Z w.last w.blocks) {did : Did}
    {new : List (C × Val C R)} (hnew : Whole L new) (ha : Aliens L w new) :
    PBlocks L Z w.last (importBlocks did w.blocks new) := by
  have hg := importBlocks_grows did new w.blocks
  refine ⟨importBlocks_addr hb.addr hnew.cids, importBlocks_store hL hb.addr hb.store hnew, ?_, ?_, ?_, ?_⟩
  · intro c b h
    rcases importBlocks_only h with g | ⟨_, g, _⟩
    · exact hb.seqs c b g
    · rw [g]; exact Nat.zero_le _
  · intro c b r h hv
    rcases importBlocks_only h with g | ⟨_, g, _⟩
    · exact hb.recs c b r g hv
    · rw [g]; exact ⟨fun h => absurd h (by simp), rfl⟩
  · intro c b co h hv
    rcases importBlocks_only h with g | ⟨g0, g, g'⟩
    · exact (hb.commits c b co g hv).imp (·.grow hg) (·.grow hg)
    · rw [hv] at g'
      obtain ⟨m, hm⟩ := importBlocks_root hL (did := did) hb.addr hb.store hnew g'
      exact .inr ⟨by rw [g], (hnew.commits c co g').1, ha c co g' g0, hm.plain⟩
  · intro c b e h hv
    rcases importBlocks_only h with g | ⟨_, _, g⟩
    · exact hb.events c b e g hv
    · exact absurd hv (hnew.plain _ g e)

/-- What `import_repo` does once its checks have passed. -/
theorem import_plain (hL : L.OK Z) (hw : PWorld L Z be w) {co : Commit C} {handle : Option Key} {key : Nat}
    {new : List (C × Val C R)} (hnew : Whole L new) (hhead : (L.hash (.commit co), .commit co) ∈ new)
    (hno : (Store.loadRepo be w co.did).2 = .ok none) (hh : ∀ h, handle = some h → ¬ isDid h)
    (ha : Aliens L w new) (hnat : ∀ b, w.read (L.hash (.commit co)) = some b → b.seq = 0) :
    ∃ w', importInto L be w co handle key new = (w', .ok ()) ∧ PWorld L Z be w' ∧
      w'.heap = w.heap ++ [⟨Arroba.load co.data, some ⟨.commit co, 0, none, co.did⟩, handle,
        some .deactivated, key, false⟩] ∧
      w'.blocks = importBlocks co.did w.blocks new ∧ w'.seqs = w.seqs ∧ w'.log = w.log ∧
      (∀ d, headOf L be w' d = if d = co.did then some (L.hash (.commit co)) else headOf L be w d) ∧
      headOf L be w co.did = none ∧
      ∃ b, dictGet w'.blocks (L.hash (.commit co)) = some b ∧ b.val = .commit co ∧ b.seq = 0 := by
  have hb := importBlocks_plain hL hw.core.blocks (did := co.did) hnew ha
  have hd := (hnew.commits _ _ hhead).1
  have hc := hw.core.withBlocks (importBlocks_grows co.did new w.blocks) hb
  have hw1 : PWorld L Z be { w with blocks := importBlocks co.did w.blocks new } := hw.same rfl hc
  obtain ⟨m, hm⟩ := importBlocks_root hL (did := co.did) hw.core.blocks.addr hw.core.blocks.store hnew hhead
  obtain ⟨bh, hbh, hbv⟩ := importBlocks_has hL hw.core.blocks.addr hnew.cids (did := co.did) hhead
  have hbs : bh.seq = 0 := by
    rcases importBlocks_only hbh with g | ⟨_, g, _⟩
    · exact hnat bh g
    · rw [g]
  have hc2 := hc.newObj (o := ⟨Arroba.load co.data, some ⟨.commit co, 0, none, co.did⟩, handle,
    some .deactivated, key, false⟩) ⟨hm.plain.load, fun x hx => by cases hx; exact ⟨bh, co, hbh, hbv, rfl, hbs⟩, hh⟩
    (fun _ x hx => by cases hx; exact Nat.zero_le _)
  obtain ⟨w', h1, h2, h3, h4, h5, h6, h7⟩ := createRepo_plain (hw1.same (by rfl) hc2) (r := w.heap.length)
    (by simp only [List.getElem?_append_right (Nat.le_refl _), Nat.sub_self]; rfl) rfl rfl
  refine ⟨w', h1, h2, h3, h4, h5, h6, fun d => ?_, ?_, bh, h4 ▸ hbh, hbv, hbs⟩
  · rw [h7]
    split
    · rfl
    · rw [headOf_newObj hw1]
      rfl
  · rw [← hw.core.readHead hd]
    unfold Store.readHead
    split
    · rename_i heq; rw [heq] at hno; cases hno
    · rfl

theorem Step.plain (hL : L.OK Z) {al : Allow} {w' : World C R} (hw : PWorld L Z be w)
    (h : Step L be al w w') : PStep L Z be al w w' := by
  cases h with
  | create did handle key callback time xs cbFails hd hh hp hs hr =>
    exact create_step hL hw hd hh hp hs hr
  | commit r writes xs cbFails ha => exact commit_step hL hw r writes xs cbFails ha
  | allocate hp =>
    exact ⟨hw.of_core rfl ((hw.core.up (Nat.le_succ _) (Nat.le_succ _)).congr rfl rfl rfl rfl), .none fun _ => rfl, id, fun hn => absurd hp hn⟩
  | setStatus r s hp =>
    obtain ⟨h1, _, _, _, h5, h6, h7, _⟩ := status_plain hw r s
    exact ⟨h1, .none h7, fun hl => Live.of_dids hw hl h6 h5.le, fun hn => absurd hp hn⟩
  | importBlocks did new _ hp hnew ha =>
    exact ⟨hw.same rfl (hw.core.withBlocks (importBlocks_grows did new w.blocks)
      (importBlocks_plain hL hw.core.blocks hnew ha)), .none fun _ => rfl, id, fun hn => absurd hp hn⟩
  | setCallback r b =>
    unfold World.modObj
    cases ho : w.heap[r]? with
    | none => exact .id hw
    | some o => exact setObj_step hw ho (hw.core.heap r o ho).tree rfl rfl
  | deactivate r time => exact setStatus_step hL hw r _ _ time
  | activate r time => exact setStatus_step hL hw r _ _ time
  | tombstone r time => exact setStatus_step hL hw r _ _ time
  | event r kind time hr => exact event_step hL hw r kind time hr
  | loadRepo q => exact loadRepo_step hw q
  | repoLoad c handle status key callback hh => exact repoLoad_step hw c hh status key callback
  | cache r o n ho hn =>
    obtain ⟨l, t, M, h1⟩ := (hw.core.heap r o ho).tree
    exact setObj_step (o' := { o with mst := n }) hw ho ⟨l, t, M, h1.cached hL.fuel hn⟩ rfl rfl
  | «import» co handle key new hi hnew hhead hno hh ha hnat =>
    obtain ⟨w', h1, h2, h3, h4, h5, h6, h7, h8, h9⟩ := import_plain hL (be := be) (key := key) hw hnew hhead hno hh ha hnat
    rw [h1]
    refine ⟨h2, .import co.did co rfl hi h9 h7 h8, fun hl i x hx => ?_, fun _ _ hs => ?_⟩
    · dsimp only at hx
      rw [h3, List.getElem?_append] at hx
      split at hx
      · exact hl i x hx
      · rw [List.getElem?_singleton] at hx
        split at hx
        · cases hx; simp
        · cases hx
    · have := import_seqs (did := co.did) (new := new) hs
      unfold World.SeqsOK
      rw [h4, h6, show w'.last = w.last by unfold World.last; rw [h5]]
      exact this

theorem PWorld.empty (L : Lib C R) (Z : Nat) (be : Backend) : PWorld L Z be (.empty : World C R) := by
  refine ⟨by simp [World.empty, dictGet], ⟨⟨?_, ⟨?_, ?_⟩, ?_, ?_, ?_, ?_⟩, ?_, ?_, ?_, ?_⟩⟩ <;>
    intros <;> simp_all [World.empty, dictGet, nodeIn, Addressed]

/-- The invariant holds in every history. -/
theorem Reach.plain (hL : L.OK Z) {al : Allow} (h : Reach L be al w) :
    PWorld L Z be w ∧ Live w := by
  induction h with
  | empty => exact ⟨.empty L Z be, (empty_ok L Z).2⟩
  | step _ h ih =>
    have := Step.plain hL ih.1 h
    exact ⟨this.world, this.live ih.2⟩

theorem Reach.pseqs (hL : L.OK Z) {al : Allow} (hp : ¬ al.partway) (h : Reach L be al w) :
    w.SeqsOK al := by
  induction h with
  | empty =>
    refine ⟨?_, ?_, ?_, ?_, ?_⟩ <;> intros <;> simp_all [World.empty, dictGet, World.last, lastSeq]
  | step h h' ih =>
    obtain ⟨h1, h2⟩ := Reach.plain hL h
    exact (Step.plain hL h1 h').seqs hp h2 ih

end

end Arroba.Store
