import Verif.Storage.GrowProofs
import Verif.Storage.PlainReach

/-! Helper lemmas: what is stored under one sequence number, in any history, also if transactions fail and are retried. -/

namespace Arroba.Store

variable {C R : Type} [DecidableEq C]

open Arroba.Tree

/-- The blocks of a sequence number are of one repo. Either there is a commit among them, or it is one event. -/
structure Grouped (blocks : List (C × Block C R)) : Prop where
  marked : ∀ c b, dictGet blocks c = some b → 1 ≤ b.seq → ∃ c' b', dictGet blocks c' = some b' ∧ b'.marker ∧
    b'.seq = b.seq
  alone : ∀ c b c' b', dictGet blocks c = some b → dictGet blocks c' = some b' → b.isEvent → 1 ≤ b.seq →
    b'.seq = b.seq → c' = c
  together : ∀ c b c' b', dictGet blocks c = some b → dictGet blocks c' = some b' → 1 ≤ b.seq → b'.seq = b.seq →
    b'.repo = b.repo

/-- What is stored under `seq` is of the repo `d`, and no event. -/
def OnlyOf (d : Did) (seq : Nat) (blocks : List (C × Block C R)) : Prop :=
  ∀ c b, dictGet blocks c = some b → b.seq = seq → b.repo = d ∧ ¬ b.isEvent

/-- The repo that a commit is for. -/
def ForDid (w : World C R) (r : Ref) (repoDid : Option Did) (d : Did) : Prop :=
  repoDid = some d ∨ (repoDid = none ∧ ∃ o, w.heap[r]? = some o ∧ o.did = some d)

section
variable {L : Lib C R} {Z : Nat} {be : Backend} {w : World C R}

theorem Grouped.empty : Grouped ([] : List (C × Block C R)) := by
  refine ⟨?_, ?_, ?_⟩ <;> intros <;> simp_all [dictGet]

/-- One more attempt of a commit. -/
theorem Grouped.built {blocks : List (C × Block C R)} {seq : Nat} {did : Did} {prev : Option C} {key nonce : Nat}
    {n : Node C} {cd : CommitData C R} {co : Commit C} (h : Grouped blocks) (ho : OnlyOf did seq blocks)
    (hb : PBuilt L Z blocks seq did prev key nonce n cd co) :
    Grouped (putBlocks L blocks (cd.blocks.map (·.2))) ∧ OnlyOf did seq (putBlocks L blocks (cd.blocks.map (·.2))) := by
  have hg : Grows blocks (putBlocks L blocks (cd.blocks.map (·.2))) := putBlocks_grows _ _
  have hnew : ∀ {c b}, dictGet (putBlocks L blocks (cd.blocks.map (·.2))) c = some b →
      dictGet blocks c = some b ∨ (b.seq = seq ∧ b.repo = did ∧ ¬ b.isEvent) := by
    intro c b hx
    rcases hb.newMarker hx with k | ⟨k1, k2, k3⟩
    · exact .inl k
    · refine .inr ⟨k1, k2, fun he => ?_⟩
      obtain ⟨ops, hcd⟩ := hb.commit
      rw [(k3 he.marker).1, hcd] at he
      exact he
  have ho' : OnlyOf did seq (putBlocks L blocks (cd.blocks.map (·.2))) := by
    intro c b hx hs
    rcases hnew hx with k | k
    · exact ho c b k hs
    · exact k.2
  refine ⟨⟨?_, ?_, ?_⟩, ho'⟩
  · intro c b hx h1
    rcases hnew hx with k | ⟨k, _⟩
    · obtain ⟨c', b', g1, g2⟩ := h.marked c b k h1
      exact ⟨c', b', hg _ _ g1, g2⟩
    · obtain ⟨b', co', g1, g2, g3, g4⟩ := hb.head
      obtain ⟨ops, hcd⟩ := hb.commit
      refine ⟨_, b', g1, ?_, ?_⟩
      · unfold Block.marker; rw [g2, g3]; trivial
      · rw [g4, hcd, k]
  · intro c b c' b' hx hx' he h1 hs
    rcases hnew hx with k | ⟨_, _, k⟩
    · rcases hnew hx' with k' | ⟨k', _⟩
      · exact h.alone c b c' b' k k' he h1 hs
      · exact absurd he (ho c b k (by omega)).2
    · exact absurd he k
  · intro c b c' b' hx hx' h1 hs
    rcases hnew hx with k | ⟨k1, k2, _⟩
    · rcases hnew hx' with k' | ⟨k1', k2', _⟩
      · exact h.together c b c' b' k k' h1 hs
      · rw [k2', (ho c b k (by omega)).1]
    · rw [k2, (ho' c' b' hx' (by omega)).1]

/-- What an attempt writes does not depend on whether the entity can be stored. -/
theorem finishCommit_luck (w : World C R) (r s : Ref) (mst : Node C) (existing : Bool) (cd : CommitData C R) (x : Luck) :
    (finishCommit L be w r s mst existing cd x).1.blocks =
      (finishCommit L be w r s mst existing cd { x with storeFails := false }).1.blocks := by
  have key : ∀ x : Luck, (finishCommit L be w r s mst existing cd x).1.blocks =
      if be = .datastore ∧ x.writeFails then w.blocks else putBlocks L w.blocks (cd.blocks.map (·.2)) := by
    intro x
    unfold finishCommit
    split
    · rfl
    · simp only
      split
      · split
        · exact modObj_blocks _ _ _
        · have := storeRepo_blocks (L := L) be (({ w with blocks := putBlocks L w.blocks (cd.blocks.map (·.2)) } :
            World C R).modObj s (fun o => { o with head := some cd.commit })) s
          split
          · rename_i h; rw [h] at this; exact this.trans (modObj_blocks _ _ _)
          · rename_i h; rw [h] at this
            exact (modObj_blocks _ _ _).trans (this.trans (modObj_blocks _ _ _))
      · exact modObj_blocks _ _ _
  rw [key, key]

theorem commitBody_luck (w : World C R) (r : Ref) (writes : List (Write R)) (seq : Nat) (repoDid : Option Did) (x : Luck) :
    (commitBody L be w r writes seq repoDid x).1.blocks =
      (commitBody L be w r writes seq repoDid { x with storeFails := false }).1.blocks := by
  unfold commitBody
  split
  · rfl
  · split
    · rfl
    · split
      · rfl
      · split
        · rfl
        · split
          · rfl
          · split
            · rfl
            · split
              · rfl
              · simp only
                split
                · rfl
                · split
                  · rfl
                  · exact finishCommit_luck _ _ _ _ _ _ _

/-- What an attempt writes. -/
theorem attempt_writes (hL : L.OK Z) {seq lo : Nat} {r : Ref} {repoDid : Option Did} {writes : List (Write R)} {x : Luck}
    (hw : PCore L Z be seq lo w) (hlo : lo < seq) (hm : ∀ d, repoDid = some d → isDid d ∧ ∀ d', (d', r) ∉ w.repos) :
    (commitBody L be w r writes seq repoDid x).1.blocks = w.blocks ∨
    ∃ did prev key nonce n cd co, PBuilt L Z w.blocks seq did prev key nonce n cd co ∧
      (commitBody L be w r writes seq repoDid x).1.blocks = putBlocks L w.blocks (cd.blocks.map (·.2)) ∧
      match repoDid with
      | some d => did = d
      | none => ∃ o, w.heap[r]? = some o ∧ o.did = some did := by
  have ha := attempt_plain hL (writes := writes) (x := { x with storeFails := false }) hw hlo hm
  rw [commitBody_luck]
  rcases hb : commitBody L be w r writes seq repoDid { x with storeFails := false } with ⟨w1, res⟩
  rw [hb] at ha
  cases res with
  | error e =>
    obtain ⟨_, _, _, _, _, _, h, _⟩ := ha
    rcases h with h | ⟨_, h⟩
    · exact .inl h
    · cases h
  | ok cd =>
    obtain ⟨_, did, prev, co, hd⟩ := ha
    obtain ⟨key, nonce, n, hbu⟩ := hd.built
    refine .inr ⟨did, prev, key, nonce, n, cd, co, hbu, hd.blocks, ?_⟩
    have hh := hd.heads
    obtain ⟨o, ho1, _, ho2⟩ := hd.caller
    cases repoDid with
    | none => exact ⟨o, ho1, ho2 rfl⟩
    | some d => exact hh.1

theorem tx_grouped (hL : L.OK Z) {seq lo : Nat} {r : Ref} {repoDid : Option Did} {d : Did}
    (writes : List (Write R)) (hlo : lo < seq) : ∀ (xs : List Luck) {w : World C R},
    PCore L Z be seq lo w → (∀ d, repoDid = some d → isDid d ∧ ∀ d', (d', r) ∉ w.repos) →
    ForDid w r repoDid d →
    Grouped w.blocks → OnlyOf d seq w.blocks →
    Grouped (commitTx L be r writes seq repoDid w xs).1.blocks ∧
      OnlyOf d seq (commitTx L be r writes seq repoDid w xs).1.blocks
  | [], w, _, _, _, hg, ho => ⟨hg, ho⟩
  | x :: xs, w, hw, hm, hd, hg, ho => by
    have hwr := attempt_writes hL (writes := writes) (x := x) hw hlo hm
    have ha := attempt_plain hL (writes := writes) (x := x) hw hlo hm
    have hgo : Grouped (commitBody L be w r writes seq repoDid x).1.blocks ∧
        OnlyOf d seq (commitBody L be w r writes seq repoDid x).1.blocks := by
      rcases hwr with h | ⟨did, prev, key, nonce, n, cd, co, h1, h2, h3⟩
      · rw [h]; exact ⟨hg, ho⟩
      · rw [h2]
        have : did = d := by
          rcases hd with rfl | ⟨rfl, o', k3, k4⟩
          · exact h3
          · obtain ⟨o, k1, k2⟩ := h3
            rw [k1] at k3; cases k3
            rw [k2] at k4; exact Option.some.inj k4
        subst this
        exact hg.built ho h1
    unfold commitTx
    rcases hb : commitBody L be w r writes seq repoDid x with ⟨w1, res⟩
    rw [hb] at ha hgo
    have hnext : ∀ {w2 : World C R}, w2.heap = (w1.collect w).heap →
        Dids (fun i => repoDid = none ∨ i ≠ r) w (w1.collect w) → ForDid w2 r repoDid d := by
      intro w2 he hdi
      rcases hd with h | ⟨h, o, k1, k2⟩
      · exact .inl h
      · exact .inr ⟨h, by rw [he]; exact hdi r o d (.inl h) k1 k2⟩
    cases res with
    | error e =>
      obtain ⟨h1, h2, h3, h4, h5, h6, h7, h8, h9⟩ := ha
      dsimp only
      have hrows : ({ w1.collect w with rows := w.rows } : World C R) = w1.collect w := by
        rw [← h2]; rfl
      rw [hrows]
      split
      · have hcl : be = .datastore ∨ w1.heap.length ≤ w.heap.length := by
          cases be with
          | datastore => exact .inl rfl
          | memory => exact .inr (h5 rfl).le
        exact tx_grouped hL writes hlo xs (h1.collect hcl) (fun d' hd' => ⟨(hm d' hd').1, fun d'' => by
          show (d'', r) ∉ w1.repos
          rw [h3]; exact (hm d' hd').2 d''⟩) (hnext rfl h9.collect) hgo.1 hgo.2
      · exact hgo
    | ok cd =>
      obtain ⟨h1, did, prev, co, hdn⟩ := ha
      dsimp only
      split
      · rename_i ht
        have ihg := fun (w' : World C R) h h' h'' =>
          tx_grouped hL (r := r) (repoDid := repoDid) (d := d) writes hlo xs (w := w') h h' h''
        obtain ⟨rfl, ht⟩ := ht
        have hw2 : PCore L Z .datastore seq lo ({ w1.collect w with rows := w.rows } : World C R) :=
          (h1.collect (.inl rfl)).undoRows hw hdn.grows
        refine ihg _ hw2 (fun d' hd' => ⟨(hm d' hd').1, fun d'' hmem => ?_⟩) (hnext rfl hdn.dids.collect) hgo.1 hgo.2
        obtain ⟨k, _⟩ := h1.repos _ _ hmem
        cases k
      · exact hgo

theorem commitTx_none {r : Ref} (h : w.heap[r]? = none) (writes : List (Write R)) (seq : Nat) (xs : List Luck) :
    (commitTx L be r writes seq none w xs).1.blocks = w.blocks := by
  cases xs with
  | nil => rfl
  | cons x xs =>
    unfold commitTx commitBody
    rw [h]
    simp [World.collect]

theorem commit_tx (w : World C R) (r : Ref) (writes : List (Write R)) (repoDid : Option Did) (xs : List Luck)
    (cbFails : Bool) : (commit L be w r writes repoDid xs cbFails).1.blocks =
      (commitTx L be r writes w.alloc.1 repoDid w.alloc.2 xs).1.blocks := by
  unfold Store.commit
  simp only
  split
  · rename_i hb; rw [hb, logIf_blocks]
  · rename_i hb; rw [hb]
    split
    · rw [logIf_blocks, logIf_blocks]
    · rw [logIf_blocks]

/-- The blocks of a commit are of its repo. -/
theorem commit_only (hL : L.OK Z) (hw : PWorld L Z be w) {r : Ref} {o : RepoObj C R} {d : Did} (ho : w.heap[r]? = some o)
    (hd : o.did = some d) (writes : List (Write R)) (xs : List Luck) (cbFails : Bool) (hg : Grouped w.blocks) :
    Grouped (commit L be w r writes none xs cbFails).1.blocks ∧
      OnlyOf d (w.last + 1) (commit L be w r writes none xs cbFails).1.blocks := by
  obtain ⟨a1, a2, a3, a4⟩ := hw.alloc
  rw [commit_tx, a1]
  exact tx_grouped hL writes (Nat.lt_succ_self w.last) xs a3 (fun d hd => by cases hd) (.inr ⟨rfl, o, ho, hd⟩) hg
    fun c b hb hs => by
      have := hw.core.blocks.seqs c b hb
      omega

theorem commit_grouped (hL : L.OK Z) (hw : PWorld L Z be w) (hl : Live w) {r : Ref}
    (writes : List (Write R)) (xs : List Luck) (cbFails : Bool) (hg : Grouped w.blocks) :
    Grouped (commit L be w r writes none xs cbFails).1.blocks := by
  cases ho : w.heap[r]? with
  | none => rw [commit_tx, commitTx_none (w := w.alloc.2) ho]; exact hg
  | some o =>
    obtain ⟨d, hd⟩ := hw.did hl ho
    exact (commit_only hL hw ho hd writes xs cbFails hg).1

theorem first_grouped (hL : L.OK Z) (hw : PWorld L Z be w) {r : Ref} {d : Did} (hd : isDid d)
    (hm : ∀ d', (d', r) ∉ w.repos) (writes : List (Write R)) (xs : List Luck) (cbFails : Bool) (hg : Grouped w.blocks) :
    Grouped (commit L be w r writes (some d) xs cbFails).1.blocks := by
  obtain ⟨a1, a2, a3, a4⟩ := hw.alloc
  have key := (tx_grouped hL (repoDid := some d) (d := d) (r := r) writes (Nat.lt_succ_self w.last) xs a3
    (fun d' h => by cases h; exact ⟨hd, hm⟩) (.inl rfl) hg fun c b hb hs => by
      have := hw.core.blocks.seqs c b hb
      omega).1
  rw [commit_tx, a1]
  exact key

theorem event_grouped (hL : L.OK Z) (hw : PWorld L Z be w) (r : Ref) (kind : EventKind C) (time : Nat)
    (hg : Grouped w.blocks) : Grouped (writeEvent L be w r kind time).1.blocks := by
  cases ho : w.heap[r]? with
  | none => unfold writeEvent; simp only [ho]; exact hg
  | some o =>
    cases hd : o.did with
    | none => unfold writeEvent; simp only [ho, hd]; exact hg
    | some d =>
      obtain ⟨e, he, h1, h2, _⟩ := event_plain hL hw ho hd kind time
      rw [h2]
      dsimp only
      rw [logIf_blocks]
      dsimp only
      set b : Block C R := ⟨.event e, w.last + 1, none, d⟩ with hb
      have hgr : Grows w.blocks (putBlocks L w.blocks [b]) := putBlocks_grows _ _
      have hnew : ∀ {c x}, dictGet (putBlocks L w.blocks [b]) c = some x →
          dictGet w.blocks c = some x ∨ (x = b ∧ c = L.hash b.val) := by
        intro c x hx
        rcases putBlocks_get _ _ hx with h' | ⟨_, h', hc⟩
        · exact .inl h'
        · have := List.mem_singleton.1 h'
          subst this
          exact .inr ⟨rfl, hc.symm⟩
      have hlt : ∀ {c x}, dictGet w.blocks c = some x → x.seq ≤ w.last := fun hx => hw.core.blocks.seqs _ _ hx
      refine ⟨?_, ?_, ?_⟩
      · intro c x hx h1x
        rcases hnew hx with k | ⟨rfl, rfl⟩
        · obtain ⟨c', b', g1, g2⟩ := hg.marked c x k h1x
          exact ⟨c', b', hgr _ _ g1, g2⟩
        · exact ⟨_, _, hx, trivial, rfl⟩
      · intro c x c' x' hx hx' hev h1x hs
        rcases hnew hx with k | ⟨rfl, rfl⟩
        · rcases hnew hx' with k' | ⟨rfl, rfl⟩
          · exact hg.alone c x c' x' k k' hev h1x hs
          · have := hlt k
            simp only [hb] at hs
            omega
        · rcases hnew hx' with k' | ⟨_, rfl⟩
          · have := hlt k'
            simp only [hb] at hs
            omega
          · rfl
      · intro c x c' x' hx hx' h1x hs
        rcases hnew hx with k | ⟨rfl, rfl⟩
        · rcases hnew hx' with k' | ⟨rfl, rfl⟩
          · exact hg.together c x c' x' k k' h1x hs
          · have := hlt k
            simp only [hb] at hs
            omega
        · rcases hnew hx' with k' | ⟨rfl, rfl⟩
          · have := hlt k'
            simp only [hb] at hs
            omega
          · rfl

theorem events_grouped (hL : L.OK Z) (r : Ref) (time : Nat) : ∀ (ks : List (EventKind C)) {w : World C R},
    PWorld L Z be w → Grouped w.blocks → Grouped (writeEvents L be r time w ks).1.blocks
  | [], w, _, hg => hg
  | k :: ks, w, hw, hg => by
    have h1 := event_grouped hL hw r k time hg
    have h2 := (event_any hL hw r k time).1
    unfold writeEvents
    split
    · rename_i h; rw [h] at h1; exact h1
    · rename_i h; rw [h] at h1 h2; exact events_grouped hL r time ks h2 h1

theorem status_grouped (hL : L.OK Z) (hw : PWorld L Z be w) (r : Ref) (s : Option Status) (kind : EventKind C) (time : Nat)
    (hg : Grouped w.blocks) : Grouped (setStatusEvent L be w r s kind time).1.blocks := by
  obtain ⟨h1, h2, _⟩ := status_plain hw r s
  unfold setStatusEvent
  rcases hs : setRepoStatus be w r s with ⟨w1, res⟩
  rw [hs] at h1 h2
  cases res with
  | error e => dsimp only at h2 ⊢; rw [h2]; exact hg
  | ok u =>
    dsimp only at h2 ⊢
    have := event_grouped hL h1 r kind time (by rw [h2]; exact hg)
    split
    · rename_i h; rw [h] at this; exact this
    · rename_i h; rw [h] at this; exact this

theorem create_grouped (hL : L.OK Z) (hw : PWorld L Z be w) {did : Did} {handle : Option Key} {key : Nat} {callback : Bool}
    {time : Nat} {xs : List Luck} {cbFails : Bool} (hd : isDid did) (hh : ∀ h, handle = some h → ¬ isDid h)
    (hg : Grouped w.blocks) : Grouped (repoCreate L be w did handle key callback time xs cbFails).1.blocks := by
  obtain ⟨root, hroot, hinv⟩ := create_root hL w.rd
  unfold repoCreate
  rw [hroot]
  dsimp only
  set o0 : RepoObj C R := ⟨root, none, handle, none, key, callback⟩ with ho0
  have hw0ok : PWorld L Z be (w.newObj o0).2 := hw.same rfl
    (hw.core.newObj ⟨⟨0, nil, _, hinv⟩, fun b hb => (by cases hb), hh⟩ (fun _ b hb => by cases hb))
  have hnot : ∀ d', (d', w.heap.length) ∉ (w.newObj o0).2.repos := by
    intro d' h
    obtain ⟨_, o, g, _⟩ := hw.core.repos d' _ h
    have := lt_of_get g
    omega
  obtain ⟨w1, w', res, h1, h2, h3, _⟩ := commit_plain hL hw0ok (r := w.heap.length) (repoDid := some did)
    (fun d h => by cases h; exact ⟨hd, hnot⟩) [] xs cbFails
  have hg1 := first_grouped hL hw0ok hd hnot [] xs cbFails hg
  have hn : (w.newObj o0).1 = w.heap.length := rfl
  rw [hn]
  rw [h1] at hg1 ⊢
  cases res with
  | error e => exact hg1
  | ok cd =>
    dsimp only
    split
    · rename_i co _
      have hg2 := events_grouped hL (be := be) w.heap.length time
        [.identity handle, .account true none, .sync (L.hash cd.commit.val) co.rev] (h2.pworld h3) hg1
      split
      · rename_i h; rw [h] at hg2; exact hg2
      · rename_i w2 h; rw [h] at hg2
        have h4 := createRepo_blocks (L := L) be w2 w.heap.length
        split
        · rename_i h; rw [h] at h4; dsimp only at h4 ⊢
          show Grouped _
          rw [show ∀ (x : World C R), (x.collect w).blocks = x.blocks from fun _ => rfl] 
          rw [h4]; exact hg2
        · rename_i h; rw [h] at h4; dsimp only at h4 ⊢; rw [logIf_blocks, h4]; exact hg2
    · exact hg1

theorem import_grouped {did : Did} {new : List (C × Val C R)} (h : Grouped w.blocks) :
    Grouped (importBlocks did w.blocks new) := by
  have hg := importBlocks_grows did new w.blocks
  refine ⟨?_, ?_, ?_⟩
  · intro c b hb h1
    rcases importBlocks_only hb with g | ⟨_, g, _⟩
    · obtain ⟨c', b', h2, h3⟩ := h.marked c b g h1
      exact ⟨c', b', hg _ _ h2, h3⟩
    · rw [g] at h1; exact absurd h1 (by simp)
  · intro c b c' b' hb hb' he h1 hs
    rcases importBlocks_only hb with g | ⟨_, g, _⟩
    · rcases importBlocks_only hb' with g' | ⟨_, g', _⟩
      · exact h.alone c b c' b' g g' he h1 hs
      · rw [← hs, g'] at h1; exact absurd h1 (by simp)
    · rw [g] at h1; exact absurd h1 (by simp)
  · intro c b c' b' hb hb' h1 hs
    rcases importBlocks_only hb with g | ⟨_, g, _⟩
    · rcases importBlocks_only hb' with g' | ⟨_, g', _⟩
      · exact h.together c b c' b' g g' h1 hs
      · rw [← hs, g'] at h1; exact absurd h1 (by simp)
    · rw [g] at h1; exact absurd h1 (by simp)

theorem Step.grouped (hL : L.OK Z) {al : Allow} {w' : World C R} (hw : PWorld L Z be w) (hl : Live w)
    (h : Step L be al w w') (hg : Grouped w.blocks) : Grouped w'.blocks := by
  cases h with
  | create did handle key callback time xs cbFails hd hh => exact create_grouped hL hw hd hh hg
  | commit r writes xs cbFails => exact commit_grouped hL hw hl writes xs cbFails hg
  | allocate => exact hg
  | setStatus r s => rw [setRepoStatus_blocks]; exact hg
  | importBlocks did new _ hp hnew ha => exact import_grouped hg
  | setCallback r b => rw [modObj_blocks]; exact hg
  | deactivate r time => exact status_grouped hL hw r _ _ time hg
  | activate r time => exact status_grouped hL hw r _ _ time hg
  | tombstone r time => exact status_grouped hL hw r _ _ time hg
  | event r kind time hr => exact event_grouped hL hw r kind time hg
  | loadRepo q => rw [loadRepo_blocks]; exact hg
  | repoLoad c handle status key callback hh => rw [repoLoad_blocks]; exact hg
  | cache r o n ho hn => exact hg
  | «import» co handle key new hi hnew hhead hno hh ha hnat =>
    rw [importInto_eq]
    exact import_grouped hg

/-- In every history. -/
theorem Reach.grouped (hL : L.OK Z) {al : Allow} (h : Reach L be al w) : Grouped w.blocks := by
  induction h with
  | empty => exact .empty
  | step h h' ih => exact h'.grouped hL (Reach.plain hL h).1 (Reach.plain hL h).2 ih

end

end Arroba.Store
