import Verif.Storage.StepProofs

/-! Helper lemmas: how sequence numbers relate to stored blocks and the callback log. -/

namespace Arroba.Store

variable {C R : Type} [DecidableEq C]

open Arroba.Tree

/-- A commit or an event. -/
def Block.marker (b : Block C R) : Prop :=
  match b.val with
  | .commit _ => True
  | .event _ => True
  | _ => False

/-- An event. -/
def Block.isEvent (b : Block C R) : Prop :=
  match b.val with
  | .event _ => True
  | _ => False

theorem Block.isEvent.marker {b : Block C R} (h : b.isEvent) : b.marker := by
  unfold Block.isEvent at h
  unfold Block.marker
  split at h
  · rename_i e he; rw [he]; trivial
  · exact h.elim

/-- Accounting of sequence numbers. Imported blocks have none. -/
structure SeqOK (al : Allow) (blocks : List (C × Block C R)) (log : List (CbCall C)) (last : Nat) :
    Prop where
  marked : ∀ c b, dictGet blocks c = some b → 1 ≤ b.seq → ∃ c' b', dictGet blocks c' = some b' ∧ b'.marker ∧
    b'.seq = b.seq ∧ b'.repo = b.repo
  unique : ∀ c b c' b', dictGet blocks c = some b → dictGet blocks c' = some b' → b.marker →
    b'.marker → 1 ≤ b.seq → b.seq = b'.seq → c = c'
  alone : ∀ c b c' b', dictGet blocks c = some b → dictGet blocks c' = some b' → b.isEvent →
    1 ≤ b.seq → b'.seq = b.seq → c' = c
  accounted : ¬ al.silent → ∀ n, 1 ≤ n → n ≤ last →
    (∃ c b, dictGet blocks c = some b ∧ b.marker ∧ b.seq = n) ∨ .lost n ∈ log
  exclusive : ¬ al.raising → ∀ n, .lost n ∈ log → 1 ≤ n ∧ n ≤ last ∧ ∀ c b, dictGet blocks c = some b →
    b.seq ≠ n

section
variable {L : Lib C R} {Z : Nat}

theorem SeqOK.add {al : Allow} {blocks blocks' : List (C × Block C R)} {log log' : List (CbCall C)}
    {last : Nat} (h : SeqOK al blocks log last)
    (hlt : ∀ c b, dictGet blocks c = some b → b.seq ≤ last) (hg : Grows blocks blocks') {did : Did}
    {c0 : C} {b0 : Block C R} (h0 : dictGet blocks' c0 = some b0) (h1 : b0.marker)
    (h2 : b0.seq = last + 1) (h3 : b0.repo = did)
    (hnew : ∀ c b, dictGet blocks' c = some b → dictGet blocks c = some b ∨
      (b.seq = last + 1 ∧ b.repo = did ∧ (b.marker → c = c0)))
    (hev : ¬ b0.isEvent ∨ ∀ c b, dictGet blocks' c = some b → b.seq = last + 1 → c = c0)
    (hl1 : ∀ n, CbCall.lost n ∈ log → CbCall.lost n ∈ log')
    (hl2 : ¬ al.raising → ∀ n, CbCall.lost n ∈ log' → CbCall.lost n ∈ log) :
    SeqOK al blocks' log' (last + 1) := by
  refine ⟨?_, ?_, ?_, ?_, ?_⟩
  · intro c b hb h1b
    rcases hnew c b hb with h' | ⟨h', h'', _⟩
    · obtain ⟨c', b', g1, g2⟩ := h.marked c b h' h1b
      exact ⟨c', b', hg _ _ g1, g2⟩
    · exact ⟨c0, b0, h0, h1, h2.trans h'.symm, h3.trans h''.symm⟩
  · intro c b c' b' hb hb' hm hm' h1b hs
    rcases hnew c b hb with k | ⟨k1, _, k2⟩
    · rcases hnew c' b' hb' with k' | ⟨k1', _, k2'⟩
      · exact h.unique c b c' b' k k' hm hm' h1b hs
      · have := hlt c b k; omega
    · rcases hnew c' b' hb' with k' | ⟨k1', _, k2'⟩
      · have := hlt c' b' k'; omega
      · rw [k2 hm, k2' hm']
  · intro c b c' b' hb hb' he h1b hs
    rcases hnew c b hb with k | ⟨k1, _, k2⟩
    · rcases hnew c' b' hb' with k' | ⟨k1', _, k2'⟩
      · exact h.alone c b c' b' k k' he h1b hs
      · have := hlt c b k; omega
    · have hc := k2 he.marker
      subst hc
      rcases hev with hev | hev
      · rw [hb] at h0; cases h0; exact absurd he hev
      · exact hev c' b' hb' (hs.trans k1)
  · intro hs n hn hn'
    by_cases hl : n = last + 1
    · exact .inl ⟨c0, b0, h0, h1, h2.trans hl.symm⟩
    · rcases h.accounted hs n hn (by omega) with ⟨c, b, g1, g2⟩ | g
      · exact .inl ⟨c, b, hg _ _ g1, g2⟩
      · exact .inr (hl1 n g)
  · intro hr n hn
    obtain ⟨g0, g1, g2⟩ := h.exclusive hr n (hl2 hr n hn)
    refine ⟨g0, by omega, fun c b hb => ?_⟩
    rcases hnew c b hb with k | ⟨k, _⟩
    · exact g2 c b k
    · omega

theorem SeqOK.lose {al : Allow} {blocks : List (C × Block C R)} {log log' : List (CbCall C)}
    {last : Nat} (h : SeqOK al blocks log last)
    (hlt : ∀ c b, dictGet blocks c = some b → b.seq ≤ last)
    (hl1 : ∀ n, CbCall.lost n ∈ log → CbCall.lost n ∈ log')
    (hl2 : ∀ n, CbCall.lost n ∈ log' → CbCall.lost n ∈ log ∨ n = last + 1)
    (hl3 : ¬ al.silent → CbCall.lost (last + 1) ∈ log') :
    SeqOK al blocks log' (last + 1) := by
  refine ⟨h.marked, h.unique, h.alone, ?_, ?_⟩
  · intro hs n hn hn'
    by_cases hl : n = last + 1
    · subst hl; exact .inr (hl3 hs)
    · rcases h.accounted hs n hn (by omega) with g | g
      · exact .inl g
      · exact .inr (hl1 n g)
  · intro hr n hn
    rcases hl2 n hn with k | k
    · obtain ⟨g0, g1, g2⟩ := h.exclusive hr n k
      exact ⟨g0, by omega, g2⟩
    · exact ⟨by omega, by omega, fun c b hb => by have := hlt c b hb; omega⟩

/-- The new blocks of a commit. -/
theorem Built.newMarker {blocks : List (C × Block C R)} {seq : Nat} {did : Did} {prev : Option C}
    {key nonce : Nat} {ops : List (CommitOp C)} {m : Key → Option R} {n : Node C}
    {cd : CommitData C R} {co : Commit C}
    (h : Built L Z blocks seq did prev key nonce ops m n cd co) {c : C} {b : Block C R}
    (hb : dictGet (putBlocks L blocks (cd.blocks.map (·.2))) c = some b) :
    dictGet blocks c = some b ∨ (b.seq = seq ∧ b.repo = did ∧
      (b.marker → b = cd.commit ∧ c = L.hash cd.commit.val)) := by
  rcases putBlocks_get _ _ hb with h' | ⟨_, h', hc⟩
  · exact .inl h'
  · obtain ⟨y, hy, rfl⟩ := List.mem_map.1 h'
    obtain ⟨g1, g2, g3, g4⟩ := h.members y hy
    refine .inr ⟨g2, g3, fun hm => ?_⟩
    rcases g4 with ⟨r, g, _⟩ | ⟨d, g, _⟩ | g
    · simp [Block.marker, g] at hm
    · simp [Block.marker, g] at hm
    · exact ⟨g, by rw [← g, hc]⟩

/-- With a fresh sequence number the commit block is stored as it is. -/
theorem Built.stored {blocks : List (C × Block C R)} {seq : Nat} {did : Did} {prev : Option C}
    {key nonce : Nat} {ops : List (CommitOp C)} {m : Key → Option R} {n : Node C}
    {cd : CommitData C R} {co : Commit C}
    (h : Built L Z blocks seq did prev key nonce ops m n cd co)
    (hlt : ∀ c b, dictGet blocks c = some b → b.seq < seq) :
    dictGet (putBlocks L blocks (cd.blocks.map (·.2))) (L.hash cd.commit.val) = some cd.commit := by
  obtain ⟨b, g1, g2, g3⟩ := h.head
  rcases h.newMarker g1 with k | ⟨_, _, k⟩
  · have := hlt _ b k; omega
  · have : b.marker := by
      unfold Block.marker; rw [g2, h.commit]; trivial
    rw [g1, (k this).1]

theorem Built.seqOK {al : Allow} {blocks : List (C × Block C R)} {last : Nat} {did : Did}
    {prev : Option C} {key nonce : Nat} {ops : List (CommitOp C)} {m : Key → Option R} {n : Node C}
    {cd : CommitData C R} {co : Commit C} {log log' : List (CbCall C)}
    (h : Built L Z blocks (last + 1) did prev key nonce ops m n cd co)
    (hs : SeqOK al blocks log last)
    (hlt : ∀ c b, dictGet blocks c = some b → b.seq ≤ last)
    (hl1 : ∀ n, CbCall.lost n ∈ log → CbCall.lost n ∈ log')
    (hl2 : ¬ al.raising → ∀ n, CbCall.lost n ∈ log' → CbCall.lost n ∈ log) :
    SeqOK al (putBlocks L blocks (cd.blocks.map (·.2))) log' (last + 1) := by
  refine hs.add hlt (putBlocks_grows _ _) (h.stored fun c b hb => Nat.lt_succ_of_le (hlt c b hb))
    ?_ ?_ ?_ ?_ (.inl ?_) hl1 hl2 (did := did)
  · rw [h.commit]; trivial
  · rw [h.commit]
  · rw [h.commit]
  · intro c b hb
    rcases h.newMarker hb with k | ⟨k1, k2, k3⟩
    · exact .inl k
    · exact .inr ⟨k1, k2, fun hm => (k3 hm).2⟩
  · rw [h.commit]; exact fun h => h

theorem mem_logIf {w : World C R} {b : Bool} {c x : CbCall C} :
    x ∈ (w.logIf b c).log ↔ x ∈ w.log ∨ (b = true ∧ x = c) := by
  unfold World.logIf
  split
  · rename_i h; simp [h]
  · rename_i h; simp [h]

/-- `SeqOK` of a world. -/
def World.SeqsOK (al : Allow) (w : World C R) : Prop := SeqOK al w.blocks w.log w.last

theorem last_eq {w w' : World C R} (hw : WorldOK L Z w) (hs : w'.seqs = w.alloc.2.seqs) :
    w'.last = w.last + 1 := by
  rw [← hw.alloc.2.2.1]; unfold World.last; rw [hs]

/-- A lost sequence number. -/
theorem World.SeqsOK.lose {al : Allow} {w w1 : World C R} (h : w.SeqsOK al) (hw : WorldOK L Z w)
    {cb : Bool} (hb : w1.blocks = w.blocks) (hlog : w1.log = w.log) (hs : w1.seqs = w.alloc.2.seqs)
    (hsil : al.silent ∨ cb = true) :
    (w1.logIf cb (.lost (w.last + 1))).SeqsOK al := by
  unfold World.SeqsOK
  have e : (w1.logIf cb (.lost (w.last + 1))).last = w.last + 1 := by
    rw [logIf_with]; exact last_eq hw hs
  have e2 : (w1.logIf cb (.lost (w.last + 1))).blocks = w.blocks := by rw [logIf_with]; exact hb
  rw [e, e2]
  refine SeqOK.lose h (fun c b hb => (hw.core.blocks.seqs c b hb)) ?_ ?_ ?_
  · intro n hn; rw [mem_logIf, hlog]; exact .inl hn
  · intro n hn
    rw [mem_logIf, hlog] at hn
    rcases hn with hn | ⟨_, hn⟩
    · exact .inl hn
    · cases hn; exact .inr rfl
  · intro hns
    rw [mem_logIf]
    rcases hsil with h' | h'
    · exact absurd h' hns
    · exact .inr ⟨h', rfl⟩

/-- A commit. -/
theorem World.SeqsOK.commit {al : Allow} {w w1 : World C R} (h : w.SeqsOK al) (hw : WorldOK L Z w)
    {cb cbFails : Bool} {did : Did}
    {prev : Option C} {key nonce : Nat} {ops : List (CommitOp C)} {m : Key → Option R} {n : Node C}
    {cd : CommitData C R} {co : Commit C} {c : C}
    (hbuilt : Built L Z w.blocks (w.last + 1) did prev key nonce ops m n cd co)
    (hb : w1.blocks = putBlocks L w.blocks (cd.blocks.map (·.2))) (hlog : w1.log = w.log)
    (hs : w1.seqs = w.alloc.2.seqs) (hr : al.raising ∨ cbFails = false) :
    (if (cb && cbFails) = true then
      ((w1.logIf cb (.commit c (w.last + 1))).logIf cb (.lost (w.last + 1)))
      else (w1.logIf cb (.commit c (w.last + 1)))).SeqsOK al := by
  have hlt := fun c b hb => (hw.core.blocks.seqs c b hb)
  have hl := last_eq hw hs
  split
  · rename_i hc
    simp only [Bool.and_eq_true] at hc
    have hr' : al.raising := by
      rcases hr with h | h
      · exact h
      · rw [h] at hc; cases hc.2
    unfold World.SeqsOK
    have e : ((w1.logIf cb (.commit c (w.last + 1))).logIf cb (.lost (w.last + 1))).last =
        w.last + 1 := by
      rw [logIf_with, logIf_with]; exact hl
    have e2 : ((w1.logIf cb (.commit c (w.last + 1))).logIf cb (.lost (w.last + 1))).blocks =
        putBlocks L w.blocks (cd.blocks.map (·.2)) := by
      rw [logIf_with, logIf_with]; exact hb
    rw [e, e2]
    refine hbuilt.seqOK h hlt ?_ (fun h => absurd hr' h)
    intro n hn
    rw [mem_logIf, mem_logIf, hlog]
    exact .inl (.inl hn)
  · unfold World.SeqsOK
    have e : (w1.logIf cb (.commit c (w.last + 1))).last = w.last + 1 := by
      rw [logIf_with]; exact hl
    have e2 : (w1.logIf cb (.commit c (w.last + 1))).blocks =
        putBlocks L w.blocks (cd.blocks.map (·.2)) := by
      rw [logIf_with]; exact hb
    rw [e, e2]
    refine hbuilt.seqOK h hlt ?_ ?_
    · intro n hn
      rw [mem_logIf, hlog]
      exact .inl hn
    · intro _ n hn
      rw [mem_logIf, hlog] at hn
      rcases hn with hn | ⟨_, hn⟩
      · exact hn
      · cases hn

theorem commit_seqs (hL : L.OK Z) {be : Backend} {al : Allow} {w : World C R} (hw : WorldOK L Z w)
    (r : Ref) (writes : List (Write R)) (xs : List Luck) (cbFails : Bool)
    (ha : Allowed L be al w r writes none xs cbFails) (hp : ¬ al.partway) (h : w.SeqsOK al) :
    (commit L be w r writes none xs cbFails).1.SeqsOK al := by
  rw [commit_eq]
  obtain ⟨ht, hpa, hsil, hr⟩ := ha
  have hpa := hpa.resolve_left hp
  have hs := hw.alloc.2.1
  have hcb : al.silent ∨ (((w.heap[r]?).map (·.callback)).getD false) = true := by
    rcases hsil with h | h
    · exact .inl h
    · rw [h]; exact .inr rfl
  rcases tx_none hL (hseq := by omega) writes xs _ (.refl hw be r) with
    ⟨e, w', wk, h1, h2, h3, h4, _⟩ | ⟨w', wk, x, did, m, m', s, n, cd, co, h1, h2, _, h3, h4⟩
  · rw [← hs] at h1
    rw [h1]
    obtain ⟨rfl, hq⟩ := h4 hpa
    simp only [hs]
    refine h.lose hw ?_ ?_ ?_ hcb <;> rw [hq.eq] <;> rfl
  · rw [← hs] at h1
    rw [h1]
    have := h4 hpa
    subst this
    simp only [hs]
    obtain ⟨w1, so, b, _, _, _, _, _, _, hb, _⟩ := h3.stored
    have := h.commit (cb := ((w.heap[r]?).map (·.callback)).getD false) (cbFails := cbFails)
      (c := L.hash cd.commit.val) hw hb h3.blocks h3.log h3.seqs hr
    split
    · rename_i hc; rw [if_pos hc] at this; exact this
    · rename_i hc; rw [if_neg hc] at this; exact this

theorem event_seqs (hL : L.OK Z) {be : Backend} {al : Allow} {w : World C R} (hw : WorldOK L Z w)
    {r : Ref} {o : RepoObj C R} {d : Did} (ho : w.heap[r]? = some o) (hd : o.did = some d)
    (kind : EventKind C) (time : Nat) (h : w.SeqsOK al) :
    (writeEvent L be w r kind time).1.SeqsOK al := by
  obtain ⟨e, he, h1, h2, _⟩ := event_spec hL be hw ho hd kind time
  rw [h2]
  unfold World.SeqsOK
  set b : Block C R := ⟨.event e, w.last + 1, none, d⟩ with hb
  have e1 : ((({ w.alloc.2 with blocks := putBlocks L w.blocks [b] } : World C R).logIf
      o.callback (.event e))).last = w.last + 1 := by
    rw [logIf_with]; exact last_eq hw rfl
  have e2 : ((({ w.alloc.2 with blocks := putBlocks L w.blocks [b] } : World C R).logIf
      o.callback (.event e))).blocks = putBlocks L w.blocks [b] := by
    rw [logIf_with]
  simp only
  rw [e1, e2]
  have hlt := fun c b hb => (hw.core.blocks.seqs c b hb)
  refine SeqOK.add h hlt (putBlocks_grows _ _) (did := d) (c0 := L.hash b.val) (b0 := b) ?_ trivial
    rfl rfl ?_ (.inr ?_) ?_ ?_
  · rw [← putBlocks_one, dictGet_dictSetDefault, h1]; simp
  · intro c x hx
    rcases putBlocks_get _ _ hx with k | ⟨_, k, k'⟩
    · exact .inl k
    · simp only [List.mem_singleton] at k
      subst k
      exact .inr ⟨rfl, rfl, fun _ => k'.symm⟩
  · intro c x hx hs
    rcases putBlocks_get _ _ hx with k | ⟨_, k, k'⟩
    · have := hlt c x k; omega
    · simp only [List.mem_singleton] at k
      subst k; exact k'.symm
  · intro n hn
    rw [mem_logIf]; exact .inl hn
  · intro _ n hn
    rw [mem_logIf] at hn
    rcases hn with hn | ⟨_, hn⟩
    · exact hn
    · cases hn

end

end Arroba.Store
