import Verif.Storage.ConcurrentLog
import Verif.Props.C58
import Verif.Props.C60

/-! Helper lemmas for C67. -/

namespace Arroba.Store

open Arroba.Tree

section
variable {C R : Type} [DecidableEq C] {L : Lib C R} {Z : Nat} {al : Allow} {w : World C R}
  {job : Nat → Job R} {as : List (Act C)} {s : CState C R} {lo : Nat}

theorem CState.run_append : ∀ {as bs : List (Act C)} {a b : CState C R}, a.run L job as = some b → a.run L job (as ++ bs) = b.run L job bs := by
  intro as
  induction as with
  | nil => intro bs a b h; cases h; rfl
  | cons x as ih =>
    intro bs a b h
    rw [List.cons_append]
    have e : a.run L job (x :: (as ++ bs)) = (a.act L job x).bind fun s' => s'.run L job (as ++ bs) := rfl
    unfold CState.run at h
    cases hx : a.act L job x with
    | none => rw [hx] at h; cases h
    | some y => rw [hx] at h; rw [e, hx]; exact ih h

theorem CInv.retains (hL : L.OK Z) (hj : ∀ i, isDid (job i).did) :
    ∀ {as : List (Act C)} {a b : CState C R}, CInv L Z job lo a → a.run L job as = some b →
    Retains L a.w.blocks b.w.blocks := by
  intro as
  induction as with
  | nil => intro a b _ h; cases h; exact .refl _
  | cons x as ih =>
    intro a b ha h
    unfold CState.run at h
    cases hx : a.act L job x with
    | none => rw [hx] at h; cases h
    | some y =>
      rw [hx] at h
      obtain ⟨hy, hf⟩ := ha.act hL hj hx
      exact fun v hv => ih hy h v (hf.keeps v hv)

/-! ### Messages -/

theorem LInv.told (hL : L.OK Z) (hc : CInv L Z job lo s) (h : LInv L Z job lo s) {i : Nat} {cd : CommitData C R}
    (hi : (s.pc i).wrote = some cd) {co : Commit C} (hv : cd.commit.val = .commit co) : Told L Z s.w cd.commit co := by
  obtain ⟨h1, ⟨row, m, m', co', e1, e2, e3, e4, e5, e6, e7, e8, e9⟩, h3⟩ := h.com i cd hi
  have : co' = co := by rw [e4] at hv; cases hv; rfl
  subst this
  have hops : cd.commit.ops = some (opsOf L m (job i).writes) := by rw [e4]
  refine ⟨hc.addr, hc.store, h1, hv, e8, _, m', hops, (e9.root hc.addr).2, ⟨m, (job i).writes, ?_, e3, e2, rfl⟩, h3 _ hops⟩
  rw [e6]
  obtain ⟨b, co, g1, g2, g3, _, g5⟩ := e1.commitAt hL hc.addr
  refine ⟨b, co, ?_, g2, (g5.root hc.addr).2⟩
  exact (commitAt_ok hc.addr g1).2.2.1

/-- A stored commit with a new number was written by a call. -/
theorem LInv.caller (h : LInv L Z job lo s) {c : C} {b : Block C R} {co : Commit C} (hb : s.w.read c = some b)
    (hv : b.val = .commit co) (hlo : lo ≤ b.seq) : ∃ i cd, (s.pc i).wrote = some cd ∧ b = cd.commit := by
  rcases h.blk c b hb with ⟨g, _⟩ | ⟨i, cd, h1, _, g⟩ | ⟨_, ⟨e, g⟩, _⟩
  · omega
  · rcases g with ⟨r, g, _⟩ | ⟨d, g⟩ | g
    · rw [hv] at g; cases g
    · rw [hv] at g; cases g
    · exact ⟨i, cd, h1, g⟩
  · rw [hv] at g; cases g

theorem LInv.orderly (hL : L.OK Z) (hplain : PlainRecords L) (hc : CInv L Z job lo s) (h : LInv L Z job lo s)
    (hlo : 1 ≤ lo) {q : List (Block C R)} (hq : Query L s.w lo none q) : Orderly L s.w q := by
  have hin : ∀ b ∈ q, s.w.read (L.hash b.val) = some b := fun b hb => ((hq.mem b).1 hb).1
  have hge : ∀ b ∈ q, lo ≤ b.seq := fun b hb => ((hq.mem b).1 hb).2.1
  have haddr : ∀ c y, s.w.read c = some y → c = L.hash y.val := fun c y hy => (hc.addr _ _ hy).symm
  /- every block has its commit, or is an event -/
  have hk : ∀ b ∈ q, (∃ i cd, (s.pc i).wrote = some cd ∧ PartOf L cd b) ∨
      ((∃ e, b.val = .event e) ∧ ∀ i, (s.pc i).seq ≠ some b.seq) := by
    intro b hb
    rcases h.blk _ b (hin b hb) with ⟨g, _⟩ | g | ⟨_, g⟩
    · have := hge b hb; omega
    · exact .inl g
    · exact .inr g
  have hcq : ∀ i cd, (s.pc i).wrote = some cd → cd.commit ∈ q := by
    intro i cd hi
    refine (hq.mem _).2 ⟨(h.com i cd hi).1, (hc.seqs i _ (Pc.wrote_seq hi)).1, .inl rfl⟩
  have hcv : ∀ i cd, (s.pc i).wrote = some cd → ∃ co, cd.commit.val = .commit co := by
    intro i cd hi
    obtain ⟨_, ⟨_, _, _, co, _, _, _, e4, _⟩, _⟩ := h.com i cd hi
    exact ⟨co, by rw [e4]⟩
  have hev : ∀ b ∈ q, b.isEvent → (∃ e, b.val = .event e) ∧ ∀ i, (s.pc i).seq ≠ some b.seq := by
    intro b hb he
    rcases hk b hb with ⟨i, cd, h1, _, g⟩ | g
    · exfalso
      unfold Block.isEvent at he
      rcases g with ⟨r, g, _⟩ | ⟨d, g⟩ | g
      · rw [g] at he; exact he
      · rw [g] at he; exact he
      · obtain ⟨co, hco⟩ := hcv i cd h1
        rw [g, hco] at he; exact he
    · exact g
  have hsame : ∀ b ∈ q, ∀ m ∈ q, b.isEvent → m.seq = b.seq → m = b := by
    intro b hb m hm he hs
    obtain ⟨⟨e, hv⟩, hno⟩ := hev b hb he
    rcases hk m hm with ⟨i, cd, h1, h2, _⟩ | ⟨⟨e', hv'⟩, _⟩
    · exact absurd (Pc.wrote_seq h1) (by rw [← h2, hs]; exact hno i)
    · have := h.same _ _ m b e' e (hin m hm) (hin b hb) hv' hv (hge m hm) hs
      have h1 := hin m hm
      rw [this, hin b hb] at h1
      cases h1; rfl
  refine ⟨hq.sorted, hq.nodup, hin, ?_, haddr, ?_, ?_, ?_, hsame, ?_, ?_⟩
  · intro b hb c y hy he
    have := haddr c y hy
    subst this
    exact (hq.mem y).2 ⟨hy, by have := hge b hb; omega, .inl rfl⟩
  · intro b hb; have := hge b hb; omega
  · intro b hb
    rcases hk b hb with ⟨i, cd, h1, h2, _⟩ | ⟨⟨e, hv⟩, _⟩
    · obtain ⟨co, hco⟩ := hcv i cd h1
      exact ⟨cd.commit, hcq i cd h1, by unfold Block.isLog; rw [hco], h2.symm⟩
    · exact ⟨b, hb, by unfold Block.isLog; rw [hv], rfl⟩
  · intro b hb m hm h1 h2 he
    rcases isLog_cases h1 with g | g
    · exact (hsame b hb m hm g he.symm).symm
    · rcases isLog_cases h2 with g' | g'
      · exact hsame m hm b hb g' he
      · obtain ⟨co, hv⟩ := isCommit_iff.1 g
        obtain ⟨co', hv'⟩ := isCommit_iff.1 g'
        obtain ⟨i, cd, k1, rfl⟩ := h.caller (hin b hb) hv (hge b hb)
        obtain ⟨i', cd', k1', rfl⟩ := h.caller (hin m hm) hv' (hge m hm)
        have := hc.distinct i i' _ (Pc.wrote_seq k1) (by rw [he]; exact Pc.wrote_seq k1')
        subst this
        rw [k1] at k1'
        cases k1'; rfl
  · intro b hb
    rcases hk b hb with ⟨i, cd, h1, h2, g⟩ | ⟨⟨e, g⟩, _⟩
    · rcases g with ⟨r, g, hr⟩ | ⟨d, g⟩ | g
      · obtain ⟨p1, p2⟩ := hplain r hr
        simp [looksEvent, looksCommit, Block.isEvent, Block.isCommit, g, p1, p2]
      · simp [looksEvent, looksCommit, Block.isEvent, Block.isCommit, g]
      · obtain ⟨co, hco⟩ := hcv i cd h1
        rw [← g] at hco
        simp [looksEvent, looksCommit, Block.isEvent, Block.isCommit, hco]
    · simp [looksEvent, looksCommit, Block.isEvent, Block.isCommit, g]
  · intro b hb co hv
    obtain ⟨i, cd, k1, rfl⟩ := h.caller (hin b hb) hv (hge b hb)
    obtain ⟨ops, m', o1, o2, _, o4⟩ := (h.told hL hc k1 hv).ops
    refine ⟨⟨ops, o1, fun op ho hd => ?_⟩, ?_⟩
    · obtain ⟨r, r1, y, r2, _⟩ := o4 op ho hd
      exact ⟨_, y, r1, r2⟩
    · obtain ⟨t, _, t2, t3⟩ := o2
      have := t2 t (by simp [nodes])
      unfold nodeIn at this
      unfold World.read
      rw [← t3]
      cases hg : dictGet s.w.blocks (cidOf L.env.H t) with
      | some y => exact ⟨y, rfl⟩
      | none => rw [hg] at this; cases this

theorem next_eq (hL : L.OK Z) {be : Backend} (hr : Reach L be al w) :
    w.next = (lastSeq w.seqs subscribeRepos).getD 0 + 1 ∧ 1 ≤ w.next := by
  have := (hr.plain hL).1.pos
  unfold World.next lastSeq
  cases h : dictGet w.seqs subscribeRepos with
  | none => exact ⟨rfl, le_refl _⟩
  | some n =>
    rw [h] at this
    cases n with
    | zero => simp at this
    | succ n => exact ⟨rfl, by simp⟩

/-! ### A consumer's mirror -/

/-- The commits of one repo, one after the other. -/
inductive RepoChain (L : Lib C R) : Option C → List (Block C R) → Option C → Prop
  | nil (h : Option C) : RepoChain L h [] h
  | cons {h h' : Option C} {b : Block C R} {co : Commit C} {bs : List (Block C R)} (hv : b.val = .commit co)
      (hp : co.prev = none ∨ co.prev = h) (hr : RepoChain L (some (L.hash b.val)) bs h') : RepoChain L h (b :: bs) h'

/-- The repo of a commit. -/
def Block.inDid (d : Did) (b : Block C R) : Bool :=
  match b.val with
  | .commit co => decide (co.did = d)
  | _ => false

theorem Linked.chain {H H' : Did → Option C} {bs : List (Block C R)} (h : Linked L H bs H') (d : Did) :
    RepoChain L (H d) (bs.filter (·.inDid d)) (H' d) := by
  induction h with
  | nil H => exact .nil _
  | @cons H H' b co bs hv hp _ ih =>
    by_cases hd : co.did = d
    · rw [List.filter_cons_of_pos (by simp [Block.inDid, hv, hd])]
      subst hd
      rw [Function.update_self] at ih
      exact .cons hv hp ih
    · rw [List.filter_cons_of_neg (by simp [Block.inDid, hv, hd])]
      rw [Function.update_of_ne (Ne.symm hd)] at ih
      exact ih

theorem Linked.of_chains : ∀ {bs : List (Block C R)} {H H' : Did → Option C}, (∀ b ∈ bs, b.isCommit = true) →
    (∀ d, RepoChain L (H d) (bs.filter (·.inDid d)) (H' d)) → Linked L H bs H'
  | [], H, H', _, h => by
    have : H = H' := funext fun d => by
      have := h d
      generalize H d = x at this
      generalize H' d = y at this
      cases this
      rfl
    subst this
    exact .nil _
  | b :: bs, H, H', hb, h => by
    obtain ⟨co, hv⟩ := isCommit_iff.1 (hb b (.head _))
    have hfil : ∀ d, (b :: bs).filter (·.inDid d) = if co.did = d then b :: bs.filter (·.inDid d) else bs.filter (·.inDid d) := by
      intro d
      by_cases hd : co.did = d
      · rw [List.filter_cons_of_pos (by simp [Block.inDid, hv, hd]), if_pos hd]
      · rw [List.filter_cons_of_neg (by simp [Block.inDid, hv, hd]), if_neg hd]
    have h0 := h co.did
    rw [hfil, if_pos rfl] at h0
    have hp : (co.prev = none ∨ co.prev = H co.did) ∧
        RepoChain L (some (L.hash b.val)) (bs.filter (·.inDid co.did)) (H' co.did) := by
      generalize H co.did = x at h0
      generalize H' co.did = y at h0
      cases h0 with
      | cons hv' hp hr =>
        rw [hv] at hv'
        cases hv'
        exact ⟨hp, hr⟩
    refine .cons hv hp.1 (Linked.of_chains (fun b hb' => hb b (.tail _ hb')) fun d => ?_)
    by_cases hd : co.did = d
    · subst hd
      rw [Function.update_self]
      exact hp.2
    · rw [Function.update_of_ne (Ne.symm hd)]
      have := h d
      rw [hfil, if_neg hd] at this
      exact this

theorem CInv.shows_iff (hL : L.OK Z) (h : CInv L Z job lo s) {d : Did} (hd : isDid d) (m : Key → Option R) :
    Shows L .datastore s.w d m ↔ ∃ row, dictGet s.w.rows d = some row ∧ Holds L Z s.w.blocks d row.head m := by
  constructor
  · rintro ⟨w1, r, o, h1, h2, h3⟩
    cases hrow : dictGet s.w.rows d with
    | none =>
      exfalso
      have hne : d ≠ [] := by
        rintro rfl
        exact absurd hd (by unfold isDid; decide)
      unfold loadRepo at h1
      rw [if_neg hne] at h1
      dsimp only at h1
      rw [findRow_did (fun d row hr => (h.rows d row hr).1) hd, hrow] at h1
      cases h1
    | some row =>
      obtain ⟨_, m', hm⟩ := h.rows d row (dictGet_mem hrow)
      obtain ⟨o', g1, _, _, g3⟩ := h.shows hL hd hrow hm
      rw [g1] at h1
      cases h1
      have ho : some o' = some o := by rw [← h2]; simp
      cases ho
      have := g3.unique h3
      subst this
      exact ⟨row, rfl, hm⟩
  · rintro ⟨row, h1, h2⟩
    obtain ⟨o, g1, _, _, g3⟩ := h.shows hL hd h1 h2
    exact ⟨_, _, o, g1, by simp, g3⟩

/-- The commits that have taken effect lead from the heads at the start to the current ones. -/
theorem linked_run (hL : L.OK Z) (hj : ∀ i, isDid (job i).did) {H : Did → Option C} :
    ∀ {as : List (Act C)} {a b : CState C R}, CInv L Z job lo a →
    Linked L H (a.log.map (·.2.commit)) (headOf L .datastore a.w) → a.run L job as = some b →
    Linked L H (b.log.map (·.2.commit)) (headOf L .datastore b.w)
  | [], a, b, _, h, hs => by cases hs; exact h
  | x :: as, a, b, hc, h, hs => by
    unfold CState.run at hs
    cases hx : a.act L job x with
    | none => rw [hx] at hs; cases hs
    | some y =>
      rw [hx] at hs
      refine linked_run hL hj (hc.act hL hj hx).1 ?_ hs
      rcases act_log hx with ⟨g1, g2⟩ | ⟨i, row, ver, cd, g1, g2, g3, g4, g5⟩
      · rw [g1]
        have : headOf L .datastore y.w = headOf L .datastore a.w := funext fun d => g2 d
        rw [this]
        exact h
      · have hp := hc.pcs i
        rw [g1] at hp
        obtain ⟨hsn, m1, m2, co, e1, e2, e3, e4, e5, e6, e7, e8, e9⟩ := hp
        have hrow := hsn.2 g2.symm
        have hv : cd.commit.val = .commit co := by rw [e4]
        have := h.snoc hv (.inr (by rw [e6, e5]; simp [headOf, hrow]))
        rw [g3, List.map_append]
        have e : headOf L .datastore y.w = Function.update (headOf L .datastore a.w) co.did (some (L.hash cd.commit.val)) := by
          funext d
          simp only [headOf, g5, dictGet_dictSet, e5, Function.update_apply]
          split <;> rfl
        rw [e]
        exact this

end

end Arroba.Store
