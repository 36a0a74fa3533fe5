import Verif.Firehose.Consumer
import Verif.Firehose.Mirror
import Verif.Storage.AddedProofs
import Verif.Storage.EventProofs
import Verif.Storage.NextProofs
import Verif.Props.C27

/-! Helper lemmas for C60: the commits of the log, in order, and the heads of the repos. -/

namespace Arroba.Store

variable {C R : Type} [DecidableEq C]

open Arroba.Tree

/-- Each commit starts a repo or follows the head of its repo, and becomes its head. -/
inductive Linked (L : Lib C R) : (Did → Option C) → List (Block C R) → (Did → Option C) → Prop
  | nil (H : Did → Option C) : Linked L H [] H
  | cons {H H' : Did → Option C} {b : Block C R} {co : Commit C} {bs : List (Block C R)} (hv : b.val = .commit co)
      (hp : co.prev = none ∨ co.prev = H co.did)
      (h : Linked L (Function.update H co.did (some (L.hash b.val))) bs H') : Linked L H (b :: bs) H'

section
variable {L : Lib C R} {Z : Nat} {be : Backend} {al : Allow} {u w : World C R}

omit [DecidableEq C] in
theorem Linked.snoc {H H' : Did → Option C} {bs : List (Block C R)} (h : Linked L H bs H') {b : Block C R}
    {co : Commit C} (hv : b.val = .commit co) (hp : co.prev = none ∨ co.prev = H' co.did) :
    Linked L H (bs ++ [b]) (Function.update H' co.did (some (L.hash b.val))) := by
  induction h with
  | nil H => exact .cons hv hp (.nil _)
  | cons hv' hp' _ ih => exact .cons hv' hp' (ih hp)

omit [DecidableEq C] in
theorem Block.isCommit_iff {b : Block C R} : b.isCommit = true ↔ ∃ co, b.val = .commit co := by
  unfold Block.isCommit
  cases b.val <;> simp

/-- The commits made since `u`, by sequence number, lead from the heads of `u` to those of `w`. -/
theorem linked_reach (hL : L.OK Z) (hp : ¬ al.partway) (hra : ¬ al.raising) (hi : ¬ al.imports) (hu : Reach L be al u)
    (h : Relation.ReflTransGen (Step L be al) u w) : Reach L be al w ∧ u.last ≤ w.last ∧ Grows u.blocks w.blocks ∧
    ∀ cs : List (Block C R), cs.Pairwise (fun a b => a.seq < b.seq) →
    (∀ b, b ∈ cs ↔ dictGet w.blocks (L.hash b.val) = some b ∧ b.isCommit = true ∧ u.last < b.seq) →
    Linked L (headOf L be u) cs (headOf L be w) := by
  induction h with
  | refl =>
    refine ⟨hu, le_refl _, fun _ _ h => h, fun cs _ h2 => ?_⟩
    obtain ⟨hw, _⟩ := hu.plain hL
    have : cs = [] := by
      cases cs with
      | nil => rfl
      | cons b bs =>
        obtain ⟨g1, _, g3⟩ := (h2 b).1 List.mem_cons_self
        have := (hw.core.blocks.seqs _ _ g1)
        omega
    subst this
    exact .nil _
  | @tail x y _ hs ih =>
    obtain ⟨hx, hlast, hgx, ih⟩ := ih
    obtain ⟨hw, _⟩ := hx.plain hL
    have hle := hs.last_le
    have hg : Grows x.blocks y.blocks := hs.puts.grows
    have hy : Reach L be al y := .step hx hs
    obtain ⟨hwy, _⟩ := hy.plain hL
    refine ⟨hy, hlast.trans hle, Grows.trans hgx hg, fun cs h1 h2 => ?_⟩
    rcases hs.added hL hp hra hi hw with ⟨hb, hh⟩ | ⟨b, co, hv, hs', hr, hb, hpr, hh⟩
    · have : headOf L be y = headOf L be x := funext hh
      rw [this]
      refine ih cs h1 fun b => (h2 b).trans ⟨?_, ?_⟩
      · rintro ⟨g1, g2, g3⟩
        obtain ⟨co, hv⟩ := Block.isCommit_iff.1 g2
        exact ⟨hb _ _ co g1 hv, g2, g3⟩
      · rintro ⟨g1, g2, g3⟩
        exact ⟨hg _ _ g1, g2, g3⟩
    · have hmem : b ∈ cs := (h2 b).2 ⟨hr, Block.isCommit_iff.2 ⟨co, hv⟩, by omega⟩
      obtain ⟨l1, l2, rfl⟩ := List.append_of_mem hmem
      have hnot : dictGet x.blocks (L.hash b.val) ≠ some b := by
        intro h
        have := (hw.core.blocks.seqs _ _ h)
        omega
      have hold : ∀ z ∈ l1 ++ b :: l2, z ≠ b → dictGet x.blocks (L.hash z.val) = some z := by
        intro z hz hne
        obtain ⟨g1, g2, g3⟩ := (h2 z).1 hz
        obtain ⟨co', hv'⟩ := Block.isCommit_iff.1 g2
        rcases hb _ _ co' g1 hv' with g | g
        · exact g
        · exact absurd g hne
      rw [List.pairwise_append] at h1
      obtain ⟨p1, p2, p3⟩ := h1
      rw [List.pairwise_cons] at p2
      have : l2 = [] := by
        cases l2 with
        | nil => rfl
        | cons z zs =>
          have hlt := p2.1 z List.mem_cons_self
          have := hold z (by simp) (by rintro rfl; omega)
          have := (hw.core.blocks.seqs _ _ this)
          omega
      subst this
      have hH : headOf L be y = Function.update (headOf L be x) co.did (some (L.hash b.val)) := by
        funext d
        rw [hh d]
        by_cases hd : d = co.did
        · subst hd; simp
        · rw [if_neg hd, Function.update_of_ne hd]
      rw [hH]
      refine (ih l1 p1 fun z => ⟨fun hz => ?_, fun hz => ?_⟩).snoc hv hpr
      · have hlt := p3 z hz b List.mem_cons_self
        obtain ⟨g1, g2, g3⟩ := (h2 z).1 (List.mem_append_left _ hz)
        exact ⟨hold z (List.mem_append_left _ hz) (by rintro rfl; omega), g2, g3⟩
      · obtain ⟨g1, g2, g3⟩ := hz
        have := (h2 z).2 ⟨hg _ _ g1, g2, g3⟩
        rcases List.mem_append.1 this with h | h
        · exact h
        · simp only [List.mem_singleton] at h
          subst h
          exact absurd g1 hnot

theorem CommitShows.unique {c : C} {m m' : Key → Option R} (h : CommitShows L w c m) (h' : CommitShows L w c m') :
    m = m' := by
  obtain ⟨w1, r, o, h1, h2, h3⟩ := h
  obtain ⟨w1', r', o', h1', h2', h3'⟩ := h'
  rw [h1] at h1'
  cases h1'
  rw [h2] at h2'
  cases h2'
  exact h3.unique h3'

theorem head_root {seq : Nat} (hw : Core L Z seq w) {d : Did} {c : C} (h1 : headOf L be w d = some c) :
    ∃ b co, dictGet w.blocks c = some b ∧ b.val = .commit co ∧ co.did = d ∧ ∃ m', RootOK L Z w.blocks co.data m' := by
  cases be with
  | memory =>
    simp only [headOf] at h1
    cases hs : dictGet w.repos d with
    | none => rw [hs] at h1; cases h1
    | some s =>
      rw [hs] at h1
      simp only at h1
      obtain ⟨o, ho, hod⟩ := hw.repos d s (dictGet_mem hs)
      obtain ⟨b, co, k1, k2, k3⟩ := did_some hod
      rw [ho] at h1
      simp only [Option.bind_some, k1, Option.map_some, Option.some.injEq] at h1
      obtain ⟨mo, hmo⟩ := hw.heap s o ho
      obtain ⟨⟨l, t, i1, i2, i3⟩, _⟩ := hmo
      obtain ⟨b', co', j1, j2, j3, _⟩ := i3 b k1
      rw [k2] at j3; cases j3
      obtain ⟨m', j5⟩ := hw.blocks.root j1 (j2.trans k2)
      subst h1
      exact ⟨b', co, j1, j2.trans k2, k3, m', j5⟩
  | datastore =>
    simp only [headOf] at h1
    cases hs : dictGet w.rows d with
    | none => rw [hs] at h1; cases h1
    | some row =>
      rw [hs] at h1
      simp only [Option.map_some, Option.some.injEq] at h1
      obtain ⟨_, b, co, k1, k2, k3⟩ := hw.rows d row (dictGet_mem hs)
      obtain ⟨m', j5⟩ := hw.blocks.root k1 k2
      subst h1
      exact ⟨b, co, k1, k2, k3, m', j5⟩

/-- The records of a repo are those of its head, now or later. -/
theorem shows_head (hL : L.OK Z) {seq seq' : Nat} (hu : Core L Z seq u) (hw : Core L Z seq' w)
    (hg : Grows u.blocks w.blocks) {d : Did} (hd : isDid d) (m : Key → Option R) :
    Shows L be u d m ↔ ∃ c, headOf L be u d = some c ∧ CommitShows L w c m := by
  rw [shows_iff hL hu hd, records_iff hL hu hd]
  constructor
  · rintro ⟨c, b, co, h1, h2, h3, _, h5⟩
    exact ⟨c, h1, (h5.grow hg).commitShows hL hw (hg _ _ h2) h3⟩
  · rintro ⟨c, h1, h2⟩
    obtain ⟨b, co, h3, h4, h5, m', h6⟩ := head_root hu h1
    have := ((h6.grow hg).commitShows hL hw (hg _ _ h3) h4).unique h2
    subst this
    exact ⟨c, b, co, h1, h3, h4, h5, h6⟩

/-! ### One message -/

theorem carRecord_eq {car : Xrpc.Car C R} (hn : (car.blocks.map (·.1)).Nodup) {c : C} {r : R}
    (h : (c, .record r) ∈ car.blocks) : carRecord car c = some r := by
  unfold carRecord
  have : ∀ {l : List (C × Val C R)}, (l.map (·.1)).Nodup → (c, .record r) ∈ l →
      l.find? (fun b => decide (b.1 = c)) = some (c, .record r) := by
    intro l
    induction l with
    | nil => intro _ h; cases h
    | cons a l ih =>
      intro hn h
      rw [List.map_cons, List.nodup_cons] at hn
      rcases List.mem_cons.1 h with h | h
      · rw [← h, List.find?_cons_of_pos (by simp)]
      · have hne : a.1 ≠ c := by
          rintro rfl
          exact hn.1 (List.mem_map.2 ⟨_, h, rfl⟩)
        rw [List.find?_cons_of_neg (by simpa using hne), ih hn.2 h]
  rw [this hn h]

theorem cids_update (L : Lib C R) (m : Key → Option R) (k : Key) (r : Option R) :
    L.cids (Function.update m k r) = Function.update (L.cids m) k (r.map fun r => L.hash (.record r)) := by
  funext k'
  unfold Lib.cids
  by_cases h : k' = k
  · subst h; simp
  · rw [Function.update_of_ne h, Function.update_of_ne h]

theorem cids_inj (hL : L.OK Z) {m m' : Key → Option R} (h : L.cids m = L.cids m') : m = m' := by
  funext k
  have := congrFun h k
  unfold Lib.cids at this
  exact Option.map_injective (fun a b h => by have := hL.inj h; cases this; rfl) this

/-- Applying the operations of a message to the previous records gives the new ones. -/
theorem mirrorOps (hL : L.OK Z) {car : Xrpc.Car C R} (hn : (car.blocks.map (·.1)).Nodup) :
    ∀ {ops : List (WireOp C)} {m m' : Key → Option R}, WireTrace (L.cids m) ops (L.cids m') →
    (∀ op ∈ ops, ∀ c, op.cid = some c → ∃ r, c = L.hash (.record r) ∧ (c, .record r) ∈ car.blocks) →
    ops.foldl (mirrorOp car) m = m' := by
  intro ops
  induction ops with
  | nil =>
    intro m m' h _
    have : ∀ {a b : Key → Option C}, WireTrace a [] b → a = b := by intro a b h; cases h; rfl
    exact cids_inj hL (this h)
  | cons op ops ih =>
    intro m m' h hrec
    have hone : ∃ x : Option R, op.cid.bind (carRecord car) = x ∧ op.cid = x.map fun r => L.hash (.record r) := by
      cases hc : op.cid with
      | none => exact ⟨none, rfl, rfl⟩
      | some c =>
        obtain ⟨r, rfl, hr⟩ := hrec op List.mem_cons_self c hc
        exact ⟨some r, carRecord_eq hn hr, rfl⟩
    obtain ⟨x, hx1, hx2⟩ := hone
    have hnext : WireTrace (Function.update (L.cids m) op.path op.cid) ops (L.cids m') := by
      cases h with
      | create _ hr => exact hr
      | update _ _ hr => exact hr
      | delete _ hr => exact hr
    rw [List.foldl_cons]
    refine ih (m := mirrorOp car m op) ?_ (fun o ho => hrec o (List.mem_cons_of_mem _ ho))
    unfold mirrorOp
    rw [hx1, cids_update, ← hx2]
    exact hnext

/-- The mirror shows the records of the heads `H`. -/
def MirrorsHeads (L : Lib C R) (w : World C R) (H : Did → Option C) (s : Mirror R) : Prop :=
  ∀ d, isDid d → ∀ m, s d = some m ↔ ∃ c, H d = some c ∧ CommitShows L w c m

theorem MirrorsHeads.next (hL : L.OK Z) {H : Did → Option C} {s : Mirror R} (h : MirrorsHeads L w H s)
    {b : Block C R} {co : Commit C} {p : Payload C R} {t : List Char} (hd : isDid co.did)
    (hp : co.prev = none ∨ co.prev = H co.did) (hm : Describes L w b co p) :
    MirrorsHeads L w (Function.update H co.did (some (L.hash b.val))) (s.next (.commit t p)) := by
  obtain ⟨m, m', e1, e2, e3, _⟩ := hm.effect
  have hbase : (if p.prevData = none then fun _ => none else (s p.repo).getD fun _ => none) = m := by
    have hpd := hm.prevData
    rw [hm.repo]
    cases hpr : co.prev with
    | none =>
      rw [hpr] at hpd e1
      dsimp only at hpd e1
      rw [if_pos hpd, e1]
    | some q =>
      rw [hpr] at hpd e1
      dsimp only at hpd e1
      obtain ⟨_, _, _, _, hpd⟩ := hpd
      rw [if_neg (by rw [hpd]; simp)]
      have hq : H co.did = some q := by
        rcases hp with h | h
        · rw [hpr] at h; cases h
        · rw [← h, hpr]
      rw [(h co.did hd m).2 ⟨q, hq, e1⟩]
      rfl
  have hfold := mirrorOps hL hm.nodup e3 hm.records
  intro d hd' mm
  unfold Mirror.next
  dsimp only
  rw [hbase, hfold, hm.repo]
  by_cases hdd : d = co.did
  · subst hdd
    simp only [Function.update_self, Option.some.injEq]
    constructor
    · rintro rfl; exact ⟨_, rfl, e2⟩
    · rintro ⟨c, rfl, hc⟩; exact e2.unique hc
  · rw [Function.update_of_ne hdd, Function.update_of_ne hdd]
    exact h d hd' mm

end

end Arroba.Store
