import Verif.Firehose.Relay
import Verif.Props.C80
import Verif.Props.C82

/-!
# C83: relays need not be trusted

The consumer's part is in Firehose/Relay.lean.
-/

namespace Arroba.Store

open Arroba.Tree Arroba.Xrpc

section
variable {C R : Type} [DecidableEq C] {L : Lib C R} {Z : Nat} {be : Backend} {al : Allow} {u w : World C R}
  {signed : Commit C → Bool} {d : Did}

/-! ### Helper lemmas -/

/-- Checked operations of a message are checked operations of a commit. -/
theorem checkWire_ops {E : Env C} {rd : C → Option (NodeData C)} {f : Nat} :
    ∀ {ops : List (WireOp C)} {n n' : Node C}, checkWire E rd f ops n = .ok n' →
      ∃ cops : List (CommitOp C), checkOps E rd f cops n = .ok n' ∧
        cops.map (fun op => (op.path, op.cid)) = ops.map fun op => (op.path, op.cid)
  | [], n, n', h => ⟨[], h, rfl⟩
  | op :: ops, n, n', h => by
    unfold checkWire at h
    obtain ⟨n₁, h1, h⟩ := bind_ok h
    obtain ⟨v, h2, h⟩ := bind_ok h
    obtain ⟨cops, g1, g2⟩ := checkWire_ops h1
    split at h
    · rename_i hv
      cases ho : op.inverse with
      | none => rw [ho] at h; cases h
      | some o =>
        rw [ho] at h
        obtain ⟨c, c1, c2, c3⟩ : ∃ c : CommitOp C, c.path = op.path ∧ c.cid = op.cid ∧ c.inverse = some o := by
          unfold WireOp.inverse at ho
          split at ho
          · exact ⟨⟨.create, op.path, op.cid, none⟩, rfl, rfl, ho⟩
          · split at ho
            · rename_i q _
              split at ho
              · exact ⟨⟨.update, op.path, op.cid, some q⟩, rfl, rfl, ho⟩
              · split at ho
                · exact ⟨⟨.delete, op.path, op.cid, some q⟩, rfl, rfl, ho⟩
                · cases ho
            · cases ho
        refine ⟨c :: cops, ?_, by rw [List.map_cons, List.map_cons, g2, c1, c2]⟩
        unfold checkOps
        rw [g1]
        simp only [ok_bind, c1, h2, c2, hv, if_true, c3, h]
    · cases h

theorem carNodes_mem {car : Car C R} {c : C} {x : NodeData C} (h : carNodes car c = some x) :
    (c, .node x) ∈ car.blocks := by
  unfold carNodes at h
  split at h
  · rename_i y heq
    cases h
    have := List.find?_some heq
    simp only [decide_eq_true_eq] at this
    subst this
    exact List.mem_of_find?_eq_some heq
  · cases h

theorem carRecord_mem {car : Car C R} {c : C} {r : R} (h : carRecord car c = some r) : (c, .record r) ∈ car.blocks := by
  unfold carRecord at h
  split at h
  · rename_i y heq
    cases h
    have := List.find?_some heq
    simp only [decide_eq_true_eq] at this
    subst this
    exact List.mem_of_find?_eq_some heq
  · cases h

/-- The CIDs after applying operations whose records are all there. -/
theorem mirrorOps_cids {car : Car C R} (hc : TrueCids L car) :
    ∀ {ops : List (WireOp C)} {m : Key → Option R},
      (∀ op ∈ ops, ∀ c ∈ op.cid, (carRecord car c).isSome = true) →
      L.cids (ops.foldl (mirrorOp car) m) = ops.foldl (fun m op => Function.update m op.path op.cid) (L.cids m)
  | [], _, _ => rfl
  | op :: ops, m, h => by
    rw [List.foldl_cons, List.foldl_cons, mirrorOps_cids hc fun o ho => h o (.tail _ ho)]
    congr 1
    funext k
    unfold Lib.cids mirrorOp
    by_cases hk : k = op.path
    · subst hk
      rw [Function.update_self, Function.update_self]
      cases ho : op.cid with
      | none => rfl
      | some c =>
        obtain ⟨r, hr⟩ := Option.isSome_iff_exists.1 (h op (.head _) c ho)
        rw [Option.bind_some, hr, Option.map_some, hc _ (carRecord_mem hr)]
    · rw [Function.update_of_ne hk, Function.update_of_ne hk]

omit [DecidableEq C] in
theorem afterAll_pairs : ∀ {cops : List (CommitOp C)} {ops : List (WireOp C)} {m : Key → Option C},
    cops.map (fun op => (op.path, op.cid)) = ops.map (fun op => (op.path, op.cid)) →
    afterAll m cops = ops.foldl (fun m op => Function.update m op.path op.cid) m
  | [], [], _, _ => rfl
  | [], _ :: _, _, h => by cases h
  | _ :: _, [], _, h => by cases h
  | c :: cops, o :: ops, m, h => by
    rw [List.map_cons, List.map_cons, List.cons.injEq, Prod.mk.injEq] at h
    obtain ⟨⟨h1, h2⟩, h3⟩ := h
    show afterAll (CommitOp.after m c) cops = _
    rw [List.foldl_cons, ← h1, ← h2]
    exact afterAll_pairs h3

theorem Lib.OK.cids_inj (hL : L.OK Z) {m m' : Key → Option R} (h : L.cids m = L.cids m') : m = m' := by
  funext k
  exact Option.map_injective hL.rcidInj (congrFun h k)

/-! ### The theorems -/

/-- **C83 (one message), partial.** The consumer has a copy of some commit of the repo. Whatever message it gets from whomever, as long as
nobody else can sign: if it accepts the message, then it has a copy of a commit of the repo again, and of one with a larger rev:
the rev, the root, and exactly the records of that commit.

Partial: excludes failed commits that leave a modified tree behind in a live `Repo` object (C23). -/
theorem C83_message_partial (hL : L.OK Z) (ht : ¬ al.torn) (hw : Reach L be al w) {s s' : Copy C R} (hs : OfCommit L w d s)
    {p : Payload C R} (hp : Unforged L w signed p) (h : s.verify L signed d p = some s') :
    OfCommit L w d s' ∧ s.rev < s'.rev := by
  have hww := (hw.inv hL ht).1
  unfold Copy.verify at h
  cases hco : carCommit p.blocks p.commit with
  | none => rw [hco] at h; cases h
  | some co =>
    rw [hco] at h
    dsimp only at h
    split at h
    · rename_i hif
      obtain ⟨i1, i2, i3, i4⟩ := hif
      cases hck : checkWire L.env (carNodes p.blocks) L.fuel p.ops (load co.data) with
      | error e => rw [hck] at h; cases h
      | ok n =>
        rw [hck] at h
        dsimp only at h
        cases hgp : getPointer L.env (carNodes p.blocks) L.fuel n with
        | error e => rw [hgp] at h; cases h
        | ok r =>
          rw [hgp] at h
          dsimp only at h
          split at h
          · rename_i hr
            subst hr
            cases h
            refine ⟨?_, i3⟩
            obtain ⟨c, b, h1, h2⟩ := hp.signed co hco i1
            obtain ⟨c0, b0, co0, g1, g2, g3, g4, g5, g6⟩ := hs
            obtain ⟨m, hm⟩ := hww.core.blocks.root h1 h2
            obtain ⟨m0, hm0⟩ := hww.core.blocks.root g1 g2
            have e0 : m0 = s.records := (hm0.commitShows hL hww.core g1 g2).unique g6
            subst e0
            obtain ⟨t, t1, t2, t3⟩ := hm
            obtain ⟨t0, k1, k2, k3⟩ := hm0
            obtain ⟨l, hl, hwf⟩ := t1.wf
            obtain ⟨l0, hl0, hwf0⟩ := k1.wf
            have hB : Checked L.env (carNodes p.blocks) := fun c x hx => hp.cids _ (carNodes_mem hx)
            obtain ⟨rd', L', f1, f2⟩ := hB.complete hL.nodeInj hwf hl t1.sorted t1.valid t1.map
            obtain ⟨cops, q1, q2⟩ := checkWire_ops hck
            rw [← t3] at q1
            obtain ⟨m₀, L₀, t₀, j1, j2, -⟩ := checkOps_inv hL.zeros hL.fuel f1 f2 q1
            have hr := (getPointer_lacks (E := L.env) f1 L.fuel n).ok hgp
            have hb := j1.bound
            have hfuel := hL.fuel
            rw [getPointer_spec j1.repr j1.wf j1.valid (by omega)] at hr
            have hcid : cidOf L.env.H t₀ = cidOf L.env.H t0 := by rw [k3, g5]; exact Except.ok.inj hr
            have := cid_unique hL j1.wf hwf0 hcid
            subst this
            have hm₀ : m₀ = L.cids s.records := by rw [← j1.map, k1.map]; rfl
            have hres : m = p.ops.foldl (mirrorOp p.blocks) s.records := by
              refine hL.cids_inj ?_
              rw [mirrorOps_cids hp.cids i4, ← hm₀, ← afterAll_pairs q2, ← j2]
              rfl
            rw [← hres]
            exact ⟨c, b, co, h1, h2, i2, rfl, rfl, RootOK.commitShows hL hww.core h1 h2 ⟨t, t1, t2, t3⟩⟩
          · cases h
    · cases h

/-- **C83 (relays), partial.** The consumer has a copy of some commit of the repo, and gets messages from anybody, in any order:
changed, made up, repeated, or left out. As long as nobody else can sign, it always has a copy of a commit that the server has
stored for that repo, with exactly its records, and never goes back to one with a smaller rev.

Partial: excludes failed commits that leave a modified tree behind in a live `Repo` object (C23). -/
theorem C83_relay_partial (hL : L.OK Z) (ht : ¬ al.torn) (hw : Reach L be al w) {s : Copy C R} (hs : OfCommit L w d s)
    {ps : List (Payload C R)} (hps : ∀ p ∈ ps, Unforged L w signed p) :
    OfCommit L w d (s.follow L signed d ps) ∧ (s.follow L signed d ps = s ∨ s.rev < (s.follow L signed d ps).rev) := by
  induction ps generalizing s with
  | nil => exact ⟨hs, .inl rfl⟩
  | cons p ps ih =>
    have ih' := fun {s} (h : OfCommit L w d s) => ih h (fun q hq => hps q (.tail _ hq))
    show OfCommit L w d (((s.verify L signed d p).getD s).follow L signed d ps) ∧ _
    cases hv : s.verify L signed d p with
    | none =>
      have : s.follow L signed d (p :: ps) = s.follow L signed d ps := by
        unfold Copy.follow
        rw [List.foldl_cons, hv]
        rfl
      rw [this]
      exact ih' hs
    | some s1 =>
      have : s.follow L signed d (p :: ps) = s1.follow L signed d ps := by
        unfold Copy.follow
        rw [List.foldl_cons, hv]
        rfl
      rw [this]
      obtain ⟨g1, g2⟩ := C83_message_partial hL ht hw hs (hps p (.head _)) hv
      obtain ⟨k1, k2⟩ := ih' g1
      refine ⟨k1, .inr ?_⟩
      rcases k2 with k2 | k2
      · rw [k2]; exact g2
      · exact List.lt_trans g2 k2

/-- **C83 (current), partial.** The consumer has downloaded the repo at some time (`u`, C80), and then gets messages from anybody.
If it has the rev that the server has, then it has the repo.

Partial: also excludes commits that fail in the middle, and imports (C46, C80). -/
theorem C83_current_partial (hL : L.OK Z) (ht : ¬ al.torn) (hp : ¬ al.partway) (hi : ¬ al.imports) (hplain : PlainRecords L)
    (hu : Reach L be al u) (huw : Relation.ReflTransGen (Step L be al) u w) (hd : isDid d) {s : Copy C R}
    (hs : IsCopy L be u d s) {ps : List (Payload C R)} (hps : ∀ p ∈ ps, Unforged L w signed p)
    (hcur : ∃ head b co, readHead L be w d = some head ∧ w.read head = some b ∧ b.val = .commit co ∧
      co.rev = (s.follow L signed d ps).rev) : IsCopy L be w d (s.follow L signed d ps) := by
  obtain ⟨hrw, _, _, _⟩ := later_seq hL hi hu huw
  exact (C83_relay_partial hL ht hrw (hs.ofCommit hL ht hi hu huw hd) hps).1.current hL ht hp hi hplain hrw hd hcur

/-- **C83 (acceptance), partial.** What the server sends for a commit (C57) that follows the one that the consumer has a copy of
is accepted, and then the consumer has a copy of that commit.

Partial: excludes commits that leave the repo empty on the way, and trees that are not canonical because of such commits
(C03, C57), for which it is false (`C83_accepts_false`). -/
theorem C83_accepts_partial (hL : L.OK Z) (ht : ¬ al.torn) (hi : ¬ al.imports) (hw : Reach L be al w) {s : Copy C R} {c : C}
    {b₀ : Block C R} {co₀ : Commit C} (h1 : w.read c = some b₀) (h2 : b₀.val = .commit co₀) (h4 : co₀.rev = s.rev)
    (h5 : co₀.data = s.data) (h6 : CommitShows L w c s.records) {b : Block C R} {co : Commit C} {p : Payload C R}
    (hb : w.read (L.hash b.val) = some b) (hv : b.val = .commit co) (hm : Describes L w b co p) (hprev : co.prev = some c)
    (hsig : signed co = true) (hc : CanonicalRoot L co.data) (hc' : CanonicalRoot L s.data)
    (hne : NeverEmpty (L.cids s.records) p.ops) :
    ∃ s', s.verify L signed co.did p = some s' ∧ s'.rev = co.rev ∧ OfCommit L w co.did s' := by
  have hlt : s.rev < co.rev := by
    rw [← h4]
    refine rev_lt (hw.revs hL hi h1 h2) (hw.revs hL hi hb hv) ?_
    obtain ⟨b', co', k1, k2, -, k4⟩ := ((hw.inv hL ht).1.core.blocks.own hb hv (hw.native hL hi hb)).prev c hprev
    rw [show dictGet w.blocks c = w.read c from rfl, h1] at k1
    cases k1
    exact k4
  have hcc : carCommit p.blocks p.commit = some co := by
    refine carCommit_eq hm.nodup ?_
    rw [hm.commit, ← hv]
    exact hm.new b hb rfl
  obtain ⟨m, m', e1, e2, e3, -, n', t₀, -, e5, e6, -, -, e7⟩ := hm.effect
  have hfold := mirrorOps hL hm.nodup e3 hm.records
  have hpd := hm.prevData
  rw [hprev] at hpd e1
  dsimp only at hpd e1
  obtain ⟨b', co', k1, k2, hpd⟩ := hpd
  rw [h1] at k1; cases k1
  rw [h2] at k2; cases k2
  have hmm : m = s.records := e1.unique h6
  subst hmm
  have hroot := e7 hc hne _ hpd (by rw [h5]; exact hc')
  refine ⟨⟨co.rev, co.data, m'⟩, ?_, rfl, _, b, co, hb, hv, rfl, rfl, rfl, e2⟩
  unfold Copy.verify
  rw [hcc]
  dsimp only
  rw [if_pos, e5]
  · dsimp only
    rw [e6]
    dsimp only
    rw [if_pos (by rw [hroot, h5]), hfold]
  · refine ⟨hsig, rfl, hlt, fun op ho c hcid => ?_⟩
    obtain ⟨r, rfl, hr⟩ := hm.records op ho c hcid
    unfold carRecord
    have : p.blocks.blocks.find? (fun b => decide (b.1 = L.hash (.record r))) = some (L.hash (.record r), .record r) := by
      have hnd := hm.nodup
      revert hnd hr
      generalize p.blocks.blocks = l
      intro hr hnd
      induction l with
      | nil => cases hr
      | cons a l ih =>
        rw [List.map_cons, List.nodup_cons] at hnd
        rcases List.mem_cons.1 hr with h | h
        · rw [← h, List.find?_cons_of_pos (by simp)]
        · have hne : a.1 ≠ L.hash (.record r) := by
            intro h'
            exact hnd.1 (List.mem_map.2 ⟨_, h, h'.symm⟩)
          rw [List.find?_cons_of_neg (by simpa using hne), ih h hnd.2]
    rw [this]
    rfl

/-- **C83 (the server's messages), partial.** For each commit in the log, the server sends one message in its place in the order,
and a consumer that has a copy of the previous commit accepts this message and then has a copy of the commit.

Partial: as `C83_accepts_partial`; and excludes commits that fail in the middle (C30). -/
theorem C83_sent_partial (hL : L.OK Z) (ht : ¬ al.torn) (hp : ¬ al.partway) (hi : ¬ al.imports) (hplain : PlainRecords L)
    (hw : Reach L be al w) {start : Nat} {repo : Option Did} {q : List (Block C R)} (hq : Query L w start repo q) :
    ∃ ms : List (Block C R), ms.Pairwise (fun a b => a.seq < b.seq) ∧ (∀ b, b ∈ ms ↔ Logged L w start repo b) ∧
      List.Forall₂ (fun b x => ∀ co, b.val = .commit co → ∃ p, processEvent L w none x = .ok (.commit "#commit".toList p) ∧
        ∀ (s : Copy C R) c b₀ co₀, w.read c = some b₀ → b₀.val = .commit co₀ → co₀.rev = s.rev → co₀.data = s.data →
          CommitShows L w c s.records → co.prev = some c → signed co = true → CanonicalRoot L co.data →
          CanonicalRoot L s.data → NeverEmpty (L.cids s.records) p.ops →
          ∃ s', s.verify L signed co.did p = some s' ∧ s'.rev = co.rev ∧ OfCommit L w co.did s')
        ms (readEvents L w q).1 := by
  obtain ⟨ms, h1, h2, h3⟩ := C57_messages_partial hL ht hp hplain hw (fun _ _ h => h) hw (fun h => absurd h hi) hq
  refine ⟨ms, h1, h2, ?_⟩
  have h4 : ∀ b ∈ ms, w.read (L.hash b.val) = some b := fun b hb => ((h2 b).1 hb).1
  clear h1 h2
  generalize (readEvents L w q).1 = xs at h3 ⊢
  induction h3 with
  | nil => exact .nil
  | @cons b x _ _ hx _ ih =>
    refine .cons (fun co hv => ?_) (ih fun b hb => h4 b (.tail _ hb))
    obtain ⟨msg, k1, k2⟩ := hx
    unfold Announces at k2
    rw [hv] at k2
    obtain ⟨p, rfl, hm⟩ := k2
    exact ⟨p, k1, fun s c b₀ co₀ a1 a2 a3 a4 a5 a6 a7 a8 a9 a10 =>
      C83_accepts_partial hL ht hi hw a1 a2 a3 a4 a5 (h4 b (.head _)) hv hm a6 a7 a8 a9 a10⟩

end

/-! ### Cases that meet the hypotheses -/

/-- The message for the newest commit, as the server sends it. -/
def newest (w : ExWorld) : Option (Payload SC Nat) :=
  match (messagesBySeq w 0).getLast? with
  | some (.commit _ p) => some p
  | _ => none

/-- The signature is one that was made for a commit of this world. -/
def madeIn (w : ExWorld) (co : Commit SC) : Bool :=
  match w.read (exL.hash (.commit co)) with
  | some b => decide (b.val = .commit co)
  | none => false

/-- A relay leaves out the first operation. -/
def dropOp (p : Payload SC Nat) : Payload SC Nat := { p with ops := p.ops.tail }

/-- A relay adds an operation that deletes a record. -/
def addOp (p : Payload SC Nat) : Payload SC Nat :=
  { p with ops := p.ops ++ [⟨"delete".toList, key "coll/a", none, some (some (.record 4))⟩] }

/-- A relay changes a record, and the operation accordingly. -/
def changeOp (p : Payload SC Nat) : Payload SC Nat :=
  { p with
    ops := p.ops.map fun op => if op.path = key "coll/c" then { op with cid := some (.record 66) } else op
    blocks := ⟨p.blocks.roots, p.blocks.blocks ++ [(.record 66, .record 66)]⟩ }

/-- A relay makes up a commit. -/
def forge (p : Payload SC Nat) : Payload SC Nat :=
  let co : Commit SC := ⟨3, exDid, "7777777777777".toList, none, exL.hash (.node ⟨none, []⟩), []⟩
  { p with
    ops := []
    commit := exL.hash (.commit co)
    blocks := ⟨[exL.hash (.commit co)], [(exL.hash (.commit co), .commit co), (exL.hash (.node ⟨none, []⟩), .node ⟨none, []⟩)]⟩ }

/-- What a relay has sent: four lies, the truth, and that once more. -/
def exRelayed (be : Backend) : List (Payload SC Nat) :=
  match newest (exW2 be) with
  | some p => [dropOp p, addOp p, changeOp p, forge p, p, p]
  | none => []

theorem Unforged.of_check {w : ExWorld} {p : Payload SC Nat}
    (h : p.blocks.blocks.all (fun x => decide (exL.hash x.2 = x.1)) = true) : Unforged exL w (madeIn w) p := by
  refine ⟨fun x hx => of_decide_eq_true (List.all_eq_true.1 h x hx), fun co _ hs => ?_⟩
  unfold madeIn at hs
  split at hs
  · rename_i b hb
    exact ⟨_, b, hb, of_decide_eq_true hs⟩
  · cases hs

theorem verify_isSome {w : ExWorld} {d : Did} (s s' : Copy SC Nat) (h1 : s.rev = s'.rev) (h2 : s.data = s'.data)
    (p : Payload SC Nat) : (s.verify exL (madeIn w) d p).map (fun c => (c.rev, c.data)) =
      (s'.verify exL (madeIn w) d p).map fun c => (c.rev, c.data) := by
  unfold Copy.verify
  rw [h1, h2]
  split
  · rfl
  · split
    · split
      · rfl
      · split
        · rfl
        · split <;> rfl
    · rfl

theorem follow_same {w : ExWorld} {d : Did} : ∀ (ps : List (Payload SC Nat)) (s s' : Copy SC Nat), s.rev = s'.rev →
    s.data = s'.data → (s.follow exL (madeIn w) d ps).rev = (s'.follow exL (madeIn w) d ps).rev
  | [], _, _, h1, _ => h1
  | p :: ps, s, s', h1, h2 => by
    have hv := verify_isSome (w := w) (d := d) s s' h1 h2 p
    have e : ∀ s : Copy SC Nat, s.follow exL (madeIn w) d (p :: ps) =
        ((s.verify exL (madeIn w) d p).getD s).follow exL (madeIn w) d ps := fun _ => rfl
    rw [e, e]
    cases h : s.verify exL (madeIn w) d p with
    | none =>
      rw [h] at hv
      rw [Option.map_eq_none_iff.1 hv.symm]
      exact follow_same ps s s' h1 h2
    | some c =>
      rw [h] at hv
      obtain ⟨c', h3, h4⟩ := Option.map_eq_some_iff.1 hv.symm
      rw [h3]
      obtain ⟨h5, h6⟩ := Prod.mk.inj h4
      exact follow_same ps c c' h5.symm h6.symm

/-- The rev and the root of a repo. -/
def headInfo (be : Backend) (w : ExWorld) (d : Did) : Option (Key × SC) :=
  match readHead exL be w d with
  | none => none
  | some c =>
    match w.read c with
    | some b => match b.val with
      | .commit co => some (co.rev, co.data)
      | _ => none
    | none => none

theorem IsCopy.info {be : Backend} {w : ExWorld} {d : Did} {s : Copy SC Nat} (h : IsCopy exL be w d s) :
    headInfo be w d = some (s.rev, s.data) := by
  obtain ⟨⟨head, b, co, h1, h2, h3, h4, h5⟩, -⟩ := h
  unfold headInfo
  rw [h1]
  dsimp only
  rw [h2]
  dsimp only
  rw [h3]
  dsimp only
  rw [h4, h5]

/-- Alice's repo is downloaded. Then a relay sends four false messages for the next commit, which are refused, and then the true
one, twice. The consumer ends up with the repo. -/
example (be : Backend) : ∃ s, IsCopy exL be (exW1 be) exDid s ∧ (exRelayed be).length = 6 ∧
    (∀ p ∈ exRelayed be, Unforged exL (exW2 be) (madeIn (exW2 be)) p) ∧
    (exRelayed be).map (fun p => (s.verify exL (madeIn (exW2 be)) exDid p).isSome) = [false, false, false, false, true, true] ∧
    IsCopy exL be (exW2 be) exDid (s.follow exL (madeIn (exW2 be)) exDid (exRelayed be)) := by
  obtain ⟨u', car, h1, ⟨s, h2⟩, h3⟩ := C80_download_partial exL_ok (al := .orderly) (fun h => h) (exW1_reach be)
    (cfg := exCfg) (ord := fun _ l => l) (fun _ l => .refl l) (g := exGate) rfl (exNames be) (fun _ => .none _) (.none _)
  have hs := h3 s h2
  have hi := hs.info
  have hun : ∀ p ∈ exRelayed be, Unforged exL (exW2 be) (madeIn (exW2 be)) p := by
    have : ((exRelayed be).all fun p => p.blocks.blocks.all fun x => decide (exL.hash x.2 = x.1)) = true := by
      cases be <;> decide +kernel
    exact fun p hp => .of_check (List.all_eq_true.1 this p hp)
  refine ⟨s, hs, by cases be <;> decide +kernel, hun, ?_, ?_⟩
  · have key : (headInfo be (exW1 be) exDid).map (fun x => (exRelayed be).map fun p =>
        ((⟨x.1, x.2, fun _ => none⟩ : Copy SC Nat).verify exL (madeIn (exW2 be)) exDid p).isSome) =
        some [false, false, false, false, true, true] := by cases be <;> decide +kernel
    rw [hi, Option.map_some] at key
    rw [← Option.some.inj key]
    refine List.map_congr_left fun p _ => ?_
    have := congrArg Option.isSome (verify_isSome (w := exW2 be) (d := exDid) s ⟨s.rev, s.data, fun _ => none⟩ rfl rfl p)
    rw [Option.isSome_map, Option.isSome_map] at this
    exact this
  · refine C83_current_partial exL_ok (fun h => h) (fun h => h) (fun h => h) (fun _ _ => ⟨rfl, rfl⟩) (exW1_reach be)
      (.single (exW1_step be)) (by unfold isDid; decide +kernel) hs hun ?_
    have key : (headInfo be (exW1 be) exDid).bind (fun x => (headInfo be (exW2 be) exDid).map fun y =>
        decide (((⟨x.1, x.2, fun _ => none⟩ : Copy SC Nat).follow exL (madeIn (exW2 be)) exDid (exRelayed be)).rev = y.1)) =
        some true := by cases be <;> decide +kernel
    rw [hi, Option.bind_some] at key
    obtain ⟨y, h4, h5⟩ := Option.map_eq_some_iff.1 key
    have h5 := of_decide_eq_true h5
    rw [← follow_same (exRelayed be) s ⟨s.rev, s.data, fun _ => none⟩ rfl rfl] at h5
    unfold headInfo at h4
    split at h4
    · cases h4
    · rename_i c hc
      split at h4
      · rename_i b hb
        split at h4
        · rename_i co hco
          cases h4
          exact ⟨c, b, co, hc, hb, hco, h5.symm⟩
        · cases h4
      · cases h4

/-! ### What is false -/

theorem IsCopy.record {be : Backend} {w : ExWorld} {d : Did} {s : Copy SC Nat} (h : IsCopy exL be w d s) (rkey : String) :
    readRecord w be d rkey = some ((s.records (key "coll" ++ '/' :: key rkey)).map .record) := by
  obtain ⟨-, w1, r, o, h1, h2, h3⟩ := h
  unfold readRecord
  rw [h1]
  dsimp only
  rw [h2]
  dsimp only
  rw [show getRecord exL w1 o "coll".toList rkey.toList = _ from h3.get _ _]
  rfl

theorem mirrorOps_other {car : Car SC Nat} {k : Key} : ∀ {ops : List (WireOp SC)} {m : Key → Option Nat},
    (ops.all fun op => decide (op.path ≠ k)) = true → ops.foldl (mirrorOp car) m k = m k
  | [], _, _ => rfl
  | op :: ops, m, h => by
    rw [List.all_cons, Bool.and_eq_true, decide_eq_true_eq] at h
    rw [List.foldl_cons, mirrorOps_other h.2]
    unfold mirrorOp
    rw [Function.update_of_ne h.1.symm]

/-- **Checking is needed.** A consumer that goes by `prevData`, as in C80, and doesn't check operations, believes a relay that
leaves one out: it gets the rev and the root of the repo, but a record is missing. -/
theorem C83_unchecked_false (be : Backend) : ∃ p : Payload SC Nat, Unforged exL (exW2 be) (madeIn (exW2 be)) p ∧
    ∀ s, IsCopy exL be (exW1 be) exDid s → ∃ s', s.next exDid (.commit "#commit".toList p) = some s' ∧
      headInfo be (exW2 be) exDid = some (s'.rev, s'.data) ∧ ¬ IsCopy exL be (exW2 be) exDid s' := by
  have key : ((newest (exW2 be)).map dropOp).bind (fun p => (headInfo be (exW1 be) exDid).bind fun x =>
      (headInfo be (exW2 be) exDid).bind fun y => (carCommit p.blocks p.commit).map fun co =>
        (decide (p.repo = exDid ∧ x.1 < p.rev ∧ p.prevData ≠ none ∧ p.prevData = some x.2 ∧ p.rev = y.1 ∧ co.data = y.2) &&
          (p.ops.all fun op => decide (op.path ≠ Arroba.key "coll" ++ '/' :: Arroba.key "c")) &&
          p.blocks.blocks.all fun x => decide (exL.hash x.2 = x.1))) = some true := by
    cases be <;> decide +kernel
  have hr1 : readRecord (exW1 be) be exDid "c" = some none := by cases be <;> decide +kernel
  have hr2 : readRecord (exW2 be) be exDid "c" = some (some (.record 3)) := by cases be <;> decide +kernel
  obtain ⟨p, -, key⟩ := Option.bind_eq_some_iff.1 key
  obtain ⟨x, k1, key⟩ := Option.bind_eq_some_iff.1 key
  obtain ⟨y, k2, key⟩ := Option.bind_eq_some_iff.1 key
  obtain ⟨co, k3, key⟩ := Option.map_eq_some_iff.1 key
  rw [Bool.and_eq_true, Bool.and_eq_true, decide_eq_true_eq] at key
  obtain ⟨⟨⟨a1, a2, a3, a4, a5, a6⟩, b⟩, c⟩ := key
  refine ⟨p, .of_check c, fun s hs => ?_⟩
  have hi := hs.info
  rw [k1] at hi
  cases hi
  refine ⟨⟨p.rev, co.data, p.ops.foldl (mirrorOp p.blocks) s.records⟩, ?_, ?_, fun h => ?_⟩
  · unfold Copy.next
    dsimp only
    rw [if_pos ⟨a1, a2⟩, if_neg a3, if_pos a4, k3]
    rfl
  · rw [k2, a5, a6]
  · have h1 := hs.record "c"
    have h2 := h.record "c"
    rw [hr1] at h1
    dsimp only at h2
    rw [hr2, mirrorOps_other b] at h2
    rw [Option.some.injEq] at h1 h2
    rw [← h1] at h2
    cases h2

/-- **C83 (acceptance) is false** of commits that leave the repo empty on the way: the message of the server for such a commit is
refused by a consumer that has the repo as it was before, although the trees before and after are canonical (C57). -/
theorem C83_accepts_false : Reach exL .memory .orderly exReplaced ∧ ∃ p c, newest exReplaced = some p ∧
    Unforged exL exReplaced (madeIn exReplaced) p ∧ p.prevData = some c ∧ p.repo = exDid ∧
    ∀ s : Copy SC Nat, s.data = c → s.verify exL (madeIn exReplaced) exDid p = none := by
  refine ⟨exReplaced_reach, ?_⟩
  have key : (newest exReplaced).bind (fun p => p.prevData.bind fun c => (carCommit p.blocks p.commit).map fun co =>
      (p.blocks.blocks.all fun x => decide (exL.hash x.2 = x.1)) && decide (p.repo = exDid) &&
      (match checkWire exL.env (carNodes p.blocks) exL.fuel p.ops (load co.data) with
        | .ok n => match getPointer exL.env (carNodes p.blocks) exL.fuel n with
          | .ok r => decide (r ≠ c)
          | .error _ => false
        | .error _ => false)) = some true := by decide +kernel
  obtain ⟨p, k1, key⟩ := Option.bind_eq_some_iff.1 key
  obtain ⟨c, k2, key⟩ := Option.bind_eq_some_iff.1 key
  obtain ⟨co, k3, key⟩ := Option.map_eq_some_iff.1 key
  rw [Bool.and_eq_true, Bool.and_eq_true, decide_eq_true_eq] at key
  obtain ⟨⟨a1, a2⟩, a3⟩ := key
  refine ⟨p, c, k1, .of_check a1, k2, a2, fun s hs => ?_⟩
  unfold Copy.verify
  rw [k3]
  dsimp only
  split
  · split at a3
    · rename_i n hn
      rw [hn]
      dsimp only
      split at a3
      · rename_i r hr
        rw [hr]
        dsimp only
        rw [if_neg]
        rw [hs]
        exact of_decide_eq_true a3
      · cases a3
    · cases a3
  · rfl

end Arroba.Store
