import Verif.Storage.GroupProofs
import Verif.Storage.RetryProofs
import Verif.Props.C60
import Verif.Props.C72

/-!
# C75: a failure while storing does not damage the firehose for others

`Allow.partway`: the Datastore may fail after blocks have been written, and may retry transactions. C29 and C30 show that the log
then has commits that the repo does not have. Here: the log can still be read, and everything else in it is right.
-/

namespace Arroba.Store

open Arroba.Tree

section
variable {C R : Type} [DecidableEq C] {L : Lib C R} {Z : Nat} {be : Backend} {al : Allow} {u w v : World C R}

theorem Reach.readable (hL : L.OK Z) (hplain : PlainRecords L) (h : Reach L be al w) {start : Nat}
    (hi : al.imports → 1 ≤ start) {repo : Option Did} {q : List (Block C R)} (hq : Query L w start repo q) :
    Readable L w q := by
  obtain ⟨hw, _⟩ := Reach.plain hL h
  have hs := Reach.grouped hL h
  have hb := hw.core.blocks
  have hin : ∀ b ∈ q, dictGet w.blocks (L.hash b.val) = some b := fun b hb => ((hq.mem b).1 hb).1
  have hrepo : ∀ b m : Block C R, m.repo = b.repo → Concerns repo b → Concerns repo m := by
    intro b m he hb
    unfold Concerns at *
    rw [he]; exact hb
  have hone : ∀ b ∈ q, 1 ≤ b.seq := by
    intro b hbq
    by_cases g : al.imports
    · exact (hi g).trans ((hq.mem b).1 hbq).2.1
    · exact h.native hL g (hin b hbq)
  have hmem : ∀ b ∈ q, ∀ c y, dictGet w.blocks c = some y → y.seq = b.seq → y ∈ q := by
    intro b hbq c y hy he
    obtain ⟨_, g2, g3⟩ := (hq.mem b).1 hbq
    refine (hq.mem y).2 ⟨?_, by omega, hrepo b y (hs.together _ _ _ _ (hin b hbq) hy (hone b hbq) he) g3⟩
    unfold World.read
    rw [hb.addr _ _ hy]; exact hy
  refine ⟨hq.sorted, hq.nodup, hin, hmem, fun c y hy => (hb.addr _ _ hy).symm, ?_, ?_, ?_, ?_, ?_⟩
  · intro b hbq
    have := hone b hbq
    omega
  · intro b hbq
    obtain ⟨c', m, h1, h2, h3⟩ := hs.marked _ b (hin b hbq) (hone b hbq)
    exact ⟨m, hmem b hbq _ _ h1 h3, (isLog_marker m).2 h2, h3⟩
  · intro b hbq m hmq h1 he
    have e := hs.alone _ _ _ _ (hin b hbq) (hin m hmq) h1 (hone b hbq) he
    have g := hin m hmq
    rw [e, hin b hbq] at g
    exact (Option.some.inj g).symm
  · intro b hbq
    cases hv : b.val with
    | node d => simp [looksEvent, looksCommit, Block.isEvent, Block.isCommit, hv]
    | commit c => simp [looksEvent, looksCommit, Block.isEvent, Block.isCommit, hv]
    | event e => simp [looksEvent, looksCommit, Block.isEvent, Block.isCommit, hv]
    | record r =>
      obtain ⟨h1, h2⟩ := hplain r ((hb.recs _ b r (hin b hbq) hv).1 (hone b hbq)).1
      simp [looksEvent, looksCommit, Block.isEvent, Block.isCommit, hv, h1, h2]
  · intro b hbq co hco
    have hc := hb.own (hin b hbq) hco (hone b hbq)
    refine ⟨?_, ?_⟩
    · obtain ⟨ops, h1, h2⟩ := hc.ops
      refine ⟨ops, h1, fun op ho hd => ?_⟩
      obtain ⟨r, k1, y, k2, _⟩ := h2 op ho hd
      exact ⟨_, y, k1, k2⟩
    · obtain ⟨t, l, _, _, _, _, h5, h6⟩ := hc.root
      rw [← h6]
      have := h5 t (by simp [nodes])
      unfold nodeIn at this
      split at this
      · rename_i hg; exact ⟨_, hg⟩
      · cases this

/-- What is in the log: one stored commit or event for each number. -/
structure LogOf (L : Lib C R) (w : World C R) (start : Nat) (repo : Option Did) (ms : List (Block C R)) : Prop where
  ascending : ms.Pairwise (fun a b => a.seq < b.seq)
  sound : ∀ b ∈ ms, Logged L w start repo b
  complete : ∀ b, Logged L w start repo b → ∃ m ∈ ms, m.seq = b.seq ∧ m.repo = b.repo

/-- If there is nothing else with its number, a commit or event is in the log. -/
theorem LogOf.mem {start : Nat} {repo : Option Did} {ms : List (Block C R)} (h : LogOf L w start repo ms) {b : Block C R}
    (hb : Logged L w start repo b) (hu : ∀ m, Logged L w start repo m → m.seq = b.seq → m = b) : b ∈ ms := by
  obtain ⟨m, h1, h2, _⟩ := h.complete b hb
  rw [← hu m (h.sound m h1) h2]; exact h1

/-- **C75, the log can be read.** In every history of both backends, whatever fails and however often transactions are retried:
`read_events_by_seq` raises nothing, and gives one message for each number that was used, in order, which is right for a commit
or event that is stored with that number. -/
theorem C75_log (hL : L.OK Z) (hplain : PlainRecords L) (h : Reach L be al w) {start : Nat} (hi : al.imports → 1 ≤ start)
    {repo : Option Did} {q : List (Block C R)} (hq : Query L w start repo q) :
    (readEvents L w q).2 = none ∧ ∃ ms : List (Block C R), LogOf L w start repo ms ∧
      List.Forall₂ (Delivers w) ms (readEvents L w q).1 := by
  have ho := Reach.readable hL hplain h hi hq
  obtain ⟨h1, h2⟩ := readEvents_winners ho
  refine ⟨h1, winners q, ⟨winners_sorted ho.sorted, fun b hb => ?_, fun b hb => ?_⟩, h2⟩
  · obtain ⟨g1, g2⟩ := winners_mem hb
    obtain ⟨k1, k2, k3⟩ := (hq.mem b).1 g1
    refine ⟨k1, ?_, k2, k3⟩
    unfold Block.isLog at g2
    cases hv : b.val with
    | commit co => exact .inl ⟨co, rfl⟩
    | event e => exact .inr ⟨e, rfl⟩
    | node d => rw [hv] at g2; cases g2
    | record r => rw [hv] at g2; cases g2
  · obtain ⟨g1, g2, g3, g4⟩ := hb
    have hbq : b ∈ q := (hq.mem b).2 ⟨g1, g3, g4⟩
    obtain ⟨m, h3, h4⟩ := winners_all hbq (by unfold Block.isLog; rcases g2 with ⟨co, g2⟩ | ⟨e, g2⟩ <;> rw [g2])
    refine ⟨m, h3, h4, (Reach.grouped hL h).together _ _ _ _ g1 (ho.stored m (winners_mem h3).1) ?_ h4⟩
    have := ho.pos b hbq
    omega

/-- **C75, the messages.** The messages that are made from the log, at that time or later (`v`), are right for those commits and
events. (`torn`: MemoryStorage after a commit that failed in the middle, see C23.) -/
theorem C75_messages_partial (hL : L.OK Z) (ht : ¬ al.torn) (hplain : PlainRecords L) (h : Reach L be al w)
    (hg : ∀ c b, w.read c = some b → v.read c = some b) (h' : Reach L be al v) {start : Nat} (hi : al.imports → 1 ≤ start)
    {repo : Option Did} {q : List (Block C R)} (hq : Query L w start repo q) :
    ∃ ms : List (Block C R), LogOf L w start repo ms ∧
      List.Forall₂ (fun b s => ∃ msg, processEvent L v none s = .ok msg ∧ Announces L w b msg) ms (readEvents L w q).1 := by
  obtain ⟨_, ms, h1, h3⟩ := C75_log hL hplain h hi hq
  refine ⟨ms, h1, ?_⟩
  have hn : ∀ c, Sent.commit c ∈ (readEvents L w q).1 → (c.blocks.map (·.1)).Nodup :=
    scan_nodup (by simp)
  refine announced hL hg h'.addressed (pc := fun _ => none) (fun _ _ _ _ h => nomatch h) h3 (fun b hb co hv => ?_) hn
  obtain ⟨g1, _, g3, _⟩ := h1.sound b hb
  refine Reach.told hL ht h g1 hv ?_
  by_cases hm : al.imports
  · exact (hi hm).trans g3
  · exact Reach.native hL hm h g1

/-- **C75, the firehose goes on.** A pass of the collector raises nothing, wherever it begins; and if it does not wait for missing
numbers, it emits a message for every number from there on. -/
theorem C75_pass_partial (hL : L.OK Z) (ht : ¬ al.torn) (hplain : PlainRecords L) (h : Reach L be al w)
    {field : R → Option Nat} {last : Nat} {q : List (Block C R)} (hq : Query L w (last + 1) none q) :
    (∀ goes, (collectPass L w field goes last q).2.2 = none) ∧
    ∃ ms : List (Block C R), LogOf L w (last + 1) none ms ∧
      List.Forall₂ (Announces L w) ms (collectPass L w field (fun _ _ => true) last q).2.1 ∧
      (collectPass L w field (fun _ _ => true) last q).1 = (ms.getLast?.map (·.seq)).getD last := by
  obtain ⟨h1, ms, h2, h4'⟩ := C75_log hL hplain h (fun _ => Nat.le_add_left _ _) hq
  have hn : ∀ c, Sent.commit c ∈ (readEvents L w q).1 → (c.blocks.map (·.1)).Nodup :=
    scan_nodup (by simp)
  have h4 := announced hL (fun _ _ h => h) h.addressed (pc := fun _ => none) (fun _ _ _ _ h => nomatch h) h4'
    (fun b hb co hv => by
      obtain ⟨g1, _, g3, _⟩ := h2.sound b hb
      exact Reach.told hL ht h g1 hv (by omega)) hn
  have hev := (Reach.plain hL h).1.core.blocks.events
  have hcur : List.Forall₂ (fun b e => e.curSeq field = some b.seq ∧
      ∃ msg, processEvent L w none e = .ok msg ∧ Announces L w b msg) ms (readEvents L w q).1 := by
    have hm := h2.sound
    clear h1 h2 hn
    generalize (readEvents L w q).1 = ss at h4 h4'
    induction h4 with
    | nil => exact .nil
    | @cons b e ms ss h5 _ ih =>
      cases h4' with
      | cons h6 h7 =>
        refine .cons ⟨?_, h5⟩ (ih (fun b hb => hm b (List.mem_cons_of_mem _ hb)) h7)
        obtain ⟨g1, g2, _⟩ := hm b List.mem_cons_self
        unfold Delivers at h6
        rcases g2 with ⟨co, g2⟩ | ⟨x, g2⟩
        · rw [g2] at h6
          obtain ⟨d, rfl, _⟩ := h6
          rfl
        · rw [g2] at h6
          rw [h6]
          exact congrArg some (hev _ b x g1 g2).1
  refine ⟨fun goes => ?_, ms, h2, ?_⟩
  · unfold collectPass
    rw [h1]
    refine passOver_raises _ _ fun e he => ?_
    obtain ⟨b, _, g1, msg, g2, _⟩ := forall₂_mem_right hcur he
    exact ⟨by rw [g1]; rfl, msg, g2⟩
  · unfold collectPass
    rw [h1]
    exact passOver_all hcur h2.ascending last fun b hb => by
      have := (h2.sound b hb).2.2.1
      omega

/-! ### Mirrors -/

/-- Nothing is done to the repo `d`. -/
def LeavesAlone (L : Lib C R) (be : Backend) (d : Did) (w w' : World C R) : Prop :=
  readHead L be w' d = readHead L be w d ∧
  ∀ c b co, w'.read c = some b → b.val = .commit co → co.did = d → w.read c = some b

/-- A commit that succeeds (except that the callback may raise), or a repo that is created. Transactions may have been retried any
number of times before. -/
def Completes (L : Lib C R) (be : Backend) (w w' : World C R) : Prop :=
  (∃ r writes xs cbFails cd, (commit L be w r writes none xs false).2 = .ok cd ∧
    (commit L be w r writes none xs cbFails).1 = w') ∨
  ∃ did handle key callback time xs cbFails r, isDid did ∧ (∀ h, handle = some h → ¬ isDid h) ∧
    repoCreate L be w did handle key callback time xs cbFails = (w', .ok r)

/-- A call that may fail at any time, but not part of the way if it is one for the repo `d`. -/
def CleanStep (L : Lib C R) (be : Backend) (al : Allow) (d : Did) (w w' : World C R) : Prop :=
  Step L be al w w' ∧
    (Step L be ⟨al.torn, False, al.silent, False, False⟩ w w' ∨ Completes L be w w' ∨ LeavesAlone L be d w w')

theorem CleanStep.settled (hL : L.OK Z) (ht : ¬ al.torn) {d : Did} (hd : isDid d) (hw : Reach L be al w)
    (h : CleanStep L be al d w v) : Settled L Z be d w v := by
  obtain ⟨hok, _⟩ := hw.inv hL ht
  obtain ⟨hp, _⟩ := hw.plain hL
  obtain ⟨hok', _⟩ := Reach.inv hL ht (.step hw h.1)
  obtain ⟨hp', _⟩ := Reach.plain hL (.step hw h.1)
  rcases h.2 with hc | (⟨r, writes, xs, cbFails, cd, h1, rfl⟩ | ⟨did, handle, key, callback, time, xs, cbFails, r, h1, h2, h3⟩) |
    ⟨h1, h2⟩
  · exact (hc.added hL (fun h => h) (fun h => h) (fun h => h) hp).settled hL hok'.core hd
  · exact commit_settled hL hok h1 cbFails d
  · have := create_settled hL hok (be := be) (handle := handle) (key := key) (callback := callback) (time := time)
      (xs := xs) (cbFails := cbFails) h1 h2 (r := r) (by rw [h3]) d
    rw [h3] at this
    exact this
  · exact .inl ⟨by rw [← hp.core.readHead hd, ← hp'.core.readHead hd]; exact h1, h2⟩

/-- Commits to other repos leave a repo alone, whatever fails, so they are such calls. -/
theorem C75_others (hL : L.OK Z) (h : Reach L be al w) {r : Ref} {o : RepoObj C R} {d d' : Did} (ho : w.heap[r]? = some o)
    (hd' : o.did = some d') (hne : d ≠ d') (hd : isDid d) (writes : List (Write R)) (xs : List Luck) (cbFails : Bool)
    {al' : Allow} (ha : Reach L be al' (commit L be w r writes none xs cbFails).1) :
    LeavesAlone L be d w (commit L be w r writes none xs cbFails).1 := by
  obtain ⟨hw, hl⟩ := h.plain hL
  obtain ⟨hw', _⟩ := ha.plain hL
  have hm := commit_makes (L := L) be w r writes none xs cbFails
  rw [hw.alloc.1] at hm
  have ho' := (commit_only hL hw ho hd' writes xs cbFails (Reach.grouped hL h)).2
  refine ⟨?_, fun c b co hb hv hco => ?_⟩
  · rw [hw.core.readHead hd, hw'.core.readHead hd]
    obtain ⟨w1, w', res, h1, h2, _, _, _, _, _, h8⟩ := commit_plain hL hw (r := r) (repoDid := none)
      (fun d h => by cases h) writes xs cbFails
    rw [h1]
    refine (headOf_log h2 d).trans ?_
    rcases h8 with ⟨_, _, _, k⟩ | ⟨cd, wk, did, prev, co, _, _, _, _, _, k, k', _, k''⟩
    · exact k d
    · obtain ⟨_, _, _, j⟩ := k''.heads
      obtain ⟨x, x1, _, x2⟩ := k''.caller
      obtain ⟨y, y1, y2⟩ := k' r o d' (.inl rfl) ho hd'
      rw [x1] at y1; cases y1
      rw [x2 rfl] at y2; cases y2
      exact (j d hne).trans (k d)
  · rcases hm.get hb with g | ⟨_, g⟩
    · exact g
    · have h1 := (ho' c b hb g.1).1
      have h2 := (hw'.core.blocks.own hb hv (by rw [g.1]; omega)).repo
      rw [h1, hco] at h2
      exact absurd h2.symm hne

/-- Two heads with the same records. -/
def Alike (L : Lib C R) (v : World C R) (h h' : Option C) : Prop :=
  ∀ m, (∃ c, h = some c ∧ CommitShows L v c m) ↔ ∃ c, h' = some c ∧ CommitShows L v c m

/-- The commits of a repo, one after the other, up to commits with the same records. -/
inductive Follow (L : Lib C R) (v : World C R) : Option C → List (Block C R) → Option C → Prop
  | nil {h h' : Option C} (ha : Alike L v h h') : Follow L v h [] h'
  | cons {h h1 h' : Option C} {b : Block C R} {co : Commit C} {bs : List (Block C R)} (ha : Alike L v h h1)
      (hv : b.val = .commit co) (hp : co.prev = none ∨ co.prev = h1) (hn : Follow L v (some (L.hash b.val)) bs h') :
      Follow L v h (b :: bs) h'

theorem Follow.snoc {h h' h'' : Option C} {bs : List (Block C R)} (hf : Follow L v h bs h') {b : Block C R} {co : Commit C}
    (hv : b.val = .commit co) (hp : co.prev = none ∨ co.prev = h') (ha : Alike L v (some (L.hash b.val)) h'') :
    Follow L v h (bs ++ [b]) h'' := by
  induction hf with
  | nil h => exact .cons h hv hp (.nil ha)
  | cons ha' hv' hp' _ ih => exact .cons ha' hv' hp' (ih hp)

/-- A commit of `d` that was made after `u`. -/
def Since (L : Lib C R) (d : Did) (u w : World C R) (b : Block C R) : Prop :=
  w.read (L.hash b.val) = some b ∧ u.last < b.seq ∧ ∃ co, b.val = .commit co ∧ co.did = d

/-- The commits of a repo since `u`, one for each number, lead from its head then to its head now. -/
theorem follow_reach (hL : L.OK Z) (ht : ¬ al.torn) {d : Did} (hd : isDid d) (hu : Reach L be al u)
    (h : Relation.ReflTransGen (CleanStep L be al d) u w) : Reach L be al w ∧ u.last ≤ w.last ∧ Grows u.blocks w.blocks ∧
    ∀ (v : World C R) (n : Nat), Core L Z n v → Grows w.blocks v.blocks → ∀ cs : List (Block C R),
      cs.Pairwise (fun a b => a.seq < b.seq) → (∀ b ∈ cs, Since L d u w b) →
      (∀ b, Since L d u w b → ∃ b' ∈ cs, b'.seq = b.seq) → Follow L v (headOf L be u d) cs (headOf L be w d) := by
  induction h with
  | refl =>
    obtain ⟨hw, _⟩ := hu.plain hL
    refine ⟨hu, le_refl _, fun _ _ h => h, fun v n _ _ cs _ h2 _ => ?_⟩
    cases cs with
    | nil => exact .nil fun _ => Iff.rfl
    | cons b bs =>
      have hb := h2 b List.mem_cons_self
      have := hw.core.blocks.seqs _ _ hb.1
      have := hb.2.1
      omega
  | @tail x y _ hs ih =>
    obtain ⟨hx, hlast, hgx, ih⟩ := ih
    have hset := hs.settled hL ht hd hx
    obtain ⟨hs, _⟩ := hs
    obtain ⟨hw, _⟩ := hx.plain hL
    have hg : Grows x.blocks y.blocks := hs.puts.grows
    have hy : Reach L be al y := .step hx hs
    obtain ⟨hwy, _⟩ := hy.inv hL ht
    have hup : ∀ b, Since L d u x b → Since L d u y b := fun b hb => ⟨hg _ _ hb.1, hb.2⟩
    refine ⟨hy, hlast.trans hs.last_le, Grows.trans hgx hg, fun v n hv hgv cs h1 h2 h3 => ?_⟩
    rcases hset with ⟨hh, hold⟩ | ⟨seq, m, hseq, hm, ⟨b0, co0, k1, k2, k3, k4⟩, hnew⟩
    · rw [hh]
      refine ih v n hv (Grows.trans hg hgv) cs h1 (fun b hb => ?_) fun b hb => h3 b (hup b hb)
      obtain ⟨g1, g2, co, g3, g4⟩ := h2 b hb
      exact ⟨hold _ _ co g1 g3 g4, g2, co, g3, g4⟩
    · have hlow : ∀ z, Since L d u x z → z.seq < seq := fun z hz => by
        have := hw.core.blocks.seqs _ _ hz.1
        omega
      have hsin : ∀ z, Since L d u y z → Since L d u x z ∨ z.seq = seq := by
        rintro z ⟨g1, g2, co, g3, g4⟩
        exact (hnew _ z co g1 g3 g4).imp (fun g => ⟨g, g2, co, g3, g4⟩) fun g => g.1
      obtain ⟨b, hb, hbs⟩ := h3 b0 ⟨k1, by omega, co0, k2, k3⟩
      obtain ⟨l1, l2, rfl⟩ := List.append_of_mem hb
      rw [List.pairwise_append] at h1
      obtain ⟨p1, p2, p3⟩ := h1
      rw [List.pairwise_cons] at p2
      have : l2 = [] := by
        cases l2 with
        | nil => rfl
        | cons z zs =>
          have hlt := p2.1 z List.mem_cons_self
          rcases hsin z (h2 z (by simp)) with h | h
          · have := hlow z h
            omega
          · omega
      subst this
      obtain ⟨g1, g2, co, g3, g4⟩ := h2 b hb
      obtain ⟨_, hpr, hroot⟩ := (hnew _ b co g1 g3 g4).resolve_left (fun g => by
        have := hlow b ⟨g, g2, co, g3, g4⟩
        omega)
      refine (ih v n hv (Grows.trans hg hgv) l1 p1 (fun z hz => ?_) fun z hz => ?_).snoc g3 hpr ?_
      · have hlt := p3 z hz b List.mem_cons_self
        exact (hsin z (h2 z (List.mem_append_left _ hz))).resolve_right (by omega)
      · have hlt := hlow z hz
        obtain ⟨b', e1, e2⟩ := h3 z (hup z hz)
        rcases List.mem_append.1 e1 with h | h
        · exact ⟨b', h, e2⟩
        · rw [List.mem_singleton] at h
          subst h; omega
      · obtain ⟨c', b', co', q1, q2, q3, _, q4⟩ := (records_iff hL hwy.core hd m).1 hm
        have s1 := (hroot.grow hgv).commitShows hL hv (c := L.hash b.val) (hgv _ _ g1) g3
        have s2 := (q4.grow hgv).commitShows hL hv (hgv _ _ q2) q3
        intro m'
        constructor
        · rintro ⟨c, e, hc⟩
          cases e
          exact ⟨c', q1, s1.unique hc ▸ s2⟩
        · rintro ⟨c, e, hc⟩
          rw [q1] at e; cases e
          exact ⟨_, rfl, s2.unique hc ▸ s1⟩

/-- The mirror shows the records of the head `h` for the repo `d`. -/
def MirrorsHead (L : Lib C R) (w : World C R) (d : Did) (h : Option C) (s : Mirror R) : Prop :=
  ∀ m, s d = some m ↔ ∃ c, h = some c ∧ CommitShows L w c m

theorem MirrorsHead.alike {d : Did} {h h' : Option C} {s : Mirror R} (hm : MirrorsHead L w d h s) (ha : Alike L w h h') :
    MirrorsHead L w d h' s := fun m => (hm m).trans (ha m)

theorem MirrorsHead.next (hL : L.OK Z) {d : Did} {h : Option C} {s : Mirror R} (hm : MirrorsHead L w d h s)
    {b : Block C R} {co : Commit C} {p : Payload C R} {t : List Char} (hd : isDid d) (hco : co.did = d)
    (hp : co.prev = none ∨ co.prev = h) (hdesc : Describes L w b co p) :
    MirrorsHead L w d (some (L.hash b.val)) (s.next (.commit t p)) := by
  have h1 : MirrorsHeads L w (fun d' => if d' = d then h else none) (fun d' => if d' = d then s d else none) := by
    intro d' _ m
    dsimp only
    by_cases he : d' = d
    · simp only [if_pos he]; exact hm m
    · simp [he]
  have h2 := h1.next hL (t := t) (hco.symm ▸ hd) (by rw [if_pos hco]; exact hp) hdesc d hd
  rw [hco, Function.update_self] at h2
  intro m
  rw [← h2 m]
  unfold Mirror.next
  dsimp only
  rw [hdesc.repo, hco, Function.update_self, Function.update_self, if_pos rfl]

theorem mirrored_one (hL : L.OK Z) {d : Did} (hd : isDid d) {h' : Option C} :
    ∀ {ms : List (Block C R)} {ss : List (Sent C R)} {h : Option C} {s : Mirror R},
      List.Forall₂ (fun b s => ∃ msg, processEvent L v none s = .ok msg ∧ Announces L w b msg) ms ss →
      ∀ (p : Block C R → Bool), (∀ b, p b = true ↔ ∃ co, b.val = .commit co ∧ co.did = d) →
      Follow L w h (ms.filter p) h' → MirrorsHead L w d h s →
      ∃ msgs, List.Forall₂ (fun e msg => processEvent L v none e = .ok msg) ss msgs ∧
        MirrorsHead L w d h' (msgs.foldl Mirror.next s) := by
  intro ms ss h s hf p hp
  induction hf generalizing h s with
  | nil =>
    intro hl hm
    cases hl with
    | nil ha => exact ⟨[], .nil, hm.alike ha⟩
  | @cons b e ms ss hd' _ ih =>
    intro hl hm
    obtain ⟨msg, hd1, hd2⟩ := hd'
    unfold Announces at hd2
    cases hval : b.val with
    | node d => rw [hval] at hd2; exact hd2.elim
    | record r => rw [hval] at hd2; exact hd2.elim
    | event ev =>
      rw [hval] at hd2
      dsimp only at hd2
      rw [List.filter_cons_of_neg (by rw [hp, hval]; rintro ⟨_, h, _⟩; cases h)] at hl
      obtain ⟨msgs, k1, k2⟩ := ih (s := s) hl hm
      exact ⟨msg :: msgs, .cons hd1 k1, by rw [List.foldl_cons, hd2]; exact k2⟩
    | commit co =>
      rw [hval] at hd2
      dsimp only at hd2
      obtain ⟨q, rfl, hdesc⟩ := hd2
      by_cases hco : co.did = d
      · rw [List.filter_cons_of_pos ((hp b).2 ⟨co, hval, hco⟩)] at hl
        cases hl with
        | @cons _ _ _ _ co' _ ha hv' hp' hl' =>
          rw [hval] at hv'; cases hv'
          obtain ⟨msgs, k1, k2⟩ := ih hl' ((hm.alike ha).next hL (t := "#commit".toList) hd hco hp' hdesc)
          exact ⟨_ :: msgs, .cons hd1 k1, k2⟩
      · rw [List.filter_cons_of_neg (by
          rw [hp, hval]; rintro ⟨_, h, h'⟩; cases h; exact hco h')] at hl
        obtain ⟨msgs, k1, k2⟩ := ih (s := s.next (.commit "#commit".toList q)) hl (by
          intro m
          rw [← hm m]
          unfold Mirror.next
          dsimp only
          rw [hdesc.repo, Function.update_of_ne (Ne.symm hco)])
        exact ⟨_ :: msgs, .cons hd1 k1, k2⟩

/-- **C75, mirrors.** In every history in which the calls for the repo `d` do not fail part of the way (others may, and transactions
for `d` may be retried, and callbacks raise, as long as the commit is made in the end): let a
consumer's mirror of the repo be right at some time (`u`), and let it go on with the messages from the next sequence number on,
made from the log of any later time (`w`) and at that time or later (`v`). Then there is a message for everything, and after
applying them in order the mirror of the repo is right for that later time. -/
theorem C75_mirror_partial (hL : L.OK Z) (ht : ¬ al.torn) (hplain : PlainRecords L) {d : Did} (hd : isDid d)
    (hu : Reach L be al u) (hw : Relation.ReflTransGen (CleanStep L be al d) u w)
    (hv : Reach L be al v) (hg : ∀ c b, w.read c = some b → v.read c = some b)
    {s : Mirror R} (hs : ∀ m, s d = some m ↔ Shows L be u d m)
    {q : List (Block C R)} (hq : Query L w ((lastSeq u.seqs subscribeRepos).getD 0 + 1) none q) :
    ∃ msgs, List.Forall₂ (fun e msg => processEvent L v none e = .ok msg) (readEvents L w q).1 msgs ∧
      ∀ m, msgs.foldl Mirror.next s d = some m ↔ Shows L be w d m := by
  obtain ⟨hrw, _, hgu, hfol⟩ := follow_reach hL ht hd hu hw
  obtain ⟨hwu, _⟩ := hu.inv hL ht
  obtain ⟨hww, _⟩ := hrw.inv hL ht
  obtain ⟨hpw, _⟩ := hrw.plain hL
  obtain ⟨ms, h1, h3⟩ := C75_messages_partial hL ht hplain hrw hg hv (fun _ => by omega) hq
  have hgr := Reach.grouped hL hrw
  have hlast : (lastSeq u.seqs subscribeRepos).getD 0 = u.last := by
    have := hwu.pos
    unfold lastSeq World.last
    cases h : dictGet u.seqs subscribeRepos with
    | none => rfl
    | some n =>
      rw [h] at this
      cases n with
      | zero => simp at this
      | succ n => rfl
  rw [hlast] at hq h1
  let p : Block C R → Bool := fun b => match b.val with
    | .commit co => co.did = d
    | _ => false
  have hp : ∀ b, p b = true ↔ ∃ co, b.val = .commit co ∧ co.did = d := by
    intro b
    dsimp only [p]
    cases b.val <;> simp
  have hl := hfol w _ hww.core (fun _ _ h => h) (ms.filter p) (h1.ascending.filter _) (by
    intro b hb
    rw [List.mem_filter, hp] at hb
    obtain ⟨k1, _, k3, _⟩ := h1.sound b hb.1
    exact ⟨k1, by omega, hb.2⟩) (by
    rintro b ⟨g1, g2, co, g3, g4⟩
    obtain ⟨m, hm, he, hr⟩ := h1.complete b ⟨g1, .inl ⟨co, g3⟩, by omega, .inl rfl⟩
    refine ⟨m, List.mem_filter.2 ⟨hm, (hp m).2 ?_⟩, he⟩
    obtain ⟨k1, k2, _⟩ := h1.sound m hm
    rcases k2 with ⟨co', k2⟩ | ⟨e, k2⟩
    · refine ⟨co', k2, ?_⟩
      have o1 := (hpw.core.blocks.own g1 g3 (by omega)).repo
      have o2 := (hpw.core.blocks.own k1 k2 (by omega)).repo
      rw [← g4, ← o1, ← hr, o2]
    · have := hgr.alone _ _ _ _ k1 g1 (by unfold Block.isEvent; rw [k2]; trivial) (by omega) he.symm
      rw [this, k1] at g1
      cases Option.some.inj g1
      rw [k2] at g3; cases g3)
  have hs' : MirrorsHead L w d (headOf L be u d) s := fun m =>
    (hs m).trans (shows_head hL hwu.core hww.core hgu hd m)
  obtain ⟨msgs, k1, k2⟩ := mirrored_one hL hd h3 p hp hl hs'
  exact ⟨msgs, k1, fun m => (k2 m).trans (shows_head hL hww.core hww.core (fun _ _ h => h) hd m).symm⟩

end

/-! ### Cases that meet the hypotheses, and what is damaged -/

/-- The second repo's commit fails when it is to be stored. -/
def exHurt1 : ExWorld :=
  (commit exL .datastore (exW1 .datastore) 1 [wr .create "x" (some 5)] none [{ storeFails := true }] false).1

/-- Then there is another commit of the first repo. -/
def exHurt : ExWorld := (commit exL .datastore exHurt1 0 exWrites2 none lucky false).1

theorem exHurt1_step : Step exL .datastore ⟨False, True, False, False, False⟩ (exW1 .datastore) exHurt1 := by
  refine .commit 1 _ _ false ⟨.inr (.inl rfl), .inl trivial, .inr ?_, .inr rfl⟩
  decide +kernel

theorem exHurt_step (al : Allow) : Step exL .datastore al exHurt1 exHurt := by
  refine .commit 0 _ _ false ⟨.inr (.inl rfl), .inr ?_, .inr ?_, .inr rfl⟩ <;> decide +kernel

theorem exW1_partway : Reach exL .datastore ⟨False, True, False, False, False⟩ (exW1 .datastore) :=
  (exW1_reach .datastore).weaken (fun h => False.elim h) (fun h => False.elim h) (fun h => False.elim h)
    (fun h => False.elim h)

theorem exHurt1_reach : Reach exL .datastore ⟨False, True, False, False, False⟩ exHurt1 :=
  .step exW1_partway exHurt1_step

theorem exHurt_reach : Reach exL .datastore ⟨False, True, False, False, False⟩ exHurt :=
  .step exHurt1_reach (exHurt_step _)

/-- All that was done since the first commit is clean for the first repo. -/
theorem exHurt_clean : Relation.ReflTransGen (CleanStep exL .datastore ⟨False, True, False, False, False⟩ exDid)
    (exW1 .datastore) exHurt := by
  refine .tail (.tail .refl ⟨exHurt1_step, .inr (.inr ?_)⟩) ⟨exHurt_step _, .inl (exHurt_step _)⟩
  have ho : ∃ o, (exW1 .datastore).heap[1]? = some o ∧ o.did = some exDid2 := by
    have : (((exW1 .datastore).heap[1]?).bind (·.did)) = some exDid2 := by decide +kernel
    exact Option.bind_eq_some_iff.1 this
  obtain ⟨o, h1, h2⟩ := ho
  exact C75_others exL_ok (exW1_reach .datastore) h1 h2 (by decide +kernel) (by unfold isDid; decide +kernel) _ _ _
    exHurt1_reach

/-- The mirror of the first repo is right, and has the records. -/
example {s : Mirror Nat} (hs : ∀ m, s exDid = some m ↔ Shows exL .datastore (exW1 .datastore) exDid m) :
    ∃ msgs, List.Forall₂ (fun e msg => processEvent exL exHurt none e = .ok msg)
      (readEvents exL exHurt (blocksFrom exHurt 10)).1 msgs ∧
      ∀ m, msgs.foldl Mirror.next s exDid = some m ↔ Shows exL .datastore exHurt exDid m :=
  C75_mirror_partial exL_ok (fun h => h) (fun _ _ => ⟨rfl, rfl⟩) (by unfold isDid; decide +kernel)
    exW1_partway exHurt_clean
    exHurt_reach (fun _ _ h => h) hs (by
      rw [show (lastSeq (exW1 .datastore).seqs subscribeRepos).getD 0 + 1 = 10 by decide +kernel]
      exact Query.of_perm exHurt_reach (by decide +kernel) (List.Perm.refl _))

example : (exMessages exHurt 1).isSome = true ∧
    (exMirror exHurt exDid).map (fun m => ["a", "b", "c", "x"].map fun k => m (key ("coll/" ++ k))) =
      some [some 4, none, some 3, none] := by
  decide +kernel

/-- A transaction that was retried: the log has one message for the two commits. -/
example : (readEvents exL exRetried (blocksFrom exRetried 9)).2 = none ∧
    (readEvents exL exRetried (blocksFrom exRetried 9)).1.length = 1 ∧ (exCommits exRetried 9).length = 2 := by
  refine ⟨(C75_log exL_ok (fun _ _ => ⟨rfl, rfl⟩) C29_retry_false.1 (fun h => h.elim)
    (Query.of_perm C29_retry_false.1 (by decide +kernel) (List.Perm.refl _))).1, ?_, ?_⟩ <;> decide +kernel

/-- And then another commit. -/
def exRetried2 : ExWorld := (commit exL .datastore exRetried 0 exWrites2 none lucky false).1

theorem exRetried_step : Step exL .datastore ⟨False, True, False, False, False⟩ (exW0 .datastore) exRetried := by
  refine .commit 0 _ _ false ⟨.inr (.inl rfl), .inl trivial, .inr ?_, .inr rfl⟩
  decide +kernel

theorem exRetried2_step (al : Allow) : Step exL .datastore al exRetried exRetried2 := by
  refine .commit 0 _ _ false ⟨.inr (.inl rfl), .inr ?_, .inr ?_, .inr rfl⟩ <;> decide +kernel

theorem exW0_partway : Reach exL .datastore ⟨False, True, False, False, False⟩ (exW0 .datastore) :=
  (exW0_reach .datastore).weaken (fun h => False.elim h) (fun h => False.elim h) (fun h => False.elim h)
    (fun h => False.elim h)

theorem exRetried2_reach : Reach exL .datastore ⟨False, True, False, False, False⟩ exRetried2 :=
  .step (.step exW0_partway exRetried_step) (exRetried2_step _)

theorem exRetried_clean : Relation.ReflTransGen (CleanStep exL .datastore ⟨False, True, False, False, False⟩ exDid)
    (exW0 .datastore) exRetried2 := by
  refine .tail (.tail .refl ⟨exRetried_step, .inr (.inl (.inl ?_))⟩) ⟨exRetried2_step _, .inl (exRetried2_step _)⟩
  have : (commit exL .datastore (exW0 .datastore) 0 exWrites none
    [{ nonce := 1, txFails := true }, { nonce := 2 }] false).2.toOption.isSome = true := by decide +kernel
  rcases h : (commit exL .datastore (exW0 .datastore) 0 exWrites none
    [{ nonce := 1, txFails := true }, { nonce := 2 }] false).2 with e | cd
  · rw [h] at this; cases this
  · exact ⟨_, _, _, _, cd, h, rfl⟩

/-- Mirrors are right in spite of the retry. -/
example {s : Mirror Nat} (hs : ∀ m, s exDid = some m ↔ Shows exL .datastore (exW0 .datastore) exDid m) :
    ∃ msgs, List.Forall₂ (fun e msg => processEvent exL exRetried2 none e = .ok msg)
      (readEvents exL exRetried2 (blocksFrom exRetried2 9)).1 msgs ∧
      ∀ m, msgs.foldl Mirror.next s exDid = some m ↔ Shows exL .datastore exRetried2 exDid m :=
  C75_mirror_partial exL_ok (fun h => h) (fun _ _ => ⟨rfl, rfl⟩) (by unfold isDid; decide +kernel)
    exW0_partway exRetried_clean exRetried2_reach (fun _ _ h => h) hs (by
      rw [show (lastSeq (exW0 .datastore).seqs subscribeRepos).getD 0 + 1 = 9 by decide +kernel]
      exact Query.of_perm exRetried2_reach (by decide +kernel) (List.Perm.refl _))

example : (exMirror exRetried2 exDid).map (fun m => ["a", "b", "c", "x"].map fun k => m (key ("coll/" ++ k))) =
    some [some 4, none, some 3, none] := by
  decide +kernel

/-- **What is damaged.** The commit of the second repo failed, and the caller got an exception. But its blocks had been written, so
it is on the firehose, and the mirror of the second repo has a record that the repo does not have. -/
theorem C75_own_false : Reach exL .datastore ⟨False, True, False, False, False⟩ exHurt1 ∧
    (∃ e, (commit exL .datastore (exW1 .datastore) 1 [wr .create "x" (some 5)] none [{ storeFails := true }] false).2 =
      .error e) ∧
    ∃ m, exMirror exHurt1 exDid2 = some m ∧ m (key "coll/x") = some 5 ∧
      ∀ m', Shows exL .datastore exHurt1 exDid2 m' → m' (key "coll/x") = none := by
  refine ⟨exHurt1_reach, ?_, ?_⟩
  · have : (match (commit exL .datastore (exW1 .datastore) 1 [wr .create "x" (some 5)] none [{ storeFails := true }] false).2
      with | .ok _ => false | .error _ => true) = true := by decide +kernel
    generalize (commit exL .datastore (exW1 .datastore) 1 [wr .create "x" (some 5)] none [{ storeFails := true }] false).2 = x
      at this ⊢
    cases x with
    | ok _ => cases this
    | error e => exact ⟨e, rfl⟩
  · have h : (exMirror exHurt1 exDid2).map (fun m => m (key "coll/x")) = some (some 5) := by decide +kernel
    obtain ⟨m, h1, h2⟩ := Option.map_eq_some_iff.1 h
    refine ⟨m, h1, h2, ?_⟩
    rintro m' ⟨w1, s, o, g1, g2, g3⟩
    have hg : (match loadRepo .datastore exHurt1 exDid2 with
      | (w1, .ok (some s)) =>
        match w1.heap[s]? with
        | some o => match getRecord exL w1 o "coll".toList "x".toList with
          | .ok none => true
          | _ => false
        | none => false
      | _ => false) = true := by decide +kernel
    rw [g1] at hg
    dsimp only at hg
    rw [g2] at hg
    dsimp only at hg
    rw [g3.get] at hg
    cases hv : m' ("coll".toList ++ '/' :: "x".toList) with
    | none => exact hv
    | some r => rw [hv] at hg; cases hg

end Arroba.Store
