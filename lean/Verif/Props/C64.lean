import Verif.Props.C53
import Verif.Xrpc.OverlapProofs
import Verif.Firehose.MirrorProofs
import Verif.Props.C43
import Verif.Props.C60
import Verif.Props.C62

/-!
# C64: an imported repo works like any other

The histories of the other theorems include imports (`Step.import`). Here: what `importRepo` does is such a step, if the
CAR file is sound and complete (`Whole`), as those are that `getRepo` gives. So everything that is proved for repos is
true for imported ones, unless it says otherwise.
-/

namespace Arroba.Xrpc

open Arroba.Store Arroba.Tree

variable {C R : Type} [DecidableEq C] {L : Lib C R} {Z : Nat} {be be2 : Backend} {al : Allow}
  {w w2 : World C R} {cfg cfg2 : Config R} {ord : Nat → List (Raw C R) → List (Raw C R)} {g : Gate}
  {q : Key} {d : Did} {out : Outside C}

/-! ### Helper lemmas -/

theorem checkHead_reach (hr : Reach L be al w) (v : Val C R) : Reach L be al (checkHead be out w v).1 := by
  unfold checkHead
  cases v with
  | commit co =>
    dsimp only
    have : Reach L be al (loadRepo be w co.did).1 := .step hr (.loadRepo co.did)
    split <;> rename_i he <;> rw [he] at this
    · exact this
    · exact this
    · split
      · exact this
      · split
        · exact this
        · split <;> exact this
  | _ => exact hr

theorem importLoop_reach (root : C) : ∀ (bs : List (C × Val C R)) (w : World C R) (st : Importing C R),
    Reach L be al w → Reach L be al (importLoop be out root w st bs).1
  | [], _, _, hr => hr
  | (c, v) :: rest, w, st, hr => by
    unfold importLoop
    dsimp only
    split
    · have := checkHead_reach (out := out) hr v
      split <;> rename_i he <;> rw [he] at this
      · exact this
      · exact importLoop_reach root rest _ _ this
    · exact importLoop_reach root rest _ _ hr

/-- A bound that some key attains. -/
theorem Lib.OK.tight {L : Lib C R} (hL : L.OK Z) : ∃ k, L.OK (L.zeros k) := by
  suffices ∃ k, ∀ k', L.zeros k' ≤ L.zeros k by
    obtain ⟨k, hk⟩ := this
    exact ⟨k, hL.inj, hk, by have := hL.fuel; have := hL.zeros k; omega, hL.touch⟩
  by_contra h
  push Not at h
  have : ∀ n, ∃ k, n ≤ L.zeros k := by
    intro n
    induction n with
    | zero => exact ⟨[], Nat.zero_le _⟩
    | succ n ih =>
      obtain ⟨k, hk⟩ := ih
      obtain ⟨k', hk'⟩ := h k
      exact ⟨k', by omega⟩
  obtain ⟨k, hk⟩ := this (Z + 1)
  have := hL.zeros k
  omega

/-- The blocks of a repo are sound and complete. -/
theorem inside_whole (hL : L.OK Z) (ht : ¬ al.torn) (hr : Reach L be al w) {head : C} {hb : Block C R} {co : Commit C}
    (h1 : w.read head = some hb) (h2 : hb.val = .commit co) {new : List (C × Val C R)}
    (hnew : ∀ c v, (c, v) ∈ new ↔ Inside w head c ∧ ∃ b, w.read c = some b ∧ b.val = v) : Whole L new ∧ ∀ c co', (c, .commit co') ∈ new → co' = co := by
  obtain ⟨kz, hL'⟩ := Lib.OK.tight hL
  have hc := (hr.inv hL' ht).1.core
  obtain ⟨m, t, t1, t2, t3⟩ := hc.blocks.root h1 h2
  obtain ⟨l, hl, hwf⟩ := t1.wf
  have hval : ∀ s ∈ nodes t, ∀ e ∈ (nodeOf L.env.H s).e, ∃ b r, w.read e.v = some b ∧
      b.val = .record r := by
    intro s hs e he
    obtain ⟨k, hk⟩ := ser_vals he
    have hk' := (mem_leaves_iff t1.sorted _ _).1 (leaves_of_node hs _ hk)
    rw [t1.map] at hk'
    obtain ⟨r, hr, hr'⟩ := Option.map_eq_some_iff.1 hk'
    obtain ⟨b, hb1, hb2⟩ := t1.recs k r hr
    exact ⟨b, r, by rw [← hr']; exact hb1, hb2⟩
  have hins := inside_iff (L := L) h1 h2 t3.symm t2 hwf hval
  have hcases : ∀ c v, (c, v) ∈ new → (c = head ∧ v = .commit co) ∨
      (∃ s ∈ nodes t, c = cidOf L.env.H s ∧ v = .node (nodeOf L.env.H s)) ∨ ∃ r, v = .record r := by
    intro c v hcv
    obtain ⟨hi, b, hb, rfl⟩ := (hnew c v).1 hcv
    rcases (hins c).1 hi with rfl | ⟨s, hs, rfl | ⟨e, he, rfl⟩⟩
    · rw [h1] at hb; cases hb; exact .inl ⟨rfl, h2⟩
    · obtain ⟨b', g1, g2⟩ := stored_read t2 hs
      rw [g1] at hb; cases hb; exact .inr (.inl ⟨s, hs, rfl, g2⟩)
    · obtain ⟨b', r, g1, g2⟩ := hval s hs e he
      rw [g1] at hb; cases hb; exact .inr (.inr ⟨r, g2⟩)
  have hnode : ∀ {c x}, (c, .node x) ∈ new → ∀ c' ∈ x.children, ∃ d', (c', .node d') ∈ new := by
    intro c x hcx c' hc'
    obtain ⟨hi, b, hb, hbv⟩ := (hnew _ _).1 hcx
    have hn : nodeIn w.blocks c = some x := by
      unfold nodeIn
      rw [show dictGet w.blocks c = some b from hb]
      obtain ⟨val, _, _, _⟩ := b
      dsimp only at hbv
      subst hbv
      rfl
    have := hc.blocks.store.closed c x hn c' hc'
    cases hn' : nodeIn w.blocks c' with
    | none => rw [hn'] at this; cases this
    | some x' =>
      obtain ⟨b', hb', hbv'⟩ : ∃ b', w.read c' = some b' ∧ b'.val = .node x' := by
        unfold nodeIn at hn'
        unfold World.read
        split at hn'
        · rename_i he
          cases hn'
          exact ⟨_, he, rfl⟩
        · cases hn'
      refine ⟨x', (hnew _ _).2 ⟨?_, b', hb', hbv'⟩⟩
      unfold NodeData.children at hc'
      rcases List.mem_append.1 hc' with hx | hx
      · exact .left hi hb hbv (by simpa using hx)
      · obtain ⟨e, he, hex⟩ := List.mem_filterMap.1 hx
        exact .tree hi hb hbv he hex
  refine ⟨⟨?_, ?_, fun c x hcx => hnode hcx, ?_, ?_⟩, ?_⟩
  · rintro ⟨c, v⟩ hx
    obtain ⟨_, b', j1, rfl⟩ := (hnew c v).1 hx
    exact hr.addressed c b' j1
  · rintro ⟨c, v⟩ hx e
    rcases hcases c v hx with ⟨_, rfl⟩ | ⟨s, _, _, rfl⟩ | ⟨r, rfl⟩ <;> simp
  · intro c x hcx e he
    rcases hcases _ _ hcx with ⟨_, h⟩ | ⟨s, hs, rfl, h⟩ | ⟨r, h⟩
    · cases h
    · cases h
      obtain ⟨b, r, g1, g2⟩ := hval s hs e he
      exact ⟨r, (hnew _ _).2 ⟨(hins _).2 (.inr ⟨s, hs, .inr ⟨e, he, rfl⟩⟩), b, g1, g2⟩⟩
    · cases h
  · intro c co' hcx
    rcases hcases _ _ hcx with ⟨rfl, h⟩ | ⟨s, hs, rfl, h⟩ | ⟨r, h⟩
    · cases h
      refine ⟨hc.blocks.did h1 h2, ⟨l, t, .inr ⟨kz, hl⟩, hwf, t1.sorted, t1.valid, t3⟩, nodeOf L.env.H t, ?_⟩
      have hself : t ∈ nodes t := by simp [nodes]
      rw [← t3]
      exact (hnew _ _).2 ⟨(hins _).2 (.inr ⟨t, hself, .inl rfl⟩), stored_read t2 hself⟩
    · cases h
    · cases h
  · intro c co' hcx
    rcases hcases _ _ hcx with ⟨rfl, h⟩ | ⟨s, hs, rfl, h⟩ | ⟨r, h⟩ <;> cases h
    rfl

/-! ### The theorems -/

/-- The conditions on a CAR file with this root: it is sound and complete, the commits in it are none that this server
will make, and the head is none that it has made. -/
structure Sound (L : Lib C R) (w : World C R) (car : Car C R) (root : C) : Prop where
  whole : Whole L car.blocks
  aliens : Aliens L w car.blocks
  head : ∀ b, w.read root = some b → b.seq = 0

/-- **C64 (histories), partial.** Whatever `importRepo` is given and however it ends, the state that it leaves is one of those
that the other theorems are about.

Partial: a CAR file that is imported is `Sound` (for others, see `C46_incomplete_false`), and the DID document doesn't
have a DID for a handle. -/
theorem C64_histories_partial (hL : L.OK Z) (hi : al.imports) (hr : Reach L be al w) {header : Option Key}
    {file : Except Err (Car C R)} (hcid : ∀ car, file = .ok car → TrueCids L car)
    (hs : ∀ car root co doc, file = .ok car → Importable be out w car root co doc →
      Sound L w car root ∧ ∀ h, doc.handle = some h → ¬ isDid h) :
    Reach L be al (importRepo cfg L be out w header file).1 := by
  by_cases himp : auth cfg header = .ok () ∧ ∃ car root co doc, file = .ok car ∧ Importable be out w car root co doc
  · obtain ⟨ha, car, root, co, doc, rfl, himp⟩ := himp
    obtain ⟨hs, hh⟩ := hs car root co doc rfl himp
    rw [import_eq hL hr ha (hcid _ rfl) himp]
    have hhash : L.hash (.commit co) = root := hcid _ rfl _ himp.head
    refine .step hr (.import co doc.handle out.newKey car.blocks hi hs.whole (by rw [hhash]; exact himp.head) ?_ hh
      hs.aliens (fun b hb => hs.head b (by rw [← hhash]; exact hb)))
    rcases loadRepo_answers (hr.plain hL).1.core himp.ok.did with ⟨h1, _⟩ | ⟨d, st, _, _, _, h1, _⟩
    · rw [h1]
    · exact absurd h1 (himp.ok.fresh d st)
  · unfold importRepo
    split
    · exact hr
    · rename_i ha
      split
      · exact hr
      · rename_i car
        split
        · exact hr
        · rename_i root rest hroots
          have := importLoop_reach (L := L) (al := al) (out := out) root car.blocks w ⟨[], none⟩ hr
          split
          · rename_i he; rw [he] at this; exact this
          · rename_i w' st he
            rw [he] at this
            split
            · exact this
            · rename_i co doc hst
              obtain ⟨w1, e, h1, _⟩ := C46_refused (cfg := cfg) (out := out) (header := header) hL hr hcid
                (fun car root co doc hf hc => himp ⟨ha, car, root, co, doc, hf, hc⟩)
              unfold importRepo at h1
              rw [ha] at h1
              dsimp only at h1
              rw [hroots] at h1
              dsimp only at h1
              rw [he] at h1
              dsimp only at h1
              rw [hst] at h1
              dsimp only at h1
              rw [importInto_eq] at h1
              cases be <;> cases h1

theorem whole_sign {sg : Nat → Commit C → Nat → List Nat} {new : List (C × Val C R)}
    (h : Whole { L with sign := sg } new) : Whole L new :=
  ⟨h.cids, h.plain, h.children, h.records, h.commits⟩

theorem commitShows_sign {sg : Nat → Commit C → Nat → List Nat} {c : C} {m : Key → Option R}
    (h : CommitShows { L with sign := sg } w c m) : CommitShows L w c m := by
  obtain ⟨w1, r, o, h1, h2, h3⟩ := h
  exact ⟨w1, r, o, h1, h2, h3.paths, h3.get, h3.contents⟩

/-- **C64 (moving), partial.** An active repo is exported from one server, with whatever signing keys (`sg`), and
imported on another. Then it has the same head and records there, and the state of that server is one of those that the
other theorems are about, with imports.

Partial: in the same way as C53, and the DID document doesn't have a DID for a handle; moreover the head commit isn't one
that this server will make or has made. -/
theorem C64_move_partial {sg : Nat → Commit C → Nat → List Nat} (hL : L.OK Z)
    (hr : Reach { L with sign := sg } be .untorn w) (hord : ∀ f l, (ord f l).Perm l) (hg : g.closed = false)
    (hn : Names cfg be w q d) {m : Key → Option R} (hm : Shows { L with sign := sg } be w d m) (hi : al.imports)
    (hr2 : Reach L be2 al w2) {header : Option Key} (ha : auth cfg2 header = .ok ()) {doc : Doc} {k : Nat}
    (hfresh : ∀ d' st, ¬ Answers be2 w2 d d' st) (hres : out.resolve d = .ok doc)
    (hkey : doc.signingKey = some k) (hh : ∀ h, doc.handle = some h → ¬ isDid h)
    (hhead : ∀ head b co, readHead { L with sign := sg } be w d = some head → w.read head = some b →
      b.val = .commit co → out.verifies co k = true ∧ (∀ b, w2.read head = some b → b.seq = 0) ∧
      Alien L ((dictGet w2.seqs subscribeRepos).getD 1 - 1) co) :
    ∃ w' car w2', getRepo cfg { L with sign := sg } be ord g w q none = (w', .ok car) ∧
      importRepo cfg2 L be2 out w2 header (.ok car) = (w2', .ok ()) ∧ Reach L be2 al w2' ∧
      Shows L be2 w2' d m ∧ readHead L be2 w2' d = readHead { L with sign := sg } be w d := by
  have hL1 : ({ L with sign := sg } : Lib C R).OK Z := ⟨hL.inj, hL.zeros, hL.fuel, hL.touch⟩
  have hd := hn.isDid hL1 hr
  have hc := (hr.inv hL1 (fun h => h)).1.core
  obtain ⟨w', head, hv, rest, h1, h2, h3, h4, h5⟩ := C17_export_partial hL1 hr hord hg hn
  obtain ⟨c, b, co, i1, i2, i3, i4, i5⟩ := (records_iff hL1 hc hd m).1 ((shows_iff hL1 hc hd).1 hm)
  rw [← readHead_eq hL1 hc hd, h3] at i1
  cases i1
  obtain ⟨s1, s2, s3⟩ := hhead _ b co h3 i2 i3
  have hcid : TrueCids L ⟨[head], (head, hv) :: rest⟩ := by
    rintro ⟨c, v⟩ hx
    obtain ⟨_, b', j1, rfl⟩ := (h5 c v).1 hx
    exact hr.addressed c b' j1
  have himp : Importable be2 out w2 ⟨[head], (head, hv) :: rest⟩ head co doc := by
    refine ⟨rfl, (h5 _ _).2 ⟨.head, b, i2, i3⟩, ?_⟩
    subst i4
    exact ⟨isDid_ne_nil hd, hfresh, hres, k, hkey, s1⟩
  have hshow : CommitShows L (Car.world ⟨[head], (head, hv) :: rest⟩) head m :=
    commitShows_sign (car_shows hL1 hc i2 i3 i5 (car := ⟨[head], (head, hv) :: rest⟩) h4
      (fun c v a a' => (h5 c v).2 ⟨a, a'⟩))
  obtain ⟨hwhole, hone⟩ := inside_whole hL1 (fun h => h) hr i2 i3 h5
  obtain ⟨w2', j1, j2⟩ := C46_imported (cfg := cfg2) hL hr2 ha hcid himp
  have j3 := C46_records_partial (cfg := cfg2) hL hr2 ha hcid himp hshow
  rw [j1, i4] at j3
  have j4 := C64_histories_partial (cfg := cfg2) (header := header) (out := out) hL hi hr2
    (file := .ok ⟨[head], (head, hv) :: rest⟩) (fun car hcar => by cases hcar; exact hcid)
    (fun car root co' doc' hcar himp' => by
      cases hcar
      obtain rfl : head = root := Option.some.inj himp'.first
      obtain rfl : co = co' := by
        have e1 := hcid _ himp.head
        have e2 := hcid _ himp'.head
        have := hL.inj (e1.trans e2.symm)
        cases this
        rfl
      obtain rfl : doc = doc' := Except.ok.inj (himp.ok.resolved.symm.trans himp'.ok.resolved)
      refine ⟨⟨whole_sign hwhole, ?_, s2⟩, hh⟩
      intro c co' hc' _
      rw [hone c co' hc']
      exact s3)
  rw [j1] at j4
  refine ⟨w', _, w2', h1, j1, j4, j3, ?_⟩
  obtain ⟨o, b', ⟨w3, r, k1, k2⟩, _, k3, k4, _⟩ := j2.repo
  rw [i4] at k1
  unfold readHead at h3 ⊢
  rw [k1, h3]
  dsimp only
  rw [k2, Option.bind_some, k3, Option.map_some, k4]

theorem inside_same (hinj : Function.Injective L.hash) (ha : Addressed L w.blocks) (ha2 : Addressed L w2.blocks)
    {head : C} (hall : AllThere w2 (Inside w2 head)) {c : C} (h : Inside w head c) : Inside w2 head c := by
  have same : ∀ {c b}, Inside w2 head c → w.read c = some b → ∃ b2, w2.read c = some b2 ∧ b2.val = b.val := by
    intro c b hi hb
    obtain ⟨b2, hb2⟩ := hall.there c hi
    exact ⟨b2, hb2, hinj ((ha2 _ _ hb2).trans (ha _ _ hb).symm)⟩
  induction h with
  | head => exact .head
  | root h hv =>
    obtain ⟨b2, g1, g2⟩ := same .head h
    exact .root g1 (g2.trans hv)
  | left _ h hv hc ih =>
    obtain ⟨b2, g1, g2⟩ := same ih h
    exact .left ih g1 (g2.trans hv) hc
  | tree _ h hv he hc ih =>
    obtain ⟨b2, g1, g2⟩ := same ih h
    exact .tree ih g1 (g2.trans hv) he hc
  | record _ h hv he ih =>
    obtain ⟨b2, g1, g2⟩ := same ih h
    exact .record ih g1 (g2.trans hv) he

/-- **C64 (exporting again), partial.** Two servers, or one at two times, on which a repo has the same head: they export
the same blocks. In particular an imported repo is exported just as it was on the server it came from, once it is
active and until it is written to.

Partial: in the same way as C17. -/
theorem C64_export_again_partial {sg sg2 : Nat → Commit C → Nat → List Nat} (hL : L.OK Z)
    (hr : Reach { L with sign := sg } be .untorn w) (hr2 : Reach { L with sign := sg2 } be2 .untorn w2)
    (hord : ∀ f l, (ord f l).Perm l) (hg : g.closed = false) {q2 : Key} (hn : Names cfg be w q d)
    (hn2 : Names cfg2 be2 w2 q2 d)
    (hh : readHead { L with sign := sg2 } be2 w2 d = readHead { L with sign := sg } be w d) :
    ∃ w' w2' car car2, getRepo cfg { L with sign := sg } be ord g w q none = (w', .ok car) ∧
      getRepo cfg2 { L with sign := sg2 } be2 ord g w2 q2 none = (w2', .ok car2) ∧
      car2.roots = car.roots ∧ car2.blocks.Perm car.blocks := by
  have hL1 : ({ L with sign := sg } : Lib C R).OK Z := ⟨hL.inj, hL.zeros, hL.fuel, hL.touch⟩
  have hL2 : ({ L with sign := sg2 } : Lib C R).OK Z := ⟨hL.inj, hL.zeros, hL.fuel, hL.touch⟩
  have hd := hn.isDid hL1 hr
  have hc := (hr.inv hL1 (fun h => h)).1.core
  have hc2 := (hr2.inv hL2 (fun h => h)).1.core
  obtain ⟨w', head, hv, rest, h1, _, h3, h4, h5⟩ := C17_export_partial hL1 hr hord hg hn
  obtain ⟨w2', head2, hv2, rest2, k1, _, k3, k4, k5⟩ := C17_export_partial hL2 hr2 hord hg hn2
  rw [k3, h3] at hh
  cases hh
  refine ⟨w', w2', _, _, h1, k1, rfl, ?_⟩
  have nodup : ∀ {l : List (C × Val C R)}, (l.map (·.1)).Nodup → l.Nodup := fun h => List.Nodup.of_map _ h
  rw [List.perm_ext_iff_of_nodup (nodup (l := (head, hv2) :: rest2) k4) (nodup (l := (head, hv) :: rest) h4)]
  rintro ⟨c, v⟩
  rw [h5, k5]
  rw [readHead_eq hL1 hc hd] at h3
  rw [readHead_eq hL2 hc2 hd] at k3
  obtain ⟨b, co, i1, i2, _⟩ := head_root hc h3
  obtain ⟨b2, co2, j1, j2, _⟩ := head_root hc2 k3
  have a1 := inside_there hc i1 i2
  have a2 := inside_there hc2 j1 j2
  have ha : Addressed L w.blocks := fun c b h => hr.addressed c b h
  have ha2 : Addressed L w2.blocks := fun c b h => hr2.addressed c b h
  constructor
  · rintro ⟨hi, x, hx, rfl⟩
    have hi' := inside_same hL.inj ha2 ha a1 hi
    obtain ⟨y, hy⟩ := a1.there c hi'
    exact ⟨hi', y, hy, hL.inj ((ha _ _ hy).trans (ha2 _ _ hx).symm)⟩
  · rintro ⟨hi, x, hx, rfl⟩
    have hi' := inside_same hL.inj ha ha2 a2 hi
    obtain ⟨y, hy⟩ := a2.there c hi'
    exact ⟨hi', y, hy, hL.inj ((ha2 _ _ hy).trans (ha _ _ hx).symm)⟩

/-! ### A case that meets the hypotheses -/

/-- Another server: its signatures look different. -/
def exL2 : Lib SC Nat := { exL with sign := fun key _ nonce => [key, nonce, 0] }

theorem exL2_ok : exL2.OK 128 := ⟨exL_ok.inj, exL_ok.zeros, exL_ok.fuel, exL_ok.touch⟩

/-- Alice's repo, exported, and imported there. -/
def exExport : Car SC Nat :=
  match (getRepo exCfg exL .datastore (fun _ l => l) exGate (exW1 .datastore) exHandle none).2 with
  | .ok car => car
  | .error _ => ⟨[], []⟩

def exArrival (be : Backend) : ExWorld := (importRepo exCfg exL2 be exElsewhere .empty exHeader (.ok exExport)).1

/-- Histories with imports in which nothing goes wrong. -/
def exMoving : Allow := ⟨False, False, True, False, True⟩

theorem exArrival_reach (be : Backend) : Reach exL2 be exMoving (exArrival be) ∧
    (∃ m, Shows exL .datastore (exW1 .datastore) exDid m ∧ Shows exL2 be (exArrival be) exDid m) ∧
    readHead exL2 be (exArrival be) exDid = readHead exL .datastore (exW1 .datastore) exDid := by
  have hr : Reach exL .datastore .untorn (exW1 .datastore) := (exW1_reach .datastore).weaken (al' := .untorn)
    (by exact fun h => h) (fun _ => trivial) (fun _ => trivial) (fun _ => trivial)
  obtain ⟨m, hm⟩ : ∃ m, Shows exL .datastore (exW1 .datastore) exDid m := by
    have hd := (exNames .datastore).isDid exL_ok hr
    obtain ⟨_, head, _, _, _, _, h, _⟩ := C17_export_partial exL_ok hr (fun _ _ => .refl _)
      (g := exGate) rfl (exNames .datastore) (ord := fun _ l => l)
    have hc := (hr.inv exL_ok (fun h => h)).1.core
    rw [readHead_eq exL_ok hc hd] at h
    exact stored_shows exL_ok hc hd h
  obtain ⟨w', car, w2', h1, h2, h3, h4, h5⟩ := C64_move_partial (L := exL2) (sg := exL.sign) (cfg2 := exCfg) (be2 := be)
    (out := exElsewhere) (al := exMoving) exL2_ok hr (ord := fun _ l => l) (fun _ _ => .refl _)
    (g := exGate) rfl (exNames .datastore) hm trivial .empty (header := exHeader) (by rfl) (by
      intro d' st h
      cases be with
      | memory => obtain ⟨r, o, h, _⟩ := h; cases h
      | datastore => obtain ⟨row, h, _⟩ := h; cases h) rfl rfl (by
        rintro h ⟨⟩; unfold isDid; decide +kernel) (fun head b co e1 e2 e3 => by
        refine ⟨rfl, fun b h => (nomatch h), Or.inr fun key nonce hs => ?_⟩
        have h6 : (match (readHead exL .datastore (exW1 .datastore) exDid).bind (exW1 .datastore).read with
          | some ⟨.commit co, _, _, _⟩ => some co.sig.length
          | _ => none) = some 2 := by decide +kernel
        have e1' : readHead exL .datastore (exW1 .datastore) exDid = some head := e1
        rw [e1', Option.bind_some, e2] at h6
        obtain ⟨val, _, _, _⟩ := b
        dsimp only at e3
        subst e3
        dsimp only at h6
        rw [hs] at h6
        simp [exL2] at h6)
  have he : exExport = car := by
    unfold exExport
    rw [show getRepo exCfg exL .datastore (fun _ l => l) exGate (exW1 .datastore) exHandle none = (w', .ok car) from h1]
  have ha : exArrival be = w2' := by unfold exArrival; rw [he, h2]
  rw [ha]
  exact ⟨h3, ⟨m, hm, h4⟩, h5⟩

/-- It is activated. -/
def exActive (be : Backend) : ExWorld :=
  match loadRepo be (exArrival be) exDid with
  | (w, .ok (some r)) => (activateRepo exL2 be w r 300).1
  | (w, _) => w

theorem exActive_reach (be : Backend) : Reach exL2 be exMoving (exActive be) := by
  have h : Reach exL2 be exMoving (loadRepo be (exArrival be) exDid).1 :=
    .step (exArrival_reach be).1 (.loadRepo exDid)
  unfold exActive
  split <;> rename_i he <;> rw [he] at h
  · exact .step h (.activate _ 300)
  · exact h

/-- The imported repo can be written to: there are three records in it now. -/
example (be : Backend) :
    ((loadRepo be (exActive be) exDid).2.toOption.join.map fun r =>
      let res := commit exL2 be (loadRepo be (exActive be) exDid).1 r [wr .create "z" (some 5)] none lucky false
      (res.2.isOk, ["a", "b", "z", "y"].map fun k => (readVia exL2 be res.1 exDid "coll".toList k.toList).toOption)) =
    some (true, [some (some (.record 1)), some (some (.record 2)), some (some (.record 5)), some none]) := by
  cases be <;> decide +kernel

/-- And exported again: it has the same six blocks. -/
example (be : Backend) : ((getRepo exCfg exL2 be (fun _ l => l) exGate (exActive be) exHandle none).2.toOption.map
      fun car => (car.blocks.length, car.blocks.all fun x => decide (x ∈ exExport.blocks))) = some (6, true) := by
  cases be <;> decide +kernel

/-! ### What doesn't work -/

/-- **False: `listRepos`.** For imported repos it gives a `rev` that isn't the one of the head commit: it is made from the
sequence number 0. -/
theorem C64_list_false (be : Backend) : Reach exL2 be exMoving (exActive be) ∧
    (listRepos exL2 be (exActive be) 10 none).toOption.map (fun p => p.items.map fun x => (x.did, x.rev)) =
      some [(exDid, "2222222222222".toList)] ∧
    revOf exL2 be (exActive be) exDid = some "2222222222d22".toList := by
  refine ⟨exActive_reach be, ?_, ?_⟩ <;> cases be <;> decide +kernel

/-- The messages from `start` on, if there is one for everything. -/
def messagesFrom (L : Lib SC Nat) (w : ExWorld) (start : Nat) : Option (List (Message SC Nat)) :=
  (readEvents L w (blocksFrom w start)).1.mapM fun e => (processEvent L w none e).toOption

/-- **False: mirrors.** Who reads the firehose from the start doesn't get the records of an imported repo (see C60): they
aren't in any message. -/
theorem C64_mirror_false (be : Backend) : Reach exL2 be exMoving (exActive be) ∧
    ((messagesFrom exL2 (exActive be) 1).map fun ms => (ms.length, ((ms.foldl Mirror.next fun _ => none) exDid).isSome)) =
      some (1, false) ∧
    readVia exL2 be (exActive be) exDid "coll".toList "a".toList = .ok (some (.record 1)) := by
  refine ⟨exActive_reach be, ?_, ?_⟩
  · cases be
    · decide +kernel
    · decide +kernel
  · cases be <;> decide +kernel

end Arroba.Xrpc
