import Verif.Storage.EffectProofs
import Verif.Storage.Example

/-! # C23: a commit applies exactly the requested writes -/

namespace Arroba.Store

variable {C R : Type} [DecidableEq C]

section
variable {L : Lib C R} {Z : Nat} {be : Backend} {al : Allow} {w : World C R}

/-- **C23 (effect).** If `commit(repo, writes)` succeeds in a reachable state, the records of the
repo are afterwards exactly the earlier ones with the writes applied in order, as read through
`load_repo` and through the caller's own `Repo` object, by `get_record` and by `get_contents`; and
the records of all other repos are what they were.

Partial: for `MemoryStorage` histories in which an earlier failed multi-write commit left a
modified tree behind are excluded (`¬ al.torn`); see `C23_memory_false`. -/
theorem C23_effect_partial (hL : L.OK Z) (ht : ¬ al.torn) (hr : Reach L be al w) {r : Ref}
    {o : RepoObj C R} {d : Did} (ho : w.heap[r]? = some o) (hd : o.did = some d)
    {m : Key → Option R} (hm : Shows L be w d m) {writes : List (Write R)} {xs : List Luck}
    {cbFails : Bool} {w' : World C R} {cd : CommitData C R}
    (hok : commit L be w r writes none xs cbFails = (w', .ok cd)) :
    ∃ m', specWrites L m writes = .ok m' ∧ Shows L be w' d m' ∧
      (∃ o', w'.heap[r]? = some o' ∧ ObjShows L w' o' m') ∧
      ∀ d', isDid d' → d' ≠ d → ∀ m₂, Shows L be w' d' m₂ ↔ Shows L be w d' m₂ := by
  obtain ⟨hw, hl⟩ := hr.inv hL ht
  rcases commit_cases hL (be := be) hw r writes xs cbFails with
    ⟨e, w1', w1, wk, h1, _⟩ | ⟨w1', w1, wk, x, did, m0, m', s, n, cd', co, h1, h2, h3, h4, h5, h6, _⟩
  · rw [hok] at h1; cases h1
  · rw [hok] at h1
    obtain ⟨rfl, -⟩ := Prod.mk.inj h1
    have hdid := h6.isDid h4.core
    -- the caller's object still has the same DID
    have hdd : d = did := by
      obtain ⟨o', g1, g2, _⟩ := h6.caller
      rcases h4.heap r with h | ⟨_, _, o2, n2, b2, k1, k2, k3⟩
      · rw [h, show w.alloc.2.heap[r]? = w.heap[r]? from rfl, ho] at g1
        cases g1
        rw [hd] at g2
        exact Option.some.inj g2
      · rw [show w.alloc.2.heap[r]? = w.heap[r]? from rfl, ho] at k1
        cases k1
        rw [k2] at g1
        cases g1
        rw [k3, hd] at g2
        exact Option.some.inj g2
    subst hdd
    have hc1 := h6.core h4.core
    have hmm := hm.unique hL hw.core hdid ((h4.shows hL hw hdid _).1 (h6.before hL h4.core))
    subst hmm
    refine ⟨m', h6.spec, (shows_log hL hc1 h2 hdid m').2 (h6.after hL h4.core), ?_, ?_⟩
    · obtain ⟨o', g1, _, _, g2⟩ := h6.object hL h4.core
      obtain ⟨l, rfl⟩ := h2
      exact ⟨o', g1, ObjShows.congr (w := w1) (w' := { w1 with log := l }) rfl g2⟩
    · intro d' hd' hne m₂
      rw [shows_log hL hc1 h2 hd' m₂, ← h4.shows hL hw hd' m₂]
      exact shows_of_head hL h4.core hc1 hd' (by rw [h6.headOf h4.core, if_neg hne]) h6.grows m₂

/-- **C23 (effect, Datastore).** For `DatastoreStorage` the effect holds in every reachable state,
whatever failed before. -/
theorem C23_effect_datastore (hL : L.OK Z) (hr : Reach L .datastore al w) {r : Ref}
    {o : RepoObj C R} {d : Did} (ho : w.heap[r]? = some o) (hd : o.did = some d)
    {m : Key → Option R} (hm : Shows L .datastore w d m) {writes : List (Write R)} {xs : List Luck}
    {cbFails : Bool} {w' : World C R} {cd : CommitData C R}
    (hok : commit L .datastore w r writes none xs cbFails = (w', .ok cd)) :
    ∃ m', specWrites L m writes = .ok m' ∧ Shows L .datastore w' d m' ∧
      (∃ o', w'.heap[r]? = some o' ∧ ObjShows L w' o' m') ∧
      ∀ d', isDid d' → d' ≠ d → ∀ m₂, Shows L .datastore w' d' m₂ ↔ Shows L .datastore w d' m₂ :=
  C23_effect_partial hL (fun h => h) hr.datastore ho hd hm hok

/-- **C23 (outcome).** When nothing fails outside the code, a commit of at most 200 writes to an
active, stored repo succeeds if and only if the writes can be applied in order (each create of an
absent valid path, each update or delete of a present path, each record valid and at most
1,000,000 bytes); otherwise it raises the exception of the first write that cannot. (Sequence
numbers beyond `32 ^ 11` cannot be encoded as TIDs.) -/
theorem C23_outcome_partial (hL : L.OK Z) (ht : ¬ al.torn) (hr : Reach L be al w) {r : Ref}
    {o : RepoObj C R} {d : Did} (ho : w.heap[r]? = some o) (hd : o.did = some d)
    (hact : o.status = none) {m : Key → Option R} (hm : Shows L be w d m)
    {writes : List (Write R)} (hlen : writes.length ≤ 200) (hseq : w.alloc.1 < 32 ^ 11)
    {xs : List Luck} (hxs : xs ≠ []) (hx : ∀ x ∈ xs, x.signFails = false ∧ x.writeFails = false ∧
      x.storeFails = false ∧ x.txFails = false) :
    match specWrites L m writes with
    | .ok _ => ∃ w' cd, commit L be w r writes none xs false = (w', .ok cd)
    | .error e => ∃ w', commit L be w r writes none xs false = (w', .error e) := by
  obtain ⟨hw, hl⟩ := hr.inv hL ht
  have hda : isDid d := by
    obtain ⟨m0, hm0⟩ := hw.core.heap r o ho
    exact hm0.isDid hw.core.blocks hd
  have hsq := hw.alloc.2.1
  have horderly : ∀ x ∈ xs, x.storeFails = false ∧ x.txFails = false :=
    fun x h => (hx x h).2.2
  rcases commit_cases hL (be := be) hw r writes xs false with
    ⟨e, w', w1, wk, h1, h2, h3, h4, h5, h6, h7, h8⟩ |
    ⟨w', w1, wk, x, did, m0, m', s, n, cd, co, h1, h2, h3, h4, h5, h6, _⟩
  · have hwk := (h6 horderly).1
    subst hwk
    rcases h8 with h8 | ⟨_, x, hxm, h8⟩ | h8 | ⟨x, hxm, o', ho', hf⟩
    · exact absurd h8 hxs
    · rw [(hx x hxm).2.2.2] at h8; cases h8
    · rw [ho] at h8; cases h8
    · rw [show w.alloc.2.heap[r]? = w.heap[r]? from rfl, ho] at ho'
      cases ho'
      cases hf with
      | inactive h => exact absurd hact h
      | noDid h => rw [hd] at h; cases h
      | missing d' h h' =>
        rw [hd] at h
        cases h
        obtain ⟨w0, s0, o0, k1, _⟩ := (h4.shows hL hw hda m).2 hm
        rw [h'] at k1
        cases k1
      | many h => omega
      | bad d' m' e h h' h'' =>
        rw [hd] at h
        cases h
        have h9 := (h4.shows hL hw hda m').1 ((shows_iff hL h4.core hda).2 h')
        have := hm.unique hL hw.core hda h9
        subst this
        rw [h'']
        exact ⟨w', h1⟩
      | sign h => rw [(hx x hxm).1] at h; cases h
      | tid h => rw [← hsq] at h; omega
      | io h h' => rw [(hx x hxm).2.1, (hx x hxm).2.2.1] at h'; simp at h'
  · have hc : ¬ (w.cb r && false) = true := by simp
    rw [if_neg hc] at h1
    obtain ⟨m', g1, _⟩ := C23_effect_partial hL ht hr ho hd hm h1
    rw [g1]
    exact ⟨w', cd, h1⟩

/-! ### Histories

The records of all repos as one abstract state; every API call is one of three abstract steps. -/

/-- What API calls may do to the records: nothing, create an empty repo, apply a list of writes
to one repo, or (if there are imports) add a new repo with some records. -/
inductive SpecStep (L : Lib C R) (imports : Prop) :
    (Did → Option (Key → Option R)) → (Did → Option (Key → Option R)) → Prop
  | none (A) : SpecStep L imports A A
  | create (A) (d : Did) : SpecStep L imports A (Function.update A d (some fun _ => Option.none))
  | commit (A) (d : Did) (m m' : Key → Option R) (writes : List (Write R)) (h : A d = some m)
      (h' : specWrites L m writes = .ok m') : SpecStep L imports A (Function.update A d (some m'))
  | import (A) (d : Did) (m : Key → Option R) (hi : imports) (h : A d = Option.none) :
      SpecStep L imports A (Function.update A d (some m))

/-- `A` is what the stored repos show. -/
def Abstracts (L : Lib C R) (be : Backend) (w : World C R) (A : Did → Option (Key → Option R)) :
    Prop := ∀ d, isDid d → ∀ m, A d = some m ↔ Shows L be w d m

/-- **C23 (refinement).** Every API call, successful or not, changes the records of the stored
repos by one of the abstract steps. -/
theorem C23_refinement_partial (hL : L.OK Z) (ht : ¬ al.torn) (hr : Reach L be al w)
    {w' : World C R} (hs : Step L be al w w') {A : Did → Option (Key → Option R)}
    (hA : Abstracts L be w A) : ∃ A', SpecStep L al.imports A A' ∧ Abstracts L be w' A' := by
  obtain ⟨hw, hl⟩ := hr.inv hL ht
  obtain ⟨hw', hl'⟩ := (Reach.step hr hs).inv hL ht
  obtain ⟨hg, he⟩ := hs.effect hL hw hl
  have keep : ∀ {d}, isDid d → headOf L be w' d = headOf L be w d → ∀ m,
      Shows L be w' d m ↔ A d = some m := fun hd hh m => by
    rw [hA _ hd m]; exact shows_of_head hL hw.core hw'.core hd hh hg m
  cases he with
  | none h => exact ⟨A, .none A, fun d hd m => (keep hd (h d) m).symm⟩
  | create d hd b co hb hp h hs' =>
    refine ⟨_, .create A d, fun d' hd' m => ?_⟩
    by_cases hdd : d' = d
    · subst hdd
      rw [Function.update_self]
      constructor
      · intro h; cases h; exact hs'
      · intro h; rw [hs'.unique hL hw'.core hd h]
    · rw [Function.update_of_ne hdd]
      exact (keep hd' (by rw [h, if_neg hdd]) m).symm
  | commit d hd m m' writes b co hb hp hp' h hm hsp hm' =>
    refine ⟨_, .commit A d m m' writes ((hA d hd m).2 hm) hsp, fun d' hd' m2 => ?_⟩
    by_cases hdd : d' = d
    · subst hdd
      rw [Function.update_self]
      constructor
      · intro h; cases h; exact hm'
      · intro h; rw [hm'.unique hL hw'.core hd h]
    · rw [Function.update_of_ne hdd]
      exact (keep hd' (by rw [h, if_neg hdd]) m2).symm
  | «import» d hd hi c h hno m hm =>
    refine ⟨_, .import A d m hi ?_, fun d' hd' m2 => ?_⟩
    · cases hAd : A d with
      | none => rfl
      | some m0 =>
        have := (hA d hd m0).1 hAd
        rw [shows_iff hL hw.core hd, records_iff hL hw.core hd] at this
        obtain ⟨_, _, _, h1, _⟩ := this
        rw [hno] at h1; cases h1
    · by_cases hdd : d' = d
      · subst hdd
        rw [Function.update_self]
        constructor
        · intro h; cases h; exact hm
        · intro h; rw [hm.unique hL hw'.core hd h]
      · rw [Function.update_of_ne hdd]
        exact (keep hd' (by rw [h, if_neg hdd]) m2).symm

/-- **C23 (refinement, every history).** After every history the records of all stored repos are
the result of abstract steps from nothing. -/
theorem C23_history_partial (hL : L.OK Z) (ht : ¬ al.torn) (hr : Reach L be al w) :
    ∃ A, Relation.ReflTransGen (SpecStep L al.imports) (fun _ => Option.none) A ∧ Abstracts L be w A := by
  induction hr with
  | empty =>
    refine ⟨_, .refl, fun d hd m => ?_⟩
    have := loadRepo_spec (empty_ok L Z).1.core be hd
    constructor
    · intro h; cases h
    · rintro ⟨w1, s, o, h1, _⟩
      unfold loadRepo at h1
      rw [if_neg (isDid_ne_nil hd)] at h1
      cases be <;> simp [World.empty, findRepo, findRow, dictGet] at h1
  | step h hs ih =>
    obtain ⟨A, h1, h2⟩ := ih
    obtain ⟨A', h3, h4⟩ := C23_refinement_partial hL ht h hs h2
    exact ⟨A', h1.tail h3, h4⟩

/-- **C23 (Datastore, every history).** -/
theorem C23_history_datastore (hL : L.OK Z) (hr : Reach L .datastore al w) :
    ∃ A, Relation.ReflTransGen (SpecStep L al.imports) (fun _ => Option.none) A ∧
      Abstracts L .datastore w A :=
  C23_history_partial (al := { al with torn := False }) hL (fun h => h) hr.datastore

end

/-! ### Examples -/

/-- Reads a record of the first repo. -/
def exRead (be : Backend) (w : ExWorld) (d : Did) (rkey : String) : Option (Except Err (Option Nat)) :=
  match loadRepo be w d with
  | (w1, .ok (some s)) => (w1.heap[s]?).map fun o =>
    match getRecord exL w1 o "coll".toList rkey.toList with
    | .ok none => .ok none
    | .ok (some (.record n)) => .ok (some n)
    | .ok (some _) => .error .key
    | .error e => .error e
  | _ => none

example : Reach exL .memory .orderly (exW2 .memory) ∧ Reach exL .datastore .orderly (exW2 .datastore) :=
  ⟨exW2_reach _, exW2_reach _⟩

/-- The records after the two commits. -/
example (be : Backend) :
    ["a", "b", "c", "d"].map (exRead be (exW2 be) exDid) =
      [some (.ok (some 4)), some (.ok none), some (.ok (some 3)), some (.ok none)] ∧
    ["a", "b"].map (exRead be (exW1 be) exDid) = [some (.ok (some 1)), some (.ok (some 2))] ∧
    exRead be (exW2 be) exDid2 "a" = some (.ok none) := by
  cases be <;> decide +kernel

/-- Both are successful commits of an active, stored repo. -/
example (be : Backend) : ((exW0 be).heap[0]?).map (fun o => (o.did, o.status)) =
      some (some exDid, none) ∧
    (match commit exL be (exW0 be) 0 exWrites none lucky false with
      | (_, .ok _) => true | _ => false) = true ∧
    (match commit exL be (exW1 be) 0 exWrites2 none lucky false with
      | (_, .ok _) => true | _ => false) = true := by
  cases be <;> decide +kernel

/-- A commit that fails: the second write creates a path that exists. -/
def exBad : List (Write Nat) := [wr .create "c" (some 3), wr .create "c" (some 5)]

def exTorn : ExWorld := (commit exL .memory (exW0 .memory) 0 exBad none lucky false).1

/-- A later, successful commit. -/
def exAfterTorn : ExWorld :=
  (commit exL .memory exTorn 0 [wr .create "d" (some 6)] none lucky false).1

/-- **C23 is false for `MemoryStorage`** after a failed commit: the failed commit leaves its first
write in the tree of the stored `Repo` object, so a later successful commit contains a record
nobody asked it to write, and whose block is not stored: reading it raises AttributeError. -/
theorem C23_memory_false : Reach exL .memory .all exAfterTorn ∧
    (match commit exL .memory (exW0 .memory) 0 exBad none lucky false with
      | (_, .error e) => decide (e = .value) | _ => false) = true ∧
    (match commit exL .memory exTorn 0 [wr .create "d" (some 6)] none lucky false with
      | (_, .ok _) => true | _ => false) = true ∧
    exRead .memory (exW0 .memory) exDid "c" = some (.ok none) ∧
    exRead .memory exAfterTorn exDid "c" = some (.error .attribute) ∧
    exRead .memory exAfterTorn exDid "d" = some (.ok (some 6)) := by
  refine ⟨?_, ?_⟩
  · refine .step (.step ((exW0_reach .memory).weaken ?_ ?_ ?_ ?_)
      (.commit 0 exBad lucky false ⟨.inl trivial, .inl trivial, .inl trivial, .inl trivial⟩))
      (.commit 0 [wr .create "d" (some 6)] lucky false
        ⟨.inl trivial, .inl trivial, .inl trivial, .inl trivial⟩) <;> exact fun _ => trivial
  · decide +kernel

end Arroba.Store
