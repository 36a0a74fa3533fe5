import Verif.Xrpc.CrudProofs
import Verif.Props.C44
import Verif.Props.C52

/-!
# C41: record CRUD over XRPC

`Names cfg be w q d`: the request's `repo` (a DID, a handle or an `at://` URI) means the active repo `d`
and no other. `Shows L be w d m`: the records of the repo `d` are exactly `m`. `Fine`: storage and
signing don't fail. `After L be al w w' d m`: afterwards, the records of `d` are `m`, and those of all
other repos, and everything repos are known by, are what they were. Torn trees of `MemoryStorage` are
excluded (`Allow.untorn`): a put or a delete that fails never leaves one behind, when signing doesn't
fail.
-/

namespace Arroba.Xrpc

open Arroba.Store

variable {C R : Type} [DecidableEq C] {L : Lib C R} {Z : Nat} {be : Backend}
  {w : World C R} {cfg : Config R}

/-- `collection/rkey`. -/
def pathOf (collection rkey : Key) : Key := collection ++ '/' :: rkey

/-- `at://did/collection/rkey`. -/
def uriOf (d : Did) (collection rkey : Key) : Key :=
  "at://".toList ++ d ++ '/' :: (collection ++ '/' :: rkey)

/-- A record that may be written: it validates and has at most 1,000,000 bytes, and the path is a valid
one. -/
def Acceptable (L : Lib C R) (r : R) (path : Key) : Prop :=
  L.valid r = true ∧ L.size r ≤ 1000000 ∧ KeyGrammar path

theorem atUri_ok {d : Did} (hd : isDid d) {collection rkey : Key} (h : KeyGrammar (pathOf collection rkey)) :
    AtUri.atUri d collection rkey = .ok (uriOf d collection rkey) := by
  have hg := h
  obtain ⟨_, a, b, h1, h2, h3, _⟩ := h
  rw [h1] at hg
  obtain ⟨rfl, rfl⟩ := path_inj hg h1.symm
  unfold AtUri.atUri
  rw [if_neg (by rintro (h | h | h); exacts [isDid_ne_nil hd h, h2 h, h3 h])]
  simp [uriOf, AtUri.scheme]

theorem Names.truthy {q : Key} {d : Did} (hn : Names cfg be w q d) : truthy (some q) = true := by
  cases q with
  | nil => exact absurd rfl hn.1
  | cons => rfl

theorem validate_ok {q : Key} {d : Did} (hn : Names cfg be w q d) {collection : Key}
    (hc : Supported cfg collection) (rkey : Option Key) (r : Option R) {c' : Option Key}
    (hc' : c' = none ∨ c' = some collection) :
    validate cfg ⟨some q, some collection, rkey, r, false⟩ c' = .ok () := by
  have hun : ¬ unsupported cfg none := fun h => by cases h.1
  unfold validate
  simp only [hn.truthy]
  rw [if_neg (by simp), if_neg (by simp), if_neg (by rcases hc' with rfl | rfl; exacts [hun, hc.not]),
    if_neg hc.not]

/-- getRecord returns the record with its URI and its CID, and RecordNotFound if there is none. An empty
record counts as none, see `C41_empty_false`. -/
theorem C41_get (hL : L.OK Z) (hr : Reach L be .untorn w) {q : Key} {d : Did}
    (hn : Names cfg be w q d) {m : Key → Option R} (hm : Shows L be w d m) {collection : Key}
    (hc : Supported cfg collection) (rkey : Key) :
    ∃ w', Loaded w w' ∧ getRecord cfg L be w q collection rkey false = (w',
      match m (pathOf collection rkey) with
      | none => .error (.xrpc "RecordNotFound")
      | some r => if cfg.empty r = true then .error (.xrpc "RecordNotFound")
        else .ok ⟨uriOf d collection rkey, L.rcid r, .record r⟩) := by
  obtain ⟨w1, r, o, h1, h2, h3, h4, h5, h6, h7, h8, h9, h10⟩ := hn.load hL hr (fun h => h)
  have hs := h9 m hm
  refine ⟨w1, h6, ?_⟩
  unfold getRecord
  rw [validate_ok hn hc _ _ (.inl rfl)]
  dsimp only
  rw [if_neg (by simp), h1]
  dsimp only
  rw [h2]
  dsimp only
  rw [hs.get]
  dsimp only
  have hpath : collection ++ '/' :: rkey = pathOf collection rkey := rfl
  rw [hpath]
  cases hp : m (pathOf collection rkey) with
  | none => rfl
  | some v =>
    have hu := atUri_ok h5 (hs.paths _ (by rw [hp]; simp))
    simp only [Option.map_some, falsy, h3, hu]
    split <;> rfl

section
variable {q : Key} {d : Did} {m : Key → Option R} {collection rkey : Key} {header : Option Key}
  {xs : List Luck}

theorem putRead_spec (hL : L.OK Z) (hr : Reach L be .untorn w) (hn : Names cfg be w q d)
    (hm : Shows L be w d m) (ha : Authorized cfg header) (hc : Supported cfg collection)
    (rec : Option R) : ∃ w1 r o,
      putRead cfg L be w header ⟨some q, some collection, some rkey, rec, false⟩ =
        (w1, .ok (r, (m (pathOf collection rkey)).map .record)) ∧
      w1.heap[r]? = some o ∧ o.did = some d ∧ o.status = none ∧ isDid d ∧ Loaded w w1 ∧
      Reach L be .untorn w1 ∧ SameNames be w w1 ∧ Shows L be w1 d m ∧
      (∀ k, m k ≠ none → KeyGrammar k) ∧
      ∀ d', isDid d' → ∀ m, Shows L be w1 d' m ↔ Shows L be w d' m := by
  obtain ⟨w1, r, o, h1, h2, h3, h4, h5, h6, h7, h8, h9, h10⟩ := hn.load hL hr (fun h => h)
  have hs := h9 m hm
  refine ⟨w1, r, o, ?_, h2, h3, h4, h5, h6, h7, h8, (h10 d h5 m).2 hm, hs.paths, h10⟩
  unfold putRead
  rw [validate_ok hn hc _ _ (.inl rfl), C44_accepted ha]
  dsimp only [field]
  rw [h1]
  dsimp only
  rw [h2]
  dsimp only
  rw [hs.get]
  rfl

theorem specPut_ok {r : R} (hg : ∀ k, m k ≠ none → KeyGrammar k) :
    (Acceptable L r (pathOf collection rkey) →
      specWrite L m ⟨if (m (pathOf collection rkey)).isNone then .create else .update, collection, rkey,
        some r⟩ = .ok (Function.update m (pathOf collection rkey) (some r))) ∧
    (¬ Acceptable L r (pathOf collection rkey) → ∃ e,
      specWrite L m ⟨if (m (pathOf collection rkey)).isNone then .create else .update, collection, rkey,
        some r⟩ = .error e) := by
  have hp : ∀ a, (⟨a, collection, rkey, some r⟩ : Write R).path = pathOf collection rkey := fun _ => rfl
  cases hm : m (pathOf collection rkey) with
  | none =>
    simp only [Option.isNone_none, if_true]
    unfold specWrite specRecord
    dsimp only
    simp only [hp, hm]
    constructor
    · rintro ⟨h1, h2, h3⟩
      rw [if_neg (by rw [h1]; simp), if_neg (by omega)]
      dsimp only
      rw [if_neg (by rw [(validKey_iff _).2 h3]; simp), if_neg (by simp)]
    · intro h
      by_cases h1 : L.valid r = true
      · by_cases h2 : L.size r ≤ 1000000
        · have h3 : validKey (pathOf collection rkey) = false := by
            cases hv : validKey (pathOf collection rkey) with
            | false => rfl
            | true => exact absurd ⟨h1, h2, (validKey_iff _).1 hv⟩ h
          rw [if_neg (by rw [h1]; simp), if_neg (by omega)]
          dsimp only
          rw [if_pos h3]
          exact ⟨_, rfl⟩
        · rw [if_neg (by rw [h1]; simp), if_pos (by omega)]
          exact ⟨_, rfl⟩
      · rw [if_pos (by simpa using h1)]
        exact ⟨_, rfl⟩
  | some v =>
    have hk := hg (pathOf collection rkey) (by rw [hm]; simp)
    simp only [Option.isNone_some, Bool.false_eq_true, if_false]
    unfold specWrite specRecord
    dsimp only
    simp only [hp, hm]
    rw [if_neg (by simp)]
    constructor
    · rintro ⟨h1, h2, h3⟩
      rw [if_neg (by rw [h1]; simp), if_neg (by omega)]
    · intro h
      by_cases h1 : L.valid r = true
      · by_cases h2 : L.size r ≤ 1000000
        · exact absurd ⟨h1, h2, hk⟩ h
        · rw [if_neg (by rw [h1]; simp), if_pos (by omega)]
          exact ⟨_, rfl⟩
      · rw [if_pos (by simpa using h1)]
        exact ⟨_, rfl⟩

/-- putRecord writes an acceptable record and returns its URI and CID; otherwise it raises, and changes
no records. -/
theorem C41_put (hL : L.OK Z) (hr : Reach L be .untorn w) (hn : Names cfg be w q d)
    (hm : Shows L be w d m) (ha : Authorized cfg header) (hc : Supported cfg collection) (r : R)
    (hf : Fine w xs) :
    (Acceptable L r (pathOf collection rkey) → ∃ w',
      putRecord cfg L be w header ⟨some q, some collection, some rkey, some r, false⟩ xs false =
        (w', .ok ⟨uriOf d collection rkey, L.rcid r⟩) ∧
      After L be .untorn w w' d (Function.update m (pathOf collection rkey) (some r))) ∧
    (¬ Acceptable L r (pathOf collection rkey) → ∃ w' e,
      putRecord cfg L be w header ⟨some q, some collection, some rkey, some r, false⟩ xs false =
        (w', .error e) ∧ After L be .untorn w w' d m) := by
  obtain ⟨w1, ref, o, h1, h2, h3, h4, h5, h6, h7, h8, h9, h10, h11⟩ :=
    putRead_spec (rkey := rkey) hL hr hn hm ha hc (some r)
  have hcommit := commit_one hL h7 h2 h3 h4 h9
    ⟨if (m (pathOf collection rkey)).isNone then .create else .update, collection, rkey, some r⟩
    (hf.loaded h6)
  have hiso : ((m (pathOf collection rkey)).map (Val.record (C := C))).isNone =
      (m (pathOf collection rkey)).isNone := by
    cases m (pathOf collection rkey) <;> rfl
  unfold putRecord
  rw [h1]
  dsimp only
  unfold putCommit
  dsimp only [field]
  rw [hiso]
  constructor
  · intro hacc
    rw [(specPut_ok h10).1 hacc] at hcommit
    obtain ⟨w', cd, g1, g2, o', g3, g4⟩ := hcommit
    refine ⟨w', ?_, g2.of_loaded h8 h11⟩
    rw [g1]
    dsimp only
    rw [g3, Option.bind_some, g4]
    dsimp only
    rw [atUri_ok h5 hacc.2.2]
    rfl
  · intro hacc
    obtain ⟨e, he⟩ := (specPut_ok (L := L) h10).2 hacc
    rw [he] at hcommit
    obtain ⟨w', g1, g2⟩ := hcommit
    refine ⟨w', e, ?_, g2.of_loaded h8 h11⟩
    rw [g1]

/-- createRecord does the same, with a new record key if none is given. -/
theorem C41_create (hL : L.OK Z) (hr : Reach L be .untorn w) (hn : Names cfg be w q d)
    (hm : Shows L be w d m) (ha : Authorized cfg header) (hc : Supported cfg collection)
    (hcn : collection ≠ []) (rk : Option Key) (tid : Key) (r : R) (hf : Fine w xs) :
    (Acceptable L r (pathOf collection (rk.getD tid)) → ∃ w',
      createRecord cfg L be w header ⟨some q, some collection, rk, some r, false⟩ tid xs false =
        (w', .ok ⟨uriOf d collection (rk.getD tid), L.rcid r⟩) ∧
      After L be .untorn w w' d (Function.update m (pathOf collection (rk.getD tid)) (some r))) ∧
    (¬ Acceptable L r (pathOf collection (rk.getD tid)) → ∃ w' e,
      createRecord cfg L be w header ⟨some q, some collection, rk, some r, false⟩ tid xs false =
        (w', .error e) ∧ After L be .untorn w w' d m) := by
  obtain ⟨w1, ref, o, h1, h2, h3, h4, h5, h6, h7, h8, h9, h10⟩ := hn.load hL hr (fun h => h)
  have htr : truthy (some collection) = true := by
    cases collection with
    | nil => exact absurd rfl hcn
    | cons => rfl
  have he : createRecord cfg L be w header ⟨some q, some collection, rk, some r, false⟩ tid xs false =
      putRecord cfg L be w1 header ⟨some q, some collection, some (rk.getD tid), some r, false⟩ xs false := by
    unfold createRecord
    dsimp only [field]
    rw [htr, if_pos rfl, validate_ok hn hc _ _ (.inr rfl), C44_accepted ha]
    dsimp only
    rw [h1]
  rw [he]
  obtain ⟨g1, g2⟩ := C41_put (rkey := rk.getD tid) hL h7 (hn.same h8) ((h10 d h5 m).2 hm) ha hc r
    (hf.loaded h6)
  constructor
  · intro hacc
    obtain ⟨w', k1, k2⟩ := g1 hacc
    exact ⟨w', k1, k2.of_loaded h8 h10⟩
  · intro hacc
    obtain ⟨w', e, k1, k2⟩ := g2 hacc
    exact ⟨w', e, k1, k2.of_loaded h8 h10⟩

/-- deleteRecord deletes the record. If there is none it changes nothing. -/
theorem C41_delete (hL : L.OK Z) (hr : Reach L be .untorn w) (hn : Names cfg be w q d)
    (hm : Shows L be w d m) (ha : Authorized cfg header) (hc : Supported cfg collection)
    (hf : Fine w xs) : ∃ w',
      deleteRecord cfg L be w header ⟨some q, some collection, some rkey, none, false⟩ xs false =
        (w', .ok ()) ∧
      After L be .untorn w w' d (Function.update m (pathOf collection rkey) none) ∧
      (m (pathOf collection rkey) = none → Loaded w w') := by
  obtain ⟨w1, ref, o, h1, h2, h3, h4, h5, h6, h7, h8, h9, h10, h11⟩ :=
    putRead_spec (rkey := rkey) hL hr hn hm ha hc none
  have hcommit := commit_one hL h7 h2 h3 h4 h9 ⟨.delete, collection, rkey, none⟩ (hf.loaded h6)
  unfold deleteRecord
  rw [h1]
  dsimp only
  cases hp : m (pathOf collection rkey) with
  | none =>
    refine ⟨w1, rfl, ⟨h7, h8, ?_, fun d' hd' _ => h11 d' hd'⟩, fun _ => h6⟩
    rw [← hp, Function.update_eq_self]
    exact h9
  | some v =>
    have hsp : specWrite L m ⟨.delete, collection, rkey, none⟩ =
        .ok (Function.update m (pathOf collection rkey) none) := by
      unfold specWrite
      dsimp only
      rw [if_neg (by show m (pathOf collection rkey) ≠ none; rw [hp]; simp)]
      rfl
    rw [hsp] at hcommit
    obtain ⟨w', cd, g1, g2, _⟩ := hcommit
    refine ⟨w', ?_, g2.of_loaded h8 h11, fun h => by cases h⟩
    simp only [Option.map_some]
    rw [g1]

/-- putRecord reads the repo first and commits later. Whatever other requests did in between: if it has
seen that the record exists, or that it doesn't, and that is no longer so, it raises ValueError and
changes no records; otherwise it writes the record. -/
theorem C41_race (hL : L.OK Z) (hr : Reach L be .untorn w) {ref : Ref} {o : RepoObj C R}
    (ho : w.heap[ref]? = some o) (hd : o.did = some d) (hact : o.status = none)
    (hm : Shows L be w d m) (seen : Option (Val C R)) {r : R}
    (hacc : Acceptable L r (pathOf collection rkey)) (hf : Fine w xs) (hid : isDid d)
    (q : Option Key) (swap : Bool) :
    ∃ w', if seen.isSome = (m (pathOf collection rkey)).isSome then
        putCommit L be w ref seen ⟨q, some collection, some rkey, some r, swap⟩ xs false =
          (w', .ok ⟨uriOf d collection rkey, L.rcid r⟩) ∧
        After L be .untorn w w' d (Function.update m (pathOf collection rkey) (some r))
      else putCommit L be w ref seen ⟨q, some collection, some rkey, some r, swap⟩ xs false =
          (w', .error .value) ∧ After L be .untorn w w' d m := by
  have hcommit := commit_one hL hr ho hd hact hm
    ⟨if seen.isNone then .create else .update, collection, rkey, some r⟩ hf
  have hp : ∀ a, (⟨a, collection, rkey, some r⟩ : Write R).path = pathOf collection rkey := fun _ => rfl
  have hrec : ∀ a, specRecord L (⟨a, collection, rkey, some r⟩ : Write R) = .ok r := by
    intro a
    unfold specRecord
    dsimp only
    have h1 := hacc.1
    have h2 := hacc.2.1
    rw [if_neg (by rw [h1]; simp), if_neg (by omega)]
  unfold putCommit
  dsimp only [field]
  by_cases hs : seen.isSome = (m (pathOf collection rkey)).isSome
  · have hsp : specWrite L m ⟨if seen.isNone then .create else .update, collection, rkey, some r⟩ =
        .ok (Function.update m (pathOf collection rkey) (some r)) := by
      cases hmp : m (pathOf collection rkey) with
      | none =>
        rw [hmp, Option.isSome_none, Option.isSome_eq_false_iff] at hs
        rw [hs, if_pos rfl]
        unfold specWrite
        dsimp only
        rw [hrec]
        dsimp only
        rw [hp, if_neg (by rw [(validKey_iff _).2 hacc.2.2]; simp), if_neg (by rw [hmp]; simp)]
      | some v =>
        rw [hmp, Option.isSome_some] at hs
        have hs' : seen.isNone = false := by cases seen with
          | none => cases hs
          | some _ => rfl
        rw [hs', if_neg (by simp)]
        unfold specWrite
        dsimp only
        rw [hp, if_neg (by rw [hmp]; simp), hrec]
    rw [hsp] at hcommit
    obtain ⟨w', cd, g1, g2, o', g3, g4⟩ := hcommit
    refine ⟨w', ?_⟩
    rw [if_pos hs]
    refine ⟨?_, g2⟩
    rw [g1]
    dsimp only
    rw [g3, Option.bind_some, g4]
    dsimp only
    rw [atUri_ok hid hacc.2.2]
    rfl
  · have hsp : specWrite L m ⟨if seen.isNone then .create else .update, collection, rkey, some r⟩ =
        .error .value := by
      cases hmp : m (pathOf collection rkey) with
      | some v =>
        have hs' : seen.isNone = true := by cases seen with
          | none => rfl
          | some _ => rw [hmp] at hs; exact absurd rfl hs
        rw [hs', if_pos rfl]
        unfold specWrite
        dsimp only
        rw [hrec]
        dsimp only
        rw [hp, if_neg (by rw [(validKey_iff _).2 hacc.2.2]; simp), if_pos (by rw [hmp]; simp)]
      | none =>
        have hs' : seen.isNone = false := by cases seen with
          | some _ => rfl
          | none => rw [hmp] at hs; exact absurd rfl hs
        rw [hs', if_neg (by simp)]
        unfold specWrite
        dsimp only
        rw [hp, if_pos hmp]
    rw [hsp] at hcommit
    obtain ⟨w', g1, g2⟩ := hcommit
    refine ⟨w', ?_⟩
    rw [if_neg hs]
    exact ⟨by rw [g1], g2⟩

end

/-! ### Sequences of requests -/

/-- A request on one record. -/
inductive Op (R : Type) where
  | put (rkey : Key) (r : R)
  | create (rkey : Option Key) (tid : Key) (r : R)
  | delete (rkey : Key)
  | get (rkey : Key)

/-- The world after a request. -/
def run (cfg : Config R) (L : Lib C R) (be : Backend) (w : World C R) (header : Option Key) (q : Key)
    (collection : Key) (xs : List Luck) : Op R → World C R
  | .put rkey r =>
    (putRecord cfg L be w header ⟨some q, some collection, some rkey, some r, false⟩ xs false).1
  | .create rk tid r =>
    (createRecord cfg L be w header ⟨some q, some collection, rk, some r, false⟩ tid xs false).1
  | .delete rkey =>
    (deleteRecord cfg L be w header ⟨some q, some collection, some rkey, none, false⟩ xs false).1
  | .get rkey => (getRecord cfg L be w q collection rkey false).1

open Classical in
/-- What a request is supposed to do to the records of its repo. -/
noncomputable def Op.spec (L : Lib C R) (collection : Key) (m : Key → Option R) : Op R → Key → Option R
  | .put rkey r => if Acceptable L r (pathOf collection rkey) then
      Function.update m (pathOf collection rkey) (some r) else m
  | .create rk tid r => if Acceptable L r (pathOf collection (rk.getD tid)) then
      Function.update m (pathOf collection (rk.getD tid)) (some r) else m
  | .delete rkey => Function.update m (pathOf collection rkey) none
  | .get _ => m

/-- A request: the repo that is meant, the collection, and what to do. -/
abbrev Req (R : Type) := Did × Key × Op R

/-- Authorized requests on active repos and supported collections are served one after the other, and
nothing fails outside the code. (Other requests change nothing: C44_refused, C52_unknown and
C52_inactive.) -/
inductive Served (cfg : Config R) (L : Lib C R) (be : Backend) : World C R → List (Req R) → World C R → Prop
  | nil (w : World C R) : Served cfg L be w [] w
  | cons {w w' : World C R} {header : Option Key} {q : Key} {d : Did} {collection : Key} {xs : List Luck}
      {op : Op R} {rest : List (Req R)} (hn : Names cfg be w q d) (ha : Authorized cfg header)
      (hc : Supported cfg collection) (hcn : collection ≠ []) (hf : Fine w xs)
      (h : Served cfg L be (run cfg L be w header q collection xs op) rest w') :
      Served cfg L be w ((d, collection, op) :: rest) w'

/-- The records of all repos after a sequence of requests. -/
noncomputable def specAll (L : Lib C R) : (Did → Key → Option R) → List (Req R) → Did → Key → Option R
  | A, [] => A
  | A, (d, collection, op) :: rest => specAll L (Function.update A d (op.spec L collection (A d))) rest

theorem run_after (hL : L.OK Z) (hr : Reach L be .untorn w) {q : Key} {d : Did}
    (hn : Names cfg be w q d) {m : Key → Option R} (hm : Shows L be w d m) {header : Option Key}
    (ha : Authorized cfg header) {collection : Key} (hc : Supported cfg collection)
    (hcn : collection ≠ []) {xs : List Luck} (hf : Fine w xs) (op : Op R) :
    After L be .untorn w (run cfg L be w header q collection xs op) d (op.spec L collection m) := by
  cases op with
  | put rkey r =>
    dsimp only [run, Op.spec]
    obtain ⟨h1, h2⟩ := C41_put (rkey := rkey) hL hr hn hm ha hc r hf
    by_cases hacc : Acceptable L r (pathOf collection rkey)
    · obtain ⟨w', g1, g2⟩ := h1 hacc
      rw [g1, if_pos hacc]
      exact g2
    · obtain ⟨w', e, g1, g2⟩ := h2 hacc
      rw [g1, if_neg hacc]
      exact g2
  | create rk tid r =>
    dsimp only [run, Op.spec]
    obtain ⟨h1, h2⟩ := C41_create hL hr hn hm ha hc hcn rk tid r hf
    by_cases hacc : Acceptable L r (pathOf collection (rk.getD tid))
    · obtain ⟨w', g1, g2⟩ := h1 hacc
      rw [g1, if_pos hacc]
      exact g2
    · obtain ⟨w', e, g1, g2⟩ := h2 hacc
      rw [g1, if_neg hacc]
      exact g2
  | delete rkey =>
    dsimp only [run, Op.spec]
    obtain ⟨w', g1, g2, _⟩ := C41_delete (rkey := rkey) hL hr hn hm ha hc hf
    rw [g1]
    exact g2
  | get rkey =>
    dsimp only [run, Op.spec]
    obtain ⟨w1, r, o, h1, h2, h3, h4, h5, h6, h7, h8, h9, h10⟩ := hn.load hL hr (fun h => h)
    have he : (getRecord cfg L be w q collection rkey false).1 = w1 := by
      unfold getRecord
      rw [validate_ok hn hc _ _ (.inl rfl)]
      dsimp only
      rw [if_neg (by simp), h1]
      dsimp only
      rw [h2]
      dsimp only
      split
      · rfl
      · split
        · rfl
        · split
          · split <;> rfl
          · rfl
    rw [he]
    exact ⟨h7, h8, (h10 d h5 m).2 hm, fun d' hd' _ => h10 d' hd'⟩

/-- After any sequence of requests, the records of all repos are what the requests, one after the other,
are supposed to make of them; and getRecord returns exactly these (C41_get). -/
theorem C41_sequence_partial (hL : L.OK Z) {w' : World C R} {reqs : List (Req R)}
    (hr : Reach L be .untorn w) (h : Served cfg L be w reqs w') {A : Did → Key → Option R}
    (hA : ∀ d, isDid d → (∃ m, Shows L be w d m) → Shows L be w d (A d)) :
    Reach L be .untorn w' ∧ SameNames be w w' ∧ ∀ d, isDid d → (∃ m, Shows L be w d m) →
      Shows L be w' d (specAll L A reqs d) := by
  induction h generalizing A with
  | nil w => exact ⟨hr, .refl _ _, hA⟩
  | @cons w w' header q d collection xs op rest hn ha hc hcn hf h ih =>
    obtain ⟨_, _, o, _, _, _, _, hid, _, _, _, _, _⟩ := hn.load hL hr (fun h => h)
    have hex : ∃ m, Shows L be w d m := by
      obtain ⟨w1, r, o, h1, h2, h3, h4, h5, h6, h7, _⟩ := hn.load hL hr (fun h => h)
      obtain ⟨_, name, k1, k2, k3⟩ := hn
      rcases load_spec (cfg := cfg) (hr.plain hL).1.core k1 k2 with
        ⟨_, h4⟩ | ⟨d', st, w1, r, o, g1, g2, g3, g4, g5, g6, g7⟩
      · exact absurd ((k3 d none).2 ⟨rfl, rfl⟩) (h4 d none)
      · obtain ⟨rfl, rfl⟩ := (k3 d' st).1 g1
        obtain ⟨g8, _⟩ := loadRepo_did hL hr g2 g3 g4
        have hr1 : Reach L be .untorn w1 := by
          have := Step.loadRepo (L := L) (be := be) (al := .untorn) (w := w) name
          rw [g2] at this
          exact .step hr this
        obtain ⟨m, hm⟩ := (hr1.inv hL (fun h => h)).1.core.heap r o g3
        exact ⟨m, w1, r, o, g8, g3, hm.shows hL⟩
    have hm := hA d hid hex
    have ha' := run_after hL hr hn hm ha hc hcn hf op
    obtain ⟨i1, i2, i3⟩ := ih ha'.reach (A := Function.update A d (op.spec L collection (A d))) (by
      intro d' hd' hex'
      by_cases he : d' = d
      · subst he
        rw [Function.update_self]
        exact ha'.shows'
      · rw [Function.update_of_ne he]
        obtain ⟨m', hm'⟩ := hex'
        have := (ha'.others d' hd' he m').1 hm'
        exact (ha'.others d' hd' he _).2 (hA d' hd' ⟨m', this⟩))
    refine ⟨i1, ha'.names.trans i2, fun d' hd' hex' => i3 d' hd' ?_⟩
    by_cases he : d' = d
    · subst he
      exact ⟨_, ha'.shows'⟩
    · obtain ⟨m', hm'⟩ := hex'
      exact ⟨m', (ha'.others d' hd' he m').2 hm'⟩

/-- The request may change the record at this path of this repo. -/
def Writes (d : Did) (path : Key) : Req R → Prop
  | (d', collection, .put rkey _) => d' = d ∧ pathOf collection rkey = path
  | (d', collection, .create rk tid _) => d' = d ∧ pathOf collection (rk.getD tid) = path
  | (d', collection, .delete rkey) => d' = d ∧ pathOf collection rkey = path
  | (_, _, .get _) => False

theorem specAll_kept {d : Did} {path : Key} : ∀ {reqs : List (Req R)} {A : Did → Key → Option R},
    (∀ x ∈ reqs, ¬ Writes d path x) → specAll L A reqs d path = A d path
  | [], _, _ => rfl
  | (d', collection, op) :: rest, A, h => by
    unfold specAll
    rw [specAll_kept (fun x hx => h x (.tail _ hx))]
    have h0 := h _ List.mem_cons_self
    by_cases hd : d' = d
    · subst hd
      rw [Function.update_self]
      unfold Op.spec
      cases op with
      | put rkey r =>
        dsimp only
        split
        · exact Function.update_of_ne (fun he => h0 ⟨rfl, he.symm⟩) _ _
        · rfl
      | create rk tid r =>
        dsimp only
        split
        · exact Function.update_of_ne (fun he => h0 ⟨rfl, he.symm⟩) _ _
        · rfl
      | delete rkey => exact Function.update_of_ne (fun he => h0 ⟨rfl, he.symm⟩) _ _
      | get rkey => rfl
    · rw [Function.update_of_ne (Ne.symm hd)]

/-- What getRecord returns after any requests that don't write this path of this repo. -/
theorem get_until (hL : L.OK Z) {w1 : World C R} {q : Key} {d : Did} (hn : Names cfg be w q d)
    (hid : isDid d) {m : Key → Option R} (h : After L be .untorn w w1 d m) {collection rkey : Key}
    (hc : Supported cfg collection) {reqs : List (Req R)} {w' : World C R}
    (hs : Served cfg L be w1 reqs w') (hq : ∀ x ∈ reqs, ¬ Writes d (pathOf collection rkey) x) :
    (getRecord cfg L be w' q collection rkey false).2 =
      match m (pathOf collection rkey) with
      | none => .error (.xrpc "RecordNotFound")
      | some r => if cfg.empty r = true then .error (.xrpc "RecordNotFound")
        else .ok ⟨uriOf d collection rkey, L.rcid r, .record r⟩ := by
  have hw1 := (h.reach.inv hL (fun h => h)).1.core
  classical
  -- some function that gives the records of every repo
  let A : Did → Key → Option R := fun d' =>
    if h : ∃ m, Shows L be w1 d' m then h.choose else fun _ => none
  have hA : ∀ d', isDid d' → (∃ m, Shows L be w1 d' m) → Shows L be w1 d' (A d') := by
    intro d' _ hex
    show Shows L be w1 d' (dite _ _ _)
    rw [dif_pos hex]
    exact hex.choose_spec
  have hAd : A d = m := (hA d hid ⟨_, h.shows'⟩).unique hL hw1 hid h.shows'
  obtain ⟨g1, g2, g3⟩ := C41_sequence_partial hL h.reach hs hA
  have g4 := g3 d hid ⟨_, h.shows'⟩
  obtain ⟨w'', _, g5⟩ := C41_get hL g1 ((hn.same h.names).same g2) g4 hc rkey
  rw [specAll_kept hq, hAd] at g5
  rw [g5]

/-- After putRecord of an acceptable record, and any number of requests that don't write this path of
this repo, getRecord returns it with its CID. Missing from the full claim: records that are empty
(C41_empty_false), storage or signing failures, and, on MemoryStorage, repos whose tree in memory an
earlier failure has left torn. -/
theorem C41_put_until_partial (hL : L.OK Z) (hr : Reach L be .untorn w) {q : Key} {d : Did}
    (hn : Names cfg be w q d) {m : Key → Option R} (hm : Shows L be w d m) {header : Option Key}
    (ha : Authorized cfg header) {collection rkey : Key} (hc : Supported cfg collection)
    {xs : List Luck} (hf : Fine w xs) {r : R} (hacc : Acceptable L r (pathOf collection rkey))
    (hne : cfg.empty r = false) :
    ∃ w1, putRecord cfg L be w header ⟨some q, some collection, some rkey, some r, false⟩ xs false =
        (w1, .ok ⟨uriOf d collection rkey, L.rcid r⟩) ∧
      ∀ reqs w', Served cfg L be w1 reqs w' → (∀ x ∈ reqs, ¬ Writes d (pathOf collection rkey) x) →
        (getRecord cfg L be w' q collection rkey false).2 =
          .ok ⟨uriOf d collection rkey, L.rcid r, .record r⟩ := by
  obtain ⟨w1, h1, h2⟩ := (C41_put (rkey := rkey) hL hr hn hm ha hc r hf).1 hacc
  obtain ⟨_, _, _, _, _, _, _, hid, _⟩ := hn.load hL hr (fun h => h)
  refine ⟨w1, h1, fun reqs w' hs hq => ?_⟩
  rw [get_until hL hn hid h2 hc hs hq, Function.update_self]
  dsimp only
  rw [if_neg (by rw [hne]; simp)]

/-- The same for createRecord. -/
theorem C41_create_until_partial (hL : L.OK Z) (hr : Reach L be .untorn w) {q : Key} {d : Did}
    (hn : Names cfg be w q d) {m : Key → Option R} (hm : Shows L be w d m) {header : Option Key}
    (ha : Authorized cfg header) {collection : Key} (hc : Supported cfg collection)
    (hcn : collection ≠ []) (rk : Option Key) (tid : Key) {xs : List Luck} (hf : Fine w xs) {r : R}
    (hacc : Acceptable L r (pathOf collection (rk.getD tid))) (hne : cfg.empty r = false) :
    ∃ w1, createRecord cfg L be w header ⟨some q, some collection, rk, some r, false⟩ tid xs false =
        (w1, .ok ⟨uriOf d collection (rk.getD tid), L.rcid r⟩) ∧
      ∀ reqs w', Served cfg L be w1 reqs w' →
        (∀ x ∈ reqs, ¬ Writes d (pathOf collection (rk.getD tid)) x) →
        (getRecord cfg L be w' q collection (rk.getD tid) false).2 =
          .ok ⟨uriOf d collection (rk.getD tid), L.rcid r, .record r⟩ := by
  obtain ⟨w1, h1, h2⟩ := (C41_create hL hr hn hm ha hc hcn rk tid r hf).1 hacc
  obtain ⟨_, _, _, _, _, _, _, hid, _⟩ := hn.load hL hr (fun h => h)
  refine ⟨w1, h1, fun reqs w' hs hq => ?_⟩
  rw [get_until hL hn hid h2 hc hs hq, Function.update_self]
  dsimp only
  rw [if_neg (by rw [hne]; simp)]

/-- After deleteRecord: RecordNotFound, until something is written at that path. -/
theorem C41_delete_until_partial (hL : L.OK Z) (hr : Reach L be .untorn w) {q : Key} {d : Did}
    (hn : Names cfg be w q d) {m : Key → Option R} (hm : Shows L be w d m) {header : Option Key}
    (ha : Authorized cfg header) {collection rkey : Key} (hc : Supported cfg collection)
    {xs : List Luck} (hf : Fine w xs) :
    ∃ w1, deleteRecord cfg L be w header ⟨some q, some collection, some rkey, none, false⟩ xs false =
        (w1, .ok ()) ∧
      ∀ reqs w', Served cfg L be w1 reqs w' → (∀ x ∈ reqs, ¬ Writes d (pathOf collection rkey) x) →
        (getRecord cfg L be w' q collection rkey false).2 = .error (.xrpc "RecordNotFound") := by
  obtain ⟨w1, h1, h2, _⟩ := C41_delete (rkey := rkey) hL hr hn hm ha hc hf
  obtain ⟨_, _, _, _, _, _, _, hid, _⟩ := hn.load hL hr (fun h => h)
  refine ⟨w1, h1, fun reqs w' hs hq => ?_⟩
  rw [get_until hL hn hid h2 hc hs hq, Function.update_self]

/-! ### Examples and counterexamples -/

/-- An authorized putRecord on Alice's repo. -/
def exPut (be : Backend) (w : ExWorld) (rkey : String) (r : Nat) : ExWorld × Except Err (Written SC) :=
  putRecord exCfg exL be w exHeader ⟨some exHandle, some "coll".toList, some rkey.toList, some r, false⟩
    lucky false

/-- Her record, as getRecord shows it. -/
def exGet (be : Backend) (w : ExWorld) (rkey : String) : Except Err (Found SC Nat) :=
  (getRecord exCfg exL be w exHandle "coll".toList rkey.toList false).2

theorem exNames (be : Backend) : Names exCfg be (exW1 be) exHandle exDid := by
  refine ⟨by decide, exHandle, by decide +kernel, by decide, ?_⟩
  intro d st
  cases be with
  | memory =>
    have hrep : (exW1 .memory).repos = [(exDid, 0), (exDid2, 1)] := by decide +kernel
    have h0 : ((exW1 .memory).heap[0]?).map (fun o => (o.status, o.handle)) = some (none, some exHandle) := by
      decide +kernel
    have h1 : ((exW1 .memory).heap[1]?).map (fun o => (o.status, o.handle)) = some (none, none) := by
      decide +kernel
    obtain ⟨o0, ho0, e0⟩ := Option.map_eq_some_iff.mp h0
    obtain ⟨o1, ho1, e1⟩ := Option.map_eq_some_iff.mp h1
    obtain ⟨s0, a0⟩ := Prod.mk.inj e0
    obtain ⟨s1, a1⟩ := Prod.mk.inj e1
    constructor
    · rintro ⟨r, o, g1, g2, g3, g4⟩
      rw [hrep] at g1
      rcases List.mem_cons.mp g1 with g | g
      · obtain ⟨rfl, rfl⟩ := Prod.mk.inj g
        rw [ho0] at g2
        cases g2
        exact ⟨rfl, g3.symm.trans s0⟩
      · obtain ⟨rfl, rfl⟩ := Prod.mk.inj (List.mem_singleton.mp g)
        rw [ho1] at g2
        cases g2
        rcases g4 with g4 | g4
        · exact absurd g4 (by decide)
        · rw [a1] at g4; cases g4
    · rintro ⟨rfl, rfl⟩
      exact ⟨0, o0, by rw [hrep]; exact List.mem_cons_self, ho0, s0, .inr a0⟩
  | datastore =>
    have hrow : (exW1 .datastore).rows.map (fun x => (x.1, x.2.handle, x.2.status)) =
        [(exDid, some exHandle, none), (exDid2, none, none)] := by decide +kernel
    constructor
    · rintro ⟨row, g1, g2, g3⟩
      have := List.mem_map_of_mem (f := fun x : Did × Row SC => (x.1, x.2.handle, x.2.status)) g1
      rw [hrow] at this
      rcases List.mem_cons.mp this with g | g
      · simp only [Prod.mk.injEq] at g
        exact ⟨g.1, g2.symm.trans g.2.2⟩
      · have g := List.mem_singleton.mp g
        simp only [Prod.mk.injEq] at g
        rcases g3 with g3 | g3
        · rw [g.1] at g3; exact absurd g3 (by decide)
        · rw [g.2.1] at g3; cases g3
    · rintro ⟨rfl, rfl⟩
      have : (exDid, some exHandle, none) ∈
          (exW1 .datastore).rows.map (fun x => (x.1, x.2.handle, x.2.status)) := by
        rw [hrow]; exact List.mem_cons_self
      obtain ⟨x, h1, h2⟩ := List.mem_map.mp this
      simp only [Prod.mk.injEq] at h2
      obtain ⟨h2, h3, h4⟩ := h2
      exact ⟨x.2, by rw [← h2]; exact h1, h4, .inr h3⟩

/-- The other hypotheses. -/
example (be : Backend) : Reach exL be .untorn (exW1 be) ∧ Authorized exCfg exHeader ∧
    Supported exCfg "coll".toList ∧ Fine (exW1 be) lucky ∧
    Acceptable exL 5 (pathOf "coll".toList "z".toList) ∧ ¬ Acceptable exL 2000000 (pathOf "coll".toList "z".toList) := by
  refine ⟨(exW1_reach be).weaken ?_ ?_ ?_ ?_, ⟨"secret".toList, rfl, by decide, by decide⟩, .inl rfl,
    ⟨by decide, by decide, by cases be <;> decide +kernel⟩,
    ⟨by decide, by decide, (validKey_iff _).1 (by decide +kernel)⟩, fun h => absurd h.1 (by decide)⟩
  all_goals intro h
  all_goals first | exact h | trivial

/-- A request that is served. -/
example (be : Backend) : Served exCfg exL be (exW1 be) [(exDid, "coll".toList, .put "z".toList 5)]
    (exPut be (exW1 be) "z" 5).1 :=
  .cons (header := exHeader) (q := exHandle) (xs := lucky) (exNames be)
    ⟨"secret".toList, rfl, by decide, by decide⟩ (.inl rfl) (by decide)
    ⟨by decide, by decide, by cases be <;> decide +kernel⟩ (.nil _)

/-- Writing, reading, overwriting. -/
example (be : Backend) :
    exGet be (exW1 be) "a" = .ok ⟨"at://did:plc:alice/coll/a".toList, .record 1, .record 1⟩ ∧
    exGet be (exW1 be) "z" = .error (.xrpc "RecordNotFound") ∧
    (exPut be (exW1 be) "z" 5).2 = .ok ⟨"at://did:plc:alice/coll/z".toList, .record 5⟩ ∧
    exGet be (exPut be (exW1 be) "z" 5).1 "z" =
      .ok ⟨"at://did:plc:alice/coll/z".toList, .record 5, .record 5⟩ ∧
    exGet be (exPut be (exPut be (exW1 be) "z" 5).1 "z" 6).1 "z" =
      .ok ⟨"at://did:plc:alice/coll/z".toList, .record 6, .record 6⟩ ∧
    (exPut be (exW1 be) "z" 2000000).2 = .error .value := by
  cases be <;> decide +kernel

/-- An empty record can be written (if it validates), but not read: getRecord raises RecordNotFound,
though Repo.get_record finds it. -/
theorem C41_empty_false (be : Backend) :
    (exPut be (exW1 be) "z" 0).2 = .ok ⟨"at://did:plc:alice/coll/z".toList, .record 0⟩ ∧
    exGet be (exPut be (exW1 be) "z" 0).1 "z" = .error (.xrpc "RecordNotFound") ∧
    exRead be (exPut be (exW1 be) "z" 0).1 exDid "z" = some (.ok (some 0)) := by
  cases be <;> decide +kernel

/-- createRecord with the key of an existing record overwrites it. -/
theorem C41_create_overwrites (be : Backend) :
    let res := createRecord exCfg exL be (exW1 be) exHeader
      ⟨some exHandle, some "coll".toList, some "a".toList, some 5, false⟩ "tid".toList lucky false
    res.2 = .ok ⟨"at://did:plc:alice/coll/a".toList, .record 5⟩ ∧
    exGet be (exW1 be) "a" = .ok ⟨"at://did:plc:alice/coll/a".toList, .record 1, .record 1⟩ ∧
    exGet be res.1 "a" = .ok ⟨"at://did:plc:alice/coll/a".toList, .record 5, .record 5⟩ := by
  cases be <;> decide +kernel

end Arroba.Xrpc
