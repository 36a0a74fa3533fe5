import Verif.Xrpc.ReferenceProofs
import Verif.Xrpc.PageProofs

/-! Helper lemmas: each request to the server does what the reference server does. -/

namespace Arroba.Xrpc

open Arroba.Store

variable {C R : Type} [DecidableEq C] {L : Lib C R} {Z : Nat} {be : Backend}
  {w : World C R} {cfg : Config R} {A : Accounts R} {out : Surroundings}

theorem truthy_iff {c : Option Key} : truthy c = true ↔ c.getD [] ≠ [] := by
  rcases c with _ | (_ | ⟨a, b⟩) <;> simp [truthy]

theorem strange_iff {c : Option Key} : unsupported cfg c ↔ Strange cfg c := by
  unfold unsupported Strange Supported
  rw [truthy_iff]
  cases c with
  | none => simp
  | some k => simp

open scoped Classical in
theorem validate_iff (inp : Input R) (coll : Option Key) :
    validate cfg inp coll = if Malformed cfg inp coll then .error .value else .ok () := by
  unfold validate
  by_cases h1 : inp.swap = true
  · rw [if_pos h1, if_pos (.inl h1)]
  rw [if_neg h1]
  by_cases h2 : truthy inp.repo = false
  · rw [if_pos h2, if_pos]
    refine .inr (.inl ?_)
    by_contra h
    rw [truthy_iff.2 h] at h2
    cases h2
  rw [if_neg h2]
  by_cases h3 : unsupported cfg coll
  · rw [if_pos h3, if_pos (.inr (.inr (.inl (strange_iff.1 h3))))]
  rw [if_neg h3]
  by_cases h4 : unsupported cfg inp.collection
  · rw [if_pos h4, if_pos (.inr (.inr (.inr (strange_iff.1 h4))))]
  rw [if_neg h4, if_neg]
  rintro (h | h | h | h)
  · exact h1 h
  · exact truthy_iff.1 (by simpa using h2) h
  · exact h3 (strange_iff.2 h)
  · exact h4 (strange_iff.2 h)

open scoped Classical in
theorem auth_iff (hf : cfg.flask = true) (header : Option Key) :
    auth cfg header = if Authorized cfg header then .ok () else .error (authErr cfg) := by
  split
  · rename_i h
    exact C44_accepted h
  · rename_i h
    obtain ⟨e, he⟩ := auth_error hf h
    unfold auth at he ⊢
    unfold authErr
    by_cases ht : truthy cfg.token = false
    · rw [if_pos ht, if_pos]
      by_contra hn
      rw [truthy_iff.2 hn] at ht
      cases ht
    · rw [if_neg ht] at he ⊢
      rw [if_neg (truthy_iff.1 (by simpa using ht))]
      split at he
      · rename_i h; rw [if_pos h]
      · cases he

/-- What is to be proved of each request. -/
def Refines (cfg : Config R) (out : Surroundings) (L : Lib C R) (be : Backend) (A : Accounts R)
    (req : Request R) (res : World C R × Answer C R) : Prop :=
  ∃ A', Serves cfg out L A req res.2 A' ∧ Keeping L be res.1 A' ∧ Reach L be .untorn res.1

/-- Loading a repo finds what the accounts say, and leads to a state of the kind `P`. -/
def LoadsAs (cfg : Config R) (L : Lib C R) (Z : Nat) (be : Backend) (P : World C R → Prop) (w : World C R)
    (A : Accounts R) (q : Key) : Prop :=
  ∃ w1 res, load cfg be w q = (w1, res) ∧ P w1 ∧
    match res with
    | .error e => Finds cfg A q (.error e)
    | .ok r => ∃ o d a, w1.heap[r]? = some o ∧ o.did = some d ∧ isDid d ∧ o.status = none ∧
      o.handle = a.handle ∧ ObjRep L Z w1.blocks o a.records ∧ A d = some a ∧
      Finds cfg A q (.ok (d, a))

theorem loadsAs (hL : L.OK Z) (hr : Reach L be .untorn w) (hk : Keeping L be w A) (q : Key) :
    LoadsAs cfg L Z be (fun w1 => Loaded w w1 ∧ Keeping L be w1 A ∧ Reach L be .untorn w1) w A q := by
  obtain ⟨w1, res, h1, h2, h3, h4, h5, h6, h7⟩ := load_finds (cfg := cfg) hL hr hk q
  exact ⟨w1, res, h1, ⟨h2, h5, h3⟩, h7⟩

/-- The answer to a request that only reads. -/
def Gives (cfg : Config R) (out : Surroundings) (L : Lib C R) (P : World C R → Prop) (A : Accounts R)
    (req : Request R) (res : World C R × Answer C R) : Prop :=
  Serves cfg out L A req res.2 A ∧ P res.1

theorem Gives.refines {req : Request R} {res : World C R × Answer C R}
    (h : Gives cfg out L (fun w1 => Loaded w w1 ∧ Keeping L be w1 A ∧ Reach L be .untorn w1) A req res) :
    Refines cfg out L be A req res := ⟨A, h.1, h.2.2⟩

theorem answers_read (hL : L.OK Z) {P : World C R → Prop} (hk : P w)
    (hl : ∀ q, LoadsAs cfg L Z be P w A q)
    (repo collection rkey : Key) (cid : Bool) (x : Chance) :
    Gives cfg out L P A (.getRecord repo collection rkey cid)
      (serve cfg out L be w x (.getRecord repo collection rkey cid)) := by
  unfold serve getRecord
  dsimp only
  rw [validate_iff]
  by_cases hm : Malformed cfg ⟨some repo, some collection, some rkey, none, false⟩ none
  · rw [if_pos hm]
    exact ⟨⟨rfl, by rw [if_pos (.inl hm)]; rfl⟩, hk⟩
  rw [if_neg hm]
  dsimp only
  cases cid with
  | true => exact ⟨⟨rfl, by rw [if_pos (.inr rfl)]; rfl⟩, hk⟩
  | false =>
    rw [if_neg (by simp)]
    obtain ⟨w1, res, h1, h5, h7⟩ := hl repo
    rw [h1]
    have hcond : ¬ (Malformed cfg ⟨some repo, some collection, some rkey, none, false⟩ none ∨
      false = true) := by rintro (h | h); exacts [hm h, by cases h]
    cases res with
    | error e => exact ⟨⟨rfl, by rw [if_neg hcond]; exact ⟨_, h7, rfl⟩⟩, h5⟩
    | ok r =>
      obtain ⟨o, d, a, g1, g2, g3, g4, g5, g6, g7, g8⟩ := h7
      have hs := g6.shows hL
      dsimp only
      rw [g1]
      dsimp only
      rw [hs.get]
      dsimp only
      rw [show collection ++ '/' :: rkey = pathOf collection rkey from rfl]
      have hser : ∀ ans, (match a.records (pathOf collection rkey) with
          | none => ans = .failed (.xrpc "RecordNotFound")
          | some r => if cfg.empty r = true then ans = .failed (.xrpc "RecordNotFound")
            else ans = .record ⟨uriOf d collection rkey, L.rcid r, .record r⟩) →
          Serves cfg out L A (.getRecord repo collection rkey false) ans A :=
        fun ans h => ⟨rfl, by rw [if_neg hcond]; exact ⟨_, g8, h⟩⟩
      cases hp : a.records (pathOf collection rkey) with
      | none => exact ⟨hser _ (by rw [hp]; rfl), h5⟩
      | some v =>
        have hu := atUri_ok g3 (hs.paths _ (by rw [hp]; simp))
        simp only [Option.map_some, falsy, g2, hu]
        by_cases he : cfg.empty v = true
        · rw [if_pos he]
          exact ⟨hser _ (by rw [hp]; simp only [if_pos he]; rfl), h5⟩
        · rw [if_neg he]
          exact ⟨hser _ (by rw [hp]; simp only [if_neg he]; rfl), h5⟩

theorem answers_list (hL : L.OK Z) {P : World C R → Prop} (hk : P w)
    (hl : ∀ q, LoadsAs cfg L Z be P w A q)
    (repo collection : Key) (limit : Nat) (cursor : Option Key) (x : Chance) :
    Gives cfg out L P A (.listRecords repo collection limit cursor)
      (serve cfg out L be w x (.listRecords repo collection limit cursor)) := by
  unfold serve listRecords
  dsimp only
  by_cases hs : Supported cfg collection
  swap
  · rw [if_pos (by unfold Supported at hs; push Not at hs; exact hs)]
    exact ⟨⟨rfl, by rw [if_pos hs]; rfl⟩, hk⟩
  rw [if_neg (by unfold Supported at hs; rintro ⟨h, h'⟩; rcases hs with g | g; exacts [h g, h' g]),
    validate_iff]
  by_cases hrepo : repo = []
  · rw [if_pos (.inr (.inl hrepo))]
    exact ⟨⟨rfl, by rw [if_neg (not_not.2 hs), if_pos (.inl hrepo)]; rfl⟩, hk⟩
  rw [if_neg (by
    rintro (h | h | ⟨k, h, _⟩ | ⟨k, h, _, h'⟩)
    · cases h
    · exact hrepo h
    · cases h
    · cases h; exact h' hs)]
  dsimp only
  by_cases hc : collection = []
  · rw [if_pos hc]
    exact ⟨⟨rfl, by rw [if_neg (not_not.2 hs), if_pos (.inr hc)]; rfl⟩, hk⟩
  rw [if_neg hc]
  obtain ⟨w1, res, h1, h5, h7⟩ := hl repo
  rw [h1]
  have hcond : ¬ (repo = [] ∨ collection = []) := by rintro (h | h); exacts [hrepo h, hc h]
  cases res with
  | error e => exact ⟨⟨rfl, by rw [if_neg (not_not.2 hs), if_neg hcond]; exact ⟨_, h7, rfl⟩⟩, h5⟩
  | ok r =>
    obtain ⟨o, d, a, g1, g2, g3, g4, g5, g6, g7, g8⟩ := h7
    have hobs := g6.shows hL
    dsimp only
    rw [g1]
    dsimp only
    rw [g2]
    dsimp only
    obtain ⟨K, k1, k2⟩ := pageEntries_all hL g6 collection cursor
    have hrec : ∀ x ∈ K.take limit, pageRecord L w1 d (pathOf collection x.1, L.rcid x.2) =
        .ok (found L d collection x) := by
      rintro ⟨k, v⟩ hx
      have hk := (k2.mem k v).mp (List.mem_of_mem_take hx)
      have hg := hobs.paths _ (by rw [hk.1]; simp)
      obtain ⟨l, t, _, ht, _⟩ := g6.tree
      obtain ⟨b, b1, b2⟩ := ht.recs _ _ hk.1
      unfold pageRecord
      have hread : w1.read (L.rcid v) = some b := b1
      dsimp only
      rw [hread]
      dsimp only
      have hsp : pySplit '/' (pathOf collection k) = [collection, k] :=
        pySplit_two.mpr ⟨rfl, grammar_split hg⟩
      rw [hsp]
      dsimp only
      rw [atUri_ok g3 hg, ok_bind, b2]
      rfl
    have hser : ∀ ans, (if limit = 0 then ans = .failed .index
        else ans = .page ⟨(K.take limit).map (found L d collection),
          if K.length < limit then none else (K.take limit).getLast?.map fun x => pathOf collection x.1⟩) →
        Serves cfg out L A (.listRecords repo collection limit cursor) ans A :=
      fun ans h => ⟨rfl, by rw [if_neg (not_not.2 hs), if_neg hcond]; exact ⟨_, g8, K, k2, h⟩⟩
    refine ⟨hser _ ?_, ?_⟩
    · rw [k1, ok_bind, mapM_map_ok hrec, ok_bind, List.length_map, List.length_take]
      by_cases hl : limit = 0
      · rw [if_pos hl, if_pos (by omega)]
        subst hl
        rfl
      · rw [if_neg hl]
        by_cases hlen : K.length < limit
        · rw [if_neg (by omega), if_pos hlen]
          rfl
        · rw [if_pos (by omega), if_neg hlen, List.getLast?_map]
          cases hg : (K.take limit).getLast? with
          | none =>
            have := congrArg List.length (List.getLast?_eq_none_iff.mp hg)
            rw [List.length_take] at this
            simp only [List.length_nil] at this
            omega
          | some y => rfl
    · rw [k1, ok_bind, mapM_map_ok hrec, ok_bind]
      split
      · split
        · exact h5
        · exact h5
      · exact h5

theorem answers_describe (hL : L.OK Z) {P : World C R → Prop} (hk : P w)
    (hl : ∀ q, LoadsAs cfg L Z be P w A q)
    (repo : Key) (x : Chance) :
    Gives cfg out L P A (.describeRepo repo) (serve cfg out L be w x (.describeRepo repo)) := by
  unfold serve describeRepo
  dsimp only
  rw [validate_iff]
  by_cases hrepo : repo = []
  · rw [if_pos (.inr (.inl hrepo))]
    exact ⟨⟨rfl, by rw [if_pos hrepo]; rfl⟩, hk⟩
  rw [if_neg (by
    rintro (h | h | ⟨k, h, _⟩ | ⟨k, h, _⟩)
    · cases h
    · exact hrepo h
    · cases h
    · cases h)]
  dsimp only
  obtain ⟨w1, res, h1, h5, h7⟩ := hl repo
  rw [h1]
  cases res with
  | error e => exact ⟨⟨rfl, by rw [if_neg hrepo]; exact ⟨_, h7, rfl⟩⟩, h5⟩
  | ok r =>
    obtain ⟨o, d, a, g1, g2, g3, g4, g5, g6, g7, g8⟩ := h7
    dsimp only
    rw [g1]
    dsimp only
    rw [g2]
    dsimp only
    have hser : ∀ ans, (if out.resolves d = false then ans = .failed .value
        else if cfg.supported ≠ [] then ans = .repo d a.handle (out.sorted cfg.supported)
        else ∃ cs, Collections a.records cs ∧ ans = .repo d a.handle cs) →
        Serves cfg out L A (.describeRepo repo) ans A :=
      fun ans h => ⟨rfl, by rw [if_neg hrepo]; exact ⟨_, g8, h⟩⟩
    by_cases hres : out.resolves d = false
    · rw [if_pos hres]
      exact ⟨hser _ (by rw [if_pos hres]; rfl), h5⟩
    rw [if_neg hres]
    by_cases hsup : cfg.supported ≠ []
    · rw [if_pos hsup]
      exact ⟨hser _ (by rw [if_neg hres, if_pos hsup, ← g5]; rfl), h5⟩
    rw [if_neg hsup]
    obtain ⟨cs, k1, k2⟩ := getContents_keys hL g6
    rw [k1]
    exact ⟨hser _ (by rw [if_neg hres, if_neg hsup]; exact ⟨_, k2, by rw [← g5]; rfl⟩), h5⟩

theorem answers_status (hL : L.OK Z) {P : World C R → Prop} (hk : P w)
    (hl : ∀ q, LoadsAs cfg L Z be P w A q)
    (did : Key) (x : Chance) :
    Gives cfg out L P A (.getRepoStatus did) (serve cfg out L be w x (.getRepoStatus did)) := by
  unfold serve getRepoStatus
  dsimp only
  obtain ⟨w1, res, h1, h5, h7⟩ := hl did
  rw [h1]
  cases res with
  | ok r =>
    obtain ⟨o, d, a, g1, g2, g3, g4, g5, g6, g7, g8⟩ := h7
    exact ⟨⟨rfl, _, g8, rfl⟩, h5⟩
  | error e =>
    cases e with
    | xrpc name =>
      dsimp only
      by_cases hn : name = "RepoDeactivated"
      · subst hn
        rw [if_pos rfl]
        exact ⟨⟨rfl, _, h7, by dsimp only; rw [if_pos rfl]; rfl⟩, h5⟩
      · rw [if_neg hn]
        exact ⟨⟨rfl, _, h7, by dsimp only; rw [if_neg (fun h => hn (Err.xrpc.inj h))]; rfl⟩, h5⟩
    | _ => exact ⟨⟨rfl, _, h7, by dsimp only; rw [if_neg (fun h => nomatch h)]; rfl⟩, h5⟩

theorem refines_read (hL : L.OK Z) (hr : Reach L be .untorn w) (hk : Keeping L be w A)
    (repo collection rkey : Key) (cid : Bool) (x : Chance) :
    Refines cfg out L be A (.getRecord repo collection rkey cid)
      (serve cfg out L be w x (.getRecord repo collection rkey cid)) :=
  (answers_read hL ⟨.refl w, hk, hr⟩ (loadsAs hL hr hk) _ _ _ _ x).refines

theorem refines_list (hL : L.OK Z) (hr : Reach L be .untorn w) (hk : Keeping L be w A)
    (repo collection : Key) (limit : Nat) (cursor : Option Key) (x : Chance) :
    Refines cfg out L be A (.listRecords repo collection limit cursor)
      (serve cfg out L be w x (.listRecords repo collection limit cursor)) :=
  (answers_list hL ⟨.refl w, hk, hr⟩ (loadsAs hL hr hk) _ _ _ _ x).refines

theorem refines_describe (hL : L.OK Z) (hr : Reach L be .untorn w) (hk : Keeping L be w A)
    (repo : Key) (x : Chance) :
    Refines cfg out L be A (.describeRepo repo) (serve cfg out L be w x (.describeRepo repo)) :=
  (answers_describe hL ⟨.refl w, hk, hr⟩ (loadsAs hL hr hk) _ x).refines

theorem refines_status (hL : L.OK Z) (hr : Reach L be .untorn w) (hk : Keeping L be w A)
    (did : Key) (x : Chance) :
    Refines cfg out L be A (.getRepoStatus did) (serve cfg out L be w x (.getRepoStatus did)) :=
  (answers_status hL ⟨.refl w, hk, hr⟩ (loadsAs hL hr hk) _ x).refines

/-- What the first half of a write does. -/
theorem putRead_gives (hL : L.OK Z) {P : World C R → Prop} (hl : ∀ q, LoadsAs cfg L Z be P w A q)
    (hf : cfg.flask = true) (header : Option Key) (inp : Input R) (hm : ¬ Malformed cfg inp none)
    (ha : Authorized cfg header) :
    ∃ w1 res, P w1 ∧ Finds cfg A (inp.repo.getD []) res ∧
      match res, inp.collection, inp.rkey with
      | .error e, _, _ => putRead cfg L be w header inp = (w1, .error e)
      | .ok (d, a), some c, some k => isDid d ∧ A d = some a ∧
        (∀ k, a.records k ≠ none → KeyGrammar k) ∧ ∃ r o, w1.heap[r]? = some o ∧ o.did = some d ∧
          o.status = none ∧
          putRead cfg L be w header inp = (w1, .ok (r, (a.records (pathOf c k)).map .record))
      | .ok _, _, _ => putRead cfg L be w header inp = (w1, .error .key) := by
  unfold putRead
  rw [validate_iff, if_neg hm, auth_iff hf, if_pos ha]
  have hq : field inp.repo = .ok (inp.repo.getD []) := by
    cases hq : inp.repo with
    | some q => rfl
    | none => exact absurd (.inr (.inl (by rw [hq]; rfl))) hm
  rw [hq]
  dsimp only
  obtain ⟨w1, res, h1, h5, h7⟩ := hl (inp.repo.getD [])
  rw [h1]
  cases res with
  | error e => exact ⟨w1, _, h5, h7, rfl⟩
  | ok r =>
    obtain ⟨o, d, a, g1, g2, g3, g4, g5, g6, g7, g8⟩ := h7
    refine ⟨w1, _, h5, g8, ?_⟩
    have hs := g6.shows hL
    cases hc : inp.collection with
    | none => rfl
    | some c =>
      cases hrk : inp.rkey with
      | none => rfl
      | some k =>
        refine ⟨g3, g7, hs.paths, r, o, g1, g2, g4, ?_⟩
        dsimp only [field]
        rw [g1]
        dsimp only
        rw [hs.get]
        rfl

theorem putRead_finds (hL : L.OK Z) (hr : Reach L be .untorn w) (hk : Keeping L be w A)
    (hf : cfg.flask = true) (header : Option Key) (inp : Input R) (hm : ¬ Malformed cfg inp none)
    (ha : Authorized cfg header) :
    ∃ w1 res, Loaded w w1 ∧ Reach L be .untorn w1 ∧ Keeping L be w1 A ∧
      Finds cfg A (inp.repo.getD []) res ∧
      match res, inp.collection, inp.rkey with
      | .error e, _, _ => putRead cfg L be w header inp = (w1, .error e)
      | .ok (d, a), some c, some k => isDid d ∧ A d = some a ∧ Shows L be w1 d a.records ∧
        (∀ k, a.records k ≠ none → KeyGrammar k) ∧ ∃ r o, w1.heap[r]? = some o ∧ o.did = some d ∧
          o.status = none ∧
          putRead cfg L be w header inp = (w1, .ok (r, (a.records (pathOf c k)).map .record))
      | .ok _, _, _ => putRead cfg L be w header inp = (w1, .error .key) := by
  obtain ⟨w1, res, ⟨h1, h2, h3⟩, h4, h5⟩ := putRead_gives hL (loadsAs (cfg := cfg) hL hr hk) hf header inp hm ha
  refine ⟨w1, res, h1, h3, h2, h4, ?_⟩
  rcases res with e | ⟨d, a⟩
  · exact h5
  · cases hc : inp.collection with
    | none => rw [hc] at h5; exact h5
    | some c =>
      cases hrk : inp.rkey with
      | none => rw [hc, hrk] at h5; exact h5
      | some k =>
        rw [hc, hrk] at h5
        obtain ⟨g1, g2, g3⟩ := h5
        obtain ⟨w2, s, o2, j1, j2, _, _, j5⟩ := h2.held d a g2
        exact ⟨g1, g2, ⟨w2, s, o2, j1, j2, j5⟩, g3⟩

theorem specPut_error {m : Key → Option R} {collection rkey : Key} {r : R}
    (hg : ∀ k, m k ≠ none → KeyGrammar k) (h : ¬ Acceptable L r (pathOf collection rkey)) :
    specWrite L m ⟨if (m (pathOf collection rkey)).isNone then .create else .update, collection, rkey,
        some r⟩ = .error .value := by
  obtain ⟨e, he⟩ := (specPut_ok (L := L) hg).2 h
  rw [he]
  have : ∀ a e, specWrite L m ⟨a, collection, rkey, some r⟩ = .error e → e = .value := by
    intro a e h
    have hsr : ∀ e, specRecord L ⟨a, collection, rkey, some r⟩ = .error e → e = .value := by
      intro e h
      unfold specRecord at h
      dsimp only at h
      split at h
      · cases h; rfl
      · split at h <;> cases h; rfl
    unfold specWrite at h
    cases a with
    | create =>
      dsimp only at h
      split at h
      · cases h; exact hsr _ (by assumption)
      · split at h
        · cases h; rfl
        · split at h <;> cases h; rfl
    | update =>
      dsimp only at h
      split at h
      · cases h; rfl
      · split at h
        · cases h; exact hsr _ (by assumption)
        · cases h
    | delete =>
      dsimp only at h
      split at h <;> cases h; rfl
  rw [this _ _ he]

theorem refines_put (hL : L.OK Z) (hr : Reach L be .untorn w) (hk : Keeping L be w A)
    (hf : cfg.flask = true) (header : Option Key) (inp : Input R) {xs : List Luck} (hx : Fine w xs) :
    ∃ A', ServesPut cfg L A header inp (reply .written (putRecord cfg L be w header inp xs false)).2 A' ∧
      Keeping L be (reply (R := R) .written (putRecord cfg L be w header inp xs false)).1 A' ∧
      Reach L be .untorn (reply (R := R) .written (putRecord cfg L be w header inp xs false)).1 := by
  unfold ServesPut
  by_cases hm : Malformed cfg inp none
  · simp only [if_pos hm]
    unfold putRecord putRead
    rw [validate_iff, if_pos hm]
    exact ⟨A, ⟨rfl, rfl⟩, hk, hr⟩
  simp only [if_neg hm]
  by_cases ha : Authorized cfg header
  swap
  · simp only [if_pos ha]
    unfold putRecord putRead
    rw [validate_iff, if_neg hm, auth_iff hf, if_neg ha]
    exact ⟨A, ⟨rfl, rfl⟩, hk, hr⟩
  simp only [if_neg (not_not.2 ha)]
  obtain ⟨w1, res, h1, h2, h3, h4, h5⟩ := putRead_finds hL hr hk hf header inp hm ha
  unfold putRecord
  cases res with
  | error e =>
    rw [show putRead cfg L be w header inp = (w1, .error e) from h5]
    exact ⟨A, ⟨_, h4, rfl, rfl⟩, h3, h2⟩
  | ok da =>
    obtain ⟨d, a⟩ := da
    cases hc : inp.collection with
    | none =>
      rw [hc] at h5
      rw [show putRead cfg L be w header inp = (w1, .error .key) from h5]
      exact ⟨A, ⟨_, h4, rfl, rfl⟩, h3, h2⟩
    | some c =>
      cases hrk : inp.rkey with
      | none =>
        rw [hc, hrk] at h5
        rw [show putRead cfg L be w header inp = (w1, .error .key) from h5]
        exact ⟨A, ⟨_, h4, rfl, rfl⟩, h3, h2⟩
      | some k =>
        rw [hc, hrk] at h5
        obtain ⟨g1, g2, g3, g4, r, o, g5, g6, g7, g8⟩ := h5
        rw [g8]
        dsimp only
        unfold putCommit
        rw [hc, hrk]
        cases hrec : inp.record with
        | none => exact ⟨A, ⟨_, h4, rfl, rfl⟩, h3, h2⟩
        | some v =>
          dsimp only [field]
          have hiso : ((a.records (pathOf c k)).map (Val.record (C := C))).isNone =
              (a.records (pathOf c k)).isNone := by
            cases a.records (pathOf c k) <;> rfl
          rw [hiso]
          have hcommit := commit_one hL h2 g5 g6 g7 g3
            ⟨if (a.records (pathOf c k)).isNone then .create else .update, c, k, some v⟩ (hx.loaded h1)
          by_cases hacc : Acceptable L v (pathOf c k)
          · rw [(specPut_ok g4).1 hacc] at hcommit
            obtain ⟨w', cd, k1, k2, o', k3, k4⟩ := hcommit
            rw [k1]
            dsimp only
            rw [k3, Option.bind_some, k4]
            dsimp only
            rw [atUri_ok g1 hacc.2.2]
            refine ⟨_, ⟨_, h4, ?_⟩, h3.after hL h2 g2 k2, k2.reach⟩
            dsimp only
            rw [if_pos hacc]
            exact ⟨rfl, rfl⟩
          · rw [specPut_error g4 hacc] at hcommit
            obtain ⟨w', k1, k2⟩ := hcommit
            rw [k1]
            refine ⟨A, ⟨_, h4, ?_⟩, h3.same_after hL h2 g2 k2, k2.reach⟩
            dsimp only
            rw [if_neg hacc]
            exact ⟨rfl, rfl⟩

theorem refines_create (hL : L.OK Z) (hr : Reach L be .untorn w) (hk : Keeping L be w A)
    (hf : cfg.flask = true) (header : Option Key) (inp : Input R) (tid : Key) (x : Chance)
    (hx : Fine w x.xs) (hcb : x.raises = false) :
    Refines cfg out L be A (.createRecord header inp tid)
      (serve cfg out L be w x (.createRecord header inp tid)) := by
  unfold serve createRecord Refines Serves
  rw [hcb]
  dsimp only
  have hcoll : (if truthy inp.collection = true then inp.collection else inp.record.bind cfg.typ) =
      if inp.collection.getD [] ≠ [] then inp.collection else inp.record.bind cfg.typ := by
    by_cases h : truthy inp.collection = true
    · rw [if_pos h, if_pos (truthy_iff.1 h)]
    · rw [if_neg h, if_neg (fun g => h (truthy_iff.2 g))]
  rw [hcoll]
  set coll := if inp.collection.getD [] ≠ [] then inp.collection else inp.record.bind cfg.typ with hco
  rw [validate_iff]
  by_cases hm : Malformed cfg inp coll
  · simp only [if_pos hm]
    exact ⟨A, ⟨rfl, rfl⟩, hk, hr⟩
  simp only [if_neg hm]
  have hm' : ¬ Malformed cfg { inp with rkey := some (inp.rkey.getD tid) } none := by
    rintro (h | h | ⟨_, h, _⟩ | h)
    · exact hm (.inl h)
    · exact hm (.inr (.inl h))
    · cases h
    · exact hm (.inr (.inr (.inr h)))
  rw [auth_iff hf]
  by_cases ha : Authorized cfg header
  swap
  · rw [if_neg ha]
    refine ⟨A, ?_, hk, hr⟩
    unfold ServesPut
    rw [if_neg hm', if_pos ha]
    exact ⟨rfl, rfl⟩
  rw [if_pos ha]
  have hq : field inp.repo = .ok (inp.repo.getD []) := by
    cases hq : inp.repo with
    | some q => rfl
    | none => exact absurd (.inr (.inl (by rw [hq]; rfl))) hm
  rw [hq]
  dsimp only
  obtain ⟨w1, res, h1, h2, h3, h4, h5, h6, h7⟩ := load_finds (cfg := cfg) hL hr hk (inp.repo.getD [])
  rw [h1]
  cases res with
  | error e =>
    refine ⟨A, ?_, h5, h3⟩
    unfold ServesPut
    rw [if_neg hm', if_neg (not_not.2 ha)]
    exact ⟨_, h7, rfl, rfl⟩
  | ok r => exact refines_put hL h3 h5 hf header _ (hx.loaded h2)

theorem refines_delete (hL : L.OK Z) (hr : Reach L be .untorn w) (hk : Keeping L be w A)
    (hf : cfg.flask = true) (header : Option Key) (inp : Input R) (x : Chance) (hx : Fine w x.xs)
    (hcb : x.raises = false) :
    Refines cfg out L be A (.deleteRecord header inp)
      (serve cfg out L be w x (.deleteRecord header inp)) := by
  unfold serve Refines Serves
  rw [hcb]
  dsimp only
  by_cases hm : Malformed cfg inp none
  · simp only [if_pos hm]
    unfold deleteRecord putRead
    rw [validate_iff, if_pos hm]
    exact ⟨A, ⟨rfl, rfl⟩, hk, hr⟩
  simp only [if_neg hm]
  by_cases ha : Authorized cfg header
  swap
  · simp only [if_pos ha]
    unfold deleteRecord putRead
    rw [validate_iff, if_neg hm, auth_iff hf, if_neg ha]
    exact ⟨A, ⟨rfl, rfl⟩, hk, hr⟩
  simp only [if_neg (not_not.2 ha)]
  obtain ⟨w1, res, h1, h2, h3, h4, h5⟩ := putRead_finds hL hr hk hf header inp hm ha
  unfold deleteRecord
  cases res with
  | error e =>
    rw [show putRead cfg L be w header inp = (w1, .error e) from h5]
    exact ⟨A, ⟨_, h4, rfl, rfl⟩, h3, h2⟩
  | ok da =>
    obtain ⟨d, a⟩ := da
    cases hc : inp.collection with
    | none =>
      rw [hc] at h5
      rw [show putRead cfg L be w header inp = (w1, .error .key) from h5]
      exact ⟨A, ⟨_, h4, rfl, rfl⟩, h3, h2⟩
    | some c =>
      cases hrk : inp.rkey with
      | none =>
        rw [hc, hrk] at h5
        rw [show putRead cfg L be w header inp = (w1, .error .key) from h5]
        exact ⟨A, ⟨_, h4, rfl, rfl⟩, h3, h2⟩
      | some k =>
        rw [hc, hrk] at h5
        obtain ⟨g1, g2, g3, g4, r, o, g5, g6, g7, g8⟩ := h5
        rw [g8]
        dsimp only
        cases hrec : a.records (pathOf c k) with
        | none =>
          refine ⟨_, ⟨_, h4, rfl, rfl⟩, ?_, h2⟩
          rw [show Function.update a.records (pathOf c k) none = a.records by
            rw [← hrec, Function.update_eq_self]]
          rw [show ({ a with records := a.records } : Account R) = a from rfl, ← g2,
            Function.update_eq_self]
          exact h3
        | some v =>
          have hcommit := commit_one hL h2 g5 g6 g7 g3 ⟨.delete, c, k, none⟩ (hx.loaded h1)
          have hsp : specWrite L a.records ⟨.delete, c, k, none⟩ =
              .ok (Function.update a.records (pathOf c k) none) := by
            unfold specWrite
            dsimp only
            rw [show (⟨.delete, c, k, none⟩ : Write R).path = pathOf c k from rfl,
              if_neg (by rw [hrec]; simp)]
          rw [hsp] at hcommit
          obtain ⟨w', cd, k1, k2, _⟩ := hcommit
          simp only [Option.map_some]
          rw [k1]
          exact ⟨_, ⟨_, h4, rfl, rfl⟩, h3.after hL h2 g2 k2, k2.reach⟩

theorem refines_apply (hr : Reach L be .untorn w) (hk : Keeping L be w A)
    (hf : cfg.flask = true) (header : Option Key) (inp : Input R) (x : Chance) :
    Refines cfg out L be A (.applyWrites header inp)
      (serve cfg out L be w x (.applyWrites header inp)) := by
  unfold serve Refines Serves applyWrites
  dsimp only
  rw [validate_iff, auth_iff hf]
  by_cases hm : Malformed cfg inp none
  · simp only [if_pos hm]
    exact ⟨A, ⟨rfl, rfl⟩, hk, hr⟩
  simp only [if_neg hm]
  by_cases ha : Authorized cfg header
  · simp only [if_pos ha, if_neg (not_not.2 ha)]
    exact ⟨A, ⟨rfl, rfl⟩, hk, hr⟩
  · simp only [if_neg ha, if_pos ha]
    exact ⟨A, ⟨rfl, rfl⟩, hk, hr⟩

theorem refines_upload (hr : Reach L be .untorn w) (hk : Keeping L be w A) (header : Option Key)
    (x : Chance) :
    Refines cfg out L be A (.uploadBlob header) (serve cfg out L be w x (.uploadBlob header)) := by
  unfold serve Refines Serves
  dsimp only
  rw [(C44_unimplemented (cfg := cfg) (w := w) header ⟨none, none, none, none, false⟩).2]
  exact ⟨A, ⟨rfl, rfl⟩, hk, hr⟩

/-- The tables after `Repo.create`. -/
theorem refines_new (hL : L.OK Z) (hr : Reach L be .untorn w) (hk : Keeping L be w A)
    {did : Did} {handle : Option Key} (hs : Proper (R := R) (.newRepo did handle)) (x : Chance)
    (hx : Fine w x.xs) (hcb : x.raises = false) :
    Refines cfg out L be A (.newRepo did handle) (serve cfg out L be w x (.newRepo did handle)) := by
  obtain ⟨hd, hh⟩ := hs
  have hh' : ∀ h, handle = some h → ¬ isDid h := fun h e => (hh h e).1
  have hw := (hr.inv hL (fun h => h)).1
  obtain ⟨e1, e2⟩ := (keeping_iff hL hr).1 hk
  have hreach : Reach L be .untorn (repoCreate L be w did handle x.key x.callback x.time x.xs false).1 :=
    .step hr (.create did handle x.key x.callback x.time x.xs false hd hh' (.inl trivial) (.inl trivial)
      (.inl trivial))
  unfold serve Refines Serves
  rw [hcb]
  dsimp only
  rcases repoCreate_spec hL (be := be) hw (did := did) (handle := handle) (key := x.key)
    (callback := x.callback) (time := x.time) (xs := x.xs) (cbFails := false) hd hh' with
    ⟨e, w', h1, h2, h3, h4, h5, h6, _, h7⟩ | ⟨w', n, b, co, h1, h2, h3, h4, h5, h6, _, h7, h8, h9, _, h10⟩
  · exfalso
    rcases h7 with h7 | h7 | h7 | ⟨y, hy, h7⟩
    · cases h7
    · exact hx.some h7
    · exact absurd hx.seq (not_lt.2 h7)
    · obtain ⟨k1, k2, _, k4⟩ := hx.luck y hy
      rcases h7 with h7 | h7 | h7
      · rw [k1] at h7; cases h7
      · rw [k2] at h7; cases h7
      · rw [k4] at h7; cases h7
  · rw [h1] at hreach ⊢
    refine ⟨_, ⟨rfl, rfl⟩, ?_, hreach⟩
    refine (keeping_iff hL hreach).2 ⟨fun d => ?_, fun d a ha => ?_⟩
    · by_cases hdd : d = did
      · subst hdd
        rw [Function.update_self]
        cases be with
        | memory =>
          unfold entryOf
          dsimp only at h10 ⊢
          rw [h10, dictGet_dictSet, if_pos rfl, Option.bind_some, h3,
            List.getElem?_append_right (Nat.le_refl _), Nat.sub_self]
          rfl
        | datastore =>
          unfold entryOf
          dsimp only at h10 ⊢
          rw [h10, dictGet_dictSet, if_pos rfl]
          rfl
      · rw [Function.update_of_ne hdd, ← e1]
        cases be with
        | memory =>
          unfold entryOf
          dsimp only at h10 ⊢
          rw [h10, dictGet_dictSet, if_neg hdd, h3]
          cases hg : dictGet w.repos d with
          | none => rfl
          | some r =>
            obtain ⟨o, ho, _⟩ := hw.core.repos d r (dictGet_mem hg)
            rw [Option.bind_some, Option.bind_some, List.getElem?_append_left (lt_of_get ho)]
        | datastore =>
          unfold entryOf
          dsimp only at h10 ⊢
          rw [h10, dictGet_dictSet, if_neg hdd]
    · by_cases hdd : d = did
      · subst hdd
        rw [Function.update_self] at ha
        cases ha
        rw [shows_iff hL h2.core hd, records_iff hL h2.core hd]
        obtain ⟨b', co', g1, g2, g3, g4⟩ := h7.root hL h2.core.blocks (b := b) rfl
        rw [h4] at g3
        cases g3
        exact ⟨_, b', co, by rw [h8, if_pos rfl], g1, g2, h5, g4⟩
      · rw [Function.update_of_ne hdd] at ha
        exact (shows_of_head hL hw.core h2.core (hk.did d a ha) (by rw [h8, if_neg hdd]) h9 _).2 (e2 d a ha)

/-- A status method with the repo just loaded. -/
theorem setStatus_keeping (hL : L.OK Z) (hr : Reach L be .untorn w) (hk : Keeping L be w A) {d : Did}
    {r : Ref} {o : RepoObj C R} {a : Account R} (ha : A d = some a) (ho : w.heap[r]? = some o)
    (hod : o.did = some d) (hrepo : be = .memory → dictGet w.repos d = some r)
    (st : Option Status) (kind : EventKind C) (time : Nat)
    (hr' : Reach L be .untorn (setStatusEvent L be w r st kind time).1) :
    (setStatusEvent L be w r st kind time).2 = .ok () ∧
    Keeping L be (setStatusEvent L be w r st kind time).1
      (Function.update A d (some { a with status := st })) := by
  obtain ⟨hw, hl⟩ := hr.inv hL (fun h => h)
  have hpw := (hr.plain hL).1
  obtain ⟨e1, e2⟩ := (keeping_iff hL hr).1 hk
  have hent := e1 d
  rw [ha] at hent
  obtain ⟨k1, k2, k3, k4⟩ := setStatus_keeps hL hpw r st kind time
  obtain ⟨g1, g2⟩ := setStatusEvent_effect hL (be := be) hw hl r st kind time
  have hw' := (hr'.inv hL (fun h => h)).1
  have hok : (setRepoStatus be w r st).2 = .ok () ∧ ∃ o', (setRepoStatus be w r st).1.heap[r]? = some o' ∧
      o'.did = some d := by
    have hset : (w.setObj r { o with status := st }).heap[r]? = some { o with status := st } := by
      show (w.heap.set r _)[r]? = _
      rw [List.getElem?_set_self (lt_of_get ho)]
    unfold setRepoStatus
    rw [ho]
    dsimp only
    cases be with
    | memory => exact ⟨rfl, _, hset, hod⟩
    | datastore =>
      rw [hod]
      dsimp only
      obtain ⟨row, hrow, _⟩ := Option.map_eq_some_iff.mp hent
      rw [show (w.setObj r { o with status := st }).rows = w.rows from rfl, hrow]
      exact ⟨rfl, _, hset, hod⟩
  refine ⟨?_, (keeping_iff hL hr').2 ⟨fun d' => ?_, fun d' a' ha' => ?_⟩⟩
  · unfold setStatusEvent
    have hw1 := (setRepoStatus_ok (be := be) hw hl r st).1
    obtain ⟨o', j1, j2⟩ := hok.2
    obtain ⟨e, _, _, j3, _⟩ := event_spec hL be hw1 j1 j2 kind time
    have := hok.1
    cases hs : setRepoStatus be w r st with
    | mk w1 res =>
      rw [hs] at this j3
      dsimp only at this j3
      subst this
      dsimp only
      rw [j3]
  · by_cases hdd : d' = d
    · subst hdd
      rw [Function.update_self]
      cases be with
      | memory =>
        have hr0 := hrepo rfl
        unfold entryOf at hent ⊢
        dsimp only at hent ⊢
        rw [hr0, Option.bind_some, ho] at hent
        rw [k3, hr0, Option.bind_some, k2 o ho]
        have := (Prod.mk.inj (Option.some.inj hent)).1
        simp only [Option.map_some, this]
      | datastore =>
        unfold entryOf at hent ⊢
        dsimp only at hent ⊢
        obtain ⟨row, hrow, hrow'⟩ := Option.map_eq_some_iff.mp hent
        have hh := (Prod.mk.inj hrow').1
        have hrow2 : dictGet (setStatusEvent L .datastore w r st kind time).1.rows d' =
            some { row with status := st } := by
          have hrs : dictGet (setRepoStatus .datastore w r st).1.rows d' =
              some { row with status := st } := by
            unfold setRepoStatus
            rw [ho]
            dsimp only
            rw [hod]
            dsimp only
            rw [show (w.setObj r { o with status := st }).rows = w.rows from rfl, hrow]
            dsimp only
            rw [dictGet_dictSet, if_pos rfl]
          unfold setStatusEvent
          have hw1 := (setRepoStatus_ok (be := .datastore) hw hl r st).1
          obtain ⟨o', j1, j2⟩ := hok.2
          obtain ⟨e, _, _, j3, _⟩ := event_spec hL .datastore hw1 j1 j2 kind time
          have := hok.1
          cases hs : setRepoStatus .datastore w r st with
          | mk w1 res =>
            rw [hs] at this j3 hrs
            dsimp only at this j3 hrs
            subst this
            dsimp only
            rw [j3]
            dsimp only
            have : ∀ (wx : World C R) (c : Bool) l, (wx.logIf c l).rows = wx.rows := by
              intro wx c l; unfold World.logIf; split <;> rfl
            rw [this]
            exact hrs
        rw [hrow2, Option.map_some, Option.map_some]
        simp only [hh]
    · rw [Function.update_of_ne hdd, ← e1]
      cases be with
      | memory =>
        unfold entryOf
        dsimp only
        rw [k3]
        cases hg : dictGet w.repos d' with
        | none => rfl
        | some r' =>
          obtain ⟨o', ho', hd'⟩ := hw.core.repos d' r' (dictGet_mem hg)
          have hne : r' ≠ r := by
            rintro rfl
            rw [ho] at ho'
            cases ho'
            rw [hod] at hd'
            exact hdd (Option.some.inj hd').symm
          rw [Option.bind_some, Option.bind_some, k1 r' hne o' ho', ho']
      | datastore =>
        unfold entryOf
        dsimp only
        rcases k4 d' with h | ⟨o', _, h, h', _⟩
        · rw [h]
        · rw [ho] at h
          cases h
          rw [hod] at h'
          exact absurd (Option.some.inj h').symm hdd
  · have hdid : isDid d' := by
      by_cases hdd : d' = d
      · subst hdd; exact hk.did d' a ha
      · rw [Function.update_of_ne hdd] at ha'
        exact hk.did d' a' ha'
    rw [shows_of_head hL hw.core hw'.core hdid (g2 d') g1]
    by_cases hdd : d' = d
    · subst hdd
      rw [Function.update_self] at ha'
      cases ha'
      exact e2 d' a ha
    · rw [Function.update_of_ne hdd] at ha'
      exact e2 d' a' ha'

theorem refines_change (hL : L.OK Z) (hr : Reach L be .untorn w) (hk : Keeping L be w A)
    {did : Did} {change : Change} (hs : Proper (R := R) (.setStatus did change)) (x : Chance) :
    Refines cfg out L be A (.setStatus did change)
      (serve cfg out L be w x (.setStatus did change)) := by
  have hd : isDid did := hs
  obtain ⟨e1, e2⟩ := (keeping_iff hL hr).1 hk
  have hp := (hr.plain hL).1.core
  unfold serve Refines Serves
  dsimp only
  rcases load_entry hL hr hd with ⟨h1, h2⟩ | ⟨w1, s, o, h1, h2, h3, h4, h5⟩
  · rw [e1] at h1
    rw [Option.map_eq_none_iff.mp h1, h2]
    exact ⟨A, ⟨rfl, rfl⟩, hk, hr⟩
  · rw [e1] at h1
    obtain ⟨a, ha, _⟩ := Option.map_eq_some_iff.mp h1
    rw [ha, h2]
    dsimp only
    have hr1 : Reach L be .untorn w1 := by
      have := Step.loadRepo (L := L) (be := be) (al := .untorn) (w := w) did
      rw [h2] at this
      exact .step hr this
    have hk1 : Keeping L be w1 A := by
      refine hk.same hL hr hr1 (h5.sameNames hp) fun d' hd' m => ?_
      have hc := (hr.inv hL (fun h => h)).1.core
      have hc1 := (hr1.inv hL (fun h => h)).1.core
      refine shows_of_head hL hc hc1 hd' ?_ (by rw [h5.blocks]; exact .refl _) m
      refine headOf_append hc h5.repos h5.rows (fun i hi => ?_) d'
      rw [h5.heap i w.heap[i] (List.getElem?_eq_getElem hi), List.getElem?_eq_getElem hi]
    have hrepo : be = .memory → dictGet w1.repos did = some s := by
      rintro rfl
      unfold loadRepo at h2
      rw [if_neg (isDid_ne_nil hd)] at h2
      dsimp only at h2
      rw [hp.findRepo hd (l := w.repos) (fun _ h => h)] at h2
      rw [h5.repos]
      exact (Except.ok.inj (Prod.mk.inj h2).2)
    have hfin : ∀ (st : Option Status) (kind : EventKind C)
        (hr' : Reach L be .untorn (setStatusEvent L be w1 s st kind x.time).1),
        st = change.status →
        ∃ A', ((reply (fun _ => Answer.done) (setStatusEvent L be w1 s st kind x.time) :
            World C R × Answer C R).2 = .done ∧
          A' = Function.update A did (some { a with status := change.status })) ∧
          Keeping L be (reply (fun _ => Answer.done) (setStatusEvent L be w1 s st kind x.time) :
            World C R × Answer C R).1 A' ∧
          Reach L be .untorn (reply (fun _ => Answer.done) (setStatusEvent L be w1 s st kind x.time) :
            World C R × Answer C R).1 := by
      intro st kind hr' hst
      obtain ⟨k1, k2⟩ := setStatus_keeping hL hr1 hk1 ha h3 h4 hrepo st kind x.time hr'
      cases hres : setStatusEvent L be w1 s st kind x.time with
      | mk w2 res =>
        rw [hres] at k1 k2 hr'
        dsimp only at k1 k2 hr'
        subst k1
        exact ⟨_, ⟨rfl, rfl⟩, hst ▸ k2, hr'⟩
    cases change with
    | activate => exact hfin _ _ (.step hr1 (.activate s x.time)) rfl
    | deactivate => exact hfin _ _ (.step hr1 (.deactivate s x.time)) rfl
    | tombstone => exact hfin _ _ (.step hr1 (.tombstone s x.time)) rfl

theorem refines_all (hL : L.OK Z) (hr : Reach L be .untorn w) (hk : Keeping L be w A)
    (hf : cfg.flask = true) {req : Request R} (hs : Proper req) (x : Chance) (hx : Fine w x.xs)
    (hcb : x.raises = false) : Refines cfg out L be A req (serve cfg out L be w x req) := by
  cases req with
  | getRecord repo collection rkey cid => exact refines_read hL hr hk _ _ _ _ x
  | listRecords repo collection limit cursor => exact refines_list hL hr hk _ _ _ _ x
  | describeRepo repo => exact refines_describe hL hr hk _ x
  | getRepoStatus did => exact refines_status hL hr hk _ x
  | putRecord header inp =>
    unfold serve Refines
    rw [hcb]
    exact refines_put hL hr hk hf header inp hx
  | createRecord header inp tid => exact refines_create hL hr hk hf header inp tid x hx hcb
  | deleteRecord header inp => exact refines_delete hL hr hk hf header inp x hx hcb
  | applyWrites header inp => exact refines_apply hr hk hf header inp x
  | uploadBlob header => exact refines_upload hr hk header x
  | newRepo did handle => exact refines_new hL hr hk hs x hx hcb
  | setStatus did change => exact refines_change hL hr hk hs x

end Arroba.Xrpc
