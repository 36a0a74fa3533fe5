import Verif.Did.Model
import Verif.Props.C22

/-! # C48: DID document round trip -/

namespace Arroba
open Did

/-- What is assumed of the libraries: base58 and point compression decode what they encode. -/
structure LibLaws {P : Type} (L : Lib P) : Prop where
  b58 : ∀ b, L.unb58 (L.b58 b) = .ok b
  point : ∀ c p, c ≠ .other → L.fromPoint c (L.pointBytes c p) = .ok p

theorem removePrefix_append (p s : Key) : removePrefix (p ++ s) p = s := by
  unfold removePrefix startsWith
  rw [if_pos (by rw [List.isPrefixOf_iff_prefix]; exact List.prefix_append _ _), List.drop_left]

theorem decodeDidKey_multibase {P : Type} {L : Lib P} (hL : LibLaws L) (k : PubKey P) (w : List Nat)
    (hw : wrap k.curve (L.pointBytes k.curve k.point) = .ok w) (s : Key)
    (hs : removePrefix s didKeyPrefix = 'z' :: L.b58 w) : decodeDidKey L s = .ok k := by
  obtain ⟨c, p⟩ := k
  unfold decodeDidKey
  rw [hs]
  simp only [multibaseDecode, hL.b58]
  cases c with
  | other => simp [wrap] at hw
  | secp256k1 =>
    simp only [wrap, Except.ok.injEq] at hw
    subst hw
    simp only [bind, Except.bind, unwrap, hL.point _ p (by decide : CurveName.secp256k1 ≠ .other)]
  | secp256r1 =>
    simp only [wrap, Except.ok.injEq] at hw
    subst hw
    simp only [bind, Except.bind, unwrap, hL.point _ p (by decide : CurveName.secp256r1 ≠ .other)]

/-- **C48 (keys).** `encode_did_key` accepts exactly the keys on the two supported curves, and
`decode_did_key` inverts it. -/
theorem C48_did_key {P : Type} (L : Lib P) (hL : LibLaws L) (k : PubKey P) :
    (k.curve ≠ .other → ∃ s, encodeDidKey L k = .ok s ∧ "did:key:z".toList <+: s ∧
      decodeDidKey L s = .ok k) ∧
    (k.curve = .other → encodeDidKey L k = .error .value) := by
  constructor
  · intro h
    obtain ⟨w, hw⟩ : ∃ w, wrap k.curve (L.pointBytes k.curve k.point) = .ok w := by
      cases hc : k.curve with
      | other => exact absurd hc h
      | secp256k1 => exact ⟨_, rfl⟩
      | secp256r1 => exact ⟨_, rfl⟩
    refine ⟨didKeyPrefix ++ 'z' :: L.b58 w, by simp [encodeDidKey, hw, bind, Except.bind], ?_,
      decodeDidKey_multibase hL k w hw _ (removePrefix_append _ _)⟩
    exact ⟨L.b58 w, rfl⟩
  · intro h
    simp [encodeDidKey, h, wrap, bind, Except.bind]

theorem parse_handle (netlocOk : Key → Bool) (handle : Key) (hh : ∀ c ∈ handle, IsAtChar c) :
    AtUri.parseAtUri netlocOk ("at://".toList ++ handle) = .ok (handle, [], []) := by
  unfold AtUri.parseAtUri AtUri.urlparseAt
  have hstart : startsWith ("at://".toList ++ handle) AtUri.scheme = true := by
    simp only [startsWith, List.isPrefixOf_iff_prefix]
    exact List.prefix_append _ _
  rw [if_neg (by rw [hstart]; simp)]
  have hfil : ("at://".toList ++ handle).filter
      (fun c => c ≠ '\t' ∧ c ≠ '\r' ∧ c ≠ '\n') = "at://".toList ++ handle := by
    rw [List.filter_eq_self]
    intro c h
    rcases List.mem_append.mp h with h | h
    · have : ∀ c ∈ "at://".toList, decide (c ≠ '\t' ∧ c ≠ '\r' ∧ c ≠ '\n') = true := by decide
      exact this c h
    · have := (hh c h).spec; simp_all
  have hdrop : ("at://".toList ++ handle).drop 5 = handle := by simp
  simp only [hfil, hdrop]
  obtain ⟨t1, t2⟩ := takeWhile_all (p := fun c => decide ¬(c = '/' ∨ c = '?' ∨ c = '#')) handle
    (by intro x hx; have := (hh x hx).spec; simp_all)
  have hsp : AtUri.special handle = false := by
    unfold AtUri.special
    rw [List.any_eq_false]
    intro x hx
    have := (hh x hx).spec
    simp only [decide_eq_true_eq, not_or]
    exact ⟨this.2.2.2.1, this.2.2.2.2.1, by omega⟩
  rw [t1, t2]
  simp only [hsp, Bool.false_eq_true, false_and, if_false]
  rfl

/-- A PLC operation that associates this handle, signing key and endpoint with this DID. -/
structure Describes {P : Type} (L : Lib P) (op : Dict) (did handle : Key) (signing : PubKey P)
    (endpoint : Key) : Prop where
  did : dictGet op "did".toList = some (.str did)
  handle : ∃ rest, dictGet op "alsoKnownAs".toList =
    some (.arr (.str ("at://".toList ++ handle) :: rest))
  key : ∃ m s, dictGet op "verificationMethods".toList = some (.obj m) ∧
    dictGet m "atproto".toList = some (.str s) ∧ encodeDidKey L signing = .ok s
  service : ∃ m pds, dictGet op "services".toList = some (.obj m) ∧
    dictGet m "atproto_pds".toList = some (.obj pds) ∧
    dictGet pds "endpoint".toList = some (.str endpoint)

theorem dictGet_ne {β : Type} {k k' : Key} {v : β} {d : List (Key × β)} (h : k' ≠ k) :
    dictGet ((k', v) :: d) k = dictGet d k := by
  simp [dictGet, h]

theorem dictGet_eq {β : Type} {k : Key} {v : β} {d : List (Key × β)} :
    dictGet ((k, v) :: d) k = some v := by
  simp [dictGet]

theorem didDoc_id (did key : Key) (aka ep : Json) :
    dictGet (didDoc did key aka ep) "id".toList = some (.str did) := by
  unfold didDoc
  rw [dictGet_ne (by decide), dictGet_eq]

theorem didDoc_aka (did key : Key) (aka ep : Json) :
    dictGet (didDoc did key aka ep) "alsoKnownAs".toList = some aka := by
  unfold didDoc
  rw [dictGet_ne (by decide), dictGet_ne (by decide), dictGet_eq]

theorem didDoc_vm (did key : Key) (aka ep : Json) : ∃ m,
    dictGet (didDoc did key aka ep) "verificationMethod".toList = some (.arr [.obj m]) ∧
    dictGet m "id".toList = some (.str (did ++ "#atproto".toList)) ∧
    dictGet m "publicKeyMultibase".toList = some (.str (removePrefix key didKeyPrefix)) := by
  refine ⟨[("id".toList, .str (did ++ "#atproto".toList)), ("type".toList, .str "Multikey".toList),
    ("controller".toList, .str did),
    ("publicKeyMultibase".toList, .str (removePrefix key didKeyPrefix))], ?_, ?_, ?_⟩
  · unfold didDoc
    rw [dictGet_ne (by decide), dictGet_ne (by decide), dictGet_ne (by decide), dictGet_eq]
  · exact dictGet_eq
  · rw [dictGet_ne (by decide), dictGet_ne (by decide), dictGet_ne (by decide), dictGet_eq]

/-- The document names the endpoint as the repo's server. -/
def Serves (doc : Dict) (endpoint : Key) : Prop :=
  ∃ s, dictGet doc "service".toList = some (.arr [.obj s]) ∧ dictGet s "id".toList = some (.str "#atproto_pds".toList) ∧
    dictGet s "type".toList = some (.str "AtprotoPersonalDataServer".toList) ∧
    dictGet s "serviceEndpoint".toList = some (.str endpoint)

theorem didDoc_serves (did key : Key) (aka : Json) (endpoint : Key) :
    Serves (didDoc did key aka (.str endpoint)) endpoint := by
  refine ⟨[("id".toList, .str "#atproto_pds".toList), ("type".toList, .str "AtprotoPersonalDataServer".toList),
    ("serviceEndpoint".toList, .str endpoint)], ?_, dictGet_eq, ?_, ?_⟩
  · unfold didDoc
    rw [dictGet_ne (by decide), dictGet_ne (by decide), dictGet_ne (by decide), dictGet_ne (by decide), dictGet_eq]
  · rw [dictGet_ne (by decide), dictGet_eq]
  · rw [dictGet_ne (by decide), dictGet_ne (by decide), dictGet_eq]

/-- **C48 (documents).** For every PLC operation, the DID document made from it yields the handle,
signing key and endpoint the operation carries. -/
theorem C48_doc {P : Type} (L : Lib P) (hL : LibLaws L) (op : Dict) (did handle : Key)
    (signing : PubKey P) (endpoint : Key) (h : Describes L op did handle signing endpoint)
    (hdid : did ≠ []) (hh0 : handle ≠ []) (hh : ∀ c ∈ handle, IsAtChar c) :
    ∃ doc, plcOperationToDidDoc op = .ok doc ∧ getHandle L doc = .ok (some handle) ∧
      getSigningKey L doc = .ok (some signing) ∧
      dictGet doc "id".toList = some (.str did) ∧ Serves doc endpoint := by
  obtain ⟨h1, ⟨rest, h2⟩, ⟨m, s, h3, h4, h5⟩, ⟨m', pds, h6, h7, h8⟩⟩ := h
  have hne : op ≠ [] := by rintro rfl; simp [dictGet] at h1
  refine ⟨didDoc did s (.arr (.str ("at://".toList ++ handle) :: rest)) (.str endpoint),
    ?_, ?_, ?_, ?_, didDoc_serves _ _ _ _⟩
  · unfold plcOperationToDidDoc
    rw [ensure_true hne]
    simp only [getItem, h1, h2, h3, h4, h6, h7, h8, asObj, asStr, bind, Except.bind, pure,
      Except.pure]
  · unfold getHandle
    rw [didDoc_aka]
    simp only [bind, Except.bind, asArr, getHandleLoop, asStr]
    rw [if_pos (by simp only [startsWith, List.isPrefixOf_iff_prefix]; exact List.prefix_append _ _)]
    rw [parse_handle L.netlocOk handle hh]
    simp [hh0]
  · obtain ⟨w, hw⟩ : ∃ w, wrap signing.curve (L.pointBytes signing.curve signing.point) = .ok w := by
      cases hw : wrap signing.curve (L.pointBytes signing.curve signing.point) with
      | ok w => exact ⟨w, rfl⟩
      | error e => simp [encodeDidKey, hw, bind, Except.bind] at h5
    have hs : s = didKeyPrefix ++ 'z' :: L.b58 w := by
      simpa [encodeDidKey, hw, bind, Except.bind] using h5.symm
    have hr : removePrefix s didKeyPrefix = 'z' :: L.b58 w := by
      rw [hs, removePrefix_append]
    have hr2 : removePrefix ('z' :: L.b58 w) didKeyPrefix = 'z' :: L.b58 w := by
      unfold removePrefix startsWith didKeyPrefix
      rw [if_neg (by simp [List.isPrefixOf])]
    have hdec := decodeDidKey_multibase hL signing w hw _ hr2
    obtain ⟨c, d', rfl⟩ : ∃ c d', did = c :: d' := by
      cases did with
      | nil => exact absurd rfl hdid
      | cons c d' => exact ⟨c, d', rfl⟩
    obtain ⟨vm, v1, v2, v3⟩ := didDoc_vm (c :: d') s
      (.arr (.str ("at://".toList ++ handle) :: rest)) (.str endpoint)
    unfold getSigningKey
    rw [didDoc_id]
    simp only [v1, bind, Except.bind, asArr, getSigningKeyLoop, asObj, v2, v3, hr]
    rw [if_pos trivial, hdec]
  · exact didDoc_id _ _ _ _

theorem dictGet_dictSet_ne {β : Type} {d : List (Key × β)} {k k' : Key} {v : β} (h : k' ≠ k) :
    dictGet (dictSet d k' v) k = dictGet d k := by
  induction d with
  | nil => simp [dictSet, dictGet, h]
  | cons e d ih =>
    obtain ⟨a, b⟩ := e
    unfold dictSet
    by_cases ha : a = k'
    · rw [if_pos ha, dictGet_ne h, dictGet_ne (by rw [ha]; exact h)]
    · rw [if_neg ha]
      by_cases hk : a = k
      · subst hk; rw [dictGet_eq, dictGet_eq]
      · rw [dictGet_ne hk, dictGet_ne hk, ih]

theorem dictGet_dictSet_eq {β : Type} {d : List (Key × β)} {k : Key} {v : β} :
    dictGet (dictSet d k v) k = some v := by
  induction d with
  | nil => simp [dictSet, dictGet]
  | cons e d ih =>
    obtain ⟨a, b⟩ := e
    unfold dictSet
    by_cases ha : a = k
    · rw [if_pos ha, dictGet_eq]
    · rw [if_neg ha, dictGet_ne ha, ih]

theorem prepareOp_inv {P : Type} {L : Lib P} {a : WriteArgs P} {op : Dict}
    (h : prepareOp L a = .ok op) : ∃ handle s r, a.handle = some handle ∧ handle ≠ [] ∧
      a.signingKey.curve = .secp256k1 ∧
      encodeDidKey L a.signingKey = .ok s ∧
      encodeDidKey L (a.newRotationKey.getD a.rotationKey) = .ok r ∧
      op = buildOp r s handle (pdsUrlOf L a.pdsUrl) a.alsoKnownAs.toList a.prev := by
  obtain ⟨handle, h1, h⟩ := bind_ok h
  obtain ⟨_, h2, h⟩ := bind_ok h
  obtain ⟨_, h3, h⟩ := bind_ok h
  obtain ⟨s, h4, h⟩ := bind_ok h
  obtain ⟨r, h5, h⟩ := bind_ok h
  have hh : a.handle = some handle ∧ handle ≠ [] := by
    unfold requireHandle at h1
    split at h1
    · rename_i c hd heq
      cases h1
      exact ⟨heq, by simp⟩
    · cases h1
  exact ⟨handle, s, r, hh.1, hh.2, (ensure_ok h3).1, h4, h5, by cases h; rfl⟩

theorem describes_posted {P : Type} {L : Lib P} {signing : PubKey P} {s r handle url : Key}
    {aka : List Json} {prev : Json} (sig did : Key) (hs : encodeDidKey L signing = .ok s) :
    Describes L (dictSet (dictSet (buildOp r s handle url aka prev) "sig".toList (.str sig))
      "did".toList (.str did)) did handle signing url := by
  have hg : ∀ k : Key, k ≠ "did".toList → k ≠ "sig".toList →
      dictGet (dictSet (dictSet (buildOp r s handle url aka prev) "sig".toList (.str sig))
        "did".toList (.str did)) k = dictGet (buildOp r s handle url aka prev) k := by
    intro k h1 h2
    rw [dictGet_dictSet_ne (Ne.symm h1), dictGet_dictSet_ne (Ne.symm h2)]
  refine ⟨dictGet_dictSet_eq, ⟨aka, ?_⟩, ⟨[("atproto".toList, .str s)], s, ?_, dictGet_eq, hs⟩,
    ⟨[("atproto_pds".toList, .obj [("type".toList, .str "AtprotoPersonalDataServer".toList),
      ("endpoint".toList, .str url)])], _, ?_, dictGet_eq, ?_⟩⟩
  · rw [hg _ (by decide) (by decide)]
    unfold buildOp
    rw [dictGet_ne (by decide), dictGet_ne (by decide), dictGet_ne (by decide), dictGet_eq]
  · rw [hg _ (by decide) (by decide)]
    unfold buildOp
    rw [dictGet_ne (by decide), dictGet_ne (by decide), dictGet_eq]
  · rw [hg _ (by decide) (by decide)]
    unfold buildOp
    rw [dictGet_ne (by decide), dictGet_ne (by decide), dictGet_ne (by decide),
      dictGet_ne (by decide), dictGet_eq]
  · rw [dictGet_ne (by decide), dictGet_eq]

/-- **C48.** Whenever `write_plc` (hence `create_plc` and `update_plc`) succeeds, the handle and
signing key it was given can be read back from the DID document it returns, the document's server is
the given one or by default the PDS host, and its id is the DID: the given one, or a new `did:plc`. The
directory has accepted what was posted. -/
theorem C48_write_plc {P : Type} (L : Lib P) (hL : LibLaws L) (post : Post) (a : WriteArgs P)
    (did : Key) (doc : Dict) (h : (writePlc L post a).result = .ok (did, doc))
    (handle : Key) (hh : a.handle = some handle) (hc : ∀ c ∈ handle, IsAtChar c) :
    getHandle L doc = .ok (some handle) ∧ getSigningKey L doc = .ok (some a.signingKey) ∧
      dictGet doc "id".toList = some (.str did) ∧
      Serves doc (if a.pdsUrl = [] then "https://".toList ++ L.pdsHost else a.pdsUrl) ∧
      (if a.did = [] then "did:plc:".toList <+: did else did = a.did) ∧
      ∃ url op, (writePlc L post a).posted = some (url, op) ∧ post url op = true := by
  unfold writePlc at h ⊢
  cases hp : prepareOp L a with
  | error e => rw [hp] at h; cases h
  | ok op =>
    rw [hp] at h
    dsimp only
    obtain ⟨handle', s, r, e1, e2, e3, e4, e5, rfl⟩ := prepareOp_inv hp
    rw [hh] at e1
    cases e1
    simp only [writePlcOperation, afterPost] at h ⊢
    generalize hd : (if a.did ≠ [] then a.did else _) = d at h ⊢
    split at h
    · rename_i hpost
      obtain ⟨doc', h1, h2⟩ := bind_ok h
      cases h2
      have hdne : did ≠ [] := by
        rw [← hd]; split
        · assumption
        · simp
      obtain ⟨doc'', g1, g2, g3, g4, g5⟩ := C48_doc L hL _ did handle a.signingKey _
        (describes_posted _ did e4) hdne e2 hc
      rw [h1] at g1
      cases g1
      refine ⟨g2, g3, g4, ?_, ?_, _, _, rfl, hpost⟩
      · unfold pdsUrlOf at g5
        by_cases hu : a.pdsUrl = []
        · rw [if_pos hu]; rwa [if_neg (by simpa using hu)] at g5
        · rw [if_neg hu]; rwa [if_pos hu] at g5
      by_cases ha : a.did = []
      · rw [if_pos ha, ← hd, if_neg (by simpa using ha)]
        exact List.prefix_append _ _
      · rw [if_neg ha, ← hd, if_pos ha]
    · cases h

/-- `write_plc` refuses keys on other curves, be it the signing key, the rotation key or the new rotation key, with
ValueError, and posts nothing. -/
theorem C48_refuses {P : Type} (L : Lib P) (post : Post) (a : WriteArgs P)
    (h : ∃ k, (k = a.signingKey ∨ k = a.rotationKey ∨ some k = a.newRotationKey) ∧ k.curve ≠ .secp256k1) :
    (writePlc L post a).posted = none ∧ ∃ e, (writePlc L post a).result = .error e ∧
      (∀ c s, a.handle = some (c :: s) → (a.pdsUrl ≠ [] → a.pdsUrl.getLast? ≠ some '/') →
        (a.pdsUrl = [] → ("https://".toList ++ L.pdsHost).getLast? ≠ some '/') → e = .value) := by
  obtain ⟨k, hk, hc⟩ := h
  have hcur : ¬ (a.signingKey.curve = .secp256k1 ∧ a.rotationKey.curve = .secp256k1 ∧
      (a.newRotationKey.map (·.curve)).getD .secp256k1 = .secp256k1) := by
    rintro ⟨h1, h2, h3⟩
    rcases hk with rfl | rfl | hk
    · exact hc h1
    · exact hc h2
    · rw [← hk] at h3; exact hc h3
  have key : ∃ e, prepareOp L a = .error e ∧
      (∀ c s, a.handle = some (c :: s) → (a.pdsUrl ≠ [] → a.pdsUrl.getLast? ≠ some '/') →
        (a.pdsUrl = [] → ("https://".toList ++ L.pdsHost).getLast? ≠ some '/') → e = .value) := by
    unfold prepareOp
    cases hh : requireHandle a.handle with
    | error e =>
      refine ⟨e, rfl, fun c s hs _ _ => ?_⟩
      rw [hs] at hh
      cases hh
    | ok handle =>
      simp only [bind, Except.bind, ensure]
      by_cases hu : (pdsUrlOf L a.pdsUrl).getLast? ≠ some '/'
      · rw [if_pos hu]
        dsimp only
        rw [if_neg hcur]
        exact ⟨.value, rfl, fun _ _ _ _ _ => rfl⟩
      · rw [if_neg hu]
        refine ⟨.assertion, rfl, fun c s _ h1 h2 => ?_⟩
        unfold pdsUrlOf at hu
        by_cases he : a.pdsUrl = []
        · rw [if_neg (by simpa using he)] at hu
          exact absurd (h2 he) hu
        · rw [if_pos he] at hu
          exact absurd (h1 he) hu
  obtain ⟨e, h1, h2⟩ := key
  unfold writePlc
  rw [h1]
  exact ⟨rfl, e, rfl, h2⟩

/-- The verification method has the id `i` and a key that isn't empty. -/
def HasKey (i : Key) (m : Json) (s : Key) : Prop :=
  ∃ o, m = .obj o ∧ dictGet o "id".toList = some (.str i) ∧ dictGet o "publicKeyMultibase".toList = some (.str s) ∧ s ≠ []

/-- **C48 (reading any document).** `get_signing_key` of any DID document takes the first verification method whose id is the
DID with `#atproto`, and no other; if there is none, there is no key. -/
theorem C48_signing_key {P : Type} (L : Lib P) (doc : Dict) (did : Key) (ms : List Json)
    (hid : dictGet doc "id".toList = some (.str did)) (hdid : did ≠ [])
    (hms : dictGet doc "verificationMethod".toList = some (.arr ms)) (hobj : ∀ m ∈ ms, ∃ o, m = .obj o) :
    (∀ pre m s post, ms = pre ++ m :: post → HasKey (did ++ "#atproto".toList) m s →
      (∀ m' ∈ pre, ∀ s', ¬ HasKey (did ++ "#atproto".toList) m' s') →
      getSigningKey L doc = (decodeDidKey L s).map some) ∧
    ((∀ m' ∈ ms, ∀ s', ¬ HasKey (did ++ "#atproto".toList) m' s') → getSigningKey L doc = .ok none) := by
  have hdoc : getSigningKey L doc = getSigningKeyLoop L (did ++ "#atproto".toList) ms := by
    unfold getSigningKey
    rw [hid]
    cases did with
    | nil => exact absurd rfl hdid
    | cons c did =>
      rw [hms]
      rfl
  rw [hdoc]
  generalize did ++ "#atproto".toList = i
  clear hdoc hms
  -- one method that doesn't count
  have skip : ∀ (m : Json) (rest : List Json), (∃ o, m = .obj o) → (∀ s', ¬ HasKey i m s') →
      getSigningKeyLoop L i (m :: rest) = getSigningKeyLoop L i rest := by
    rintro m rest ⟨o, rfl⟩ hno
    rw [getSigningKeyLoop]
    simp only [asObj, bind, Except.bind]
    split
    · rename_i j c s h1 h2
      rw [if_neg]
      rintro rfl
      exact hno (c :: s) ⟨o, rfl, h1, h2, by simp⟩
    · rfl
  constructor
  · rintro pre m s post rfl ⟨o, rfl, h1, h2, h3⟩ hpre
    induction pre with
    | nil =>
      rw [List.nil_append, getSigningKeyLoop]
      cases s with
      | nil => exact absurd rfl h3
      | cons c s =>
        simp only [asObj, bind, Except.bind, h1, h2, if_pos]
        cases decodeDidKey L (c :: s) <;> rfl
    | cons m' pre ih =>
      rw [List.cons_append, skip m' _ (hobj m' List.mem_cons_self) (hpre m' List.mem_cons_self)]
      exact ih (fun x hx => hobj x (.tail _ hx)) (fun x hx => hpre x (.tail _ hx))
  · intro hno
    induction ms with
    | nil => rfl
    | cons m ms ih =>
      rw [skip m _ (hobj m List.mem_cons_self) (hno m List.mem_cons_self)]
      exact ih (fun x hx => hobj x (.tail _ hx)) (fun x hx => hno x (.tail _ hx))

/-- What is posted has the rotation key, or the new one if there is one, as its only rotation key. -/
theorem C48_rotation {P : Type} (L : Lib P) (post : Post) (a : WriteArgs P) (url : Key) (op : Dict)
    (h : (writePlc L post a).posted = some (url, op)) :
    ∃ k s, (k = a.rotationKey ∧ a.newRotationKey = none ∨ a.newRotationKey = some k) ∧ encodeDidKey L k = .ok s ∧
      dictGet op "rotationKeys".toList = some (.arr [.str s]) := by
  unfold writePlc at h
  cases hp : prepareOp L a with
  | error e => rw [hp] at h; cases h
  | ok u =>
    rw [hp] at h
    simp only [writePlcOperation, Option.some.injEq, Prod.mk.injEq] at h
    obtain ⟨handle, s, r, -, -, -, -, e5, rfl⟩ := prepareOp_inv hp
    refine ⟨a.newRotationKey.getD a.rotationKey, r, ?_, e5, ?_⟩
    · cases a.newRotationKey with
      | none => exact .inl ⟨rfl, rfl⟩
      | some k => exact .inr rfl
    · rw [← h.2, dictGet_dictSet_ne (by decide)]
      unfold buildOp
      rw [dictGet_ne (by decide), dictGet_eq]

/-- **C48 (handles of any document).** The handle is that of the first `at://` alias, whatever other aliases come before
it. -/
theorem C48_handle {P : Type} (L : Lib P) (doc : Dict) (pre post : List Json) (handle : Key)
    (hpre : ∀ j ∈ pre, ∃ s, j = .str s ∧ ¬ "at://".toList <+: s) (hh0 : handle ≠ []) (hh : ∀ c ∈ handle, IsAtChar c)
    (hd : dictGet doc "alsoKnownAs".toList = some (.arr (pre ++ .str ("at://".toList ++ handle) :: post))) :
    getHandle L doc = .ok (some handle) := by
  unfold getHandle
  rw [hd]
  show getHandleLoop L _ = _
  clear hd
  induction pre with
  | nil =>
    simp only [List.nil_append, getHandleLoop, bind, Except.bind, asStr]
    rw [if_pos (by simp only [startsWith, List.isPrefixOf_iff_prefix]; exact List.prefix_append _ _),
      parse_handle L.netlocOk handle hh]
    simp [hh0]
  | cons j pre ih =>
    obtain ⟨s, rfl, hs⟩ := hpre j List.mem_cons_self
    simp only [List.cons_append, getHandleLoop, bind, Except.bind, asStr]
    rw [if_neg (by simpa only [startsWith, List.isPrefixOf_iff_prefix] using hs)]
    exact ih fun x hx => hpre x (.tail _ hx)

/-- Toy libraries: bytes are their own base58, and points are their own encoding. -/
def toyLib : Lib (List Nat) where
  pointBytes := fun _ p => p
  fromPoint := fun _ b => .ok b
  b58 := fun b => b.map Char.ofNat
  unb58 := fun s => .ok (s.map Char.toNat)
  sigOf := fun _ => "SIG".toList
  hash24 := fun _ => "abc".toList
  plcHost := "plc.directory".toList
  pdsHost := "pds.com".toList
  netlocOk := fun _ => true

-- `write_plc` succeeds on a concrete input, and its document has the handle
example : ((writePlc toyLib (fun _ _ => true)
    { handle := some "han.dle".toList, signingKey := ⟨.secp256k1, [2, 7]⟩,
      rotationKey := ⟨.secp256k1, [3, 7]⟩ }).result.toOption.map
        fun r => (String.ofList r.1, (getHandle toyLib r.2).toOption,
          (getSigningKey toyLib r.2).toOption.map (·.map (·.point)))) =
    some ("did:plc:abc", some (some "han.dle".toList), some (some [2, 7])) := by
  decide +kernel

-- an alias before the handle
example : getHandle toyLib [("alsoKnownAs".toList, .arr [.str "https://a".toList, .str "at://han.dle".toList])] =
    .ok (some "han.dle".toList) := by
  rfl

-- the key of another verification method isn't taken
example : (getSigningKey toyLib [("id".toList, .str "did:x".toList), ("verificationMethod".toList, .arr
    [.obj [("id".toList, .str "did:x#other".toList), ("publicKeyMultibase".toList, .str "zé\x01\x02\x09".toList)],
     .obj [("id".toList, .str "did:x#atproto".toList), ("publicKeyMultibase".toList, .str "zç\x01\x02\x07".toList)]])]
    ).toOption.map (·.map (·.point)) = some (some [2, 7]) := by
  decide +kernel

end Arroba
