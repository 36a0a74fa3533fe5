import Verif.Props.C48

/-! # C49: PLC rollback and update -/

namespace Arroba
open Did

theorem getItem_ok {d : Dict} {k : Key} {v : Json} (h : getItem d k = .ok v) :
    dictGet d k = some v := by
  unfold getItem at h
  split at h
  · cases h; assumption
  · cases h

theorem asArr_ok {j : Json} {l : List Json} (h : asArr j = .ok l) : j = .arr l := by
  cases j <;> simp [asArr] at h; subst h; rfl

theorem asStr_ok {j : Json} {s : Key} (h : asStr j = .ok s) : j = .str s := by
  cases j <;> simp [asStr] at h; subst h; rfl

theorem dictGet_dictErase_ne {β : Type} {d : List (Key × β)} {k k' : Key} (h : k' ≠ k) :
    dictGet (dictErase d k') k = dictGet d k := by
  induction d with
  | nil => rfl
  | cons e d ih =>
    obtain ⟨a, b⟩ := e
    unfold dictErase at ih ⊢
    by_cases ha : a = k'
    · rw [List.filter_cons_of_neg (by simp [ha]), ih, dictGet_ne (by rw [ha]; exact h)]
    · rw [List.filter_cons_of_pos (by simp [ha])]
      by_cases hk : a = k
      · subst hk; rw [dictGet_eq, dictGet_eq]
      · rw [dictGet_ne hk, dictGet_ne hk, ih]

theorem dictGet_dictErase_self {β : Type} (d : List (Key × β)) (k : Key) :
    dictGet (dictErase d k) k = none := by
  induction d with
  | nil => rfl
  | cons e d ih =>
    obtain ⟨a, b⟩ := e
    unfold dictErase at ih ⊢
    by_cases ha : a = k
    · rw [List.filter_cons_of_neg (by simp [ha]), ih]
    · rw [List.filter_cons_of_pos (by simp [ha]), dictGet_ne ha, ih]

theorem mem_hasStr {l : List Json} {s : Key} (h : hasStr l s = true) : .str s ∈ l := by
  unfold hasStr at h
  rw [List.any_eq_true] at h
  obtain ⟨j, hj, hs⟩ := h
  cases j <;> simp at hs
  subst hs
  exact hj

/-- The `k`-th entry from the end of a log, the head being number 0. -/
def Nth (log : List LogEntry) (k : Nat) (e : LogEntry) : Prop :=
  ∃ pre post, log = pre ++ e :: post ∧ post.length = k

theorem fromEnd_ok {log : List LogEntry} {k : Nat} {e : LogEntry}
    (h : fromEnd log (k + 1) = .ok e) : Nth log k e := by
  unfold fromEnd at h
  simp only [Nat.add_sub_cancel] at h
  split at h
  · rename_i x hx
    cases h
    obtain ⟨hk, hx⟩ := List.getElem?_eq_some_iff.mp hx
    refine ⟨(log.reverse.drop (k + 1)).reverse, (log.reverse.take k).reverse, ?_, ?_⟩
    · have : log.reverse = log.reverse.take k ++ e :: log.reverse.drop (k + 1) := by
        rw [← hx, List.getElem_cons_drop, List.take_append_drop]
      have h2 := congrArg List.reverse this
      rw [List.reverse_reverse] at h2
      conv_lhs => rw [h2]
      simp
    · simp at hk ⊢; omega
  · cases h

/-- **C49 (rollback).** Whenever `rollback_plc(did, key, n)` posts an operation, the audit log has
an `n`-th previous entry, for this DID, the key is among the head operation's rotation keys, and
the posted operation agrees with the target operation on every field except `prev`, which is the
head's CID, and `sig`, which is a fresh signature; it is posted to the DID's own URL. -/
theorem C49_rollback {P : Type} (L : Lib P) (post : Post) (log : List LogEntry) (did : Key)
    (key : PubKey P) (n : Nat) (url : Key) (op : Dict)
    (h : (rollbackPlc L post log did key n).posted = some (url, op)) :
    ∃ head target rk rks unsigned, Nth log 0 head ∧ Nth log n target ∧ target.did = did ∧
      encodeDidKey L key = .ok rk ∧
      dictGet head.op "rotationKeys".toList = some (.arr rks) ∧ Json.str rk ∈ rks ∧
      (∀ k, k ≠ "prev".toList → k ≠ "sig".toList → dictGet op k = dictGet target.op k) ∧
      dictGet op "prev".toList = some (.str head.cid) ∧
      dictGet op "sig".toList = some (.str (L.sigOf unsigned)) ∧
      (∀ k, k ≠ "sig".toList → dictGet unsigned k = dictGet op k) ∧
      dictGet unsigned "sig".toList = none ∧
      url = "https://".toList ++ L.plcHost ++ '/' :: did := by
  unfold rollbackPlc at h
  cases hr : rollbackOp L log did key n with
  | error e => rw [hr] at h; cases h
  | ok u =>
    rw [hr] at h
    simp only [writePlcOperation, Option.some.injEq, Prod.mk.injEq] at h
    obtain ⟨h1, h2⟩ := h
    unfold rollbackOp at hr
    obtain ⟨_, a1, hr⟩ := bind_ok hr
    obtain ⟨_, a2, hr⟩ := bind_ok hr
    obtain ⟨rk, a3, hr⟩ := bind_ok hr
    obtain ⟨head, a4, hr⟩ := bind_ok hr
    obtain ⟨j, a5, hr⟩ := bind_ok hr
    obtain ⟨rks, a6, hr⟩ := bind_ok hr
    obtain ⟨_, a7, hr⟩ := bind_ok hr
    obtain ⟨target, a8, hr⟩ := bind_ok hr
    obtain ⟨_, a9, hr⟩ := bind_ok hr
    cases hr
    have hget : ∀ k, k ≠ "sig".toList → dictGet op k =
        dictGet (dictSet target.op "prev".toList (.str head.cid)) k := by
      intro k hk
      rw [← h2, dictGet_dictSet_ne (Ne.symm hk), dictGet_dictErase_ne (Ne.symm hk)]
    refine ⟨head, target, rk, rks,
      dictErase (dictSet target.op "prev".toList (.str head.cid)) "sig".toList, fromEnd_ok a4, fromEnd_ok a8, ensure_ok a9, a3, ?_,
      mem_hasStr (ensure_ok a7), ?_, ?_, ?_, ?_, ?_, ?_⟩
    · rw [getItem_ok a5, asArr_ok a6]
    · intro k k1 k2
      rw [hget k k2, dictGet_dictSet_ne (Ne.symm k1)]
    · rw [hget _ (by decide), dictGet_dictSet_eq]
    · rw [← h2, dictGet_dictSet_eq]
    · intro k hk
      rw [hget k hk, dictGet_dictErase_ne (Ne.symm hk)]
    · exact dictGet_dictErase_self _ _
    · rw [← h1, if_pos (ensure_ok a1)]

/-- **C49 (rollback refuses).** Nothing is posted when the log has at most `n` entries, or the key
is not among the head's rotation keys. -/
theorem C49_rollback_refuses {P : Type} (L : Lib P) (post : Post) (log : List LogEntry) (did : Key)
    (key : PubKey P) (n : Nat)
    (h : log.length ≤ n ∨ ∀ head rk rks, Nth log 0 head → encodeDidKey L key = .ok rk →
      dictGet head.op "rotationKeys".toList = some (.arr rks) → Json.str rk ∉ rks) :
    (rollbackPlc L post log did key n).posted = none ∧
      ∃ e, (rollbackPlc L post log did key n).result = .error e := by
  cases hp : (rollbackPlc L post log did key n).posted with
  | some p =>
    exfalso
    obtain ⟨head, target, rk, rks, _, b1, b2, -, b4, b5, b6, -⟩ :=
      C49_rollback L post log did key n p.1 p.2 hp
    rcases h with h | h
    · obtain ⟨pre, suf, e, hl⟩ := b2
      have := congrArg List.length e
      simp at this
      omega
    · exact h head rk rks b1 b4 b5 b6
  | none =>
    refine ⟨rfl, ?_⟩
    unfold rollbackPlc at hp ⊢
    cases hr : rollbackOp L log did key n with
    | error e => exact ⟨e, rfl⟩
    | ok u => rw [hr] at hp; cases hp

/-- **C49 (rollback happens).** Conversely, the documented use posts: a log of this DID with more
than `n` entries, whose head has the key as a rotation key. -/
theorem C49_rollback_posts {P : Type} (L : Lib P) (post : Post) (log : List LogEntry) (did : Key)
    (hdid : did ≠ []) (key : PubKey P) (n : Nat) (pre : List LogEntry) (head : LogEntry)
    (hlog : log = pre ++ [head]) (hn : n < log.length) (hall : ∀ e ∈ log, e.did = did)
    (rk : Key) (hk : encodeDidKey L key = .ok rk) (rks : List Json)
    (hrks : dictGet head.op "rotationKeys".toList = some (.arr rks)) (hmem : .str rk ∈ rks) :
    ∃ op, (rollbackPlc L post log did key n).posted =
      some ("https://".toList ++ L.plcHost ++ '/' :: did, op) := by
  have hhead : fromEnd log 1 = .ok head := by
    subst hlog
    simp [fromEnd]
  obtain ⟨t, ht⟩ : ∃ t, fromEnd log (n + 1) = .ok t := by
    unfold fromEnd
    rw [List.getElem?_eq_getElem (by simpa using hn)]
    exact ⟨_, rfl⟩
  have htd : t.did = did := by
    obtain ⟨p, s, e, -⟩ := fromEnd_ok ht
    exact hall t (by rw [e]; simp)
  have hhas : hasStr rks rk = true := by
    unfold hasStr
    rw [List.any_eq_true]
    exact ⟨_, hmem, by simp⟩
  have : rollbackOp L log did key n =
      .ok (dictErase (dictSet t.op "prev".toList (.str head.cid)) "sig".toList) := by
    unfold rollbackOp
    rw [ensure_true hdid, ok_bind, ensure_true (by omega), ok_bind, hk, ok_bind, hhead, ok_bind]
    unfold getItem
    rw [hrks, ok_bind]
    simp only [asArr]
    rw [ok_bind, ensure_true hhas, ok_bind, ht, ok_bind, ensure_true htd, ok_bind]
  unfold rollbackPlc
  rw [this]
  exact ⟨_, by simp only [writePlcOperation]; rw [if_pos hdid]⟩

/-- **C49 (update).** Whenever `update_plc` posts an operation, its `prev` is the CID of the last
operation in the log; its first alias is the new handle, or the old one when none is given; the
other aliases are those of the last operation unless `also_known_as` is given; and its signing key
is the one given. -/
theorem C49_update {P : Type} (L : Lib P) (post : Post) (log : List LogEntry) (did : Key)
    (hdid : did ≠ []) (handle : Option Key) (aka : Option Aka) (signingKey rotationKey : PubKey P)
    (newRotationKey : Option (PubKey P)) (pdsUrl : Key) (url : Key) (op : Dict)
    (h : (updatePlc L post log did handle aka signingKey rotationKey newRotationKey pdsUrl).posted
      = some (url, op)) :
    ∃ head old rest hd s, Nth log 0 head ∧
      dictGet head.op "alsoKnownAs".toList = some (.arr (old :: rest)) ∧
      dictGet op "prev".toList = some (.str head.cid) ∧
      dictGet op "alsoKnownAs".toList = some (.arr (.str ("at://".toList ++ hd) ::
        (match aka with | some l => l.toList | none => rest))) ∧
      (match handle with
        | some (c :: t) => hd = c :: t
        | _ => old = .str ("at://".toList ++ hd)) ∧
      encodeDidKey L signingKey = .ok s ∧
      dictGet op "verificationMethods".toList = some (.obj [("atproto".toList, .str s)]) ∧
      url = "https://".toList ++ L.plcHost ++ '/' :: did := by
  unfold updatePlc at h
  cases hu : updateArgs log did handle aka signingKey rotationKey newRotationKey pdsUrl with
  | error e => rw [hu] at h; cases h
  | ok a =>
    rw [hu] at h
    simp only at h
    unfold writePlc at h
    cases hp : prepareOp L a with
    | error e => rw [hp] at h; cases h
    | ok u =>
      rw [hp] at h
      simp only [writePlcOperation, Option.some.injEq, Prod.mk.injEq] at h
      obtain ⟨h1, h2⟩ := h
      obtain ⟨hd, s, r, p1, p2, -, p4, p5, rfl⟩ := prepareOp_inv hp
      unfold updateArgs at hu
      obtain ⟨last, b1, hu⟩ := bind_ok hu
      obtain ⟨j, b2, hu⟩ := bind_ok hu
      obtain ⟨l, b3, hu⟩ := bind_ok hu
      obtain ⟨⟨old, rest⟩, b4, hu⟩ := bind_ok hu
      obtain ⟨hd', b5, hu⟩ := bind_ok hu
      cases hu
      simp only [Option.some.injEq] at p1
      subst p1
      have hlast : Nth log 0 last := by
        unfold lastEntry at b1
        split at b1
        · rename_i e he
          cases b1
          obtain ⟨pre, rfl⟩ := List.getLast?_eq_some_iff.mp he
          exact ⟨pre, [], rfl, rfl⟩
        · cases b1
      have hl : l = old :: rest := by
        unfold popFirst at b4
        split at b4
        · cases b4; rfl
        · cases b4
      have hg : ∀ k, k ≠ "sig".toList → dictGet op k = dictGet (buildOp r s hd'
          (pdsUrlOf L pdsUrl) (aka.getD (.many rest)).toList (.str last.cid)) k := by
        intro k hk
        rw [← h2, dictGet_dictSet_ne (Ne.symm hk)]
      refine ⟨last, old, rest, hd', s, hlast, ?_, ?_, ?_, ?_, p4, ?_, ?_⟩
      · rw [getItem_ok b2, asArr_ok b3, hl]
      · rw [hg _ (by decide)]
        unfold buildOp
        rw [dictGet_ne (by decide), dictGet_ne (by decide), dictGet_ne (by decide),
          dictGet_ne (by decide), dictGet_ne (by decide), dictGet_eq]
      · rw [hg _ (by decide)]
        unfold buildOp
        rw [dictGet_ne (by decide), dictGet_ne (by decide), dictGet_ne (by decide), dictGet_eq]
        cases aka <;> rfl
      · have keep : ∀ {o}, asStr old = .ok o → startsWith o "at://".toList = true →
            removePrefix o "at://".toList = hd' → old = .str ("at://".toList ++ hd') := by
          intro o e1 e2 e3
          rw [asStr_ok e1]
          unfold startsWith at e2
          rw [List.isPrefixOf_iff_prefix] at e2
          obtain ⟨t, rfl⟩ := e2
          rw [removePrefix_append] at e3
          rw [e3]
        have fall : ∀ {x}, (do
            let o ← asStr old
            ensure (startsWith o "at://".toList) .assertion
            .ok (removePrefix o "at://".toList)) = Except.ok x → x = hd' →
            old = .str ("at://".toList ++ hd') := by
          intro x hx e
          obtain ⟨o, c1, hx⟩ := bind_ok hx
          obtain ⟨_, c2, hx⟩ := bind_ok hx
          cases hx
          exact keep c1 (ensure_ok c2) e
        cases handle with
        | none => exact fall b5 rfl
        | some x =>
          cases x with
          | nil => exact fall b5 rfl
          | cons c t => cases b5; rfl
      · rw [hg _ (by decide)]
        unfold buildOp
        rw [dictGet_ne (by decide), dictGet_ne (by decide), dictGet_eq]
      · rw [← h1, if_pos hdid]

/-- A log whose last entry was forked over an operation that is now nullified. -/
def forkedLog : List LogEntry :=
  [⟨"did:plc:a".toList, "c0".toList, false, [("handle".toList, .str "old".toList)]⟩,
   ⟨"did:plc:a".toList, "c1".toList, true, [("handle".toList, .str "hijacked".toList)]⟩,
   ⟨"did:plc:a".toList, "c2".toList, false,
    [("rotationKeys".toList, .arr [.str ("did:key:z".toList ++ [Char.ofNat 0xe7, Char.ofNat 1])])]⟩]

/-- **C49 (finding: nullified entries count).** PLC audit logs include nullified operations, and
`rollback_plc` counts them: here the last state before the head is `old`, but rolling back one
operation resubmits the nullified one. -/
theorem C49_rollback_nullified : ∃ url op,
    (rollbackPlc toyLib (fun _ _ => true) forkedLog "did:plc:a".toList ⟨.secp256k1, []⟩ 1).posted =
      some (url, op) ∧ dictGet op "handle".toList = some (.str "hijacked".toList) := by
  refine ⟨_, _, rfl, ?_⟩
  rfl

/-- **C49 (finding: update drops what it does not know).** `update_plc` rebuilds the operation, so
other services and verification methods of the last operation are lost, whatever they were. -/
theorem C49_update_drops {P : Type} (L : Lib P) (post : Post) (log : List LogEntry) (did : Key)
    (hdid : did ≠ []) (handle : Option Key) (aka : Option Aka) (signingKey rotationKey : PubKey P)
    (newRotationKey : Option (PubKey P)) (pdsUrl : Key) (url : Key) (op : Dict)
    (h : (updatePlc L post log did handle aka signingKey rotationKey newRotationKey pdsUrl).posted
      = some (url, op)) (k : Key) (hk : k ≠ "atproto".toList) :
    ∃ m, dictGet op "verificationMethods".toList = some (.obj m) ∧ dictGet m k = none := by
  obtain ⟨_, _, _, _, s, -, -, -, -, -, -, h7, -⟩ := C49_update L post log did hdid handle aka
    signingKey rotationKey newRotationKey pdsUrl url op h
  exact ⟨_, h7, by rw [dictGet_ne (Ne.symm hk)]; rfl⟩

-- an update that keeps the old handle is posted
example : ((updatePlc toyLib (fun _ _ => true)
    [⟨"did:plc:a".toList, "c0".toList, false,
      [("alsoKnownAs".toList, .arr [.str "at://h.com".toList, .str "https://x".toList])]⟩]
    "did:plc:a".toList none none ⟨.secp256k1, [1]⟩ ⟨.secp256k1, [2]⟩ none []).posted.map
      fun p => String.ofList p.1) = some "https://plc.directory/did:plc:a" := by decide +kernel

end Arroba
