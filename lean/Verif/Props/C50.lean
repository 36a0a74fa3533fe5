import Verif.Props.C48

/-! # C50: did:web and did:plc URLs -/

namespace Arroba
open Did

/-- **C50 (dispatch).** `resolve` fetches for exactly the `did:plc:` and `did:web:` strings and
raises ValueError for everything else, including None and the empty string. -/
theorem C50_dispatch (plcHost : Key) (utf8 : List Nat → Key) (did : Key) :
    ("did:plc:".toList <+: did →
      resolve plcHost utf8 (.str did) = .get ("https://".toList ++ plcHost ++ '/' :: did)) ∧
    ("did:web:".toList <+: did → resolve plcHost utf8 (.str did) = resolveWeb utf8 (.str did) ∧
      ∃ url, resolveWeb utf8 (.str did) = .get url) ∧
    (¬ "did:plc:".toList <+: did → ¬ "did:web:".toList <+: did →
      resolve plcHost utf8 (.str did) = .raises .value) ∧
    resolve plcHost utf8 .none = .raises .value := by
  have hp : ∀ p : Key, startsWith did p = true ↔ p <+: did := by
    intro p; unfold startsWith; rw [List.isPrefixOf_iff_prefix]
  refine ⟨?_, ?_, ?_, rfl⟩
  · intro h
    have hne : did ≠ [] := by rintro rfl; simp at h
    simp only [resolve, resolvePlc]
    rw [if_pos hne, if_pos ((hp _).mpr h), if_pos ((hp _).mpr h)]
  · intro h
    have hne : did ≠ [] := by rintro rfl; simp at h
    have hnp : ¬ startsWith did "did:plc:".toList = true := by
      rw [hp]
      obtain ⟨t, rfl⟩ := h
      rintro ⟨t', h'⟩
      simp at h'
    constructor
    · simp only [resolve]
      rw [if_pos hne, if_neg hnp, if_pos ((hp _).mpr h)]
    · simp only [resolveWeb]
      rw [if_pos ((hp _).mpr h)]
      exact ⟨_, rfl⟩
  · intro h1 h2
    simp only [resolve]
    split
    · rw [if_neg (by rwa [hp]), if_neg (by rwa [hp])]
    · rfl

theorem resolveWeb_eq (utf8 : List Nat → Key) (rest : Key) :
    resolveWeb utf8 (.str ("did:web:".toList ++ rest)) = .get ("https://".toList ++
      unquote utf8 (if ':' ∈ rest then rest.map (fun c => if c = ':' then '/' else c)
        else rest ++ "/.well-known".toList) ++ "/did.json".toList) := by
  rw [resolveWeb, if_pos (by
    unfold startsWith; rw [List.isPrefixOf_iff_prefix]; exact List.prefix_append _ _),
    removePrefix_append, webPath]

/-- **C50 (bare host).** -/
theorem C50_bare_host (utf8 : List Nat → Key) (host : Key) (h1 : ':' ∉ host) (h2 : '%' ∉ host) :
    resolveWeb utf8 (.str ("did:web:".toList ++ host)) =
      .get ("https://".toList ++ host ++ "/.well-known/did.json".toList) := by
  rw [resolveWeb_eq, if_neg h1, unquote, if_neg (by simp [h2])]
  simp

/-- **C50 (paths).** A DID with path segments. -/
theorem C50_path (utf8 : List Nat → Key) (host seg : Key) (segs : List Key)
    (h1 : ∀ s ∈ host :: seg :: segs, ':' ∉ s ∧ '%' ∉ s) :
    resolveWeb utf8 (.str ("did:web:".toList ++ host ++ (seg :: segs).flatMap (':' :: ·))) =
      .get ("https://".toList ++ host ++ (seg :: segs).flatMap ('/' :: ·) ++
        "/did.json".toList) := by
  rw [List.append_assoc, resolveWeb_eq, if_pos (by simp)]
  have key : ∀ s : Key, ':' ∉ s → s.map (fun c => if c = ':' then '/' else c) = s := by
    intro s hs
    conv_rhs => rw [← List.map_id s]
    apply List.map_congr_left
    intro c hc
    rw [if_neg (by rintro rfl; exact hs hc)]; rfl
  have hmap : ∀ l : List Key, (∀ s ∈ l, ':' ∉ s) →
      (l.flatMap (':' :: ·)).map (fun c => if c = ':' then '/' else c) =
        l.flatMap ('/' :: ·) := by
    intro l hl
    induction l with
    | nil => rfl
    | cons s l ih =>
      simp only [List.flatMap_cons, List.map_append, List.map_cons, if_pos]
      rw [key s (hl s (by simp)), ih fun t ht => hl t (by simp [ht])]
  have e : (host ++ (seg :: segs).flatMap (':' :: ·)).map (fun c => if c = ':' then '/' else c) =
      host ++ (seg :: segs).flatMap ('/' :: ·) := by
    rw [List.map_append, key host (h1 host (by simp)).1,
      hmap _ fun s hs => (h1 s (by simp only [List.mem_cons] at hs ⊢; tauto)).1]
  rw [e, unquote, if_neg ?_]
  · simp
  · simp only [List.mem_append, List.mem_flatMap, not_or, not_exists, not_and, List.mem_cons]
    refine ⟨(h1 host (by simp)).2, fun s hs => ⟨by decide, (h1 s ?_).2⟩⟩
    simp only [List.mem_cons]; tauto

/-- Bytes of ASCII text. -/
def IsAsciiDecoder (utf8 : List Nat → Key) : Prop :=
  ∀ s : Key, (∀ c ∈ s, c.toNat < 128) → utf8 (s.map Char.toNat) = s

theorem unquoteToBytes_plain (s t : Key) (h : '%' ∉ s) :
    unquoteToBytes (s ++ t) = s.map Char.toNat ++ unquoteToBytes t := by
  induction s with
  | nil => rfl
  | cons c s ih =>
    have hc : c ≠ '%' := fun e => h (by simp [e])
    have hs : '%' ∉ s := fun e => h (by simp [e])
    rw [List.cons_append, unquoteToBytes.eq_def]
    split
    · rename_i heq; simp at heq; exact absurd heq.1 hc
    · rename_i heq
      simp only [List.cons.injEq] at heq
      obtain ⟨rfl, rfl⟩ := heq
      rw [ih hs]; rfl
    · rename_i heq; cases heq

/-- **C50 (ports).** `did:web:HOST%3APORT` is fetched from `HOST:PORT`. -/
theorem C50_port (utf8 : List Nat → Key) (hu : IsAsciiDecoder utf8) (host port : Key)
    (h1 : ∀ c ∈ host ++ port, c ≠ ':' ∧ c ≠ '%' ∧ c.toNat < 128) :
    resolveWeb utf8 (.str ("did:web:".toList ++ (host ++ "%3A".toList ++ port))) =
      .get ("https://".toList ++ host ++ ':' :: port ++ "/.well-known/did.json".toList) := by
  have hc : ':' ∉ host ++ "%3A".toList ++ port := by
    intro h
    simp only [List.mem_append] at h
    rcases h with (h | h) | h
    · exact (h1 ':' (by simp [h])).1 rfl
    · revert h; decide
    · exact (h1 ':' (by simp [h])).1 rfl
  rw [resolveWeb_eq, if_neg hc, unquote, if_pos (by simp)]
  have hb : unquoteToBytes (host ++ "%3A".toList ++ port ++ "/.well-known".toList) =
      (host ++ ':' :: port ++ "/.well-known".toList).map Char.toNat := by
    rw [List.append_assoc, List.append_assoc,
      unquoteToBytes_plain host _ (fun h => (h1 '%' (by simp [h])).2.1 rfl)]
    have : unquoteToBytes ("%3A".toList ++ (port ++ "/.well-known".toList)) =
        58 :: unquoteToBytes (port ++ "/.well-known".toList) := rfl
    rw [this, unquoteToBytes_plain port _ (fun h => (h1 '%' (by simp [h])).2.1 rfl)]
    simp only [List.map_append, List.map_cons, List.append_assoc, List.cons_append]
    rfl
  rw [hb, hu]
  · simp
  · intro c hc
    simp only [List.mem_append, List.mem_cons] at hc
    rcases hc with (h | rfl | h) | h
    · exact (h1 c (by simp [h])).2.2
    · decide
    · exact (h1 c (by simp [h])).2.2
    · revert c; decide

/-- **C50 (finding: the host is not checked).** Anything may follow `did:web:`; a percent-encoded
`@` turns what looks like the host into a user name, so that `did:web:good.com%40evil.com` is
fetched from evil.com. -/
theorem C50_userinfo (utf8 : List Nat → Key) (hu : IsAsciiDecoder utf8) :
    resolveWeb utf8 (.str "did:web:good.com%40evil.com".toList) =
      .get "https://good.com@evil.com/.well-known/did.json".toList := by
  have h : "did:web:good.com%40evil.com".toList =
    "did:web:".toList ++ "good.com%40evil.com".toList := by decide
  rw [h, resolveWeb_eq, if_neg (by decide), unquote, if_pos (by decide)]
  have : unquoteToBytes ("good.com%40evil.com".toList ++ "/.well-known".toList) =
      ("good.com@evil.com/.well-known".toList).map Char.toNat := by decide
  rw [this, hu _ (by decide)]
  rfl

-- the hypotheses are met
example : IsAsciiDecoder (fun b => b.map Char.ofNat) := by
  intro s _
  simp only [List.map_map]
  conv_rhs => rw [← List.map_id s]
  apply List.map_congr_left
  intro c _
  simp
example : resolveWeb (fun b => b.map Char.ofNat) (.str "did:web:a.com:u:x".toList) =
    .get "https://a.com/u/x/did.json".toList := by decide

end Arroba
