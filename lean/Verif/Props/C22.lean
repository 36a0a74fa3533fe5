import Verif.Util.AtUri

/-! # C22: at:// URIs round-trip -/

namespace Arroba
open AtUri

theorem takeWhile_stop {p : Char → Bool} (a : Key) (c : Char) (b : Key) (ha : ∀ x ∈ a, p x = true)
    (hc : p c = false) : (a ++ c :: b).takeWhile p = a ∧ (a ++ c :: b).dropWhile p = c :: b := by
  induction a with
  | nil => simp [hc]
  | cons x a ih =>
    have hx := ha x List.mem_cons_self
    have := ih fun y hy => ha y (List.mem_cons_of_mem _ hy)
    simp [hx, this.1, this.2]

theorem takeWhile_all {p : Char → Bool} (a : Key) (ha : ∀ x ∈ a, p x = true) :
    a.takeWhile p = a ∧ a.dropWhile p = [] := by
  induction a with
  | nil => simp
  | cons x a ih =>
    have := ih fun y hy => ha y (List.mem_cons_of_mem _ hy)
    simp [ha x List.mem_cons_self, this.1, this.2]

theorem strip_noop {c : Char} {s : Key} (h1 : s.head? ≠ some c) (h2 : s.getLast? ≠ some c) :
    strip c s = s := by
  have key : ∀ t : Key, t.head? ≠ some c → t.dropWhile (· = c) = t := by
    intro t ht
    cases t with
    | nil => rfl
    | cons x xs =>
      have : x ≠ c := by simpa using ht
      simp [this]
  unfold strip
  rw [key s h1, key s.reverse (by rwa [List.head?_reverse]), List.reverse_reverse]

/-- **C22 (general form).** `parse_at_uri` inverts `at_uri` whenever: no part is empty; none
contains `?`, `#`, a tab or a newline; the DID has no slash, bracket or non-ASCII character; the
collection has no slash; and the rkey does not begin or end with a slash — inner slashes are
fine. -/
theorem C22_round_trip_general (netlocOk : Key → Bool) (did collection rkey : Key)
    (hd0 : did ≠ []) (hc0 : collection ≠ []) (hr0 : rkey ≠ [])
    (hq : ∀ c ∈ did ++ collection ++ rkey, c ≠ '?' ∧ c ≠ '#' ∧ c ≠ '\t' ∧ c ≠ '\r' ∧ c ≠ '\n')
    (hd : ∀ c ∈ did, c ≠ '/' ∧ c ≠ '[' ∧ c ≠ ']' ∧ c.toNat < 128)
    (hc : ∀ c ∈ collection, c ≠ '/')
    (hl : rkey.getLast? ≠ some '/') :
    ∃ uri, atUri did collection rkey = .ok uri ∧
      parseAtUri netlocOk uri = .ok (did, collection, rkey) := by
  refine ⟨scheme ++ did ++ '/' :: collection ++ '/' :: rkey, by simp [atUri, hd0, hc0, hr0], ?_⟩
  have hqd : ∀ c ∈ did, c ≠ '?' ∧ c ≠ '#' ∧ c ≠ '\t' ∧ c ≠ '\r' ∧ c ≠ '\n' := fun c h =>
    hq c (by simp [h])
  have hqc : ∀ c ∈ collection, c ≠ '?' ∧ c ≠ '#' ∧ c ≠ '\t' ∧ c ≠ '\r' ∧ c ≠ '\n' := fun c h =>
    hq c (by simp [h])
  have hqr : ∀ c ∈ rkey, c ≠ '?' ∧ c ≠ '#' ∧ c ≠ '\t' ∧ c ≠ '\r' ∧ c ≠ '\n' := fun c h =>
    hq c (by simp [h])
  -- the filter keeps everything
  have hfil : (scheme ++ did ++ '/' :: collection ++ '/' :: rkey).filter
      (fun c => c ≠ '\t' ∧ c ≠ '\r' ∧ c ≠ '\n') =
      scheme ++ did ++ '/' :: collection ++ '/' :: rkey := by
    rw [List.filter_eq_self]
    intro c h
    simp only [List.mem_append, List.mem_cons] at h
    simp only [decide_eq_true_eq]
    rcases h with (((h | h) | rfl | h) | rfl | h)
    · revert c; decide
    · exact (hqd c h).2.2
    · decide
    · exact (hqc c h).2.2
    · decide
    · exact (hqr c h).2.2
  have hstart : startsWith (scheme ++ did ++ '/' :: collection ++ '/' :: rkey) scheme = true := by
    simp only [startsWith, List.append_assoc, List.isPrefixOf_iff_prefix]
    exact List.prefix_append _ _
  unfold parseAtUri urlparseAt
  rw [if_neg (by rw [hstart]; simp [scheme]), hfil]
  have hdrop : (scheme ++ did ++ '/' :: collection ++ '/' :: rkey).drop 5 =
      did ++ '/' :: (collection ++ '/' :: rkey) := by
    simp [scheme]
  simp only [hdrop]
  obtain ⟨t1, t2⟩ := takeWhile_stop (p := fun c => decide ¬(c = '/' ∨ c = '?' ∨ c = '#')) did '/'
    (collection ++ '/' :: rkey)
    (by intro x hx; have := hqd x hx; have := hd x hx; simp_all) (by decide)
  obtain ⟨t3, -⟩ := takeWhile_all (p := fun c => decide ¬(c = '?' ∨ c = '#'))
    ('/' :: (collection ++ '/' :: rkey)) (by
      intro x hx
      simp only [List.mem_cons, List.mem_append] at hx
      rcases hx with rfl | h | rfl | h
      · decide
      · have := hqc x h; simp_all
      · decide
      · have := hqr x h; simp_all)
  have hsp : special did = false := by
    unfold special
    rw [List.any_eq_false]
    intro x hx
    have := hd x hx
    simp only [decide_eq_true_eq, not_or]
    exact ⟨this.2.1, this.2.2.1, by omega⟩
  rw [t1, t2, t3]
  simp only [hsp, Bool.false_eq_true, false_and, if_false]
  show Except.ok _ = _
  have hstrip : strip '/' ('/' :: (collection ++ '/' :: rkey)) = collection ++ '/' :: rkey := by
    have h1 : strip '/' ('/' :: (collection ++ '/' :: rkey)) =
        strip '/' (collection ++ '/' :: rkey) := by
      simp [strip]
    rw [h1, strip_noop]
    · cases collection with
      | nil => exact absurd rfl hc0
      | cons x xs =>
        have := hc x List.mem_cons_self
        simpa using this
    · rw [List.getLast?_append]
      cases rkey with
      | nil => exact absurd rfl hr0
      | cons x xs => simpa [List.getLast?_cons_cons] using hl
  obtain ⟨u1, u2⟩ := takeWhile_stop (p := fun c => decide (c ≠ '/')) collection '/' rkey
    (by intro x hx; have := hc x hx; simp_all) (by decide)
  unfold splitPath
  simp only [hstrip]
  rw [u1, u2]
  rfl

/-- The characters of AT Protocol DIDs, NSIDs and record keys. -/
def IsAtChar (c : Char) : Prop :=
  ('a' ≤ c ∧ c ≤ 'z') ∨ ('A' ≤ c ∧ c ≤ 'Z') ∨ ('0' ≤ c ∧ c ≤ '9') ∨
    c = '.' ∨ c = '-' ∨ c = '_' ∨ c = ':' ∨ c = '~' ∨ c = '%'

theorem IsAtChar.spec {c : Char} (h : IsAtChar c) : c ≠ '/' ∧ c ≠ '?' ∧ c ≠ '#' ∧ c ≠ '[' ∧
    c ≠ ']' ∧ c ≠ '\t' ∧ c ≠ '\r' ∧ c ≠ '\n' ∧ c.toNat < 128 := by
  have : c.toNat < 128 := by
    rcases h with ⟨-, h⟩ | ⟨-, h⟩ | ⟨-, h⟩ | rfl | rfl | rfl | rfl | rfl | rfl
    · exact Nat.lt_of_le_of_lt (UInt32.le_iff_toNat_le.mp h) (by decide)
    · exact Nat.lt_of_le_of_lt (UInt32.le_iff_toNat_le.mp h) (by decide)
    · exact Nat.lt_of_le_of_lt (UInt32.le_iff_toNat_le.mp h) (by decide)
    all_goals decide
  refine ⟨?_, ?_, ?_, ?_, ?_, ?_, ?_, ?_, this⟩ <;>
  · rintro rfl
    unfold IsAtChar at h
    revert h
    decide

/-- **C22.** For every non-empty DID, collection and rkey over the AT Protocol character set,
`at_uri` returns a URI and `parse_at_uri` of it returns the three parts. -/
theorem C22_round_trip (netlocOk : Key → Bool) (did collection rkey : Key)
    (hd0 : did ≠ []) (hc0 : collection ≠ []) (hr0 : rkey ≠ [])
    (hd : ∀ c ∈ did, IsAtChar c) (hc : ∀ c ∈ collection, IsAtChar c)
    (hr : ∀ c ∈ rkey, IsAtChar c) :
    ∃ uri, atUri did collection rkey = .ok uri ∧
      parseAtUri netlocOk uri = .ok (did, collection, rkey) := by
  apply C22_round_trip_general netlocOk did collection rkey hd0 hc0 hr0
  · intro c h
    have : IsAtChar c := by
      simp only [List.mem_append] at h
      rcases h with (h | h) | h
      · exact hd c h
      · exact hc c h
      · exact hr c h
    have := this.spec
    exact ⟨this.2.1, this.2.2.1, this.2.2.2.2.2.1, this.2.2.2.2.2.2.1, this.2.2.2.2.2.2.2.1⟩
  · intro c h
    have := (hd c h).spec
    exact ⟨this.1, this.2.2.2.1, this.2.2.2.2.1, this.2.2.2.2.2.2.2.2⟩
  · intro c h; exact (hc c h).spec.1
  · intro h
    exact (hr _ (List.mem_of_getLast? h)).spec.1 rfl

/-- **C22 (rejection).** Every string that does not start with `at://` raises ValueError, and
`at_uri` rejects empty parts. -/
theorem C22_rejects (netlocOk : Key → Bool) (uri : Key) (h : ¬ "at://".toList <+: uri) :
    parseAtUri netlocOk uri = .error .value := by
  unfold parseAtUri
  rw [if_pos]
  right
  simpa [startsWith, scheme] using h

theorem C22_rejects_empty (did collection rkey : Key)
    (h : did = [] ∨ collection = [] ∨ rkey = []) :
    atUri did collection rkey = .error .assertion := by
  unfold atUri; rw [if_pos h]

/-- **C22 (injective).** Two URIs of records over the AT Protocol character set are equal only if
the records are the same. -/
theorem C22_injective (d c r d' c' r' : Key) (uri : Key)
    (h : ∀ s ∈ [d, c, r, d', c', r'], ∀ x ∈ s, IsAtChar x)
    (h1 : atUri d c r = .ok uri) (h2 : atUri d' c' r' = .ok uri) : d = d' ∧ c = c' ∧ r = r' := by
  have ne : ∀ {d c r : Key}, atUri d c r = .ok uri → d ≠ [] ∧ c ≠ [] ∧ r ≠ [] := by
    intro d c r h
    by_contra hn
    rw [C22_rejects_empty d c r (by simp only [not_and_or, not_not, ne_eq] at hn; exact hn)] at h
    cases h
  obtain ⟨u, e1, e2⟩ := C22_round_trip (fun _ => true) d c r (ne h1).1 (ne h1).2.1 (ne h1).2.2
    (h d (by simp)) (h c (by simp)) (h r (by simp))
  obtain ⟨u', e1', e2'⟩ := C22_round_trip (fun _ => true) d' c' r' (ne h2).1 (ne h2).2.1
    (ne h2).2.2 (h d' (by simp)) (h c' (by simp)) (h r' (by simp))
  rw [h1] at e1; rw [h2] at e1'
  cases e1; cases e1'
  rw [e2] at e2'
  simp only [Except.ok.injEq, Prod.mk.injEq] at e2'
  exact e2'

/-- **C22 (limit).** Outside that character set the round trip fails: an rkey with a question
mark is cut. -/
theorem C22_query_cut : ∃ uri, atUri "did:plc:a".toList "c".toList "r?x".toList = .ok uri ∧
    parseAtUri (fun _ => true) uri = .ok ("did:plc:a".toList, "c".toList, "r".toList) :=
  ⟨"at://did:plc:a/c/r?x".toList, by decide, by decide⟩

-- the hypotheses are met
example : ∃ uri, atUri "did:web:a.com%3A80".toList "app.bsky.feed.post".toList "3k~_:-".toList = .ok uri ∧
    parseAtUri (fun _ => true) uri =
      .ok ("did:web:a.com%3A80".toList, "app.bsky.feed.post".toList, "3k~_:-".toList) := by
  apply C22_round_trip <;> (try unfold IsAtChar) <;> decide +kernel

end Arroba
