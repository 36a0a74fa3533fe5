import Verif.Did.HandleProofs
import Mathlib.Tactic.Linarith

/-!
# C59: handle resolution

What a handle is, and where its DID is published, is in `HandleSpec.lean`.
-/

namespace Arroba
open Did

variable {dns : Key → Dns} {web : Key → Web} {h : Key}

/-- **C59, which handles.** The handles that are not rejected are those of the grammar. -/
theorem C59_accepts : (resolveHandle dns web h).2 ≠ .error .value ↔ ValidHandle h := by
  rw [← fullmatch_handle]
  unfold resolveHandle
  by_cases h0 : h = []
  · subst h0
    rw [if_pos (.inl rfl)]
    exact ⟨fun hn => absurd rfl hn, fun hv => absurd rfl ((fullmatch_handle []).1 hv).ne_nil⟩
  · by_cases hm : handleRe.fullmatch h = true
    · rw [if_neg (by simp [h0, hm])]
      refine ⟨fun _ => hm, fun _ => ?_⟩
      split <;> simp
    · rw [if_pos (.inr (by simpa using hm))]
      exact ⟨fun hn => absurd rfl hn, fun hv => absurd hv hm⟩

/-- **C59, other strings.** They raise ValueError, and no request is made. -/
theorem C59_rejects (hv : ¬ ValidHandle h) : resolveHandle dns web h = ([], .error .value) := by
  rw [← fullmatch_handle] at hv
  unfold resolveHandle
  rw [if_pos (.inr (by simpa using hv))]

theorem resolveHandle_valid (hv : ValidHandle h) : resolveHandle dns web h =
    match viaDns (txtName h) (dns (txtName h)) with
    | some did => ([.txt (txtName h)], .ok (some did))
    | none => ([.txt (txtName h), .get (wellKnown h)], .ok (viaWeb (web (wellKnown h)))) := by
  unfold resolveHandle
  exact if_neg fun hn => hn.elim hv.ne_nil fun h0 => by
    rw [(fullmatch_handle h).2 hv] at h0; cases h0

/-- **C59, requests.** Nothing is asked but the TXT records of `_atproto.` plus the handle, and, only
if they don't give a DID, the well-known page of the handle. -/
theorem C59_requests (hv : ValidHandle h) :
    (resolveHandle dns web h).1 = [.txt ("_atproto.".toList ++ h ++ ".".toList)] ∨
    (resolveHandle dns web h).1 = [.txt ("_atproto.".toList ++ h ++ ".".toList),
      .get ("https://".toList ++ h ++ "/.well-known/atproto-did".toList)] := by
  rw [resolveHandle_valid hv]
  split
  · exact .inl rfl
  · exact .inr rfl

/-- **C59, the host.** The host of that page is the handle, whatever the handle is: nothing in a handle
ends the host, or is taken for a port or a user name, and it is not an IPv4 address. -/
theorem C59_host (hv : ValidHandle h) {url : Key} (hu : Request.get url ∈ (resolveHandle dns web h).1) :
    url = "https://".toList ++ h ++ "/.well-known/atproto-did".toList ∧
    (url.drop 8).takeWhile (fun c => decide (c ∉ "/?#\\@:%[]".toList)) = h ∧
    ∃ name top c, h = name ++ '.' :: top ∧ '.' ∉ top ∧ top.head? = some c ∧ c.isAlpha = true := by
  have h1 : url = wellKnown h := by
    rcases C59_requests (dns := dns) (web := web) hv with he | he
    · rw [he] at hu; simp at hu
    · rw [he] at hu
      simp at hu
      exact hu
  subst h1
  refine ⟨rfl, ?_, ?_⟩
  · show (h ++ "/.well-known/atproto-did".toList).takeWhile _ = h
    rw [List.takeWhile_append_of_pos]
    · exact List.append_nil h
    · intro c hc
      rw [decide_eq_true_eq]
      have hok : ∀ c ∈ "/?#\\@:%[]".toList, c.isAlphanum = false ∧ c ≠ '-' ∧ c ≠ '.' := by decide
      intro hm
      obtain ⟨a, b, d⟩ := hok c hm
      rcases hv.chars hc with h2 | h2 | h2
      · rw [a] at h2; cases h2
      · exact b h2
      · exact d h2
  · obtain ⟨labels, top, hne, rfl, _, ht, c, hc1, hc2⟩ := hv
    obtain ⟨ls, l, rfl⟩ := (List.eq_nil_or_concat labels).resolve_left hne
    refine ⟨(ls.map (· ++ ['.'])).flatten ++ l, top, c, ?_, fun hm => ?_, hc1, hc2⟩
    · rw [intercalate_concat]; simp
    · rcases ht.2.2.1 '.' hm with h2 | h2
      · exact absurd h2 (by decide)
      · exact absurd h2 (by decide)

/-- **C59, the DID.** When DNS answers with TXT records of one plain string each, and perhaps records of
other types, the result is the DID in the first record that begins with `did=did:`, unless the name is an
alias of another; and otherwise what the well-known page says. -/
theorem C59_resolves_partial (hv : ValidHandle h) {canonical : Key} {recs : List (Option Key)}
    (hd : dns (txtName h) = .answer canonical (recs.map (Option.map fun t => [t.map Char.toNat])))
    (hp : ∀ t, some t ∈ recs → ∀ c ∈ t, Plain c) {did : Key} :
    (resolveHandle dns web h).2 = .ok (some did) ↔
      (canonical = txtName h ∧ recs.findSome? (fun r => r.bind didOfTxt) = some did) ∨
      (¬ (canonical = txtName h ∧ ∃ t, some t ∈ recs ∧ "did=did:".toList <+: t) ∧
        ∃ text, web (wellKnown h) = .response true text ∧
          Page (fun c => isSpace c = true) text did) := by
  rw [resolveHandle_valid hv, hd]
  unfold viaDns
  dsimp only
  rw [txtLoop_plain hp, ← viaWeb_iff]
  have hs : (∃ t, some t ∈ recs ∧ "did=did:".toList <+: t) ↔
      recs.findSome? (fun r => r.bind didOfTxt) ≠ none := by
    rw [Ne, List.findSome?_eq_none_iff]
    constructor
    · rintro ⟨t, h1, h2⟩ hn
      have := hn _ h1
      rw [Option.bind_some, didOfTxt, if_pos h2] at this
      cases this
    · intro hn
      by_contra hc
      apply hn
      intro r hr
      cases r with
      | none => rfl
      | some t =>
        rw [Option.bind_some, didOfTxt, if_neg]
        exact fun h2 => hc ⟨t, hr, h2⟩
  rw [hs]
  by_cases hcan : canonical = txtName h
  · rw [if_pos hcan]
    cases hf : recs.findSome? (fun r => r.bind didOfTxt) with
    | none => simp [hcan]
    | some d => simp [hcan]
  · rw [if_neg hcan]
    simp [hcan]

/-- **C59, no DNS.** When DNS gives no answer, the result is what the well-known page says. -/
theorem C59_fallback (hv : ValidHandle h) (hd : dns (txtName h) = .exception) {did : Key} :
    (resolveHandle dns web h).2 = .ok (some did) ↔ ∃ text, web (wellKnown h) = .response true text ∧
      Page (fun c => isSpace c = true) text did := by
  rw [resolveHandle_valid hv, hd]
  unfold viaDns
  rw [← viaWeb_iff]
  simp

/-- **C59, never more.** Whatever the answers look like, a DID is only returned if a TXT record of exactly
this name, or the well-known page, says so; and it begins with `did:`. -/
theorem C59_sound {did : Key} (hr : (resolveHandle dns web h).2 = .ok (some did)) :
    "did:".toList <+: did ∧
    ((∃ records s ss, dns ("_atproto.".toList ++ h ++ ".".toList) =
        .answer ("_atproto.".toList ++ h ++ ".".toList) records ∧
        some (s :: ss) ∈ records ∧ "did=did:".toList.map Char.toNat <+: s) ∨
      ∃ text, web ("https://".toList ++ h ++ "/.well-known/atproto-did".toList) = .response true text ∧
        Page (fun c => isSpace c = true) text did) := by
  have hv : ValidHandle h := by
    refine (C59_accepts (dns := dns) (web := web)).1 ?_
    rw [hr]; simp
  rw [resolveHandle_valid hv] at hr
  split at hr
  · rename_i d hd
    cases hr
    unfold viaDns at hd
    split at hd
    · cases hd
    · rename_i canonical records hdns
      split at hd
      · rename_i hcan
        obtain ⟨h1, s, ss, h2, h3⟩ := txtLoop_sound hd
        exact ⟨h1, .inl ⟨records, s, ss, by rw [hcan] at hdns; exact hdns, h2, h3⟩⟩
      · cases hd
  · have hw : viaWeb (web (wellKnown h)) = some did := by simpa using hr
    obtain ⟨text, h1, h2⟩ := viaWeb_iff.1 hw
    have h3 := h2
    obtain ⟨_, _, _, _, _, _, h4⟩ := h3
    exact ⟨h4, .inr ⟨text, h1, h2⟩⟩

/-! ### The cache -/

section
variable {A B : Type} [DecidableEq A] {ttl : Int} {R : Int → A → B → Prop}

/-- **C59, the cache.** Whatever calls are made concurrently, and whatever is thrown out of the cache, what
the cached function returns is what the function itself has returned for the same argument, and not longer
ago than values are kept (`R t a b`: the function returned `b` for `a` at time `t`). -/
theorem C59_cache (httl : 0 < ttl) {as : List (CacheAct A B)} {c : Cache A B}
    (hs : Cache.run ttl ⟨[], []⟩ as = some c) (hx : ∀ a b now, .finish a b now ∈ as → R now a b)
    (ht : (as.filterMap CacheAct.time).Pairwise (· ≤ ·)) {a : A} {b : B} {now : Int}
    (hg : (a, b, now) ∈ c.got) : ∃ t, R t a b ∧ t ≤ now ∧ now < t + ttl := by
  cases hl : as.filterMap CacheAct.time with
  | nil =>
    refine Genuine.run (clock := 0) httl .empty hs hx ?_ a b now hg
    rw [hl]; simp
  | cons t ts =>
    refine Genuine.run (clock := t) httl .empty hs hx ?_ a b now hg
    rw [hl] at ht ⊢
    refine List.pairwise_cons.2 ⟨fun x hx => ?_, ht⟩
    rcases List.mem_cons.1 hx with rfl | hx
    · exact Int.le_refl _
    · exact (List.pairwise_cons.1 ht).1 x hx
end

/-! ### Examples -/

def asKey (s : String) : Key := s.toList

/-- TXT records as bytes. -/
def txtRecs (l : List String) : List (Option (List (List Nat))) := l.map fun s => some [s.toList.map Char.toNat]

def noDns : Key → Dns := fun _ => .exception
def noWeb : Key → Web := fun _ => .exception

/-- Records for one name. -/
def dnsFor (name : String) (records : List (Option (List (List Nat)))) : Key → Dns :=
  fun n => if n = name.toList then .answer name.toList records else .exception

/-- A page at one URL. -/
def pageAt (url text : String) : Key → Web :=
  fun u => if u = url.toList then .response true text.toList else .exception

example : ValidHandle (asKey "a-b.c9.example") := (fullmatch_handle _).1 (by decide +kernel)

/-- Without a dot, with a hyphen at an end, with an empty label, with a top label that begins with a digit,
with other characters, or with a line break at the end: not a handle. -/
example : ∀ h ∈ ["", "localhost", "-a.b", "a-.b", "a..b", ".a.b", "a.b.", "1.2.3.4", "a.b/c", "a.b:80",
    "a@b.c", "a.b\n", "ü.de"], ¬ ValidHandle (asKey h) := by
  intro h hm hv
  have hf := (fullmatch_handle _).2 hv
  revert hf
  clear hv
  revert h
  decide +kernel

example : resolveHandle (dnsFor "_atproto.a.com." (none :: txtRecs ["x", "did=did:plc:xyz", "did=did:web:b"]))
    noWeb (asKey "a.com") = ([.txt (asKey "_atproto.a.com.")], .ok (some (asKey "did:plc:xyz"))) := by decide +kernel

example : resolveHandle (dnsFor "_atproto.a.com." (txtRecs ["did=plc"]))
    (pageAt "https://a.com/.well-known/atproto-did" " did:web:a.com\n") (asKey "a.com") =
    ([.txt (asKey "_atproto.a.com."), .get (asKey "https://a.com/.well-known/atproto-did")],
      .ok (some (asKey "did:web:a.com"))) := by decide +kernel

example : resolveHandle noDns noWeb (asKey "a.com") =
    ([.txt (asKey "_atproto.a.com."), .get (asKey "https://a.com/.well-known/atproto-did")], .ok none) := by
  decide +kernel

/-- The hypotheses of `C59_resolves_partial` are met. -/
example : ∃ (dns : Key → Dns) (recs : List (Option Key)), ValidHandle (asKey "a.com") ∧
    dns (txtName (asKey "a.com")) =
      .answer (txtName (asKey "a.com")) (recs.map (Option.map fun t => [t.map Char.toNat])) ∧
    (∀ t, some t ∈ recs → ∀ c ∈ t, Plain c) ∧
    recs.findSome? (fun r => r.bind didOfTxt) = some (asKey "did:plc:xyz") := by
  refine ⟨dnsFor "_atproto.a.com." (txtRecs ["did=did:plc:xyz"]), [some (asKey "did=did:plc:xyz")],
    (fullmatch_handle _).1 (by decide +kernel), by decide +kernel, ?_, by decide +kernel⟩
  intro t ht
  simp at ht
  subst ht
  unfold Plain
  decide +kernel

/-- Two callers; the second asks while the first one's answer is cached, and again after it expired. -/
def exCache : List (CacheAct Key (Option Key)) :=
  [.finish (asKey "a.com") none 0, .hit (asKey "a.com") 21599, .finish (asKey "a.com") (some (asKey "did:web:a")) 21600]

/-- Six hours. That a handle could not be resolved is cached too. -/
example : (Cache.run 21600 ⟨[], []⟩ exCache).map (·.got) =
    some [(asKey "a.com", none, 0), (asKey "a.com", none, 21599), (asKey "a.com", some (asKey "did:web:a"), 21600)] := by
  decide +kernel

example : Cache.run 21600 (⟨[], []⟩ : Cache Key (Option Key)) [.finish (asKey "a.com") none 0,
    .hit (asKey "a.com") 21600] = none := by decide +kernel

/-! ### Counterexamples -/

/-- A TXT record may consist of several strings, which belong together. Then what is returned is not the DID,
but has the quotes and the space of dnspython's text form in it. -/
theorem C59_strings_false : (resolveHandle (dnsFor "_atproto.a.com."
    [some ["did=did:plc:".toList.map Char.toNat, "xyz".toList.map Char.toNat]]) noWeb (asKey "a.com")).2 =
    .ok (some (asKey "did:plc:\" \"xyz")) := by decide +kernel

/-- Records that contradict each other should make the handle invalid; here the first wins, and DNS
returns them in any order. -/
theorem C59_conflict_false : ∃ recs recs' : List (Option (List (List Nat))), recs.Perm recs' ∧
    (resolveHandle (dnsFor "_atproto.a.com." recs) noWeb (asKey "a.com")).2 = .ok (some (asKey "did:web:b")) ∧
    (resolveHandle (dnsFor "_atproto.a.com." recs') noWeb (asKey "a.com")).2 = .ok (some (asKey "did:web:c")) :=
  ⟨txtRecs ["did=did:web:b", "did=did:web:c"], txtRecs ["did=did:web:c", "did=did:web:b"], .swap .., by decide +kernel,
    by decide +kernel⟩

/-- What is returned need not be a DID. -/
theorem C59_garbage_false : (resolveHandle noDns
    (pageAt "https://a.com/.well-known/atproto-did" "did: <html>") (asKey "a.com")).2 =
    .ok (some (asKey "did: <html>")) := by decide +kernel

/-- Handles have at most 253 characters; longer ones are not rejected. -/
theorem C59_length_false : ∃ h : Key, 253 < h.length ∧
    (resolveHandle noDns noWeb h).2 ≠ .error .value := by
  refine ⟨List.intercalate ['.'] (List.replicate 200 (asKey "a") ++ [asKey "a"]), by decide +kernel,
    C59_accepts.2 ⟨List.replicate 200 (asKey "a"), asKey "a", by decide, rfl, fun l hl => ?_, ?_, 'a', rfl, by decide⟩⟩
  · rw [List.eq_of_mem_replicate hl]
    unfold Label
    decide
  · unfold Label
    decide

end Arroba
