import Verif.Props.C55

/-!
# C56: getBlob redirects to where the blob is
-/

namespace Arroba.Blob

variable {cfg : Config} {web : Key → Resp} {now : Int} {t : Table}

/-- The server's answer is good: no error, the length that is known beforehand isn't over the limit,
and the body can be read. -/
def Good (cfg : Config) (e : Entity) (r : Resp) : Prop :=
  ∃ code mime cl cid len track, r = .resp code mime cl (.content cid len track) ∧
    ¬ (400 ≤ code ∧ code < 600) ∧ ∀ n, (cl.map some).getD e.blob.size = some n → n ≤ cfg.maxBytes

/-- No error, but the length that is known beforehand is over the limit. -/
def TooLong (cfg : Config) (e : Entity) (r : Resp) : Prop :=
  ∃ code mime cl body n, r = .resp code mime cl body ∧ ¬ (400 ≤ code ∧ code < 600) ∧
    (cl.map some).getD e.blob.size = some n ∧ cfg.maxBytes < n

/-- The blob is active, and if it is time to fetch it again, the answer is good. -/
def Usable (cfg : Config) (web : Key → Resp) (now : Int) (x : Key × Entity) : Prop :=
  x.2.blob.inactive = false ∧ (needsFetch cfg now x.2.blob = true → Good cfg x.2 (web (location x.1 x.2)))

/-- The blob is active, and it is time to fetch it again, and it has become too long. -/
def Oversized (cfg : Config) (web : Key → Resp) (now : Int) (x : Key × Entity) : Prop :=
  x.2.blob.inactive = false ∧ needsFetch cfg now x.2.blob = true ∧ TooLong cfg x.2 (web (location x.1 x.2))

theorem maybeFetch_cases (hmax : 0 ≤ cfg.maxBytes) (r : Resp) (e : Entity) (h : needsFetch cfg now e.blob = true) :
    (Good cfg e r ∧ (maybeFetch cfg now r e.blob).exc = none ∧
      (maybeFetch cfg now r e.blob).mem.inactive = false) ∨
    (TooLong cfg e r ∧ ¬ Good cfg e r ∧ (maybeFetch cfg now r e.blob).exc = some .validation) ∨
    (¬ Good cfg e r ∧ ¬ TooLong cfg e r ∧ ((maybeFetch cfg now r e.blob).exc = some .http ∨
      (maybeFetch cfg now r e.blob).exc = some .read)) := by
  cases r with
  | osError =>
    refine .inr (.inr ⟨?_, ?_, .inl ?_⟩)
    · rintro ⟨_, _, _, _, _, _, h, _⟩; cases h
    · rintro ⟨_, _, _, _, _, h, _⟩; cases h
    · unfold maybeFetch; rw [if_neg (by simp [h])]
  | resp code mime cl body =>
    by_cases hcode : 400 ≤ code ∧ code < 600
    · refine .inr (.inr ⟨?_, ?_, .inl ?_⟩)
      · rintro ⟨_, _, _, _, _, _, h, hn, _⟩; cases h; exact hn hcode
      · rintro ⟨_, _, _, _, _, h, hn, _⟩; cases h; exact hn hcode
      · unfold maybeFetch; rw [if_neg (by simp [h])]; dsimp only; rw [if_pos hcode]
    · have hm : maybeFetch cfg now (.resp code mime cl body) e.blob =
          checkLength cfg { e.blob with lastFetched := some now } mime cl body := by
        unfold maybeFetch
        rw [if_neg (by simp [h])]
        dsimp only
        rw [if_neg hcode]
      rw [hm]
      have hlong : (truthyInt ((cl.map some).getD e.blob.size) = true ∧
          ((cl.map some).getD e.blob.size).getD 0 > cfg.maxBytes) ↔
          ∃ n, (cl.map some).getD e.blob.size = some n ∧ cfg.maxBytes < n := by
        cases hsz : (cl.map some).getD e.blob.size with
        | none => simp [truthyInt]
        | some n =>
          simp only [truthyInt, Option.getD_some, Option.some.injEq, exists_eq_left']
          constructor
          · rintro ⟨_, h⟩; exact h
          · intro h; refine ⟨?_, h⟩
            have : n ≠ 0 := by omega
            simpa using this
      unfold checkLength
      dsimp only
      by_cases hl : ∃ n, (cl.map some).getD e.blob.size = some n ∧ cfg.maxBytes < n
      · rw [if_pos (hlong.mpr hl)]
        obtain ⟨n, h1, h2⟩ := hl
        refine .inr (.inl ⟨⟨_, _, _, _, n, rfl, hcode, h1, h2⟩, ?_, rfl⟩)
        rintro ⟨_, _, _, _, _, _, h, _, hle⟩
        cases h
        have := hle n h1
        omega
      · rw [if_neg (fun h => hl (hlong.mp h))]
        have hnt : ¬ TooLong cfg e (.resp code mime cl body) := by
          rintro ⟨_, _, _, _, n, h, _, h1, h2⟩
          cases h
          exact hl ⟨n, h1, h2⟩
        cases body with
        | readError =>
          refine .inr (.inr ⟨?_, hnt, .inr rfl⟩)
          rintro ⟨_, _, _, _, _, _, h, _⟩; cases h
        | content cid len track =>
          refine .inl ⟨⟨_, _, _, _, _, _, rfl, hcode, ?_⟩, rfl, rfl⟩
          intro n hn
          by_contra hlt
          exact hl ⟨n, hn, by omega⟩

/-- One row: use it, give up, or go on. -/
theorem getBlobLoop_cons (hmax : 0 ≤ cfg.maxBytes) (x : Key × Entity) (rest : List (Key × Entity)) :
    (Usable cfg web now x ∧ (getBlobLoop cfg web now t (x :: rest)).2 = .ok (location x.1 x.2)) ∨
    (¬ Usable cfg web now x ∧ Oversized cfg web now x ∧
      (getBlobLoop cfg web now t (x :: rest)).2 = .error .validation) ∨
    (¬ Usable cfg web now x ∧ ¬ Oversized cfg web now x ∧
      ∃ t', getBlobLoop cfg web now t (x :: rest) = getBlobLoop cfg web now t' rest) := by
  obtain ⟨key, e⟩ := x
  rw [getBlobLoop]
  by_cases hi : e.blob.inactive = true
  · rw [if_pos hi]
    refine .inr (.inr ⟨fun h => ?_, fun h => ?_, t, rfl⟩)
    · have := h.1; rw [hi] at this; cases this
    · have := h.1; rw [hi] at this; cases this
  · rw [if_neg hi]
    have hi : e.blob.inactive = false := by simpa using hi
    by_cases hn : needsFetch cfg now e.blob = true
    · have hf : fetchEntity cfg web t now key e =
          (put t now key { e with blob := (maybeFetch cfg now (web (location key e)) e.blob).stored },
            { e with blob := (maybeFetch cfg now (web (location key e)) e.blob).mem, updated := now },
            (maybeFetch cfg now (web (location key e)) e.blob).exc) := by
        unfold fetchEntity
        dsimp only
        rw [if_pos hn]
      rw [hf]
      rcases maybeFetch_cases hmax (web (location key e)) e hn with ⟨h1, h2, h3⟩ | ⟨h1, h2, h3⟩ | ⟨h1, h2, h3⟩
      · left
        refine ⟨⟨hi, fun _ => h1⟩, ?_⟩
        rw [h2]
        dsimp only
        rw [h3, if_neg (by simp)]
        rfl
      · refine .inr (.inl ⟨fun h => h2 (h.2 hn), ⟨hi, hn, h1⟩, ?_⟩)
        rw [h3]
      · refine .inr (.inr ⟨fun h => h1 (h.2 hn), fun h => h2 h.2.2, ?_⟩)
        rcases h3 with h3 | h3 <;> rw [h3] <;> exact ⟨_, rfl⟩
    · left
      refine ⟨⟨hi, fun h => absurd h hn⟩, ?_⟩
      have hf : fetchEntity cfg web t now key e = (t, e, none) := by
        unfold fetchEntity
        dsimp only
        rw [if_neg hn]
      rw [hf]
      dsimp only
      rw [hi, if_neg (by simp)]

theorem location_eq (key : Key) (e : Entity) :
    location key e = (match e.url with | some (c :: u) => c :: u | _ => key) := by
  unfold location truthyStr
  cases e.url with
  | none => rfl
  | some u => cases u <;> rfl

/-- **What getBlob answers.** Of the blobs with the CID, the most recently updated first: it redirects to
the first that is active and, if it is due, can be fetched again; unless one before it has become too
long, which is a ValidationError. If there is none, ValueError. -/
theorem C56_answer (hmax : 0 ≤ cfg.maxBytes) (rows : List (Key × Entity)) :
    match (getBlobLoop cfg web now t rows).2 with
    | .ok url => ∃ pre x post, rows = pre ++ x :: post ∧
        (∀ y ∈ pre, ¬ Usable cfg web now y ∧ ¬ Oversized cfg web now y) ∧ Usable cfg web now x ∧
        url = (match x.2.url with | some (c :: u) => c :: u | _ => x.1)
    | .error .validation => ∃ pre x post, rows = pre ++ x :: post ∧
        (∀ y ∈ pre, ¬ Usable cfg web now y ∧ ¬ Oversized cfg web now y) ∧ Oversized cfg web now x
    | .error .notFound => ∀ y ∈ rows, ¬ Usable cfg web now y ∧ ¬ Oversized cfg web now y := by
  induction rows generalizing t with
  | nil => exact fun _ h => nomatch h
  | cons x rest ih =>
    rcases getBlobLoop_cons (t := t) (web := web) (now := now) hmax x rest with
      ⟨h1, h2⟩ | ⟨h1, h2, h3⟩ | ⟨h1, h2, t', h3⟩
    · rw [h2]
      exact ⟨[], x, rest, rfl, (fun _ h => nomatch h), h1, location_eq _ _⟩
    · rw [h3]
      exact ⟨[], x, rest, rfl, (fun _ h => nomatch h), h2⟩
    · have ih := ih (t := t')
      rw [h3]
      have hcons : ∀ {pre : List (Key × Entity)},
          (∀ y ∈ pre, ¬ Usable cfg web now y ∧ ¬ Oversized cfg web now y) →
          ∀ y ∈ x :: pre, ¬ Usable cfg web now y ∧ ¬ Oversized cfg web now y := by
        intro pre h y hy
        rcases List.mem_cons.mp hy with rfl | hy
        · exact ⟨h1, h2⟩
        · exact h y hy
      revert ih
      cases (getBlobLoop cfg web now t' rest).2 with
      | ok url =>
        rintro ⟨pre, y, post, g1, g2, g3, g4⟩
        exact ⟨x :: pre, y, post, by rw [g1]; rfl, hcons g2, g3, g4⟩
      | error ex =>
        cases ex with
        | validation =>
          rintro ⟨pre, y, post, g1, g2, g3⟩
          exact ⟨x :: pre, y, post, by rw [g1]; rfl, hcons g2, g3⟩
        | notFound => exact fun ih => hcons ih

/-! ### Where the CIDs come from -/

/-- A stored CID comes from a fetch. -/
theorem maybeFetch_cid {r : Resp} {b : Blob} {c : Key}
    (h : (maybeFetch cfg now r b).stored.cid = some c ∨ (maybeFetch cfg now r b).mem.cid = some c) :
    b.cid = some c ∨ needsFetch cfg now b = true ∧ ∃ code mime cl len track,
      r = .resp code mime cl (.content c len track) := by
  unfold maybeFetch at h
  split at h
  · left; exact h.elim id id
  · rename_i hn
    have hn : needsFetch cfg now b = true := by simpa using hn
    cases r with
    | osError =>
      left
      dsimp only at h
      split at h <;> exact h.elim id id
    | resp code mime cl body =>
      dsimp only at h
      split at h
      · left
        split at h <;> exact h.elim id id
      · unfold checkLength at h
        dsimp only at h
        split at h
        · left; exact h.elim id id
        · cases body with
          | readError => left; exact h.elim id id
          | content cid len track =>
            right
            refine ⟨hn, code, mime, cl, len, track, ?_⟩
            have : cid = c := by
              unfold readBody generateMetadata at h
              dsimp only at h
              split at h
              · split at h <;> exact Option.some.inj (h.elim id id)
              · exact Option.some.inj (h.elim id id)
            rw [this]

/-- The key is the URL, and the CID was served there. -/
structure FromWeb (log : List (Key × Key)) (x : Key × Entity) : Prop where
  url : x.2.url = none ∨ x.2.url = some x.1
  cid : ∀ c, x.2.blob.cid = some c → (x.1, c) ∈ log

theorem FromWeb.location {log : List (Key × Key)} {x : Key × Entity} (h : FromWeb log x) :
    location x.1 x.2 = x.1 := by
  unfold Blob.location
  rcases h.url with h | h
  · rw [h]; rfl
  · rw [h]
    split
    · rfl
    · rfl

theorem FromWeb.mono {log log' : List (Key × Key)} {x : Key × Entity} (h : FromWeb log x) :
    FromWeb (log ++ log') x := ⟨h.url, fun c hc => List.mem_append_left _ (h.cid c hc)⟩

theorem mem_put {now : Int} {key : Key} {e : Entity} {x : Key × Entity} (h : x ∈ put t now key e) :
    x = (key, { e with updated := now }) ∨ x ∈ t := by
  unfold put at h
  rcases mem_dictSet h with h | h
  · exact .inl h
  · exact .inr h

theorem Run.fromWeb {mem : List (Key × Entity)} {log : List (Key × Key)}
    (h : Run cfg (fun url => url.length ≤ 1500) t mem log) :
    (∀ x ∈ t, FromWeb log x) ∧ ∀ x ∈ mem, FromWeb log x := by
  induction h with
  | empty => exact ⟨fun _ h => (nomatch h), fun _ h => (nomatch h)⟩
  | @start t mem log h now url hu hs repo ih =>
    have hk : urlKey url = url := urlKey_short hs
    have h1 : (∀ x ∈ (obtainEntity t now url repo).1, FromWeb log x) ∧
        FromWeb log (url, (obtainEntity t now url repo).2) := by
      unfold obtainEntity
      rw [hk]
      cases hg : dictGet t url with
      | some e => exact ⟨ih.1, .inr rfl, (ih.1 _ (dictGet_mem hg)).cid⟩
      | none =>
        refine ⟨?_, .inr rfl, fun c hc => nomatch hc⟩
        intro x hx
        rcases mem_put hx with rfl | hx
        · exact ⟨.inl rfl, fun c hc => nomatch hc⟩
        · exact ih.1 x hx
    have h2 : (∀ x ∈ (getOrInsert t now url repo).1, FromWeb log x) ∧
        FromWeb log (url, (getOrInsert t now url repo).2) := by
      unfold getOrInsert addRepo
      rw [hk]
      split
      · exact h1
      · split
        · exact h1
        · refine ⟨?_, h1.2.url, h1.2.cid⟩
          intro x hx
          rcases mem_put hx with rfl | hx
          · exact ⟨h1.2.url, h1.2.cid⟩
          · exact h1.1 x hx
    refine ⟨h2.1, ?_⟩
    intro x hx
    rcases List.mem_cons.mp hx with rfl | hx
    · rw [hk]; exact h2.2
    · exact ih.2 x hx
  | query h hg ih =>
    refine ⟨ih.1, ?_⟩
    intro x hx
    rcases List.mem_cons.mp hx with rfl | hx
    · exact ih.1 _ (dictGet_mem hg)
    · exact ih.2 x hx
  | @fetch t mem log h key e hm ha web now ih =>
    have he := ih.2 _ hm
    have hloc : Blob.location key e = key := he.location
    have hcid : ∀ c, (maybeFetch cfg now (web (Blob.location key e)) e.blob).stored.cid = some c ∨
        (maybeFetch cfg now (web (Blob.location key e)) e.blob).mem.cid = some c →
        (key, c) ∈ log ++ served cfg web now key e := by
      intro c hc
      rcases maybeFetch_cid hc with h | ⟨h1, code, mime, cl, len, track, h2⟩
      · exact List.mem_append_left _ (he.cid c h)
      · apply List.mem_append_right
        unfold served
        rw [if_pos h1, h2, hloc]
        exact List.mem_cons_self
    unfold fetchEntity
    dsimp only
    split
    · refine ⟨?_, ?_⟩
      · intro x hx
        rcases mem_put hx with rfl | hx
        · exact ⟨he.url, fun c hc => hcid c (.inl hc)⟩
        · exact (ih.1 x hx).mono
      · intro x hx
        rcases List.mem_cons.mp hx with rfl | hx
        · exact ⟨he.url, fun c hc => hcid c (.inr hc)⟩
        · exact (ih.2 x hx).mono
    · refine ⟨fun x hx => (ih.1 x hx).mono, ?_⟩
      intro x hx
      rcases List.mem_cons.mp hx with rfl | hx
      · exact he.mono
      · exact (ih.2 x hx).mono

/-- **Where getBlob redirects to has served the blob**: in every execution, with any number of concurrent
calls, a redirect for a CID goes to a URL that has, at some time, served content with that CID. For URLs
of at most 1500 characters; false for longer ones, see `C56_long_false`. Missing: that the URL still
serves it, see `C56_changed_false`. -/
theorem C56_origin_partial (hmax : 0 ≤ cfg.maxBytes) {mem : List (Key × Entity)} {log : List (Key × Key)}
    (h : Run cfg (fun url => url.length ≤ 1500) t mem log) {cid : Key} {rows : List (Key × Entity)}
    (hr : IsResult t cid rows) {t' : Table} {url : Key}
    (hg : getBlobLoop cfg web now t rows = (t', .ok url)) : (url, cid) ∈ log := by
  have := C56_answer (cfg := cfg) (t := t) (web := web) (now := now) hmax rows
  rw [hg] at this
  obtain ⟨pre, x, post, h1, _, _, hu⟩ := this
  rw [← location_eq] at hu
  subst hu
  have hx : x ∈ rows := by rw [h1]; simp
  obtain ⟨g1, g2⟩ := List.mem_filter.mp (hr.1.mem_iff.mp hx)
  have hf := h.fromWeb.1 x g1
  rw [hf.location]
  exact hf.cid cid (by simpa using g2)

/-- **get_or_create with the table.** It never returns a blob that is inactive or not valid: it asks the server only for active
ones, raises HTTPError for inactive ones without changing anything else, and lets through only what `validate` accepts. -/
theorem C56_get_or_create (mimeOk : Key → Bool) (maxSize : Option Int) (url : Key) (repo : Option Key) :
    let e := (getOrInsert t now url repo).2
    let res := getOrCreateIn cfg web mimeOk maxSize t now url repo
    (e.blob.inactive = true → res = ((getOrInsert t now url repo).1, e, some .http)) ∧
    (res.2.2 = none → e.blob.inactive = false ∧ validate cfg mimeOk maxSize res.2.1.blob = true) ∧
    (e.blob.inactive = false → res.2.2 ≠ none → validate cfg mimeOk maxSize res.2.1.blob = false ∨
      needsFetch cfg now e.blob = true ∧ (maybeFetch cfg now (web (location (urlKey url) e)) e.blob).exc = res.2.2) := by
  intro e res
  have hres : res = finish cfg web mimeOk maxSize (getOrInsert t now url repo).1 now url e := rfl
  refine ⟨fun hi => ?_, fun h => ?_, fun hi h => ?_⟩
  · rw [hres]; unfold finish; rw [if_pos hi]
  · rw [hres] at h ⊢
    unfold finish at h ⊢
    by_cases hi : e.blob.inactive = true
    · rw [if_pos hi] at h; cases h
    · rw [if_neg hi] at h ⊢
      refine ⟨by simpa using hi, ?_⟩
      rcases hq : fetchEntity cfg web (getOrInsert t now url repo).1 now (urlKey url) e with ⟨t', e', exc⟩
      rw [hq] at h
      cases exc with
      | some x => cases h
      | none =>
        dsimp only at h ⊢
        by_cases hv : validate cfg mimeOk maxSize e'.blob = true
        · rw [if_pos hv]; exact hv
        · rw [if_neg hv] at h; cases h
  · rw [hres] at h ⊢
    unfold finish at h ⊢
    rw [if_neg (by simp [hi])] at h ⊢
    have hf : (fetchEntity cfg web (getOrInsert t now url repo).1 now (urlKey url) e).2.2 ≠ none →
        needsFetch cfg now e.blob = true ∧ (maybeFetch cfg now (web (location (urlKey url) e)) e.blob).exc =
          (fetchEntity cfg web (getOrInsert t now url repo).1 now (urlKey url) e).2.2 := by
      intro hne
      unfold fetchEntity at hne ⊢
      dsimp only at hne ⊢
      by_cases hn : needsFetch cfg now e.blob = true
      · rw [if_pos hn]; exact ⟨hn, rfl⟩
      · rw [if_neg hn] at hne; exact absurd rfl hne
    rcases hq : fetchEntity cfg web (getOrInsert t now url repo).1 now (urlKey url) e with ⟨t', e', exc⟩
    rw [hq] at h hf
    cases exc with
    | some x => exact .inr (hf (by simp))
    | none =>
      dsimp only at h ⊢
      by_cases hv : validate cfg mimeOk maxSize e'.blob = true
      · rw [if_pos hv] at h; exact absurd rfl h
      · rw [if_neg hv]; exact .inl (by simpa using hv)

/-! ### Examples and counterexamples -/

example : IsResult exTable "cid-u1".toList (exTable.filter fun x => x.2.blob.cid = some "cid-u1".toList) ∧
    (getBlobLoop exBlobs exWeb 9 exTable (exTable.filter fun x => x.2.blob.cid = some "cid-u1".toList)).2 =
      .ok "u1".toList :=
  ⟨⟨.refl _, by decide +kernel⟩, by decide +kernel⟩

/-- A server whose image has changed. -/
def exImage (cid : String) (_ : Key) : Resp :=
  .resp 200 "image/png".toList none (.content cid.toList 3 none)

/-- **False: the URL serves something else by now.** A week later getBlob fetches the image again, sees
that it has another CID, stores that, and redirects to it all the same. -/
theorem C56_changed_false :
    let t := (getOrCreateIn exBlobs (exImage "old") (fun _ => true) none [] 1 "u".toList none).1
    let res := getBlobLoop exBlobs (exImage "new") 700000000000 t t
    IsResult t "old".toList t ∧ res.2 = .ok "u".toList ∧
      res.1.map (fun x => x.2.blob.cid) = [some "new".toList] :=
  ⟨⟨by decide +kernel, by decide +kernel⟩, by decide +kernel, by decide +kernel⟩

/-- Two URLs of 1501 characters that differ in the last one. -/
def longUrl (c : Char) : Key := List.replicate 1500 'u' ++ [c]

/-- A server with content at both, whose CIDs are the last character. -/
def exLong (url : Key) : Resp := .resp 200 "text/plain".toList none (.content (url.drop 1500) 3 none)

/-- **False for long URLs.** They are told apart by their first 1500 characters only. `get_or_create` of
the second URL returns the CID of the content at the first, and getBlob then redirects to the second URL
for it. -/
theorem C56_long_false :
    let t1 := (getOrCreateIn exBlobs exLong (fun _ => true) none [] 1 (longUrl 'a') (some ['x'])).1
    let res := getOrCreateIn exBlobs exLong (fun _ => true) none t1 2 (longUrl 'b') (some ['y'])
    res.2.2 = none ∧ res.2.1.blob.cid = some ['a'] ∧ (longUrl 'b').drop 1500 = ['b'] ∧
    IsResult res.1 ['a'] res.1 ∧ (getBlobLoop exBlobs exLong 3 res.1 res.1).2 = .ok (longUrl 'b') := by
  refine ⟨by decide +kernel, by decide +kernel, by decide +kernel, ⟨by decide +kernel, by decide +kernel⟩,
    by decide +kernel⟩

instance : Inhabited Entity := ⟨{}⟩

/-- **A blob that has become too long hides others** with the same CID: ValidationError, though another
URL is fine. -/
theorem C56_oversized_false :
    let go web t now url := (getOrCreateIn exBlobs web (fun _ => true) none t now url none).1
    let t := go (exImage "c") (go (exImage "c") [] 1 "u".toList) 2 "v".toList
    let web (url : Key) : Resp :=
      if url = "v".toList then .resp 200 "image/png".toList (some 100000001) (.content "d".toList 3 none)
      else exImage "c" url
    IsResult t "c".toList t.reverse ∧ Usable exBlobs web 700000000000 t.reverse[1]! ∧
      (getBlobLoop exBlobs web 700000000000 t t.reverse).2 = .error .validation := by
  refine ⟨⟨by decide +kernel, by decide +kernel⟩, ⟨by decide +kernel, fun _ => ?_⟩, by decide +kernel⟩
  exact ⟨200, "image/png".toList, none, "c".toList, 3, none, by rfl, by decide, by decide +kernel⟩

end Arroba.Blob
