import Verif.Blob.Model
import Mathlib.Tactic.Linarith

/-! # C51: blob limits -/

namespace Arroba
open Blob

/-- **C51 (validation).** `validate` accepts a blob exactly when its type is accepted, its size (if
known) is within `BLOB_MAX_BYTES` and the lexicon's `maxSize` (if any), and its duration (if
known) is at most three minutes. -/
theorem C51_validate (cfg : Config) (hmax : 0 ≤ cfg.maxBytes) (hd : cfg.maxDurationMs = 180000)
    (mimeOk : Key → Bool) (maxSize : Option Int) (hms : ∀ m, maxSize = some m → 0 < m) (b : Blob) :
    validate cfg mimeOk maxSize b = true ↔
      mimeOk b.mime = true ∧ (∀ n, b.size = some n → n ≤ cfg.maxBytes) ∧
      (∀ n m, b.size = some n → maxSize = some m → n ≤ m) ∧
      (∀ d, b.duration = some d → d ≤ 3 * 60 * 1000) := by
  unfold validate
  by_cases h1 : mimeOk b.mime = true
  · rw [if_neg (by simp [h1])]
    have e2 : (truthyInt b.size = true ∧ b.size.getD 0 > cfg.maxBytes) ↔
        ¬ ∀ n, b.size = some n → n ≤ cfg.maxBytes := by
      cases b.size with
      | none => simp [truthyInt]
      | some n =>
        simp only [truthyInt, Option.getD_some, decide_eq_true_eq, Option.some.injEq,
          forall_eq', not_le]
        constructor
        · exact fun h => h.2
        · intro h; exact ⟨by omega, h⟩
    have e3 : (truthyInt b.size = true ∧ truthyInt maxSize = true ∧
        b.size.getD 0 > maxSize.getD 0) ↔
        ¬ ∀ n m, b.size = some n → maxSize = some m → n ≤ m := by
      cases hb : b.size with
      | none => simp [truthyInt]
      | some n =>
        cases hm : maxSize with
        | none => simp [truthyInt]
        | some m =>
          have := hms m hm
          simp only [truthyInt, Option.getD_some, decide_eq_true_eq, Option.some.injEq]
          constructor
          · intro h hall
            have := hall n m rfl rfl
            omega
          · intro h
            have hgt : n > m := by
              by_contra hle
              exact h fun _ _ e1 e2 => by subst e1 e2; omega
            exact ⟨by omega, by omega, hgt⟩
    have e4 : (truthyInt b.duration = true ∧ b.duration.getD 0 > cfg.maxDurationMs) ↔
        ¬ ∀ d, b.duration = some d → d ≤ 3 * 60 * 1000 := by
      rw [hd]
      cases b.duration with
      | none => simp [truthyInt]
      | some n =>
        simp only [truthyInt, Option.getD_some, decide_eq_true_eq, Option.some.injEq,
          forall_eq', not_le]
        constructor
        · intro h; omega
        · intro h; exact ⟨by omega, by omega⟩
    by_cases c2 : ∀ n, b.size = some n → n ≤ cfg.maxBytes
    · rw [if_neg (by rw [e2]; exact not_not.mpr c2)]
      by_cases c3 : ∀ n m, b.size = some n → maxSize = some m → n ≤ m
      · rw [if_neg (by rw [e3]; exact not_not.mpr c3)]
        by_cases c4 : ∀ d, b.duration = some d → d ≤ 3 * 60 * 1000
        · rw [if_neg (by rw [e4]; exact not_not.mpr c4)]
          exact ⟨fun _ => ⟨h1, c2, c3, c4⟩, fun _ => rfl⟩
        · rw [if_pos (by rw [e4]; exact c4)]
          exact ⟨(fun h => by cases h), fun h => absurd h.2.2.2 c4⟩
      · rw [if_pos (by rw [e3]; exact c3)]
        exact ⟨(fun h => by cases h), fun h => absurd h.2.2.1 c3⟩
    · rw [if_pos (by rw [e2]; exact c2)]
      exact ⟨(fun h => by cases h), fun h => absurd h.2.1 c2⟩
  · rw [if_pos h1]
    exact ⟨(fun h => by cases h), fun h => absurd h.1 h1⟩

/-- The part of a MIME type before the slash. -/
def topType (mime : Key) : Key := mime.takeWhile (· ≠ '/')

theorem topType_eq (s : Key) : (pySplit '/' s).headD [] = topType s := by
  have ne : ∀ s, pySplit '/' s ≠ [] := by
    intro s
    cases s with
    | nil => simp [pySplit]
    | cons c s =>
      simp only [pySplit]
      split
      · simp
      · split <;> simp
  induction s with
  | nil => rfl
  | cons c s ih =>
    unfold topType at ih ⊢
    simp only [pySplit, List.takeWhile_cons]
    by_cases h : c = '/'
    · simp [h]
    · rw [if_neg h]
      cases hp : pySplit '/' s with
      | nil => exact absurd hp (ne s)
      | cons p ps =>
        rw [hp] at ih
        simp only [List.headD_cons] at ih ⊢
        simp [h, ih]

/-- **C51 (refetching).** `maybe_fetch` fetches exactly when the blob was never fetched, or its type
is refetchable and its last fetch is unknown or older than the refetch age. -/
theorem C51_refetch (cfg : Config) (now : Int) (b : Blob) (hcid : b.cid ≠ some []) :
    needsFetch cfg now b = true ↔
      (b.cid = none ∧ b.lastFetched = none) ∨
      (topType b.mime ∈ cfg.refetchTypes ∧
        ∀ t, b.lastFetched = some t → cfg.refetchAge < now - t) := by
  have hc : truthyStr b.cid = true ↔ b.cid ≠ none := by
    cases h : b.cid with
    | none => simp [truthyStr]
    | some s =>
      have : s ≠ [] := by rintro rfl; exact hcid h
      simp [truthyStr, this]
  unfold needsFetch
  simp only [topType_eq, hc]
  cases hl : b.lastFetched with
  | none =>
    by_cases h1 : b.cid = none
    · simp [h1]
    · by_cases h2 : topType b.mime ∈ cfg.refetchTypes
      · simp [h2]
      · simp [h1, h2]
  | some t =>
    by_cases h2 : topType b.mime ∈ cfg.refetchTypes
    · simp only [h2, not_true_eq_false, and_false, if_false, ge_iff_le, decide_eq_true_eq,
        reduceCtorEq, false_or, true_and, Option.some.injEq, forall_eq']
      split <;> simp <;> omega
    · simp [h2]

/-- When it does not need to, `maybe_fetch` changes nothing and ignores the network. -/
theorem C51_no_fetch (cfg : Config) (now : Int) (b : Blob) (r : Resp)
    (h : needsFetch cfg now b = false) : maybeFetch cfg now r b = ⟨b, b, none⟩ := by
  unfold maybeFetch; rw [if_pos h]

/-- **C51 (fetching).** A successful fetch records the content's CID and exact length, the time,
and marks the blob active. -/
theorem C51_fetch (cfg : Config) (now : Int) (b : Blob) (code : Nat) (mime : Key)
    (contentLength : Option Int) (cid : Key) (len : Nat) (track : Option (Option Int))
    (h : needsFetch cfg now b = true)
    (hok : (maybeFetch cfg now (.resp code mime contentLength (.content cid len track)) b).exc = none) :
    let o := maybeFetch cfg now (.resp code mime contentLength (.content cid len track)) b
    o.stored = o.mem ∧ o.mem.cid = some cid ∧ o.mem.size = some (len : Int) ∧ o.mem.mime = mime ∧
      o.mem.lastFetched = some now ∧ o.mem.inactive = false := by
  intro o
  have ho : o = maybeFetch cfg now (.resp code mime contentLength (.content cid len track)) b := rfl
  rw [← ho] at hok
  unfold maybeFetch at ho
  rw [if_neg (by simp [h])] at ho
  dsimp only at ho
  split at ho
  · rw [ho] at hok; cases hok
  · unfold checkLength at ho
    dsimp only at ho
    split at ho
    · rw [ho] at hok; cases hok
    · rw [ho]
      unfold readBody generateMetadata
      refine ⟨rfl, ?_⟩
      dsimp only
      split
      · split <;> exact ⟨rfl, rfl, rfl, rfl, rfl⟩
      · exact ⟨rfl, rfl, rfl, rfl, rfl⟩

/-- **C51 (failed fetches).** After a 4xx response the blob is inactive, also if its content is known; after a 5xx response or a
network error it is inactive exactly if it was before or its content isn't known. The time is recorded, and nothing else
changes; the caller gets the exception. From then on `get_or_create` raises for an inactive blob without a request. -/
theorem C51_failed (cfg : Config) (now : Int) (b : Blob) (r : Resp) (h : needsFetch cfg now b = true) :
    (∀ code mime n body, r = .resp code mime n body → 400 ≤ code → code < 500 →
      maybeFetch cfg now r b = ⟨{ b with lastFetched := some now, inactive := true },
        { b with lastFetched := some now, inactive := true }, some .http⟩) ∧
    (((∃ code mime n body, r = .resp code mime n body ∧ 500 ≤ code ∧ code < 600) ∨ r = .osError) →
      ∃ off : Bool, (off = true ↔ b.inactive = true ∨ b.cid = none ∨ b.cid = some []) ∧
        maybeFetch cfg now r b = ⟨{ b with lastFetched := some now, inactive := off },
          { b with lastFetched := some now, inactive := off }, some .http⟩) ∧
    ∀ mimeOk maxSize later r', b.inactive = true →
      getOrCreate cfg mimeOk maxSize later r' (some b) = ⟨b, b, some .http⟩ := by
  have hcid : truthyStr b.cid = true ↔ ¬ (b.cid = none ∨ b.cid = some []) := by
    cases b.cid with
    | none => simp [truthyStr]
    | some s => simp [truthyStr]
  refine ⟨?_, ?_, ?_⟩
  · rintro code mime n body rfl h1 h2
    unfold maybeFetch
    rw [if_neg (by simp [h])]
    dsimp only
    rw [if_pos ⟨h1, by omega⟩, if_pos (.inl (by omega))]
  · intro hr
    refine ⟨b.inactive || !truthyStr b.cid, ?_, ?_⟩
    · rw [Bool.or_eq_true, Bool.not_eq_true', ← Bool.not_eq_true, hcid, not_not]
    · unfold maybeFetch
      rw [if_neg (by simp [h])]
      obtain ⟨cid, size, mime', duration, lastFetched, inactive⟩ := b
      dsimp only at hcid ⊢
      rcases hr with ⟨code, mime, n, body, rfl, h1, h2⟩ | rfl
      · dsimp only
        rw [if_pos ⟨by omega, h2⟩]
        have h4 : ¬ code / 100 = 4 := by omega
        cases truthyStr cid <;> simp [h4]
      · dsimp only
        cases truthyStr cid <;> simp
  · intro mimeOk maxSize later r' hi
    unfold getOrCreate
    dsimp only [Option.getD_some]
    rw [if_pos hi]

/-- **C51 (what callers get).** Whenever `get_or_create` returns, the blob is active and within all
limits. -/
theorem C51_get_or_create (cfg : Config) (hmax : 0 ≤ cfg.maxBytes)
    (hd : cfg.maxDurationMs = 180000) (mimeOk : Key → Bool) (maxSize : Option Int)
    (hms : ∀ m, maxSize = some m → 0 < m) (now : Int) (r : Resp) (db : Option Blob)
    (h : (getOrCreate cfg mimeOk maxSize now r db).exc = none) :
    let b := (getOrCreate cfg mimeOk maxSize now r db).mem
    b.inactive = false ∧ mimeOk b.mime = true ∧ (∀ n, b.size = some n → n ≤ cfg.maxBytes) ∧
      (∀ n m, b.size = some n → maxSize = some m → n ≤ m) ∧
      (∀ d, b.duration = some d → d ≤ 3 * 60 * 1000) := by
  unfold getOrCreate at h ⊢
  dsimp only at h ⊢
  by_cases hi : (db.getD {}).inactive = true
  · rw [if_pos hi] at h; cases h
  · rw [if_neg hi] at h ⊢
    by_cases he : (maybeFetch cfg now r (db.getD {})).exc.isSome = true
    · rw [if_pos he] at h; rw [h] at he; cases he
    · rw [if_neg he] at h ⊢
      by_cases hv : validate cfg mimeOk maxSize (maybeFetch cfg now r (db.getD {})).mem = true
      · rw [if_pos hv] at h ⊢
        refine ⟨?_, (C51_validate cfg hmax hd mimeOk maxSize hms _).mp hv⟩
        cases hn : needsFetch cfg now (db.getD {}) with
        | false =>
          rw [C51_no_fetch cfg now _ r hn]
          simpa using hi
        | true =>
          cases r with
          | osError =>
            unfold maybeFetch at h
            rw [hn] at h
            cases h
          | resp code mime cl body =>
            cases body with
            | content cid len track =>
              exact (C51_fetch cfg now _ code mime cl cid len track hn h).2.2.2.2.2
            | readError =>
              unfold maybeFetch at h
              rw [hn, if_neg Bool.noConfusion] at h
              dsimp only at h
              split at h
              · cases h
              · unfold checkLength at h
                dsimp only at h
                split at h <;> cases h
      · rw [if_neg hv] at h; cases h

def c51Config : Config := { refetchAge := 604800000000, refetchTypes := ["image".toList],
                            maxBytes := 100000000 }

/-- **C51 (finding: an interrupted first download sticks).** The entity is stored before the body
is read, with its time of fetch and the default type. So when reading the body of the first fetch
fails, every later `get_or_create`, at any time and with a healthy server, returns without
fetching — and returns a blob with no CID. -/
theorem C51_interrupted (cfg : Config) (mimeOk : Key → Bool) (maxSize : Option Int)
    (hmime : mimeOk "application/octet-stream".toList = true)
    (htypes : "application".toList ∉ cfg.refetchTypes) (now : Int) (mime : Key)
    (later : Int) (r : Resp) :
    let db := (getOrCreate cfg mimeOk maxSize now (.resp 200 mime none .readError) none).stored
    let o := getOrCreate cfg mimeOk maxSize later r (some db)
    o.exc = none ∧ o.mem.cid = none ∧ o.stored = db := by
  have hdb : (getOrCreate cfg mimeOk maxSize now (.resp 200 mime none .readError) none).stored =
      { lastFetched := some now } := by
    simp [getOrCreate, maybeFetch, needsFetch, checkLength, readBody, truthyStr, truthyInt]
  intro db o
  have hdb' : db = { lastFetched := some now } := hdb
  have hn : needsFetch cfg later db = false := by
    rw [hdb']
    unfold needsFetch
    rw [if_pos]
    refine ⟨.inr rfl, ?_⟩
    have : (pySplit '/' "application/octet-stream".toList).headD [] = "application".toList := by
      decide
    show (pySplit '/' "application/octet-stream".toList).headD [] ∉ cfg.refetchTypes
    rw [this]; exact htypes
  have ho : o = ⟨db, db, none⟩ := by
    show getOrCreate cfg mimeOk maxSize later r (some db) = _
    unfold getOrCreate
    simp only [Option.getD_some]
    rw [C51_no_fetch cfg later db r hn, if_neg (by rw [hdb']; simp)]
    rw [if_neg (by simp), if_pos]
    rw [hdb']
    unfold validate
    simp only [hmime, truthyInt]
    simp
  rw [ho]
  exact ⟨rfl, by rw [hdb'], rfl⟩

/-- **C51 (finding: stale duration).** Refetching content that has no duration keeps the duration
of the old content, so an image that replaces a long video at the same URL is still rejected. -/
theorem C51_stale_duration :
    (getOrCreate { c51Config with refetchTypes := ["video".toList] } (fun _ => true) none
      700000000000 (.resp 200 "image/png".toList none (.content "new".toList 5 none))
      (some { cid := some "old".toList, size := some 9, mime := "video/mp4".toList,
              duration := some 200000, lastFetched := some 0 })).exc = some .validation := by
  decide +kernel

/-- **C51 (finding: `maxSize` 0 is no limit).** A lexicon `maxSize` of zero is ignored. -/
theorem C51_max_size_zero (n : Int) (h : n ≤ 100000000) :
    validate c51Config (fun _ => true) (some 0) { size := some n } = true := by
  unfold validate c51Config
  simp [truthyInt]; omega

-- a fetched image is accepted, refetched only after a week
example : (getOrCreate c51Config (fun _ => true) (some 1000) 0
    (.resp 200 "image/png".toList (some 10) (.content "bafk".toList 10 none)) none).exc = none := by
  decide +kernel
example : needsFetch c51Config 604800000001
    { cid := some "c".toList, mime := "image/png".toList, lastFetched := some 0 } = true ∧
    needsFetch c51Config 604800000000
    { cid := some "c".toList, mime := "image/png".toList, lastFetched := some 0 } = false := by
  decide +kernel

end Arroba
