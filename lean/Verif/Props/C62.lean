import Verif.Storage.KeyProofs
import Verif.Storage.FreshProofs
import Verif.Props.C46

/-!
# C62: every commit of a repo is signed with the signing key of the repo

For all histories: failed and retried transactions, torn trees, failing callbacks, objects loaded with
another key by `Repo.load`. `import_repo` breaks the property: of imported repos only the commits made
since are signed with their key.
-/

namespace Arroba.Store

open Arroba.Xrpc (Loads)

variable {C R : Type} [DecidableEq C] {L : Lib C R} {Z : Nat} {be : Backend} {w : World C R}

/-- **C62, with imports.** The head of a loaded repo, and all commits before it until an imported one, were
signed with the key of the loaded repo. -/
theorem C62_since (hL : L.OK Z) {al : Allow} (hr : Reach L be al w) {d : Did} (hd : isDid d) {o : RepoObj C R}
    (h : Loads be w d o) : ∃ b, o.head = some b ∧ SignedSince L w.blocks o.key (L.hash b.val) := by
  obtain ⟨w1, s, h1, ho⟩ := h
  obtain ⟨hk, b, hb, hh, _⟩ := load_key (hr.plain hL).1 hd h1 ho
  obtain ⟨k, h2, h3⟩ := hr.signed hL d _ hh
  rw [hk] at h2
  cases h2
  exact ⟨b, hb, h3⟩

/-- **C62.** Without imports, the head of a loaded repo, and all commits before it, were signed with the key
of the loaded repo. Missing: imported commits, see `C62_import_false`. -/
theorem C62_signed_partial (hL : L.OK Z) {al : Allow} (hi : ¬ al.imports) (hr : Reach L be al w) {d : Did}
    (hd : isDid d) {o : RepoObj C R} (h : Loads be w d o) :
    ∃ b, o.head = some b ∧ SignedChain L w.blocks o.key (L.hash b.val) := by
  obtain ⟨b, h1, h2⟩ := C62_since hL hr hd h
  exact ⟨b, h1, h2.all fun _ _ => hr.native hL hi⟩

/-- **C62 (keys stay).** No API call but `Repo.create` for the same DID changes the key of a repo. -/
theorem C62_key (hL : L.OK Z) {al : Allow} (hr : Reach L be al w) {w' : World C R} (hs : Step L be al w w') {d : Did}
    (hd : isDid d) {o o' : RepoObj C R} (h : Loads be w d o) (h' : Loads be w' d o') : o'.key = o.key ∨
    ∃ handle callback time xs cbFails,
      w' = (repoCreate L be w d handle o'.key callback time xs cbFails).1 := by
  obtain ⟨w1, s, h1, ho⟩ := h
  obtain ⟨w2, s', h2, ho'⟩ := h'
  have e1 := (load_key (hr.plain hL).1 hd h1 ho).1
  have e2 := (load_key ((hr.step hs).plain hL).1 hd h2 ho').1
  rcases (hs.signed hL (hr.plain hL).1 (hr.signed hL)).2 d with
    h | ⟨handle, key, cb, time, xs, cbf, h3, h4⟩ | ⟨_, _, _, _, _, h3, _⟩
  · rw [e1, e2] at h
    exact .inl (Option.some.inj h)
  · rw [e2] at h4
    cases h4
    exact .inr ⟨handle, cb, time, xs, cbf, h3⟩
  · rw [e1] at h3
    cases h3

/-- **C62 (the key of a new repo).** `Repo.create` makes a repo that has the given key, if it does so. -/
theorem C62_created (hL : L.OK Z) (hr : Reach L be .all w) {did : Did}
    {handle : Option Key} {key : Nat} {callback : Bool} {time : Nat} {xs : List Luck}
    {cbFails : Bool} (hd : isDid did) (hh : ∀ h, handle = some h → ¬ isDid h) {w' : World C R} {r : Ref}
    (he : repoCreate L be w did handle key callback time xs cbFails = (w', .ok r))
    {o : RepoObj C R} (h : Loads be w' did o) : o.key = key := by
  have hs : Step L be .all w w' := by
    have := Step.create (L := L) (be := be) (al := .all) (w := w) did handle key callback time xs cbFails hd hh
      (.inl trivial) (.inl trivial) (.inl trivial)
    rw [he] at this
    exact this
  obtain ⟨w1, s, h1, ho⟩ := h
  have e := (load_key ((hr.step hs).plain hL).1 hd h1 ho).1
  have := (create_signed hL (hr.plain hL).1 (hr.signed hL) (key := key) (callback := callback) (time := time)
    (xs := xs) (cbFails := cbFails) hd hh).2.2
  rw [he] at this
  rw [this r rfl] at e
  exact (Option.some.inj e).symm

end Arroba.Store

namespace Arroba.Xrpc

open Arroba.Store

variable {C R : Type} [DecidableEq C] {L : Lib C R} {Z : Nat} {be : Backend} {w : World C R} {al : Allow}
  {cfg : Config R} {out : Outside C}

/-- **C62 (imported repos).** An imported repo has a new key, and its head is still the one that was signed
elsewhere. -/
theorem C62_import (hL : L.OK Z) (hr : Reach L be al w) {header : Option Key}
    (ha : auth cfg header = .ok ()) {car : Car C R} (hcid : TrueCids L car) {root : C} {co : Commit C}
    {doc : Doc} (h : Importable be out w car root co doc) :
    ∃ w' o b, importRepo cfg L be out w header (.ok car) = (w', .ok ()) ∧ Loads be w' co.did o ∧
      o.head = some b ∧ b.val = .commit co ∧ o.key = out.newKey := by
  obtain ⟨w', he, hi⟩ := C46_imported (cfg := cfg) hL hr ha hcid h
  obtain ⟨o, b, h1, _, h3, h4, _, _, h7, _⟩ := hi.repo
  exact ⟨w', o, b, he, h1, h3, hL.inj (h4.trans (hcid _ h.head).symm), h7⟩

/-- The imported repo, activated. -/
def exArrived (be : Backend) : ExWorld :=
  let w := (importRepo exCfg exL be exOut (exHome be) exHeader (.ok exCar)).1
  match loadRepo be w exDid with
  | (w, .ok (some r)) => (activateRepo exL be w r 300).1
  | (w, _) => w

/-- What `load_repo` gives. -/
def loaded (be : Backend) (w : ExWorld) (d : Did) : Option (RepoObj SC Nat) :=
  match loadRepo be w d with
  | (w1, .ok (some r)) => w1.heap[r]?
  | _ => none

theorem loaded_loads {w : ExWorld} {d : Did} {o : RepoObj SC Nat} (h : loaded be w d = some o) :
    Loads be w d o := by
  unfold loaded at h
  split at h
  · rename_i w1 r he
    exact ⟨w1, r, he, h⟩
  · cases h

/-- **C62 is false of imported repos.** The repo is active and has the new key 9, but its head is signed
with the old key 7. -/
theorem C62_import_false (be : Backend) :
    (importRepo exCfg exL be exOut (exHome be) exHeader (.ok exCar)).2.isOk = true ∧
    ∃ o b co, Loads be (exArrived be) exDid o ∧ o.status = none ∧ o.key = 9 ∧ o.head = some b ∧
      b.val = .commit co ∧ ¬ SignedBy exL o.key co := by
  refine ⟨by cases be <;> decide +kernel, ?_⟩
  obtain ⟨o, ho⟩ : ∃ o, loaded be (exArrived be) exDid = some o :=
    Option.isSome_iff_exists.1 (by cases be <;> decide +kernel)
  have h1 : (loaded be (exArrived be) exDid).map (fun o => (o.status, o.key, o.head.map (·.val))) =
      some (none, 9, some (.commit exHeadCommit)) := by cases be <;> decide +kernel
  rw [ho] at h1
  obtain ⟨h2, h3⟩ := Prod.mk.inj (Option.some.inj h1)
  obtain ⟨h4, h5⟩ := Prod.mk.inj h3
  obtain ⟨b, hb, hv⟩ : ∃ b, o.head = some b ∧ b.val = .commit exHeadCommit := by
    cases hh : o.head with
    | none => rw [hh] at h5; cases h5
    | some b => rw [hh] at h5; exact ⟨b, rfl, Option.some.inj h5⟩
  refine ⟨o, b, exHeadCommit, loaded_loads ho, h2, h4, hb, hv, ?_⟩
  rintro ⟨nonce, hs⟩
  have h6 : exHeadCommit.sig.head? = some 7 := by decide +kernel
  rw [hs, h4] at h6
  cases h6

/-- The next commit is signed with the new key again. -/
example (be : Backend) :
    let w := exArrived be
    ((loadRepo be w exDid).2.toOption.join.bind fun r => (loaded be
      (commit exL be (loadRepo be w exDid).1 r [wr .create "z" (some 5)] none lucky false).1 exDid).map
        fun o => (o.key, (o.head.map (·.val)).map fun v => match v with | .commit co => co.sig | _ => [])) =
    some (9, some [9, 0]) := by
  cases be <;> decide +kernel

/-- Non-vacuity of `C62_signed_partial`: a repo with two commits, both signed with its key 7. -/
example (be : Backend) : ∃ o b, Loads be (exW1 be) exDid o ∧ o.key = 7 ∧ o.head = some b ∧
    SignedChain exL (exW1 be).blocks 7 (exL.hash b.val) ∧ ∃ co, b.val = .commit co ∧ co.prev ≠ none := by
  obtain ⟨o, ho⟩ : ∃ o, loaded be (exW1 be) exDid = some o :=
    Option.isSome_iff_exists.1 (by cases be <;> decide +kernel)
  have h1 : (loaded be (exW1 be) exDid).map (·.key) = some 7 := by cases be <;> decide +kernel
  have h2 : ((loaded be (exW1 be) exDid).bind (·.head)).map (fun b => match b.val with
    | .commit co => decide (co.prev ≠ none)
    | _ => false) = some true := by cases be <;> decide +kernel
  rw [ho] at h1 h2
  have h3 : o.key = 7 := Option.some.inj h1
  obtain ⟨b, hb, hs⟩ := C62_signed_partial exL_ok (fun h => h) (exW1_reach be) (by unfold isDid; decide +kernel)
    (loaded_loads ho)
  refine ⟨o, b, loaded_loads ho, h3, hb, h3 ▸ hs, ?_⟩
  rw [show (some o).bind (·.head) = some b from hb] at h2
  cases hv : b.val with
  | commit co =>
    rw [Option.map_some, hv] at h2
    exact ⟨co, rfl, of_decide_eq_true (Option.some.inj h2)⟩
  | _ => rw [Option.map_some, hv] at h2; cases h2

end Arroba.Xrpc
