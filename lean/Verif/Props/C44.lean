import Verif.Xrpc.Import
import Verif.Xrpc.Example

/-!
# C44: writes require the token

With flask, which serves the requests; without it there are no headers to look at, and `auth` lets
everything pass once the token is configured (`C44_no_flask`).
-/

namespace Arroba.Xrpc

open Arroba.Store

variable {C R : Type} [DecidableEq C] {L : Lib C R} {be : Backend} {w : World C R} {cfg : Config R}

/-- A token is configured, and the request carries it. -/
def Authorized (cfg : Config R) (header : Option Key) : Prop :=
  ∃ t, cfg.token = some t ∧ t ≠ [] ∧ header = some ("Bearer ".toList ++ t)

/-- Raises, and changes nothing. -/
def Rejects {α : Type} (w : World C R) (res : World C R × Except Err α) : Prop :=
  ∃ e, res = (w, .error e)

theorem auth_error (hf : cfg.flask = true) {header : Option Key} (h : ¬ Authorized cfg header) :
    ∃ e, auth cfg header = .error e := by
  unfold auth
  split
  · exact ⟨_, rfl⟩
  · rename_i ht
    split
    · exact ⟨_, rfl⟩
    · rename_i hh
      refine absurd ?_ h
      cases hc : cfg.token with
      | none => rw [hc] at ht; exact absurd rfl ht
      | some t =>
        refine ⟨t, hc, ?_, ?_⟩
        · rintro rfl; rw [hc] at ht; exact absurd rfl ht
        · rw [hc] at hh
          by_contra hne
          exact hh ⟨hf, hne⟩

/-- Without the token, every method that writes raises an exception and changes nothing: the records,
the blocks, the sequence numbers, the repos and what subscribers are told. -/
theorem C44_refused (hf : cfg.flask = true) {header : Option Key} (h : ¬ Authorized cfg header)
    (out : Outside C) (inp : Input R) (tid : Key) (xs : List Luck) (cbFails : Bool)
    (file : Except Err (Car C R)) :
    Rejects w (createRecord cfg L be w header inp tid xs cbFails) ∧
    Rejects w (putRecord cfg L be w header inp xs cbFails) ∧
    Rejects w (deleteRecord cfg L be w header inp xs cbFails) ∧
    Rejects w (importRepo cfg L be out w header file) ∧
    Rejects w (applyWrites cfg w header inp) ∧
    Rejects w (uploadBlob cfg w header) := by
  obtain ⟨e, he⟩ := auth_error hf h
  have hp : Rejects w (putRead cfg L be w header inp) := by
    unfold putRead
    cases hv : validate cfg inp none with
    | error e' => exact ⟨e', rfl⟩
    | ok u => rw [he]; exact ⟨e, rfl⟩
  have ha : ∀ inp, Rejects w (applyWrites cfg w header inp) := by
    intro inp
    unfold applyWrites
    cases hv : validate cfg inp none with
    | error e' => exact ⟨e', rfl⟩
    | ok u => rw [he]; exact ⟨e, rfl⟩
  refine ⟨?_, ?_, ?_, ?_, ha inp, ha _⟩
  · unfold createRecord
    dsimp only
    split
    · exact ⟨_, rfl⟩
    · exact ⟨_, rfl⟩
    · rename_i h2 _; rw [he] at h2; cases h2
    · rename_i h2 _; rw [he] at h2; cases h2
  · obtain ⟨e', hp⟩ := hp
    unfold putRecord
    rw [hp]
    exact ⟨e', rfl⟩
  · obtain ⟨e', hp⟩ := hp
    unfold deleteRecord
    rw [hp]
    exact ⟨e', rfl⟩
  · unfold importRepo
    rw [he]
    exact ⟨e, rfl⟩

/-- `applyWrites` and `uploadBlob` never change anything, with the token either: they are not
implemented (and `uploadBlob` never gets to say so). -/
theorem C44_unimplemented (header : Option Key) (inp : Input R) :
    (applyWrites cfg w header inp).1 = w ∧ uploadBlob cfg w header = (w, .error .value) := by
  constructor
  · unfold applyWrites
    split <;> rfl
  · unfold uploadBlob applyWrites validate
    rfl

/-- With the token the methods go on. -/
theorem C44_accepted {header : Option Key} (h : Authorized cfg header) : auth cfg header = .ok () := by
  obtain ⟨t, h1, h2, h3⟩ := h
  unfold auth
  rw [h1]
  have : truthy (some t) = true := by
    cases t with
    | nil => exact absurd rfl h2
    | cons => rfl
  rw [if_neg (by rw [this]; simp), if_neg (fun h => h.2 h3)]

/-- Without flask, a request without any header is accepted. -/
theorem C44_no_flask : auth { exCfg with flask := false } none = .ok () ∧
    ¬ Authorized { exCfg with flask := false } none :=
  ⟨by decide +kernel, fun ⟨_, _, _, h⟩ => by cases h⟩

/-- The same request with the token, with another one, and without. -/
example (be : Backend) :
    let inp : Input Nat := ⟨some exDid, some "coll".toList, some "z".toList, some 5, false⟩
    [exHeader, some "Bearer wrong".toList, some "secret".toList, none].map (fun h =>
      (putRecord exCfg exL be (exW1 be) h inp lucky false).2.toBool) = [true, false, false, false] := by
  cases be <;> decide +kernel

end Arroba.Xrpc
