import Verif.Xrpc.SurviveProofs

/-! Helper lemmas: doing a request twice is the same as doing it once. -/

namespace Arroba.Xrpc

open Arroba.Store

variable {C R : Type} [DecidableEq C] {L : Lib C R} {cfg : Config R} {A A' : Accounts R}
  {out : Surroundings} {a : Answer C R}

theorem finds_again {q : Key} {d : Did} {x : Account R} (h : Finds cfg A q (.ok (d, x)))
    (m : Key → Option R) : Finds cfg (Function.update A d (some { x with records := m })) q
      (.ok (d, { x with records := m })) := by
  cases h with
  | found h hn _ hname hs => exact .found h hn (Function.update_self ..) hname hs

theorem servesPut_again {header : Option Key} {inp : Input R} (h : ServesPut cfg L A header inp a A') :
    ∃ b, ServesPut cfg L A' header inp b A' := by
  unfold ServesPut at h ⊢
  by_cases hm : Malformed cfg inp none
  · simp only [if_pos hm] at h ⊢
    exact ⟨_, rfl, trivial⟩
  simp only [if_neg hm] at h ⊢
  by_cases ha : Authorized cfg header
  swap
  · simp only [if_pos ha] at h ⊢
    exact ⟨_, rfl, trivial⟩
  simp only [if_neg (not_not.2 ha)] at h ⊢
  obtain ⟨res, h1, h2⟩ := h
  rcases res with e | ⟨d, x⟩
  · obtain ⟨-, rfl⟩ := h2
    exact ⟨_, _, h1, rfl, trivial⟩
  · cases hc : inp.collection with
    | none => rw [hc] at h2; obtain ⟨-, rfl⟩ := h2; exact ⟨_, _, h1, rfl, trivial⟩
    | some c => cases hk : inp.rkey with
      | none => rw [hc, hk] at h2; obtain ⟨-, rfl⟩ := h2; exact ⟨_, _, h1, rfl, trivial⟩
      | some k => cases hr : inp.record with
        | none => rw [hc, hk, hr] at h2; obtain ⟨-, rfl⟩ := h2; exact ⟨_, _, h1, rfl, trivial⟩
        | some r =>
          rw [hc, hk, hr] at h2
          dsimp only at h2
          split at h2
          · rename_i hacc
            obtain ⟨-, rfl⟩ := h2
            refine ⟨.written ⟨uriOf d c k, L.rcid r⟩, _, finds_again h1 _, ?_⟩
            dsimp only
            rw [if_pos hacc, Function.update_idem, Function.update_idem]
            exact ⟨rfl, rfl⟩
          · rename_i hacc
            obtain ⟨-, rfl⟩ := h2
            refine ⟨.failed .value, _, h1, ?_⟩
            dsimp only
            rw [if_neg hacc]
            exact ⟨rfl, trivial⟩

/-- After a request, the same request may leave everything as it is. -/
theorem serves_again {req : Request R} (h : Serves cfg out L A req a A') :
    ∃ b, Serves cfg out L A' req b A' := by
  cases req with
  | getRecord repo collection rkey cid => exact ⟨a, by obtain ⟨rfl, _⟩ := id h; exact h⟩
  | listRecords repo collection limit cursor => exact ⟨a, by obtain ⟨rfl, _⟩ := id h; exact h⟩
  | describeRepo repo => exact ⟨a, by obtain ⟨rfl, _⟩ := id h; exact h⟩
  | getRepoStatus did => exact ⟨a, by obtain ⟨rfl, _⟩ := id h; exact h⟩
  | putRecord header inp => exact servesPut_again h
  | createRecord header inp tid =>
    unfold Serves at h ⊢
    dsimp only at h ⊢
    generalize (if inp.collection.getD [] ≠ [] then inp.collection else inp.record.bind cfg.typ) = coll at h ⊢
    by_cases hm : Malformed cfg inp coll
    · simp only [if_pos hm] at h ⊢
      exact ⟨_, rfl, trivial⟩
    · simp only [if_neg hm] at h ⊢
      exact servesPut_again h
  | deleteRecord header inp =>
    unfold Serves at h ⊢
    dsimp only at h ⊢
    by_cases hm : Malformed cfg inp none
    · simp only [if_pos hm] at h ⊢
      exact ⟨_, rfl, trivial⟩
    simp only [if_neg hm] at h ⊢
    by_cases ha : Authorized cfg header
    swap
    · simp only [if_pos ha] at h ⊢
      exact ⟨_, rfl, trivial⟩
    simp only [if_neg (not_not.2 ha)] at h ⊢
    obtain ⟨res, h1, h2⟩ := h
    rcases res with e | ⟨d, x⟩
    · obtain ⟨-, rfl⟩ := h2
      exact ⟨_, _, h1, rfl, trivial⟩
    · cases hc : inp.collection with
      | none => rw [hc] at h2; obtain ⟨-, rfl⟩ := h2; exact ⟨_, _, h1, rfl, trivial⟩
      | some c => cases hk : inp.rkey with
        | none => rw [hc, hk] at h2; obtain ⟨-, rfl⟩ := h2; exact ⟨_, _, h1, rfl, trivial⟩
        | some k =>
          rw [hc, hk] at h2
          obtain ⟨-, rfl⟩ := h2
          refine ⟨.done, _, finds_again h1 _, rfl, ?_⟩
          dsimp only
          rw [Function.update_idem, Function.update_idem]
  | applyWrites header inp => exact ⟨a, by obtain ⟨rfl, _⟩ := id h; exact h⟩
  | uploadBlob header => exact ⟨a, by obtain ⟨rfl, _⟩ := id h; exact h⟩
  | newRepo did handle =>
    obtain ⟨-, rfl⟩ := h
    exact ⟨.done, rfl, (Function.update_idem ..).symm⟩
  | setStatus did change =>
    unfold Serves at h ⊢
    dsimp only at h ⊢
    cases hd : A did with
    | none =>
      rw [hd] at h
      obtain ⟨-, rfl⟩ := h
      rw [hd]
      exact ⟨_, rfl, rfl⟩
    | some x =>
      rw [hd] at h
      obtain ⟨-, rfl⟩ := h
      rw [Function.update_self]
      exact ⟨_, rfl, (Function.update_idem ..).symm⟩

end Arroba.Xrpc
