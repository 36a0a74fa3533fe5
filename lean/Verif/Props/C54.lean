import Verif.Xrpc.Sessions
import Verif.Xrpc.LoadProofs
import Verif.Props.C44

/-!
# C54: sessions need credentials

The claim: a client that doesn't have the token gets none of the sessions, hence never gets the token.
It holds of getSession and refreshSession, and is false of createSession.
-/

namespace Arroba.Xrpc

open Arroba.Store

variable {C R : Type} [DecidableEq C] {L : Lib C R} {Z : Nat} {be : Backend} {al : Allow}
  {w : World C R} {cfg : Config R}

/-- Without the token, getSession and refreshSession raise. Missing: createSession, see `C54_false`. -/
theorem C54_refused_partial (hf : cfg.flask = true) {header : Option Key} (h : ¬ Authorized cfg header)
    (main : Option Ref) :
    (∃ e, getSession cfg w main header = .error e) ∧ ∃ e, refreshSession cfg w main header = .error e := by
  obtain ⟨e, he⟩ := auth_error hf h
  unfold getSession refreshSession
  rw [he]
  exact ⟨⟨e, rfl⟩, e, rfl⟩

/-- With the token, they name the server's own repo, and refreshSession gives the token again. -/
theorem C54_granted {header : Option Key} (h : Authorized cfg header) {r : Ref} {o : RepoObj C R}
    (ho : w.heap[r]? = some o) :
    getSession cfg w (some r) header = .ok (o.handle, o.did) ∧
      ∃ t, refreshSession cfg w (some r) header = .ok ⟨o.handle, o.did, t, t⟩ ∧
        header = some ("Bearer ".toList ++ t) := by
  have ha := C44_accepted h
  obtain ⟨t, h1, _, h3⟩ := h
  unfold getSession refreshSession
  rw [ha, h1]
  simp only [Option.bind_some, ho]
  exact ⟨trivial, t, rfl, h3⟩

/-- **The claim is false.** On every server with a token, every request that names a repo, active or
not, gets a session with the token, whatever its password; with it, the client is authorized. A name
that no repo has gets ValueError. Nothing changes either way. -/
theorem C54_false (hL : L.OK Z) (hr : Reach L be al w) {token : Key} (ht : cfg.token = some token)
    (hne : token ≠ []) {name : Key} (hn : name ≠ []) (password : Key) :
    (createSession cfg be w name password = (w, .error .value) ∧ ∀ d st, ¬ Answers be w name d st) ∨
    ∃ w' s d st, createSession cfg be w name password = (w', .ok s) ∧ Loaded w w' ∧
      Answers be w name d st ∧ s.did = some d ∧
      Authorized cfg (some ("Bearer ".toList ++ s.accessJwt)) := by
  unfold createSession
  rcases loadRepo_answers (hr.plain hL).1.core hn with ⟨h1, h2⟩ | ⟨d, st, w', r, o, h1, h2, h3, h4, h5, h6⟩
  · left
    rw [h1]
    exact ⟨rfl, h2⟩
  · right
    refine ⟨w', ⟨o.handle, o.did, token, token⟩, d, st, ?_, h6, h1, h4, token, ht, hne, rfl⟩
    rw [h2]
    dsimp only
    rw [ht]
    dsimp only
    rw [h3]

/-- The whole attack: a client that knows nothing but the handle of a repo overwrites a record in it. -/
theorem C54_attack_false (be : Backend) :
    let answer := createSession exCfg be (exW1 be) exHandle []
    let header := match answer.2 with
      | .ok s => some ("Bearer ".toList ++ s.accessJwt)
      | .error _ => none
    let inp : Input Nat := ⟨some exHandle, some "coll".toList, some "b".toList, some 666, false⟩
    (putRecord exCfg exL be (exW1 be) none inp lucky false).2.toBool = false ∧
    (getRecord exCfg exL be (putRecord exCfg exL be answer.1 header inp lucky false).1 exHandle
        "coll".toList "b".toList false).2.toOption.map (·.value) = some (.record 666) := by
  cases be <;> decide +kernel

example : Authorized exCfg exHeader := ⟨"secret".toList, rfl, by decide, rfl⟩

example (be : Backend) : (createSession exCfg be (exInactive be) exDid []).2.toBool = true := by
  cases be <;> decide +kernel

end Arroba.Xrpc
