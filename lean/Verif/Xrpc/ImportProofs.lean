import Verif.Xrpc.Import
import Verif.Xrpc.LoadProofs
import Verif.Storage.ImportProofs
import Verif.Mst.MonoProofs

/-! Helper lemmas for `import_repo`. -/

namespace Arroba.Store

variable {C R : Type} [DecidableEq C] {L : Lib C R} {w w' : World C R}

/-- Everything stored in `w` is stored in `w'`. -/
def ValLe (w w' : World C R) : Prop :=
  ∀ c b, w.read c = some b → ∃ b', w'.read c = some b' ∧ b'.val = b.val

theorem ValLe.rd (h : ValLe w w') : RdLe w.rd w'.rd := by
  intro c d hd
  unfold World.rd nodeIn at hd ⊢
  cases hb : dictGet w.blocks c with
  | none => rw [hb] at hd; cases hd
  | some b =>
    obtain ⟨b', h1, h2⟩ := h c b hb
    rw [hb] at hd
    rw [show dictGet w'.blocks c = some b' from h1]
    obtain ⟨v, s, o, p⟩ := b
    obtain ⟨v', s', o', p'⟩ := b'
    cases h2
    cases v with
    | node d' => exact hd
    | record _ => cases hd
    | commit _ => cases hd
    | event _ => cases hd

theorem addContent_mono (h : ValLe w w') (acc : List (Key × List (Key × Val C R))) (kv : Key × C) :
    OkLe (addContent w acc kv) (addContent w' acc kv) := by
  intro a ha
  unfold addContent at ha ⊢
  split
  · rename_i c r hs
    rw [hs] at ha
    dsimp only at ha
    cases hb : w.read kv.2 with
    | none => rw [hb] at ha; cases ha
    | some b =>
      obtain ⟨b', h1, h2⟩ := h _ b hb
      rw [hb] at ha
      rw [h1]
      dsimp only at ha ⊢
      rw [h2]
      exact ha
  · rename_i hs
    split at ha
    · rename_i c r hs'
      exact absurd hs' (hs c r)
    · cases ha

theorem addContents_mono (h : ValLe w w') : ∀ (kvs : List (Key × C))
    (acc : List (Key × List (Key × Val C R))), OkLe (addContents w acc kvs) (addContents w' acc kvs)
  | [], _ => .refl _
  | kv :: kvs, acc => (addContent_mono h acc kv).bind fun a => addContents_mono h kvs a

/-- What can be read stays the same when more is stored. -/
theorem ObjShows.mono (h : ValLe w w') {o : RepoObj C R} {m : Key → Option R}
    (hs : ObjShows L w o m) : ObjShows L w' o m := by
  refine ⟨hs.paths, fun c r => ?_, ?_⟩
  · have : OkLe (getRecord L w o c r) (getRecord L w' o c r) := by
      unfold getRecord
      refine (get_mono h.rd _ _ _).bind fun x => ?_
      cases x with
      | none => exact .refl _
      | some cid =>
        intro a ha
        dsimp only at ha ⊢
        cases hb : w.read cid with
        | none => rw [hb] at ha; cases ha
        | some b =>
          obtain ⟨b', h1, h2⟩ := h _ b hb
          rw [hb] at ha
          rw [h1]
          dsimp only at ha ⊢
          rw [h2]
          exact ha
    exact this _ (hs.get c r)
  · obtain ⟨cs, h1, h2⟩ := hs.contents
    refine ⟨cs, ?_, h2⟩
    have : OkLe (getContents L w o) (getContents L w' o) := by
      unfold getContents
      exact (list_mono h.rd _ _ _ _).bind fun x => addContents_mono h x []
    exact this _ h1

end Arroba.Store

namespace Arroba.Xrpc

open Arroba.Store

variable {C R : Type} [DecidableEq C] {L : Lib C R} {Z : Nat} {be : Backend} {w : World C R}
  {out : Outside C} {root : C}

theorem dictSet_fresh {α β : Type} [DecidableEq α] {k : α} {v : β} :
    ∀ {d : List (α × β)}, dictGet d k = none → dictSet d k v = d ++ [(k, v)]
  | [], _ => rfl
  | (k', v') :: rest, h => by
    unfold dictGet at h
    split at h
    · cases h
    · rename_i hne
      unfold dictSet
      rw [if_neg (fun e => hne (by rw [e])), dictSet_fresh h]
      rfl

theorem loop_ok {co : Commit C} {doc : Doc} : ∀ {l : List (C × Val C R)} {st : Importing C R},
    (∀ v, (root, v) ∈ l → checkHead be out w v = (w, .ok (co, doc))) →
    importLoop be out root w st l = (w, .ok ⟨st.blocks ++ l,
      if root ∈ l.map (·.1) then some (root, co, doc) else st.head⟩)
  | [], st, _ => by simp [importLoop]
  | (c, v) :: l, st, h => by
    unfold importLoop
    dsimp only
    by_cases hc : c = root
    · rw [if_pos hc, h v (by rw [hc]; exact List.mem_cons_self)]
      dsimp only
      rw [loop_ok (fun v' hv => h v' (.tail _ hv))]
      simp [hc]
    · rw [if_neg hc, loop_ok (fun v' hv => h v' (.tail _ hv))]
      have : root ∈ ((c, v) :: l).map (·.1) ↔ root ∈ l.map (·.1) := by
        simp [Ne.symm hc]
      simp only [this, List.append_assoc, List.cons_append, List.nil_append]

theorem loop_error {w1 : World C R} {e : Err} : ∀ {l : List (C × Val C R)} {st : Importing C R},
    root ∈ l.map (·.1) → (∀ v, (root, v) ∈ l → checkHead be out w v = (w1, .error e)) →
    importLoop be out root w st l = (w1, .error e)
  | [], st, hm, _ => by cases hm
  | (c, v) :: l, st, hm, h => by
    unfold importLoop
    dsimp only
    by_cases hc : c = root
    · subst hc
      rw [if_pos rfl, h v List.mem_cons_self]
    · rw [if_neg hc]
      refine loop_error ?_ (fun v' hv => h v' (.tail _ hv))
      rcases List.mem_cons.mp hm with h1 | h1
      · exact absurd h1.symm hc
      · exact h1

/-- What the checks of the head block amount to. -/
structure HeadOK (be : Backend) (out : Outside C) (w : World C R) (co : Commit C) (doc : Doc) :
    Prop where
  /-- The commit has a DID. -/
  did : co.did ≠ []
  /-- No repo is known by this DID. -/
  fresh : ∀ d st, ¬ Answers be w co.did d st
  /-- The DID resolves. -/
  resolved : out.resolve co.did = .ok doc
  /-- The DID document has a signing key, and the signature verifies. -/
  sig : ∃ k, doc.signingKey = some k ∧ out.verifies co k = true

theorem checkHead_ok {hi lo : Nat} (hw : PCore L Z be hi lo w) {co : Commit C} {doc : Doc}
    (h : HeadOK be out w co doc) : checkHead be out w (.commit co : Val C R) = (w, .ok (co, doc)) := by
  obtain ⟨k, hk, hv⟩ := h.sig
  unfold checkHead
  dsimp only
  rcases loadRepo_answers hw h.did with ⟨h1, _⟩ | ⟨d, st, _, _, _, h1, _⟩
  · rw [h1]
    dsimp only
    rw [h.resolved]
    dsimp only
    rw [hk]
    dsimp only
    rw [if_pos hv]
  · exact absurd h1 (h.fresh d st)

theorem checkHead_error {hi lo : Nat} (hw : PCore L Z be hi lo w) {v : Val C R}
    (h : ∀ co doc, v = .commit co → ¬ HeadOK be out w co doc) :
    ∃ w1 e, checkHead be out w v = (w1, .error e) ∧ Loaded w w1 := by
  unfold checkHead
  cases v with
  | node d => exact ⟨w, _, rfl, .refl w⟩
  | record d => exact ⟨w, _, rfl, .refl w⟩
  | event d => exact ⟨w, _, rfl, .refl w⟩
  | commit co =>
    dsimp only
    by_cases hd : co.did = []
    · refine ⟨w, .assertion, ?_, .refl w⟩
      unfold loadRepo
      rw [if_pos hd]
    · rcases loadRepo_answers hw hd with ⟨h1, h2⟩ | ⟨d, st, w1, r, o, _, h1, _, _, _, h2⟩
      · rw [h1]
        dsimp only
        cases hr : out.resolve co.did with
        | error e => exact ⟨w, e, rfl, .refl w⟩
        | ok doc =>
          dsimp only
          cases hk : doc.signingKey with
          | none => exact ⟨w, _, rfl, .refl w⟩
          | some k =>
            dsimp only
            by_cases hv : out.verifies co k = true
            · exact absurd ⟨hd, h2, hr, k, hk, hv⟩ (h co doc rfl)
            · rw [if_neg hv]
              exact ⟨w, _, rfl, .refl w⟩
      · rw [h1]
        exact ⟨w1, _, rfl, h2⟩

end Arroba.Xrpc
