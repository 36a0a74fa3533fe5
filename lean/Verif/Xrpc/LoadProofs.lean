import Verif.Xrpc.Model
import Verif.Storage.StatusProofs

/-! Helper lemmas: what `server.load_repo` finds. -/

namespace Arroba.Xrpc

open Arroba.Store

variable {C R : Type} [DecidableEq C]

/-- A stored repo with the DID `d` and the status `st` that is known by the name `q`: its DID or its
handle. -/
def Answers (be : Backend) (w : World C R) (q : Key) (d : Did) (st : Option Status) : Prop :=
  match be with
  | .memory => ∃ (r : Ref) (o : RepoObj C R), (d, r) ∈ w.repos ∧ w.heap[r]? = some o ∧ o.status = st ∧
      (d = q ∨ o.handle = some q)
  | .datastore => ∃ row, (d, row) ∈ w.rows ∧ row.status = st ∧ (d = q ∨ row.handle = some q)

variable {L : Lib C R} {Z : Nat} {be : Backend} {w : World C R} {cfg : Config R}

/-- Only objects have been added. -/
structure Loaded (w w' : World C R) : Prop where
  blocks : w'.blocks = w.blocks
  seqs : w'.seqs = w.seqs
  repos : w'.repos = w.repos
  rows : w'.rows = w.rows
  log : w'.log = w.log
  heap : ∀ (r : Nat) o, w.heap[r]? = some o → w'.heap[r]? = some o

theorem Loaded.refl (w : World C R) : Loaded w w := ⟨rfl, rfl, rfl, rfl, rfl, fun _ _ h => h⟩

theorem findRepo_answers {hi lo : Nat} (hw : PCore L Z be hi lo w) {q : Key} :
    ∀ {l : List (Did × Ref)}, (∀ x ∈ l, x ∈ w.repos) →
      (findRepo w q l = none ∧ ∀ d r (o : RepoObj C R), (d, r) ∈ l → w.heap[r]? = some o →
        ¬ (d = q ∨ o.handle = some q)) ∨
      ∃ d r o, findRepo w q l = some r ∧ (d, r) ∈ l ∧ w.heap[r]? = some o ∧ o.did = some d ∧
        (d = q ∨ o.handle = some q)
  | [], _ => .inl ⟨rfl, fun _ _ _ h => by cases h⟩
  | (d, r) :: rest, hl => by
    obtain ⟨_, o, ho, hd⟩ := hw.repos d r (hl _ List.mem_cons_self)
    have ha : answersTo q o = true ↔ (d = q ∨ o.handle = some q) := by
      unfold answersTo
      rw [Bool.or_eq_true, decide_eq_true_eq, decide_eq_true_eq, hd, Option.some.injEq]
    unfold findRepo
    rw [ho]
    dsimp only
    by_cases h : answersTo q o = true
    · rw [if_pos h]
      exact .inr ⟨d, r, o, rfl, List.mem_cons_self, ho, hd, ha.1 h⟩
    · rw [if_neg h]
      rcases findRepo_answers hw (l := rest) (fun x hx => hl x (.tail _ hx)) with
        ⟨h1, h2⟩ | ⟨d', r', o', h1, h2, h3, h4, h5⟩
      · refine .inl ⟨h1, fun d' r' o' hm ho' => ?_⟩
        rcases List.mem_cons.mp hm with hm | hm
        · obtain ⟨rfl, rfl⟩ := Prod.mk.inj hm
          rw [ho] at ho'
          cases ho'
          exact fun hh => h (ha.2 hh)
        · exact h2 d' r' o' hm ho'
      · exact .inr ⟨d', r', o', h1, .tail _ h2, h3, h4, h5⟩

theorem loadRepo_answers {hi lo : Nat} (hw : PCore L Z be hi lo w) {q : Key} (hq : q ≠ []) :
    (loadRepo be w q = (w, .ok none) ∧ ∀ d st, ¬ Answers be w q d st) ∨
    ∃ d st w' r o, Answers be w q d st ∧ loadRepo be w q = (w', .ok (some r)) ∧
      w'.heap[r]? = some o ∧ o.did = some d ∧ o.status = st ∧ Loaded w w' := by
  unfold loadRepo
  rw [if_neg hq]
  cases be with
  | memory =>
    dsimp only
    rcases findRepo_answers hw (q := q) (l := w.repos) (fun _ h => h) with
      ⟨h1, h2⟩ | ⟨d, r, o, h1, h2, h3, h4, h5⟩
    · left
      rw [h1]
      exact ⟨rfl, fun d st ⟨r, o, g1, g2, _, g3⟩ => h2 d r o g1 g2 g3⟩
    · right
      rw [h1]
      exact ⟨d, o.status, w, r, o, ⟨r, o, h2, h3, rfl, h5⟩, rfl, h3, h4, rfl, .refl w⟩
  | datastore =>
    dsimp only
    have hrow : (findRow w q = none ∧ ∀ d row, (d, row) ∈ w.rows → ¬ (d = q ∨ row.handle = some q)) ∨
        ∃ d row, findRow w q = some row ∧ (d, row) ∈ w.rows ∧ (d = q ∨ row.handle = some q) := by
      unfold findRow
      cases hg : dictGet w.rows q with
      | some row => exact .inr ⟨q, row, rfl, dictGet_mem hg, .inl rfl⟩
      | none =>
        dsimp only
        cases hf : w.rows.find? (fun kv => decide (kv.2.handle = some q)) with
        | none =>
          left
          refine ⟨rfl, fun d row hm => ?_⟩
          rw [List.find?_eq_none] at hf
          rintro (rfl | hh)
          · rw [dictGet_eq_none] at hg
            exact hg _ hm rfl
          · exact absurd (hf _ hm) (by simp [hh])
        | some kv =>
          right
          refine ⟨kv.1, kv.2, rfl, List.mem_of_find?_eq_some hf, .inr ?_⟩
          simpa using List.find?_some hf
    rcases hrow with ⟨h1, h2⟩ | ⟨d, row, h1, h2, h3⟩
    · left
      rw [h1]
      exact ⟨rfl, fun d st ⟨row, g1, _, g2⟩ => h2 d row g1 g2⟩
    · right
      rw [h1]
      dsimp only
      obtain ⟨_, b, co, g1, g2, g3, _⟩ := hw.rows d row h2
      have hc : commitAt w row.head = .ok (b, co) := by
        unfold commitAt World.read; rw [g1]; simp only [g2]
      let so : RepoObj C R := ⟨Arroba.load co.data, some b, row.handle, row.status, row.key, false⟩
      refine ⟨d, row.status, { w with heap := w.heap ++ [so] }, w.heap.length, so, ⟨row, h2, rfl, h3⟩, ?_,
        by simp, g3 ▸ did_eq rfl g2, rfl, rfl, rfl, rfl, rfl, rfl, ?_⟩
      · simp only [repoLoad, hc, World.newObj]
        rfl
      · intro r o ho
        rw [List.getElem?_append_left (lt_of_get ho)]
        exact ho

/-- What `server.load_repo` does. -/
theorem load_spec {hi lo : Nat} (hw : PCore L Z be hi lo w) {q name : Key}
    (ht : target cfg q = .ok name) (hn : name ≠ []) :
    (load cfg be w q = (w, .error (.xrpc "RepoNotFound")) ∧ ∀ d st, ¬ Answers be w name d st) ∨
    ∃ d st w' r o, Answers be w name d st ∧ loadRepo be w name = (w', .ok (some r)) ∧
      w'.heap[r]? = some o ∧ o.did = some d ∧ o.status = st ∧ Loaded w w' ∧
      load cfg be w q = (w', if st = none then .ok r else .error (.xrpc "RepoDeactivated")) := by
  unfold load
  rw [ht]
  dsimp only
  rcases loadRepo_answers hw hn with ⟨h1, h2⟩ | ⟨d, st, w', r, o, h1, h2, h3, h4, h5, h6⟩
  · left
    rw [h1]
    exact ⟨rfl, h2⟩
  · right
    refine ⟨d, st, w', r, o, h1, h2, h3, h4, h5, h6, ?_⟩
    rw [h2]
    dsimp only
    rw [h3]
    dsimp only
    rw [h5]
    by_cases hs : st = none
    · rw [if_neg (by simpa using hs), if_pos hs]
    · rw [if_pos hs, if_neg hs]

end Arroba.Xrpc
