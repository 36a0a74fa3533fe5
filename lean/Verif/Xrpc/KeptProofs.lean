import Verif.Xrpc.Together
import Verif.Xrpc.ServeProofs
import Verif.Props.C58

/-! Helper lemmas: requests that are served at the same time, and the table of accounts. -/

namespace Arroba.Xrpc

open Arroba.Store Arroba.Tree

variable {C R : Type} [DecidableEq C] {L : Lib C R} {Z : Nat} {w : World C R} {cfg : Config R}
  {A : Accounts R} {out : Surroundings}

/-- What is stored in the Datastore while commits are in progress. -/
structure Kept (L : Lib C R) (Z : Nat) (w : World C R) (A : Accounts R) : Prop where
  nodup : (w.rows.map (·.1)).Nodup
  did : ∀ d a, A d = some a → isDid d
  missing : ∀ d, A d = none → dictGet w.rows d = none
  held : ∀ d a, A d = some a → ∃ row, dictGet w.rows d = some row ∧ row.handle = a.handle ∧
    row.status = a.status ∧ (∀ h, row.handle = some h → ¬ isDid h) ∧
    Store.Holds L Z w.blocks d row.head a.records

theorem holds_object (hL : L.OK Z) (ha : Addressed L w.blocks) {d : Did} {c : C}
    {m : Key → Option R} (h : Store.Holds L Z w.blocks d c m) {handle : Option Key}
    (hh : ∀ h, handle = some h → ¬ isDid h) (status : Option Status) (key : Nat) (cb : Bool) :
    ∃ o, repoLoad w c handle status key cb =
        ({ w with heap := w.heap ++ [o] }, .ok w.heap.length) ∧ o.did = some d ∧ o.status = status ∧
      o.handle = handle ∧ ObjRep L Z w.blocks o m := by
  obtain ⟨b, co, h1, h2, h3, h4, h5⟩ := h.commitAt hL ha
  obtain ⟨l, t, g1, g2, g3⟩ := (h5.root ha).2.load
  refine ⟨⟨Arroba.load co.data, some b, handle, status, key, cb⟩, ?_, ?_, rfl, rfl, ⟨l, t, g1, g2, fun b' hb => ?_⟩, hh⟩
  · unfold repoLoad World.newObj
    rw [h1]
  · obtain ⟨v, x, y, z⟩ := b
    cases h2
    exact congrArg some h4
  · cases hb
    obtain ⟨b', hb', hv⟩ := (h5.root ha).1
    exact ⟨b', co, by rw [h2]; exact hb', by rw [hv, h2], h2, g3.symm⟩

theorem Kept.findRow (h : Kept L Z w A) (name : Key) :
    (Store.findRow w name = none ∧ ∀ d a, A d = some a → ¬ (d = name ∨ a.handle = some name)) ∨
    ∃ d row a, Store.findRow w name = some row ∧ dictGet w.rows d = some row ∧ A d = some a ∧
      (d = name ∨ a.handle = some name) := by
  have hA : ∀ d row, dictGet w.rows d = some row → ∃ a, A d = some a ∧ row.handle = a.handle := by
    intro d row hr
    cases ha : A d with
    | none => rw [h.missing d ha] at hr; cases hr
    | some a =>
      obtain ⟨row', h1, h2, _⟩ := h.held d a ha
      rw [hr] at h1
      cases h1
      exact ⟨a, rfl, h2⟩
  unfold Store.findRow
  cases hg : dictGet w.rows name with
  | some row =>
    obtain ⟨a, h1, h2⟩ := hA _ _ hg
    exact .inr ⟨name, row, a, rfl, hg, h1, .inl rfl⟩
  | none =>
    dsimp only
    cases hf : w.rows.find? (fun kv => decide (kv.2.handle = some name)) with
    | none =>
      refine .inl ⟨rfl, fun d a ha => ?_⟩
      obtain ⟨row, h1, h2, _⟩ := h.held d a ha
      rintro (rfl | hh)
      · rw [hg] at h1; cases h1
      · have := List.find?_eq_none.1 hf _ (dictGet_mem h1)
        rw [decide_eq_true_eq] at this
        exact this (h2.trans hh)
    | some kv =>
      have h1 := dictGet_of_mem h.nodup (List.mem_of_find?_eq_some hf)
      have h2 := List.find?_some hf
      rw [decide_eq_true_eq] at h2
      obtain ⟨a, h3, h4⟩ := hA _ _ h1
      exact .inr ⟨kv.1, kv.2, a, rfl, h1, h3, .inr (h4.symm.trans h2)⟩

theorem Kept.loadRepo (hL : L.OK Z) (h : Kept L Z w A) (ha : Addressed L w.blocks) {name : Key}
    (hn : name ≠ []) :
    (Store.loadRepo .datastore w name = (w, .ok none) ∧
      ∀ d a, A d = some a → ¬ (d = name ∨ a.handle = some name)) ∨
    ∃ d a o, A d = some a ∧ (d = name ∨ a.handle = some name) ∧ Store.loadRepo .datastore w name =
        ({ w with heap := w.heap ++ [o] }, .ok (some w.heap.length)) ∧ o.did = some d ∧
      o.status = a.status ∧ o.handle = a.handle ∧ ObjRep L Z w.blocks o a.records := by
  unfold Store.loadRepo
  rw [if_neg hn]
  dsimp only
  rcases h.findRow name with ⟨h1, h2⟩ | ⟨d, row, a, h1, h2, h3, h4⟩
  · rw [h1]
    exact .inl ⟨rfl, h2⟩
  · rw [h1]
    obtain ⟨row', g1, g2, g3, g4, g5⟩ := h.held d a h3
    rw [h2] at g1
    cases g1
    obtain ⟨o, k1, k2, k3, k4, k5⟩ := holds_object hL ha g5 g4 row.status row.key false
    dsimp only
    rw [k1]
    exact .inr ⟨d, a, o, h3, h4, rfl, k2, k3.trans g3, k4.trans g2, k5⟩

theorem Kept.loadsAs (hL : L.OK Z) (h : Kept L Z w A) (ha : Addressed L w.blocks) (q : Key) :
    LoadsAs cfg L Z .datastore (fun _ => True) w A q := by
  unfold LoadsAs load
  cases htar : target cfg q with
  | error e => exact ⟨w, .error e, rfl, trivial, .bad htar⟩
  | ok name =>
    dsimp only
    by_cases hn : name = []
    · subst hn
      exact ⟨w, .error .assertion, rfl, trivial, .empty htar⟩
    rcases h.loadRepo hL ha hn with ⟨h1, h2⟩ | ⟨d, a, o, h1, h2, h3, h4, h5, h6, h7⟩
    · rw [h1]
      exact ⟨w, _, rfl, trivial, .unknown htar hn h2⟩
    · rw [h3]
      dsimp only
      rw [List.getElem?_append_right (Nat.le_refl _), Nat.sub_self]
      dsimp only [List.getElem?_cons_zero]
      by_cases hst : a.status = none
      · rw [if_neg (by rw [h5]; exact not_not.2 hst)]
        refine ⟨_, _, rfl, trivial, o, d, a, ?_, h4, h.did d a h1, h5.trans hst, h6, h7, h1,
          .found htar hn h1 h2 hst⟩
        rw [List.getElem?_append_right (Nat.le_refl _), Nat.sub_self]
        rfl
      · rw [if_pos (by rw [h5]; exact hst)]
        exact ⟨_, _, rfl, trivial, .inactive htar hn h1 h2 hst⟩

theorem Kept.keeping (hL : L.OK Z) (h : Kept L Z w A) (ha : Addressed L w.blocks) :
    Keeping L .datastore w A := by
  have hdid : ∀ d d' a, isDid d → A d' = some a → (d' = d ∨ a.handle = some d) → d' = d := by
    rintro d d' a hd h1 (h2 | h2)
    · exact h2
    · obtain ⟨row, _, g2, _, g4, _⟩ := h.held d' a h1
      exact absurd hd (g4 d (g2.trans h2))
  refine ⟨h.did, fun d a hA => ?_, fun d hd hA => ?_⟩
  · rcases h.loadRepo hL ha (isDid_ne_nil (h.did d a hA)) with ⟨_, h2⟩ | ⟨d', a', o, h1, h2, h3, h4, h5, h6, h7⟩
    · exact absurd (.inl rfl) (h2 d a hA)
    · have := hdid d d' a' (h.did d a hA) h1 h2
      subst this
      rw [hA] at h1
      cases h1
      refine ⟨_, _, o, h3, ?_, h6, h5, ObjRep.shows hL h7⟩
      rw [List.getElem?_append_right (Nat.le_refl _), Nat.sub_self]
      rfl
  · rcases h.loadRepo hL ha (isDid_ne_nil hd) with ⟨h1, _⟩ | ⟨d', a', o, h1, h2, _⟩
    · exact ⟨w, h1⟩
    · have := hdid d d' a' hd h1 h2
      subst this
      rw [hA] at h1
      cases h1

theorem Kept.init (hL : L.OK Z) (hr : Reach L .datastore .untorn w) (hk : Keeping L .datastore w A) :
    Kept L Z w A := by
  obtain ⟨e1, e2⟩ := (keeping_iff hL hr).1 hk
  have hc := CInv.init hL hr (fun _ => ⟨[], []⟩)
  refine ⟨hr.tables.rows, hk.did, fun d hd => ?_, fun d a ha => ?_⟩
  · have := e1 d
    rw [hd] at this
    exact Option.map_eq_none_iff.1 this
  · have := e1 d
    rw [ha] at this
    obtain ⟨row, h1, h2⟩ := Option.map_eq_some_iff.1 this
    obtain ⟨h3, h4⟩ := Prod.mk.inj h2
    obtain ⟨g1, m, g2⟩ := hc.rows d row (dictGet_mem h1)
    refine ⟨row, h1, h3, h4, g1, ?_⟩
    obtain ⟨o, k1, _, _, k4⟩ := hc.shows hL (hk.did d a ha) (row := row) h1 g2
    obtain ⟨w2, s, o2, j1, j2, j5⟩ := e2 d a ha
    have k1' : Store.loadRepo .datastore w d = _ := k1
    rw [k1'] at j1
    cases j1
    have : some o = some o2 := by rw [← j2]; simp [CState.init]
    cases this
    exact (k4.unique j5) ▸ g2

end Arroba.Xrpc
