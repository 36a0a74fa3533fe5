import Verif.Mst.ExecProofs

/-! Helper lemmas: nodes and leaves of trees. -/

namespace Arroba

open Arroba.Tree in
theorem mem_leaves_iff {C : Type} {t : Tree C} (hs : Sorted t) (k : Key) (v : C) :
    (k, v) ∈ leaves t ↔ dictGet (leaves t) k = some v := by
  constructor
  · intro h
    obtain ⟨xs, ys, heq⟩ := List.append_of_mem h
    have hp : (xs ++ (k, v) :: ys).Pairwise (fun a b : Key × C => a.1 < b.1) := heq ▸ hs
    have : dictGet xs k = none := dictGet_eq_none.2 fun x hx =>
      ne_of_lt ((List.pairwise_append.1 hp).2.2 x hx (k, v) (by simp))
    rw [heq, dictGet_append, this]
    simp [dictGet]
  · exact dictGet_mem

end Arroba

namespace Arroba.Store

variable {C : Type}

open Arroba.Tree


theorem ser_vals {H : NodeData C → C} : ∀ {t : Tree C} {last : Key} {e : EntryData C},
    e ∈ (ser H t).2 last → ∃ k, (k, e.v) ∈ leaves t := by
  intro t
  induction t with
  | nil => intro last e h; simp [ser] at h
  | leaf k v r ih =>
    intro last e h
    simp only [ser, List.mem_cons] at h
    rcases h with rfl | h
    · exact ⟨k, by simp [leaves]⟩
    · obtain ⟨k', h'⟩ := ih h
      exact ⟨k', by simp [leaves, h']⟩
  | sub c r _ ih =>
    intro last e h
    simp only [ser] at h
    obtain ⟨k', h'⟩ := ih h
    exact ⟨k', by simp [leaves, h']⟩

theorem leaves_of_node : ∀ {t s : Tree C}, s ∈ nodes t → ∀ x ∈ leaves s, x ∈ leaves t := by
  intro t
  induction t with
  | nil => intro s hs x hx; simp [nodes, kids] at hs; subst hs; exact hx
  | leaf k v r ih =>
    intro s hs x hx
    simp only [nodes, kids, List.mem_cons] at hs
    rcases hs with rfl | hs
    · exact hx
    · have := ih (s := s) (by simp [nodes, hs]) x hx
      simp [leaves, this]
  | sub c r ih1 ih2 =>
    intro s hs x hx
    simp only [nodes, kids, List.mem_cons, List.mem_append] at hs
    rcases hs with rfl | hs | hs
    · exact hx
    · have := ih1 (s := s) (by simpa [nodes] using hs) x hx
      simp [leaves, this]
    · have := ih2 (s := s) (by simp [nodes, hs]) x hx
      simp [leaves, this]

theorem kids_trans : ∀ {t s u : Tree C}, s ∈ kids t → u ∈ kids s → u ∈ kids t := by
  intro t
  induction t with
  | nil => intro s u hs; simp [kids] at hs
  | leaf k v r ih => intro s u hs hu; exact ih hs hu
  | sub c r ih1 ih2 =>
    intro s u hs hu
    simp only [kids, List.mem_cons, List.mem_append] at hs ⊢
    rcases hs with (rfl | hs) | hs
    · exact .inl (.inr hu)
    · exact .inl (.inr (ih1 hs hu))
    · exact .inr (ih2 hs hu)

theorem nodes_trans {t s u : Tree C} (hs : s ∈ nodes t) (hu : u ∈ nodes s) : u ∈ nodes t := by
  simp only [nodes, List.mem_cons] at hs hu ⊢
  rcases hs with rfl | hs
  · exact hu
  · rcases hu with rfl | hu
    · exact .inr hs
    · exact .inr (kids_trans hs hu)

theorem ser_all_vals {H : NodeData C → C} {t : Tree C} {k : Key} {v : C} (hk : (k, v) ∈ leaves t) :
    ∃ s ∈ nodes t, ∃ e ∈ (nodeOf H s).e, e.v = v := by
  suffices h : ∀ {t : Tree C} {last : Key} {k : Key} {v : C}, (k, v) ∈ leaves t →
      (∃ e ∈ (ser H t).2 last, e.v = v) ∨ ∃ s ∈ kids t, ∃ e ∈ (nodeOf H s).e, e.v = v by
    rcases h (last := []) hk with h | ⟨s, hs, h⟩
    · exact ⟨t, by simp [nodes], h⟩
    · exact ⟨s, by simp [nodes, hs], h⟩
  intro t
  induction t with
  | nil => intro last k v h; simp [leaves] at h
  | leaf k' v' r ih =>
    intro last k v h
    simp only [leaves, List.mem_cons, Prod.mk.injEq] at h
    rcases h with ⟨rfl, rfl⟩ | h
    · exact .inl ⟨_, by simp only [ser]; exact .head _, rfl⟩
    · rcases ih (last := k') h with ⟨e, he, hv⟩ | h
      · exact .inl ⟨e, by simp only [ser]; exact .tail _ he, hv⟩
      · exact .inr h
  | sub c r ihc ihr =>
    intro last k v h
    simp only [leaves, List.mem_append] at h
    rcases h with h | h
    · rcases ihc (last := []) h with h | ⟨s, hs, h⟩
      · exact .inr ⟨c, by simp [kids], h⟩
      · exact .inr ⟨s, by simp [kids, hs], h⟩
    · rcases ihr (last := last) h with h | ⟨s, hs, h⟩
      · exact .inl h
      · exact .inr ⟨s, by simp [kids, hs], h⟩

end Arroba.Store
