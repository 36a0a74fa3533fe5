import Verif.Xrpc.LoadProofs
import Verif.Storage.TableProofs
import Mathlib.Data.List.Perm.Subperm

/-! Helper lemmas: sorting and listing repos. -/

namespace Arroba.Xrpc

open Arroba.Store

section
variable {α : Type}

theorem insertByDid_perm (x : Did × α) : ∀ l, (insertByDid x l).Perm (x :: l)
  | [] => .refl _
  | y :: ys => by
    unfold insertByDid
    split
    · exact .refl _
    · exact ((insertByDid_perm x ys).cons y).trans (.swap _ _ _)

theorem sortByDid_perm (l : List (Did × α)) : (sortByDid l).Perm l := by
  induction l with
  | nil => exact .refl _
  | cons x l ih => exact (insertByDid_perm x _).trans (ih.cons x)

theorem insertByDid_sorted (x : Did × α) : ∀ {l : List (Did × α)},
    l.Pairwise (fun a b => a.1 < b.1) → (∀ y ∈ l, x.1 ≠ y.1) →
    (insertByDid x l).Pairwise (fun a b => a.1 < b.1)
  | [], _, _ => List.pairwise_singleton _ _
  | y :: ys, h, hne => by
    obtain ⟨h1, h2⟩ := List.pairwise_cons.mp h
    unfold insertByDid
    split
    · rename_i hle
      have hlt : x.1 < y.1 := lt_of_le_of_ne hle (hne y List.mem_cons_self)
      refine List.pairwise_cons.mpr ⟨?_, h⟩
      intro z hz
      rcases List.mem_cons.mp hz with rfl | hz
      · exact hlt
      · exact hlt.trans (h1 z hz)
    · rename_i hle
      refine List.pairwise_cons.mpr ⟨?_, insertByDid_sorted x h2 fun z hz => hne z (.tail _ hz)⟩
      intro z hz
      rcases List.mem_cons.mp ((insertByDid_perm x ys).mem_iff.mp hz) with rfl | hz
      · exact lt_of_not_ge hle
      · exact h1 z hz

theorem sortByDid_sorted {l : List (Did × α)} (h : (l.map (·.1)).Nodup) :
    (sortByDid l).Pairwise (fun a b => a.1 < b.1) := by
  induction l with
  | nil => exact .nil
  | cons x l ih =>
    rw [List.map_cons, List.nodup_cons] at h
    refine insertByDid_sorted x (ih h.2) ?_
    intro y hy he
    exact h.1 (he ▸ List.mem_map_of_mem (f := (·.1)) ((sortByDid_perm l).mem_iff.mp hy))

end

theorem mapM_ok {α β : Type} {f : α → Except Err β} {P : α → β → Prop} : ∀ {l : List α},
    (∀ x ∈ l, ∃ y, f x = .ok y ∧ P x y) → ∃ ys, l.mapM f = .ok ys ∧ List.Forall₂ P l ys
  | [], _ => ⟨[], rfl, .nil⟩
  | x :: l, h => by
    obtain ⟨y, h1, h2⟩ := h x List.mem_cons_self
    obtain ⟨ys, h3, h4⟩ := mapM_ok fun x hx => h x (.tail _ hx)
    refine ⟨y :: ys, ?_, .cons h2 h4⟩
    rw [List.mapM_cons, h1, ok_bind, h3, ok_bind]
    rfl

theorem forall₂_map {α β γ : Type} {k : α → γ} {k' : β → γ} {l : List α} {ys : List β}
    (h : List.Forall₂ (fun x y => k x = k' y) l ys) : ys.map k' = l.map k := by
  induction h with
  | nil => rfl
  | cons h _ ih => rw [List.map_cons, List.map_cons, ih, h]

theorem forall₂_mem {α β : Type} {P : α → β → Prop} {l : List α} {ys : List β}
    (h : List.Forall₂ P l ys) {y : β} (hy : y ∈ ys) : ∃ x ∈ l, P x y := by
  induction h with
  | nil => cases hy
  | cons h _ ih =>
    rcases List.mem_cons.mp hy with rfl | hy
    · exact ⟨_, List.mem_cons_self, h⟩
    · obtain ⟨x, g1, g2⟩ := ih hy
      exact ⟨x, .tail _ g1, g2⟩

theorem mapM_append_ok {α β : Type} {f : α → Except Err β} : ∀ {l l' : List α} {ys : List β},
    (l ++ l').mapM f = .ok ys → ∃ a b, l.mapM f = .ok a ∧ l'.mapM f = .ok b ∧ ys = a ++ b
  | [], _, ys, h => ⟨[], ys, rfl, h, rfl⟩
  | x :: l, l', ys, h => by
    rw [List.cons_append, List.mapM_cons] at h
    obtain ⟨y, h1, h2⟩ := bind_ok h
    obtain ⟨zs, h3, h4⟩ := bind_ok h2
    obtain ⟨a, b, h5, h6, rfl⟩ := mapM_append_ok h3
    cases h4
    exact ⟨y :: a, b, by rw [List.mapM_cons, h1, ok_bind, h5]; rfl, h6, rfl⟩

/-- Mapping over a selection by key, when the results have the same keys. -/
theorem mapM_select {α β : Type} {f : α → Except Err β} {k : α → Key} {k' : β → Key} (p : Key → Bool)
    (n : Nat) : ∀ {l : List α} {ys : List β}, l.mapM f = .ok ys → List.Forall₂ (fun x y => k x = k' y) l ys →
    ((l.filter fun x => p (k x)).take n).mapM f = .ok ((ys.filter fun y => p (k' y)).take n) := by
  intro l
  induction l generalizing n with
  | nil =>
    intro ys h hf
    cases hf
    simp only [List.filter_nil, List.take_nil]
    rfl
  | cons x l ih =>
    intro ys h hf
    rw [List.mapM_cons] at h
    obtain ⟨y, h1, h2⟩ := bind_ok h
    obtain ⟨zs, h3, h4⟩ := bind_ok h2
    cases h4
    obtain ⟨hk, hf⟩ := List.forall₂_cons.mp hf
    by_cases hp : p (k x) = true
    · rw [List.filter_cons_of_pos (p := fun x => p (k x)) hp, List.filter_cons_of_pos (by rw [← hk]; exact hp)]
      cases n with
      | zero => rfl
      | succ n =>
        rw [List.take_succ_cons, List.take_succ_cons, List.mapM_cons, h1, ok_bind, ih n h3 hf]
        rfl
    · rw [List.filter_cons_of_neg (p := fun x => p (k x)) hp, List.filter_cons_of_neg (by rw [← hk]; exact hp)]
      exact ih n h3 hf

theorem dropWhile_sorted {α : Type} {k : α → Key} {c : Key} : ∀ {l : List α},
    l.Pairwise (fun a b => k a < k b) →
    (l.dropWhile fun x => !decide (c < k x)) = l.filter fun x => decide (c < k x)
  | [], _ => rfl
  | x :: l, h => by
    obtain ⟨h1, h2⟩ := List.pairwise_cons.mp h
    by_cases hc : c < k x
    · rw [List.dropWhile_cons_of_neg (by simp [hc]), List.filter_eq_self.mpr]
      intro y hy
      rcases List.mem_cons.mp hy with rfl | hy
      · exact decide_eq_true hc
      · exact decide_eq_true (hc.trans (h1 y hy))
    · rw [List.dropWhile_cons_of_pos (by simp [hc]), List.filter_cons_of_neg (by simp [hc]),
        dropWhile_sorted h2]

end Arroba.Xrpc
