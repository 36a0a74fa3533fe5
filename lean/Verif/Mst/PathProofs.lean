import Verif.Mst.ListingProofs

/-! Helper lemmas for path proofs: linked chains and determinism of the search path. -/

namespace Arroba

variable {C : Type}

open Arroba.Tree

/-- Each block of the chain is the content of its CID in the store and links to the next CID,
either as a child or (the last step) as a record. -/
def LinkedChain (rd : C → Option (NodeData C)) : List C → Prop
  | [] => True
  | [c] => (rd c).isSome
  | c :: c' :: rest => (∃ d, rd c = some d ∧ (c' ∈ d.children ∨ (rest = [] ∧ ∃ e ∈ d.e, e.v = c'))) ∧
      (rest = [] ∧ (∃ d, rd c = some d ∧ ∃ e ∈ d.e, e.v = c') ∨ LinkedChain rd (c' :: rest))

theorem SearchPath.head {key : Key} {t : Tree C} {p : List (Tree C)} {o : Option C}
    (h : SearchPath key t p o) : ∃ q, p = t :: q := by
  cases h <;> exact ⟨_, rfl⟩

theorem subs_app (a b : Tree C) : subs (app a b) = subs a ++ subs b := by
  induction a <;> simp_all [app, subs]

theorem ser_leaf_mem {H : NodeData C → C} {k : Key} {v : C} {B : Tree C} :
    ∀ (A : Tree C) (last : Key), ∃ e ∈ (ser H (app A (leaf k v B))).2 last, e.v = v
  | .nil, last => by
    simp only [app, ser]
    exact ⟨_, List.mem_cons_self, rfl⟩
  | .leaf k' v' r, last => by
    obtain ⟨e, h1, h2⟩ := ser_leaf_mem (H := H) (k := k) (v := v) (B := B) r k'
    exact ⟨e, by simp [app, ser, h1], h2⟩
  | .sub c r, last => by
    obtain ⟨e, h1, h2⟩ := ser_leaf_mem (H := H) (k := k) (v := v) (B := B) r last
    exact ⟨e, by simpa [app, ser] using h1, h2⟩

theorem SearchPath.linked {E : Env C} {rd : C → Option (NodeData C)} {key : Key} {t : Tree C}
    {p : List (Tree C)} {o : Option C} (h : SearchPath key t p o) :
    ∀ {L : Nat}, WF E.zeros L t → (∀ s ∈ nodes t, rd (cidOf E.H s) = some (nodeOf E.H s)) →
    LinkedChain rd (p.map (cidOf E.H) ++ o.toList) := by
  induction h with
  | @hit A B v =>
    intro L hw hst
    have h0 := hst _ List.mem_cons_self
    obtain ⟨e, h1, h2⟩ := ser_leaf_mem (H := E.H) (k := key) (v := v) (B := B) A []
    simp only [List.map_cons, List.map_nil, Option.toList_some, List.cons_append, List.nil_append,
      LinkedChain]
    exact ⟨⟨_, h0, .inr ⟨trivial, e, h1, h2⟩⟩, .inl ⟨trivial, _, h0, e, h1, h2⟩⟩
  | @down A c B p o hA hB hd ih =>
    intro L hw hst
    have h0 := hst _ List.mem_cons_self
    obtain ⟨M, _, _, hwc, _, _⟩ := WF_sub.1 (WF_app.1 hw).2.1
    have hl := ih hwc fun s hs => hst s (by
      simp only [nodes, kids_app, kids, List.mem_cons, List.mem_append] at hs ⊢; tauto)
    obtain ⟨q, rfl⟩ := hd.head
    have hch : cidOf E.H c ∈ (nodeOf E.H (app A (sub c B))).children :=
      subs_children hw (by simp [subs_app, subs])
    simp only [List.map_cons, List.cons_append] at hl ⊢
    exact ⟨⟨_, h0, .inl hch⟩, .inr hl⟩
  | @miss A B hA hB _ _ =>
    intro L hw hst
    simp [LinkedChain, hst _ (by simp [nodes] : app A B ∈ nodes (app A B))]

theorem SearchPath.det {E : Env C} {k : Key} {t : Tree C} {p : List (Tree C)} {o : Option C}
    (hsp : SearchPath k t p o) : ∀ {p' : List (Tree C)} {o' : Option C}, SearchPath k t p' o' →
    Sorted t → ∀ {L : Nat}, WF E.zeros L t → p = p' := by
  induction hsp with
  | @hit A B v =>
    intro p' o' h' hs L hw
    generalize ht : app A (leaf k v B) = t at h' hs hw
    cases h' with
    | hit => rfl
    | @down A' c B' q o hA hB hd =>
      exfalso
      have hmem : (k, v) ∈ leaves (app A' (sub c B')) := by rw [← ht]; simp [leaves]
      simp only [leaves_app, leaves, List.mem_append] at hmem
      have hk : E.zeros k = L := (WF_app.1 (ht ▸ hw : WF E.zeros L (app A (leaf k v B)))).2.1.1
      rcases hmem with hm | hm | hm
      · exact lt_irrefl _ (hA _ hm)
      · obtain ⟨M, rfl, _, hwc, _, _⟩ := WF_sub.1 (WF_app.1 hw).2.1
        have := WF_zeros_le hwc _ hm
        simp only at this
        omega
      · exact lt_irrefl _ (hB _ hm)
    | @miss A' B' hA hB _ _ => rfl
  | @down A c B q o hA hB hd ih =>
    intro p' o' h' hs L hw
    generalize ht : app A (sub c B) = t at h' hs hw
    obtain ⟨M, hLM, hcn, hwc, hnB, _⟩ := WF_sub.1 (WF_app.1 (ht ▸ hw : WF E.zeros L (app A (sub c B)))).2.1
    cases h' with
    | @hit A' B' v =>
      exfalso
      have hmem : (k, v) ∈ leaves (app A (sub c B)) := by rw [ht]; simp [leaves]
      simp only [leaves_app, leaves, List.mem_append] at hmem
      have hk : E.zeros k = L := (WF_app.1 hw).2.1.1
      rcases hmem with hm | hm | hm
      · exact lt_irrefl _ (hA _ hm)
      · have := WF_zeros_le hwc _ hm
        simp only at this
        omega
      · exact lt_irrefl _ (hB _ hm)
    | @down A' c' B' q' o'' hA' hB' hd' =>
      have : A = A' ∧ c = c' ∧ B = B' := by
        have key : ∀ (A A' : Tree C), app A (sub c B) = app A' (sub c' B') →
            (∀ x ∈ leaves A, x.1 < k) → (∀ x ∈ leaves A', x.1 < k) → WF E.zeros L (app A (sub c B)) →
            A = A' ∧ c = c' ∧ B = B' := by
          intro A
          induction A with
          | nil =>
            intro A' he hA hA' hw
            cases A' with
            | nil => simp only [app, Tree.sub.injEq] at he; exact ⟨rfl, he⟩
            | leaf => simp [app] at he
            | sub x r =>
              exfalso
              simp only [app, Tree.sub.injEq] at he
              obtain ⟨rfl, rfl⟩ := he
              -- `B` starts with something smaller than `k` or is a subtree: both impossible
              cases r with
              | nil => exact hnB (by simp [app, startsSub])
              | sub => exact hnB (by simp [app, startsSub])
              | leaf k' v' r' =>
                have h1 := hB (k', v') (by simp [app, leaves])
                have h2 := hA' (k', v') (by simp [leaves])
                exact lt_irrefl _ (lt_trans h1 h2)
          | leaf k' v' r ih' =>
            intro A' he hA hA' hw
            cases A' with
            | nil => simp [app] at he
            | sub => simp [app] at he
            | leaf k'' v'' r' =>
              simp only [app, Tree.leaf.injEq] at he
              obtain ⟨rfl, rfl, he⟩ := he
              obtain ⟨rfl, rfl, rfl⟩ := ih' r' he (fun x hx => hA x (by simp [leaves, hx]))
                (fun x hx => hA' x (by simp [leaves, hx])) hw.2
              exact ⟨rfl, rfl, rfl⟩
          | sub x r _ ih' =>
            intro A' he hA hA' hw
            obtain ⟨M', _, _, _, hnr, hwr⟩ := WF_sub.1 hw
            cases A' with
            | nil =>
              exfalso
              simp only [app, Tree.sub.injEq] at he
              obtain ⟨rfl, rfl⟩ := he
              cases r with
              | nil => exact hnr (by simp [app, startsSub])
              | sub => exact hnr (by simp [app, startsSub])
              | leaf k' v' r' =>
                have h1 := hB' (k', v') (by simp [app, leaves])
                have h2 := hA (k', v') (by simp [leaves])
                exact lt_irrefl _ (lt_trans h1 h2)
            | leaf => simp [app] at he
            | sub x' r' =>
              simp only [app, Tree.sub.injEq] at he
              obtain ⟨rfl, he⟩ := he
              obtain ⟨rfl, rfl, rfl⟩ := ih' r' he (fun x hx => hA x (by simp [leaves, hx]))
                (fun x hx => hA' x (by simp [leaves, hx])) hwr
              exact ⟨rfl, rfl, rfl⟩
        exact key A A' ht hA hA' (ht ▸ hw)
      obtain ⟨rfl, rfl, rfl⟩ := this
      have hsc : Sorted c := (List.pairwise_append.1 hs.app_right).1
      rw [ih hd' hsc hwc]
    | @miss A' B' hA' hB' hsA hsB =>
      exfalso
      -- `c` is non-empty and lies between; its keys are either `< k` or `> k`
      have key : ∀ (A A' : Tree C), app A (sub c B) = app A' B' → ¬ endsSub A' →
          (∀ x ∈ leaves A, x.1 < k) → (∀ x ∈ leaves A', x.1 < k) →
          WF E.zeros L (app A (sub c B)) → False := by
        intro A
        induction A with
        | nil =>
          intro A' he hne hA hA' hw
          cases A' with
          | nil => simp only [app] at he; subst he; exact hsB trivial
          | leaf => simp [app] at he
          | sub x r =>
            simp only [app, Tree.sub.injEq] at he
            obtain ⟨rfl, rfl⟩ := he
            cases r with
            | nil => exact hne (by simp [endsSub])
            | sub => exact hnB (by simp [app, startsSub])
            | leaf k' v' r' =>
              have h1 := hB (k', v') (by simp [app, leaves])
              have h2 := hA' (k', v') (by simp [leaves])
              exact lt_irrefl _ (lt_trans h1 h2)
        | leaf k' v' r ih' =>
          intro A' he hne hA hA' hw
          cases A' with
          | nil =>
            simp only [app] at he
            have h1 := hA (k', v') (by simp [leaves])
            have h2 := hB' (k', v') (by rw [← he]; simp [leaves])
            exact lt_irrefl _ (lt_trans h1 h2)
          | sub => simp [app] at he
          | leaf k'' v'' r' =>
            simp only [app, Tree.leaf.injEq] at he
            obtain ⟨rfl, rfl, he⟩ := he
            exact ih' r' he hne (fun x hx => hA x (by simp [leaves, hx]))
              (fun x hx => hA' x (by simp [leaves, hx])) hw.2
        | sub x r _ ih' =>
          intro A' he hne hA hA' hw
          obtain ⟨M', _, _, _, hnr, hwr⟩ := WF_sub.1 hw
          cases A' with
          | nil => simp only [app] at he; subst he; exact hsB trivial
          | leaf => simp [app] at he
          | sub x' r' =>
            simp only [app, Tree.sub.injEq] at he
            obtain ⟨rfl, he⟩ := he
            refine ih' r' he ?_ (fun x hx => hA x (by simp [leaves, hx]))
              (fun x hx => hA' x (by simp [leaves, hx])) hwr
            intro hr; exact hne (by simp [endsSub, hr])
      exact key A A' ht hsA hA hA' (ht ▸ hw)
  | @miss A B hA hB hsA hsB =>
    intro p' o' h' hs L hw
    generalize ht : app A B = t at h' hs hw
    cases h' with
    | hit => rfl
    | miss => rfl
    | @down A' c B' q o hA' hB' hd =>
      exfalso
      obtain ⟨M, hLM, hcn, hwc, hnB, _⟩ := WF_sub.1 (WF_app.1 hw).2.1
      have key : ∀ (A' A : Tree C), app A' (sub c B') = app A B → ¬ endsSub A →
          (∀ x ∈ leaves A', x.1 < k) → (∀ x ∈ leaves A, x.1 < k) →
          WF E.zeros L (app A' (sub c B')) → False := by
        intro A'
        induction A' with
        | nil =>
          intro A he hne hA' hA hw
          cases A with
          | nil => simp only [app] at he; subst he; exact hsB trivial
          | leaf => simp [app] at he
          | sub x r =>
            simp only [app, Tree.sub.injEq] at he
            obtain ⟨rfl, rfl⟩ := he
            cases r with
            | nil => exact hne (by simp [endsSub])
            | sub => exact hnB (by simp [app, startsSub])
            | leaf k' v' r' =>
              have h1 := hB' (k', v') (by simp [app, leaves])
              have h2 := hA (k', v') (by simp [leaves])
              exact lt_irrefl _ (lt_trans h1 h2)
        | leaf k' v' r ih' =>
          intro A he hne hA' hA hw
          cases A with
          | nil =>
            simp only [app] at he
            have h1 := hA' (k', v') (by simp [leaves])
            have h2 := hB (k', v') (by rw [← he]; simp [leaves])
            exact lt_irrefl _ (lt_trans h1 h2)
          | sub => simp [app] at he
          | leaf k'' v'' r' =>
            simp only [app, Tree.leaf.injEq] at he
            obtain ⟨rfl, rfl, he⟩ := he
            exact ih' r' he hne (fun x hx => hA' x (by simp [leaves, hx]))
              (fun x hx => hA x (by simp [leaves, hx])) hw.2
        | sub x r _ ih' =>
          intro A he hne hA' hA hw
          obtain ⟨M', _, _, _, hnr, hwr⟩ := WF_sub.1 hw
          cases A with
          | nil => simp only [app] at he; subst he; exact hsB trivial
          | leaf => simp [app] at he
          | sub x' r' =>
            simp only [app, Tree.sub.injEq] at he
            obtain ⟨rfl, he⟩ := he
            refine ih' r' he ?_ (fun x hx => hA' x (by simp [leaves, hx]))
              (fun x hx => hA x (by simp [leaves, hx])) hwr
            intro hr; exact hne (by simp [endsSub, hr])
      exact key A' A ht.symm hsA hA' hA hw

end Arroba
