import Verif.Mst.ExecProofs

/-! Helper lemmas: the pointer-cache discipline holds in every execution. -/

namespace Arroba

variable {C : Type}

open Arroba.Tree

section
variable {E : Env C} {rd : C → Option (NodeData C)}

theorem Clean.applyOp {fuel : Nat} {n n' : Node C} {op : Op C} (h : Clean n)
    (he : applyOp E rd fuel n op = .ok n') : Clean n' := by
  cases op with
  | add k v => exact h.add he
  | update k v => exact h.update he
  | delete k => exact h.delete he

theorem Cached.keeps {fuel : Nat} {n n' : Node C} (h : Cached E rd fuel n n') :
    (Clean n → Clean n') ∧ (Fresh n → Fresh n') := by
  induction h with
  | @entries n es h =>
    refine ⟨fun hc => ?_, fun hc => ?_⟩
    · cases ho : n.outdated with
      | true => exact .mk rfl fun es' he => by cases he; exact hc.getEntries h
      | false =>
        exact .fresh (.mk rfl fun es' he => by cases he; exact (hc.fresh_of ho).getEntries h)
    · cases hc with
      | mk ho hc' => exact .mk ho fun es' he => by cases he; exact (Fresh.mk ho hc').getEntries h
  | @layer n l h =>
    exact ⟨fun hc => hc.setLayer l, fun hc => by cases hc with | mk ho hc => exact .mk ho hc⟩
  | @attemptLayer n l h =>
    exact ⟨fun hc => hc.setLayer l, fun hc => by cases hc with | mk ho hc => exact .mk ho hc⟩
  | @pointer n n' h => exact ⟨fun hc => .fresh (hc.refresh h), fun hc => (Clean.fresh hc).refresh h⟩
  | @child l r m m' p y o h ih =>
    have key : Fresh (.mk (some (l ++ .tree m :: r)) p y o) →
        Fresh (.mk (some (l ++ .tree m' :: r)) p y o) := by
      intro hc
      cases hc with
      | mk ho hc =>
        refine .mk ho fun es he => ?_
        simp only [Node.entries, Option.some.injEq] at he
        subst he
        intro x hx
        have := hc _ rfl
        simp only [List.mem_append, List.mem_cons, Ent.tree.injEq] at hx this
        rcases hx with hx | rfl | hx
        · exact this x (.inl hx)
        · exact ih.2 (this m (.inr (.inl rfl)))
        · exact this x (.inr (.inr hx))
    refine ⟨fun hc => ?_, key⟩
    cases o with
    | false => exact .fresh (key (hc.fresh_of rfl))
    | true =>
      refine .mk rfl fun es he => ?_
      simp only [Node.entries, Option.some.injEq] at he
      subst he
      intro x hx
      have := hc.entries rfl
      simp only [CleanEs, List.mem_append, List.mem_cons, Ent.tree.injEq] at hx this
      rcases hx with hx | rfl | hx
      · exact this x (.inl hx)
      · exact ih.1 (this m (.inr (.inl rfl)))
      · exact this x (.inr (.inr hx))

theorem Run.clean [DecidableEq C] {fuel : Nat} {n : Node C} {ops : List (Op C)}
    {outs : List (Option Err)} (h : Run E fuel rd n ops outs) : Clean n := by
  induction h with
  | @create rd n hs h =>
    obtain ⟨p, _, h⟩ := bind_ok h
    cases h
    exact .fresh (.mk rfl fun es he => by cases he; simp)
  | ok _ h' ih => exact ih.applyOp h'
  | fail _ _ ih => exact ih
  | cache _ h' ih => exact h'.keeps.1 ih
  | store _ _ _ ih => exact ih
  | persist _ _ ih => exact ih
  | reload _ _ _ _ => exact .fresh Fresh.load

end

end Arroba
