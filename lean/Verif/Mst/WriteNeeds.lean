import Verif.Mst.InvertProofs
import Verif.Mst.SoundProofs

/-! # Lemmas: which blocks a sequence of writes needs -/

namespace Arroba

open Arroba.Tree

variable {C : Type} [DecidableEq C] {E : Env C} {rd : C → Option (NodeData C)} {fuel : Nat}

omit [DecidableEq C] in
theorem foldlM_cov {rd' : C → Option (NodeData C)} {D : Key → Prop} (hrd : RdLe rd' rd) :
    ∀ {ops : List (Op C)} {n x : Node C}, (∀ op ∈ ops, D op.key) → CovN E rd' D none none n →
    ops.foldlM (applyOp E rd fuel) n = .ok x →
    ops.foldlM (applyOp E rd' fuel) n = .ok x ∧ CovN E rd' D none none x
  | [], n, x, _, hc, h => by cases h; exact ⟨rfl, hc⟩
  | op :: ops, n, x, hD, hc, h => by
    rw [List.foldlM_cons] at h ⊢
    cases h1 : applyOp E rd fuel n op with
    | error e => rw [h1] at h; cases h
    | ok n₁ =>
      rw [h1, ok_bind] at h
      obtain ⟨a1, a2⟩ := applyOp_cov hrd (hD op (by simp)) hc h1
      rw [a1, ok_bind]
      exact foldlM_cov hrd (fun o ho => hD o (by simp [ho])) a2 h

omit [DecidableEq C] in
theorem foldlM_ok_mono {rd' : C → Option (NodeData C)} (hrd : RdLe rd rd') :
    ∀ {ops : List (Op C)} {n x : Node C}, ops.foldlM (applyOp E rd fuel) n = .ok x →
    ops.foldlM (applyOp E rd' fuel) n = .ok x
  | [], n, x, h => h
  | op :: ops, n, x, h => by
    rw [List.foldlM_cons] at h ⊢
    cases h1 : applyOp E rd fuel n op with
    | error e => rw [h1] at h; cases h
    | ok n₁ =>
      rw [h1, ok_bind] at h
      rcases applyOp_lacks (E := E) hrd fuel n op with e | e
      · rw [h1] at e; cases e
      · rw [← e, h1, ok_bind]
        exact foldlM_ok_mono hrd h

end Arroba
