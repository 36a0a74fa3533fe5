import Verif.Mst.Invert
import Verif.Mst.CovProofs3
import Verif.Mst.Canon

/-! # Lemmas: undoing operations with the covering blocks only -/

namespace Arroba

variable {C : Type} [DecidableEq C]

open Arroba.Tree Arroba.Store

section
variable {E : Env C} {rd rd' : C → Option (NodeData C)} {D : Key → Prop}

omit [DecidableEq C] in
theorem inverse_spec {m : Key → Option C} {op : CommitOp C} (h : op.fits m) (hk : validKey op.path = true) :
    ∃ o, op.inverse = some o ∧ o.key = op.path ∧ specStep (op.after m) o = (m, none) := by
  obtain ⟨action, path, cid, prev⟩ := op
  cases action with
  | create =>
    simp only [CommitOp.fits] at h
    refine ⟨.delete path, rfl, rfl, ?_⟩
    simp only [specStep, CommitOp.after, Function.update_self, h.2, if_false, Function.update_idem]
    rw [← h.1, Function.update_eq_self]
  | update =>
    simp only [CommitOp.fits] at h
    obtain ⟨p, rfl⟩ := Option.ne_none_iff_exists'.1 h.2.1
    refine ⟨.update path p, rfl, rfl, ?_⟩
    simp only at hk
    simp only [specStep, CommitOp.after, Function.update_self, h.2.2, if_false, Function.update_idem, hk,
      Bool.true_eq_false]
    rw [← h.1, Function.update_eq_self]
  | delete =>
    simp only [CommitOp.fits] at h
    obtain ⟨p, rfl⟩ := Option.ne_none_iff_exists'.1 h.2.1
    refine ⟨.add path p, rfl, rfl, ?_⟩
    simp only at hk
    simp only [specStep, CommitOp.after, Function.update_self, h.2.2, if_false, Function.update_idem, hk,
      Bool.true_eq_false, ne_eq, not_true_eq_false]
    rw [← h.1, Function.update_eq_self]

omit [DecidableEq C] in
theorem Inv.nil_iff {Z L : Nat} {t : Tree C} {n : Node C} {m : Key → Option C} (h : Inv E rd Z L t n m)
    (ht : t = nil) : ∀ k, m k = none := by
  intro k
  rw [← h.map, ht]
  rfl

omit [DecidableEq C] in
theorem undo_spec {Z : Nat} (hZ : ∀ k, E.zeros k ≤ Z) {f : Nat} (hf : Z + 2 ≤ f) (hrd : RdLe rd' rd) :
    ∀ {ops : List (CommitOp C)} {m : Key → Option C} {L : Nat} {t : Tree C} {n : Node C},
    FitsAll m ops → (∀ op ∈ ops, D op.path ∧ validKey op.path = true) →
    Inv E rd Z L t n (afterAll m ops) → CovN E rd' D none none n →
    ∃ n₀ t₀ L₀, undo E rd' f ops n = .ok n₀ ∧ Inv E rd Z L₀ t₀ n₀ m ∧ CovN E rd' D none none n₀ ∧
      (Trimmed t → (t = nil → L = 0) → (∀ i, 0 < i → i < ops.length → ∃ k, afterAll m (ops.take i) k ≠ none) →
        Trimmed t₀ ∧ (t₀ = nil → L₀ = 0 ∨ ops ≠ []))
  | [], m, L, t, n, _, _, hi, hc => ⟨n, t, L, rfl, hi, hc, fun h1 h2 _ => ⟨h1, fun h => .inl (h2 h)⟩⟩
  | op :: ops, m, L, t, n, hfit, hD, hi, hc => by
    obtain ⟨n₁, t₁, L₁, h1, h2, h3, h4⟩ := undo_spec hZ hf hrd (ops := ops) (m := op.after m) hfit.2
      (fun o ho => hD o (by simp [ho])) hi hc
    obtain ⟨o, o1, o2, o3⟩ := inverse_spec hfit.1 (hD op (by simp)).2
    have hstep := h2.step hZ hf o
    rw [o3] at hstep
    obtain ⟨n₀, t₀, L₀, s1, s2, s3⟩ := hstep
    obtain ⟨a1, a2⟩ := applyOp_cov hrd (op := o) (by rw [o2]; exact (hD op (by simp)).1) h3 s1
    refine ⟨n₀, t₀, L₀, by simp only [undo, h1, ok_bind, o1, a1], s2, a2, fun g1 g2 g3 => ?_⟩
    obtain ⟨i1, i2⟩ := h4 g1 g2 (fun i hi0 hil => g3 (i + 1) (by omega) (by simpa using hil))
    refine ⟨(s3 i1 fun ht => ?_).1, fun _ => .inr (by simp)⟩
    rcases i2 ht with h | h
    · exact h
    · exfalso
      obtain ⟨k, hk⟩ := g3 1 (by omega) (by
        cases ops with
        | nil => exact absurd rfl h
        | cons => simp)
      exact hk (h2.nil_iff ht k)

/-- A consumer that has only `B` and the root. -/
theorem invert_spec {V : Type} {read : C → Option V} {dec : V → Option (NodeData C)} {Z : Nat}
    (hZ : ∀ k, E.zeros k ≤ Z) {f : Nat} (hf : Z + 2 ≤ f) {t : Tree C} {L : Nat} (hw : WF E.zeros L t) (hL : L ≤ Z)
    (hs : Sorted t) (hv : ValidKeys t) {B₀ : Blocks C V} (hg : Good E read dec t B₀)
    {ops : List (CommitOp C)} {m : Key → Option C} (hfit : FitsAll m ops)
    (hk : ∀ op ∈ ops, validKey op.path = true) (hm : dictGet (leaves t) = afterAll m ops) :
    ∃ B, addCoveringProofs read dec f (cidOf E.H t) (ops.map (·.path)) B₀ = .ok B ∧ Extends B₀ B ∧
      (∀ op ∈ ops, Knows E dec B t ∧ ∀ x ∈ spans none none t, Within op.path x.1 x.2.2 → Knows E dec B x.2.1) ∧
      (∀ op ∈ ops, get E (readOnly dec B) f (load (cidOf E.H t)) op.path = .ok (dictGet (leaves t) op.path)) ∧
      ∃ n₀ t₀ L₀, undo E (readOnly dec B) f ops (load (cidOf E.H t)) = .ok n₀ ∧
        getPointer E (readOnly dec B) f n₀ = .ok (cidOf E.H t₀) ∧
        WF E.zeros L₀ t₀ ∧ Sorted t₀ ∧ ValidKeys t₀ ∧ dictGet (leaves t₀) = m ∧
        (Trimmed t → (∀ i, 0 < i → i < ops.length → ∃ k, afterAll m (ops.take i) k ≠ none) → Trimmed t₀) := by
  obtain ⟨B, b1, b2, b3, b4⟩ := addCoveringProofs_spec (f := f) (ps := ops.map (·.path)) hw hs (by omega) hg
  refine ⟨B, b1, b3, fun op ho => b4 op.path (List.mem_map_of_mem ho), ?_⟩
  let rd : C → Option (NodeData C) := fun c => match readOnly dec B c with
    | some d => some d
    | none => (read c).bind dec
  have hrd : RdLe (readOnly dec B) rd := by
    intro c d h
    simp only [rd, h]
  have hst : Stored E rd t := by
    intro s hsn
    simp only [rd]
    cases hr : readOnly dec B (cidOf E.H s) with
    | none => exact b2.stored s hsn
    | some d =>
      have hsome : (dictGet B (cidOf E.H s)).isSome := by
        unfold readOnly coverGet at hr
        dsimp only at hr
        cases hd : dictGet B (cidOf E.H s) with
        | none => rw [hd] at hr; cases hr
        | some v => rfl
      have := b2.dict s hsn hsome
      unfold Knows at this
      rw [hr] at this
      exact this
  have hrep : ∀ L, ReprN E rd L t (load (cidOf E.H t)) := fun L =>
    ⟨⟨fun _ => ⟨rfl, hst⟩, fun _ => rfl, by simp [load, Node.layer]⟩, by simp [load, Node.entries]⟩
  obtain ⟨L', hi, hL0⟩ : ∃ L', Inv E rd Z L' t (load (cidOf E.H t)) (afterAll m ops) ∧ (t = nil → L' = 0) := by
    by_cases ht : t = nil
    · subst ht
      exact ⟨0, ⟨hrep 0, by simp [WF], hs, hv, fun _ => rfl, by omega, hm⟩, fun _ => rfl⟩
    · exact ⟨L, ⟨hrep L, hw, hs, hv, fun h => absurd h ht, hL, hm⟩, fun h => absurd h ht⟩
  cases ops with
  | nil =>
    refine ⟨by simp, load (cidOf E.H t), t, L, rfl, ?_, hw, hs, hv, hm, fun h _ => h⟩
    obtain ⟨f', rfl⟩ : ∃ f', f = f' + 1 := ⟨f - 1, by omega⟩
    simp [getPointer, load, Node.outdated, Node.pointer]
  | cons o os =>
    have hcov : CovN E (readOnly dec B) (· ∈ (o :: os).map (·.path)) none none (load (cidOf E.H t)) :=
      covN_lazy hw hs (fun x _ => ⟨by simp, by simp⟩) (b4 o.path (by simp)).1
        (fun x hx p hp hwp => (b4 p hp).2 x hx hwp) rfl rfl rfl
    refine ⟨fun op ho => ?_, ?_⟩
    · have h1 := get_spec (key := op.path) (f := f) (hrep L) hw hs (by omega)
      exact get_cov hrd (List.mem_map_of_mem ho) hcov ⟨by simp, by simp⟩ h1
    · obtain ⟨n₀, t₀, L₀, h1, h2, h3, h4⟩ := undo_spec hZ hf hrd hfit
        (fun op ho => ⟨List.mem_map_of_mem ho, hk op ho⟩) hi hcov
      refine ⟨n₀, t₀, L₀, h1, ?_, h2.wf, h2.sorted, h2.valid, h2.map, fun g1 g2 => (h4 g1 hL0 g2).1⟩
      rw [getPointer_fresh (readOnly dec B) rd h3.fresh]
      exact getPointer_spec h2.repr h2.wf h2.valid (by have := h2.bound; omega)

theorem checkOps_undo {Z fuel : Nat} (hZ : ∀ k, E.zeros k ≤ Z) (hf : Z + 2 ≤ fuel) (hrd : RdLe rd' rd) :
    ∀ {cops : List (CommitOp C)} {m : Key → Option C} {L : Nat} {t : Tree C} {n : Node C},
    FitsAll m cops → (∀ op ∈ cops, D op.path ∧ validKey op.path = true) →
    Inv E rd Z L t n (afterAll m cops) → CovN E rd' D none none n →
    checkOps E rd' fuel cops n = undo E rd' fuel cops n
  | [], _, _, _, _, _, _, _, _ => rfl
  | op :: cops, m, L, t, n, hfit, hD, hi, hc => by
    have ih := checkOps_undo hZ hf hrd (cops := cops) (m := op.after m) hfit.2 (fun o ho => hD o (by simp [ho])) hi hc
    obtain ⟨n₁, t₁, L₁, h1, h2, h3, -⟩ := undo_spec hZ hf hrd (ops := cops) (m := op.after m) hfit.2
      (fun o ho => hD o (by simp [ho])) hi hc
    have hg := get_cov hrd (hD op (by simp)).1 h3 ⟨by simp, by simp⟩ (get_spec (key := op.path) (f := fuel) h2.repr h2.wf h2.sorted (by have := h2.bound; omega))
    have hv : (op.after m) op.path = op.cid := Function.update_self ..
    rw [h2.map] at hg
    unfold checkOps undo
    rw [ih, h1]
    simp only [ok_bind, hg, hv, if_true]

/-- The check does what undoing does, with no more blocks than `add_covering_proofs` collects. -/
theorem checkOps_covering {V : Type} {read : C → Option V} {dec : V → Option (NodeData C)} {Z : Nat}
    (hZ : ∀ k, E.zeros k ≤ Z) {f : Nat} (hf : Z + 2 ≤ f) {t : Tree C} {L : Nat} (hw : WF E.zeros L t) (hL : L ≤ Z)
    (hs : Sorted t) (hv : ValidKeys t) {B₀ B : Blocks C V} (hg : Good E read dec t B₀)
    {ops : List (CommitOp C)} {m : Key → Option C} (hfit : FitsAll m ops)
    (hk : ∀ op ∈ ops, validKey op.path = true) (hm : dictGet (leaves t) = afterAll m ops)
    (hB : addCoveringProofs read dec f (cidOf E.H t) (ops.map (·.path)) B₀ = .ok B) :
    checkOps E (readOnly dec B) f ops (load (cidOf E.H t)) = undo E (readOnly dec B) f ops (load (cidOf E.H t)) := by
  obtain ⟨B', b1, b2, b3, b4⟩ := addCoveringProofs_spec (f := f) (ps := ops.map (·.path)) hw hs (by omega) hg
  rw [hB] at b1
  cases b1
  let rd : C → Option (NodeData C) := fun c => match readOnly dec B c with
    | some d => some d
    | none => (read c).bind dec
  have hrd : RdLe (readOnly dec B) rd := by
    intro c d h
    simp only [rd, h]
  have hst : Stored E rd t := by
    intro s hsn
    simp only [rd]
    cases hr : readOnly dec B (cidOf E.H s) with
    | none => exact b2.stored s hsn
    | some d =>
      have hsome : (dictGet B (cidOf E.H s)).isSome := by
        unfold readOnly coverGet at hr
        dsimp only at hr
        cases hd : dictGet B (cidOf E.H s) with
        | none => rw [hd] at hr; cases hr
        | some v => rfl
      have := b2.dict s hsn hsome
      unfold Knows at this
      rw [hr] at this
      exact this
  have hrep : ∀ L, ReprN E rd L t (load (cidOf E.H t)) := fun L =>
    ⟨⟨fun _ => ⟨rfl, hst⟩, fun _ => rfl, by simp [load, Node.layer]⟩, by simp [load, Node.entries]⟩
  obtain ⟨L', hi⟩ : ∃ L', Inv E rd Z L' t (load (cidOf E.H t)) (afterAll m ops) := by
    by_cases ht : t = nil
    · subst ht
      exact ⟨0, hrep 0, by simp [WF], hs, hv, fun _ => rfl, by omega, hm⟩
    · exact ⟨L, hrep L, hw, hs, hv, fun h => absurd h ht, hL, hm⟩
  cases ops with
  | nil => rfl
  | cons o os =>
    exact checkOps_undo hZ hf hrd hfit (fun op ho => ⟨List.mem_map_of_mem ho, hk op ho⟩) hi
      (covN_lazy hw hs (fun x _ => ⟨by simp, by simp⟩) (b4 o.path (by simp)).1
        (fun x hx p hp hwp => (b4 p hp).2 x hx hwp) rfl rfl rfl)

end

end Arroba
