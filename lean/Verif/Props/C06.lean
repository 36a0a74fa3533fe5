import Verif.Props.C03
import Verif.Mst.Grammar

/-! # C06: persist and reload -/

namespace Arroba

variable {C : Type}

open Arroba.Tree

theorem noEmptying_nil_run {E : Env C} : NoEmptying E ([] : List (Op C)) :=
  noEmptying_of_no_delete (by simp)

section
variable [DecidableEq C] {E : Env C} {rd : C → Option (NodeData C)} {Z fuel : Nat} {n : Node C}
  {ops : List (Op C)} {outs : List (Option Err)}

/-- **C06.** For every reachable tree, `get_unstored_blocks` succeeds; it returns the root CID and
only blocks that were missing, each under its own CID. After writing them, the tree loaded from
the root CID (a) answers every `get` and every listing exactly like the in-memory tree did, and
(b) gives the same outcome (success or exception) and the same contents as the in-memory tree
after *any* further sequence of operations. -/
theorem C06_persist_reload (hinj : Function.Injective E.H) (hZ : ∀ k, E.zeros k ≤ Z)
    (hf : Z + 2 ≤ fuel) (h : Run E fuel rd n ops outs) :
    ∃ c bl, getUnstoredBlocks E rd fuel n = .ok (c, bl) ∧ getPointer E rd fuel n = .ok c ∧
      (∀ x d, (x, d) ∈ bl → E.H d = x ∧ rd x = none) ∧
      (∀ k, get E (writeBlocks rd bl) fuel (load c) k = get E rd fuel n k) ∧
      (∀ a b, list E (writeBlocks rd bl) fuel (load c) a b = list E rd fuel n a b) ∧
      (∀ ops', 
        (execFrom E (writeBlocks rd bl) fuel (load c) ops').2 =
          (execFrom E (writeBlocks rd bl) fuel n ops').2 ∧
        ∀ k, get E (writeBlocks rd bl) fuel
            (execFrom E (writeBlocks rd bl) fuel (load c) ops').1 k =
          get E (writeBlocks rd bl) fuel (execFrom E (writeBlocks rd bl) fuel n ops').1 k) := by
  obtain ⟨hst, _, L, t, hi, _⟩ := h.inv hinj hZ hf
  have hb := hi.bound
  obtain ⟨bl, h1, h2⟩ := getUnstoredBlocks_spec hi.repr hi.wf hi.valid (f := fuel) (by omega)
  obtain ⟨s1, s2, s3⟩ := writeBlocks_stored hinj hst (WF_nodes hi.wf) h2
  have hp := h.persist h1
  have hgp : getPointer E (writeBlocks rd bl) fuel n = .ok (cidOf E.H t) :=
    getPointer_spec (hi.repr.mono s3) hi.wf hi.valid (by omega)
  have hl : Run E fuel (writeBlocks rd bl) (load (cidOf E.H t)) ops outs :=
    hp.reload hgp (by rw [s1 t (by simp [nodes])]; rfl)
  have hlr : ReprN E (writeBlocks rd bl) L t (load (cidOf E.H t)) :=
    ⟨⟨fun _ => ⟨rfl, s1⟩, fun _ => rfl, by simp [load, Node.layer]⟩, by simp [load, Node.entries]⟩
  refine ⟨_, bl, h1, getPointer_spec hi.repr hi.wf hi.valid (by omega), ?_, ?_, ?_, ?_⟩
  · intro x d hm
    obtain ⟨s, _, rfl, rfl, hn⟩ := h2.1 x d hm
    exact ⟨rfl, hn⟩
  · intro k
    rw [get_spec hlr hi.wf hi.sorted (by omega), get_spec hi.repr hi.wf hi.sorted (by omega)]
  · intro a b
    rw [list_spec a b hlr hi.wf hi.sorted (by omega), list_spec a b hi.repr hi.wf hi.sorted (by omega)]
  · intro ops'
    have e1 := hl.exec (ops' := ops')
    have e2 := hp.exec (ops' := ops')
    obtain ⟨_, o1, L1, t1, i1, _⟩ := e1.inv hinj hZ hf
    obtain ⟨_, o2, L2, t2, i2, _⟩ := e2.inv hinj hZ hf
    have b1 := i1.bound
    have b2 := i2.bound
    refine ⟨List.append_cancel_left (o1.trans o2.symm), fun k => ?_⟩
    rw [get_spec i1.repr i1.wf i1.sorted (by omega), get_spec i2.repr i2.wf i2.sorted (by omega),
      i1.map, i2.map]

/-- **C06, root CIDs.** The root CID after any further operations is also the same, for histories
that never empty the tree by deleting a key above layer 0 (see C03 for why this proviso is
needed: the in-memory object remembers its layer, the reloaded one does not). -/
theorem C06_same_root_partial (hinj : Function.Injective E.H) (hZ : ∀ k, E.zeros k ≤ Z)
    (hf : Z + 2 ≤ fuel) (h : Run E fuel rd n ops outs) {c : C} {bl : List (C × NodeData C)}
    (hu : getUnstoredBlocks E rd fuel n = .ok (c, bl)) (ops' : List (Op C))
    (hne : NoEmptying E (ops ++ ops')) :
    ∃ r, getPointer E (writeBlocks rd bl) fuel
        (execFrom E (writeBlocks rd bl) fuel (load c) ops').1 = .ok r ∧
      getPointer E (writeBlocks rd bl) fuel
        (execFrom E (writeBlocks rd bl) fuel n ops').1 = .ok r := by
  obtain ⟨hst, _, L, t, hi, _⟩ := h.inv hinj hZ hf
  have hb := hi.bound
  obtain ⟨bl', h1, h2⟩ := getUnstoredBlocks_spec hi.repr hi.wf hi.valid (f := fuel) (by omega)
  rw [hu] at h1
  simp only [Except.ok.injEq, Prod.mk.injEq] at h1
  obtain ⟨rfl, rfl⟩ := h1
  obtain ⟨s1, s2, s3⟩ := writeBlocks_stored hinj hst (WF_nodes hi.wf) h2
  have hp := h.persist hu
  have hgp : getPointer E (writeBlocks rd bl) fuel n = .ok (cidOf E.H t) :=
    getPointer_spec (hi.repr.mono s3) hi.wf hi.valid (by omega)
  have hl : Run E fuel (writeBlocks rd bl) (load (cidOf E.H t)) ops outs :=
    hp.reload hgp (by rw [s1 t (by simp [nodes])]; rfl)
  have e1 := hl.exec (ops' := ops')
  have e2 := hp.exec (ops' := ops')
  refine C03_history_independent_partial hinj hZ hf e1 e2 hne hne fun k => ?_
  obtain ⟨_, _, L1, t1, i1, _⟩ := e1.inv hinj hZ hf
  obtain ⟨_, _, L2, t2, i2, _⟩ := e2.inv hinj hZ hf
  have b1 := i1.bound
  have b2 := i2.bound
  rw [get_spec i1.repr i1.wf i1.sorted (by omega), get_spec i2.repr i2.wf i2.sorted (by omega),
    i1.map, i2.map]

end

/-- Non-vacuity: the example tree has five node blocks to store. -/
example : Run exE 130 noBlocks (exAfter exOps) exOps exOuts ∧
    (getUnstoredBlocks exE noBlocks 130 (exAfter exOps)).map (fun r => r.2.length) = .ok 5 :=
  ⟨exRun, by decide +kernel⟩

end Arroba
