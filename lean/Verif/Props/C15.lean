import Verif.Props.C08
import Verif.Mst.PathProofs

/-! # C15: path proofs -/

namespace Arroba

variable {C : Type}

open Arroba.Tree

section
variable [DecidableEq C] {E : Env C} {rd : C → Option (NodeData C)} {Z fuel : Nat} {n : Node C}
  {ops : List (Op C)} {outs : List (Option Err)}

/-- **C15 (chain).** On every reachable tree `cids_for_path(k)` succeeds; the result starts with
the root CID and, once the tree is persisted, every CID in it is the address of a stored block
that links to the next one; if `k` is present the chain ends with its value, otherwise all its
members are MST nodes. -/
theorem C15_chain (hinj : Function.Injective E.H) (hZ : ∀ k, E.zeros k ≤ Z) (hf : Z + 2 ≤ fuel)
    (h : Run E fuel rd n ops outs) (k : Key) :
    ∃ c q bl, cidsForPath E rd fuel n k = .ok (c :: q) ∧ getPointer E rd fuel n = .ok c ∧
      getUnstoredBlocks E rd fuel n = .ok (c, bl) ∧ LinkedChain (writeBlocks rd bl) (c :: q) ∧
      (∀ v, get E rd fuel n k = .ok (some v) → (c :: q).getLast? = some v) ∧
      (get E rd fuel n k = .ok none → ∀ x ∈ c :: q, (writeBlocks rd bl x).isSome) := by
  obtain ⟨hst, _, L, t, hi, _⟩ := h.inv hinj hZ hf
  have hb := hi.bound
  obtain ⟨p, o, hsp, hc⟩ := cidsForPath_spec (key := k) hi.repr hi.wf hi.sorted hi.valid
    (f := fuel) (by omega)
  obtain ⟨bl, h1, h2⟩ := getUnstoredBlocks_spec hi.repr hi.wf hi.valid (f := fuel) (by omega)
  have hs1 := (writeBlocks_stored hinj hst (WF_nodes hi.wf) h2).1
  obtain ⟨q, rfl⟩ := hsp.head
  have hg := get_spec hi.repr hi.wf hi.sorted (f := fuel) (key := k) (by omega)
  have ho := hsp.dictGet hi.sorted
  refine ⟨_, _, bl, hc, getPointer_spec hi.repr hi.wf hi.valid (by omega), h1,
    hsp.linked hi.wf hs1, ?_, ?_⟩
  · intro v hv
    rw [hg] at hv
    have : o = some v := by rw [ho]; simpa using hv
    rw [this]
    simp
    rw [← List.cons_append, List.getLast?_append]; rfl
  · intro hv
    rw [hg] at hv
    have : o = none := by rw [ho]; simpa using hv
    rw [this]
    intro x hx
    simp only [Option.toList_none, List.append_nil] at hx
    have hx' : x ∈ (t :: q).map (cidOf E.H) := by simpa using hx
    obtain ⟨s, hs, rfl⟩ := List.mem_map.1 hx'
    have hsub : ∀ {t : Tree C} {p : List (Tree C)} {o : Option C}, SearchPath k t p o →
        ∀ s ∈ p, s ∈ nodes t := by
      intro t p o hsp
      induction hsp with
      | hit => simp [nodes]
      | miss => simp [nodes]
      | down hA hB hd ih =>
        intro s hs
        simp only [List.mem_cons] at hs
        rcases hs with rfl | hs
        · simp [nodes]
        · have := ih s hs
          simp only [nodes, kids_app, kids, List.mem_cons, List.mem_append] at this ⊢; tauto
    rw [hs1 s (hsub hsp s hs)]; rfl

/-- **C15 (sufficiency).** A verifier that holds only the blocks named by `cids_for_path(k)` (any
store `rd'` that agrees on those CIDs with a store holding the persisted tree) and starts from
the root CID computes the right answer for `k`, whether `k` is present or absent. The side
condition says that the record CID is not at the same time the CID of one of the tree's nodes,
which holds for a collision-free hash over distinct kinds of blocks. -/
theorem C15_sufficient (hinj : Function.Injective E.H) (hZ : ∀ k, E.zeros k ≤ Z) (hf : Z + 2 ≤ fuel)
    (h : Run E fuel rd n ops outs) (k : Key) {c : C} {bl : List (C × NodeData C)} {p : List C}
    (hu : getUnstoredBlocks E rd fuel n = .ok (c, bl))
    (hp : cidsForPath E rd fuel n k = .ok p) {rd' : C → Option (NodeData C)}
    (hag : ∀ x ∈ p, rd' x = writeBlocks rd bl x)
    (hrec : ∀ v d, get E rd fuel n k = .ok (some v) → E.H d ≠ v) :
    get E rd' fuel (load c) k = get E rd fuel n k := by
  obtain ⟨hst, _, L, t, hi, _⟩ := h.inv hinj hZ hf
  have hb := hi.bound
  obtain ⟨bl', h1, h2⟩ := getUnstoredBlocks_spec hi.repr hi.wf hi.valid (f := fuel) (by omega)
  rw [hu] at h1
  simp only [Except.ok.injEq, Prod.mk.injEq] at h1
  obtain ⟨rfl, rfl⟩ := h1
  have hs1 := (writeBlocks_stored hinj hst (WF_nodes hi.wf) h2).1
  have hlr : ReprN E (writeBlocks rd bl) L t (load (cidOf E.H t)) :=
    ⟨⟨fun _ => ⟨rfl, hs1⟩, fun _ => rfl, by simp [load, Node.layer]⟩, by simp [load, Node.entries]⟩
  have hg := get_spec hi.repr hi.wf hi.sorted (f := fuel) (key := k) (by omega)
  -- the path does not depend on the cache state
  obtain ⟨p1, o1, hsp1, hc1⟩ := cidsForPath_spec (key := k) hi.repr hi.wf hi.sorted hi.valid
    (f := fuel) (by omega)
  obtain ⟨p2, o2, hsp2, hc2⟩ := cidsForPath_spec (key := k) hlr hi.wf hi.sorted hi.valid
    (f := fuel) (by omega)
  have hpp : p1 = p2 := hsp1.det hsp2 hi.sorted hi.wf
  have hoo : o1 = o2 := by rw [hsp1.dictGet hi.sorted, hsp2.dictGet hi.sorted]
  have hp2 : cidsForPath E (writeBlocks rd bl) fuel (load (cidOf E.H t)) k = .ok p := by
    rw [hc2, ← hpp, ← hoo, ← hc1, hp]
  have hgl := get_spec hlr hi.wf hi.sorted (f := fuel) (key := k) (by omega)
  rw [get_of_path hlr hi.wf hi.sorted hp2 (fun x hx => .inl (hag x hx)) ?_, hgl, hg]
  intro s hs heq
  exact hrec (cidOf E.H s) (nodeOf E.H s) (by rw [hg, ← heq]) rfl

end

/-- Non-vacuity: the path of `a/d` in the example tree has five nodes and its value. -/
example : (cidsForPath exE noBlocks 130 (exAfter exOps) (key "a/d")).map List.length = .ok 5 ∧
    (cidsForPath exE noBlocks 130 (exAfter exOps) (key "a/zzz")).map List.length = .ok 4 ∧
    ∀ d, exE.H d ≠ .val 7 :=
  ⟨by decide +kernel, by decide +kernel, by simp [exE]⟩

end Arroba
