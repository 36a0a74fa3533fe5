import Verif.Mst.HeapSim3
import Verif.Example

/-!
# C81: the versions of a tree do not disturb each other

The methods of a tree make new tree objects that share nodes with the old ones, and even the reading methods write the
caches of the nodes they pass, in place (`Mst/Heap.lean`). Still a program may keep any versions and use them in any order.
-/

namespace Arroba

variable {C : Type}

open Arroba.Tree

/-- **C81 (contents).** At any time, every version that the program keeps has exactly the contents that the calls which
made it say, whatever was done with the other versions. -/
theorem C81_get [DecidableEq C] {E : Env C} (hinj : Function.Injective E.H) {Z : Nat} (hZ : ∀ k, E.zeros k ≤ Z)
    {fuel : Nat} (hf : Z + 2 ≤ fuel) {s : VState C} (h : VReach E fuel s) {i : Nat} {ops : List (Op C)}
    (hm : (i, ops) ∈ s.versions) (k : Key) :
    ∃ h', hGet E s.rd fuel i k s.heap = (.ok ((specRun ops).1 k), h') := by
  obtain ⟨g, hv⟩ := h.inv hinj hZ hf
  obtain ⟨L, t, kv⟩ := hv.vers i ops hm
  obtain ⟨h', _, k1, _⟩ := hGet_spec hf hv.heap kv k
  exact ⟨h', k1⟩

/-- **C81 (calls).** At any time, a call on any version succeeds or raises as the calls which made this version say; if it
succeeds, the result is a further version (`VStep.ok`), and if it raises, then no version is changed (`VStep.fail`). -/
theorem C81_calls [DecidableEq C] {E : Env C} (hinj : Function.Injective E.H) {Z : Nat} (hZ : ∀ k, E.zeros k ≤ Z)
    {fuel : Nat} (hf : Z + 2 ≤ fuel) {s : VState C} (h : VReach E fuel s) {i : Nat} {ops : List (Op C)}
    (hm : (i, ops) ∈ s.versions) (op : Op C) :
    match (specStep (specRun ops).1 op).2 with
    | some e => ∃ h', hApplyOp E s.rd fuel i op s.heap = (.error e, h')
    | none => ∃ j h', hApplyOp E s.rd fuel i op s.heap = (.ok j, h') := by
  obtain ⟨g, hv⟩ := h.inv hinj hZ hf
  obtain ⟨L, t, kv⟩ := hv.vers i ops hm
  have := hApplyOp_spec hZ hf hv.heap kv op
  cases he : (specStep (specRun ops).1 op).2 with
  | some e => rw [he] at this; obtain ⟨h', _, k1, _⟩ := this; exact ⟨h', k1⟩
  | none => rw [he] at this; obtain ⟨j, h', _, _, _, k1, _⟩ := this; exact ⟨j, h', k1⟩

/-- **C81 (root CIDs).** The root CID of a version can be had at any time, and it is the same at all times. -/
theorem C81_root [DecidableEq C] {E : Env C} (hinj : Function.Injective E.H) {Z : Nat} (hZ : ∀ k, E.zeros k ≤ Z)
    {fuel : Nat} (hf : Z + 2 ≤ fuel) {s : VState C} (h : VReach E fuel s) {i : Nat} {ops : List (Op C)}
    (hm : (i, ops) ∈ s.versions) :
    ∃ c, ∀ s', Relation.ReflTransGen (VStep E fuel) s s' →
      (i, ops) ∈ s'.versions ∧ ∃ h', hGetPointer E s'.rd fuel i s'.heap = (.ok c, h') := by
  obtain ⟨g, hv⟩ := h.inv hinj hZ hf
  obtain ⟨L, t, kv⟩ := hv.vers i ops hm
  refine ⟨cidOf E.H t, fun s' hs => ?_⟩
  obtain ⟨g', hv', hk1, hk2⟩ := VSteps.inv hinj hZ hf hs hv
  have kv' := hk2 _ _ _ _ kv
  have hb := kv.bound
  obtain ⟨h', _, k1, _⟩ := hGetPointer_spec (f := fuel) hv'.heap kv'.ghost kv'.wf kv'.valid (by omega)
  exact ⟨hk1 _ hm, h', k1⟩

/-- **C81 (root CIDs tell versions apart).** Versions with the same root CID have the same contents. -/
theorem C81_same_root [DecidableEq C] {E : Env C} (hinj : Function.Injective E.H) {Z : Nat} (hZ : ∀ k, E.zeros k ≤ Z)
    {fuel : Nat} (hf : Z + 2 ≤ fuel) {s : VState C} (h : VReach E fuel s) {i j : Nat} {ops ops' : List (Op C)}
    (hm : (i, ops) ∈ s.versions) (hm' : (j, ops') ∈ s.versions)
    (heq : (hGetPointer E s.rd fuel i s.heap).1 = (hGetPointer E s.rd fuel j s.heap).1) :
    (specRun ops).1 = (specRun ops').1 := by
  obtain ⟨g, hv⟩ := h.inv hinj hZ hf
  obtain ⟨L, t, kv⟩ := hv.vers i ops hm
  obtain ⟨L', t', kv'⟩ := hv.vers j ops' hm'
  have hb := kv.bound
  have hb' := kv'.bound
  obtain ⟨_, _, k1, _⟩ := hGetPointer_spec (f := fuel) hv.heap kv.ghost kv.wf kv.valid (by omega)
  obtain ⟨_, _, k1', _⟩ := hGetPointer_spec (f := fuel) hv.heap kv'.ghost kv'.wf kv'.valid (by omega)
  rw [k1, k1'] at heq
  rcases cid_inj kv.wf kv'.wf (by simpa using heq) with rfl | ⟨_, _, _, _, h, h'⟩
  · rw [← kv.map, ← kv'.map]
  · exact absurd (hinj h') h

/-- **C81 (storing).** At any time, any version can be stored: the blocks that are not in the store yet can be had, with the
root CID, and when they are written, the version can be loaded (`VStep.load`, to which the other theorems apply), and its
root CID is the same. -/
theorem C81_store [DecidableEq C] {E : Env C} (hinj : Function.Injective E.H) {Z : Nat} (hZ : ∀ k, E.zeros k ≤ Z)
    {fuel : Nat} (hf : Z + 2 ≤ fuel) {s : VState C} (h : VReach E fuel s) {i : Nat} {ops : List (Op C)}
    (hm : (i, ops) ∈ s.versions) :
    ∃ c bl h', hGetUnstoredBlocks E s.rd fuel i s.heap = (.ok (c, bl), h') ∧
      (∃ h'', hGetPointer E s.rd fuel i s.heap = (.ok c, h'')) ∧ (writeBlocks s.rd bl c).isSome ∧
      ∀ c' ∈ bl.map (·.1), s.rd c' = none := by
  obtain ⟨g, hv⟩ := h.inv hinj hZ hf
  obtain ⟨L, t, kv⟩ := hv.vers i ops hm
  have hb := kv.bound
  obtain ⟨bl, h', _, k1, k2, _⟩ := hUnstored_spec hf hv.heap kv
  obtain ⟨h'', _, m1, _⟩ := hGetPointer_spec (f := fuel) hv.heap kv.ghost kv.wf kv.valid (by omega)
  refine ⟨_, bl, h', k1, ⟨h'', m1⟩, ?_, fun c' hc => ?_⟩
  · rw [(writeBlocks_stored hinj hv.store (WF_nodes kv.wf) k2).1 t (by simp [nodes])]
    rfl
  · obtain ⟨⟨c', d⟩, hx, rfl⟩ := List.mem_map.1 hc
    obtain ⟨_, _, _, _, h⟩ := k2.1 _ _ hx
    exact h

/-! ### Concrete programs -/

/-- A program that makes two versions from one (`v3` without `a/a`, `v4` with another value of `a/b`, both from `v2`), takes
a root CID, and then reads the old and the new ones. -/
def exProgram : HM TC (List (Option TC)) := do
  let v0 ← hCreate exE noBlocks 130 [] none
  let v1 ← hApplyOp exE noBlocks 130 v0 (.add (key "a/a") (.val 1))
  let v2 ← hApplyOp exE noBlocks 130 v1 (.add (key "a/b") (.val 2))
  let v3 ← hApplyOp exE noBlocks 130 v2 (.delete (key "a/a"))
  let v4 ← hApplyOp exE noBlocks 130 v2 (.update (key "a/b") (.val 9))
  let _ ← hGetPointer exE noBlocks 130 v4
  let a ← hGet exE noBlocks 130 v1 (key "a/b")
  let b ← hGet exE noBlocks 130 v2 (key "a/b")
  let c ← hGet exE noBlocks 130 v3 (key "a/a")
  let d ← hGet exE noBlocks 130 v3 (key "a/b")
  let e ← hGet exE noBlocks 130 v4 (key "a/b")
  let f ← hGet exE noBlocks 130 v2 (key "a/a")
  pure [a, b, c, d, e, f]

example : (exProgram []).1 = .ok [none, some (.val 2), none, some (.val 2), some (.val 9), some (.val 1)] := by
  decide +kernel

/-- Nodes are shared: `a/a` is on layer 3 and `a/b` on layer 0, so that updating `a/a` makes a new root that has the same
object for the subtree with `a/b`. And reading the root CID writes caches in place. -/
def exShared : HM TC (Bool × Bool) := do
  let v0 ← hCreate exE noBlocks 130 [] none
  let v1 ← hApplyOp exE noBlocks 130 v0 (.add (key "a/a") (.val 1))
  let v2 ← hApplyOp exE noBlocks 130 v1 (.add (key "a/b") (.val 2))
  let v3 ← hApplyOp exE noBlocks 130 v2 (.update (key "a/a") (.val 9))
  let es ← hGetEntries exE noBlocks v2
  let es' ← hGetEntries exE noBlocks v3
  let o ← hObj v3
  let _ ← hGetPointer exE noBlocks 130 v3
  let o' ← hObj v3
  pure ((hAsTree es.getLast?).isSome && hAsTree es.getLast? == hAsTree es'.getLast?, o.outdated && !o'.outdated)

example : (exShared []).1 = .ok (true, true) := by decide +kernel

/-- Non-vacuity: programs can branch as they like. -/
example : ∃ s i j l, VReach exE 130 s ∧ (i, [.add (key "a/a") (.val 1)]) ∈ s.versions ∧
    (j, [.add (key "a/a") (.val 1), .delete (key "a/a")]) ∈ s.versions ∧
    (l, [.add (key "a/a") (.val 1), .update (key "a/a") (.val 2)]) ∈ s.versions := by
  have hk : validKey (key "a/a") = true := by decide
  have hl : ∀ m : Key → Option TC, m (key "a/a") = some (.val 1) → (specStep m (.update (key "a/a") (.val 2))).2 = none := by
    intro m hm
    simp [specStep, hk, hm]
  have hd : ∀ m : Key → Option TC, m (key "a/a") = some (.val 1) → (specStep m (.delete (key "a/a"))).2 = none := by
    intro m hm
    simp [specStep, hm]
  have h0 : VReach exE 130 ⟨noBlocks, [], []⟩ := ⟨_, noBlocks_ok, .refl⟩
  have h1 : VReach exE 130 ⟨noBlocks, [⟨some [], exE.H ⟨none, []⟩, none, false⟩], [(0, [])]⟩ :=
    ⟨_, noBlocks_ok, .single (.create rfl)⟩
  have c1 := C81_calls exE_inj exE_le (by norm_num) h1 (i := 0) (ops := []) (.head _) (.add (key "a/a") (.val 1))
  have e1 : (specStep (specRun (C := TC) []).1 (.add (key "a/a") (.val 1))).2 = none := by simp [specStep, specRun, hk]
  rw [e1] at c1
  obtain ⟨i, h', c1⟩ := c1
  have h2 : VReach exE 130 _ := let ⟨rd, a, b⟩ := h1; ⟨rd, a, b.tail (.ok (.head _) c1)⟩
  have m2 : (specRun (C := TC) [.add (key "a/a") (.val 1)]).1 (key "a/a") = some (.val 1) := by
    simp [specRun, specStep, hk]
  have c2 := C81_calls exE_inj exE_le (by norm_num) h2 (i := i) (ops := [.add (key "a/a") (.val 1)]) (.head _)
    (.delete (key "a/a"))
  rw [hd _ m2] at c2
  obtain ⟨j, h'', c2⟩ := c2
  have h3 : VReach exE 130 _ := let ⟨rd, a, b⟩ := h2; ⟨rd, a, b.tail (.ok (.head _) c2)⟩
  have c3 := C81_calls exE_inj exE_le (by norm_num) h3 (i := i) (ops := [.add (key "a/a") (.val 1)]) (.tail _ (.head _))
    (.update (key "a/a") (.val 2))
  rw [hl _ m2] at c3
  obtain ⟨l, h''', c3⟩ := c3
  have h4 : VReach exE 130 _ := let ⟨rd, a, b⟩ := h3; ⟨rd, a, b.tail (.ok (.tail _ (.head _)) c3)⟩
  exact ⟨_, i, j, l, h4, .tail _ (.tail _ (.head _)), .tail _ (.head _), .head _⟩

end Arroba
