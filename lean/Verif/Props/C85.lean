import Verif.Mst.HeapWalkProofs
import Verif.Props.C08
import Verif.Props.C81

/-!
# C85: iterating over a tree while it is changed

`walk_leaves_from` and `walk` are generators, and `add`, `update` and `delete` make new versions that share nodes with the one that
is walked through. So `for leaf in mst.walk_leaves_from(''): mst = mst.delete(leaf.key)` is fine, and so are several iterations at once.
-/

namespace Arroba

variable {C : Type}

open Arroba.Tree

section
variable [DecidableEq C] {E : Env C} {Z fuel : Nat} {s : WState C}

/-- **C85 (leaves).** At any time, what a generator has yielded is the beginning of the listing of its version, from its start
key on if it has one, as the calls say that made this version, whatever was done with this and the other versions, and with other
generators, since it was started. When it has ended, it has yielded the whole listing. -/
theorem C85_yields (hinj : Function.Injective E.H) (hZ : ∀ k, E.zeros k ≤ Z) (hf : Z + 2 ≤ fuel) (h : WReach E fuel s)
    {j : Nat} {w : HWalk C} (hw : s.walks[j]? = some w) :
    ∃ l, ExactListing (specRun w.version).1 (fun k => ∀ a, w.start = some a → a ≤ k) l ∧ w.yielded <+: l ∧
      (w.work = [] → w.yielded = l) := by
  obtain ⟨⟨g, T, hi⟩, _⟩ := h.inv hinj hZ hf
  have hlt : j < T.length := by
    rw [← hi.len]
    rcases Nat.lt_or_ge j s.walks.length with hl | hl
    · exact hl
    · rw [List.getElem?_eq_none hl] at hw; cases hw
  obtain ⟨i, L, ls, n, h1, h2, h3, -⟩ := hi.walks j w _ hw (List.getElem?_eq_getElem hlt)
  refine ⟨_, ⟨List.Pairwise.filter _ h1.sorted, fun k v => ?_⟩, ⟨ls, h3⟩, fun he => ?_⟩
  · rw [List.mem_filter, mem_leaves_iff h1.sorted, h1.map, decide_eq_true_eq]
    cases w.start <;> simp [key_nil_le]
  · rw [he] at h2
    cases h2
    simpa using h3

/-- **C85 (no exceptions).** At any time, any generator can go on: a step doesn't raise. If it has ended, nothing changes. -/
theorem C85_next (hinj : Function.Injective E.H) (hZ : ∀ k, E.zeros k ≤ Z) (hf : Z + 2 ≤ fuel) (h : WReach E fuel s)
    {j : Nat} {w : HWalk C} (hw : s.walks[j]? = some w) :
    ∃ w' h', hAdvance E s.v.rd w s.v.heap = (.ok w', h') ∧ (w.work = [] → w' = w) ∧ (w.work ≠ [] → w'.steps = w.steps + 1) := by
  obtain ⟨⟨g, T, hi⟩, _⟩ := h.inv hinj hZ hf
  have hlt : j < T.length := by
    rw [← hi.len]
    rcases Nat.lt_or_ge j s.walks.length with hl | hl
    · exact hl
    · rw [List.getElem?_eq_none hl] at hw; cases hw
  obtain ⟨w', h', g', k1, _, _, _, _, _, k2, k3, _⟩ := hAdvance_spec hi.v.heap (hi.walks j w _ hw (List.getElem?_eq_getElem hlt))
  exact ⟨w', h', k1, k2, k3⟩

/-- **C85 (it ends).** There is a number of steps after which a generator has ended, whatever else is done in between: even if the
program adds a record to its tree for each leaf, the loop doesn't go on forever. -/
theorem C85_ends (hinj : Function.Injective E.H) (hZ : ∀ k, E.zeros k ≤ Z) (hf : Z + 2 ≤ fuel) (h : WReach E fuel s)
    {j : Nat} {w : HWalk C} (hw : s.walks[j]? = some w) :
    ∃ N, ∀ s', Relation.ReflTransGen (WStep E fuel) s s' → ∃ w', s'.walks[j]? = some w' ∧ w'.version = w.version ∧
      w'.start = w.start ∧ w'.steps ≤ N ∧ (w'.steps = N → w'.work = []) := by
  obtain ⟨⟨g, T, hi⟩, _⟩ := h.inv hinj hZ hf
  have hlt : j < T.length := by
    rw [← hi.len]
    rcases Nat.lt_or_ge j s.walks.length with hl | hl
    · exact hl
    · rw [List.getElem?_eq_none hl] at hw; cases hw
  refine ⟨(nodes T[j]).length + (leaves T[j]).length, fun s' hs => ?_⟩
  obtain ⟨⟨g', T', a1, a2⟩, -, a3⟩ := WSteps.inv hinj hZ hf hs hi
  obtain ⟨w', b1, b2, b3⟩ := a3 j w hw
  obtain ⟨i, L, ls, n, -, h2, -, h4⟩ := a1.walks j w' _ b1 (prefix_get a2 (List.getElem?_eq_getElem hlt))
  refine ⟨w', b1, b2, b3, by omega, fun he => ?_⟩
  obtain rfl : n = 0 := by omega
  exact h2.zero

/-- **C85 (the versions).** Generators don't disturb the versions: what C81 says holds of programs with generators, too. -/
theorem C85_versions (hinj : Function.Injective E.H) (hZ : ∀ k, E.zeros k ≤ Z) (hf : Z + 2 ≤ fuel) (h : WReach E fuel s) :
    VReach E fuel s.v ∧ ∀ {i : Nat} {ops : List (Op C)}, (i, ops) ∈ s.v.versions → ∀ k,
      ∃ h', hGet E s.v.rd fuel i k s.v.heap = (.ok ((specRun ops).1 k), h') := by
  obtain ⟨_, hv⟩ := h.inv hinj hZ hf
  exact ⟨hv, fun hm k => C81_get hinj hZ hf hv hm k⟩

theorem Reads.steps {s : WState C} {h₀ h' : Heap C} (hr : Reads E s.v.rd h₀ h') :
    Relation.ReflTransGen (WStep E fuel) ⟨{ s.v with heap := h₀ }, s.walks⟩ ⟨{ s.v with heap := h' }, s.walks⟩ := by
  induction hr with
  | refl => exact .refl
  | tail _ hs ih =>
    obtain ⟨i, es, h1, h2⟩ := hs
    exact ih.tail (.other (.entries (s := { s.v with heap := _ }) h1 h2))

/-- **C85 (`list`).** At any time, `list` of any version ends and returns exactly the records with key `> after` (if given) and
`< before` (if given and not empty) that this version has, in order. What it does besides is to read nodes, which is one of the
steps of a program, so that all theorems about the versions and generators hold afterwards. -/
theorem C85_list (hinj : Function.Injective E.H) (hZ : ∀ k, E.zeros k ≤ Z) (hf : Z + 2 ≤ fuel) (h : WReach E fuel s)
    {i : Nat} {ops : List (Op C)} (hm : (i, ops) ∈ s.v.versions) (after before : Option Key) :
    ∃ l N, ExactListing (specRun ops).1
        (fun k => (∀ a, after = some a → a < k) ∧ (∀ b, before = some b → b ≠ [] → k < b)) l ∧
      ∀ n, N ≤ n → ∃ h', hList E s.v.rd n i after before s.v.heap = (.ok l, h') ∧
        Relation.ReflTransGen (WStep E fuel) s ⟨{ s.v with heap := h' }, s.walks⟩ := by
  obtain ⟨⟨g, T, hi⟩, _⟩ := h.inv hinj hZ hf
  obtain ⟨L, t, kv⟩ := hi.v.vers i ops hm
  have hs := List.Pairwise.filter (fun kv : Key × C => decide (after.getD [] ≤ kv.1)) kv.sorted
  have hl := listLoop_spec after before hs (fun kv hkv => by simpa using (List.mem_filter.1 hkv).2)
  refine ⟨((leaves t).filter (fun kv => decide (after.getD [] ≤ kv.1))).filter
    (fun kv => decide (afterOK after kv.1 ∧ beforeOK before kv.1)),
    ((nodes t).length + (leaves t).length + 0) + 1, ⟨List.Pairwise.filter _ hs, fun k v => ?_⟩, fun n hn => ?_⟩
  rotate_left
  · obtain ⟨h', k1, k2⟩ := hListLoop_spec after before n hi.v.heap (.tree kv .nil) (Nat.lt_of_succ_le hn)
    refine ⟨h', ?_, k2.steps⟩
    rw [List.append_nil, hl] at k1
    exact k1
  · rw [List.mem_filter, List.mem_filter, mem_leaves_iff kv.sorted, kv.map, and_assoc]
    simp only [decide_eq_true_eq]
    refine and_congr_right fun _ => ⟨fun hx => hx.2, fun hx => ⟨?_, hx⟩⟩
    cases after with
    | none => exact key_nil_le _
    | some a => exact le_of_lt (hx.1 a rfl)

/-- **C85 (`leaves`).** And likewise all the records, by `walk()`. -/
theorem C85_leaves (hinj : Function.Injective E.H) (hZ : ∀ k, E.zeros k ≤ Z) (hf : Z + 2 ≤ fuel) (h : WReach E fuel s)
    {i : Nat} {ops : List (Op C)} (hm : (i, ops) ∈ s.v.versions) :
    ∃ l N, ExactListing (specRun ops).1 (fun _ => True) l ∧
      ∀ n, N ≤ n → ∃ h', hLeaves E s.v.rd n i s.v.heap = (.ok l, h') ∧
        Relation.ReflTransGen (WStep E fuel) s ⟨{ s.v with heap := h' }, s.walks⟩ := by
  obtain ⟨⟨g, T, hi⟩, _⟩ := h.inv hinj hZ hf
  obtain ⟨L, t, kv⟩ := hi.v.vers i ops hm
  refine ⟨leaves t, ((nodes t).length + (leaves t).length + 0) + 1, ⟨kv.sorted, fun k v => ?_⟩, fun n hn => ?_⟩
  · rw [mem_leaves_iff kv.sorted, kv.map, and_true]
  · obtain ⟨h', k1, k2⟩ := hLeavesLoop_spec n hi.v.heap (.tree kv .nil) (Nat.lt_of_succ_le hn)
    refine ⟨h', ?_, k2.steps⟩
    rw [List.append_nil, List.filter_eq_self.2 (fun _ _ => by simp [key_nil_le])] at k1
    exact k1

/-- **C85 (`list_with_prefix`).** And likewise the records whose key starts with a prefix. -/
theorem C85_list_with_prefix (hinj : Function.Injective E.H) (hZ : ∀ k, E.zeros k ≤ Z) (hf : Z + 2 ≤ fuel) (h : WReach E fuel s)
    {i : Nat} {ops : List (Op C)} (hm : (i, ops) ∈ s.v.versions) (pre : Key) :
    ∃ l N, ExactListing (specRun ops).1 (fun k => ∃ r, k = pre ++ r) l ∧
      ∀ n, N ≤ n → ∃ h', hListWithPrefix E s.v.rd n i pre s.v.heap = (.ok l, h') ∧
        Relation.ReflTransGen (WStep E fuel) s ⟨{ s.v with heap := h' }, s.walks⟩ := by
  obtain ⟨⟨g, T, hi⟩, _⟩ := h.inv hinj hZ hf
  obtain ⟨L, t, kv⟩ := hi.v.vers i ops hm
  have hs := List.Pairwise.filter (fun kv : Key × C => decide (pre ≤ kv.1)) kv.sorted
  have hl := prefixLoop_spec pre hs (fun kv hkv => by simpa using (List.mem_filter.1 hkv).2)
  refine ⟨((leaves t).filter (fun kv => decide (pre ≤ kv.1))).filter (fun kv => startsWith kv.1 pre),
    ((nodes t).length + (leaves t).length + 0) + 1, ⟨List.Pairwise.filter _ hs, fun k v => ?_⟩, fun n hn => ?_⟩
  rotate_left
  · obtain ⟨h', k1, k2⟩ := hPrefixLoop_spec pre n hi.v.heap (.tree kv .nil) (Nat.lt_of_succ_le hn)
    refine ⟨h', ?_, k2.steps⟩
    rw [List.append_nil, hl] at k1
    exact k1
  · rw [List.mem_filter, List.mem_filter, mem_leaves_iff kv.sorted, kv.map, and_assoc]
    simp only [decide_eq_true_eq]
    refine and_congr_right fun _ => ?_
    have he : startsWith k pre = true ↔ ∃ r, k = pre ++ r := by
      simp only [startsWith, List.isPrefixOf_iff_prefix, List.IsPrefix]
      simp only [eq_comm]
    exact ⟨fun hx => he.1 hx.2, fun hx => ⟨startsWith_le (he.2 hx), he.2 hx⟩⟩

end

/-- The generator goes on until it has a leaf, or has ended: `next()`. -/
def hNext (w : HWalk TC) : Nat → HM TC (HWalk TC)
  | 0 => pure w
  | n + 1 => do
    let w' ← hAdvance exE noBlocks w
    if w'.yielded.length = w.yielded.length ∧ !w'.work.isEmpty then hNext w' n else pure w'

/-- `for leaf in mst.walk_leaves_from(''): mst = mst.delete(leaf.key)`, while another generator walks from a/b on and reads the same
nodes, and root CIDs of versions are taken. -/
def exLoop : HM TC (List (Key × TC) × List (Key × TC) × Option TC) := do
  let v0 ← hCreate exE noBlocks 130 [] none
  let v1 ← hApplyOp exE noBlocks 130 v0 (.add (key "a/a") (.val 1))
  let v2 ← hApplyOp exE noBlocks 130 v1 (.add (key "a/b") (.val 2))
  let w := ⟨[], some [], [.tree v2], [], 0⟩
  let w' := ⟨[], some (key "a/b"), [.tree v2], [], 0⟩
  let w ← hNext w 10
  let v3 ← hApplyOp exE noBlocks 130 v2 (.delete (key "a/a"))
  let w' ← hNext w' 10
  let _ ← hGetPointer exE noBlocks 130 v3
  let w ← hNext w 10
  let v4 ← hApplyOp exE noBlocks 130 v3 (.delete (key "a/b"))
  let w ← hNext w 10
  let a ← hGet exE noBlocks 130 v4 (key "a/a")
  pure (w.yielded, w'.yielded, a)

example : (exLoop []).1 = .ok ([(key "a/a", .val 1), (key "a/b", .val 2)], [(key "a/b", .val 2)], none) := by
  decide +kernel

/-- Listing a version after another one was made from it. -/
def exListing : HM TC (List (Key × TC) × List (Key × TC) × Nat) := do
  let v0 ← hCreate exE noBlocks 130 [] none
  let v1 ← hApplyOp exE noBlocks 130 v0 (.add (key "a/a") (.val 1))
  let v2 ← hApplyOp exE noBlocks 130 v1 (.add (key "a/b") (.val 2))
  let _ ← hApplyOp exE noBlocks 130 v2 (.delete (key "a/b"))
  let l ← hList exE noBlocks 20 v2 (some (key "a/a")) (some (key "a/c"))
  let l' ← hListWithPrefix exE noBlocks 20 v2 (key "a/")
  let l'' ← hLeaves exE noBlocks 20 v2
  pure (l, l', l''.length)

example : (exListing []).1 = .ok ([(key "a/b", .val 2)], [(key "a/a", .val 1), (key "a/b", .val 2)], 2) := by
  decide +kernel

/-- Non-vacuity: a generator has read the root of a version, and then its only record is deleted. -/
example : ∃ s w j, WReach exE 130 s ∧ s.walks[0]? = some w ∧ w.version = [.add (key "a/a") (.val 1)] ∧ w.start = some [] ∧ w.steps = 1 ∧
    (j, [.add (key "a/a") (.val 1), .delete (key "a/a")]) ∈ s.v.versions := by
  have hk : validKey (key "a/a") = true := by decide
  have h1 : WReach exE 130 ⟨⟨noBlocks, [⟨some [], exE.H ⟨none, []⟩, none, false⟩], [(0, [])]⟩, []⟩ :=
    ⟨_, noBlocks_ok, .single (.other (.create rfl))⟩
  have c1 := C81_calls exE_inj exE_le (by norm_num) (C85_versions exE_inj exE_le (by norm_num) h1).1 (i := 0) (ops := []) (.head _)
    (.add (key "a/a") (.val 1))
  have e1 : (specStep (specRun (C := TC) []).1 (.add (key "a/a") (.val 1))).2 = none := by simp [specStep, specRun, hk]
  rw [e1] at c1
  obtain ⟨i, h', c1⟩ := c1
  have h2 : WReach exE 130 _ := let ⟨rd, a, b⟩ := h1; ⟨rd, a, b.tail (.other (.ok (.head _) c1))⟩
  have h3 : WReach exE 130 _ := let ⟨rd, a, b⟩ := h2; ⟨rd, a, b.tail (.start (.head _) (some []))⟩
  obtain ⟨w, h'', c3, -, c3'⟩ := C85_next exE_inj exE_le (by norm_num) h3 (j := 0) rfl
  have h4 : WReach exE 130 _ := let ⟨rd, a, b⟩ := h3; ⟨rd, a, b.tail (.next (j := 0) rfl c3)⟩
  obtain ⟨N, c4⟩ := C85_ends exE_inj exE_le (by norm_num) h3 (j := 0) rfl
  obtain ⟨w', d1, d2, d3, -⟩ := c4 _ (.single (.next (j := 0) rfl c3))
  cases d1
  have c5 := C81_calls exE_inj exE_le (by norm_num) (C85_versions exE_inj exE_le (by norm_num) h4).1 (i := i)
    (ops := [.add (key "a/a") (.val 1)]) (.head _) (.delete (key "a/a"))
  have e5 : (specStep (specRun (C := TC) [.add (key "a/a") (.val 1)]).1 (.delete (key "a/a"))).2 = none := by
    simp [specRun, specStep, hk]
  rw [e5] at c5
  obtain ⟨j, h5, c5⟩ := c5
  have h6 : WReach exE 130 _ := let ⟨rd, a, b⟩ := h4; ⟨rd, a, b.tail (.other (.ok (.head _) c5))⟩
  exact ⟨_, w, j, h6, rfl, d2, d3, c3' (by simp), .head _⟩

end Arroba
