import Verif.Mst.Untrusted
import Verif.Mst.SoundProofs
import Verif.Mst.ListingProofs
import Verif.Mst.Canon
import Verif.Props.C08
import Verif.Props.C16
import Verif.Props.C46
import Verif.Firehose.MirrorProofs

/-!
# C82: Blocks from strangers
-/

namespace Arroba

variable {C : Type} [DecidableEq C]

open Arroba.Tree Arroba.Store

section
variable {E : Env C} {rd B : C → Option (NodeData C)} {Z fuel : Nat} {n : Node C} {ops : List (Op C)}
  {outs : List (Option Err)} {c : C}

/-- `B` can be completed to a store that has the tree. -/
theorem Checked.complete (hinj : Function.Injective E.H) (hB : Checked E B) {t : Tree C} {L : Nat} {m : Key → Option C}
    (hw : WF E.zeros L t) (hL : L ≤ Z) (hs : Sorted t) (hv : ValidKeys t) (hm : dictGet (leaves t) = m) :
    ∃ rd' L', (∀ c d, B c = some d → rd' c = some d) ∧ Inv E rd' Z L' t (load (cidOf E.H t)) m := by
  let rd' : C → Option (NodeData C) := fun c => match B c with
    | some d => some d
    | none => ((nodes t).find? fun s => cidOf E.H s = c).map (nodeOf E.H)
  have hst : Stored E rd' t := by
    intro s hsn
    simp only [rd']
    cases hb : B (cidOf E.H s) with
    | some d =>
      have : E.H d = E.H (nodeOf E.H s) := (hB _ _ hb).trans rfl
      rw [hinj this]
    | none =>
      dsimp only
      cases hf : (nodes t).find? (fun s' => cidOf E.H s' = cidOf E.H s) with
      | none =>
        have := List.find?_eq_none.1 hf s hsn
        simp at this
      | some s' =>
        have h1 : E.H (nodeOf E.H s') = E.H (nodeOf E.H s) := by have := List.find?_some hf; exact of_decide_eq_true this
        simp [hinj h1]
  have hrep : ∀ L, ReprN E rd' L t (load (cidOf E.H t)) := fun L =>
    ⟨⟨fun _ => ⟨rfl, hst⟩, fun _ => rfl, by simp [load, Node.layer]⟩, by simp [load, Node.entries]⟩
  refine ⟨rd', ?_⟩
  have hle : ∀ c d, B c = some d → rd' c = some d := fun c d h => by simp only [rd', h]
  by_cases ht : t = nil
  · subst ht
    exact ⟨0, hle, hrep 0, by simp [WF], hs, hv, fun _ => rfl, by omega, hm⟩
  · exact ⟨L, hle, hrep L, hw, hs, hv, fun h => absurd h ht, hL, hm⟩

/-- The tree with the root CID `c`. -/
theorem Run.complete (hinj : Function.Injective E.H) (hZ : ∀ k, E.zeros k ≤ Z) (hf : Z + 2 ≤ fuel)
    (h : Run E fuel rd n ops outs) (hc : getPointer E rd fuel n = .ok c) (hB : Checked E B) :
    ∃ rd' L' t, (∀ c d, B c = some d → rd' c = some d) ∧ Inv E rd' Z L' t (load c) (specRun ops).1 := by
  obtain ⟨-, -, L, t, hi, -⟩ := h.inv hinj hZ hf
  have hb := hi.bound
  rw [getPointer_spec hi.repr hi.wf hi.valid (by omega)] at hc
  cases hc
  obtain ⟨rd', L', h1, h2⟩ := hB.complete hinj hi.wf hi.bound hi.sorted hi.valid hi.map
  exact ⟨rd', L', t, h1, h2⟩

/-- **Lookups.** Take any tree that was made with the API, and its root CID. Whatever blocks a stranger has sent, as long as each
has the CID it is under: looking up a key in the tree with that root CID gives the right answer, be it that there is no such key,
or AttributeError since a block is missing. -/
theorem C82_get (hinj : Function.Injective E.H) (hZ : ∀ k, E.zeros k ≤ Z) (hf : Z + 2 ≤ fuel)
    (h : Run E fuel rd n ops outs) (hc : getPointer E rd fuel n = .ok c) (hB : Checked E B) (k : Key) :
    get E B fuel (load c) k = .error .attribute ∨ get E B fuel (load c) k = .ok ((specRun ops).1 k) := by
  obtain ⟨rd', L', t, h1, h2⟩ := h.complete hinj hZ hf hc hB
  rw [← h2.get hf k]
  exact get_lacks h1 fuel _ k

/-- **Listings** have exactly the records between the bounds, if there are any, or fail: a stranger can't leave out one. -/
theorem C82_list (hinj : Function.Injective E.H) (hZ : ∀ k, E.zeros k ≤ Z) (hf : Z + 2 ≤ fuel)
    (h : Run E fuel rd n ops outs) (hc : getPointer E rd fuel n = .ok c) (hB : Checked E B) (after before : Option Key) :
    list E B fuel (load c) after before = .error .attribute ∨
    ∃ l, list E B fuel (load c) after before = .ok l ∧
      ExactListing (specRun ops).1
        (fun k => (∀ a, after = some a → a < k) ∧ (∀ b, before = some b → b ≠ [] → k < b)) l := by
  obtain ⟨rd', L', t, h1, h2⟩ := h.complete hinj hZ hf hc hB
  have hb := h2.bound
  rcases list_lacks (E := E) h1 fuel (load c) after before with g | g
  · exact .inl g
  · right
    rw [list_spec after before h2.repr h2.wf h2.sorted (by omega)] at g
    refine ⟨_, g, List.Pairwise.filter _ h2.sorted, fun k v => ?_⟩
    rw [List.mem_filter, mem_leaves_iff h2.sorted, h2.map, decide_eq_true_eq]
    rfl

/-- The same with a prefix. -/
theorem C82_prefix (hinj : Function.Injective E.H) (hZ : ∀ k, E.zeros k ≤ Z) (hf : Z + 2 ≤ fuel)
    (h : Run E fuel rd n ops outs) (hc : getPointer E rd fuel n = .ok c) (hB : Checked E B) (pre : Key) :
    listWithPrefix E B fuel (load c) pre = .error .attribute ∨
    ∃ l, listWithPrefix E B fuel (load c) pre = .ok l ∧ ExactListing (specRun ops).1 (fun k => ∃ s, k = pre ++ s) l := by
  obtain ⟨rd', L', t, h1, h2⟩ := h.complete hinj hZ hf hc hB
  have hb := h2.bound
  rcases listWithPrefix_lacks (E := E) h1 fuel (load c) pre with g | g
  · exact .inl g
  · right
    rw [listWithPrefix_spec pre h2.repr h2.wf h2.sorted (by omega)] at g
    refine ⟨_, g, List.Pairwise.filter _ h2.sorted, fun k v => ?_⟩
    rw [List.mem_filter, mem_leaves_iff h2.sorted, h2.map]
    simp only [startsWith, List.isPrefixOf_iff_prefix, List.IsPrefix]
    simp only [eq_comm]

theorem loadedFrom_inv (hZ : ∀ k, E.zeros k ≤ Z) (hf : Z + 2 ≤ fuel) (hle : ∀ c d, B c = some d → rd c = some d) {m : Key → Option C}
    {L : Nat} {t : Tree C} (h0 : Inv E rd Z L t (load c) m) (h : LoadedFrom E fuel B c n ops outs) :
    outs = (specFrom m ops).2 ∧ ∃ L' t', Inv E rd Z L' t' n (specFrom m ops).1 := by
  have happ : ∀ (ops : List (Op C)) op, specFrom m (ops ++ [op]) =
      ((specStep (specFrom m ops).1 op).1, (specFrom m ops).2 ++ [(specStep (specFrom m ops).1 op).2]) := by
    intro ops op
    unfold specFrom
    rw [List.foldl_append]
    rfl
  induction h with
  | load => exact ⟨rfl, L, t, h0⟩
  | @ok n n' ops outs op h h' ih =>
    obtain ⟨h1, L', t', hi⟩ := ih
    have hs := hi.step hZ hf op
    have ha := (applyOp_lacks (E := E) hle fuel n op).ok h'
    rw [happ]
    cases he : (specStep (specFrom m ops).1 op).2 with
    | some e => rw [he] at hs; rw [hs.1] at ha; cases ha
    | none =>
      rw [he] at hs
      obtain ⟨n1, t1, L1, g1, g2, -⟩ := hs
      rw [g1] at ha
      cases ha
      exact ⟨by rw [h1], L1, t1, g2⟩
  | @fail n ops outs op e h h' hne ih =>
    obtain ⟨h1, L', t', hi⟩ := ih
    have hs := hi.step hZ hf op
    have ha := (applyOp_lacks (E := E) hle fuel n op).error h' hne
    rw [happ]
    cases he : (specStep (specFrom m ops).1 op).2 with
    | some e' =>
      rw [he] at hs
      rw [hs.1] at ha
      cases ha
      exact ⟨by rw [h1], L', t', by dsimp only; rw [hs.2]; exact hi⟩
    | none =>
      rw [he] at hs
      obtain ⟨n1, t1, L1, g1, -⟩ := hs
      rw [g1] at ha
      cases ha
  | @cache n n' ops outs h h' ih =>
    obtain ⟨h1, L', t', hi⟩ := ih
    have hb := hi.bound
    obtain ⟨g1, g2⟩ := (h'.lacks hle).repr hi.repr hi.wf hi.valid hi.layer (by omega)
    exact ⟨h1, L', t', { hi with repr := g1, layer := g2 }⟩

/-- **Changes.** Calls on such a tree raise what they should, or AttributeError; afterwards, lookups give what they should, or
AttributeError; and a root CID that is computed then is not that of any tree with other records. -/
theorem C82_calls (hinj : Function.Injective E.H) (hZ : ∀ k, E.zeros k ≤ Z) (hf : Z + 2 ≤ fuel)
    (h : Run E fuel rd n ops outs) (hc : getPointer E rd fuel n = .ok c) (hB : Checked E B)
    {n' : Node C} {ops' : List (Op C)} {outs' : List (Option Err)} (h' : LoadedFrom E fuel B c n' ops' outs') :
    outs' = (specFrom (specRun ops).1 ops').2 ∧
    (∀ k, get E B fuel n' k = .error .attribute ∨ get E B fuel n' k = .ok ((specFrom (specRun ops).1 ops').1 k)) ∧
    (∀ op, applyOp E B fuel n' op = .error .attribute ∨
      match (specStep (specFrom (specRun ops).1 ops').1 op).2 with
      | some e => applyOp E B fuel n' op = .error e
      | none => ∃ n'', applyOp E B fuel n' op = .ok n'') ∧
    (getPointer E B fuel n' = .error .attribute ∨ ∃ p, getPointer E B fuel n' = .ok p ∧
      ∀ rd₁ n₁ ops₁ outs₁, Run E fuel rd₁ n₁ ops₁ outs₁ → getPointer E rd₁ fuel n₁ = .ok p →
        (specRun ops₁).1 = (specFrom (specRun ops).1 ops').1) := by
  obtain ⟨rd', L', t, h1, h2⟩ := h.complete hinj hZ hf hc hB
  obtain ⟨h3, L1, t1, hi⟩ := loadedFrom_inv hZ hf h1 h2 h'
  have hb := hi.bound
  refine ⟨h3, fun k => ?_, fun op => ?_, ?_⟩
  · rw [← hi.get hf k]
    exact get_lacks h1 fuel _ k
  · rcases applyOp_lacks (E := E) h1 fuel n' op with g | g
    · exact .inl g
    · right
      have hs := hi.step hZ hf op
      rw [g]
      cases he : (specStep (specFrom (specRun ops).1 ops').1 op).2 with
      | some e => rw [he] at hs; exact hs.1
      | none =>
        rw [he] at hs
        obtain ⟨n1, _, _, g1, -⟩ := hs
        exact ⟨n1, g1⟩
  · rcases getPointer_lacks (E := E) h1 fuel n' with g | g
    · exact .inl g
    · right
      rw [getPointer_spec hi.repr hi.wf hi.valid (by omega)] at g
      refine ⟨_, g, fun rd₁ n₁ ops₁ outs₁ hr hp => ?_⟩
      obtain ⟨-, -, L₁, t₁, i₁, -⟩ := hr.inv hinj hZ hf
      have b₁ := i₁.bound
      rw [getPointer_spec i₁.repr i₁.wf i₁.valid (by omega)] at hp
      rcases cid_inj i₁.wf hi.wf (by simpa using hp) with rfl | ⟨s, hs, s', hs', hne, heq⟩
      · rw [← i₁.map, hi.map]
      · exact absurd (hinj heq) hne

theorem checkOps_inv (hZ : ∀ k, E.zeros k ≤ Z) (hf : Z + 2 ≤ fuel) (hle : ∀ c d, B c = some d → rd c = some d) :
    ∀ {cops : List (CommitOp C)} {m : Key → Option C} {L : Nat} {t : Tree C} {n n₀ : Node C}, Inv E rd Z L t n m →
    checkOps E B fuel cops n = .ok n₀ →
    ∃ m₀ L₀ t₀, Inv E rd Z L₀ t₀ n₀ m₀ ∧ m = afterAll m₀ cops ∧ FitsAll m₀ cops
  | [], m, L, t, n, n₀, hi, h => by
    cases h
    exact ⟨m, L, t, hi, rfl, trivial⟩
  | op :: cops, m, L, t, n, n₀, hi, h => by
    unfold checkOps at h
    obtain ⟨n₁, h1, h⟩ := bind_ok h
    obtain ⟨v, h2, h⟩ := bind_ok h
    obtain ⟨m₁, L₁, t₁, i₁, g1, g2⟩ := checkOps_inv hZ hf hle (cops := cops) hi h1
    have hv := (get_lacks (E := E) hle fuel n₁ op.path).ok h2
    rw [i₁.get hf] at hv
    cases hv
    by_cases hcid : m₁ op.path = op.cid
    · rw [if_pos hcid] at h
      cases ho : op.inverse with
      | none => rw [ho] at h; cases h
      | some o =>
        rw [ho] at h
        have ha := (applyOp_lacks (E := E) hle fuel n₁ o).ok h
        have hs := i₁.step hZ hf o
        cases he : (specStep m₁ o).2 with
        | some e => rw [he] at hs; rw [hs.1] at ha; cases ha
        | none =>
          rw [he] at hs
          obtain ⟨n', t', L', k1, k2, -⟩ := hs
          rw [k1] at ha
          cases ha
          have key : (op.after (specStep m₁ o).1 = m₁) ∧ op.fits (specStep m₁ o).1 := by
            obtain ⟨action, path, cid, prev⟩ := op
            cases action with
            | create =>
              cases ho
              unfold specStep at he ⊢
              dsimp only at hcid he ⊢
              by_cases hn : m₁ path = none
              · rw [if_pos hn] at he; cases he
              · rw [if_neg hn]
                refine ⟨?_, ?_, ?_⟩
                · simp only [CommitOp.after, Function.update_idem, ← hcid, Function.update_eq_self]
                · simp
                · rw [← hcid]; exact hn
            | update =>
              obtain ⟨p, rfl, rfl⟩ := Option.map_eq_some_iff.1 ho
              unfold specStep at he ⊢
              dsimp only at hcid he ⊢
              by_cases hk : validKey path = false
              · rw [if_pos hk] at he; cases he
              · rw [if_neg hk] at he ⊢
                by_cases hn : m₁ path = none
                · rw [if_pos hn] at he; cases he
                · rw [if_neg hn]
                  refine ⟨?_, ?_, ?_, ?_⟩
                  · simp only [CommitOp.after, Function.update_idem, ← hcid, Function.update_eq_self]
                  · simp
                  · simp
                  · rw [← hcid]; exact hn
            | delete =>
              obtain ⟨p, rfl, rfl⟩ := Option.map_eq_some_iff.1 ho
              unfold specStep at he ⊢
              dsimp only at hcid he ⊢
              by_cases hk : validKey path = false
              · rw [if_pos hk] at he; cases he
              · rw [if_neg hk] at he ⊢
                by_cases hn : m₁ path ≠ none
                · rw [if_pos hn] at he; cases he
                · rw [if_neg hn]
                  have hn : m₁ path = none := by simpa using hn
                  refine ⟨?_, ?_, ?_, ?_⟩
                  · simp only [CommitOp.after, Function.update_idem, ← hcid, Function.update_eq_self]
                  · simp
                  · simp
                  · rw [← hcid]; exact hn
          refine ⟨(specStep m₁ o).1, L', t', k2, ?_, key.2, ?_⟩
          · rw [g1]
            show afterAll m₁ cops = afterAll (op.after (specStep m₁ o).1) cops
            rw [key.1]
          · rw [key.1]; exact g2
    · rw [if_neg hcid] at h
      cases h

/-- **Operations.** A consumer has the records of the tree with the root CID `p`, and gets from a stranger a list of operations,
and blocks, for a commit to the tree with the root CID `c`. If each operation agrees with the tree it leads to and can be undone
with the blocks, and undoing all of them gives `p`, then the operations are exactly how the records of `c` came from those of
`p`: none is left out, none is made up. -/
theorem C82_operations (hinj : Function.Injective E.H) (hZ : ∀ k, E.zeros k ≤ Z) (hf : Z + 2 ≤ fuel)
    (h : Run E fuel rd n ops outs) (hc : getPointer E rd fuel n = .ok c)
    {rd₁ : C → Option (NodeData C)} {n₁ : Node C} {ops₁ : List (Op C)} {outs₁ : List (Option Err)} {p : C}
    (h₁ : Run E fuel rd₁ n₁ ops₁ outs₁) (hp : getPointer E rd₁ fuel n₁ = .ok p)
    (hB : Checked E B) {cops : List (CommitOp C)} {n₀ : Node C} (hcheck : checkOps E B fuel cops (load c) = .ok n₀)
    (hroot : getPointer E B fuel n₀ = .ok p) :
    (specRun ops).1 = afterAll (specRun ops₁).1 cops ∧ FitsAll (specRun ops₁).1 cops := by
  obtain ⟨rd', L', t, g1, g2⟩ := h.complete hinj hZ hf hc hB
  obtain ⟨m₀, L₀, t₀, i₀, k1, k2⟩ := checkOps_inv hZ hf g1 g2 hcheck
  obtain ⟨-, -, L₁, t₁, i₁, -⟩ := h₁.inv hinj hZ hf
  have b₀ := i₀.bound
  have b₁ := i₁.bound
  have hr := (getPointer_lacks (E := E) g1 fuel n₀).ok hroot
  rw [getPointer_spec i₀.repr i₀.wf i₀.valid (by omega)] at hr
  rw [getPointer_spec i₁.repr i₁.wf i₁.valid (by omega)] at hp
  have hm : m₀ = (specRun ops₁).1 := by
    rcases cid_inj i₁.wf i₀.wf (by cases hr; simpa using hp) with rfl | ⟨s, hs, s', hs', hne, heq⟩
    · rw [← i₁.map, i₀.map]
    · exact absurd (hinj heq) hne
  subst hm
  exact ⟨k1, k2⟩

end

section
variable {V : Type} {E : Env C} {Z f : Nat} {t : Tree C} {read : C → Option V} {dec : V → Option (NodeData C)} {B₀ B : Blocks C V}
  {m : Key → Option C} {cops : List (CommitOp C)}

/-- The check accepts true operations, with no more blocks than `add_covering_proofs` collects. As in C16, provided that there are
records after each but the last operation. -/
theorem C82_accepts (hZ : ∀ k, E.zeros k ≤ Z) (hf : Z + 2 ≤ f) (h : Committed E t m cops read dec B₀)
    (hB : addCoveringProofs read dec f (cidOf E.H t) (cops.map (·.path)) B₀ = .ok B)
    (hne : ∀ i, 0 < i → i < cops.length → ∃ k, afterAll m (cops.take i) k ≠ none)
    {t₀ : Tree C} (hv₀ : Valid E.zeros t₀) (hm : dictGet (leaves t₀) = m) :
    ∃ n, checkOps E (readOnly dec B) f cops (load (cidOf E.H t)) = .ok n ∧
      getPointer E (readOnly dec B) f n = .ok (cidOf E.H t₀) := by
  obtain ⟨n, h1, h2⟩ := C16_invert_root_partial hZ hf h hB hne hv₀ hm
  obtain ⟨L, hL, hw⟩ := Valid.layer hZ h.valid
  exact ⟨n, by rw [checkOps_covering hZ hf hw hL h.valid.2.2.1 h.valid.2.2.2 h.good h.fits h.paths h.records hB]; exact h1, h2⟩

end

/-! ### Cases that meet the hypotheses, and what doesn't hold -/

/-- All nodes. -/
def allBlocks : TC → Option (NodeData TC)
  | .node d => some d
  | .val _ => none

theorem allBlocks_checked : Checked exE allBlocks := by
  intro c d h
  cases c with
  | val => cases h
  | node d' => cases h; rfl

/-- Just one block. -/
def oneBlock (c : TC) : TC → Option (NodeData TC) := fun x => if x = c then allBlocks c else none

theorem oneBlock_checked (c : TC) : Checked exE (oneBlock c) := by
  intro x d h
  unfold oneBlock at h
  split at h
  · rename_i e
    subst e
    exact allBlocks_checked _ _ h
  · cases h

/-- The root CID of the tree after these calls. -/
def exPointer (ops : List (Op TC)) : TC :=
  match getPointer exE noBlocks 130 (exAfter ops) with
  | .ok c => c
  | .error _ => .val 0

/-- With just the root node, the record there can be looked up, and the others can't. -/
example : Run exE 130 noBlocks (exAfter exOps) exOps exOuts ∧
    getPointer exE noBlocks 130 (exAfter exOps) = .ok (exPointer exOps) ∧
    get exE (oneBlock (exPointer exOps)) 130 (load (exPointer exOps)) (key "a/a") = .ok (some (.val 1)) ∧
    get exE (oneBlock (exPointer exOps)) 130 (load (exPointer exOps)) (key "a/b") = .error .attribute ∧
    list exE (oneBlock (exPointer exOps)) 130 (load (exPointer exOps)) none none = .error .attribute ∧
    get exE allBlocks 130 (load (exPointer exOps)) (key "a/b") = .ok (some (.val 4)) :=
  ⟨exRun, by decide +kernel, by decide +kernel, by decide +kernel, by decide +kernel, by decide +kernel⟩

/-- Calls on it. -/
example : ∃ n, LoadedFrom exE 130 allBlocks (exPointer exOps) n [.delete (key "a/b"), .add (key "a/a") (.val 2)]
    [none, some .value] := by
  have h1 : ∃ n, applyOp exE allBlocks 130 (load (exPointer exOps)) (.delete (key "a/b")) = .ok n ∧
      applyOp exE allBlocks 130 n (.add (key "a/a") (.val 2)) = .error .value := by
    cases h : applyOp exE allBlocks 130 (load (exPointer exOps)) (.delete (key "a/b")) with
    | error e =>
      have : (applyOp exE allBlocks 130 (load (exPointer exOps)) (.delete (key "a/b"))).isOk = true := by decide +kernel
      rw [h] at this
      cases this
    | ok n =>
      refine ⟨n, rfl, ?_⟩
      have : (applyOp exE allBlocks 130 (load (exPointer exOps)) (.delete (key "a/b"))).bind
        (fun n => (applyOp exE allBlocks 130 n (.add (key "a/a") (.val 2))).map fun _ => ()) = .error .value := by decide +kernel
      rw [h] at this
      change (applyOp exE allBlocks 130 n _).map _ = _ at this
      cases h' : applyOp exE allBlocks 130 n (.add (key "a/a") (.val 2)) with
      | error e => rw [h'] at this; cases this; rfl
      | ok n => rw [h'] at this; cases this
  obtain ⟨n, h1, h2⟩ := h1
  exact ⟨n, .fail (.ok .load h1) h2 (by decide)⟩

/-- The operations from one tree to the next are accepted. -/
example : (checkOps exE allBlocks 130
      [⟨.update, key "a/b", some (.val 4), some (.val 2)⟩, ⟨.create, key "b/l", some (.val 3), none⟩]
      (load (exPointer [.add (key "a/b") (.val 4), .add (key "b/l") (.val 3)]))).bind (getPointer exE allBlocks 130) =
    .ok (exPointer [.add (key "a/b") (.val 2)]) := by decide +kernel

/-- **Undoing alone isn't enough.** An operation that creates a record with a CID that isn't in the tree can be undone, and gives
the previous root: a consumer that only undoes the operations (C16) takes the wrong record. -/
theorem C82_undo_false : ∃ (ops ops₁ : List (Op TC)) (cops : List (CommitOp TC)) (n : Node TC),
    Run exE 130 noBlocks (exAfter ops) ops (exOutcomes ops) ∧ Run exE 130 noBlocks (exAfter ops₁) ops₁ (exOutcomes ops₁) ∧
    undo exE allBlocks 130 cops (load (exPointer ops)) = .ok n ∧
    getPointer exE allBlocks 130 n = .ok (exPointer ops₁) ∧
    (specRun ops).1 ≠ afterAll (specRun ops₁).1 cops := by
  have h : ((undo exE allBlocks 130 [⟨.create, key "b/l", some (.val 9), none⟩]
      (load (exPointer [.add (key "a/b") (.val 4), .add (key "b/l") (.val 3)]))).bind (getPointer exE allBlocks 130)) =
      .ok (exPointer [.add (key "a/b") (.val 4)]) := by decide +kernel
  cases hu : undo exE allBlocks 130 [⟨.create, key "b/l", some (.val 9), none⟩]
      (load (exPointer [.add (key "a/b") (.val 4), .add (key "b/l") (.val 3)])) with
  | error e => rw [hu] at h; cases h
  | ok n =>
    rw [hu] at h
    refine ⟨_, _, _, n, exRunOf _, exRunOf _, hu, h, fun he => ?_⟩
    have := congrFun he (key "b/l")
    revert this
    decide +kernel

/-- **The root must be that of a tree that the API made.** If it isn't, since whoever signed the commit made it differently, the
blocks can have the right CIDs and yet make no sense, and nothing notices: here, the keys are out of order, and a record that is
listed isn't found. -/
theorem C82_malformed_false : ∃ (B : TC → Option (NodeData TC)) (c : TC) (k : Key) (v : TC) (l : List (Key × TC)),
    Checked exE B ∧ list exE B 130 (load c) none none = .ok l ∧ (k, v) ∈ l ∧ get exE B 130 (load c) k = .ok none := by
  refine ⟨allBlocks, .node ⟨none, [⟨0, key "b/l", .val 3, none⟩, ⟨0, key "a/a", .val 1, none⟩]⟩, key "a/a", .val 1,
    [(key "b/l", .val 3), (key "a/a", .val 1)], allBlocks_checked, by decide +kernel, by decide +kernel, by decide +kernel⟩

end Arroba

namespace Arroba.Xrpc

open Arroba.Store

variable {C R : Type} [DecidableEq C] {L : Lib C R} {Z : Nat} {be : Backend} {al : Allow} {w : World C R}

theorem getRecord_lacks {w w' : World C R} (h : ValLe w w') (o : RepoObj C R) (collection rkey : Key) :
    Lacks (Store.getRecord L w o collection rkey) (Store.getRecord L w' o collection rkey) := by
  unfold Store.getRecord
  refine (get_lacks (fun c d => h.rd c d) L.fuel o.mst _).bind fun x => ?_
  cases x with
  | none => exact .refl _
  | some c =>
    dsimp only
    cases hr : w.read c with
    | none => exact .inl rfl
    | some b =>
      obtain ⟨b', h1, h2⟩ := h c b hr
      rw [h1]
      exact .inr (by dsimp only; rw [h2])

theorem addContents_lacks {w w' : World C R} (h : ValLe w w') : ∀ (kvs : List (Key × C)) (acc : List (Key × List (Key × Val C R))),
    Lacks (addContents w acc kvs) (addContents w' acc kvs)
  | [], _ => .refl _
  | kv :: kvs, acc => by
    unfold addContents
    refine Lacks.bind ?_ fun acc' => addContents_lacks h kvs acc'
    unfold addContent
    split
    · cases hr : w.read kv.2 with
      | none => exact .inl rfl
      | some b =>
        obtain ⟨b', h1, h2⟩ := h _ b hr
        rw [h1]
        exact .inr (by dsimp only; rw [h2])
    · exact .refl _

theorem getContents_lacks {w w' : World C R} (h : ValLe w w') (o : RepoObj C R) :
    Lacks (getContents L w o) (getContents L w' o) :=
  (list_lacks (fun c d => h.rd c d) L.fuel o.mst none none).bind fun _ => addContents_lacks h _ _

/-- What reading a repo can give if some blocks are missing: the records `m`, or AttributeError. -/
structure Honest (L : Lib C R) (w : World C R) (o : RepoObj C R) (m : Key → Option R) : Prop where
  get : ∀ collection rkey, Store.getRecord L w o collection rkey = .error .attribute ∨
    Store.getRecord L w o collection rkey = .ok ((m (collection ++ '/' :: rkey)).map .record)
  contents : getContents L w o = .error .attribute ∨ ∃ cs, getContents L w o = .ok cs ∧ ∀ collection rkey,
    ((dictGet cs collection).bind (dictGet · rkey)) = (m (collection ++ '/' :: rkey)).map .record

/-- **Repos.** Take any commit that a server has, in any state that can be reached, and any CAR from anywhere, with true CIDs.
Loading that commit from a storage that has just the blocks of the CAR fails if the commit isn't there. Otherwise, reading records
one by one, and reading all of them, gives what the commit has, or AttributeError since blocks are missing. -/
theorem C82_repo (hL : L.OK Z) (hw : Reach L be al w) {c : C} {m : Key → Option R} (hm : CommitShows L w c m) {car : Car C R}
    (hcar : TrueCids L car) :
    (∃ e, repoLoad car.world c none none 0 false = (car.world, .error e) ∧ ∀ v, (c, v) ∉ car.blocks) ∨
    ∃ w1 r o, repoLoad car.world c none none 0 false = (w1, .ok r) ∧ w1.heap[r]? = some o ∧ Honest L w1 o m := by
  have hread : ∀ {x b}, car.world.read x = some b → (x, b.val) ∈ car.blocks := by
    intro x b hb
    obtain ⟨y, hy, e⟩ := List.mem_map.1 (dictGet_mem hb)
    cases e
    exact hy
  have haw := hw.addressed
  obtain ⟨b, co, h1, h2, h3⟩ := commitShows_iff.1 hm
  cases hr : car.world.read c with
  | none =>
    left
    refine ⟨.attribute, by unfold repoLoad commitAt; rw [hr], fun v hv => ?_⟩
    exact dictGet_eq_none.1 hr _ (List.mem_map.2 ⟨_, hv, rfl⟩) rfl
  | some b' =>
    right
    have hv : b'.val = .commit co := by
      rw [← h2]
      exact hL.inj ((hcar _ (hread hr)).trans (haw _ _ h1).symm)
    let u : World C R := { w with blocks := w.blocks ++ car.world.blocks }
    have hwu : ValLe w u := by
      intro x y hy
      refine ⟨y, ?_, rfl⟩
      show dictGet (w.blocks ++ car.world.blocks) x = some y
      rw [dictGet_append, show dictGet w.blocks x = some y from hy]
    have hcu : ValLe car.world u := by
      intro x y hy
      show ∃ y', dictGet (w.blocks ++ car.world.blocks) x = some y' ∧ _
      rw [dictGet_append]
      cases hx : dictGet w.blocks x with
      | none => exact ⟨y, hy, rfl⟩
      | some z => exact ⟨z, rfl, hL.inj ((haw _ _ hx).trans (hcar _ (hread hy)).symm)⟩
    have hou : ObjShows L u ⟨Arroba.load co.data, some b', none, none, 0, false⟩ m := ObjShows.obj (h3.mono hwu) rfl
    have hca : commitAt car.world c = .ok (b', co) := by unfold commitAt; rw [hr]; simp only [hv]
    refine ⟨_, _, ⟨Arroba.load co.data, some b', none, none, 0, false⟩, by unfold repoLoad; rw [hca], ?_, ?_⟩
    · simp only [World.newObj, List.getElem?_append_right (Nat.le_refl _), Nat.sub_self, List.getElem?_cons_zero]
    · have hcu' : ValLe (car.world.newObj ⟨Arroba.load co.data, some b', none, none, 0, false⟩).2 u := hcu
      refine ⟨fun q k => ?_, ?_⟩
      · rw [← hou.get q k]
        exact getRecord_lacks hcu' _ q k
      · obtain ⟨cs, g1, g2⟩ := hou.contents
        rcases getContents_lacks (L := L) hcu' ⟨Arroba.load co.data, some b', none, none, 0, false⟩ with g | g
        · exact .inl g
        · exact .inr ⟨cs, g.trans g1, g2⟩

/-- A CAR with just the commit, and a complete one. -/
example : ∃ m : Key → Option Nat, CommitShows exL (exW1 .memory) exHead m ∧ m "coll/a".toList = some 1 ∧
    TrueCids exL exCar ∧ TrueCids exL ⟨[exHead], [(exHead, .commit exHeadCommit)]⟩ ∧
    Store.getRecord exL exCar.world ⟨Arroba.load exHeadCommit.data, none, none, none, 0, false⟩ "coll".toList "a".toList =
      .ok (some (.record 1)) ∧
    Store.getRecord exL (Car.world ⟨[exHead], [(exHead, .commit exHeadCommit)]⟩)
      ⟨Arroba.load exHeadCommit.data, none, none, none, 0, false⟩ "coll".toList "a".toList = .error .attribute := by
  obtain ⟨b, hb, hv⟩ : ∃ b, (exW1 .memory).read exHead = some b ∧ b.val = .commit exHeadCommit := by
    have h1 : ((exW1 .memory).read exHead).map (·.val) = some (.commit exHeadCommit) := by decide +kernel
    cases hr : (exW1 .memory).read exHead with
    | none => rw [hr] at h1; cases h1
    | some b => rw [hr] at h1; exact ⟨b, rfl, Option.some.inj h1⟩
  obtain ⟨_, _, _, m, _, hm, _⟩ := C27_stored_partial exL_ok (by exact id) (exW1_reach .memory) hb hv
    (Reach.native exL_ok (fun h => h) (exW1_reach .memory) hb)
  obtain ⟨m', h1, h2⟩ := exCar_complete
  have := (CommitShows.mono exCar_valLe hm).unique h1
  subst this
  exact ⟨m, hm, h2, exCar_cids, by unfold TrueCids; decide +kernel, by decide +kernel, by decide +kernel⟩

end Arroba.Xrpc
