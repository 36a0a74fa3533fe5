import Verif.Storage.Exec
import Verif.Mst.Canon

/-! Helper lemmas: the write loop of `_commit` implements `specWrites` and `opsOf`. -/

namespace Arroba

variable {C : Type}

open Arroba.Tree

section
variable {E : Env C} {rd : C → Option (NodeData C)} {Z L : Nat} {t : Tree C} {n : Node C}
  {m : Key → Option C}

theorem Inv.cached (h : Inv E rd Z L t n m) {fuel : Nat} (hf : Z + 2 ≤ fuel) {n' : Node C}
    (hc : Cached E rd fuel n n') : Inv E rd Z L t n' m := by
  have hb := h.bound
  obtain ⟨h1, h2⟩ := hc.repr h.repr h.wf h.valid h.layer (by omega)
  exact ⟨h1, h.wf, h.sorted, h.valid, h2, h.bound, h.map⟩

theorem Inv.cachedStar (h : Inv E rd Z L t n m) {fuel : Nat} (hf : Z + 2 ≤ fuel) {n' : Node C}
    (hc : Relation.ReflTransGen (Cached E rd fuel) n n') : Inv E rd Z L t n' m := by
  induction hc with
  | refl => exact h
  | tail _ hc ih => exact ih.cached hf hc

theorem Inv.mono (h : Inv E rd Z L t n m) {rd' : C → Option (NodeData C)}
    (hr : ∀ c d, rd c = some d → rd' c = some d) : Inv E rd' Z L t n m :=
  ⟨h.repr.mono hr, h.wf, h.sorted, h.valid, h.layer, h.bound, h.map⟩

theorem Inv.get (h : Inv E rd Z L t n m) {fuel : Nat} (hf : Z + 2 ≤ fuel) (k : Key) :
    Arroba.get E rd fuel n k = .ok (m k) := by
  have hb := h.bound
  rw [get_spec h.repr h.wf h.sorted (by omega), h.map]

theorem Inv.pointer (h : Inv E rd Z L t n m) {fuel : Nat} (hf : Z + 2 ≤ fuel) :
    getPointer E rd fuel n = .ok (cidOf E.H t) := by
  have hb := h.bound
  exact getPointer_spec h.repr h.wf h.valid (by omega)

theorem Inv.validKey (h : Inv E rd Z L t n m) {k : Key} (hk : m k ≠ none) : validKey k = true := by
  rw [← h.map] at hk
  obtain ⟨v, hv⟩ := Option.ne_none_iff_exists'.1 hk
  exact h.valid _ (dictGet_mem hv)

/-- `update` on an existing key: same layer, and the root CID changes iff the value does. -/
theorem Inv.update (h : Inv E rd Z L t n m) {fuel : Nat} (hf : Z + 2 ≤ fuel)
    (hinj : Function.Injective E.H) {k : Key} (hk : m k ≠ none) (v : C) :
    ∃ n' t', update E rd fuel n k v = .ok n' ∧ Inv E rd Z L t' n' (Function.update m k (some v)) ∧
      (cidOf E.H t' = cidOf E.H t ↔ m k = some v) := by
  have hb := h.bound
  have hv := h.validKey hk
  rcases update_spec (value := v) hv (f := fuel) h.repr h.wf h.sorted (by omega) with
    ⟨h1, _⟩ | ⟨n', t', h1, h2, h3, h4, h5, h6⟩
  · rw [h.map] at h1; exact absurd h1 hk
  · obtain ⟨_, g2⟩ := h4.dictGet h.sorted
    have hs' : Sorted t' := by
      have := h4.keys
      have hs := h.sorted
      unfold Sorted at hs ⊢
      rw [← List.pairwise_map (f := fun x : Key × C => x.1) (R := fun a b => a < b)] at hs ⊢
      rw [this]; exact hs
    have hmap : Arroba.dictGet (leaves t') = Function.update m k (some v) := by rw [g2, h.map]
    refine ⟨n', t', h1, ⟨h2, h3, hs', ?_, fun h => absurd h h5, hb, hmap⟩, ?_⟩
    · intro kv hkv
      have : kv.1 ∈ (leaves t').map (·.1) := List.mem_map_of_mem hkv
      rw [h4.keys] at this
      obtain ⟨x, hx, hxe⟩ := List.mem_map.1 this
      rw [← hxe]; exact h.valid x hx
    · constructor
      · intro hc
        rcases cid_inj h3 h.wf hc with he | he
        · rw [he, h.map] at hmap
          have := congrFun hmap k
          simpa using this
        · exact absurd hinj he.not_inj
      · intro hmk
        have : leaves t' = leaves t := sorted_ext hs' h.sorted (by
          rw [hmap, h.map, ← hmk, Function.update_eq_self])
        rw [WF_unique h3 h.wf this]

end

end Arroba

namespace Arroba.Store

variable {C R : Type} [DecidableEq C]

open Arroba.Tree

/-- Invariant of the write loop: the tree stands for the records `m`, whose blocks are stored or
about to be written. -/
structure LoopOK (L : Lib C R) (Z : Nat) (blocks : List (C × Block C R)) (seq : Nat) (did : Did)
    (st : LoopState C R) (m : Key → Option R) : Prop where
  inv : ∃ l t, Inv L.env (nodeIn blocks) Z l t st.mst (fun k => (m k).map L.rcid)
  new : ∀ cb ∈ st.blocks, ∃ r, cb = (L.rcid r, ⟨.record r, seq, none, did⟩)
  here : ∀ k r, m k = some r →
    (∃ b, dictGet blocks (L.rcid r) = some b ∧ b.val = .record r) ∨ L.rcid r ∈ st.blocks.map (·.1)

section
variable {L : Lib C R} {Z : Nat}

theorem Lib.OK.nodeInj (hL : L.OK Z) : Function.Injective L.env.H := fun a b h => by
  simpa using hL.inj h

theorem Lib.OK.rcidInj (hL : L.OK Z) : Function.Injective L.rcid := fun a b h => by
  simpa using hL.inj h

theorem atTree_ok {α : Type} {n : Node C} {x : Except Err α} {a : α} (h : x = .ok a) :
    atTree n x = .ok a := by subst h; rfl

theorem atTree_err {α : Type} {n : Node C} {x : Except Err α} {e : Err} (h : x = .error e) :
    atTree n x = .error (n, e) := by subst h; rfl

theorem checkedRecord_eq (w : Write R) : checkedRecord L w = specRecord L w := by
  unfold checkedRecord specRecord
  cases w.record with
  | none => rfl
  | some r =>
    simp only
    by_cases h1 : L.valid r = true
    · rw [ensure_true h1, ok_bind, if_neg (by simp [h1])]
      by_cases h2 : L.size r ≤ maxRecordSize
      · rw [ensure_true h2, ok_bind, if_neg (by simpa [maxRecordSize] using h2)]
      · rw [ensure_false h2, if_pos (by simpa [maxRecordSize] using h2)]; rfl
    · rw [ensure_false h1, if_pos (by simpa using h1)]; rfl

theorem specRecord_some {w : Write R} {r : R} (h : specRecord L w = .ok r) : w.record = some r := by
  unfold specRecord at h
  cases hw : w.record with
  | none => rw [hw] at h; cases h
  | some r' =>
    rw [hw] at h
    simp only at h
    split at h
    · cases h
    · split at h
      · cases h
      · cases h; rfl

theorem map_update {β γ : Type} (f : β → γ) (m : Key → Option β) (k : Key) (v : Option β) :
    (fun k' => (Function.update m k v k').map f) =
      Function.update (fun k' => (m k').map f) k (v.map f) := by
  funext k'
  by_cases h : k' = k
  · subst h; simp
  · simp [h]

variable {blocks : List (C × Block C R)} {seq : Nat} {did : Did}

theorem LoopOK.write (hL : L.OK Z) {st : LoopState C R} {m : Key → Option R}
    (h : LoopOK L Z blocks seq did st m) (w : Write R) :
    match specWrite L m w with
    | .error e => applyWrite L (nodeIn blocks) seq did st w = .error (st.mst, e)
    | .ok m' => ∃ st', applyWrite L (nodeIn blocks) seq did st w = .ok st' ∧
        LoopOK L Z blocks seq did st' m' ∧ st'.ops = st.ops ++ opOf L m w := by
  obtain ⟨l, t, hi⟩ := h.inv
  have hget := hi.get hL.fuel w.path
  unfold specWrite applyWrite
  cases ha : w.action with
  | create =>
    have hp : prevCidOf L (nodeIn blocks) st.mst w = .ok none := by simp [prevCidOf, ha]
    simp only [atTree_ok hp, ok_bind, checkedRecord_eq]
    cases hr : specRecord L w with
    | error e => simp [atTree]
    | ok r =>
      simp only [atTree_ok rfl, ok_bind]
      have hs := hi.step hL.zeros hL.fuel (.add w.path (L.rcid r))
      simp only [specStep, applyOp] at hs
      by_cases hk : validKey w.path = false
      · simp only [hk, if_true] at hs ⊢
        rw [show L.hash (.record r) = L.rcid r from rfl, atTree_err hs.1]; rfl
      · simp only [hk, if_false, Bool.false_eq_true] at hs ⊢
        by_cases hm : m w.path = none
        · simp only [hm, Option.map_none, ne_eq, not_true_eq_false, if_false] at hs ⊢
          obtain ⟨n', t', l', h1, h2, _⟩ := hs
          refine ⟨_, by rw [show L.hash (.record r) = L.rcid r from rfl, atTree_ok h1]; rfl, ?_, ?_⟩
          · refine ⟨⟨l', t', ?_⟩, ?_, ?_⟩
            · rw [map_update]
              exact h2.cachedStar hL.fuel (hL.touch _ _)
            · intro cb hcb
              rcases mem_dictSet hcb with rfl | hcb
              · exact ⟨r, rfl⟩
              · exact h.new cb hcb
            · intro k r' hk'
              by_cases hkk : k = w.path
              · subst hkk
                simp only [Function.update_self, Option.some.injEq] at hk'
                subst hk'
                exact .inr (keys_dictSet.2 (.inl rfl))
              · rw [Function.update_of_ne hkk] at hk'
                rcases h.here k r' hk' with h' | h'
                · exact .inl h'
                · exact .inr (keys_dictSet.2 (.inr h'))
          · simp [opOf, ha, specRecord_some hr, Lib.rcid]
        · have hm' : ¬ (m w.path).map L.rcid = none := by simpa using hm
          simp only [ne_eq, hm, hm', not_false_eq_true, if_true] at hs ⊢
          rw [show L.hash (.record r) = L.rcid r from rfl, atTree_err hs.1]; rfl
  | update =>
    by_cases hm : m w.path = none
    · have hp : prevCidOf L (nodeIn blocks) st.mst w = .error .value := by
        simp [prevCidOf, ha, hget, hm]
      simp only [hm, if_true, atTree_err hp]; rfl
    · obtain ⟨r₀, hr₀⟩ := Option.ne_none_iff_exists'.1 hm
      have hp : prevCidOf L (nodeIn blocks) st.mst w = .ok (some (L.rcid r₀)) := by
        simp [prevCidOf, ha, hget, hr₀]
      simp only [hm, if_false, atTree_ok hp, ok_bind, checkedRecord_eq]
      cases hr : specRecord L w with
      | error e => simp [atTree]
      | ok r =>
        simp only [atTree_ok rfl, ok_bind]
        obtain ⟨n', t', h1, h2, h3⟩ := hi.update hL.fuel hL.nodeInj (k := w.path)
          (by simpa using hm) (L.rcid r)
        rw [show L.hash (.record r) = L.rcid r from rfl, atTree_ok (hi.pointer hL.fuel), ok_bind,
          atTree_ok h1, ok_bind, atTree_ok (h2.pointer hL.fuel), ok_bind]
        refine ⟨_, rfl, ⟨⟨l, t', ?_⟩, ?_, ?_⟩, ?_⟩
        · rw [map_update]
          exact h2.cachedStar hL.fuel (hL.touch _ _)
        · intro cb hcb
          rcases mem_dictSet hcb with rfl | hcb
          · exact ⟨r, rfl⟩
          · exact h.new cb hcb
        · intro k r' hk'
          by_cases hkk : k = w.path
          · subst hkk
            simp only [Function.update_self, Option.some.injEq] at hk'
            subst hk'
            exact .inr (keys_dictSet.2 (.inl rfl))
          · rw [Function.update_of_ne hkk] at hk'
            rcases h.here k r' hk' with h' | h'
            · exact .inl h'
            · exact .inr (keys_dictSet.2 (.inr h'))
        · simp only [opOf, ha, specRecord_some hr, hr₀, Option.map_some, h3]
          split <;> simp
  | delete =>
    by_cases hm : m w.path = none
    · have hp : prevCidOf L (nodeIn blocks) st.mst w = .error .value := by
        simp [prevCidOf, ha, hget, hm]
      simp only [hm, if_true, atTree_err hp]; rfl
    · obtain ⟨r₀, hr₀⟩ := Option.ne_none_iff_exists'.1 hm
      have hp : prevCidOf L (nodeIn blocks) st.mst w = .ok (some (L.rcid r₀)) := by
        simp [prevCidOf, ha, hget, hr₀]
      have hs := hi.step hL.zeros hL.fuel (.delete w.path)
      simp only [specStep, applyOp, hr₀, Option.map_some, reduceCtorEq, if_false] at hs
      obtain ⟨n', t', l', h1, h2, _⟩ := hs
      simp only [hm, if_false, atTree_ok hp, ok_bind, atTree_ok h1]
      refine ⟨_, rfl, ⟨⟨l', t', ?_⟩, h.new, ?_⟩, ?_⟩
      · rw [map_update]
        exact h2.cachedStar hL.fuel (hL.touch _ _)
      · intro k r' hk'
        by_cases hkk : k = w.path
        · subst hkk; simp at hk'
        · rw [Function.update_of_ne hkk] at hk'
          exact h.here k r' hk'
      · simp [opOf, ha, hr₀]

theorem LoopOK.writes (hL : L.OK Z) : ∀ {ws : List (Write R)} {st : LoopState C R}
    {m : Key → Option R}, LoopOK L Z blocks seq did st m →
    match specWrites L m ws with
    | .error e => ∃ n, applyWrites L (nodeIn blocks) seq did st ws = .error (n, e) ∧
        (ws.length ≤ 1 → n = st.mst)
    | .ok m' => ∃ st', applyWrites L (nodeIn blocks) seq did st ws = .ok st' ∧
        LoopOK L Z blocks seq did st' m' ∧ st'.ops = st.ops ++ opsOf L m ws
  | [], st, m, h => ⟨st, rfl, h, by simp [opsOf]⟩
  | w :: ws, st, m, h => by
    have h1 := h.write hL w
    unfold specWrites applyWrites opsOf
    cases hw : specWrite L m w with
    | error e =>
      rw [hw] at h1
      simp only at h1 ⊢
      exact ⟨st.mst, by rw [h1]; rfl, fun _ => rfl⟩
    | ok m' =>
      rw [hw] at h1
      obtain ⟨st', h2, h3, h4⟩ := h1
      have ih := LoopOK.writes hL (ws := ws) h3
      simp only [h2, ok_bind]
      cases hws : specWrites L m' ws with
      | error e =>
        rw [hws] at ih
        obtain ⟨n, h5, _⟩ := ih
        refine ⟨n, h5, fun hl => ?_⟩
        cases ws with
        | nil => cases hws
        | cons _ _ => simp at hl
      | ok m'' =>
        rw [hws] at ih
        obtain ⟨st'', h5, h6, h7⟩ := ih
        exact ⟨st'', h5, h6, by rw [h7, h4, List.append_assoc]⟩

end

end Arroba.Store
