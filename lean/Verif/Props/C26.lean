import Verif.Storage.GrowProofs
import Verif.Props.C23
import Verif.Props.C25

/-! # C26: referential integrity of storage -/

namespace Arroba.Store

variable {C R : Type} [DecidableEq C]

open Arroba.Tree

/-- The block stored under `c` links to `c'`: a commit to its tree and its predecessor, a node to its
child nodes and its records. The predecessor of an imported commit (they have the sequence number 0) does not
count: it need not be in the CAR file. -/
inductive Links (w : World C R) (c : C) : C → Prop
  | data {b : Block C R} {co : Commit C} (h : w.read c = some b) (hv : b.val = .commit co) :
      Links w c co.data
  | prev {b : Block C R} {co : Commit C} {p : C} (h : w.read c = some b) (hv : b.val = .commit co)
      (hs : b.seq ≠ 0) (hp : co.prev = some p) : Links w c p
  | left {b : Block C R} {d : NodeData C} {c' : C} (h : w.read c = some b) (hv : b.val = .node d)
      (hc : d.l = some c') : Links w c c'
  | tree {b : Block C R} {d : NodeData C} {e : EntryData C} {c' : C} (h : w.read c = some b)
      (hv : b.val = .node d) (he : e ∈ d.e) (hc : e.t = some c') : Links w c c'
  | record {b : Block C R} {d : NodeData C} {e : EntryData C} (h : w.read c = some b)
      (hv : b.val = .node d) (he : e ∈ d.e) : Links w c e.v

section
variable {L : Lib C R} {Z : Nat} {be : Backend} {al : Allow} {w : World C R}

/-- **C26 (immutable).** No API call, successful or not, ever removes or changes a stored block:
its content, sequence number, operations and repo stay as they are. -/
theorem C26_immutable {w' : World C R} (hs : Step L be al w w') {c : C} {b : Block C R}
    (h : w.read c = some b) : w'.read c = some b := hs.puts.grows c b h

/-- **C26 (addressed).** In every reachable state every block is stored under the CID of its
content. -/
theorem C26_addressed (hr : Reach L be al w) {c : C} {b : Block C R} (h : w.read c = some b) :
    L.hash b.val = c := hr.addressed c b h

/-- What C26 says about one CID that is linked to. -/
def Sound (L : Lib C R) (Z : Nat) (w : World C R) (c : C) : Prop :=
  (∃ b co, w.read c = some b ∧ b.val = .commit co) ∨
  (∃ t m s, TreeOK L Z w.blocks t m ∧ Stored L.env w.rd t ∧ s ∈ nodes t ∧ cidOf L.env.H s = c) ∨
  (∃ b r, w.read c = some b ∧ b.val = .record r)

theorem Sound.stored {c : C} (h : Sound L Z w c) : ∃ b, w.read c = some b := by
  rcases h with ⟨b, _, h, _⟩ | ⟨t, m, s, _, h, hs, rfl⟩ | ⟨b, _, h, _⟩
  · exact ⟨b, h⟩
  · have := h s hs
    simp only [World.rd, nodeIn] at this
    cases hg : dictGet w.blocks (cidOf L.env.H s) with
    | none => rw [hg] at this; cases this
    | some b => exact ⟨b, hg⟩
  · exact ⟨b, h⟩

/-- The node block of a stored tree. -/
theorem Sound.node {t s : Tree C} (hs : Stored L.env w.rd t) (h : s ∈ nodes t) {b : Block C R}
    (hb : w.read (cidOf L.env.H s) = some b) : b.val = .node (nodeOf L.env.H s) := by
  have := hs s h
  simp only [World.rd, nodeIn] at this
  rw [World.read] at hb
  rw [hb] at this
  obtain ⟨v, q, p, d⟩ := b
  cases v with
  | node x => simp only [Option.some.injEq] at this; rw [this]
  | _ => cases this

theorem Sound.step (hL : L.OK Z) {seq : Nat} (hw : Core L Z seq w) {c c' : C}
    (h : Sound L Z w c) (hl : Links w c c') : Sound L Z w c' := by
  have hnode : ∀ {b d}, w.read c = some b → b.val = .node d → ∃ t m s, TreeOK L Z w.blocks t m ∧
      Stored L.env w.rd t ∧ s ∈ nodes t ∧ d = nodeOf L.env.H s := by
    intro b d hb hv
    rcases h with ⟨b', co, h1, h2⟩ | ⟨t, m, s, h1, h2, h3, rfl⟩ | ⟨b', r, h1, h2⟩
    · rw [hb] at h1; cases h1; rw [hv] at h2; cases h2
    · have := Sound.node h2 h3 hb
      rw [hv] at this
      cases this
      exact ⟨t, m, s, h1, h2, h3, rfl⟩
    · rw [hb] at h1; cases h1; rw [hv] at h2; cases h2
  have hchild : ∀ {b d c'}, w.read c = some b → b.val = .node d → c' ∈ d.children →
      Sound L Z w c' := by
    intro b d c' hb hv hc
    obtain ⟨t, m, s, h1, h2, h3, rfl⟩ := hnode hb hv
    obtain ⟨u, hu, rfl⟩ := children_subs hc
    exact .inr (.inl ⟨t, m, u, h1, h2, nodes_trans h3 (by simp [nodes, subs_kids hu]), rfl⟩)
  cases hl with
  | data hb hv =>
    obtain ⟨m, t, h1, h2, h3⟩ := hw.blocks.root hb hv
    exact .inr (.inl ⟨t, m, t, h1, h2, by simp [nodes], h3⟩)
  | prev hb hv hs hp =>
    obtain ⟨b', co', h1, h2, _⟩ := (hw.blocks.own hb hv (Nat.one_le_iff_ne_zero.2 hs)).prev _ hp
    exact .inl ⟨b', co', h1, h2⟩
  | left hb hv hc => exact hchild hb hv (by simp [NodeData.children, hc])
  | tree hb hv he hc =>
    refine hchild hb hv ?_
    simp only [NodeData.children, List.mem_append, List.mem_filterMap]
    exact .inr ⟨_, he, hc⟩
  | record hb hv he =>
    obtain ⟨t, m, s, h1, h2, h3, rfl⟩ := hnode hb hv
    obtain ⟨k, hk⟩ := ser_vals he
    have hk' := leaves_of_node h3 _ hk
    have := (mem_leaves_iff h1.sorted _ _).1 hk'
    rw [h1.map] at this
    simp only at this
    cases hm : m k with
    | none => rw [hm] at this; cases this
    | some r =>
      rw [hm] at this
      simp only [Option.map_some, Option.some.injEq] at this
      obtain ⟨b', g1, g2⟩ := h1.recs k r hm
      refine .inr (.inr ⟨b', r, ?_, g2⟩)
      rw [← this]; exact g1

/-- **C26 (closed).** In every reachable state, whatever is reached by following links from any
stored commit (so in particular from the head of any repo) is stored.

Partial: excludes `MemoryStorage` histories with a torn commit; see `C26_memory_false`. -/
theorem C26_closed_partial (hL : L.OK Z) (ht : ¬ al.torn) (hr : Reach L be al w) {c : C}
    {b : Block C R} {co : Commit C} (hb : w.read c = some b) (hv : b.val = .commit co) {c' : C}
    (hl : Relation.ReflTransGen (Links w) c c') :
    ∃ b', w.read c' = some b' ∧ L.hash b'.val = c' := by
  obtain ⟨hw, _⟩ := hr.inv hL ht
  have : Sound L Z w c' := by
    induction hl with
    | refl => exact .inl ⟨b, co, hb, hv⟩
    | tail _ h ih => exact ih.step hL hw.core h
  obtain ⟨b', h⟩ := this.stored
  exact ⟨b', h, hr.addressed c' b' h⟩

/-- **C26 (heads).** The head of every stored repo is a stored commit, so everything linked from it
is stored. -/
theorem C26_heads_partial (hL : L.OK Z) (ht : ¬ al.torn) (hr : Reach L be al w) {d : Did}
    (hd : isDid d) {c : C} (hh : readHead L be w d = some c) {c' : C}
    (hl : Relation.ReflTransGen (Links w) c c') :
    ∃ b', w.read c' = some b' ∧ L.hash b'.val = c' := by
  obtain ⟨b, co, h1, h2, _⟩ := C25_head hL hr hd hh
  exact C26_closed_partial hL ht hr h1 h2 hl

/-- **C26 (Datastore).** With `DatastoreStorage`, in every reachable state, whatever failed before. -/
theorem C26_closed_datastore (hL : L.OK Z) (hr : Reach L .datastore al w) :
    (∀ c b co, w.read c = some b → b.val = .commit co → ∀ c', Relation.ReflTransGen (Links w) c c' →
      ∃ b', w.read c' = some b' ∧ L.hash b'.val = c') ∧
    (∀ d, isDid d → ∀ c, readHead L .datastore w d = some c → ∀ c',
      Relation.ReflTransGen (Links w) c c' → ∃ b', w.read c' = some b' ∧ L.hash b'.val = c') :=
  ⟨fun _ _ _ h h' _ hl => C26_closed_partial hL (fun h => h) hr.datastore h h' hl,
    fun _ hd _ h _ hl => C26_heads_partial hL (fun h => h) hr.datastore hd h hl⟩

end

/-! ### Examples -/

/-- The links of a block. -/
def exLinks (w : ExWorld) (c : SC) : List SC :=
  match w.read c with
  | some ⟨.commit co, seq, _, _⟩ => co.data :: if seq = 0 then [] else co.prev.toList
  | some ⟨.node d, _, _, _⟩ => d.l.toList ++ d.e.filterMap (·.t) ++ d.e.map (·.v)
  | _ => []

/-- Everything within `n` links. -/
def exFollow (w : ExWorld) : Nat → SC → List SC
  | 0, c => [c]
  | n + 1, c => c :: (exLinks w c).flatMap (exFollow w n)

theorem exLinks_sound {w : ExWorld} {c c' : SC} (h : c' ∈ exLinks w c) : Links w c c' := by
  unfold exLinks at h
  split at h
  · rename_i co _ _ _ hr
    rcases List.mem_cons.1 h with rfl | h
    · exact .data hr rfl
    · split at h
      · cases h
      · rename_i hs
        exact .prev hr rfl hs (Option.mem_toList.1 h)
  · rename_i d _ _ _ hr
    simp only [List.mem_append, Option.mem_toList, List.mem_filterMap, List.mem_map] at h
    rcases h with (h | ⟨e, he, h⟩) | ⟨e, he, rfl⟩
    · exact .left hr rfl h
    · exact .tree hr rfl he h
    · exact .record hr rfl he
  · cases h

theorem exFollow_sound {w : ExWorld} : ∀ {n : Nat} {c c' : SC}, c' ∈ exFollow w n c →
    Relation.ReflTransGen (Links w) c c'
  | 0, c, c', h => by simp only [exFollow, List.mem_singleton] at h; rw [h]
  | n + 1, c, c', h => by
    simp only [exFollow, List.mem_cons, List.mem_flatMap] at h
    rcases h with rfl | ⟨x, h1, h2⟩
    · exact .refl
    · exact .head (exLinks_sound h1) (exFollow_sound h2)

/-- From the head of the example repo twelve blocks are reached. -/
example (be : Backend) : (readHead exL be (exW2 be) exDid).map (fun c =>
    ((exFollow (exW2 be) 8 c).length, (exFollow (exW2 be) 8 c).all (fun x => ((exW2 be).read x).isSome)))
    = some (12, true) := by
  cases be <;> decide +kernel

/-- **C26 is false for `MemoryStorage`** after a failed commit of two writes: the later, successful
commit links to a record whose block was never stored. -/
theorem C26_memory_false : Reach exL .memory .all exAfterTorn ∧
    ∃ c c', readHead exL .memory exAfterTorn exDid = some c ∧
      Relation.ReflTransGen (Links exAfterTorn) c c' ∧ exAfterTorn.read c' = none := by
  refine ⟨C23_memory_false.1, ?_⟩
  have h : (readHead exL .memory exAfterTorn exDid).map (fun c =>
      (exFollow exAfterTorn 5 c).any (fun x => (exAfterTorn.read x).isNone)) = some true := by
    decide +kernel
  cases hh : readHead exL .memory exAfterTorn exDid with
  | none => rw [hh] at h; cases h
  | some c =>
    rw [hh] at h
    simp only [Option.map_some, Option.some.injEq, List.any_eq_true, Option.isNone_iff_eq_none] at h
    obtain ⟨x, h1, h2⟩ := h
    exact ⟨c, x, rfl, exFollow_sound h1, h2⟩

end Arroba.Store
