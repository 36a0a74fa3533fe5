import Verif.Mst.HeapProofs
import Mathlib.Data.List.Forall2

/-! Helper lemmas for C81: the methods on objects do what the methods of `Mst/Model.lean` do on values. -/

namespace Arroba

variable {C : Type}

open Arroba.Tree

section
variable (E : Env C) (rd : C → Option (NodeData C))

/-! ### Values and objects that stand for the same tree -/

/-- Admissible caches of a loaded node. -/
def PHdr (L : Nat) (t : Tree C) (n : Node C) : Prop :=
  (n.outdated = false → n.pointer = cidOf E.H t ∧ WF E.zeros L t ∧ ValidKeys t) ∧ ∀ l, n.layer = some l → l = (L : Int)

/-- The entries stand for `t`, and everything is loaded. -/
def PEs : Nat → Tree C → List (Ent C) → Prop
  | _, nil, es => es = []
  | L, leaf k v r, es => E.zeros k = L ∧ ∃ es', es = .leaf k v :: es' ∧ PEs L r es'
  | L, sub c r, es => ∃ M n es', L = M + 1 ∧ c ≠ nil ∧ es = .tree n :: es' ∧
      (PHdr E M c n ∧ ∃ es₂, n.entries = some es₂ ∧ PEs M c es₂) ∧ PEs L r es'

/-- The node stands for `t`, and everything is loaded. -/
def PN (L : Nat) (t : Tree C) (n : Node C) : Prop := PHdr E L t n ∧ ∃ es, n.entries = some es ∧ PEs E L t es

/-- A node and an object that stand for the same tree. -/
def NR (g : Ghost C) (L : Nat) (n : Node C) (i : Nat) : Prop := ∃ t, PN E L t n ∧ g[i]? = some (L, t)

/-- And the tree is not empty. -/
def NR1 (g : Ghost C) (L : Nat) (n : Node C) (i : Nat) : Prop := ∃ t, t ≠ nil ∧ PN E L t n ∧ g[i]? = some (L, t)

/-- Entries that stand for the same. -/
def ER (g : Ghost C) (L : Nat) : Ent C → HEnt C → Prop
  | .leaf k v, .leaf k' v' => k = k' ∧ v = v' ∧ E.zeros k = L
  | .tree n, .tree i => ∃ M, L = M + 1 ∧ NR1 E g M n i
  | _, _ => False

/-- Options that stand for the same. -/
def OR {α β : Type} (r : α → β → Prop) : Option α → Option β → Prop
  | some a, some b => r a b
  | none, none => True
  | _, _ => False

/-- If the method on values returns, then the method on objects returns something that stands for the same, and all
objects stand for what they stood for. If `b`, it is so for exceptions too. -/
def Sim {α β : Type} (b : Prop) (h : Heap C) (g : Ghost C) (p : Except Err α) (q : HM C β)
    (P : Heap C → Ghost C → α → β → Prop) : Prop :=
  (∀ a, p = .ok a → ∃ y h' g', q h = (.ok y, h') ∧ HInv E rd h' g' ∧ Ext h g h' g' ∧ P h' g' a y) ∧
  (b → ∀ e, p = .error e → e = .value ∨ e = .key → ∃ h' g', q h = (.error e, h') ∧ HInv E rd h' g' ∧ Ext h g h' g')

end

section
variable {E : Env C} {rd : C → Option (NodeData C)}

theorem NR1.nr {g : Ghost C} {L : Nat} {n : Node C} {i : Nat} (h : NR1 E g L n i) : NR E g L n i :=
  let ⟨t, _, h1, h2⟩ := h
  ⟨t, h1, h2⟩

theorem NR.mono {h h' : Heap C} {g g' : Ghost C} (hx : Ext h g h' g') {L : Nat} {n : Node C} {i : Nat}
    (hn : NR E g L n i) : NR E g' L n i :=
  let ⟨t, h1, h2⟩ := hn
  ⟨t, h1, hx.get h2⟩

theorem NR1.mono {h h' : Heap C} {g g' : Ghost C} (hx : Ext h g h' g') {L : Nat} {n : Node C} {i : Nat}
    (hn : NR1 E g L n i) : NR1 E g' L n i :=
  let ⟨t, h0, h1, h2⟩ := hn
  ⟨t, h0, h1, hx.get h2⟩

theorem ER.mono {h h' : Heap C} {g g' : Ghost C} (hx : Ext h g h' g') {L : Nat} : ∀ {e : Ent C} {e' : HEnt C},
    ER E g L e e' → ER E g' L e e'
  | .leaf _ _, .leaf _ _, he => he
  | .tree _, .tree _, ⟨M, h1, h2⟩ => ⟨M, h1, h2.mono hx⟩
  | .leaf _ _, .tree _, he => he.elim
  | .tree _, .leaf _ _, he => he.elim

theorem ER.mkTree {g : Ghost C} {L M : Nat} {n : Node C} {i : Nat} (hM : L = M + 1) (hn : NR1 E g M n i) :
    ER E g L (.tree n) (.tree i) := ⟨M, hM, hn⟩

theorem ER.mkLeaf {g : Ghost C} {L : Nat} {k : Key} {v : C} (hz : E.zeros k = L) :
    ER E g L (.leaf k v) (.leaf k v) := ⟨rfl, rfl, hz⟩

theorem ers_mono {h h' : Heap C} {g g' : Ghost C} (hx : Ext h g h' g') {L : Nat} {es : List (Ent C)}
    {es' : List (HEnt C)} (he : List.Forall₂ (ER E g L) es es') : List.Forall₂ (ER E g' L) es es' :=
  he.imp fun _ _ h => h.mono hx

theorem OR.imp {α β : Type} {r r' : α → β → Prop} (hr : ∀ a b, r a b → r' a b) : ∀ {x : Option α} {y : Option β},
    OR r x y → OR r' x y
  | some _, some _, h => hr _ _ h
  | none, none, h => h
  | some _, none, h => h.elim
  | none, some _, h => h.elim

theorem ers_of {g : Ghost C} {L : Nat} : ∀ {t : Tree C} {es : List (Ent C)} {hs : List (HEnt C)}, PEs E L t es →
    HEs E g L t hs → List.Forall₂ (ER E g L) es hs
  | nil, _, _, h1, h2 => by cases h1; cases h2; exact .nil
  | leaf k v r, _, _, ⟨h0, es', h1, h2⟩, ⟨_, hs', h3, h4⟩ => by
    subst h1; subst h3
    exact .cons ⟨rfl, rfl, h0⟩ (ers_of h2 h4)
  | sub c r, _, _, ⟨M, n, es', h0, h1, h2, h3, h4⟩, ⟨M', i, hs', k0, _, k2, k3, k4⟩ => by
    subst h2; subst k2
    obtain rfl : M = M' := by omega
    exact .cons ⟨M, h0, c, h1, h3, k3⟩ (ers_of h4 k4)

theorem ers_tree {g : Ghost C} {L : Nat} {es : List (Ent C)} {hs : List (HEnt C)}
    (h : List.Forall₂ (ER E g L) es hs) : ∃ t, PEs E L t es ∧ HEs E g L t hs ∧ (es ≠ [] → t ≠ nil) := by
  induction h with
  | nil => exact ⟨nil, rfl, rfl, fun h => absurd rfl h⟩
  | @cons e e' es hs h1 _ ih =>
    obtain ⟨t, k1, k2, _⟩ := ih
    match e, e', h1 with
    | .leaf k v, .leaf _ _, h1 =>
      obtain ⟨rfl, rfl, hz⟩ := h1
      exact ⟨leaf k v t, ⟨hz, es, rfl, k1⟩, ⟨hz, hs, rfl, k2⟩, fun _ h => (nomatch h)⟩
    | .tree n, .tree i, h1 =>
      obtain ⟨M, rfl, c, hc, hn, hi⟩ := h1
      exact ⟨sub c t, ⟨M, n, es, rfl, hc, rfl, hn, k1⟩, ⟨M, i, hs, rfl, hc, rfl, hi, k2⟩, fun _ h => (nomatch h)⟩

theorem ers_len {g : Ghost C} {L : Nat} {es : List (Ent C)} {hs : List (HEnt C)}
    (h : List.Forall₂ (ER E g L) es hs) : es.length = hs.length := h.length_eq

theorem ers_slice {g : Ghost C} {L : Nat} {es : List (Ent C)} {hs : List (HEnt C)}
    (h : List.Forall₂ (ER E g L) es hs) (a : Int) (b : Option Int) :
    List.Forall₂ (ER E g L) (pySlice es a b) (pySlice hs a b) := by
  unfold pySlice
  rw [h.length_eq]
  exact List.forall₂_drop _ (List.forall₂_take _ h)

theorem ers_find {g : Ghost C} {L : Nat} {key : Key} {es : List (Ent C)} {hs : List (HEnt C)}
    (h : List.Forall₂ (ER E g L) es hs) : findGeIdx key es = hFindGeIdx key hs := by
  induction h with
  | nil => rfl
  | @cons e e' es hs h1 _ ih =>
    match e, e', h1 with
    | .leaf k v, .leaf _ _, h1 =>
      obtain ⟨rfl, rfl, _⟩ := h1
      simp only [findGeIdx, hFindGeIdx, ih]
    | .tree n, .tree i, _ => simp only [findGeIdx, hFindGeIdx, ih]

theorem ers_get {g : Ghost C} {L : Nat} {es : List (Ent C)} {hs : List (HEnt C)}
    (h : List.Forall₂ (ER E g L) es hs) : ∀ (x : Nat), OR (ER E g L) es[x]? hs[x]? := by
  induction h with
  | nil => intro x; trivial
  | cons h1 _ ih =>
    intro x
    cases x with
    | zero => exact h1
    | succ x => exact ih x

theorem ers_last {g : Ghost C} {L : Nat} {es : List (Ent C)} {hs : List (HEnt C)}
    (h : List.Forall₂ (ER E g L) es hs) : OR (ER E g L) es.getLast? hs.getLast? := by
  rw [List.getLast?_eq_getElem?, List.getLast?_eq_getElem?, h.length_eq]
  exact ers_get h _

theorem ers_head {g : Ghost C} {L : Nat} {es : List (Ent C)} {hs : List (HEnt C)}
    (h : List.Forall₂ (ER E g L) es hs) : OR (ER E g L) es.head? hs.head? := by
  cases h with
  | nil => trivial
  | cons h1 _ => exact h1

theorem ers_empty {g : Ghost C} {L : Nat} {es : List (Ent C)} {hs : List (HEnt C)}
    (h : List.Forall₂ (ER E g L) es hs) : es.isEmpty = hs.isEmpty := by
  cases h <;> rfl

theorem or_leafHit {g : Ghost C} {L : Nat} {key : Key} : ∀ {x : Option (Ent C)} {y : Option (HEnt C)},
    OR (ER E g L) x y → leafHit key x = hLeafHit key y
  | some (.leaf _ _), some (.leaf _ _), ⟨h1, h2, _⟩ => by subst h1; subst h2; rfl
  | some (.tree _), some (.tree _), _ => rfl
  | none, none, _ => rfl
  | some _, none, h => h.elim
  | none, some _, h => h.elim
  | some (.leaf _ _), some (.tree _), h => h.elim
  | some (.tree _), some (.leaf _ _), h => h.elim

theorem or_asTree {g : Ghost C} {L : Nat} : ∀ {x : Option (Ent C)} {y : Option (HEnt C)},
    OR (ER E g L) x y → OR (fun n i => ∃ M, L = M + 1 ∧ NR1 E g M n i) (asTree x) (hAsTree y)
  | some (.leaf _ _), some (.leaf _ _), _ => trivial
  | some (.tree _), some (.tree _), h => h
  | none, none, _ => trivial
  | some _, none, h => h.elim
  | none, some _, h => h.elim
  | some (.leaf _ _), some (.tree _), h => h.elim
  | some (.tree _), some (.leaf _ _), h => h.elim

/-! ### Rules -/

theorem Sim.pure {α β : Type} {b : Prop} {h : Heap C} {g : Ghost C} {P : Heap C → Ghost C → α → β → Prop} {a : α} {y : β}
    (hi : HInv E rd h g) (hp : P h g a y) : Sim E rd b h g (.ok a) (Pure.pure y) P :=
  ⟨fun a' ha => by cases ha; exact ⟨y, h, g, rfl, hi, .refl _ _, hp⟩, fun _ e he => (nomatch he)⟩

theorem Sim.raise {α β : Type} {b : Prop} {h : Heap C} {g : Ghost C} {P : Heap C → Ghost C → α → β → Prop} {e : Err}
    (hi : HInv E rd h g) : Sim E rd b h g (.error e) (hRaise e) P :=
  ⟨fun a' ha => (nomatch ha), fun _ e' he _ => by cases he; exact ⟨h, g, rfl, hi, .refl _ _⟩⟩

theorem Sim.imp {α β : Type} {b b' : Prop} {h : Heap C} {g : Ghost C} {p : Except Err α} {q : HM C β}
    {P Q : Heap C → Ghost C → α → β → Prop} (hs : Sim E rd b h g p q P) (hb : b' → b)
    (hpq : ∀ h' g' a y, P h' g' a y → Q h' g' a y) : Sim E rd b' h g p q Q :=
  ⟨fun a ha => let ⟨y, h', g', k1, k2, k3, k4⟩ := hs.1 a ha; ⟨y, h', g', k1, k2, k3, hpq _ _ _ _ k4⟩,
    fun hb' => hs.2 (hb hb')⟩

theorem Sim.bind {α β α' β' : Type} {b : Prop} {h : Heap C} {g : Ghost C} {p : Except Err α} {q : HM C β}
    {P : Heap C → Ghost C → α → β → Prop} {f : α → Except Err α'} {k : β → HM C β'}
    {Q : Heap C → Ghost C → α' → β' → Prop} (hs : Sim E rd b h g p q P)
    (hk : ∀ a y h' g', HInv E rd h' g' → Ext h g h' g' → P h' g' a y → Sim E rd b h' g' (f a) (k y) Q) :
    Sim E rd b h g (p >>= f) (q >>= k) Q := by
  refine ⟨fun a' ha => ?_, fun hb e he hek => ?_⟩
  · obtain ⟨a, h1, h2⟩ := Arroba.bind_ok ha
    obtain ⟨y, h', g', k1, k2, k3, k4⟩ := hs.1 a h1
    obtain ⟨y', h'', g'', m1, m2, m3, m4⟩ := (hk a y h' g' k2 k3 k4).1 a' h2
    exact ⟨y', h'', g'', by rw [HM.bind_ok k1, m1], m2, k3.trans m3, m4⟩
  · cases hp : p with
    | error e' =>
      rw [hp] at he
      cases he
      obtain ⟨h', g', k1, k2, k3⟩ := hs.2 hb e hp hek
      exact ⟨h', g', HM.bind_error k1, k2, k3⟩
    | ok a =>
      rw [hp] at he
      obtain ⟨y, h', g', k1, k2, k3, k4⟩ := hs.1 a hp
      obtain ⟨h'', g'', m1, m2, m3⟩ := (hk a y h' g' k2 k3 k4).2 hb e he hek
      exact ⟨h'', g'', by rw [HM.bind_ok k1, m1], m2, k3.trans m3⟩

/-! ### Reading -/

theorem sim_getEntries {b : Prop} {h : Heap C} {g : Ghost C} (hi : HInv E rd h g) {L : Nat} {n : Node C} {i : Nat}
    (hn : NR E g L n i) : Sim E rd b h g (getEntries E rd n) (hGetEntries E rd i)
      (fun _ g' es hs => List.Forall₂ (ER E g' L) es hs) := by
  obtain ⟨t, ⟨_, es, he, hes⟩, hg⟩ := hn
  obtain ⟨hs, h', g', k1, k2, k3, k4⟩ := hGetEntries_spec hi hg
  have hp : getEntries E rd n = .ok es := by unfold getEntries; rw [he]
  refine ⟨fun a ha => ?_, fun _ e h' => by rw [hp] at h'; cases h'⟩
  rw [hp] at ha
  cases ha
  exact ⟨hs, h', g', k1, k2, k3, ers_of hes k4⟩

theorem sim_find {b : Prop} {h : Heap C} {g : Ghost C} (hi : HInv E rd h g) {L : Nat} {n : Node C} {i : Nat}
    (hn : NR E g L n i) (key : Key) : Sim E rd b h g (findGtOrEqualLeafIndex E rd n key)
      (hFindGtOrEqualLeafIndex E rd i key) (fun _ _ a y => a = y) :=
  (sim_getEntries hi hn).bind fun _ _ _ _ hi' _ he => .pure hi' (by rw [ers_find he])

theorem sim_atIndex {b : Prop} {h : Heap C} {g : Ghost C} (hi : HInv E rd h g) {L : Nat} {n : Node C} {i : Nat}
    (hn : NR E g L n i) (x : Int) : Sim E rd b h g (atIndex E rd n x) (hAtIndex E rd i x)
      (fun _ g' a y => OR (ER E g' L) a y) := by
  refine (sim_getEntries hi hn).bind fun es hs h' g' hi' _ he => ?_
  rw [← ers_len he]
  split
  · exact .pure hi' (ers_get he _)
  · exact .pure hi' trivial

theorem sim_slice {b : Prop} {h : Heap C} {g : Ghost C} (hi : HInv E rd h g) {L : Nat} {n : Node C} {i : Nat}
    (hn : NR E g L n i) (x : Int) (z : Option Int) : Sim E rd b h g (slice E rd n x z) (hSlice E rd i x z)
      (fun _ g' a y => List.Forall₂ (ER E g' L) a y) :=
  (sim_getEntries hi hn).bind fun _ _ _ _ hi' _ he => .pure hi' (ers_slice he x z)

/-! ### New nodes -/

/-- The result of a method that makes a node from entries. -/
def Made (E : Env C) (L : Nat) (ne : Prop) (_ : Heap C) (g : Ghost C) (n : Node C) (i : Nat) : Prop :=
  NR E g L n i ∧ (ne → NR1 E g L n i)

theorem sim_newTree {b : Prop} {h : Heap C} {g : Ghost C} (hi : HInv E rd h g) {L : Nat} {n : Node C} {i : Nat}
    (hn : NR E g L n i) {es : List (Ent C)} {hs : List (HEnt C)} (he : List.Forall₂ (ER E g L) es hs) :
    Sim E rd b h g (.ok (newTree n es)) (hNewTree i hs) (Made E L (es ≠ [])) := by
  refine ⟨fun a ha => ?_, fun _ e h' => (nomatch h')⟩
  cases ha
  obtain ⟨t, ⟨⟨_, hl⟩, _⟩, hg⟩ := hn
  obtain ⟨t', h1, h2, h3⟩ := ers_tree he
  obtain ⟨o, ho, hob⟩ := hi.get hg
  obtain ⟨k1, k2⟩ := hi.alloc (L := L) (t := t') (o := ⟨some hs, o.pointer, o.layer, true⟩)
    ⟨fun h => (nomatch h), fun es' he' => by cases he'; exact h2, fun h => (nomatch h), hob.layer⟩
  have hp : PN E L t' (newTree n es) := ⟨⟨fun h => (nomatch h), hl⟩, es, rfl, h1⟩
  refine ⟨h.length, _, _, ?_, k1, .of_prefix (List.prefix_append _ _) (List.prefix_append _ _), ⟨t', hp, k2⟩,
    fun hne => ⟨t', h3 hne, hp, k2⟩⟩
  unfold hNewTree
  rw [HM.bind_ok (hObj_eq ho)]
  rfl

theorem sim_updateEntry {b : Prop} {h : Heap C} {g : Ghost C} (hi : HInv E rd h g) {L : Nat} {n : Node C} {i : Nat}
    (hn : NR E g L n i) (x : Int) {e : Ent C} {e' : HEnt C} (he : ER E g L e e') :
    Sim E rd b h g (updateEntry E rd n x e) (hUpdateEntry E rd i x e') (Made E L True) :=
  (sim_slice hi hn _ _).bind fun _ _ _ _ hi₁ x₁ a₁ => (sim_slice hi₁ (hn.mono x₁) _ _).bind fun _ _ _ _ hi₂ x₂ a₂ =>
    (sim_newTree hi₂ ((hn.mono x₁).mono x₂) (List.rel_append
      (List.rel_append (ers_mono x₂ a₁) (.cons ((he.mono x₁).mono x₂) .nil)) a₂)).imp id
        fun _ _ _ _ h => ⟨h.1, fun _ => h.2 (by simp)⟩

theorem sim_removeEntry {b : Prop} {h : Heap C} {g : Ghost C} (hi : HInv E rd h g) {L : Nat} {n : Node C} {i : Nat}
    (hn : NR E g L n i) (x : Int) :
    Sim E rd b h g (removeEntry E rd n x) (hRemoveEntry E rd i x) (fun _ g' n j => NR E g' L n j) :=
  (sim_slice hi hn _ _).bind fun _ _ _ _ hi₁ x₁ a₁ => (sim_slice hi₁ (hn.mono x₁) _ _).bind fun _ _ _ _ hi₂ x₂ a₂ =>
    (sim_newTree hi₂ ((hn.mono x₁).mono x₂) (List.rel_append (ers_mono x₂ a₁) a₂)).imp id fun _ _ _ _ h => h.1

theorem sim_spliceIn {b : Prop} {h : Heap C} {g : Ghost C} (hi : HInv E rd h g) {L : Nat} {n : Node C} {i : Nat}
    (hn : NR E g L n i) (x : Int) {e : Ent C} {e' : HEnt C} (he : ER E g L e e') :
    Sim E rd b h g (spliceIn E rd n e x) (hSpliceIn E rd i e' x) (Made E L True) :=
  (sim_slice hi hn _ _).bind fun _ _ _ _ hi₁ x₁ a₁ => (sim_slice hi₁ (hn.mono x₁) _ _).bind fun _ _ _ _ hi₂ x₂ a₂ =>
    (sim_newTree hi₂ ((hn.mono x₁).mono x₂) (List.rel_append
      (List.rel_append (ers_mono x₂ a₁) (.cons ((he.mono x₁).mono x₂) .nil)) a₂)).imp id
        fun _ _ _ _ h => ⟨h.1, fun _ => h.2 (by simp)⟩

theorem sim_append {b : Prop} {h : Heap C} {g : Ghost C} (hi : HInv E rd h g) {L : Nat} {n : Node C} {i : Nat}
    (hn : NR E g L n i) {e : Ent C} {e' : HEnt C} (he : ER E g L e e') :
    Sim E rd b h g (append E rd n e) (hAppend E rd i e') (fun _ g' n j => NR E g' L n j) :=
  (sim_getEntries hi hn).bind fun _ _ _ _ hi₁ x₁ a₁ =>
    (sim_newTree hi₁ (hn.mono x₁) (List.rel_append a₁ (.cons (he.mono x₁) .nil))).imp id fun _ _ _ _ h => h.1

theorem sim_prepend {b : Prop} {h : Heap C} {g : Ghost C} (hi : HInv E rd h g) {L : Nat} {n : Node C} {i : Nat}
    (hn : NR E g L n i) {e : Ent C} {e' : HEnt C} (he : ER E g L e e') :
    Sim E rd b h g (prepend E rd n e) (hPrepend E rd i e') (fun _ g' n j => NR E g' L n j) :=
  (sim_getEntries hi hn).bind fun _ _ _ _ hi₁ x₁ a₁ =>
    (sim_newTree hi₁ (hn.mono x₁) (List.rel_append (.cons (he.mono x₁) .nil) a₁)).imp id fun _ _ _ _ h => h.1

/-- Optional subtrees on layer `M`. -/
def ORM (E : Env C) (M : Nat) (g : Ghost C) : Option (Node C) → Option Nat → Prop := OR (NR1 E g M)

theorem ORM.mono {h h' : Heap C} {g g' : Ghost C} (hx : Ext h g h' g') {M : Nat} {x : Option (Node C)} {y : Option Nat}
    (ho : ORM E M g x y) : ORM E M g' x y := OR.imp (fun _ _ h => h.mono hx) ho

theorem ORM.ers {g : Ghost C} {M : Nat} : ∀ {x : Option (Node C)} {y : Option Nat}, ORM E M g x y →
    List.Forall₂ (ER E g (M + 1)) (optTree x) (hOptTree y)
  | some _, some _, h => .cons ⟨M, rfl, h⟩ .nil
  | none, none, _ => .nil
  | some _, none, h => h.elim
  | none, some _, h => h.elim

theorem sim_replaceWithSplit {b : Prop} {h : Heap C} {g : Ghost C} (hi : HInv E rd h g) {M : Nat} {n : Node C} {i : Nat}
    (hn : NR E g (M + 1) n i) (x : Int) {l r : Option (Node C)} {l' r' : Option Nat} (hl : ORM E M g l l')
    (hr : ORM E M g r r') {e : Ent C} {e' : HEnt C} (he : ER E g (M + 1) e e') :
    Sim E rd b h g (replaceWithSplit E rd n x l e r) (hReplaceWithSplit E rd i x l' e' r') (Made E (M + 1) True) :=
  (sim_slice hi hn _ _).bind fun _ _ _ _ hi₁ x₁ a₁ => (sim_slice hi₁ (hn.mono x₁) _ _).bind fun _ _ _ _ hi₂ x₂ a₂ =>
    (sim_newTree hi₂ ((hn.mono x₁).mono x₂) (List.rel_append (List.rel_append (List.rel_append
      (List.rel_append (ers_mono x₂ a₁) (hl.mono (x₁.trans x₂)).ers) (.cons (he.mono (x₁.trans x₂)) .nil))
      (hr.mono (x₁.trans x₂)).ers) a₂)).imp id fun _ _ _ _ h => ⟨h.1, fun _ => h.2 (by simp)⟩

theorem sim_nonEmpty {b : Prop} {h : Heap C} {g : Ghost C} (hi : HInv E rd h g) {L : Nat} {n : Node C} {i : Nat}
    (hn : NR E g L n i) : Sim E rd b h g (nonEmpty E rd n) (hNonEmpty E rd i) (fun _ g' => ORM E L g') := by
  obtain ⟨t, ⟨hh, es, he, hes⟩, hg⟩ := hn
  obtain ⟨hs, h', g', k1, k2, k3, k4⟩ := hGetEntries_spec hi hg
  have hp : getEntries E rd n = .ok es := by unfold getEntries; rw [he]
  unfold nonEmpty hNonEmpty
  rw [hp]
  have := ers_of hes k4
  refine ⟨fun a ha => ?_, fun _ e h' => by rw [ok_bind] at h'; cases h'⟩
  rw [ok_bind] at ha
  cases ha
  refine ⟨_, h', g', by rw [HM.bind_ok k1]; rfl, k2, k3, ?_⟩
  rw [← ers_empty this]
  cases t with
  | nil => cases hes; trivial
  | leaf k v r =>
    obtain ⟨hz, es', rfl, h2⟩ := hes
    exact ⟨leaf k v r, (fun h => (nomatch h)), ⟨hh, _, he, hz, es', rfl, h2⟩, k3.get hg⟩
  | sub c r =>
    obtain ⟨M, m, es', h0, h1, rfl, h3, h4⟩ := hes
    exact ⟨sub c r, (fun h => (nomatch h)), ⟨hh, _, he, M, m, es', h0, h1, rfl, h3, h4⟩, k3.get hg⟩

theorem sim_appendOpt {b : Prop} {h : Heap C} {g : Ghost C} (hi : HInv E rd h g) {M : Nat} {n : Node C} {i : Nat}
    (hn : NR E g (M + 1) n i) : ∀ {x : Option (Node C)} {y : Option Nat}, ORM E M g x y →
    Sim E rd b h g (appendOpt E rd n x) (hAppendOpt E rd i y) (fun _ g' n j => NR E g' (M + 1) n j)
  | some _, some _, h => sim_append hi hn ⟨M, rfl, h⟩
  | none, none, _ => .pure hi hn
  | some _, none, h => h.elim
  | none, some _, h => h.elim

theorem sim_prependOpt {b : Prop} {h : Heap C} {g : Ghost C} (hi : HInv E rd h g) {M : Nat} {n : Node C} {i : Nat}
    (hn : NR E g (M + 1) n i) : ∀ {x : Option (Node C)} {y : Option Nat}, ORM E M g x y →
    Sim E rd b h g (prependOpt E rd n x) (hPrependOpt E rd i y) (fun _ g' n j => NR E g' (M + 1) n j)
  | some _, some _, h => sim_prepend hi hn ⟨M, rfl, h⟩
  | none, none, _ => .pure hi hn
  | some _, none, h => h.elim
  | none, some _, h => h.elim

/-! ### Splitting -/

theorem sim_splitEnd {b : Prop} {h : Heap C} {g : Ghost C} (hi : HInv E rd h g) {L : Nat} {l r : Node C} {i j : Nat}
    (hl : NR E g L l i) (hr : NR E g L r j) :
    Sim E rd b h g (do .ok (← nonEmpty E rd l, ← nonEmpty E rd r))
      (do
        let a ← hNonEmpty E rd i
        let b ← hNonEmpty E rd j
        pure (a, b)) (fun _ g' a y => ORM E L g' a.1 y.1 ∧ ORM E L g' a.2 y.2) :=
  (sim_nonEmpty hi hl).bind fun _ _ _ _ hi₁ x₁ a₁ => (sim_nonEmpty hi₁ (hr.mono x₁)).bind fun _ _ _ _ hi₂ x₂ a₂ =>
    .pure hi₂ ⟨a₁.mono x₂, a₂⟩

theorem Sim.step {α α' β β' : Type} {b : Prop} {h : Heap C} {g : Ghost C} {a : α} {q : HM C β}
    {P : Heap C → Ghost C → α → β → Prop} {p : Except Err α'} {k : β → HM C β'}
    {Q : Heap C → Ghost C → α' → β' → Prop} (hs : Sim E rd b h g (.ok a) q P)
    (hk : ∀ y h' g', HInv E rd h' g' → Ext h g h' g' → P h' g' a y → Sim E rd b h' g' p (k y) Q) :
    Sim E rd b h g p (q >>= k) Q := by
  obtain ⟨y, h', g', k1, k2, k3, k4⟩ := hs.1 a rfl
  have hq := hk y h' g' k2 k3 k4
  refine ⟨fun a' ha => ?_, fun hb e he hek => ?_⟩
  · obtain ⟨y', h'', g'', m1, m2, m3, m4⟩ := hq.1 a' ha
    exact ⟨y', h'', g'', by rw [HM.bind_ok k1, m1], m2, k3.trans m3, m4⟩
  · obtain ⟨h'', g'', m1, m2, m3⟩ := hq.2 hb e he hek
    exact ⟨h'', g'', by rw [HM.bind_ok k1, m1], m2, k3.trans m3⟩

theorem sim_splitAround {b : Prop} {key : Key} : ∀ {f : Nat} {h : Heap C} {g : Ghost C} {L : Nat} {n : Node C} {i : Nat},
    HInv E rd h g → NR E g L n i → Sim E rd b h g (splitAround E rd f n key) (hSplitAround E rd f i key)
      (fun _ g' a y => ORM E L g' a.1 y.1 ∧ ORM E L g' a.2 y.2)
  | 0, h, g, L, n, i, hi, hn => .raise hi
  | f + 1, h, g, L, n, i, hi, hn => by
    unfold splitAround hSplitAround
    refine (sim_find hi hn key).bind fun x _ h₁ g₁ hi₁ x₁ hx => ?_
    subst hx
    refine (sim_slice hi₁ (hn.mono x₁) _ _).bind fun ld ld' h₂ g₂ hi₂ x₂ hld => ?_
    refine (sim_slice hi₂ ((hn.mono x₁).mono x₂) _ _).bind fun rs rs' h₃ g₃ hi₃ x₃ hrs => ?_
    have hn₃ := ((hn.mono x₁).mono x₂).mono x₃
    have hld₃ := ers_mono x₃ hld
    refine (sim_newTree hi₃ hn₃ hld₃).step fun i₄ h₄ g₄ hi₄ x₄ hl => ?_
    refine (sim_newTree hi₄ (hn₃.mono x₄) (ers_mono x₄ hrs)).step fun i₅ h₅ g₅ hi₅ x₅ hr => ?_
    have hla := or_asTree (ers_last (ers_mono (x₄.trans x₅) hld₃))
    rw [← ers_len hld]
    dsimp only
    generalize asTree ld.getLast? = a at hla ⊢
    generalize hAsTree ld'.getLast? = a' at hla ⊢
    match a, a', hla with
    | none, none, _ => exact sim_splitEnd hi₅ (hl.1.mono x₅) hr.1
    | some m, some j, ⟨M, hM, hm⟩ =>
      subst hM
      refine (sim_removeEntry hi₅ (hl.1.mono x₅) _).bind fun l i₆ h₆ g₆ hi₆ x₆ hl => ?_
      refine (sim_splitAround hi₆ (hm.nr.mono x₆)).bind fun sp sp' h₇ g₇ hi₇ x₇ hsp => ?_
      refine (sim_appendOpt hi₇ (hl.mono x₇) hsp.1).bind fun l i₈ h₈ g₈ hi₈ x₈ hl => ?_
      refine (sim_prependOpt hi₈ (((hr.1.mono x₆).mono x₇).mono x₈) (hsp.2.mono x₈)).bind fun r i₉ h₉ g₉ hi₉ x₉ hr => ?_
      exact sim_splitEnd hi₉ (hl.mono x₉) hr

/-! ### Layers -/

theorem PEs.repr : ∀ {t : Tree C} {L : Nat} {es : List (Ent C)}, PEs E L t es → ReprEs E rd L t es
  | nil, _, _, h => h
  | leaf _ _ _, _, _, ⟨_, es', h1, h2⟩ => ⟨es', h1, h2.repr⟩
  | sub _ _, _, _, ⟨M, n, es', h0, _, h2, ⟨h3, es₂, h4, h5⟩, h6⟩ => by
    subst h0
    exact ⟨n, es', h2, ⟨⟨fun h => (by rw [h4] at h; cases h), fun h => (h3.1 h).1, h3.2⟩,
      fun es₃ h => (by rw [h4] at h; cases h; exact h5.repr)⟩, h6.repr⟩

theorem PN.repr {t : Tree C} {L : Nat} {n : Node C} (h : PN E L t n) : ReprN E rd L t n := by
  obtain ⟨h3, es, h4, h5⟩ := h
  exact ⟨⟨fun h => (by rw [h4] at h; cases h), fun h => (h3.1 h).1, h3.2⟩,
    fun es₃ h => (by rw [h4] at h; cases h; exact h5.repr)⟩

theorem PN.setLayer {t : Tree C} {L : Nat} {n : Node C} (h : PN E L t n) : PN E L t (n.setLayer (L : Int)) :=
  ⟨⟨h.1.1, fun l hl => by cases hl; rfl⟩, h.2⟩

theorem NR.setLayer {g : Ghost C} {L : Nat} {n : Node C} {i : Nat} (h : NR E g L n i) :
    NR E g L (n.setLayer (L : Int)) i :=
  let ⟨t, h1, h2⟩ := h
  ⟨t, h1.setLayer, h2⟩

theorem PEs.layer {L : Nat} : ∀ {t : Tree C} {es : List (Ent C)}, PEs E L t es →
    layerForEntries E es = some (L : Int) ∨
      layerForEntries E es = none ∧ (t = nil ∧ es = [] ∨ ∃ M c n es', L = M + 1 ∧ c ≠ nil ∧ es = .tree n :: es' ∧
        PN E M c n)
  | nil, _, h => by cases h; exact .inr ⟨rfl, .inl ⟨rfl, rfl⟩⟩
  | leaf k v r, _, ⟨hz, es', h1, h2⟩ => by
    subst h1
    left
    simp [layerForEntries, hz]
  | sub c r, _, ⟨M, i, es', h0, h1, h2, h3, h4⟩ => by
    subst h2
    rcases h4.layer with h | ⟨h, _⟩
    · exact .inl h
    · exact .inr ⟨h, .inr ⟨M, c, i, es', h0, h1, rfl, h3⟩⟩

theorem PN.getEntries {t : Tree C} {L : Nat} {n : Node C} (h : PN E L t n) :
    ∃ es, getEntries E rd n = .ok es ∧ PEs E L t es := by
  obtain ⟨_, es, h4, h5⟩ := h
  exact ⟨es, by unfold Arroba.getEntries; rw [h4], h5⟩

theorem PN.attempt : ∀ {f L : Nat} {t : Tree C} {n : Node C}, PN E L t n → t ≠ nil → L + 1 ≤ f →
    attemptGetLayer E rd f n = .ok (some (L : Int))
  | 0, _, _, _, _, _, hf => by omega
  | f + 1, L, t, n, h, ht, hf => by
    unfold attemptGetLayer
    cases hl : n.layer with
    | some l => dsimp only; rw [h.1.2 l hl]
    | none =>
      obtain ⟨es, h1, h2⟩ := h.getEntries (rd := rd)
      dsimp only
      rw [h1, ok_bind]
      rcases h2.layer with k | ⟨k, ⟨h0, _⟩ | ⟨M, c, m, es', hM, hc, rfl, hm⟩⟩
      · rw [k]
      · exact absurd h0 ht
      · rw [k]
        dsimp only
        unfold childLayer
        rw [PN.attempt (f := f) hm hc (by omega), ok_bind, hM]
        rfl

theorem PN.getLayer {f L : Nat} {t : Tree C} {n : Node C} (h : PN E L t n) (hl : LayerOK L t n) (hf : L + 1 ≤ f) :
    Arroba.getLayer E rd f n = .ok (L : Int) := by
  by_cases ht : t = nil
  · subst ht
    rw [getLayer_nil (h.repr (rd := rd)) (by omega), hl rfl]
  · unfold Arroba.getLayer
    rw [h.attempt ht hf]
    rfl

theorem sim_getLayer {b : Prop} {h : Heap C} {g : Ghost C} (hi : HInv E rd h g) {f L : Nat} {t : Tree C} {n : Node C}
    {i : Nat} (hg : g[i]? = some (L, t)) (hn : PN E L t n) (hk : LayerKnown h i L t) (hl : LayerOK L t n)
    (hf : L + 1 ≤ f) : Sim E rd b h g (getLayer E rd f n) (hGetLayer E rd f i)
      (fun h' _ a y => a = (L : Int) ∧ y = (L : Int) ∧ LayerKnown h' i L t) := by
  obtain ⟨h', g', k1, k2, k3, k4⟩ := hGetLayer_spec hi hg hk hf
  rw [hn.getLayer hl hf]
  exact ⟨fun a ha => by cases ha; exact ⟨_, h', g', k1, k2, k3, rfl, rfl, k4⟩, fun _ e he => (nomatch he)⟩

theorem sim_getLayer1 {b : Prop} {h : Heap C} {g : Ghost C} (hi : HInv E rd h g) {f L : Nat} {n : Node C}
    {i : Nat} (hn : NR1 E g L n i) (hf : L + 1 ≤ f) : Sim E rd b h g (getLayer E rd f n) (hGetLayer E rd f i)
      (fun _ _ a y => a = (L : Int) ∧ y = (L : Int)) := by
  obtain ⟨t, ht, h1, h2⟩ := hn
  exact (sim_getLayer hi h2 h1 (fun h => absurd h ht) (fun h => absurd h ht) hf).imp id fun _ _ _ _ h => ⟨h.1, h.2.1⟩

/-! ### Merging -/

theorem sim_getEntries1 {b : Prop} {h : Heap C} {g : Ghost C} (hi : HInv E rd h g) {L : Nat} {n : Node C} {i : Nat}
    (hn : NR E g L n i) : Sim E rd b h g (getEntries E rd n) (hGetEntries E rd i)
      (fun _ g' es hs => List.Forall₂ (ER E g' L) es hs ∧ (es ≠ [] → NR1 E g' L n i)) := by
  have hn' := hn
  obtain ⟨t, hp, hg⟩ := hn'
  obtain ⟨es₀, e1, e2⟩ := hp.getEntries (rd := rd)
  refine ⟨fun a ha => ?_, fun hb e he => by rw [e1] at he; cases he⟩
  obtain ⟨y, h', g', k1, k2, k3, k4⟩ := (sim_getEntries (b := True) hi hn).1 a ha
  refine ⟨y, h', g', k1, k2, k3, k4, fun hne => ⟨t, fun ht => hne ?_, hp, k3.get hg⟩⟩
  rw [e1] at ha
  cases ha
  subst ht
  exact e2

theorem sim_appendMerge {b : Prop} : ∀ {f : Nat} {h : Heap C} {g : Ghost C} {L : Nat} {n m : Node C} {i j : Nat},
    HInv E rd h g → NR1 E g L n i → NR1 E g L m j → L + 2 ≤ f →
    Sim E rd b h g (appendMerge E rd f n m) (hAppendMerge E rd f i j) (fun _ g' n i => NR1 E g' L n i)
  | 0, _, _, _, _, _, _, _, _, _, _, hf => by omega
  | f + 1, h, g, L, n, m, i, j, hi, hn, hm, hf => by
    unfold appendMerge hAppendMerge
    refine (sim_getLayer1 hi hn (by omega)).bind fun l l' h₁ g₁ hi₁ x₁ hl => ?_
    obtain ⟨rfl, rfl⟩ := hl
    refine (sim_getLayer1 hi₁ (hm.mono x₁) (by omega)).bind fun l l' h₂ g₂ hi₂ x₂ hl => ?_
    obtain ⟨rfl, rfl⟩ := hl
    rw [if_neg (fun h => h rfl), if_neg (fun h => h rfl)]
    have hn₂ := ((hn.mono x₁).mono x₂).nr.setLayer
    have hm₂ := ((hm.mono x₁).mono x₂).nr
    dsimp only
    refine (sim_getEntries hi₂ hn₂).bind fun es es' h₃ g₃ hi₃ x₃ hes => ?_
    refine (sim_getEntries hi₃ (hm₂.mono x₃)).bind fun ms ms' h₄ g₄ hi₄ x₄ hms => ?_
    have hes₄ := ers_mono x₄ hes
    rw [← ers_empty hes, ← ers_empty hms]
    by_cases he : es.isEmpty = true ∨ ms.isEmpty = true
    · rw [if_pos he, if_pos he]
      exact .raise hi₄
    rw [if_neg he, if_neg he]
    have hne : es ≠ [] := fun h => he (.inl (by rw [h]; rfl))
    have hn₄ := (hn₂.mono x₃).mono x₄
    have hend : Sim E rd b h₄ g₄ (.ok (newTree (n.setLayer (L : Int)) (es ++ ms))) (hNewTree i (es' ++ ms'))
        (fun _ g' n i => NR1 E g' L n i) :=
      (sim_newTree hi₄ hn₄ (List.rel_append hes₄ hms)).imp id fun _ _ _ _ h => h.2 (by simp [hne])
    have ha := or_asTree (ers_last hes₄)
    have hb := or_asTree (ers_head hms)
    generalize asTree es.getLast? = a at ha ⊢
    generalize hAsTree es'.getLast? = a' at ha ⊢
    generalize asTree ms.head? = c at hb ⊢
    generalize hAsTree ms'.head? = c' at hb ⊢
    match a, a', ha, c, c', hb with
    | none, none, _, none, none, _ => exact hend
    | none, none, _, some _, some _, _ => exact hend
    | some _, some _, _, none, none, _ => exact hend
    | some p, some p', ⟨M, hM, hp⟩, some q, some q', ⟨M', hM', hq⟩ =>
      obtain rfl : M = M' := by omega
      refine (sim_appendMerge hi₄ hp hq (by omega)).bind fun r r' h₅ g₅ hi₅ x₅ hr => ?_
      refine (sim_newTree hi₅ (hn₄.mono x₅) (List.rel_append (List.rel_append (ers_slice (ers_mono x₅ hes₄) _ _)
        (.cons (ER.mkTree hM hr) .nil)) (ers_slice (ers_mono x₅ hms) _ _))).imp id fun _ _ _ _ h => h.2 (by simp)

/-! ### `get`, `update`, `delete` -/

theorem sim_validKey {b : Prop} {h : Heap C} {g : Ghost C} (hi : HInv E rd h g) (key : Key) :
    Sim E rd b h g (ensureValidKey key) (hEnsureValidKey key) (fun _ _ _ _ => True) := by
  unfold ensureValidKey hEnsureValidKey
  split
  · exact .pure hi trivial
  · exact .raise hi

theorem sim_get {b : Prop} {key : Key} : ∀ {f : Nat} {h : Heap C} {g : Ghost C} {L : Nat} {n : Node C} {i : Nat},
    HInv E rd h g → NR E g L n i →
    Sim E rd b h g (get E rd f n key) (hGet E rd f i key) (fun _ _ a y => a = y)
  | 0, _, _, _, _, _, hi, _ => .raise hi
  | f + 1, h, g, L, n, i, hi, hn => by
    unfold get hGet
    refine (sim_find hi hn key).bind fun x _ h₁ g₁ hi₁ x₁ hx => ?_
    subst hx
    refine (sim_atIndex hi₁ (hn.mono x₁) _).bind fun a a' h₂ g₂ hi₂ x₂ ha => ?_
    rw [← or_leafHit ha]
    cases leafHit key a with
    | some v => exact .pure hi₂ rfl
    | none =>
      refine (sim_atIndex hi₂ ((hn.mono x₁).mono x₂) _).bind fun a a' h₃ g₃ hi₃ x₃ ha => ?_
      have ha := or_asTree ha
      generalize asTree a = c at ha ⊢
      generalize hAsTree a' = c' at ha ⊢
      match c, c', ha with
      | none, none, _ => exact .pure hi₃ rfl
      | some p, some q, ⟨M, _, hp⟩ => exact sim_get hi₃ hp.nr

theorem sim_update {b : Prop} {key : Key} {value : C} : ∀ {f : Nat} {h : Heap C} {g : Ghost C} {L : Nat} {n : Node C}
    {i : Nat}, HInv E rd h g → NR E g L n i →
    Sim E rd b h g (update E rd f n key value) (hUpdate E rd f i key value) (fun _ g' m j => NR1 E g' L m j)
  | 0, _, _, _, _, _, hi, _ => .raise hi
  | f + 1, h, g, L, n, i, hi, hn => by
    unfold update hUpdate
    refine (sim_validKey hi key).bind fun _ _ h₀ g₀ hi₀ x₀ _ => ?_
    replace hn := hn.mono x₀
    refine (sim_find hi₀ hn key).bind fun x _ h₁ g₁ hi₁ x₁ hx => ?_
    subst hx
    refine (sim_atIndex hi₁ (hn.mono x₁) _).bind fun a a' h₂ g₂ hi₂ x₂ ha => ?_
    rw [← or_leafHit ha]
    cases hh : leafHit key a with
    | some v =>
      have hz : E.zeros key = L := by
        match a, a', ha, hh with
        | some (.leaf k _), some (.leaf _ _), ⟨_, _, h3⟩, hh =>
          simp only [leafHit] at hh
          split at hh
          · next hk => rw [← hk]; exact h3
          · cases hh
        | some (.tree _), some (.tree _), _, hh => cases hh
        | none, none, _, hh => cases hh
      exact (sim_updateEntry hi₂ ((hn.mono x₁).mono x₂) _ (ER.mkLeaf hz)).imp id fun _ _ _ _ h => h.2 trivial
    | none =>
      refine (sim_atIndex hi₂ ((hn.mono x₁).mono x₂) _).bind fun a a' h₃ g₃ hi₃ x₃ ha => ?_
      have ha := or_asTree ha
      generalize asTree a = c at ha ⊢
      generalize hAsTree a' = c' at ha ⊢
      match c, c', ha with
      | none, none, _ => exact .raise hi₃
      | some p, some q, ⟨M, hM, hp⟩ =>
        refine (sim_update hi₃ hp.nr).bind fun r r' h₄ g₄ hi₄ x₄ hr => ?_
        exact (sim_updateEntry hi₄ ((((hn.mono x₁).mono x₂).mono x₃).mono x₄) _ (ER.mkTree hM hr)).imp id
          fun _ _ _ _ h => h.2 trivial

theorem sim_deleteRecurse {b : Prop} {key : Key} : ∀ {f : Nat} {h : Heap C} {g : Ghost C} {L : Nat} {n : Node C}
    {i : Nat}, HInv E rd h g → NR E g L n i → L + 2 ≤ f →
    Sim E rd b h g (deleteRecurse E rd f n key) (hDeleteRecurse E rd f i key) (fun _ g' m j => NR E g' L m j)
  | 0, _, _, _, _, _, hi, _, _ => .raise hi
  | f + 1, h, g, L, n, i, hi, hn, hf => by
    unfold deleteRecurse hDeleteRecurse
    refine (sim_find hi hn key).bind fun x _ h₁ g₁ hi₁ x₁ hx => ?_
    subst hx
    refine (sim_atIndex hi₁ (hn.mono x₁) _).bind fun a a' h₂ g₂ hi₂ x₂ ha => ?_
    rw [← or_leafHit ha]
    have hn₂ := (hn.mono x₁).mono x₂
    cases hh : leafHit key a with
    | some v =>
      dsimp only
      refine (sim_atIndex hi₂ hn₂ _).bind fun a a' h₃ g₃ hi₃ x₃ ha => ?_
      refine (sim_atIndex hi₃ (hn₂.mono x₃) _).bind fun c c' h₄ g₄ hi₄ x₄ hc => ?_
      have ha := or_asTree (OR.imp (fun _ _ h => ER.mono x₄ h) ha)
      have hc := or_asTree hc
      have hn₄ := (hn₂.mono x₃).mono x₄
      generalize asTree a = a at ha ⊢
      generalize hAsTree a' = a' at ha ⊢
      generalize asTree c = c at hc ⊢
      generalize hAsTree c' = c' at hc ⊢
      match a, a', ha, c, c', hc with
      | none, none, _, none, none, _ => exact sim_removeEntry hi₄ hn₄ _
      | none, none, _, some _, some _, _ => exact sim_removeEntry hi₄ hn₄ _
      | some _, some _, _, none, none, _ => exact sim_removeEntry hi₄ hn₄ _
      | some p, some p', ⟨M, hM, hp⟩, some q, some q', ⟨M', hM', hq⟩ =>
        obtain rfl : M = M' := by omega
        refine (sim_appendMerge hi₄ hp hq (by omega)).bind fun r r' h₅ g₅ hi₅ x₅ hr => ?_
        refine (sim_slice hi₅ (hn₄.mono x₅) _ _).bind fun u u' h₆ g₆ hi₆ x₆ hu => ?_
        refine (sim_slice hi₆ ((hn₄.mono x₅).mono x₆) _ _).bind fun w w' h₇ g₇ hi₇ x₇ hw => ?_
        refine (sim_newTree hi₇ (((hn₄.mono x₅).mono x₆).mono x₇) (List.rel_append (List.rel_append (ers_mono x₇ hu)
          (.cons (ER.mkTree hM ((hr.mono x₆).mono x₇)) .nil)) hw)).imp id fun _ _ _ _ h => h.1
    | none =>
      refine (sim_atIndex hi₂ hn₂ _).bind fun a a' h₃ g₃ hi₃ x₃ ha => ?_
      have ha := or_asTree ha
      generalize asTree a = c at ha ⊢
      generalize hAsTree a' = c' at ha ⊢
      match c, c', ha with
      | none, none, _ => exact .raise hi₃
      | some p, some q, ⟨M, hM, hp⟩ =>
        refine (sim_deleteRecurse hi₃ hp.nr (by omega)).bind fun r r' h₄ g₄ hi₄ x₄ hr => ?_
        refine (sim_getEntries1 hi₄ hr).bind fun es es' h₅ g₅ hi₅ x₅ hes => ?_
        have hn₅ := ((hn₂.mono x₃).mono x₄).mono x₅
        rw [← ers_empty hes.1]
        by_cases he : es.isEmpty = true
        · rw [if_pos he, if_pos he]
          exact sim_removeEntry hi₅ hn₅ _
        · rw [if_neg he, if_neg he]
          exact (sim_updateEntry hi₅ hn₅ _ (ER.mkTree hM (hes.2 (fun h => he (by rw [h]; rfl))))).imp id fun _ _ _ _ h => h.1

theorem sim_trimTop {b : Prop} : ∀ {f : Nat} {h : Heap C} {g : Ghost C} {L : Nat} {n : Node C} {i : Nat},
    HInv E rd h g → NR E g L n i →
    Sim E rd b h g (trimTop E rd f n) (hTrimTop E rd f i) (fun _ g' m j => ∃ M, M ≤ L ∧ NR E g' M m j)
  | 0, _, _, _, _, _, hi, _ => .raise hi
  | f + 1, h, g, L, n, i, hi, hn => by
    unfold trimTop hTrimTop
    refine (sim_getEntries hi hn).bind fun es es' h₁ g₁ hi₁ x₁ hes => ?_
    have hend : Sim E rd b h₁ g₁ (.ok n) (pure i) (fun _ g' m j => ∃ M, M ≤ L ∧ NR E g' M m j) :=
      .pure hi₁ ⟨L, Nat.le_refl _, hn.mono x₁⟩
    match es, es', hes with
    | [], [], _ => exact hend
    | [.leaf _ _], [.leaf _ _], _ => exact hend
    | .leaf _ _ :: _ :: _, .leaf _ _ :: _ :: _, _ => exact hend
    | .tree _ :: _ :: _, .tree _ :: _ :: _, _ => exact hend
    | [.tree m], [.tree j], hes =>
      cases hes with
      | cons he _ =>
        obtain ⟨M, hM, hm⟩ := he
        exact (sim_trimTop hi₁ hm.nr).imp id fun _ _ _ _ ⟨M', h1, h2⟩ => ⟨M', by omega, h2⟩
    | .leaf _ _ :: _, .tree _ :: _, hes => cases hes with | cons he _ => exact he.elim
    | .tree _ :: _, .leaf _ _ :: _, hes => cases hes with | cons he _ => exact he.elim

theorem sim_delete {b : Prop} {key : Key} {f : Nat} {h : Heap C} {g : Ghost C} {L : Nat} {n : Node C}
    {i : Nat} (hi : HInv E rd h g) (hn : NR E g L n i) (hf : L + 2 ≤ f) :
    Sim E rd b h g (delete E rd f n key) (hDelete E rd f i key) (fun _ g' m j => ∃ M, M ≤ L ∧ NR E g' M m j) :=
  (sim_deleteRecurse hi hn hf).bind fun _ _ _ _ hi₁ _ hm => sim_trimTop hi₁ hm

end

end Arroba
