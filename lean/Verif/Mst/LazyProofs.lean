import Verif.Mst.Canon
import Verif.Mst.Listing

/-! Helper lemmas: the generator model against the tree, and how much it reads. -/

namespace Arroba

variable {C : Type}

open Arroba.Tree

@[simp] theorem readsIn_append (a b : List (Ev C)) : readsIn (a ++ b) = readsIn a ++ readsIn b := by
  induction a with
  | nil => rfl
  | cons x a ih => cases x <;> simp [readsIn, ih]

@[simp] theorem leavesIn_append (a b : List (Ev C)) : leavesIn (a ++ b) = leavesIn a ++ leavesIn b := by
  induction a with
  | nil => rfl
  | cons x a ih => cases x <;> simp [leavesIn, ih]

/-- However far one goes, at most `c` blocks are read, and `d` more per leaf. -/
def Bounded (c d : Nat) (evs : List (Ev C)) : Prop :=
  ∀ p, p <+: evs → (readsIn p).length ≤ c + d * (leavesIn p).length

theorem Bounded.nil (c d : Nat) : Bounded c d ([] : List (Ev C)) := by
  intro p hp
  rw [List.prefix_nil.1 hp]
  simp [readsIn]

theorem Bounded.mono {c d c' d' : Nat} {evs : List (Ev C)} (h : Bounded c d evs) (hc : c ≤ c') (hd : d ≤ d') :
    Bounded c' d' evs := fun p hp =>
  (h p hp).trans (Nat.add_le_add hc (Nat.mul_le_mul_right _ hd))

theorem Bounded.append {c c' d : Nat} {a b : List (Ev C)} (ha : Bounded c d a) (hb : Bounded c' d b) :
    Bounded (c + c') d (a ++ b) := by
  intro p hp
  rcases List.prefix_or_prefix_of_prefix hp (List.prefix_append a b) with h | ⟨q, rfl⟩
  · have := ha p h; omega
  · have h := (List.prefix_append_right_inj a).1 hp
    have h1 := ha a List.prefix_rfl
    have h2 := hb q h
    simp only [readsIn_append, leavesIn_append, List.length_append, Nat.mul_add]
    omega

theorem Bounded.leaf {d : Nat} {k : Key} {v : C} {b : List (Ev C)} (hb : Bounded d d b) :
    Bounded 0 d (.leaf k v :: b) := by
  intro p hp
  cases p with
  | nil => simp [readsIn]
  | cons x p =>
    obtain ⟨rfl, h⟩ := List.cons_prefix_cons.1 hp
    have := hb p h
    simp only [readsIn, leavesIn, List.length_cons, Nat.mul_add]
    omega

section
variable {E : Env C} {rd : C → Option (NodeData C)}

@[simp] theorem Gen.seq_none (a : List (Ev C)) (b : Gen C) : Gen.seq ⟨a, none⟩ b = ⟨a ++ b.evs, b.stop⟩ := rfl

/-- What a walk over a good tree does. -/
structure Walks (L : Nat) (key : Key) (t : Tree C) (g : Gen C) : Prop where
  stop : g.stop = none
  leaves : leavesIn g.evs = (leaves t).filter (fun kv => decide (key ≤ kv.1))
  bounded : Bounded (L + 1) L g.evs

theorem loopGen_spec {rec : Node C → Gen C} {L : Nat} {key : Key} :
    ∀ {t : Tree C} {es : List (Ent C)},
    (∀ M, L = M + 1 → ∀ c m, ReprN E rd M c m → WF E.zeros M c → Sorted c → Walks M key c (rec m)) →
    ReprEs E rd L t es → WF E.zeros L t → Sorted t → (∀ kv ∈ leaves t, key ≤ kv.1) →
    (loopGen rec es).stop = none ∧ leavesIn (loopGen rec es).evs = leaves t ∧
      Bounded L L (loopGen rec es).evs ∧ (¬ startsSub t → Bounded 0 L (loopGen rec es).evs) := by
  intro t
  induction t with
  | nil =>
    intro es _ h _ _ _
    obtain rfl := ReprEs_nil.1 h
    exact ⟨rfl, rfl, .nil _ _, fun _ => .nil _ _⟩
  | leaf k v r ih =>
    intro es hrec h hw hs hk
    obtain ⟨es', rfl, h'⟩ := h
    have hs' : Sorted r := (List.pairwise_cons.1 hs).2
    obtain ⟨h1, h2, h3, -⟩ := ih hrec h' hw.2 hs' (fun kv hkv => hk kv (by simp [leaves, hkv]))
    simp only [loopGen, Gen.seq_none, List.singleton_append, leavesIn, leaves, h2]
    exact ⟨h1, trivial, h3.leaf.mono (Nat.zero_le _) (Nat.le_refl _), fun _ => h3.leaf⟩
  | sub c r _ ih =>
    intro es hrec h hw hs hk
    obtain ⟨M, rfl, hc, hwc, hns, hwr⟩ := WF_sub.1 hw
    obtain ⟨m, es', rfl, hm, h'⟩ := ReprEs_sub.1 h
    have hs' := List.pairwise_append.1 hs
    have hf : (leaves c).filter (fun kv => decide (key ≤ kv.1)) = leaves c :=
      List.filter_eq_self.2 fun kv hkv => by simpa using hk kv (by simp [leaves, hkv])
    obtain ⟨h1, h2, -, h3⟩ := ih hrec h' hwr hs'.2.1 (fun kv hkv => hk kv (by simp [leaves, hkv]))
    obtain ⟨g1, g2, g3⟩ := hrec M rfl c m hm hwc hs'.1
    rw [hf] at g2
    have e : loopGen rec (.tree m :: es') = ⟨(rec m).evs ++ (loopGen rec es').evs, (loopGen rec es').stop⟩ := by
      simp only [loopGen, Gen.seq, g1]
    rw [e]
    refine ⟨h1, by simp only [leavesIn_append, g2, h2, leaves], ?_, fun h => absurd trivial h⟩
    exact ((g3.mono (Nat.le_refl _) (Nat.le_succ M)).append (h3 hns)).mono (by omega) (Nat.le_refl _)

theorem entryReads_bounded (n : Node C) (d : Nat) : Bounded 1 d (entryReads n) := by
  intro p hp
  have := hp.length_le
  have h1 : (readsIn p).length ≤ p.length := by
    clear hp this
    induction p with
    | nil => simp [readsIn]
    | cons x p ih => cases x <;> simp [readsIn] <;> omega
  have h2 : (entryReads n).length ≤ 1 := by unfold entryReads; split <;> simp
  omega

theorem entryReads_leaves (n : Node C) : leavesIn (entryReads n) = [] := by
  unfold entryReads
  split <;> rfl

theorem walkGen_spec {key : Key} : ∀ {f : Nat} {t : Tree C} {L : Nat} {n : Node C},
    ReprN E rd L t n → WF E.zeros L t → Sorted t → L + 1 ≤ f → Walks L key t (walkGen E rd f n key)
  | 0, _, _, _, _, _, _, hf => by omega
  | f + 1, t, L, n, hn, hwf, hs, hf => by
    obtain ⟨A, B, l, r, rfl, he, hi, hA, hB⟩ := locate key hn hwf hs
    obtain ⟨hwA, hwB, hadj⟩ := WF_app.1 hwf
    have hrec : ∀ M, L = M + 1 → ∀ c m, ReprN E rd M c m → WF E.zeros M c → Sorted c →
        Walks M key c (walkGen E rd f m key) := by
      intro M hM c m hm hw hsc
      exact walkGen_spec hm hw hsc (by omega)
    have hB' : ReprEs E rd L B r ∧ (∀ kv ∈ leaves B, key ≤ kv.1) ∧ ¬ startsSub B := by
      cases hB with
      | @hit v B r hB hgt =>
        refine ⟨ReprEs_leaf.2 ⟨_, rfl, hB⟩, ?_, by simp [startsSub]⟩
        intro kv hkv
        simp only [leaves, List.mem_cons] at hkv
        rcases hkv with rfl | hkv
        · exact le_refl _
        · exact le_of_lt (hgt kv hkv)
      | miss hB hgt hns hr hr' => exact ⟨hB, fun kv hkv => le_of_lt (hgt kv hkv), hns⟩
    have hlast : ∀ g, g = prevGen (fun m => walkGen E rd f m key)
        (if (0 : Int) < (l.length : Int) then asTree (l ++ r)[((l.length : Int) - 1).toNat]? else none) →
        g.stop = none ∧ leavesIn g.evs = (leaves A).filter (fun kv => decide (key ≤ kv.1)) ∧ Bounded L L g.evs := by
      intro g hg
      have hidx : (if (0 : Int) < (l.length : Int) then
          asTree (l ++ r)[((l.length : Int) - 1).toNat]? else none) = asTree l.getLast? := by
        rcases List.eq_nil_or_concat' l with rfl | ⟨l', x, rfl⟩
        · simp [asTree]
        · have hp : (0 : Int) < ((l' ++ [x]).length : Int) := by simp
          rw [if_pos hp]
          simp
      rw [hidx] at hg
      cases hA with
      | done hA he hlt hl =>
        rw [hl] at hg
        have : (leaves A).filter (fun kv => decide (key ≤ kv.1)) = [] :=
          List.filter_eq_nil_iff.2 fun kv hkv => by simpa using hlt kv hkv
        rw [this, hg]
        exact ⟨rfl, rfl, .nil _ _⟩
      | @sub A c M l m hL hA hm hc hne hlt =>
        subst hL
        have hwc : WF E.zeros M c := by
          obtain ⟨_, _, _, hw, _⟩ := WF_sub.1 (WF_app.1 hwA).2.1
          simp_all
        have hsc : Sorted c := Sorted_sub_nil.1 hs.app_left.app_right
        have : (leaves A).filter (fun kv => decide (key ≤ kv.1)) = [] :=
          List.filter_eq_nil_iff.2 fun kv hkv => by simpa using hlt kv hkv
        simp only [List.getLast?_append, List.getLast?_singleton, Option.some_or, asTree, prevGen] at hg
        obtain ⟨g1, g2, g3⟩ := hrec M rfl c m hm hwc hsc
        rw [hg]
        exact ⟨g1, by simp [g2, leaves, this], g3.mono (Nat.le_refl _) (Nat.le_succ M)⟩
    obtain ⟨g1, g2, g3⟩ := hlast _ rfl
    obtain ⟨h1, h2, -, h3⟩ := loopGen_spec hrec hB'.1 hwB hs.app_right hB'.2.1
    have hfB : (leaves B).filter (fun kv => decide (key ≤ kv.1)) = leaves B :=
      List.filter_eq_self.2 fun kv hkv => by simpa using hB'.2.1 kv hkv
    have e : walkGen E rd (f + 1) n key =
        ⟨entryReads n ++ ((prevGen (fun m => walkGen E rd f m key)
          (if (0 : Int) < (l.length : Int) then asTree (l ++ r)[((l.length : Int) - 1).toNat]? else none)).evs ++
          (loopGen (fun m => walkGen E rd f m key) r).evs), none⟩ := by
      conv => lhs; unfold walkGen
      simp only [he, hi, pySlice_right, Gen.seq_none]
      simp only [Gen.seq, g1, h1]
    rw [e]
    refine ⟨rfl, ?_, ?_⟩
    · simp only [leavesIn_append, entryReads_leaves, g2, h2, List.nil_append, leaves_app, List.filter_append, hfB]
    · have := (entryReads_bounded n L).append (g3.append (h3 hB'.2.2))
      exact this.mono (by omega) (Nat.le_refl _)

/-! ### Consumers -/

/-- The loop of `list`, on everything that the generator yields. -/
def listLoop (after before : Option Key) : List (Key × C) → List (Key × C)
  | [] => []
  | (k, v) :: rest =>
    if some k = after then listLoop after before rest
    else if (match before with | some b => decide (b ≠ [] ∧ b ≤ k) | none => false) then []
    else (k, v) :: listLoop after before rest

/-- The loop of `list_with_prefix`, on everything that the generator yields. -/
def prefixLoop (pre : Key) : List (Key × C) → List (Key × C)
  | [] => []
  | (k, v) :: rest => if startsWith k pre then (k, v) :: prefixLoop pre rest else []

theorem listLoop_isPast (after before : Option Key) (k : Key) (v : C) (r : List (Key × C)) :
    listLoop after before ((k, v) :: r) = if some k = after then listLoop after before r
      else if isPast before k then [] else (k, v) :: listLoop after before r := by
  cases before <;> rfl

theorem listRun_none (after before : Option Key) : ∀ evs : List (Ev C),
    (listRun after before none evs).result = .ok (listLoop after before (leavesIn evs))
  | [] => rfl
  | .read c :: r => listRun_none after before r
  | .leaf k v :: r => by
    have ih := listRun_none after before r
    unfold listRun
    simp only [leavesIn, listLoop_isPast]
    by_cases h1 : some k = after
    · rw [if_pos h1, if_pos h1, ih]
    · rw [if_neg h1, if_neg h1]
      cases isPast before k with
      | true => rfl
      | false => simp [Got.cons, ih, Except.map]

theorem prefixRun_none (pre : Key) : ∀ evs : List (Ev C),
    (prefixRun pre none evs).result = .ok (prefixLoop pre (leavesIn evs))
  | [] => rfl
  | .read c :: r => prefixRun_none pre r
  | .leaf k v :: r => by
    have ih := prefixRun_none pre r
    simp only [prefixRun, leavesIn, prefixLoop]
    split
    · simp [Got.cons, ih, Except.map]
    · rfl

theorem pageRun_none (pre : Key) : ∀ (limit : Nat) (evs : List (Ev C)),
    (pageRun pre none limit evs).result = .ok (((leavesIn evs).takeWhile fun kv => startsWith kv.1 pre).take limit)
  | 0, _ => by simp [pageRun]
  | n + 1, [] => rfl
  | n + 1, .read c :: r => pageRun_none pre (n + 1) r
  | n + 1, .leaf k v :: r => by
    have ih := pageRun_none pre n r
    simp only [pageRun, leavesIn]
    by_cases h : startsWith k pre = true
    · simp [h, Got.cons, ih, Except.map]
    · simp [h]

theorem listRun_reads (after before : Option Key) (stop : Option Err) : ∀ evs : List (Ev C),
    ∃ p, p <+: evs ∧ (listRun after before stop evs).reads = readsIn p ∧
      ∀ l, (listRun after before stop evs).result = .ok l →
        (leavesIn p).length ≤ l.length + 1 + (leavesIn evs).countP fun kv => some kv.1 = after
  | [] => ⟨[], List.prefix_rfl, by cases stop <;> rfl, fun _ _ => by simp [leavesIn]⟩
  | .read c :: r => by
    obtain ⟨p, h1, h2, h3⟩ := listRun_reads after before stop r
    exact ⟨.read c :: p, List.cons_prefix_cons.2 ⟨rfl, h1⟩, by simp [listRun, Got.read, readsIn, h2], h3⟩
  | .leaf k v :: r => by
    obtain ⟨p, h1, h2, h3⟩ := listRun_reads after before stop r
    unfold listRun
    by_cases g1 : some k = after
    · rw [if_pos g1]
      refine ⟨.leaf k v :: p, List.cons_prefix_cons.2 ⟨rfl, h1⟩, h2, fun l hl => ?_⟩
      have := h3 l hl
      simp only [leavesIn, List.length_cons, List.countP_cons, g1, decide_true, if_true]
      omega
    · rw [if_neg g1]
      cases isPast before k with
      | true =>
        refine ⟨[.leaf k v], List.cons_prefix_cons.2 ⟨rfl, List.nil_prefix⟩, rfl, fun l _ => ?_⟩
        simp only [leavesIn, List.length_cons, List.length_nil]
        omega
      | false =>
        rw [if_neg (by simp)]
        refine ⟨.leaf k v :: p, List.cons_prefix_cons.2 ⟨rfl, h1⟩, h2, fun l hl => ?_⟩
        simp only [Got.cons] at hl
        cases hr : (listRun after before stop r).result with
        | error e => rw [hr] at hl; cases hl
        | ok l' =>
          rw [hr] at hl
          cases hl
          have := h3 l' hr
          simp only [leavesIn, List.length_cons, List.countP_cons]
          omega

theorem prefixRun_reads (pre : Key) (stop : Option Err) : ∀ evs : List (Ev C),
    ∃ p, p <+: evs ∧ (prefixRun pre stop evs).reads = readsIn p ∧
      ∀ l, (prefixRun pre stop evs).result = .ok l → (leavesIn p).length ≤ l.length + 1
  | [] => ⟨[], List.prefix_rfl, by cases stop <;> rfl, fun _ _ => by simp [leavesIn]⟩
  | .read c :: r => by
    obtain ⟨p, h1, h2, h3⟩ := prefixRun_reads pre stop r
    exact ⟨.read c :: p, List.cons_prefix_cons.2 ⟨rfl, h1⟩, by simp [prefixRun, Got.read, readsIn, h2], h3⟩
  | .leaf k v :: r => by
    obtain ⟨p, h1, h2, h3⟩ := prefixRun_reads pre stop r
    unfold prefixRun
    by_cases g1 : startsWith k pre = true
    · rw [if_pos g1]
      refine ⟨.leaf k v :: p, List.cons_prefix_cons.2 ⟨rfl, h1⟩, h2, fun l hl => ?_⟩
      simp only [Got.cons] at hl
      cases hr : (prefixRun pre stop r).result with
      | error e => rw [hr] at hl; cases hl
      | ok l' =>
        rw [hr] at hl
        cases hl
        have := h3 l' hr
        simp only [leavesIn, List.length_cons]
        omega
    · rw [if_neg g1]
      refine ⟨[.leaf k v], List.cons_prefix_cons.2 ⟨rfl, List.nil_prefix⟩, rfl, fun l _ => ?_⟩
      simp only [leavesIn, List.length_cons, List.length_nil]
      omega

theorem pageRun_reads (pre : Key) (stop : Option Err) : ∀ (limit : Nat) (evs : List (Ev C)),
    ∃ p, p <+: evs ∧ (pageRun pre stop limit evs).reads = readsIn p ∧ (leavesIn p).length ≤ limit ∧
      (limit = 0 → p = []) ∧
      ∀ l, (pageRun pre stop limit evs).result = .ok l → (leavesIn p).length ≤ l.length + 1
  | 0, _ => ⟨[], List.nil_prefix, by simp [pageRun, readsIn], by simp [leavesIn], fun _ => rfl, fun _ _ => by simp [leavesIn]⟩
  | n + 1, [] =>
    ⟨[], List.prefix_rfl, by cases stop <;> rfl, by simp [leavesIn], fun _ => rfl, fun _ _ => by simp [leavesIn]⟩
  | n + 1, .read c :: r => by
    obtain ⟨p, h1, h2, h3, h4, h5⟩ := pageRun_reads pre stop (n + 1) r
    exact ⟨.read c :: p, List.cons_prefix_cons.2 ⟨rfl, h1⟩, by simp [pageRun, Got.read, readsIn, h2], h3,
      fun h => (nomatch h), h5⟩
  | n + 1, .leaf k v :: r => by
    obtain ⟨p, h1, h2, h3, h4, h5⟩ := pageRun_reads pre stop n r
    unfold pageRun
    by_cases g1 : startsWith k pre = true
    · rw [if_pos g1]
      refine ⟨.leaf k v :: p, List.cons_prefix_cons.2 ⟨rfl, h1⟩, h2, ?_, fun h => (nomatch h), fun l hl => ?_⟩
      · simp only [leavesIn, List.length_cons]
        omega
      · simp only [Got.cons] at hl
        cases hr : (pageRun pre stop n r).result with
        | error e => rw [hr] at hl; cases hl
        | ok l' =>
          rw [hr] at hl
          cases hl
          have := h5 l' hr
          simp only [leavesIn, List.length_cons]
          omega
    · rw [if_neg g1]
      refine ⟨[.leaf k v], List.cons_prefix_cons.2 ⟨rfl, List.nil_prefix⟩, rfl, ?_, fun h => (nomatch h), fun l _ => ?_⟩
      · simp only [leavesIn, List.length_cons, List.length_nil]
        omega
      · simp only [leavesIn, List.length_cons, List.length_nil]
        omega

/-! ### On a tree whose blocks are all there -/

section
variable {f L : Nat} {t : Tree C} {n : Node C} (hn : ReprN E rd L t n) (hwf : WF E.zeros L t) (hs : Sorted t) (hf : L + 1 ≤ f)
include hn hwf hs hf

theorem walkLeavesFrom_spec {key : Key} :
    walkLeavesFrom E rd f n key = .ok ((leaves t).filter (fun kv => decide (key ≤ kv.1))) := by
  obtain ⟨h1, h2, -⟩ := walkGen_spec (key := key) hn hwf hs hf
  simp only [walkLeavesFrom, Gen.all, h1, h2]

theorem list_loop (after before : Option Key) : list E rd f n after before =
    .ok (listLoop after before ((leaves t).filter fun kv => decide (after.getD [] ≤ kv.1))) := by
  obtain ⟨h1, h2, -⟩ := walkGen_spec (key := after.getD []) hn hwf hs hf
  simp only [list, listLazy, h1, listRun_none, h2]

theorem listWithPrefix_loop (pre : Key) : listWithPrefix E rd f n pre =
    .ok (prefixLoop pre ((leaves t).filter fun kv => decide (pre ≤ kv.1))) := by
  obtain ⟨h1, h2, -⟩ := walkGen_spec (key := pre) hn hwf hs hf
  simp only [listWithPrefix, listWithPrefixLazy, h1, prefixRun_none, h2]

theorem pageLazy_spec (pre : Key) (limit : Nat) (start : Key) : (pageLazy E rd f n pre limit start).result =
    .ok ((((leaves t).filter fun kv => decide (start ≤ kv.1)).takeWhile fun kv => startsWith kv.1 pre).take limit) := by
  obtain ⟨h1, h2, -⟩ := walkGen_spec (key := start) hn hwf hs hf
  simp only [pageLazy, h1, pageRun_none, h2]

theorem listLazy_reads (after before : Option Key) {l : List (Key × C)}
    (hl : (listLazy E rd f n after before).result = .ok l) :
    (listLazy E rd f n after before).reads.length ≤ (L + 1) + L * (l.length + 2) := by
  obtain ⟨h1, h2, h3⟩ := walkGen_spec (key := after.getD []) hn hwf hs hf
  unfold listLazy at hl ⊢
  dsimp only at hl ⊢
  obtain ⟨p, g1, g2, g3⟩ := listRun_reads after before (walkGen E rd f n (after.getD [])).stop (walkGen E rd f n (after.getD [])).evs
  rw [g2]
  refine (h3 p g1).trans (Nat.add_le_add_left (Nat.mul_le_mul_left _ ((g3 l hl).trans ?_)) _)
  have : ((leavesIn (walkGen E rd f n (after.getD [])).evs).countP fun kv => some kv.1 = after) ≤ 1 := by
    rw [h2]
    have hs' := List.Pairwise.filter (fun kv : Key × C => decide (after.getD [] ≤ kv.1)) hs
    generalize (leaves t).filter (fun kv => decide (after.getD [] ≤ kv.1)) = xs at hs'
    induction xs with
    | nil => simp
    | cons x xs ih =>
      rw [List.pairwise_cons] at hs'
      rw [List.countP_cons]
      by_cases hx : some x.1 = after
      · have : (xs.countP fun kv => some kv.1 = after) = 0 := by
          rw [List.countP_eq_zero]
          intro y hy h
          have h1 := hs'.1 y hy
          rw [decide_eq_true_eq, ← hx, Option.some.injEq] at h
          rw [h] at h1
          exact lt_irrefl _ h1
        simp [this, hx]
      · have := ih hs'.2
        simpa [hx] using this
  omega

theorem listWithPrefixLazy_reads (pre : Key) {l : List (Key × C)} (hl : (listWithPrefixLazy E rd f n pre).result = .ok l) :
    (listWithPrefixLazy E rd f n pre).reads.length ≤ (L + 1) + L * (l.length + 1) := by
  obtain ⟨h1, h2, h3⟩ := walkGen_spec (key := pre) hn hwf hs hf
  unfold listWithPrefixLazy at hl ⊢
  dsimp only at hl ⊢
  obtain ⟨p, g1, g2, g3⟩ := prefixRun_reads pre (walkGen E rd f n pre).stop (walkGen E rd f n pre).evs
  rw [g2]
  exact (h3 p g1).trans (Nat.add_le_add_left (Nat.mul_le_mul_left _ (g3 l hl)) _)

theorem pageLazy_reads (pre : Key) (limit : Nat) (start : Key) :
    (pageLazy E rd f n pre limit start).reads.length ≤ (L + 1) + L * limit ∧
    ∀ l, (pageLazy E rd f n pre limit start).result = .ok l →
      (pageLazy E rd f n pre limit start).reads.length ≤ (L + 1) + L * (l.length + 1) := by
  obtain ⟨h1, h2, h3⟩ := walkGen_spec (key := start) hn hwf hs hf
  unfold pageLazy
  dsimp only
  obtain ⟨p, g1, g2, g3, g4, g5⟩ := pageRun_reads pre (walkGen E rd f n start).stop limit (walkGen E rd f n start).evs
  rw [g2]
  exact ⟨(h3 p g1).trans (Nat.add_le_add_left (Nat.mul_le_mul_left _ g3) _),
    fun l hl => (h3 p g1).trans (Nat.add_le_add_left (Nat.mul_le_mul_left _ (g5 l hl)) _)⟩

end

end

end Arroba
