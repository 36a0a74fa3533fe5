import Verif.Mst.CovProofs
import Verif.Mst.Exec

/-! # Lemmas: each operation needs only the blocks around its key -/

namespace Arroba

variable {C : Type}

section
variable {E : Env C} {rd rd' : C → Option (NodeData C)} {D : Key → Prop} {lo hi : Option Key} {p : Key}

theorem Within.touch (h : Within p lo hi) (hp : D p) : Touch D lo hi := ⟨p, hp, .inr (.inr h)⟩

theorem Touch.onHi (hp : D p) : Touch D lo (some p) := ⟨p, hp, .inr (.inl rfl)⟩

theorem Touch.onLo (hp : D p) : Touch D (some p) hi := ⟨p, hp, .inl rfl⟩

/-- What the search for a key finds in a list of entries. -/
theorem findGe_split (p : Key) (es : List (Ent C)) : ∃ l r, es = l ++ r ∧ findGeIdx p (l ++ r) = l.length ∧
    ¬ startsT r ∧ ∀ lo hi, Within p lo hi → Within p (lastKeyE lo l) (firstKeyE hi r) := by
  induction es with
  | nil => exact ⟨[], [], rfl, rfl, by simp [startsT], fun _ _ h => h⟩
  | cons x es ih =>
    obtain ⟨l, r, rfl, h1, h2, h3⟩ := ih
    cases x with
    | tree m =>
      refine ⟨.tree m :: l, r, rfl, by simp [findGeIdx, h1], h2, fun lo hi h => ?_⟩
      exact h3 lo hi h
    | leaf k v =>
      by_cases hk : p ≤ k
      · refine ⟨[], .leaf k v :: (l ++ r), rfl, by simp [findGeIdx, hk], by simp [startsT], fun lo hi h => ?_⟩
        exact ⟨h.1, fun k' hk' => by cases hk'; exact hk⟩
      · refine ⟨.leaf k v :: l, r, rfl, by simp [findGeIdx, hk, h1], h2, fun lo hi h => ?_⟩
        exact h3 (some k) hi ⟨fun k' hk' => by cases hk'; exact le_of_lt (not_le.1 hk), h.2⟩

/-- A covered node, seen from a key in its range. -/
theorem CovN.at (hrd : RdLe rd' rd) {n : Node C} (h : CovN E rd' D lo hi n) (hw : Within p lo hi) : ∃ l r,
    getEntries E rd n = .ok (l ++ r) ∧ getEntries E rd' n = .ok (l ++ r) ∧ findGeIdx p (l ++ r) = l.length ∧
    ¬ startsT r ∧ Within p (lastKeyE lo l) (firstKeyE hi r) ∧ NoAdj (l ++ r) ∧
    Cov E rd' D lo (firstKeyE hi r) l ∧ Cov E rd' D (lastKeyE lo l) hi r := by
  obtain ⟨es, h1, h2, h3, h4⟩ := CovN.iff.1 h
  obtain ⟨l, r, rfl, h5, h6, h7⟩ := findGe_split p es
  exact ⟨l, r, getEntries_mono hrd _ _ h1, h1, h5, h6, h7 _ _ hw, h3, Cov_append.1 h4⟩

theorem asTree_last {l : List (Ent C)} {m : Node C} (h : asTree l.getLast? = some m) : ∃ l', l = l' ++ [.tree m] := by
  rcases List.eq_nil_or_concat' l with rfl | ⟨l', x, rfl⟩
  · simp [asTree] at h
  · cases x with
    | leaf k v => simp [asTree] at h
    | tree m' =>
      simp only [List.getLast?_append, List.getLast?_singleton, Option.some_or, asTree, Option.some.injEq] at h
      exact ⟨l', by rw [h]⟩

theorem asTree_head {r : List (Ent C)} {m : Node C} (h : asTree r.head? = some m) : ∃ r', r = .tree m :: r' := by
  cases r with
  | nil => simp [asTree] at h
  | cons x r =>
    cases x with
    | leaf k v => simp [asTree] at h
    | tree m' =>
      simp only [List.head?_cons, asTree, Option.some.injEq] at h
      exact ⟨r, by rw [h]⟩

theorem leafHit_head {r : List (Ent C)} {v : C} (h : leafHit p r.head? = some v) : ∃ r', r = .leaf p v :: r' := by
  cases r with
  | nil => simp [leafHit] at h
  | cons x r =>
    cases x with
    | tree m => simp [leafHit] at h
    | leaf k w =>
      simp only [List.head?_cons, leafHit] at h
      split at h
      · rename_i hk
        cases h
        exact ⟨r, by rw [hk]⟩
      · cases h

/-- The child before the place of the key. -/
theorem Cov.prev {l r : List (Ent C)} {m : Node C}
    (hc : Cov E rd' D lo (firstKeyE hi r) (l ++ [.tree m])) (hp : D p)
    (hw : Within p (lastKeyE lo (l ++ [.tree m])) (firstKeyE hi r)) :
    CovN E rd' D (lastKeyE lo l) (firstKeyE hi r) m ∧ Within p (lastKeyE lo l) (firstKeyE hi r) := by
  have h1 : Within p (lastKeyE lo l) (firstKeyE hi r) := by rwa [lastKeyE_append] at hw
  exact ⟨(hc l m [] rfl).2 (h1.touch hp), h1⟩

/-! ### get -/

theorem get_cov (hrd : RdLe rd' rd) (hp : D p) : ∀ {f : Nat} {n : Node C} {v : Option C} {lo hi : Option Key},
    CovN E rd' D lo hi n → Within p lo hi → get E rd f n p = .ok v → get E rd' f n p = .ok v
  | 0, _, _, _, _, _, _, h => by simp [get] at h
  | f + 1, n, v, lo, hi, hc, hw, h => by
    obtain ⟨l, r, e, e', hidx, hr, hw', hn, hl, hrr⟩ := hc.at hrd hw
    unfold get at h ⊢
    simp only [find_eq e hidx, find_eq e' hidx, ok_bind, atIndex_at e, atIndex_at e', atIndex_prev e,
      atIndex_prev e'] at h ⊢
    cases hh : leafHit p r.head? with
    | some w => rw [hh] at h; exact h
    | none =>
      rw [hh] at h
      dsimp only at h ⊢
      cases ht : asTree l.getLast? with
      | none => rw [ht] at h; exact h
      | some m =>
        rw [ht] at h
        obtain ⟨l', rfl⟩ := asTree_last ht
        obtain ⟨h1, h2⟩ := hl.prev hp hw'
        exact get_cov hrd hp h1 h2 h

/-! ### split -/

/-- A covered optional node. -/
def CovO (E : Env C) (rd' : C → Option (NodeData C)) (D : Key → Prop) (lo hi : Option Key) (o : Option (Node C)) : Prop :=
  ∀ n, o = some n → CovN E rd' D lo hi n

theorem CovO.cov {o : Option (Node C)} (h : CovO E rd' D lo hi o) : Cov E rd' D lo hi (optTree o) := by
  cases o with
  | none => exact Cov_nil
  | some n => exact Cov_tree.2 ⟨⟨(h n rfl).fresh, fun _ => h n rfl⟩, Cov_nil⟩

theorem firstKeyE_opt {o : Option (Node C)} : firstKeyE hi (optTree o) = hi := by cases o <;> rfl

theorem lastKeyE_opt {o : Option (Node C)} : lastKeyE lo (optTree o) = lo := by cases o <;> rfl

theorem NoAdj_opt {o : Option (Node C)} : NoAdj (optTree o) := by cases o <;> simp [optTree, NoAdj]

theorem NoAdj_opt_left {o : Option (Node C)} {r : List (Ent C)} (hn : NoAdj r) (h : ¬ startsT r) :
    NoAdj (optTree o ++ r) := NoAdj_append.2 ⟨NoAdj_opt, hn, fun h' => h h'.2⟩

theorem NoAdj_opt_right {o : Option (Node C)} {l : List (Ent C)} (hn : NoAdj l) (h : ¬ endsT l) :
    NoAdj (l ++ optTree o) := NoAdj_append.2 ⟨hn, NoAdj_opt, fun h' => h h'.1⟩

theorem NoAdj_snoc {l : List (Ent C)} {m : Node C} (h : NoAdj (l ++ [.tree m])) : ¬ endsT l :=
  fun h' => (NoAdj_append.1 h).2.2 ⟨h', trivial⟩

theorem nonEmpty_cov {n : Node C} {es : List (Ent C)} (h : n.entries = some es) :
    nonEmpty E rd n = .ok (if es.isEmpty then none else some n) := by
  unfold nonEmpty getEntries
  rw [h]
  rfl

theorem appendOpt_eq {n : Node C} {es : List (Ent C)} {o : Option (Node C)} :
    ∃ n', (∀ rd, appendOpt E rd (newTree n es) o = .ok (newTree n' (es ++ optTree o))) := by
  cases o with
  | none => exact ⟨n, fun rd => by simp [appendOpt, optTree]⟩
  | some m => exact ⟨newTree n es, fun rd => rfl⟩

theorem prependOpt_eq {n : Node C} {es : List (Ent C)} {o : Option (Node C)} :
    ∃ n', (∀ rd, prependOpt E rd (newTree n es) o = .ok (newTree n' (optTree o ++ es))) := by
  cases o with
  | none => exact ⟨n, fun rd => by simp [prependOpt, optTree]⟩
  | some m => exact ⟨newTree n es, fun rd => rfl⟩

theorem CovO.nonEmpty {n : Node C} {es : List (Ent C)} (hn : NoAdj es) (h : Cov E rd' D lo hi es) :
    CovO E rd' D lo hi (if es.isEmpty then none else some (Arroba.newTree n es)) := by
  intro m hm
  split at hm
  · cases hm
  · cases hm
    exact .newTree hn h

theorem splitAround_cov (hrd : RdLe rd' rd) (hp : D p) : ∀ {f : Nat} {n : Node C} {ab : Option (Node C) × Option (Node C)}
    {lo hi : Option Key}, CovN E rd' D lo hi n → Within p lo hi → splitAround E rd f n p = .ok ab →
    splitAround E rd' f n p = .ok ab ∧ CovO E rd' D lo (some p) ab.1 ∧ CovO E rd' D (some p) hi ab.2
  | 0, _, _, _, _, _, _, h => by simp [splitAround] at h
  | f + 1, n, ab, lo, hi, hc, hw, h => by
    obtain ⟨l, r, e, e', hidx, hr, hw', hn, hl, hrr⟩ := hc.at hrd hw
    obtain ⟨hnl, hnr, _⟩ := NoAdj_append.1 hn
    unfold splitAround at h ⊢
    simp only [find_eq e hidx, find_eq e' hidx, ok_bind, slice_left e, slice_left e', slice_right e,
      slice_right e'] at h ⊢
    cases ht : asTree l.getLast? with
    | none =>
      rw [ht] at h
      have hend := endsT_asTree ht
      simp only [nonEmpty_cov (rd := rd) (n := newTree n l) (es := l) rfl,
        nonEmpty_cov (rd := rd) (n := newTree n r) (es := r) rfl,
        nonEmpty_cov (rd := rd') (n := newTree n l) (es := l) rfl,
        nonEmpty_cov (rd := rd') (n := newTree n r) (es := r) rfl, ok_bind, Except.ok.injEq] at h ⊢
      subst h
      exact ⟨rfl, .nonEmpty hnl (hl.any_hi hend), .nonEmpty hnr (hrr.any_lo hr)⟩
    | some m =>
      rw [ht] at h
      obtain ⟨l', rfl⟩ := asTree_last ht
      obtain ⟨h1, h2⟩ := hl.prev hp hw'
      have hend := NoAdj_snoc hnl
      have hidx' : ((l' ++ [Ent.tree m]).length : Int) - 1 = (l'.length : Int) := by simp
      simp only [hidx', removeEntry_eq (rd := rd) (n := newTree n (l' ++ [.tree m])) (l := l') (x := .tree m) (r := []) rfl,
        removeEntry_eq (rd := rd') (n := newTree n (l' ++ [.tree m])) (l := l') (x := .tree m) (r := []) rfl,
        ok_bind, List.append_nil] at h ⊢
      cases hs : splitAround E rd f m p with
      | error x => rw [hs] at h; cases h
      | ok cd =>
        obtain ⟨c, d⟩ := cd
        obtain ⟨i1, i2, i3⟩ := splitAround_cov hrd hp h1 h2 hs
        obtain ⟨n1, a1⟩ := appendOpt_eq (E := E) (n := newTree n (l' ++ [.tree m])) (es := l') (o := c)
        obtain ⟨n2, a2⟩ := prependOpt_eq (E := E) (n := n) (es := r) (o := d)
        simp only [hs, i1, ok_bind, a1, a2, nonEmpty_cov (rd := rd) (n := newTree n1 (l' ++ optTree c)) (es := l' ++ optTree c) rfl,
          nonEmpty_cov (rd := rd) (n := newTree n2 (optTree d ++ r)) (es := optTree d ++ r) rfl,
          nonEmpty_cov (rd := rd') (n := newTree n1 (l' ++ optTree c)) (es := l' ++ optTree c) rfl,
          nonEmpty_cov (rd := rd') (n := newTree n2 (optTree d ++ r)) (es := optTree d ++ r) rfl, Except.ok.injEq] at h ⊢
        subst h
        refine ⟨rfl, .nonEmpty (NoAdj_opt_right (NoAdj_append.1 hnl).1 hend) ?_,
          .nonEmpty (NoAdj_opt_left hnr hr) ?_⟩
        · refine Cov_append.2 ⟨?_, i2.cov⟩
          rw [firstKeyE_opt]
          exact (Cov_append.1 hl).1.any_hi hend
        · refine Cov_append.2 ⟨i3.cov, ?_⟩
          rw [lastKeyE_opt]
          exact hrr.any_lo hr

/-! ### merge -/

theorem appendMerge_cov (hrd : RdLe rd' rd) (hp : D p) : ∀ {f : Nat} {n m x : Node C} {lo hi : Option Key},
    CovN E rd' D lo (some p) n → CovN E rd' D (some p) hi m → appendMerge E rd f n m = .ok x →
    appendMerge E rd' f n m = .ok x ∧ CovN E rd' D lo hi x
  | 0, _, _, _, _, _, _, _, h => by simp [appendMerge] at h
  | f + 1, n, m, x, lo, hi, hn, hm, h => by
    obtain ⟨es, e1, e2, e3, e4⟩ := CovN.iff.1 hn
    obtain ⟨ms, m1, m2, m3, m4⟩ := CovN.iff.1 hm
    unfold appendMerge at h ⊢
    cases hl1 : getLayer E rd f n with
    | error e => rw [hl1] at h; cases h
    | ok l1 =>
    cases hl2 : getLayer E rd f m with
    | error e => rw [hl1, hl2] at h; cases h
    | ok l2 =>
    simp only [hl1, hl2, getLayer_cov hrd hn (.onHi hp) hl1, getLayer_cov hrd hm (.onLo hp) hl2, ok_bind] at h ⊢
    by_cases hne : l1 ≠ l2
    · simp [hne] at h
    · simp only [hne, if_false, getEntries_setLayer, e1, m1, getEntries_mono hrd _ _ e1, getEntries_mono hrd _ _ m1,
        ok_bind] at h ⊢
      by_cases hemp : es.isEmpty ∨ ms.isEmpty
      · simp only [hemp, if_true] at h; cases h
      · simp only [hemp, if_false] at h ⊢
        cases ha : asTree es.getLast? with
        | none =>
          rw [ha] at h
          have hx : x = newTree (n.setLayer l1) (es ++ ms) := by cases h; rfl
          subst hx
          refine ⟨rfl, .newTree (NoAdj_append.2 ⟨e3, m3, fun h' => endsT_asTree ha h'.1⟩)
            (Cov_append.2 ⟨e4.widen_hi hp, m4.widen_lo hp⟩)⟩
        | some y =>
          cases hb : asTree ms.head? with
          | none =>
            rw [ha, hb] at h
            have hx : x = newTree (n.setLayer l1) (es ++ ms) := by cases h; rfl
            subst hx
            refine ⟨rfl, .newTree (NoAdj_append.2 ⟨e3, m3, fun h' => startsT_asTree hb h'.2⟩)
              (Cov_append.2 ⟨e4.widen_hi hp, m4.widen_lo hp⟩)⟩
          | some z =>
            rw [ha, hb] at h
            obtain ⟨l, rfl⟩ := asTree_last ha
            obtain ⟨r, rfl⟩ := asTree_head hb
            dsimp only at h ⊢
            have cy := (e4 l y [] rfl).2 (.onHi hp)
            have cz := (m4 [] z r rfl).2 (.onLo hp)
            cases hr : appendMerge E rd f y z with
            | error e => rw [hr] at h; cases h
            | ok w =>
              rw [hr] at h
              obtain ⟨i1, i2⟩ := appendMerge_cov hrd hp cy cz hr
              rw [i1]
              refine ⟨h, ?_⟩
              have s1 : pySlice (l ++ [Ent.tree y]) 0 (some (-1)) = l := by
                simp [pySlice, sliceBound]
              have s2 : pySlice (Ent.tree z :: r) 1 none = r := by
                have := pySlice_right' [] (Ent.tree z) r
                simpa using this
              simp only [ok_bind, s1, s2, Except.ok.injEq] at h
              subst h
              obtain ⟨hr', hnr⟩ := NoAdj_tree.1 m3
              have hend := NoAdj_snoc e3
              rw [List.append_assoc]
              refine .newTree (NoAdj_append.2 ⟨(NoAdj_append.1 e3).1, NoAdj_tree.2 ⟨hr', hnr⟩, fun h' => hend h'.1⟩) ?_
              refine Cov_append.2 ⟨(Cov_append.1 e4).1.any_hi hend, ?_⟩
              exact Cov_tree.2 ⟨⟨i2.fresh, fun _ => i2⟩, (Cov_tree.1 m4).2.any_lo hr'⟩

/-! ### trim -/

theorem trimTop_cov (hrd : RdLe rd' rd) (ht : Touch D lo hi) : ∀ {f : Nat} {n x : Node C},
    CovN E rd' D lo hi n → trimTop E rd f n = .ok x → trimTop E rd' f n = .ok x ∧ CovN E rd' D lo hi x
  | 0, _, _, _, h => by simp [trimTop] at h
  | f + 1, n, x, hn, h => by
    obtain ⟨es, e1, e2, e3, e4⟩ := CovN.iff.1 hn
    unfold trimTop at h ⊢
    simp only [e1, getEntries_mono hrd _ _ e1, ok_bind] at h ⊢
    split at h
    · rename_i m
      exact trimTop_cov hrd ht ((e4 [] m [] rfl).2 ht) h
    · rename_i hne
      cases h
      exact ⟨rfl, hn⟩

/-! ### update -/

theorem update_cov {v : C} (hrd : RdLe rd' rd) (hp : D p) : ∀ {f : Nat} {n x : Node C} {lo hi : Option Key},
    CovN E rd' D lo hi n → Within p lo hi → update E rd f n p v = .ok x →
    update E rd' f n p v = .ok x ∧ CovN E rd' D lo hi x
  | 0, _, _, _, _, _, _, h => by simp [update] at h
  | f + 1, n, x, lo, hi, hc, hw, h => by
    obtain ⟨l, r, e, e', hidx, hr, hw', hn, hl, hrr⟩ := hc.at hrd hw
    obtain ⟨hnl, hnr, _⟩ := NoAdj_append.1 hn
    unfold update at h ⊢
    cases hv : ensureValidKey p with
    | error er => rw [hv] at h; cases h
    | ok u =>
    simp only [hv, find_eq e hidx, find_eq e' hidx, ok_bind, atIndex_at e, atIndex_at e', atIndex_prev e,
      atIndex_prev e'] at h ⊢
    cases hh : leafHit p r.head? with
    | some w =>
      rw [hh] at h
      obtain ⟨r', rfl⟩ := leafHit_head hh
      simp only [updateEntry_eq e, updateEntry_eq e', Except.ok.injEq] at h ⊢
      subst h
      refine ⟨rfl, .newTree (NoAdj_append.2 ⟨hnl, ?_, fun h' => h'.2⟩) (Cov_append.2 ⟨hl, ?_⟩)⟩
      · exact NoAdj_leaf.2 (NoAdj_leaf.1 hnr)
      · exact Cov_leaf.2 (Cov_leaf.1 hrr)
    | none =>
      rw [hh] at h
      dsimp only at h ⊢
      cases ht : asTree l.getLast? with
      | none => rw [ht] at h; cases h
      | some m =>
        rw [ht] at h
        obtain ⟨l', rfl⟩ := asTree_last ht
        obtain ⟨h1, h2⟩ := hl.prev hp hw'
        have hidx' : ((l' ++ [Ent.tree m]).length : Int) - 1 = (l'.length : Int) := by simp
        rw [List.append_assoc] at e e'
        dsimp only at h ⊢
        cases hs : update E rd f m p v with
        | error er => rw [hs] at h; cases h
        | ok y =>
          obtain ⟨i1, i2⟩ := update_cov hrd hp h1 h2 hs
          simp only [hs, i1, ok_bind, hidx', updateEntry_eq e, updateEntry_eq e', List.singleton_append,
            List.nil_append, Except.ok.injEq] at h ⊢
          subst h
          refine ⟨rfl, .newTree (NoAdj_append.2 ⟨(NoAdj_append.1 hnl).1, NoAdj_tree.2 ⟨hr, hnr⟩,
            fun h' => NoAdj_snoc hnl h'.1⟩) (Cov_append.2 ⟨(Cov_append.1 hl).1, ?_⟩)⟩
          rw [lastKeyE_append] at hrr
          exact Cov_tree.2 ⟨⟨i2.fresh, fun _ => i2⟩, hrr⟩

/-! ### delete -/

theorem deleteRecurse_cov (hrd : RdLe rd' rd) (hp : D p) : ∀ {f : Nat} {n x : Node C} {lo hi : Option Key},
    CovN E rd' D lo hi n → Within p lo hi → deleteRecurse E rd f n p = .ok x →
    deleteRecurse E rd' f n p = .ok x ∧ CovN E rd' D lo hi x
  | 0, _, _, _, _, _, _, h => by simp [deleteRecurse] at h
  | f + 1, n, x, lo, hi, hc, hw, h => by
    obtain ⟨l, r, e, e', hidx, hr, hw', hn, hl, hrr⟩ := hc.at hrd hw
    obtain ⟨hnl, hnr, _⟩ := NoAdj_append.1 hn
    unfold deleteRecurse at h ⊢
    simp only [find_eq e hidx, find_eq e' hidx, ok_bind, atIndex_at e, atIndex_at e', atIndex_prev e,
      atIndex_prev e'] at h ⊢
    cases hh : leafHit p r.head? with
    | some w =>
      rw [hh] at h
      obtain ⟨r', rfl⟩ := leafHit_head hh
      have hrr' : Cov E rd' D (some p) hi r' := Cov_leaf.1 hrr
      have hnr' := NoAdj_leaf.1 hnr
      have hl' : Cov E rd' D lo (some p) l := hl
      simp only [atIndex_next e, atIndex_next e', ok_bind] at h ⊢
      have plain : ¬ (endsT l ∧ startsT r') → CovN E rd' D lo hi (newTree n (l ++ r')) := fun hnt =>
        .newTree (NoAdj_append.2 ⟨hnl, hnr', hnt⟩) (Cov_append.2 ⟨hl'.widen_hi hp, hrr'.widen_lo hp⟩)
      cases ha : asTree l.getLast? with
      | none =>
        rw [ha] at h
        dsimp only at h ⊢
        rw [removeEntry_eq e] at h
        rw [removeEntry_eq e']
        cases h
        exact ⟨rfl, plain fun h' => endsT_asTree ha h'.1⟩
      | some y =>
        cases hb : asTree r'.head? with
        | none =>
          rw [ha, hb] at h
          dsimp only at h ⊢
          rw [removeEntry_eq e] at h
          rw [removeEntry_eq e']
          cases h
          exact ⟨rfl, plain fun h' => startsT_asTree hb h'.2⟩
        | some z =>
          rw [ha, hb] at h
          obtain ⟨l', rfl⟩ := asTree_last ha
          obtain ⟨r'', rfl⟩ := asTree_head hb
          dsimp only at h ⊢
          have cy := (hl' l' y [] rfl).2 (.onHi hp)
          have cz := (hrr' [] z r'' rfl).2 (.onLo hp)
          cases hs : appendMerge E rd f y z with
          | error er => rw [hs] at h; cases h
          | ok w' =>
            obtain ⟨i1, i2⟩ := appendMerge_cov hrd hp cy cz hs
            have hidx' : ((l' ++ [Ent.tree y]).length : Int) - 1 = (l'.length : Int) := by simp
            have sl : ∀ R, getEntries E R n = .ok (l' ++ [.tree y] ++ .leaf p w :: .tree z :: r'') →
                slice E R n 0 (some (l'.length : Int)) = .ok l' := fun R hR => by
              rw [List.append_assoc] at hR
              exact slice_left hR
            simp only [hs, i1, ok_bind, hidx', sl rd e, sl rd' e', slice_right2 e, slice_right2 e', Except.ok.injEq] at h ⊢
            subst h
            obtain ⟨hr', hnr''⟩ := NoAdj_tree.1 hnr'
            have hend := NoAdj_snoc hnl
            refine ⟨rfl, ?_⟩
            rw [List.append_assoc]
            refine .newTree (NoAdj_append.2 ⟨(NoAdj_append.1 hnl).1, NoAdj_tree.2 ⟨hr', hnr''⟩, fun h' => hend h'.1⟩) ?_
            refine Cov_append.2 ⟨(Cov_append.1 hl').1.any_hi hend, ?_⟩
            exact Cov_tree.2 ⟨⟨i2.fresh, fun _ => i2⟩, (Cov_tree.1 hrr').2.any_lo hr'⟩
    | none =>
      rw [hh] at h
      dsimp only at h ⊢
      cases ht : asTree l.getLast? with
      | none => rw [ht] at h; cases h
      | some m =>
        rw [ht] at h
        obtain ⟨l', rfl⟩ := asTree_last ht
        obtain ⟨h1, h2⟩ := hl.prev hp hw'
        have hidx' : ((l' ++ [Ent.tree m]).length : Int) - 1 = (l'.length : Int) := by simp
        rw [List.append_assoc] at e e'
        rw [lastKeyE_append] at hrr
        have hrr' : Cov E rd' D (lastKeyE lo l') hi r := hrr
        dsimp only at h ⊢
        cases hs : deleteRecurse E rd f m p with
        | error er => rw [hs] at h; cases h
        | ok y =>
          obtain ⟨i1, i2⟩ := deleteRecurse_cov hrd hp h1 h2 hs
          obtain ⟨es, y1, _⟩ := CovN.iff.1 i2
          simp only [hs, i1, ok_bind, y1, getEntries_mono hrd _ _ y1, hidx', updateEntry_eq e, updateEntry_eq e',
            removeEntry_eq e, removeEntry_eq e', List.singleton_append, List.nil_append] at h ⊢
          by_cases hem : es.isEmpty
          · simp only [hem, if_true, Except.ok.injEq] at h ⊢
            subst h
            exact ⟨rfl, .newTree (NoAdj_append.2 ⟨(NoAdj_append.1 hnl).1, hnr, fun h' => hr h'.2⟩)
              (Cov_append.2 ⟨(Cov_append.1 hl).1, hrr'⟩)⟩
          · simp only [hem, Bool.false_eq_true, if_false, Except.ok.injEq] at h ⊢
            subst h
            refine ⟨rfl, .newTree (NoAdj_append.2 ⟨(NoAdj_append.1 hnl).1, NoAdj_tree.2 ⟨hr, hnr⟩,
              fun h' => NoAdj_snoc hnl h'.1⟩) (Cov_append.2 ⟨(Cov_append.1 hl).1, ?_⟩)⟩
            exact Cov_tree.2 ⟨⟨i2.fresh, fun _ => i2⟩, hrr'⟩

theorem delete_cov (hrd : RdLe rd' rd) (hp : D p) {f : Nat} {n x : Node C} (hc : CovN E rd' D lo hi n)
    (hw : Within p lo hi) (h : delete E rd f n p = .ok x) :
    delete E rd' f n p = .ok x ∧ CovN E rd' D lo hi x := by
  unfold delete at h ⊢
  cases hs : deleteRecurse E rd f n p with
  | error er => rw [hs] at h; cases h
  | ok y =>
    obtain ⟨i1, i2⟩ := deleteRecurse_cov hrd hp hc hw hs
    rw [hs] at h
    rw [i1]
    exact trimTop_cov hrd (hw.touch hp) i2 h

/-! ### add -/

theorem createParent_cov (hrd : RdLe rd' rd) (ht : Touch D lo hi) {f : Nat} {n x : Node C} (hc : CovN E rd' D lo hi n)
    (h : createParent E rd f n = .ok x) : createParent E rd' f n = .ok x ∧ CovN E rd' D lo hi x := by
  unfold createParent at h ⊢
  cases hl : getLayer E rd f n with
  | error e => rw [hl] at h; cases h
  | ok l =>
    have hc' := hc.setLayer (l := l)
    simp only [hl, getLayer_cov hrd hc ht hl, ok_bind] at h ⊢
    have hfr : ∀ m, Ent.tree m ∈ [Ent.tree (n.setLayer l)] → FreshN m := by
      intro m hm
      simp only [List.mem_singleton, Ent.tree.injEq] at hm
      rw [hm]; exact hc'.fresh
    rw [create_fresh rd' rd hfr]
    refine ⟨h, ?_⟩
    unfold create at h
    cases hp : cidForEntries E rd f [.tree (n.setLayer l)] with
    | error e => rw [hp] at h; cases h
    | ok c =>
      rw [hp] at h
      simp only [ok_bind, Except.ok.injEq] at h
      subst h
      refine CovN.iff.2 ⟨[.tree (n.setLayer l)], rfl, ⟨fun h => by simp [Node.entries] at h, fun es he m hm => ?_⟩, trivial,
        Cov_tree.2 ⟨⟨hc'.fresh, fun _ => hc'⟩, Cov_nil⟩⟩
      simp only [Node.entries, Option.some.injEq] at he
      subst he
      exact hfr m hm

theorem addParents_cov (hrd : RdLe rd' rd) (ht : Touch D lo hi) {f : Nat} : ∀ {k : Nat} {o x : Option (Node C)},
    CovO E rd' D lo hi o → addParents E rd f k o = .ok x → addParents E rd' f k o = .ok x ∧ CovO E rd' D lo hi x
  | k, none, x, hc, h => by
    cases k <;> (unfold addParents at h ⊢; cases h; exact ⟨rfl, hc⟩)
  | 0, some n, x, hc, h => by
    unfold addParents at h ⊢
    cases h
    exact ⟨rfl, hc⟩
  | k + 1, some n, x, hc, h => by
    unfold addParents at h ⊢
    cases hs : createParent E rd f n with
    | error e => rw [hs] at h; cases h
    | ok y =>
      obtain ⟨i1, i2⟩ := createParent_cov hrd ht (hc n rfl) hs
      rw [hs] at h
      rw [i1]
      exact addParents_cov hrd ht (fun m hm => by cases hm; exact i2) h

theorem createChild_cov (hrd : RdLe rd' rd) (ht : Touch D lo hi) {f : Nat} {n x : Node C} (hc : CovN E rd' D lo hi n)
    (h : createChild E rd f n = .ok x) : createChild E rd' f n = .ok x ∧ ∀ lo hi, CovN E rd' D lo hi x := by
  unfold createChild at h ⊢
  cases hl : getLayer E rd f n with
  | error e => rw [hl] at h; cases h
  | ok l =>
    simp only [hl, getLayer_cov hrd hc ht hl, ok_bind] at h ⊢
    rw [create_fresh rd' rd (by simp)]
    refine ⟨h, fun lo hi => ?_⟩
    unfold create at h
    cases hp : cidForEntries E rd f [] with
    | error e => rw [hp] at h; cases h
    | ok c =>
      rw [hp] at h
      simp only [ok_bind, Except.ok.injEq] at h
      subst h
      refine CovN.iff.2 ⟨[], rfl, ⟨fun h => by simp [Node.entries] at h, fun es he m hm => ?_⟩, trivial, Cov_nil⟩
      simp only [Node.entries, Option.some.injEq] at he
      subst he
      simp at hm

theorem add_cov {v : C} (hrd : RdLe rd' rd) (hp : D p) : ∀ {f : Nat} {n x : Node C} {kn : Option Nat} {lo hi : Option Key},
    CovN E rd' D lo hi n → Within p lo hi → add E rd f n p v kn = .ok x →
    add E rd' f n p v kn = .ok x ∧ CovN E rd' D lo hi x
  | 0, _, _, _, _, _, _, _, h => by simp [add] at h
  | f + 1, n, x, kn, lo, hi, hc, hw, h => by
    unfold add at h ⊢
    cases hv : ensureValidKey p with
    | error er => rw [hv] at h; cases h
    | ok u =>
    cases hlay : getLayer E rd f n with
    | error er => rw [hv, hlay] at h; cases h
    | ok layer =>
    have hc' := hc.setLayer (l := layer)
    obtain ⟨l, r, e, e', hidx, hr, hw', hn, hl, hrr⟩ := hc'.at hrd hw
    obtain ⟨hnl, hnr, _⟩ := NoAdj_append.1 hn
    simp only [hv, hlay, getLayer_cov hrd hc (hw.touch hp) hlay, ok_bind] at h ⊢
    by_cases h1 : (keyZeros E p kn : Int) = layer
    · simp only [h1, if_true, find_eq e hidx, find_eq e' hidx, ok_bind, atIndex_at e, atIndex_at e', atIndex_prev e,
        atIndex_prev e'] at h ⊢
      cases hh : leafHit p r.head? with
      | some w => rw [hh] at h; cases h
      | none =>
        rw [hh] at h
        dsimp only at h ⊢
        cases ht : asTree l.getLast? with
        | none =>
          rw [ht] at h
          dsimp only at h ⊢
          have hend := endsT_asTree ht
          rw [spliceIn_eq e] at h
          rw [spliceIn_eq e']
          cases h
          refine ⟨rfl, .newTree (NoAdj_append.2 ⟨hnl, NoAdj_leaf.2 hnr, fun h' => hend h'.1⟩)
            (Cov_append.2 ⟨hl.any_hi hend, Cov_leaf.2 (hrr.any_lo hr)⟩)⟩
        | some m =>
          rw [ht] at h
          obtain ⟨l', rfl⟩ := asTree_last ht
          obtain ⟨c1, c2⟩ := hl.prev hp hw'
          have hidx' : ((l' ++ [Ent.tree m]).length : Int) - 1 = (l'.length : Int) := by simp
          have hend := NoAdj_snoc hnl
          rw [List.append_assoc] at e e'
          dsimp only at h ⊢
          cases hs : splitAround E rd f m p with
          | error er => rw [hs] at h; cases h
          | ok ab =>
            obtain ⟨a, b⟩ := ab
            obtain ⟨i1, i2, i3⟩ := splitAround_cov hrd hp c1 c2 hs
            simp only [hs, i1, ok_bind, hidx', replaceWithSplit_eq e, replaceWithSplit_eq e', Except.ok.injEq] at h ⊢
            subst h
            refine ⟨rfl, ?_⟩
            simp only [List.append_assoc, List.nil_append, List.singleton_append]
            refine .newTree (NoAdj_append.2 ⟨(NoAdj_append.1 hnl).1,
              NoAdj_append.2 ⟨NoAdj_opt, NoAdj_leaf.2 (NoAdj_opt_left hnr hr), fun h' => h'.2⟩, fun h' => hend h'.1⟩) ?_
            refine Cov_append.2 ⟨(Cov_append.1 hl).1.any_hi hend, Cov_append.2 ⟨i2.cov, Cov_leaf.2
              (Cov_append.2 ⟨i3.cov, ?_⟩)⟩⟩
            exact hrr.any_lo hr
    · simp only [h1, if_false] at h ⊢
      by_cases h2 : (keyZeros E p kn : Int) < layer
      · simp only [h2, if_true, find_eq e hidx, find_eq e' hidx, ok_bind, atIndex_prev e, atIndex_prev e'] at h ⊢
        cases ht : asTree l.getLast? with
        | none =>
          rw [ht] at h
          dsimp only at h ⊢
          have hend := endsT_asTree ht
          cases hs : createChild E rd f (n.setLayer layer) with
          | error er => rw [hs] at h; cases h
          | ok ch =>
            obtain ⟨j1, j2⟩ := createChild_cov hrd (hw.touch hp) hc' hs
            rw [hs] at h
            simp only [j1, ok_bind] at h ⊢
            cases ha : add E rd f ch p v (some (keyZeros E p kn)) with
            | error er => rw [ha] at h; cases h
            | ok y =>
              obtain ⟨i1, i2⟩ := add_cov hrd hp (j2 _ _) hw' ha
              rw [ha] at h
              simp only [i1, ok_bind, spliceIn_eq e, spliceIn_eq e', Except.ok.injEq] at h ⊢
              subst h
              refine ⟨rfl, .newTree (NoAdj_append.2 ⟨hnl, NoAdj_tree.2 ⟨hr, hnr⟩, fun h' => hend h'.1⟩)
                (Cov_append.2 ⟨hl, ?_⟩)⟩
              exact Cov_tree.2 ⟨⟨i2.fresh, fun _ => i2⟩, hrr⟩
        | some m =>
          rw [ht] at h
          obtain ⟨l', rfl⟩ := asTree_last ht
          obtain ⟨c1, c2⟩ := hl.prev hp hw'
          have hidx' : ((l' ++ [Ent.tree m]).length : Int) - 1 = (l'.length : Int) := by simp
          rw [List.append_assoc] at e e'
          rw [lastKeyE_append] at hrr
          have hrr' : Cov E rd' D (lastKeyE lo l') hi r := hrr
          dsimp only at h ⊢
          cases ha : add E rd f m p v (some (keyZeros E p kn)) with
          | error er => rw [ha] at h; cases h
          | ok y =>
            obtain ⟨i1, i2⟩ := add_cov hrd hp c1 c2 ha
            simp only [ha, i1, ok_bind, hidx', updateEntry_eq e, updateEntry_eq e', List.singleton_append,
              List.nil_append, Except.ok.injEq] at h ⊢
            subst h
            refine ⟨rfl, .newTree (NoAdj_append.2 ⟨(NoAdj_append.1 hnl).1, NoAdj_tree.2 ⟨hr, hnr⟩,
              fun h' => NoAdj_snoc hnl h'.1⟩) (Cov_append.2 ⟨(Cov_append.1 hl).1, ?_⟩)⟩
            exact Cov_tree.2 ⟨⟨i2.fresh, fun _ => i2⟩, hrr'⟩
      · simp only [h2, if_false] at h ⊢
        cases hs : splitAround E rd f (n.setLayer layer) p with
        | error er => rw [hs] at h; cases h
        | ok ab =>
          obtain ⟨a, b⟩ := ab
          obtain ⟨i1, i2, i3⟩ := splitAround_cov hrd hp hc' hw hs
          simp only [hs, i1, ok_bind] at h ⊢
          generalize hex : ((keyZeros E p kn : Int) - layer).toNat - 1 = ex at h ⊢
          cases hpa : addParents E rd f ex a with
          | error er => rw [hpa] at h; cases h
          | ok a' =>
          cases hpb : addParents E rd f ex b with
          | error er => rw [hpa, hpb] at h; cases h
          | ok b' =>
          obtain ⟨j1, j2⟩ := addParents_cov hrd (.onHi hp) i2 hpa
          obtain ⟨k1, k2⟩ := addParents_cov hrd (.onLo hp) i3 hpb
          simp only [hpa, hpb, j1, k1, ok_bind] at h ⊢
          have hcov : Cov E rd' D lo hi (optTree a' ++ [Ent.leaf p v] ++ optTree b') := by
            rw [List.append_assoc]
            exact Cov_append.2 ⟨j2.cov, Cov_leaf.2 k2.cov⟩
          rw [create_fresh rd' rd (fun m hm => hcov.fresh hm)]
          refine ⟨h, ?_⟩
          unfold create at h
          cases hpc : cidForEntries E rd f (optTree a' ++ [Ent.leaf p v] ++ optTree b') with
          | error e => rw [hpc] at h; cases h
          | ok c =>
            rw [hpc] at h
            simp only [ok_bind, Except.ok.injEq] at h
            subst h
            refine CovN.iff.2 ⟨_, rfl, ⟨fun h => by simp [Node.entries] at h, fun es he m hm => ?_⟩, ?_, hcov⟩
            · simp only [Node.entries, Option.some.injEq] at he
              subst he
              exact hcov.fresh hm
            · rw [List.append_assoc]
              exact NoAdj_append.2 ⟨NoAdj_opt, NoAdj_leaf.2 NoAdj_opt, fun h' => h'.2⟩

/-! ### All of them -/

/-- The key an operation is about. -/
def Op.key : Op C → Key
  | .add k _ => k
  | .update k _ => k
  | .delete k => k

theorem applyOp_cov (hrd : RdLe rd' rd) {op : Op C} (hp : D op.key) {f : Nat} {n x : Node C}
    (hc : CovN E rd' D none none n) (h : applyOp E rd f n op = .ok x) :
    applyOp E rd' f n op = .ok x ∧ CovN E rd' D none none x := by
  have hw : Within op.key none none := ⟨by simp, by simp⟩
  cases op with
  | add k v => exact add_cov hrd hp hc hw h
  | update k v => exact update_cov hrd hp hc hw h
  | delete k => exact delete_cov hrd hp hc hw h

end

end Arroba
