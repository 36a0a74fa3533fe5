import Verif.Mst.LazyProofs

/-! Helper lemmas: listings and traversals against the tree specification. -/

namespace Arroba

variable {C : Type}

open Arroba.Tree

theorem key_nil_le (k : Key) : ([] : Key) ≤ k := not_lt.1 fun h => by cases h

theorem key_cons_lt {a b : Char} {p q : Key} : (a :: p : Key) < b :: q ↔ a < b ∨ a = b ∧ p < q :=
  List.cons_lt_cons_iff

theorem key_cons_le {a b : Char} {p q : Key} : (a :: p : Key) ≤ b :: q ↔ a < b ∨ a = b ∧ p ≤ q := by
  rw [← not_lt, key_cons_lt, ← not_lt]
  rcases lt_trichotomy a b with h | h | h
  · simp [h, not_lt.2 (le_of_lt h), ne_of_gt h]
  · subst h; simp
  · simp [h, not_lt.2 (le_of_lt h), ne_of_gt h]

theorem key_not_cons_le_nil {a : Char} {p : Key} : ¬ (a :: p : Key) ≤ [] :=
  not_le.2 (by exact List.Lex.nil)

section
variable {E : Env C} {rd : C → Option (NodeData C)}

theorem walkLoop_spec {rec : Node C → Except Err (List (Ent C))} {L : Nat} :
    ∀ {t : Tree C} {es : List (Ent C)},
    (∀ M, L = M + 1 → ∀ c m, ReprN E rd M c m → WF E.zeros M c →
      ∃ w, rec m = .ok w ∧ w.filterMap entLeaf = leaves c) →
    ReprEs E rd L t es → WF E.zeros L t →
    ∃ w, walkLoop rec es = .ok w ∧ w.filterMap entLeaf = leaves t := by
  intro t
  induction t with
  | nil => intro es _ h _; obtain rfl := ReprEs_nil.1 h; exact ⟨[], rfl, rfl⟩
  | leaf k v r ih =>
    intro es hrec h hw
    obtain ⟨es', rfl, h'⟩ := h
    obtain ⟨w, h1, h2⟩ := ih hrec h' hw.2
    exact ⟨.leaf k v :: w, by simp [walkLoop, h1], by simp [entLeaf, h2, leaves]⟩
  | sub c r _ ih =>
    intro es hrec h hw
    obtain ⟨M, rfl, hc, hwc, hns, hwr⟩ := WF_sub.1 hw
    obtain ⟨m, es', rfl, hm, h'⟩ := ReprEs_sub.1 h
    obtain ⟨a, h1, h2⟩ := hrec M rfl c m hm hwc
    obtain ⟨w, h3, h4⟩ := ih hrec h' hwr
    exact ⟨a ++ w, by simp [walkLoop, h1, h3], by simp [h2, h4, leaves]⟩

theorem walk_spec : ∀ {f : Nat} {t : Tree C} {L : Nat} {n : Node C},
    ReprN E rd L t n → WF E.zeros L t → L + 1 ≤ f →
    ∃ w, walk E rd f n = .ok w ∧ w.filterMap entLeaf = leaves t
  | 0, _, _, _, _, _, hf => by omega
  | f + 1, t, L, n, hn, hwf, hf => by
    obtain ⟨es, he, hes⟩ := getEntries_spec hn hwf
    obtain ⟨w, h1, h2⟩ := walkLoop_spec (rec := walk E rd f) (fun M hM c m hm hw =>
      walk_spec hm hw (by omega)) hes hwf
    exact ⟨.tree n :: w, by simp [walk, he, h1], by rw [List.filterMap_cons]; exact h2⟩

theorem mstLeaves_spec {f : Nat} {t : Tree C} {L : Nat} {n : Node C}
    (hn : ReprN E rd L t n) (hwf : WF E.zeros L t) (hf : L + 1 ≤ f) :
    mstLeaves E rd f n = .ok (leaves t) := by
  obtain ⟨w, h1, h2⟩ := walk_spec hn hwf hf
  simp [mstLeaves, h1, h2]

/-- The bound `before` admits `k`: absent and empty bounds admit everything. -/
def beforeOK (before : Option Key) (k : Key) : Prop := ∀ b, before = some b → b ≠ [] → k < b

/-- The bound `after` admits `k`. -/
def afterOK (after : Option Key) (k : Key) : Prop := ∀ a, after = some a → a < k

instance (b : Option Key) (k : Key) : Decidable (beforeOK b k) := by
  cases b with
  | none => exact isTrue (by simp [beforeOK])
  | some b =>
    by_cases h : b ≠ [] → k < b
    · exact isTrue (by simpa [beforeOK] using h)
    · exact isFalse (by simpa [beforeOK] using h)

instance (a : Option Key) (k : Key) : Decidable (afterOK a k) := by
  cases a with
  | none => exact isTrue (by simp [afterOK])
  | some a =>
    by_cases h : a < k
    · exact isTrue (by simpa [afterOK] using h)
    · exact isFalse (by simpa [afterOK] using h)

theorem listLoop_spec (after before : Option Key) : ∀ {l : List (Key × C)},
    l.Pairwise (fun a b => a.1 < b.1) → (∀ kv ∈ l, after.getD [] ≤ kv.1) →
    listLoop after before l =
      l.filter (fun kv => decide (afterOK after kv.1 ∧ beforeOK before kv.1))
  | [], _, _ => rfl
  | (k, v) :: rest, hs, hk => by
    rw [List.pairwise_cons] at hs
    have ih := listLoop_spec after before hs.2 (fun kv hkv => hk kv (by simp [hkv]))
    have hk0 := hk (k, v) (by simp)
    unfold listLoop
    by_cases h1 : some k = after
    · rw [if_pos h1, ih, List.filter_cons_of_neg]
      subst h1
      simp [afterOK]
    · rw [if_neg h1]
      have ha : afterOK after k := by
        intro a ha
        subst ha
        exact lt_of_le_of_ne hk0 (fun h => h1 (by rw [← h]))
      cases hb : before with
      | none =>
        subst hb
        simp only [Bool.false_eq_true, if_false, ih]
        rw [List.filter_cons_of_pos (by simp [ha, beforeOK])]
      | some b =>
        subst hb
        simp only
        by_cases h2 : b ≠ [] ∧ b ≤ k
        · rw [if_pos (by simpa using h2)]
          symm
          rw [List.filter_eq_nil_iff]
          intro kv hkv
          simp only [List.mem_cons] at hkv
          intro hd
          have h : beforeOK (some b) kv.1 := (of_decide_eq_true hd).2
          have h3 := h b rfl h2.1
          have h4 : k ≤ kv.1 := by
            rcases hkv with rfl | hkv
            · exact le_refl _
            · exact le_of_lt (hs.1 kv hkv)
          exact absurd (lt_of_lt_of_le h3 (le_trans h2.2 h4)) (lt_irrefl _)
        · rw [if_neg (by simpa using h2), ih, List.filter_cons_of_pos]
          simp only [decide_eq_true_eq]
          refine ⟨ha, ?_⟩
          intro b' hb' hne
          simp only [Option.some.injEq] at hb'; subst hb'
          exact not_le.1 fun h => h2 ⟨hne, h⟩

/-- Strings with a common prefix are contiguous in the key order. -/
theorem startsWith_convex : ∀ {p k k' : Key}, p ≤ k → k ≤ k' → startsWith k' p = true →
    startsWith k p = true
  | [], _, _, _, _, _ => by simp [startsWith]
  | c :: p, k, k', h1, h2, h3 => by
    cases k' with
    | nil => simp [startsWith] at h3
    | cons d k' =>
      simp only [startsWith, List.isPrefixOf, Bool.and_eq_true, beq_iff_eq] at h3
      obtain ⟨rfl, h3⟩ := h3
      cases k with
      | nil => exact absurd h1 key_not_cons_le_nil
      | cons e k =>
        rw [key_cons_le] at h1 h2
        rcases h1 with h1 | ⟨rfl, h1⟩
        · rcases h2 with h2 | ⟨rfl, h2⟩
          · exact absurd (lt_trans h1 h2) (lt_irrefl _)
          · exact absurd h1 (lt_irrefl _)
        · rcases h2 with h2 | ⟨_, h2⟩
          · exact absurd h2 (lt_irrefl _)
          · have := startsWith_convex h1 h2 h3
            simp only [startsWith] at this
            simp [startsWith, this]

theorem startsWith_le {p k : Key} (h : startsWith k p = true) : p ≤ k := by
  induction p generalizing k with
  | nil => exact key_nil_le _
  | cons c p ih =>
    cases k with
    | nil => simp [startsWith] at h
    | cons d k =>
      simp only [startsWith, List.isPrefixOf, Bool.and_eq_true, beq_iff_eq] at h
      obtain ⟨rfl, h⟩ := h
      rw [key_cons_le]
      exact .inr ⟨rfl, ih h⟩

theorem prefixLoop_spec (pre : Key) : ∀ {l : List (Key × C)},
    l.Pairwise (fun a b => a.1 < b.1) → (∀ kv ∈ l, pre ≤ kv.1) →
    prefixLoop pre l = l.filter (fun kv => startsWith kv.1 pre)
  | [], _, _ => rfl
  | (k, v) :: rest, hs, hk => by
    rw [List.pairwise_cons] at hs
    have ih := prefixLoop_spec pre hs.2 (fun kv hkv => hk kv (by simp [hkv]))
    unfold prefixLoop
    by_cases h : startsWith k pre = true
    · simp [h, ih]
    · rw [if_neg h]
      symm
      rw [List.filter_eq_nil_iff]
      intro kv hkv h'
      apply h
      refine startsWith_convex (hk (k, v) (by simp)) ?_ h'
      simp only [List.mem_cons] at hkv
      rcases hkv with rfl | hkv
      · exact le_refl _
      · exact le_of_lt (hs.1 kv hkv)

theorem list_spec {f : Nat} {t : Tree C} {L : Nat} {n : Node C} (after before : Option Key)
    (hn : ReprN E rd L t n) (hwf : WF E.zeros L t) (hs : Sorted t) (hf : L + 1 ≤ f) :
    list E rd f n after before =
      .ok ((leaves t).filter (fun kv => decide (afterOK after kv.1 ∧ beforeOK before kv.1))) := by
  rw [list_loop hn hwf hs hf, listLoop_spec after before (List.Pairwise.filter _ hs)
    (fun kv hkv => by simpa using (List.mem_filter.1 hkv).2), List.filter_filter]
  congr 1
  apply List.filter_congr
  intro kv _
  by_cases h : afterOK after kv.1 ∧ beforeOK before kv.1
  · have : after.getD [] ≤ kv.1 := by
      cases after with
      | none => exact key_nil_le _
      | some a => exact le_of_lt (h.1 a rfl)
    simp [h, this]
  · simp [h]

theorem listWithPrefix_spec {f : Nat} {t : Tree C} {L : Nat} {n : Node C} (pre : Key)
    (hn : ReprN E rd L t n) (hwf : WF E.zeros L t) (hs : Sorted t) (hf : L + 1 ≤ f) :
    listWithPrefix E rd f n pre = .ok ((leaves t).filter (fun kv => startsWith kv.1 pre)) := by
  rw [listWithPrefix_loop hn hwf hs hf, prefixLoop_spec pre (List.Pairwise.filter _ hs)
    (fun kv hkv => by simpa using (List.mem_filter.1 hkv).2), List.filter_filter]
  congr 1
  apply List.filter_congr
  intro kv _
  cases h : startsWith kv.1 pre with
  | false => simp
  | true => simp [startsWith_le h]

/-! ### Path proofs -/

/-- The search path for `key` below `t`: the root, then the child whose key range contains
`key`, and so on; ends at the node holding `key`, or at the node with no child in that range. -/
inductive SearchPath (key : Key) : Tree C → List (Tree C) → Option C → Prop
  | hit {A B : Tree C} {v : C} : SearchPath key (app A (leaf key v B)) [app A (leaf key v B)] (some v)
  | down {A c B : Tree C} {p : List (Tree C)} {o : Option C}
      (hA : ∀ x ∈ leaves A, x.1 < key) (hB : ∀ x ∈ leaves B, key < x.1)
      (hd : SearchPath key c p o) :
      SearchPath key (app A (sub c B)) (app A (sub c B) :: p) o
  | miss {A B : Tree C} (hA : ∀ x ∈ leaves A, x.1 < key) (hB : ∀ x ∈ leaves B, key < x.1)
      (hsA : ¬ endsSub A) (hsB : ¬ startsSub B) : SearchPath key (app A B) [app A B] none

theorem cidsForPath_spec {key : Key} : ∀ {f : Nat} {t : Tree C} {L : Nat} {n : Node C},
    ReprN E rd L t n → WF E.zeros L t → Sorted t → ValidKeys t → L + 1 ≤ f →
    ∃ p o, SearchPath key t p o ∧
      cidsForPath E rd f n key = .ok (p.map (cidOf E.H) ++ o.toList)
  | 0, _, _, _, _, _, _, _, hf => by omega
  | f + 1, t, L, n, hn, hwf, hs, hv, hf => by
    have hp := getPointer_spec hn hwf hv hf
    obtain ⟨A, B, l, r, rfl, he, hi, hA, hB⟩ := locate key hn hwf hs
    unfold cidsForPath
    simp only [hp, find_eq he hi, ok_bind, atIndex_at he, atIndex_prev he]
    cases hB with
    | @hit v B r hB hgt =>
      exact ⟨_, _, .hit, by simp [leafHit]⟩
    | miss hB hgt hns hr hr' =>
      simp only [hr]
      cases hA with
      | done hA he hlt hl =>
        exact ⟨_, _, .miss hlt hgt he hns, by simp [hl]⟩
      | @sub A c M l m hL hA hm hc hne hlt =>
        subst hL
        have hwc : WF E.zeros M c := by
          obtain ⟨_, _, _, hw, _⟩ := WF_sub.1 (WF_app.1 (WF_app.1 hwf).1).2.1
          simp_all
        have hsc : Sorted c := Sorted_sub_nil.1 hs.app_left.app_right
        have hvc : ValidKeys c := ValidKeys_sub_nil.1 (ValidKeys_app.1 (ValidKeys_app.1 hv).1).2
        obtain ⟨p, o, h1, h2⟩ := cidsForPath_spec (key := key) hm hwc hsc hvc (f := f) (by omega)
        have heq : app (app A (Tree.sub c nil)) B = app A (Tree.sub c B) := by
          rw [app_assoc]; rfl
        rw [heq]
        refine ⟨_, _, .down hlt hgt h1, ?_⟩
        simp [asTree, h2]

theorem SearchPath.dictGet {key : Key} {t : Tree C} {p : List (Tree C)} {o : Option C}
    (h : SearchPath key t p o) (hs : Sorted t) : o = dictGet (leaves t) key := by
  induction h with
  | @hit A B v =>
    have : Arroba.dictGet (leaves A) key = none := dictGet_eq_none.2 fun x hx =>
      ne_of_lt (hs.app_lt x hx (key, v) (by simp [leaves]))
    simp [dictGet_append, this, leaves, Arroba.dictGet]
  | @down A c B p o hA hB hd ih =>
    have h1 : Arroba.dictGet (leaves A) key = none :=
      dictGet_eq_none.2 fun x hx => ne_of_lt (hA x hx)
    have h2 : Arroba.dictGet (leaves B) key = none :=
      dictGet_eq_none.2 fun x hx => ne_of_gt (hB x hx)
    have hsc : Sorted c := (List.pairwise_append.1 hs.app_right).1
    rw [ih hsc]
    simp only [leaves_app, dictGet_append, h1, leaves, h2]
    cases Arroba.dictGet (leaves c) key <;> rfl
  | @miss A B hA hB _ _ =>
    have h1 : Arroba.dictGet (leaves A) key = none :=
      dictGet_eq_none.2 fun x hx => ne_of_lt (hA x hx)
    have h2 : Arroba.dictGet (leaves B) key = none :=
      dictGet_eq_none.2 fun x hx => ne_of_gt (hB x hx)
    simp [dictGet_append, h1, h2]

theorem getEntries_agree {rd' : C → Option (NodeData C)} {n : Node C}
    (h : n.entries = none → rd' n.pointer = rd n.pointer) :
    getEntries E rd' n = getEntries E rd n := by
  unfold getEntries
  cases he : n.entries with
  | some es => rfl
  | none => simp [h he]

/-- A verifier that only has the blocks named by the path computes the same lookup. -/
theorem get_of_path {rd' : C → Option (NodeData C)} {key : Key} :
    ∀ {f : Nat} {n : Node C} {t : Tree C} {L : Nat} {p : List C},
    ReprN E rd L t n → WF E.zeros L t → Sorted t →
    cidsForPath E rd f n key = .ok p → (∀ c ∈ p, rd' c = rd c ∨ some c = dictGet (leaves t) key) →
    (∀ s ∈ nodes t, some (cidOf E.H s) ≠ dictGet (leaves t) key) →
    get E rd' f n key = get E rd f n key
  | 0, _, _, _, _, _, _, _, _, _, _ => rfl
  | f + 1, n, t, L, p, hn, hwf, hs, hc, hag, hnv => by
    have hp0 : n.entries = none → rd' n.pointer = rd n.pointer := by
      intro he
      have ho := (hn.1.1 he).1
      have hpt := hn.1.2.1 ho
      have hmem : n.pointer ∈ p := by
        unfold cidsForPath at hc
        have hgp : getPointer E rd (f + 1) n = .ok n.pointer := by simp [getPointer, ho]
        obtain ⟨A, B, l, r, rfl, he, hi, hA, hB⟩ := locate key hn hwf hs
        simp only [hgp, find_eq he hi, ok_bind, atIndex_at he, atIndex_prev he] at hc
        split at hc
        · cases hc; simp
        · split at hc
          · cases hr : cidsForPath E rd f _ key with
            | error e => rw [hr] at hc; cases hc
            | ok q => rw [hr] at hc; cases hc; simp
          · cases hc; simp
      rcases hag _ hmem with h | h
      · exact h
      · exact absurd (hpt ▸ h) (hnv t (by simp [nodes]))
    have hge := getEntries_agree (E := E) hp0
    obtain ⟨A, B, l, r, rfl, he, hi, hA, hB⟩ := locate key hn hwf hs
    have he' : getEntries E rd' n = .ok (l ++ r) := hge.trans he
    unfold get
    unfold cidsForPath at hc
    simp only [find_eq he hi, find_eq he' hi, ok_bind, atIndex_at he, atIndex_at he',
      atIndex_prev he, atIndex_prev he'] at hc ⊢
    cases hB with
    | @hit v B r hB hgt => simp [leafHit]
    | miss hB hgt hns hr hr' =>
      simp only [hr] at hc ⊢
      cases hA with
      | done hA he hlt hl => simp [hl]
      | @sub A c M l m hL hA hm hcn hne hlt =>
        subst hL
        have hwc : WF E.zeros M c := by
          obtain ⟨_, _, _, hw, _⟩ := WF_sub.1 (WF_app.1 (WF_app.1 hwf).1).2.1
          simp_all
        have hsc : Sorted c := Sorted_sub_nil.1 hs.app_left.app_right
        have h1 : Arroba.dictGet (leaves A) key = none :=
          dictGet_eq_none.2 fun x hx => ne_of_lt (hlt x hx)
        have h2 : Arroba.dictGet (leaves B) key = none :=
          dictGet_eq_none.2 fun x hx => ne_of_gt (hgt x hx)
        have hd : Arroba.dictGet (leaves (app (app A (Tree.sub c nil)) B)) key =
            Arroba.dictGet (leaves c) key := by
          simp only [leaves_app, dictGet_append, h1, leaves, h2, List.append_nil]
          cases Arroba.dictGet (leaves c) key <;> rfl
        simp only [List.getLast?_append, List.getLast?_singleton, Option.some_or, asTree] at hc ⊢
        cases hgp : getPointer E rd (f + 1) n with
        | error e => rw [hgp] at hc; cases hc
        | ok c0 =>
          cases hq : cidsForPath E rd f m key with
          | error e => rw [hgp, ok_bind, hq] at hc; cases hc
          | ok q =>
            rw [hgp, ok_bind, hq] at hc
            cases hc
            refine get_of_path hm hwc hsc hq (fun c' hc' => ?_) (fun s hs' => ?_)
            · rw [← hd]; exact hag c' (by simp [hc'])
            · rw [← hd]; apply hnv
              simp only [nodes, kids_app, kids, List.mem_cons] at hs' ⊢
              simp only [List.mem_append, List.mem_cons]
              tauto

end

end Arroba
