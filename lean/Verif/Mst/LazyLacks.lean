import Verif.Mst.Listing

/-! Helper lemmas: with fewer blocks, a generator does the same up to the block that is missing. -/

namespace Arroba

variable {C : Type}

section
variable {E : Env C} {rd : C → Option (NodeData C)}

theorem Got.lacks_map {kv : Key × C} {a b : Got C}
    (h : a.result = .error .attribute ∨ b = a) :
    (a.cons kv).result = .error .attribute ∨ b.cons kv = a.cons kv := by
  rcases h with h | h
  · exact .inl (by simp [Got.cons, h, Except.map])
  · exact .inr (by rw [h])

theorem listRun_lacks (after before : Option Key) (q : List (Ev C)) (s : Option Err) : ∀ p : List (Ev C),
    (listRun after before (some .attribute) p).result = .error .attribute ∨
    listRun after before s (p ++ q) = listRun after before (some .attribute) p
  | [] => .inl rfl
  | .read c :: r => by
    rcases listRun_lacks after before q s r with h | h
    · exact .inl h
    · exact .inr (by simp only [List.cons_append, listRun, h])
  | .leaf k v :: r => by
    have ih := listRun_lacks after before q s r
    rw [List.cons_append]
    unfold listRun
    by_cases g1 : some k = after
    · rw [if_pos g1, if_pos g1]; exact ih
    · rw [if_neg g1, if_neg g1]
      cases isPast before k with
      | true => exact .inr rfl
      | false =>
        rw [if_neg (by simp), if_neg (by simp)]
        exact Got.lacks_map ih

theorem prefixRun_lacks (pre : Key) (q : List (Ev C)) (s : Option Err) : ∀ p : List (Ev C),
    (prefixRun pre (some .attribute) p).result = .error .attribute ∨
    prefixRun pre s (p ++ q) = prefixRun pre (some .attribute) p
  | [] => .inl rfl
  | .read c :: r => by
    rcases prefixRun_lacks pre q s r with h | h
    · exact .inl h
    · exact .inr (by simp only [List.cons_append, prefixRun, h])
  | .leaf k v :: r => by
    have ih := prefixRun_lacks pre q s r
    rw [List.cons_append]
    unfold prefixRun
    by_cases g1 : startsWith k pre = true
    · rw [if_pos g1, if_pos g1]; exact Got.lacks_map ih
    · rw [if_neg g1, if_neg g1]; exact .inr rfl

theorem pageRun_lacks (pre : Key) (q : List (Ev C)) (s : Option Err) : ∀ (limit : Nat) (p : List (Ev C)),
    (pageRun pre (some .attribute) limit p).result = .error .attribute ∨
    pageRun pre s limit (p ++ q) = pageRun pre (some .attribute) limit p
  | 0, p => .inr (by simp only [pageRun])
  | _ + 1, [] => .inl rfl
  | n + 1, .read c :: r => by
    rcases pageRun_lacks pre q s (n + 1) r with h | h
    · exact .inl h
    · exact .inr (by simp only [List.cons_append, pageRun, h])
  | n + 1, .leaf k v :: r => by
    have ih := pageRun_lacks pre q s n r
    rw [List.cons_append]
    unfold pageRun
    by_cases g1 : startsWith k pre = true
    · rw [if_pos g1, if_pos g1]; exact Got.lacks_map ih
    · rw [if_neg g1, if_neg g1]; exact .inr rfl

/-- The first generator is the second, or does the same up to where it comes to a block that isn't there. -/
def GenLacks (x y : Gen C) : Prop := x = y ∨ x.stop = some .attribute ∧ x.evs <+: y.evs

theorem GenLacks.seq {a a' b b' : Gen C} (h : GenLacks a a') (h' : GenLacks b b') : GenLacks (a.seq b) (a'.seq b') := by
  rcases h with rfl | ⟨h1, h2⟩
  · unfold Gen.seq
    cases a.stop with
    | some e => exact .inl rfl
    | none =>
      rcases h' with rfl | ⟨h1, h2⟩
      · exact .inl rfl
      · exact .inr ⟨h1, (List.prefix_append_right_inj _).2 h2⟩
  · have : a.seq b = a := by simp only [Gen.seq, h1]
    rw [this]
    refine .inr ⟨h1, h2.trans ?_⟩
    unfold Gen.seq
    cases a'.stop with
    | some e => exact List.prefix_rfl
    | none => exact List.prefix_append _ _

theorem loopGen_lacks {r r' : Node C → Gen C} (h : ∀ n, GenLacks (r n) (r' n)) :
    ∀ es : List (Ent C), GenLacks (loopGen r es) (loopGen r' es)
  | [] => .inl rfl
  | .leaf _ _ :: es => GenLacks.seq (.inl rfl) (loopGen_lacks h es)
  | .tree n :: es => (h n).seq (loopGen_lacks h es)

theorem entryReads_prefix (E : Env C) (rd : C → Option (NodeData C)) (f : Nat) (n : Node C) (k : Key) :
    entryReads n <+: (walkGen E rd (f + 1) n k).evs := by
  unfold walkGen
  cases getEntries E rd n with
  | error e => exact List.prefix_rfl
  | ok es => exact List.prefix_append _ _

theorem getEntries_less {rd' : C → Option (NodeData C)} (h : ∀ c d, rd c = some d → rd' c = some d) (n : Node C) :
    getEntries E rd n = .error .attribute ∨ getEntries E rd n = getEntries E rd' n := by
  unfold getEntries
  cases n.entries with
  | some es => exact .inr rfl
  | none =>
    dsimp only
    cases hr : rd n.pointer with
    | none => exact .inl rfl
    | some d => rw [h _ _ hr]; exact .inr rfl

theorem walkGen_lacks {rd' : C → Option (NodeData C)} (h : ∀ c d, rd c = some d → rd' c = some d) :
    ∀ (f : Nat) (n : Node C) (k : Key), GenLacks (walkGen E rd f n k) (walkGen E rd' f n k)
  | 0, _, _ => .inl rfl
  | f + 1, n, k => by
    rcases getEntries_less (E := E) h n with g | g
    · refine .inr ?_
      have e : walkGen E rd (f + 1) n k = ⟨entryReads n, some .attribute⟩ := by
        unfold walkGen
        rw [g]
      rw [e]
      exact ⟨rfl, entryReads_prefix E rd' f n k⟩
    · unfold walkGen
      rw [g]
      cases getEntries E rd' n with
      | error e => exact .inl rfl
      | ok es =>
        dsimp only
        refine GenLacks.seq (.inl rfl) (GenLacks.seq ?_ (loopGen_lacks (fun m => walkGen_lacks h f m k) _))
        unfold prevGen
        split
        · exact walkGen_lacks h f _ k
        · exact .inl rfl

theorem listLazy_lacks {rd' : C → Option (NodeData C)} (h : ∀ c d, rd c = some d → rd' c = some d) (f : Nat) (n : Node C)
    (after before : Option Key) : (listLazy E rd f n after before).result = .error .attribute ∨
      listLazy E rd' f n after before = listLazy E rd f n after before := by
  unfold listLazy
  rcases walkGen_lacks (E := E) h f n (after.getD []) with g | ⟨g1, q, g2⟩
  · rw [g]; exact .inr rfl
  · dsimp only
    rw [g1, ← g2]
    exact listRun_lacks _ _ _ _ _

theorem listWithPrefixLazy_lacks {rd' : C → Option (NodeData C)} (h : ∀ c d, rd c = some d → rd' c = some d) (f : Nat)
    (n : Node C) (pre : Key) : (listWithPrefixLazy E rd f n pre).result = .error .attribute ∨
      listWithPrefixLazy E rd' f n pre = listWithPrefixLazy E rd f n pre := by
  unfold listWithPrefixLazy
  rcases walkGen_lacks (E := E) h f n pre with g | ⟨g1, q, g2⟩
  · rw [g]; exact .inr rfl
  · dsimp only
    rw [g1, ← g2]
    exact prefixRun_lacks _ _ _ _

theorem pageLazy_lacks {rd' : C → Option (NodeData C)} (h : ∀ c d, rd c = some d → rd' c = some d) (f : Nat)
    (n : Node C) (pre : Key) (limit : Nat) (start : Key) : (pageLazy E rd f n pre limit start).result = .error .attribute ∨
      pageLazy E rd' f n pre limit start = pageLazy E rd f n pre limit start := by
  unfold pageLazy
  rcases walkGen_lacks (E := E) h f n start with g | ⟨g1, q, g2⟩
  · rw [g]; exact .inr rfl
  · dsimp only
    rw [g1, ← g2]
    exact pageRun_lacks _ _ _ _ _

end

end Arroba
