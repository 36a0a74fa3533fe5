import Verif.Storage.Spec
import Verif.Storage.ReachProofs
import Verif.Props.C08

/-! Helper lemmas: reading records back through the API. -/

namespace Arroba.Store

variable {C R : Type} [DecidableEq C]

open Arroba.Tree

/-- A valid path has one `/`. -/
theorem grammar_split {c r : Key} (h : KeyGrammar (c ++ '/' :: r)) : '/' ∉ c ∧ '/' ∉ r := by
  have hv := (validKey_iff _).2 h
  unfold validKey at hv
  rw [Bool.and_eq_true] at hv
  obtain ⟨_, h2⟩ := hv
  split at h2
  · rename_i a b hs
    obtain ⟨he, ha, hb⟩ := pySplit_two.1 hs
    have hcnt := congrArg (List.count '/') he
    simp only [List.count_append, List.count_cons_self, List.count_eq_zero_of_not_mem ha,
      List.count_eq_zero_of_not_mem hb] at hcnt
    exact ⟨List.count_eq_zero.1 (by omega), List.count_eq_zero.1 (by omega)⟩
  · cases h2

theorem grammar_parts {k : Key} (h : KeyGrammar k) : ∃ a b, pySplit '/' k = [a, b] ∧
    k = a ++ '/' :: b := by
  have hv := (validKey_iff _).2 h
  unfold validKey at hv
  rw [Bool.and_eq_true] at hv
  obtain ⟨_, h2⟩ := hv
  split at h2
  · rename_i a b hs
    exact ⟨a, b, hs, (pySplit_two.1 hs).1⟩
  · cases h2

theorem path_inj {a b c r : Key} (h : KeyGrammar (a ++ '/' :: b))
    (he : a ++ '/' :: b = c ++ '/' :: r) : a = c ∧ b = r := by
  have h1 := grammar_split h
  have h2 := grammar_split (he ▸ h)
  have e1 := pySplit_two.2 ⟨rfl, h1⟩
  have e2 := pySplit_two.2 ⟨he, h2⟩
  rw [e1] at e2
  simpa using e2

theorem addContents_spec {w : World C R} {V : Key → Option (Val C R)} :
    ∀ (kvs : List (Key × C)) (acc : List (Key × List (Key × Val C R))),
    (∀ kv ∈ kvs, KeyGrammar kv.1 ∧ ∃ b, w.read kv.2 = some b ∧ V kv.1 = some b.val) →
    ∃ cs, addContents w acc kvs = .ok cs ∧ ∀ c r, ((dictGet cs c).bind (dictGet · r)) =
      if c ++ '/' :: r ∈ kvs.map (·.1) then V (c ++ '/' :: r)
      else ((dictGet acc c).bind (dictGet · r))
  | [], acc, _ => ⟨acc, rfl, fun c r => by simp⟩
  | kv :: kvs, acc, h => by
    obtain ⟨hg, b, hb, hV⟩ := h kv List.mem_cons_self
    obtain ⟨a, k, hs, he⟩ := grammar_parts hg
    have h1 : addContent w acc kv =
        .ok (dictSet acc a (dictSet ((dictGet acc a).getD []) k b.val)) := by
      unfold addContent; rw [hs]; simp only [hb]
    obtain ⟨cs, g1, g2⟩ := addContents_spec (V := V) kvs
      (dictSet acc a (dictSet ((dictGet acc a).getD []) k b.val))
      (fun x hx => h x (List.mem_cons_of_mem _ hx))
    refine ⟨cs, by unfold addContents; rw [h1]; exact g1, fun c r => ?_⟩
    rw [g2 c r]
    simp only [List.map_cons, List.mem_cons]
    by_cases hm : c ++ '/' :: r ∈ kvs.map (·.1)
    · rw [if_pos hm, if_pos (.inr hm)]
    · rw [if_neg hm, dictGet_dictSet]
      by_cases heq : c ++ '/' :: r = kv.1
      · rw [if_pos (Or.inl heq : _ ∨ c ++ '/' :: r ∈ kvs.map (·.1))]
        obtain ⟨rfl, rfl⟩ := path_inj (he ▸ hg) (he.symm.trans heq.symm)
        rw [if_pos rfl, heq, hV]
        simp [dictGet_dictSet]
      · rw [if_neg (fun h : _ ∨ _ => h.elim heq hm)]
        by_cases hc : c = a
        · subst hc
          rw [if_pos rfl]
          simp only [Option.bind_some, dictGet_dictSet]
          have : r ≠ k := by rintro rfl; exact heq he.symm
          rw [if_neg this]
          cases dictGet acc c <;> simp [dictGet]
        · rw [if_neg hc]

section
variable {L : Lib C R} {Z : Nat}

/-- The objects of healthy worlds show their records. -/
theorem ObjRep.shows (hL : L.OK Z) {w : World C R} {o : RepoObj C R} {m : Key → Option R}
    (h : ObjRep L Z w.blocks o m) : ObjShows L w o m := by
  obtain ⟨l, t, hi, ht, _⟩ := h.tree
  have hmap := hi.map
  have hpaths : ∀ k, m k ≠ none → KeyGrammar k := by
    intro k hk
    obtain ⟨r, hr⟩ := Option.ne_none_iff_exists'.1 hk
    have h1 := congrFun hmap k
    simp only [hr, Option.map_some] at h1
    exact (validKey_iff k).1 (hi.valid _ (dictGet_mem h1))
  have hread : ∀ {k r}, m k = some r → ∃ b, w.read (L.rcid r) = some b ∧ b.val = .record r :=
    fun hk => ht.recs _ _ hk
  refine ⟨hpaths, fun c r => ?_, ?_⟩
  · unfold getRecord
    rw [show w.rd = nodeIn w.blocks from rfl, hi.get hL.fuel]
    simp only [ok_bind]
    cases hk : m (c ++ '/' :: r) with
    | none => rfl
    | some v =>
      obtain ⟨b, h1, h2⟩ := hread hk
      simp only [Option.map_some, h1, h2]
  · unfold getContents
    have hf := hL.fuel
    have hb := hi.bound
    rw [show w.rd = nodeIn w.blocks from rfl,
      list_spec none none hi.repr hi.wf hi.sorted (by omega)]
    simp only [ok_bind]
    have hall : (leaves t).filter (fun kv => decide (afterOK none kv.1 ∧ beforeOK none kv.1)) =
        leaves t := by
      rw [List.filter_eq_self]; intro a _; simp [afterOK, beforeOK]
    rw [hall]
    have hnd : ∀ kv ∈ leaves t, dictGet (leaves t) kv.1 = some kv.2 := fun kv hkv =>
      (mem_leaves_iff hi.sorted kv.1 kv.2).1 hkv
    have hkv : ∀ kv ∈ leaves t, ∃ r, m kv.1 = some r ∧ L.rcid r = kv.2 := by
      intro kv h
      have h1 := congrFun hmap kv.1
      rw [hnd kv h] at h1
      cases hm : m kv.1 with
      | none => rw [hm] at h1; cases h1
      | some r => rw [hm] at h1; exact ⟨r, rfl, (Option.some.inj h1).symm⟩
    obtain ⟨cs, h1, h2⟩ := addContents_spec (w := w) (V := fun k => (m k).map .record) (leaves t) []
      (by
        intro kv h
        obtain ⟨r, g1, g2⟩ := hkv kv h
        obtain ⟨b, g3, g4⟩ := hread g1
        exact ⟨hpaths _ (by simp [g1]), b, g2 ▸ g3, by simp [g1, g4]⟩)
    refine ⟨cs, h1, fun c r => ?_⟩
    rw [h2 c r]
    split
    · rfl
    · rename_i hn
      have : dictGet (leaves t) (c ++ '/' :: r) = none := dictGet_eq_none.2 fun x hx he => hn (he ▸ List.mem_map_of_mem hx)
      rw [hmap] at this
      simp only [Option.map_eq_none_iff] at this
      rw [this]; rfl

theorem addContents_congr {w w' : World C R} (h : w'.blocks = w.blocks) :
    ∀ (kvs : List (Key × C)) (acc : List (Key × List (Key × Val C R))),
      addContents w' acc kvs = addContents w acc kvs
  | [], _ => rfl
  | kv :: kvs, acc => by
    have e : addContent w' acc kv = addContent w acc kv := by
      unfold addContent World.read; rw [h]
    unfold addContents
    rw [e]
    cases addContent w acc kv with
    | error e => rfl
    | ok a => exact addContents_congr h kvs a

/-- Reading depends on the blocks only. -/
theorem ObjShows.congr {w w' : World C R} (h : w'.blocks = w.blocks) {o : RepoObj C R}
    {m : Key → Option R} (hs : ObjShows L w o m) : ObjShows L w' o m := by
  have e1 : w'.rd = w.rd := by unfold World.rd; rw [h]
  refine ⟨hs.paths, fun c r => ?_, ?_⟩
  · rw [← hs.get c r]
    unfold getRecord World.read
    rw [e1, h]
  · obtain ⟨cs, h1, h2⟩ := hs.contents
    refine ⟨cs, ?_, h2⟩
    rw [← h1]
    unfold getContents
    rw [e1]
    congr 1
    funext l
    exact addContents_congr h l []

theorem ObjShows.unique {w : World C R} {o : RepoObj C R} {m m' : Key → Option R}
    (h : ObjShows L w o m) (h' : ObjShows L w o m') : m = m' := by
  have key : ∀ c r, m (c ++ '/' :: r) = m' (c ++ '/' :: r) := by
    intro c r
    have := (h.get c r).symm.trans (h'.get c r)
    simp only [Except.ok.injEq] at this
    exact Option.map_injective (fun a b h => by cases h; rfl) this
  funext k
  by_cases hk : KeyGrammar k
  · obtain ⟨a, b, _, rfl⟩ := grammar_parts hk
    exact key a b
  · have h1 := fun h2 => hk (h.paths k h2)
    have h2 := fun h2 => hk (h'.paths k h2)
    simp only [ne_eq, imp_false, not_not] at h1 h2
    rw [h1, h2]

theorem loadRepo_world {w : World C R} {seq : Nat} (hw : Core L Z seq w) {be : Backend} {q : Did}
    (hq : isDid q) {w1 : World C R} {s : Ref} (h : loadRepo be w q = (w1, .ok (some s))) :
    w1.blocks = w.blocks := by
  rcases loadRepo_spec hw be hq with h1 | ⟨s, so, m, b, co, w1', h1, _, _, _, _, _, _, h2⟩
  · rw [h] at h1; cases h1
  · rw [h] at h1
    cases h1
    cases be with
    | memory => rw [h2.1]
    | datastore => rw [h2.2.1]

theorem shows_iff (hL : L.OK Z) {be : Backend} {seq : Nat} {w : World C R} (hw : Core L Z seq w)
    {d : Did} (hd : isDid d) {m : Key → Option R} : Shows L be w d m ↔ RecordsOf L Z be w d m := by
  constructor
  · rintro ⟨w1, s, o, h1, h2, h3⟩
    refine ⟨s, w1, o, h1, h2, ?_⟩
    rcases loadRepo_spec hw be hd with h | ⟨s', so, m', b, co, w1', g1, g2, g3, _⟩
    · rw [h1] at h; cases h
    · rw [h1] at g1
      cases g1
      rw [h2] at g2
      cases g2
      have hb := loadRepo_world hw hd h1
      rw [hb]
      have := h3.unique ((hb ▸ g3 : ObjRep L Z w1.blocks o m').shows hL)
      rw [this]; exact g3
  · rintro ⟨s, w1, o, h1, h2, h3⟩
    exact ⟨w1, s, o, h1, h2, h3.shows hL⟩

theorem readHead_eq (hL : L.OK Z) {be : Backend} {seq : Nat} {w : World C R} (hw : Core L Z seq w)
    {d : Did} (hd : isDid d) : readHead L be w d = headOf L be w d := by
  unfold readHead headOf
  rcases loadRepo_spec hw be hd with h | ⟨s, so, m, b, co, w1, h1, h2, h3, h4, h5, h6, h7, h8⟩
  · rw [h]
    simp only
    unfold loadRepo at h
    rw [if_neg (isDid_ne_nil hd)] at h
    cases be with
    | memory =>
      simp only at h ⊢
      rw [findRepo_eq hw hd (l := w.repos) (fun _ h => h)] at h
      simp only [Prod.mk.injEq, Except.ok.injEq, true_and] at h
      rw [h]
    | datastore =>
      simp only at h ⊢
      rw [findRow_some hw hd] at h
      cases hr : dictGet w.rows d with
      | none => rfl
      | some row =>
        rw [hr] at h
        simp only at h
        obtain ⟨_, b, co, g1, g2, _⟩ := hw.rows d row (dictGet_mem hr)
        have hc : commitAt w row.head = .ok (b, co) := by
          unfold commitAt World.read; rw [g1]; simp only [g2]
        simp [repoLoad, hc, World.newObj] at h
  · rw [h1]
    simp only [h2, Option.bind_some, h5, Option.map_some]
    cases be with
    | memory =>
      obtain ⟨rfl, h9⟩ := h8
      simp only [h9, h2, Option.bind_some, h5, Option.map_some]
    | datastore =>
      obtain ⟨_, _, row, h9, h10, _⟩ := h8
      simp only [h9, Option.map_some, hw.blocks.addr _ _ h10]

/-- Records are determined by the head. -/
theorem shows_of_head (hL : L.OK Z) {be : Backend} {seq seq' : Nat} {w w' : World C R}
    (hw : Core L Z seq w) (hw' : Core L Z seq' w') {d : Did} (hd : isDid d)
    (hh : headOf L be w' d = headOf L be w d) (hg : Grows w.blocks w'.blocks)
    (m : Key → Option R) : Shows L be w' d m ↔ Shows L be w d m := by
  rw [shows_iff hL hw hd, shows_iff hL hw' hd, records_iff hL hw hd, records_iff hL hw' hd]
  constructor
  · rintro ⟨c, b, co, h1, h2, h3, h4, h5⟩
    rw [hh] at h1
    -- the head of the old world is stored in the old world
    have : ∃ m0, RecordsOf L Z be w d m0 := by
      rcases loadRepo_spec hw be hd with h | ⟨s, so, m', b', co', w1, g1, g2, g3, _⟩
      · have := readHead_eq hL hw hd (be := be)
        unfold readHead at this
        rw [h] at this
        rw [← this] at h1
        cases h1
      · have hb := loadRepo_world hw hd g1
        exact ⟨m', s, w1, so, g1, g2, hb ▸ g3⟩
    obtain ⟨m0, hm0⟩ := this
    obtain ⟨c', b', co', g1, g2, g3, g4, g5⟩ := (records_iff hL hw hd m0).1 hm0
    rw [h1] at g1
    cases g1
    rw [hg _ _ g2] at h2
    cases h2
    rw [h3] at g3
    cases g3
    have := h5.unique hL g5
    subst this
    exact ⟨c, b, co, h1, g2, h3, h4, g5⟩
  · rintro ⟨c, b, co, h1, h2, h3, h4, h5⟩
    exact ⟨c, b, co, hh.trans h1, hg _ _ h2, h3, h4, h5.grow hg⟩

theorem stored_shows (hL : L.OK Z) {be : Backend} {seq : Nat} {w : World C R}
    (hw : Core L Z seq w) {d : Did} (hd : isDid d) {c : C} (h : headOf L be w d = some c) :
    ∃ m, Shows L be w d m := by
  rcases loadRepo_spec hw be hd with h1 | ⟨s, so, m', b', co', w1, g1, g2, g3, _⟩
  · have := readHead_eq hL hw hd (be := be)
    unfold readHead at this
    rw [h1] at this
    rw [← this] at h
    cases h
  · have hb := loadRepo_world hw hd g1
    exact ⟨m', w1, s, so, g1, g2, (hb ▸ g3 : ObjRep L Z w1.blocks so m').shows hL⟩

end

end Arroba.Store
