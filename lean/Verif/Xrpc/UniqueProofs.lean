import Verif.Xrpc.ServeProofs

/-! Helper lemmas: the reference server has one answer when no two accounts have the same handle. -/

namespace Arroba.Xrpc

open Arroba.Store

variable {C R : Type} [DecidableEq C] {L : Lib C R} {cfg : Config R} {A : Accounts R} {out : Surroundings}

/-- Every handle belongs to one DID, and isn't a DID. -/
def Tidy (owner : Key → Did) (A : Accounts R) : Prop :=
  ∀ d a, A d = some a → isDid d ∧ ∀ h, a.handle = some h → owner h = d ∧ ¬ isDid h

theorem finds_unique {owner : Key → Did} (hA : Tidy owner A) {q : Key}
    {x y : Except Err (Did × Account R)} (hx : Finds cfg A q x) (hy : Finds cfg A q y) : x = y := by
  have key : ∀ {name d a d' a'}, A d = some a → (d = name ∨ a.handle = some name) →
      A d' = some a' → (d' = name ∨ a'.handle = some name) → d = d' ∧ a = a' := by
    intro name d a d' a' h1 h2 h3 h4
    have hdd : d = d' := by
      rcases h2 with rfl | h2 <;> rcases h4 with rfl | h4
      · rfl
      · exact absurd (hA _ _ h1).1 ((hA _ _ h3).2 _ h4).2
      · exact absurd (hA _ _ h3).1 ((hA _ _ h1).2 _ h2).2
      · exact ((hA _ _ h1).2 _ h2).1.symm.trans ((hA _ _ h3).2 _ h4).1
    subst hdd
    rw [h1] at h3
    exact ⟨rfl, Option.some.inj h3⟩
  have tgt : ∀ {x y : Except Err Key}, target cfg q = x → target cfg q = y → x = y :=
    fun h h' => h.symm.trans h'
  cases hx with
  | bad h => cases hy with
    | bad h' => cases tgt h h'; rfl
    | empty h' => cases tgt h h'
    | unknown h' => cases tgt h h'
    | inactive h' => cases tgt h h'
    | found h' => cases tgt h h'
  | empty h => cases hy with
    | bad h' => cases tgt h h'
    | empty h' => rfl
    | unknown h' hn => cases tgt h h'; exact absurd rfl hn
    | inactive h' hn => cases tgt h h'; exact absurd rfl hn
    | found h' hn => cases tgt h h'; exact absurd rfl hn
  | unknown h hn hno => cases hy with
    | bad h' => cases tgt h h'
    | empty h' => cases tgt h h'; exact absurd rfl hn
    | unknown h' => rfl
    | inactive h' _ ha hname => cases tgt h h'; exact absurd hname (hno _ _ ha)
    | found h' _ ha hname => cases tgt h h'; exact absurd hname (hno _ _ ha)
  | inactive h hn ha hname hs => cases hy with
    | bad h' => cases tgt h h'
    | empty h' => cases tgt h h'; exact absurd rfl hn
    | unknown h' _ hno => cases tgt h h'; exact absurd hname (hno _ _ ha)
    | inactive h' => rfl
    | found h' _ ha' hname' hs' =>
      cases tgt h h'
      obtain ⟨rfl, rfl⟩ := key ha hname ha' hname'
      exact absurd hs' hs
  | found h hn ha hname hs => cases hy with
    | bad h' => cases tgt h h'
    | empty h' => cases tgt h h'; exact absurd rfl hn
    | unknown h' _ hno => cases tgt h h'; exact absurd hname (hno _ _ ha)
    | inactive h' _ ha' hname' hs' =>
      cases tgt h h'
      obtain ⟨rfl, rfl⟩ := key ha hname ha' hname'
      exact absurd hs hs'
    | found h' _ ha' hname' hs' =>
      cases tgt h h'
      obtain ⟨rfl, rfl⟩ := key ha hname ha' hname'
      rfl

/-- Two ascending lists with the same elements are equal. -/
theorem ascending_unique {α : Type} {lt : α → α → Prop} (hasym : ∀ a b, lt a b → ¬ lt b a) :
    ∀ {l l' : List α}, l.Pairwise lt → l'.Pairwise lt → (∀ x, x ∈ l ↔ x ∈ l') → l = l'
  | [], [], _, _, _ => rfl
  | [], y :: l', _, _, h => by cases (h y).2 List.mem_cons_self
  | x :: l, [], _, _, h => by cases (h x).1 List.mem_cons_self
  | x :: l, y :: l', h1, h2, h => by
    obtain ⟨a1, a2⟩ := List.pairwise_cons.mp h1
    obtain ⟨b1, b2⟩ := List.pairwise_cons.mp h2
    have hxy : x = y := by
      rcases List.mem_cons.mp ((h x).1 List.mem_cons_self) with e | e
      · exact e
      rcases List.mem_cons.mp ((h y).2 List.mem_cons_self) with e' | e'
      · exact e'.symm
      exact absurd (a1 y e') (hasym _ _ (b1 x e))
    subst hxy
    congr 1
    refine ascending_unique hasym a2 b2 fun z => ⟨fun hz => ?_, fun hz => ?_⟩
    · rcases List.mem_cons.mp ((h z).1 (.tail _ hz)) with rfl | g
      · exact absurd (a1 z hz) (hasym _ _ (a1 z hz))
      · exact g
    · rcases List.mem_cons.mp ((h z).2 (.tail _ hz)) with rfl | g
      · exact absurd (b1 z hz) (hasym _ _ (b1 z hz))
      · exact g

theorem listing_unique {m : Key → Option R} {collection : Key} {cursor : Option Key} {K K' : List (Key × R)}
    (h : Listing m collection cursor K) (h' : Listing m collection cursor K') : K = K' :=
  ascending_unique (fun _ _ g g' => lt_asymm g g') h.ascending h'.ascending fun x =>
    (h.mem x.1 x.2).trans (h'.mem x.1 x.2).symm

theorem collections_unique {m : Key → Option R} {cs cs' : List Key} (h : Collections m cs)
    (h' : Collections m cs') : cs = cs' :=
  ascending_unique (fun _ _ g g' => lt_asymm g g') h.ascending h'.ascending fun c =>
    (h.mem c).trans (h'.mem c).symm

variable {owner : Key → Did} {a b : Answer C R} {A' A'' : Accounts R}

theorem servesPut_unique (hA : Tidy owner A) {header : Option Key} {inp : Input R}
    (h : ServesPut cfg L A header inp a A') (h' : ServesPut cfg L A header inp b A'') :
    a = b ∧ A' = A'' := by
  unfold ServesPut at h h'
  by_cases hm : Malformed cfg inp none
  · rw [if_pos hm] at h h'
    exact ⟨h.1.trans h'.1.symm, h.2.trans h'.2.symm⟩
  rw [if_neg hm] at h h'
  by_cases ha : Authorized cfg header
  swap
  · rw [if_pos ha] at h h'
    exact ⟨h.1.trans h'.1.symm, h.2.trans h'.2.symm⟩
  rw [if_neg (not_not.2 ha)] at h h'
  obtain ⟨res, h1, h2⟩ := h
  obtain ⟨res', h1', h2'⟩ := h'
  cases finds_unique hA h1 h1'
  rcases res with e | ⟨d, x⟩
  · exact ⟨h2.1.trans h2'.1.symm, h2.2.trans h2'.2.symm⟩
  · cases hc : inp.collection with
    | none => rw [hc] at h2 h2'; exact ⟨h2.1.trans h2'.1.symm, h2.2.trans h2'.2.symm⟩
    | some c => cases hk : inp.rkey with
      | none => rw [hc, hk] at h2 h2'; exact ⟨h2.1.trans h2'.1.symm, h2.2.trans h2'.2.symm⟩
      | some k => cases hr : inp.record with
        | none => rw [hc, hk, hr] at h2 h2'; exact ⟨h2.1.trans h2'.1.symm, h2.2.trans h2'.2.symm⟩
        | some r =>
          rw [hc, hk, hr] at h2 h2'
          dsimp only at h2 h2'
          split at h2
          · rename_i hacc
            rw [if_pos hacc] at h2'
            exact ⟨h2.1.trans h2'.1.symm, h2.2.trans h2'.2.symm⟩
          · rename_i hacc
            rw [if_neg hacc] at h2'
            exact ⟨h2.1.trans h2'.1.symm, h2.2.trans h2'.2.symm⟩

theorem serves_unique (hA : Tidy owner A) {req : Request R} (h : Serves cfg out L A req a A')
    (h' : Serves cfg out L A req b A'') : a = b ∧ A' = A'' := by
  unfold Serves at h h'
  cases req with
  | getRecord repo collection rkey cid =>
    dsimp only at h h'
    obtain ⟨e, h⟩ := h
    obtain ⟨e', h'⟩ := h'
    refine ⟨?_, e.trans e'.symm⟩
    split at h
    · rename_i hm
      rw [if_pos hm] at h'
      exact h.trans h'.symm
    · rename_i hm
      rw [if_neg hm] at h'
      obtain ⟨res, h1, h2⟩ := h
      obtain ⟨res', h1', h2'⟩ := h'
      cases finds_unique hA h1 h1'
      rcases res with e | ⟨d, x⟩
      · exact h2.trans h2'.symm
      · dsimp only at h2 h2'
        split at h2
        · rename_i hp; rw [hp] at h2'; exact h2.trans h2'.symm
        · rename_i r hp
          rw [hp] at h2'
          dsimp only at h2'
          split at h2
          · rename_i he; rw [if_pos he] at h2'; exact h2.trans h2'.symm
          · rename_i he; rw [if_neg he] at h2'; exact h2.trans h2'.symm
  | listRecords repo collection limit cursor =>
    dsimp only at h h'
    obtain ⟨e, h⟩ := h
    obtain ⟨e', h'⟩ := h'
    refine ⟨?_, e.trans e'.symm⟩
    split at h
    · rename_i hm
      rw [if_pos hm] at h'
      exact h.trans h'.symm
    · rename_i hm
      rw [if_neg hm] at h'
      split at h
      · rename_i hn
        rw [if_pos hn] at h'
        exact h.trans h'.symm
      · rename_i hn
        rw [if_neg hn] at h'
        obtain ⟨res, h1, h2⟩ := h
        obtain ⟨res', h1', h2'⟩ := h'
        cases finds_unique hA h1 h1'
        rcases res with e | ⟨d, x⟩
        · exact h2.trans h2'.symm
        · obtain ⟨K, k1, k2⟩ := h2
          obtain ⟨K', k1', k2'⟩ := h2'
          cases listing_unique k1 k1'
          split at k2
          · rename_i hl; rw [if_pos hl] at k2'; exact k2.trans k2'.symm
          · rename_i hl; rw [if_neg hl] at k2'; exact k2.trans k2'.symm
  | describeRepo repo =>
    dsimp only at h h'
    obtain ⟨e, h⟩ := h
    obtain ⟨e', h'⟩ := h'
    refine ⟨?_, e.trans e'.symm⟩
    split at h
    · rename_i hm
      rw [if_pos hm] at h'
      exact h.trans h'.symm
    · rename_i hm
      rw [if_neg hm] at h'
      obtain ⟨res, h1, h2⟩ := h
      obtain ⟨res', h1', h2'⟩ := h'
      cases finds_unique hA h1 h1'
      rcases res with e | ⟨d, x⟩
      · exact h2.trans h2'.symm
      · dsimp only at h2 h2'
        split at h2
        · rename_i hr; rw [if_pos hr] at h2'; exact h2.trans h2'.symm
        · rename_i hr
          rw [if_neg hr] at h2'
          split at h2
          · rename_i hs; rw [if_pos hs] at h2'; exact h2.trans h2'.symm
          · rename_i hs
            rw [if_neg hs] at h2'
            obtain ⟨cs, k1, k2⟩ := h2
            obtain ⟨cs', k1', k2'⟩ := h2'
            cases collections_unique k1 k1'
            exact k2.trans k2'.symm
  | getRepoStatus did =>
    obtain ⟨e, res, h1, h2⟩ := h
    obtain ⟨e', res', h1', h2'⟩ := h'
    refine ⟨?_, e.trans e'.symm⟩
    cases finds_unique hA h1 h1'
    cases res <;> exact h2.trans h2'.symm
  | putRecord header inp => exact servesPut_unique hA h h'
  | createRecord header inp tid =>
    dsimp only at h h'
    generalize (if inp.collection.getD [] ≠ [] then inp.collection else inp.record.bind cfg.typ) = coll at h h'
    split at h
    · rename_i hm
      rw [if_pos hm] at h'
      exact ⟨h.1.trans h'.1.symm, h.2.trans h'.2.symm⟩
    · rename_i hm
      rw [if_neg hm] at h'
      exact servesPut_unique hA h h'
  | deleteRecord header inp =>
    dsimp only at h h'
    split at h
    · rename_i hm
      rw [if_pos hm] at h'
      exact ⟨h.1.trans h'.1.symm, h.2.trans h'.2.symm⟩
    · rename_i hm
      rw [if_neg hm] at h'
      split at h
      · rename_i ha
        rw [if_pos ha] at h'
        exact ⟨h.1.trans h'.1.symm, h.2.trans h'.2.symm⟩
      · rename_i ha
        rw [if_neg ha] at h'
        obtain ⟨res, h1, h2⟩ := h
        obtain ⟨res', h1', h2'⟩ := h'
        cases finds_unique hA h1 h1'
        rcases res with e | ⟨d, x⟩
        · exact ⟨h2.1.trans h2'.1.symm, h2.2.trans h2'.2.symm⟩
        · cases hc : inp.collection with
          | none => rw [hc] at h2 h2'; exact ⟨h2.1.trans h2'.1.symm, h2.2.trans h2'.2.symm⟩
          | some c => cases hk : inp.rkey with
            | none => rw [hc, hk] at h2 h2'; exact ⟨h2.1.trans h2'.1.symm, h2.2.trans h2'.2.symm⟩
            | some k => rw [hc, hk] at h2 h2'; exact ⟨h2.1.trans h2'.1.symm, h2.2.trans h2'.2.symm⟩
  | applyWrites header inp =>
    dsimp only at h h'
    obtain ⟨e, h⟩ := h
    obtain ⟨e', h'⟩ := h'
    refine ⟨?_, e.trans e'.symm⟩
    split at h
    · rename_i hm
      rw [if_pos hm] at h'
      exact h.trans h'.symm
    · rename_i hm
      rw [if_neg hm] at h'
      split at h
      · rename_i ha; rw [if_pos ha] at h'; exact h.trans h'.symm
      · rename_i ha; rw [if_neg ha] at h'; exact h.trans h'.symm
  | uploadBlob header => exact ⟨h.2.trans h'.2.symm, h.1.trans h'.1.symm⟩
  | newRepo did handle => exact ⟨h.1.trans h'.1.symm, h.2.trans h'.2.symm⟩
  | setStatus did change =>
    dsimp only at h h'
    cases hd : A did with
    | none => rw [hd] at h h'; exact ⟨h.1.trans h'.1.symm, h.2.trans h'.2.symm⟩
    | some x => rw [hd] at h h'; exact ⟨h.1.trans h'.1.symm, h.2.trans h'.2.symm⟩

theorem Tidy.update (hA : Tidy owner A) {d : Did} {x : Account R} (hd : isDid d)
    (hx : ∀ h, x.handle = some h → owner h = d ∧ ¬ isDid h) :
    Tidy owner (Function.update A d (some x)) := by
  intro d' a' ha'
  by_cases e : d' = d
  · subst e
    rw [Function.update_self] at ha'
    cases ha'
    exact ⟨hd, hx⟩
  · rw [Function.update_of_ne e] at ha'
    exact hA d' a' ha'

theorem finds_account {q : Key} {d : Did} {x : Account R} (h : Finds cfg A q (.ok (d, x))) :
    A d = some x := by
  cases h with
  | found _ _ ha _ _ => exact ha

theorem servesPut_tidy (hA : Tidy owner A) {header : Option Key} {inp : Input R}
    (h : ServesPut cfg L A header inp a A') : Tidy owner A' := by
  unfold ServesPut at h
  split at h
  · exact h.2 ▸ hA
  split at h
  · exact h.2 ▸ hA
  obtain ⟨res, h1, h2⟩ := h
  rcases res with e | ⟨d, x⟩
  · exact h2.2 ▸ hA
  have hx := finds_account h1
  cases hc : inp.collection with
  | none => rw [hc] at h2; exact h2.2 ▸ hA
  | some c => cases hk : inp.rkey with
    | none => rw [hc, hk] at h2; exact h2.2 ▸ hA
    | some k => cases hr : inp.record with
      | none => rw [hc, hk, hr] at h2; exact h2.2 ▸ hA
      | some r =>
        rw [hc, hk, hr] at h2
        dsimp only at h2
        split at h2
        · exact h2.2 ▸ hA.update (hA _ _ hx).1 (hA _ _ hx).2
        · exact h2.2 ▸ hA

theorem serves_tidy (hA : Tidy owner A) {req : Request R} (hs : Proper req) (ho : Owned owner req)
    (h : Serves cfg out L A req a A') : Tidy owner A' := by
  unfold Serves at h
  cases req with
  | getRecord repo collection rkey cid => exact h.1 ▸ hA
  | listRecords repo collection limit cursor => exact h.1 ▸ hA
  | describeRepo repo => exact h.1 ▸ hA
  | getRepoStatus did => exact h.1 ▸ hA
  | putRecord header inp => exact servesPut_tidy hA h
  | createRecord header inp tid =>
    dsimp only at h
    generalize (if inp.collection.getD [] ≠ [] then inp.collection else inp.record.bind cfg.typ) = coll at h
    split at h
    · exact h.2 ▸ hA
    · exact servesPut_tidy hA h
  | deleteRecord header inp =>
    dsimp only at h
    split at h
    · exact h.2 ▸ hA
    split at h
    · exact h.2 ▸ hA
    obtain ⟨res, h1, h2⟩ := h
    rcases res with e | ⟨d, x⟩
    · exact h2.2 ▸ hA
    have hx := finds_account h1
    cases hc : inp.collection with
    | none => rw [hc] at h2; exact h2.2 ▸ hA
    | some c => cases hk : inp.rkey with
      | none => rw [hc, hk] at h2; exact h2.2 ▸ hA
      | some k => rw [hc, hk] at h2; exact h2.2 ▸ hA.update (hA _ _ hx).1 (hA _ _ hx).2
  | applyWrites header inp => exact h.1 ▸ hA
  | uploadBlob header => exact h.1 ▸ hA
  | newRepo did handle =>
    exact h.2 ▸ hA.update hs.1 fun k hk => ⟨ho k hk, (hs.2 k hk).1⟩
  | setStatus did change =>
    dsimp only at h
    cases hd : A did with
    | none => rw [hd] at h; exact h.2 ▸ hA
    | some x => rw [hd] at h; exact h.2 ▸ hA.update (hA _ _ hd).1 (hA _ _ hd).2

end Arroba.Xrpc
