import Verif.Xrpc.PlanProofs

/-! Helper lemmas: histories of the reference server, and putting a late write where it belongs. -/

namespace Arroba.Xrpc

open Arroba.Store Arroba.Tree

variable {C R : Type} [DecidableEq C] {L : Lib C R} {cfg : Config R} {X Y : Accounts R}
  {out : Surroundings}

/-- The accounts with other records in one of them. -/
def setRec (A : Accounts R) (d : Did) (m : Key → Option R) : Accounts R :=
  fun d' => if d' = d then (A d).map fun a => { a with records := m } else A d'

theorem setRec_ne {d d' : Did} {m : Key → Option R} (h : d' ≠ d) : setRec X d m d' = X d' := if_neg h

theorem setRec_eq {d : Did} {m : Key → Option R} {x : Account R} (h : X d = some x) :
    setRec X d m d = some { x with records := m } := by
  unfold setRec
  rw [if_pos rfl, h]
  rfl

theorem setRec_update {d : Did} {m : Key → Option R} {x : Account R} (h : X d = some x) :
    setRec X d m = Function.update X d (some { x with records := m }) := by
  funext d'
  unfold setRec
  rw [Function.update_apply, h]
  rfl

theorem setRec_update_ne {d d' : Did} {m : Key → Option R} {a : Option (Account R)} (h : d' ≠ d) :
    setRec (Function.update X d' a) d m = Function.update (setRec X d m) d' a := by
  funext e
  unfold setRec
  simp only [Function.update_apply]
  split
  · rename_i he
    subst he
    rw [if_neg (Ne.symm h), if_neg (Ne.symm h)]
  · rfl

theorem Finds.setRec {q : Key} {res : Except Err (Did × Account R)} (h : Finds cfg X q res) {d : Did}
    {x : Account R} (hx : X d = some x) (hs : x.status ≠ none) (m : Key → Option R) :
    Finds cfg (setRec X d m) q res := by
  cases h with
  | bad ht => exact .bad ht
  | empty ht => exact .empty ht
  | unknown ht hn hno =>
    refine .unknown ht hn fun d' a ha => ?_
    by_cases hd : d' = d
    · subst hd
      rw [setRec_eq hx] at ha
      cases ha
      exact hno d' x hx
    · rw [setRec_ne hd] at ha
      exact hno d' a ha
  | @inactive name d' a ht hn ha hname hst =>
    by_cases hd : d' = d
    · subst hd
      rw [hx] at ha
      cases ha
      exact .inactive ht hn (setRec_eq hx) hname hst
    · exact .inactive ht hn (by rw [setRec_ne hd]; exact ha) hname hst
  | @found name d' a ht hn ha hname hst =>
    refine .found ht hn ?_ hname hst
    rw [setRec_ne, ha]
    rintro rfl
    rw [hx] at ha
    cases ha
    exact hs hst

/-- Requests that leave an account inactive don't depend on its records. -/
def Indifferent (X Y : Accounts R) (d : Did) (y : Account R) (f : Accounts R → Accounts R → Prop) : Prop :=
  ∃ x, X d = some x ∧ x.records = y.records ∧ x.handle = y.handle ∧
    ∀ m, f (setRec X d m) (setRec Y d m)

theorem servesPut_indifferent {header : Option Key} {inp : Input R} {ans : Answer C R}
    (h : ServesPut cfg L X header inp ans Y) {d : Did} {y : Account R} (hy : Y d = some y)
    (hs : y.status ≠ none) :
    Indifferent X Y d y fun X Y => ServesPut cfg L X header inp ans Y := by
  unfold ServesPut at h ⊢
  split at h
  · rename_i hm
    obtain ⟨h1, rfl⟩ := h
    exact ⟨y, hy, rfl, rfl, fun m => by simp only [if_pos hm]; exact ⟨h1, trivial⟩⟩
  rename_i hm
  split at h
  · rename_i hau
    obtain ⟨h1, rfl⟩ := h
    exact ⟨y, hy, rfl, rfl, fun m => by simp only [if_neg hm, if_pos hau]; exact ⟨h1, trivial⟩⟩
  rename_i hau
  obtain ⟨res, h1, h2⟩ := h
  simp only [if_neg hm, if_neg hau]
  rcases res with e | ⟨d', a⟩
  · obtain ⟨h3, rfl⟩ := h2
    exact ⟨y, hy, rfl, rfl, fun m => ⟨_, h1.setRec hy hs m, h3, rfl⟩⟩
  obtain ⟨ha, hst⟩ := h1.status
  cases hc : inp.collection with
  | none =>
    rw [hc] at h2
    obtain ⟨h3, rfl⟩ := h2
    exact ⟨y, hy, rfl, rfl, fun m => ⟨_, h1.setRec hy hs m, h3, rfl⟩⟩
  | some c =>
    cases hk : inp.rkey with
    | none =>
      rw [hc, hk] at h2
      obtain ⟨h3, rfl⟩ := h2
      exact ⟨y, hy, rfl, rfl, fun m => ⟨_, h1.setRec hy hs m, h3, rfl⟩⟩
    | some k =>
      cases hr : inp.record with
      | none =>
        rw [hc, hk, hr] at h2
        obtain ⟨h3, rfl⟩ := h2
        exact ⟨y, hy, rfl, rfl, fun m => ⟨_, h1.setRec hy hs m, h3, rfl⟩⟩
      | some r =>
        rw [hc, hk, hr] at h2
        dsimp only at h2 ⊢
        by_cases hacc : Acceptable L r (pathOf c k)
        · rw [if_pos hacc] at h2
          obtain ⟨h3, rfl⟩ := h2
          have hne : d' ≠ d := by
            rintro rfl
            rw [Function.update_self] at hy
            cases hy
            exact hs hst
          have hy' : X d = some y := by
            rw [Function.update_of_ne (Ne.symm hne)] at hy
            exact hy
          refine ⟨y, hy', rfl, rfl, fun m => ⟨_, h1.setRec hy' hs m, ?_⟩⟩
          dsimp only
          rw [if_pos hacc]
          exact ⟨h3, setRec_update_ne hne⟩
        · rw [if_neg hacc] at h2
          obtain ⟨h3, rfl⟩ := h2
          refine ⟨y, hy, rfl, rfl, fun m => ⟨_, h1.setRec hy hs m, ?_⟩⟩
          dsimp only
          rw [if_neg hacc]
          exact ⟨h3, rfl⟩

theorem serves_indifferent {q : Request R} {ans : Answer C R}
    (h : Serves cfg out L X q ans Y) {d : Did} {y : Account R} (hy : Y d = some y)
    (hs : y.status ≠ none) :
    Indifferent X Y d y fun X Y => Serves cfg out L X q ans Y := by
  cases q with
  | getRecord repo collection rkey cid =>
    unfold Serves at h ⊢
    dsimp only at h ⊢
    obtain ⟨rfl, h⟩ := h
    refine ⟨y, hy, rfl, rfl, fun m => ⟨rfl, ?_⟩⟩
    split
    · rename_i hm; rw [if_pos hm] at h; exact h
    · rename_i hm
      rw [if_neg hm] at h
      obtain ⟨res, h1, h2⟩ := h
      exact ⟨res, h1.setRec hy hs m, h2⟩
  | listRecords repo collection limit cursor =>
    unfold Serves at h ⊢
    dsimp only at h ⊢
    obtain ⟨rfl, h⟩ := h
    refine ⟨y, hy, rfl, rfl, fun m => ⟨rfl, ?_⟩⟩
    split
    · rename_i hm; rw [if_pos hm] at h; exact h
    · rename_i hm
      rw [if_neg hm] at h
      split
      · rename_i hm; rw [if_pos hm] at h; exact h
      · rename_i hm
        rw [if_neg hm] at h
        obtain ⟨res, h1, h2⟩ := h
        exact ⟨res, h1.setRec hy hs m, h2⟩
  | describeRepo repo =>
    unfold Serves at h ⊢
    dsimp only at h ⊢
    obtain ⟨rfl, h⟩ := h
    refine ⟨y, hy, rfl, rfl, fun m => ⟨rfl, ?_⟩⟩
    split
    · rename_i hm; rw [if_pos hm] at h; exact h
    · rename_i hm
      rw [if_neg hm] at h
      obtain ⟨res, h1, h2⟩ := h
      exact ⟨res, h1.setRec hy hs m, h2⟩
  | getRepoStatus did =>
    unfold Serves at h ⊢
    dsimp only at h ⊢
    obtain ⟨rfl, res, h1, h2⟩ := h
    exact ⟨y, hy, rfl, rfl, fun m => ⟨rfl, res, h1.setRec hy hs m, h2⟩⟩
  | putRecord header inp => exact servesPut_indifferent h hy hs
  | createRecord header inp tid =>
    unfold Serves at h ⊢
    dsimp only at h ⊢
    by_cases hm : Malformed cfg inp
        (if inp.collection.getD [] ≠ [] then inp.collection else inp.record.bind cfg.typ)
    · rw [if_pos hm] at h
      obtain ⟨h1, rfl⟩ := h
      exact ⟨y, hy, rfl, rfl, fun m => by simp only [if_pos hm]; exact ⟨h1, trivial⟩⟩
    · rw [if_neg hm] at h
      simp only [if_neg hm]
      exact servesPut_indifferent h hy hs
  | deleteRecord header inp =>
    unfold Serves at h ⊢
    dsimp only at h ⊢
    split at h
    · rename_i hm
      obtain ⟨h1, rfl⟩ := h
      exact ⟨y, hy, rfl, rfl, fun m => by simp only [if_pos hm]; exact ⟨h1, trivial⟩⟩
    rename_i hm
    split at h
    · rename_i hau
      obtain ⟨h1, rfl⟩ := h
      exact ⟨y, hy, rfl, rfl, fun m => by simp only [if_neg hm, if_pos hau]; exact ⟨h1, trivial⟩⟩
    rename_i hau
    obtain ⟨res, h1, h2⟩ := h
    simp only [if_neg hm, if_neg hau]
    rcases res with e | ⟨d', a⟩
    · obtain ⟨h3, rfl⟩ := h2
      exact ⟨y, hy, rfl, rfl, fun m => ⟨_, h1.setRec hy hs m, h3, rfl⟩⟩
    obtain ⟨ha, hst⟩ := h1.status
    cases hc : inp.collection with
    | none =>
      rw [hc] at h2
      obtain ⟨h3, rfl⟩ := h2
      exact ⟨y, hy, rfl, rfl, fun m => ⟨_, h1.setRec hy hs m, h3, rfl⟩⟩
    | some c =>
      cases hk : inp.rkey with
      | none =>
        rw [hc, hk] at h2
        obtain ⟨h3, rfl⟩ := h2
        exact ⟨y, hy, rfl, rfl, fun m => ⟨_, h1.setRec hy hs m, h3, rfl⟩⟩
      | some k =>
        rw [hc, hk] at h2
        obtain ⟨h3, rfl⟩ := h2
        have hne : d' ≠ d := by
          rintro rfl
          rw [Function.update_self] at hy
          cases hy
          exact hs hst
        have hy' : X d = some y := by
          rw [Function.update_of_ne (Ne.symm hne)] at hy
          exact hy
        exact ⟨y, hy', rfl, rfl, fun m => ⟨_, h1.setRec hy' hs m, h3, setRec_update_ne hne⟩⟩
  | applyWrites header inp =>
    unfold Serves at h ⊢
    dsimp only at h ⊢
    obtain ⟨rfl, h⟩ := h
    exact ⟨y, hy, rfl, rfl, fun m => ⟨rfl, h⟩⟩
  | uploadBlob header =>
    unfold Serves at h ⊢
    dsimp only at h ⊢
    obtain ⟨rfl, h⟩ := h
    exact ⟨y, hy, rfl, rfl, fun m => ⟨rfl, h⟩⟩
  | newRepo did handle =>
    unfold Serves at h ⊢
    dsimp only at h ⊢
    obtain ⟨h1, rfl⟩ := h
    have hne : did ≠ d := by
      rintro rfl
      rw [Function.update_self] at hy
      cases hy
      exact hs rfl
    have hy' : X d = some y := by
      rw [Function.update_of_ne (Ne.symm hne)] at hy
      exact hy
    exact ⟨y, hy', rfl, rfl, fun m => ⟨h1, setRec_update_ne hne⟩⟩
  | setStatus did change =>
    unfold Serves at h ⊢
    dsimp only at h ⊢
    cases hX : X did with
    | none =>
      rw [hX] at h
      obtain ⟨h1, rfl⟩ := h
      have hne : did ≠ d := by rintro rfl; rw [hX] at hy; cases hy
      refine ⟨y, hy, rfl, rfl, fun m => ?_⟩
      dsimp only
      rw [setRec_ne hne, hX]
      exact ⟨h1, rfl⟩
    | some a =>
      rw [hX] at h
      obtain ⟨h1, rfl⟩ := h
      by_cases hne : did = d
      · subst hne
        rw [Function.update_self] at hy
        cases hy
        refine ⟨a, hX, rfl, rfl, fun m => ?_⟩
        dsimp only
        rw [setRec_eq hX]
        refine ⟨h1, ?_⟩
        funext e
        unfold setRec
        simp only [Function.update_apply]
        split <;> simp_all
      · have hy' : X d = some y := by
          rw [Function.update_of_ne (Ne.symm hne)] at hy
          exact hy
        refine ⟨y, hy', rfl, rfl, fun m => ?_⟩
        dsimp only
        rw [setRec_ne hne, hX]
        exact ⟨h1, setRec_update_ne hne⟩

/-- A request is answered right, or it fails for a reason. -/
def Tells (cfg : Config R) (out : Surroundings) (L : Lib C R) (E : Nat → Prop) (X : Accounts R) (i : Nat)
    (q : Request R) (ans : Answer C R) (Y : Accounts R) : Prop :=
  Serves cfg out L X q ans Y ∨ ∃ e, ans = .failed e ∧ Stores q ∧ E i ∧ Y = X

theorem tells_indifferent {E : Nat → Prop} {i : Nat} {q : Request R} {ans : Answer C R}
    (h : Tells cfg out L E X i q ans Y) {d : Did} {y : Account R} (hy : Y d = some y)
    (hs : y.status ≠ none) :
    Indifferent X Y d y fun X Y => Tells cfg out L E X i q ans Y := by
  rcases h with h | ⟨e, h1, h2, h3, rfl⟩
  · obtain ⟨x, h1, h2, h3, h4⟩ := serves_indifferent h hy hs
    exact ⟨x, h1, h2, h3, fun m => .inl (h4 m)⟩
  · exact ⟨y, hy, rfl, rfl, fun m => .inr ⟨e, h1, h2, h3, rfl⟩⟩

/-! ### Handles don't change -/

/-- The accounts are still there, with the same handles. -/
def Onward (X Y : Accounts R) : Prop := ∀ d a, X d = some a → ∃ a', Y d = some a' ∧ a'.handle = a.handle

theorem Onward.refl (X : Accounts R) : Onward X X := fun _ a h => ⟨a, h, rfl⟩

/-- The accounts are still there, and all have the right handles. -/
def Course (names : Did → Option Key) (X Y : Accounts R) : Prop := Onward X Y ∧ Named names Y

variable {names : Did → Option Key}

theorem Course.refl (hn : Named names X) : Course names X X := ⟨.refl X, hn⟩

theorem Course.update (hn : Named names X) {d : Did} {a' : Account R} (h' : a'.handle = names d) :
    Course names X (Function.update X d (some a')) := by
  refine ⟨fun e b hb => ?_, fun e b hb => ?_⟩
  · rw [Function.update_apply]
    split
    · rename_i he
      subst he
      exact ⟨a', rfl, h'.trans (hn e b hb).symm⟩
    · exact ⟨b, hb, rfl⟩
  · rw [Function.update_apply] at hb
    split at hb
    · rename_i he
      subst he
      cases hb
      exact h'
    · exact hn e b hb

theorem servesPut_handles {header : Option Key} {inp : Input R} {ans : Answer C R}
    (h : ServesPut cfg L X header inp ans Y) (hn : Named names X) : Course names X Y := by
  unfold ServesPut at h
  split at h
  · obtain ⟨_, rfl⟩ := h; exact .refl hn
  split at h
  · obtain ⟨_, rfl⟩ := h; exact .refl hn
  obtain ⟨res, h1, h2⟩ := h
  split at h2
  · obtain ⟨_, rfl⟩ := h2; exact .refl hn
  · split at h2
    · obtain ⟨_, rfl⟩ := h2; have := hn _ _ h1.status.1; exact .update hn this
    · obtain ⟨_, rfl⟩ := h2; exact .refl hn
  · obtain ⟨_, rfl⟩ := h2; exact .refl hn

theorem serves_handles {q : Request R} {ans : Answer C R} (h : Serves cfg out L X q ans Y)
    (hn : Named names X) (hq : Fits names q) : Course names X Y := by
  cases q with
  | putRecord header inp => exact servesPut_handles h hn
  | createRecord header inp tid =>
    unfold Serves at h
    dsimp only at h
    by_cases hm : Malformed cfg inp
        (if inp.collection.getD [] ≠ [] then inp.collection else inp.record.bind cfg.typ)
    · rw [if_pos hm] at h
      obtain ⟨_, rfl⟩ := h; exact .refl hn
    · rw [if_neg hm] at h
      exact servesPut_handles h hn
  | deleteRecord header inp =>
    unfold Serves at h
    dsimp only at h
    split at h
    · obtain ⟨_, rfl⟩ := h; exact .refl hn
    split at h
    · obtain ⟨_, rfl⟩ := h; exact .refl hn
    obtain ⟨res, h1, h2⟩ := h
    split at h2
    · obtain ⟨_, rfl⟩ := h2; exact .refl hn
    · obtain ⟨_, rfl⟩ := h2; have := hn _ _ h1.status.1; exact .update hn this
    · obtain ⟨_, rfl⟩ := h2; exact .refl hn
  | newRepo did handle =>
    unfold Serves at h
    dsimp only at h
    obtain ⟨_, rfl⟩ := h
    exact .update hn hq
  | setStatus did change =>
    unfold Serves at h
    dsimp only at h
    split at h
    · obtain ⟨_, rfl⟩ := h; exact .refl hn
    · rename_i a ha
      obtain ⟨_, rfl⟩ := h
      have := hn _ _ ha
      exact .update hn this
  | _ =>
    unfold Serves at h
    dsimp only at h
    obtain ⟨rfl, _⟩ := h
    exact .refl hn

theorem tells_handles {E : Nat → Prop} {i : Nat} {q : Request R} {ans : Answer C R}
    (h : Tells cfg out L E X i q ans Y) (hn : Named names X)
    (hq : Fits names q) : Course names X Y := by
  rcases h with h | ⟨_, _, _, _, rfl⟩
  · exact serves_handles h hn hq
  · exact .refl hn

/-! ### Histories -/

/-- A request that has taken effect, what its answer is or will be, and the accounts afterwards. -/
structure Point (C R : Type) where
  i : Nat
  ans : Answer C R
  post : Accounts R

/-- The accounts at the end of a history, latest first. -/
def cur (A : Accounts R) : List (Point C R) → Accounts R
  | [] => A
  | e :: _ => e.post

/-- A history of the reference server. -/
def Path (cfg : Config R) (out : Surroundings) (L : Lib C R) (req : Nat → Request R) (E : Nat → Prop)
    (A : Accounts R) :
    List (Point C R) → Prop
  | [] => True
  | e :: h => Tells cfg out L E (cur A h) e.i (req e.i) e.ans e.post ∧
      Path cfg out L req E A h

theorem Path.mono {req : Nat → Request R} {A : Accounts R} {E E' : Nat → Prop} (hE : ∀ i, E i → E' i) :
    ∀ {h : List (Point C R)}, Path cfg out L req E A h → Path cfg out L req E' A h
  | [], _ => trivial
  | _ :: _, ⟨h1, h3⟩ =>
    ⟨h1.imp_right fun ⟨e, g1, g2, g3, g4⟩ => ⟨e, g1, g2, hE _ g3, g4⟩, h3.mono hE⟩

/-- The account can be written to. -/
def Open (A : Accounts R) (d : Did) : Prop := ∃ a, A d = some a ∧ a.status = none

/-- A write that has begun can be put at the end, or before everything after which the account was
inactive. -/
def Room (A : Accounts R) (P : Nat → Nat → Prop) (pend : Nat → Prop) (d : Did) :
    List (Point C R) → Prop
  | [] => Open A d
  | e :: h => Open e.post d ∨ ((∀ k, pend k → ¬ P e.i k) ∧ Room A P pend d h)

theorem Room.of_open {A : Accounts R} {P : Nat → Nat → Prop} {pend : Nat → Prop} {d : Did} :
    ∀ {h : List (Point C R)}, Open (cur A h) d → Room A P pend d h
  | [], ho => ho
  | _ :: _, ho => .inl ho

theorem Room.mono {A : Accounts R} {P P' : Nat → Nat → Prop} {pend pend' : Nat → Prop} {d : Did}
    (hp : ∀ k, pend' k → pend k ∧ ∀ i, P' i k → P i k) :
    ∀ {h : List (Point C R)}, Room A P pend d h → Room A P' pend' d h
  | [], hr => hr
  | _ :: _, .inl ho => .inl ho
  | _ :: _, .inr ⟨h1, h2⟩ => .inr ⟨fun k hk hn => h1 k (hp k hk).1 ((hp k hk).2 _ hn), h2.mono hp⟩

/-- The history with a write put in. -/
theorem Path.insert {req : Nat → Request R} {E : Nat → Prop} {A : Accounts R} {P : Nat → Nat → Prop} {pend : Nat → Prop}
    {d : Did} {i : Nat} {ans : Answer C R} {m m0 : Key → Option R} {handle : Option Key}
    (hw : ∀ (A1 : Accounts R) (a1 : Account R), A1 d = some a1 → a1.handle = handle → a1.status = none →
      a1.records = m0 → Serves cfg out L A1 (req i) ans (Function.update A1 d (some { a1 with records := m })))
    (hi : pend i) (hni : ∀ k, ¬ P i k) :
    ∀ {h : List (Point C R)}, Path cfg out L req E A h → Room A P pend d h → h.Pairwise (fun x y => ¬ P x.i y.i) →
      ∀ a, cur A h d = some a → a.handle = handle → a.records = m0 →
      ∃ h' : List (Point C R), Path cfg out L req E A h' ∧ cur A h' = setRec (cur A h) d m ∧
        (h'.map fun e => (e.i, e.ans)).Perm ((i, ans) :: h.map fun e => (e.i, e.ans)) ∧
        h'.Pairwise (fun x y => ¬ P x.i y.i) ∧
        ∀ d' pend', (∀ k, ¬ (pend' k ∧ P i k)) → Room A P pend' d' h → Room A P pend' d' h' := by
  have here : ∀ {h : List (Point C R)}, Path cfg out L req E A h → h.Pairwise (fun x y => ¬ P x.i y.i) →
      ∀ a, cur A h d = some a → a.handle = handle → a.records = m0 → a.status = none →
      ∃ h' : List (Point C R), Path cfg out L req E A h' ∧ cur A h' = setRec (cur A h) d m ∧
        (h'.map fun e => (e.i, e.ans)).Perm ((i, ans) :: h.map fun e => (e.i, e.ans)) ∧
        h'.Pairwise (fun x y => ¬ P x.i y.i) ∧
        ∀ d' pend', (∀ k, ¬ (pend' k ∧ P i k)) → Room A P pend' d' h → Room A P pend' d' h' := by
    intro h hp ho a ha hh hm hs
    refine ⟨⟨i, ans, setRec (cur A h) d m⟩ :: h, ⟨.inl ?_, hp⟩, rfl, .refl _,
      List.pairwise_cons.2 ⟨fun y _ => hni y.i, ho⟩, fun d' pend' hn hr => .inr ⟨fun k hk hP => hn k ⟨hk, hP⟩, hr⟩⟩
    rw [setRec_update ha]
    exact hw _ _ ha hh hs hm
  intro h
  induction h with
  | nil =>
    rintro hp ⟨a', ha', hs'⟩ ho a ha hh hm
    rw [show cur A [] d = A d from rfl, ha'] at ha
    cases ha
    exact here hp ho a' ha' hh hm hs'
  | cons e h ih =>
    intro hp hr ho a ha hh hm
    by_cases hs : a.status = none
    · exact here hp ho a ha hh hm hs
    · have ha : e.post d = some a := ha
      rcases hr with ⟨a', ha', hs'⟩ | ⟨hr1, hr2⟩
      · rw [ha'] at ha
        cases ha
        exact absurd hs' hs
      obtain ⟨hp1, hp3⟩ := hp
      obtain ⟨x, hx1, hx2, hx3, hx4⟩ := tells_indifferent hp1 ha hs
      obtain ⟨ho1, ho2⟩ := List.pairwise_cons.1 ho
      obtain ⟨h', g1, g2, g3, g4, g5⟩ := ih hp3 hr2 ho2 x hx1 (hx3.trans hh) (hx2.trans hm)
      refine ⟨⟨e.i, e.ans, setRec e.post d m⟩ :: h', ⟨?_, g1⟩, rfl, ?_, ?_, fun d' pend' hn hr => ?_⟩
      · rw [g2]; exact hx4 m
      · exact (g3.cons _).trans (.swap _ _ _)
      · refine List.pairwise_cons.2 ⟨fun y hy => ?_, g4⟩
        have := (g3.mem_iff (a := (y.i, y.ans))).1 (List.mem_map.2 ⟨y, hy, rfl⟩)
        rcases List.mem_cons.1 this with hy | hy
        · rw [(Prod.mk.inj hy).1]
          exact hr1 i hi
        · obtain ⟨z, hz, he⟩ := List.mem_map.1 hy
          rw [← (Prod.mk.inj he).1]
          exact ho1 z hz
      · rcases hr with ⟨b, hb, hbs⟩ | ⟨hr1, hr2⟩
        · refine .inl ?_
          by_cases hd : d' = d
          · subst hd
            exact ⟨_, setRec_eq hb, hbs⟩
          · exact ⟨b, by rw [show (Point.mk e.i e.ans (setRec e.post d m)).post d' = e.post d' from setRec_ne hd]; exact hb, hbs⟩
        · exact .inr ⟨hr1, g5 d' pend' hn hr2⟩

end Arroba.Xrpc
