import Verif.Firehose.SubProofs
import Mathlib.Data.List.Nodup

/-!
# Every step keeps the invariants
-/

namespace Arroba.Fire

/-- What a live subscriber has: what it had when it went live, and events emitted since, in order.
`pend`: the collector is handing out the last event, and has not come to this subscriber. -/
structure Live (gc : Bool) (hist : List Ev) (hand pend : Prop) (all : List Ev) (j : Nat)
    (rep : List Ev) : Prop where
  late : hand → j < hist.length
  got : ∃ l, all = rep ++ l ∧ l.Sublist (hist.drop j) ∧
    (pend → l.Sublist (hist.dropLast.drop j)) ∧
    (gc = false → (pend → l = hist.dropLast.drop j) ∧ (¬ pend → l = hist.drop j))

def State.handing (s : State) : Prop := ∃ sc e k, s.col = .handing sc e k

def State.pending (s : State) (i : Nat) : Prop :=
  ∃ sc e k, s.col = .handing sc e k ∧ i ∈ s.subs.drop k

def State.Live (gc : Bool) (s : State) (i : Nat) : Prop :=
  Fire.Live gc s.hist s.handing (s.pending i) (s.out i ++ s.queue i) (s.joined i) (s.replayed i)

structure Inv (cfg : Cfg) (gc : Bool) (s : State) : Prop where
  core : s.Core cfg.window
  nodup : s.subs.Nodup
  isLive : ∀ i, i ∈ s.subs ↔ s.loc i = .live
  sub : ∀ i, Sub s.env (s.view i)
  live : ∀ i, s.loc i = .live → s.Live gc i

variable {cfg : Cfg} {gc : Bool} {s s' : State}

theorem State.Pending.handing {i : Nat} (h : s.pending i) : s.handing := by
  obtain ⟨sc, e, k, h, _⟩ := h; exact ⟨sc, e, k, h⟩

theorem not_handing (h : s.col.locked = false) : ¬ s.handing := by
  rintro ⟨sc, e, k, hc⟩
  rw [hc] at h; cases h

theorem Live.congr {hist : List Ev} {hand hand' pend pend' : Prop} {all rep : List Ev} {j : Nat}
    (h : Live gc hist hand pend all j rep) (h1 : hand' → hand) (h2 : pend' ↔ pend) :
    Live gc hist hand' pend' all j rep := by
  obtain ⟨l, g1, g2, g3, g4⟩ := h.got
  exact ⟨fun hh => h.late (h1 hh), l, g1, g2, fun hp => g3 (h2.1 hp), fun hg =>
    ⟨fun hp => (g4 hg).1 (h2.1 hp), fun hp => (g4 hg).2 (fun hp' => hp (h2.2 hp'))⟩⟩

/-- A live subscriber's events are in order. -/
theorem Inv.liveSorted (h : Inv cfg gc s) {i : Nat} (hl : s.loc i = .live) (hu : (s.view i).ordered) :
    Sorted (s.out i ++ s.queue i) := by
  obtain ⟨l, g1, g2, _⟩ := (h.live i hl).got
  have hj := h.sub i
  unfold Sub at hj
  rw [show (s.view i).loc = .live from hl] at hj
  have hj : Joined s.env (s.view i) := hj
  have hs : Sorted s.hist := (List.pairwise_append.1 h.core.sorted).2.1
  rw [g1]
  refine List.pairwise_append.2 ⟨hj.sorted hu, (hs.sublist (List.drop_sublist _ _)).sublist g2, ?_⟩
  intro a ha b hb
  obtain ⟨y, hy, hay⟩ := hj.bnd a ha
  have hy : y ∈ s.hist.take (s.joined i) := hy
  have hb := g2.subset hb
  rw [← List.take_append_drop (s.joined i) s.hist] at hs
  have := (List.pairwise_append.1 hs).2.2 y hy b hb
  omega

/-- In order, wherever the subscriber is. -/
theorem Inv.sorted (h : Inv cfg gc s) (i : Nat) (hu : (s.view i).ordered) : Sorted (s.out i) := by
  have hs := h.sub i
  unfold Sub at hs
  split at hs
  · rw [show s.out i = [] from hs.1]; exact .nil
  · rw [show s.out i = [] from hs.1]; exact .nil
  · exact hs.1.sorted
  · exact hs.1.sorted
  · exact hs.sorted
  · exact (List.pairwise_append.1 (hs.sorted hu)).1
  · rw [show s.out i = [] from hs.1]; exact .nil
  · rename_i hl
    exact (List.pairwise_append.1 (h.liveSorted hl hu)).1
  · exact hs hu

/-- A subscriber moves before it is live, or dies. -/
theorem Inv.local (h : Inv cfg gc s) {i : Nat} (hcore : s'.Core cfg.window) (hcol : s'.col = s.col)
    (hhist : s'.hist = s.hist) (hsubs : s'.subs = s.subs) (henv : s'.env = s.env)
    (hv : ∀ j, j ≠ i → s'.view j = s.view j) (hl : s.loc i ≠ .live) (hl' : s'.loc i ≠ .live)
    (hsub : Sub s.env (s'.view i)) : Inv cfg gc s' := by
  have hloc : ∀ j, j ≠ i → s'.loc j = s.loc j := fun j hj => congrArg View.loc (hv j hj)
  refine ⟨hcore, by rw [hsubs]; exact h.nodup, fun j => ?_, fun j => ?_, fun j hj => ?_⟩
  · rw [hsubs, h.isLive]
    by_cases hji : j = i
    · subst hji; exact ⟨fun h => absurd h hl, fun h => absurd h hl'⟩
    · rw [hloc j hji]
  · rw [henv]
    by_cases hji : j = i
    · subst hji; exact hsub
    · rw [hv j hji]; exact h.sub j
  · by_cases hji : j = i
    · subst hji; exact absurd hj hl'
    · rw [hloc j hji] at hj
      have g := h.live j hj
      have hvj := hv j hji
      unfold State.Live at g ⊢
      rw [hhist, show s'.out j = s.out j from congrArg View.out hvj,
        show s'.queue j = s.queue j from congrArg View.queue hvj,
        show s'.joined j = s.joined j from congrArg View.joined hvj,
        show s'.replayed j = s.replayed j from congrArg View.replayed hvj]
      refine g.congr ?_ ?_
      · unfold State.handing; rw [hcol]; exact id
      · unfold State.pending; rw [hcol, hsubs]

/-- The collector moves without handing anything out. -/
theorem Inv.collect (h : Inv cfg gc s) (hcore : s'.Core cfg.window) (h1 : ¬ s.handing)
    (h2 : ¬ s'.handing) (hhist : s'.hist = s.hist) (hsubs : s'.subs = s.subs) (henv : s'.env = s.env)
    (hv : s'.view = s.view) : Inv cfg gc s' := by
  have hloc : ∀ j, s'.loc j = s.loc j := fun j => congrArg View.loc (congrFun hv j)
  refine ⟨hcore, by rw [hsubs]; exact h.nodup, fun j => ?_, fun j => ?_, fun j hj => ?_⟩
  · rw [hsubs, h.isLive, hloc]
  · rw [henv, hv]; exact h.sub j
  · rw [hloc] at hj
    have g := h.live j hj
    have hvj := congrFun hv j
    unfold State.Live at g ⊢
    rw [hhist, show s'.out j = s.out j from congrArg View.out hvj,
      show s'.queue j = s.queue j from congrArg View.queue hvj,
      show s'.joined j = s.joined j from congrArg View.joined hvj,
      show s'.replayed j = s.replayed j from congrArg View.replayed hvj]
    exact g.congr (fun hh => absurd hh h2)
      ⟨fun hh => absurd (State.Pending.handing hh) h2, fun hh => absurd (State.Pending.handing hh) h1⟩

/-! ### The environment and the collector -/

theorem Inv.store (h : Inv cfg gc s) {e : Ev} (h0 : e.seq ≠ 0)
    (h1 : ∀ x ∈ s.stored, x.seq ≠ e.seq) : Inv cfg gc { s with stored := e :: s.stored } := by
  have hc := h.core
  refine ⟨⟨hc.win, List.pairwise_cons.2 ⟨fun x hx => (h1 x hx).symm, hc.distinct⟩, ?_, hc.sorted,
    hc.suffix, hc.full, hc.some, hc.base, fun x hx => List.mem_cons_of_mem _ (hc.inStored x hx), hc.bound,
    fun sc x hx => List.mem_cons_of_mem _ (hc.got sc x hx), fun sc x hx => ?_, hc.handing⟩,
    h.nodup, h.isLive, fun i => (h.sub i).store e, h.live⟩
  · intro x hx
    rcases List.mem_cons.1 hx with rfl | hx
    · exact h0
    · exact hc.pos x hx
  · obtain ⟨g1, g2, g3⟩ := hc.taken sc x hx
    exact ⟨g1, List.mem_cons_of_mem _ g2, g3⟩

theorem Inv.append (h : Inv cfg gc s) {sc : Scan} {e : Ev} (hcol : s.col = .taken sc e) :
    Inv cfg gc { s with
      col := .handing sc e 0, rollback := push cfg.window s.rollback e, hist := s.hist ++ [e]
      evictions := s.evictions + (s.rollback.length + 1 - cfg.window) } := by
  have hc : Core cfg.window s.stored s.rollback s.merged s.hist s.lastSeq (.taken sc e) := by
    have := h.core
    unfold State.Core at this
    rwa [hcol] at this
  have hn : ¬ s.handing := not_handing (by rw [hcol]; rfl)
  refine ⟨hc.append, h.nodup, h.isLive, fun i => Sub.append hc (h.sub i), fun i hi => ?_⟩
  obtain ⟨l, g1, g2, _, g4⟩ := (h.live i hi).got
  have hj := h.sub i
  unfold Sub at hj
  rw [show (s.view i).loc = .live from hi] at hj
  have hj : s.joined i ≤ s.hist.length := Joined.joined hj
  refine ⟨fun _ => ?_, l, g1, ?_, ?_, ?_⟩
  · show s.joined i < (s.hist ++ [e]).length
    simp; omega
  · refine g2.trans ?_
    show (s.hist.drop (s.joined i)).Sublist ((s.hist ++ [e]).drop (s.joined i))
    rw [List.drop_append_of_le_length hj]
    exact List.sublist_append_left _ _
  · intro _
    show l.Sublist ((s.hist ++ [e]).dropLast.drop (s.joined i))
    rw [List.dropLast_concat]; exact g2
  · intro hg
    refine ⟨fun _ => ?_, fun hp => absurd ?_ hp⟩
    · show l = (s.hist ++ [e]).dropLast.drop (s.joined i)
      rw [List.dropLast_concat]
      exact (g4 hg).2 (fun hp => hn (State.Pending.handing hp))
    · exact ⟨sc, e, 0, rfl, by show i ∈ s.subs; exact (h.isLive i).2 hi⟩

theorem mem_drop_succ {l : List Nat} (hn : l.Nodup) {k t i : Nat} (ht : l[k]? = some t) :
    i ∈ l.drop (k + 1) ↔ i ∈ l.drop k ∧ i ≠ t := by
  obtain ⟨hk, hkt⟩ := List.getElem?_eq_some_iff.1 ht
  have hd : l.drop k = t :: l.drop (k + 1) := by rw [List.drop_eq_getElem_cons hk, hkt]
  have hn' := hn.sublist (List.drop_sublist k l)
  rw [hd] at hn' ⊢
  have := (List.nodup_cons.1 hn').1
  constructor
  · intro hi
    exact ⟨List.mem_cons_of_mem _ hi, fun he => this (he ▸ hi)⟩
  · rintro ⟨hi, hne⟩
    exact (List.mem_cons.1 hi).resolve_left hne

theorem Inv.give (h : Inv cfg gc s) {sc : Scan} {e : Ev} {k t : Nat} (hcol : s.col = .handing sc e k)
    (ht : s.subs[k]? = some t) : Inv cfg gc { s.put t e with col := .handing sc e (k + 1) } := by
  have htm : t ∈ s.subs.drop k := by
    obtain ⟨hk, hkt⟩ := List.getElem?_eq_some_iff.1 ht
    rw [List.drop_eq_getElem_cons hk, hkt]; exact List.mem_cons_self
  have htl : s.loc t = .live := (h.isLive t).1 ((List.drop_sublist _ _).subset htm)
  obtain ⟨l0, hl0⟩ := h.core.handing sc e k hcol
  refine ⟨?_, h.nodup, h.isLive, fun i => ?_, fun i hi => ?_⟩
  · refine h.core.col (by simp) (by simp) ?_
    intro sc' e' k' he
    cases he; exact ⟨l0, hl0⟩
  · have := h.sub i
    by_cases hit : i = t
    · subst hit
      unfold Sub at this ⊢
      rw [show (s.view i).loc = .live from htl] at this
      rw [show (State.view { s.put i e with col := .handing sc e (k + 1) } i).loc = .live from htl]
      exact ⟨this.joined, this.sorted, this.bnd, this.none, this.evict, this.old⟩
    · have hv : State.view { s.put t e with col := .handing sc e (k + 1) } i = s.view i := by
        simp [State.view, State.put, Function.update_of_ne hit]
      rw [hv]; exact this
  · have hi : s.loc i = .live := hi
    have g := h.live i hi
    have hlate := g.late ⟨sc, e, k, hcol⟩
    have hpend : ∀ j, s.pending j ↔ j ∈ s.subs.drop k := by
      intro j
      constructor
      · rintro ⟨sc', e', k', h1, h2⟩
        rw [hcol] at h1; cases h1; exact h2
      · intro hj; exact ⟨sc, e, k, hcol, hj⟩
    have hpend' : ∀ j, State.pending { s.put t e with col := .handing sc e (k + 1) } j ↔
        j ∈ s.subs.drop (k + 1) := by
      intro j
      constructor
      · rintro ⟨sc', e', k', h1, h2⟩
        cases h1; exact h2
      · intro hj; exact ⟨sc, e, k + 1, rfl, hj⟩
    by_cases hit : i = t
    · subst hit
      obtain ⟨l, g1, g2, g3, g4⟩ := g.got
      have hp := (hpend i).2 htm
      have hnp : ¬ State.pending { s.put i e with col := .handing sc e (k + 1) } i := by
        rw [hpend', mem_drop_succ h.nodup ht]
        exact fun hh => hh.2 rfl
      have hd : s.hist.drop (s.joined i) = s.hist.dropLast.drop (s.joined i) ++ [e] := by
        rw [hl0, List.dropLast_concat, List.drop_append_of_le_length]
        rw [hl0] at hlate; simp at hlate; omega
      refine ⟨fun _ => hlate, l ++ [e], ?_, ?_, fun hh => absurd hh hnp, fun hg => ⟨fun hh => absurd hh hnp, fun _ => ?_⟩⟩
      · show s.out i ++ Function.update s.queue i (s.queue i ++ [e]) i = s.replayed i ++ (l ++ [e])
        rw [Function.update_self, ← List.append_assoc, g1, List.append_assoc]
      · show (l ++ [e]).Sublist (s.hist.drop (s.joined i))
        rw [hd]
        exact (g3 hp).append (List.Sublist.refl _)
      · show l ++ [e] = s.hist.drop (s.joined i)
        rw [hd, (g4 hg).1 hp]
    · unfold State.Live
      rw [show State.queue { s.put t e with col := .handing sc e (k + 1) } i = s.queue i from
        Function.update_of_ne hit ..]
      refine Live.congr g (fun _ => ⟨sc, e, k, hcol⟩) ?_
      rw [hpend', hpend, mem_drop_succ h.nodup ht]
      exact ⟨fun hh => hh.1, fun hh => ⟨hh, hit⟩⟩

theorem Inv.giveEnd (h : Inv cfg gc s) {sc : Scan} {e : Ev} {k : Nat} (hcol : s.col = .handing sc e k)
    (ht : s.subs[k]? = none) : Inv cfg gc { s with col := .scanning sc } := by
  have hk : s.subs.length ≤ k := List.getElem?_eq_none_iff.1 ht
  refine ⟨h.core.col (by simp) (by simp) (by simp), h.nodup, h.isLive, h.sub, fun i hi => ?_⟩
  refine Live.congr (h.live i hi) ?_ ?_
  · rintro ⟨sc', e', k', hh⟩; cases hh
  · constructor
    · rintro ⟨sc', e', k', hh, _⟩; cases hh
    · rintro ⟨sc', e', k', h1, h2⟩
      rw [hcol] at h1; cases h1
      rw [List.drop_eq_nil_of_le hk] at h2; cases h2

/-! ### Subscribers -/

theorem erase_drop_subset {l : List Nat} {a x : Nat} : ∀ {k : Nat}, x ∈ (l.erase a).drop k → x ∈ l.drop k := by
  induction l with
  | nil => intro k h; simpa using h
  | cons b l ih =>
    intro k h
    by_cases hb : b = a
    · subst hb
      rw [List.erase_cons_head] at h
      cases k with
      | zero => exact List.mem_cons_of_mem _ h
      | succ k => exact List.drop_subset_drop_left l (Nat.le_succ k) h
    · rw [List.erase_cons_tail (by simpa using hb)] at h
      cases k with
      | zero =>
        rcases List.mem_cons.1 h with rfl | h
        · exact List.mem_cons_self
        · exact List.mem_cons_of_mem _ (List.mem_of_mem_erase h)
      | succ k => exact ih h

/-- A live subscriber goes away. -/
theorem Inv.leave (h : Inv cfg gc s) {i : Nat} (hl : s.loc i = .live)
    (hg : s.col.locked = false ∨ gc = true) :
    Inv cfg gc ({ s with subs := s.subs.erase i }.goto i .dead) := by
  have hloc : ∀ j, j ≠ i → (({ s with subs := s.subs.erase i }.goto i .dead).loc j) = s.loc j :=
    fun j hj => Function.update_of_ne hj ..
  have hloci : (({ s with subs := s.subs.erase i }.goto i .dead).loc i) = .dead :=
    Function.update_self ..
  refine ⟨h.core, h.nodup.erase _, fun j => ?_, fun j => ?_, fun j hj => ?_⟩
  · show j ∈ s.subs.erase i ↔ _
    rw [h.nodup.mem_erase_iff, h.isLive]
    by_cases hji : j = i
    · subst hji; rw [hloci]; simp
    · rw [hloc j hji]; simp [hji]
  · by_cases hji : j = i
    · subst hji
      unfold Sub
      have hv : State.view (({ s with subs := s.subs.erase j } : State).goto j .dead) j =
          { s.view j with loc := .dead } := by simp [State.view, State.goto]
      rw [hv]
      exact fun hu => h.sorted j hu
    · have hv : State.view ({ s with subs := s.subs.erase i }.goto i .dead) j = s.view j := by
        simp [State.view, State.goto, Function.update_of_ne hji]
      rw [hv]; exact h.sub j
  · have hji : j ≠ i := by
      rintro rfl; rw [hloci] at hj; cases hj
    rw [hloc j hji] at hj
    have g := h.live j hj
    rcases hg with hg | hg
    · have hn := not_handing hg
      refine Live.congr g (fun hh => absurd hh hn) ⟨?_, fun hh => absurd (State.Pending.handing hh) hn⟩
      rintro ⟨sc, e, k, hh, _⟩
      exact absurd ⟨sc, e, k, hh⟩ hn
    · obtain ⟨l, g1, g2, g3, _⟩ := g.got
      refine ⟨g.late, l, g1, g2, fun hp => g3 ?_, fun hf => by rw [hg] at hf; cases hf⟩
      obtain ⟨sc, e, k, h1, h2⟩ := hp
      exact ⟨sc, e, k, h1, erase_drop_subset h2⟩

/-- A subscriber goes live. -/
theorem Inv.register (h : Inv cfg gc s) {i : Nat} {q : List Ev} (hlock : s.col.locked = false)
    (hl : s.loc i ≠ .live) (h1 : (s.view i).ordered → Sorted (s.out i ++ q))
    (h2 : ∀ x ∈ s.out i ++ q, ∃ h ∈ s.hist, x.seq ≤ h.seq)
    (h3 : s.cursor i = none → s.out i ++ q = [])
    (h5 : ∀ c, s.cursor i = some c → s.unevicted i = true →
      ∀ h ∈ s.hist, c ≤ h.seq → h ∈ s.out i ++ q)
    (h6 : ∀ c, s.cursor i = some c → s.unmerged i = true →
      ∀ m ∈ s.seen i, c ≤ m.seq → m.seq < s.front i → m ∈ s.out i ++ q) :
    Inv cfg gc (s.register i q) := by
  have hn := not_handing hlock
  have hloc : ∀ j, j ≠ i → (s.register i q).loc j = s.loc j := fun j hj => Function.update_of_ne hj ..
  have hloci : (s.register i q).loc i = .live := Function.update_self ..
  have hni : i ∉ s.subs := fun hi => hl ((h.isLive i).1 hi)
  have hn' : ¬ (s.register i q).handing := hn
  refine ⟨h.core, ?_, fun j => ?_, fun j => ?_, fun j hj => ?_⟩
  · show (s.subs ++ [i]).Nodup
    exact List.nodup_append.2 ⟨h.nodup, by simp, fun a ha b hb => by
      simp at hb; subst hb; rintro rfl; exact hni ha⟩
  · show j ∈ s.subs ++ [i] ↔ _
    by_cases hji : j = i
    · subst hji; rw [hloci]; simp
    · rw [hloc j hji, ← h.isLive]; simp [hji]
  · by_cases hji : j = i
    · subst hji
      have hv : (s.register j q).view j = { s.view j with
          loc := .live, queue := q, joined := s.hist.length, replayed := s.out j ++ q } := by
        simp [State.view, State.register, State.goto]
      unfold Sub
      rw [hv]
      dsimp only
      refine ⟨Nat.le_refl _, h1, ?_, h3, ?_, h6⟩
      · show ∀ x ∈ s.out j ++ q, ∃ h ∈ s.hist.take s.hist.length, x.seq ≤ h.seq
        rw [List.take_length]; exact h2
      · show ∀ c, s.cursor j = some c → s.unevicted j = true →
          ∀ h ∈ s.hist.take s.hist.length, c ≤ h.seq → h ∈ s.out j ++ q
        rw [List.take_length]; exact h5
    · have hv : (s.register i q).view j = s.view j := by
        simp [State.view, State.register, State.goto, Function.update_of_ne hji]
      rw [hv]; exact h.sub j
  · by_cases hji : j = i
    · subst hji
      have hj1 : (s.register j q).joined j = s.hist.length := Function.update_self ..
      have hj2 : (s.register j q).replayed j = s.out j ++ q := Function.update_self ..
      have hj3 : (s.register j q).queue j = q := Function.update_self ..
      refine ⟨fun hh => absurd hh hn', [], ?_, List.nil_sublist _, fun _ => List.nil_sublist _, fun _ =>
        ⟨fun hh => absurd (State.Pending.handing hh) hn', fun _ => ?_⟩⟩
      · rw [hj2, hj3, List.append_nil]; rfl
      · rw [hj1]; exact List.drop_length.symm
    · rw [hloc j hji] at hj
      have g := h.live j hj
      unfold State.Live at g ⊢
      rw [show (s.register i q).queue j = s.queue j from Function.update_of_ne hji ..,
        show (s.register i q).joined j = s.joined j from Function.update_of_ne hji ..,
        show (s.register i q).replayed j = s.replayed j from Function.update_of_ne hji ..]
      exact g.congr (fun hh => absurd hh hn') ⟨fun hh => absurd (State.Pending.handing hh) hn',
        fun hh => absurd (State.Pending.handing hh) hn⟩

theorem Inv.pull (h : Inv cfg gc s) {i : Nat} {e : Ev} {q : List Ev} (hl : s.loc i = .live)
    (hq : s.queue i = e :: q) :
    Inv cfg gc ({ s with queue := Function.update s.queue i q }.yield i e) := by
  refine ⟨h.core, h.nodup, h.isLive, fun j => ?_, fun j hj => ?_⟩
  · by_cases hji : j = i
    · subst hji
      have hv : ({ s with queue := Function.update s.queue j q }.yield j e).view j =
          { s.view j with out := s.out j ++ [e], queue := q } := by
        simp [State.view, State.yield]
      have := h.sub j
      unfold Sub at this ⊢
      rw [hv]
      dsimp only
      rw [show (s.view j).loc = .live from hl] at this ⊢
      exact ⟨this.joined, this.sorted, this.bnd, this.none, this.evict, this.old⟩
    · have hv : ({ s with queue := Function.update s.queue i q }.yield i e).view j = s.view j := by
        simp [State.view, State.yield, Function.update_of_ne hji]
      rw [hv]; exact h.sub j
  · have g := h.live j hj
    by_cases hji : j = i
    · subst hji
      unfold State.Live at g ⊢
      have h1 : ({ s with queue := Function.update s.queue j q }.yield j e).out j = s.out j ++ [e] :=
        Function.update_self ..
      have h2 : ({ s with queue := Function.update s.queue j q }.yield j e).queue j = q :=
        Function.update_self ..
      rw [h1, h2, List.append_assoc]
      rw [hq] at g
      exact g
    · unfold State.Live at g ⊢
      have h1 : (({ s with queue := Function.update s.queue i q } : State).yield i e).out j = s.out j :=
        Function.update_of_ne hji ..
      have h2 : (({ s with queue := Function.update s.queue i q } : State).yield i e).queue j =
        s.queue j := Function.update_of_ne hji ..
      rw [h1, h2]
      exact g

theorem Inv.merge (h : Inv cfg gc s) {pre : List Ev} (h1 : Sorted pre) (h2 : ∀ x ∈ pre, x ∈ s.stored)
    (h3 : ∀ x ∈ pre, x.seq < s.start ∧ s.rollback.length < cfg.window) : Inv cfg gc (s.merge pre) := by
  have hc := h.core.merge h1 h2 h3
  unfold State.merge at hc ⊢
  split
  · exact h
  · rename_i hp
    rw [if_neg hp] at hc
    exact ⟨hc, h.nodup, h.isLive, fun i => (h.sub i).merge pre, h.live⟩

/-- An element of the window is at most some emitted one. -/
theorem Inv.bnd (h : Inv cfg gc s) {x : Ev} (hx : x ∈ s.rollback) : ∃ y ∈ s.hist, x.seq ≤ y.seq := by
  have hx := h.core.suffix.mem hx
  rcases List.mem_append.1 hx with hm | hh
  · obtain ⟨y, hy⟩ := List.exists_mem_of_ne_nil _ (h.core.base (List.ne_nil_of_mem hm))
    exact ⟨y, hy, Nat.le_of_lt ((List.pairwise_append.1 h.core.sorted).2.2 x hm y hy)⟩
  · exact ⟨x, hh, Nat.le_refl _⟩

theorem getLast_hist {l m : List Ev} {e : Ev} (hs : l <:+ m) (he : l.getLast? = some e) :
    m.getLast? = some e := by
  obtain ⟨p, rfl⟩ := hs
  rw [List.getLast?_append, he]; rfl

theorem le_getLast {l : List Ev} {e : Ev} (hs : Sorted l) (he : l.getLast? = some e) {x : Ev}
    (hx : x ∈ l) : x.seq ≤ e.seq := by
  obtain ⟨q, rfl⟩ := List.getLast?_eq_some_iff.1 he
  rcases List.mem_append.1 hx with hx | hx
  · exact Nat.le_of_lt ((List.pairwise_append.1 hs).2.2 x hx e (by simp))
  · exact Nat.le_of_eq (congrArg _ (List.mem_singleton.1 hx))

theorem Inv.handoff (h : Inv cfg gc s) {i c : Nat} (hl : s.loc i ≠ .live)
    (hc : Copy s.env (s.view i) c) : Inv cfg gc (s.handoff i c) := by
  have hcore := h.core.handoff i c
  unfold State.handoff at hcore ⊢
  split at hcore
  · rename_i hn
    refine h.local (i := i) hcore rfl rfl rfl rfl (fun j hj => ?_) hl ?_ ?_
    · simp [State.view, State.goto, Function.update_of_ne hj]
    · simp [State.goto]
    · have hv : (s.goto i .dead).view i = { s.view i with loc := .dead } := by
        simp [State.view, State.goto]
      rw [hv]
      exact fun _ => hc.sorted
  · rename_i l hl'
    have hws := h.core.sorted.of_suffix h.core.suffix
    refine h.local (i := i) hcore rfl rfl rfl rfl (fun j hj => ?_) hl ?_ ?_
    · simp [State.view, State.goto, Function.update_of_ne hj]
    · simp [State.goto]
    · have hv : (({ s with
            unevicted := Function.update s.unevicted i (s.since i == (s.evictions, (s.since i).2))
            unmerged := Function.update s.unmerged i (s.since i == ((s.since i).1, s.merges)) } :
              State).goto i (.hand c l.seq s.rollback)).view i = { s.view i with
            loc := .hand c l.seq s.rollback
            unevicted := s.since i == (s.evictions, (s.since i).2)
            unmerged := s.since i == ((s.since i).1, s.merges) } := by
        simp [State.view, State.goto]
      rw [hv]
      have hlast := getLast_hist h.core.suffix hl'
      have hh : ∃ h ∈ s.hist, h.seq = l.seq := by
        have hm : l ∈ s.rollback := List.mem_of_getLast? hl'
        obtain ⟨y, hy, hly⟩ := h.bnd hm
        have := le_getLast h.core.sorted hlast (List.mem_append_right s.merged hy)
        exact ⟨y, hy, by omega⟩
      refine ⟨hc.cursor, hc.empty, hc.ge, hws, ?_, hh, ?_, ?_, ?_⟩
      · intro x hx
        rcases List.mem_append.1 hx with hx | hx
        · obtain ⟨y, hy, hxy⟩ := hc.bnd x hx
          have := le_getLast h.core.sorted hlast (List.mem_append_right s.merged hy)
          omega
        · exact le_getLast hws hl' hx
      · intro hu x hx hcx _
        have hu : (s.since i == (s.evictions, (s.since i).2)) = true := hu
        have hu : (s.since i).1 = s.evictions := by
          rw [beq_iff_eq] at hu
          exact congrArg Prod.fst hu
        rcases hc.evict hu x hx hcx with h1 | h1
        · exact List.mem_append_right _ h1
        · exact List.mem_append_left _ h1
      · intro hu
        have hcur : s.cursor i = some c := hc.cursor
        rcases hu with hu | hu | ⟨c', hu, hf⟩
        · have hu : (s.since i == ((s.since i).1, s.merges)) = true := hu
          have hu : (s.since i).2 = s.merges := by
            rw [beq_iff_eq] at hu
            exact congrArg Prod.snd hu
          exact List.pairwise_append.2 ⟨hc.sorted, hws, (hc.merge hu).1⟩
        · have hu : s.cursor i = none := hu
          rw [hcur] at hu; cases hu
        · have hu : s.cursor i = some c' := hu
          rw [hcur] at hu; cases hu
          have : s.out i = [] := hc.inside hf
          show Sorted (s.out i ++ s.rollback)
          rw [this]; exact hws
      · intro hu
        have hu : (s.since i == ((s.since i).1, s.merges)) = true := hu
        have hu : (s.since i).2 = s.merges := by
          rw [beq_iff_eq] at hu
          exact congrArg Prod.snd hu
        exact (hc.merge hu).2

/-- firehose.py 142-144: the scan has reached the window. -/
theorem Inv.reached (h : Inv cfg gc s) {i c : Nat} {snap : List Ev} {lim : Nat}
    (hp : Pre s.env (s.view i) c snap lim) (hl : s.start ≤ lim) : Copy s.env (s.view i) c := by
  refine ⟨hp.cursor, hp.empty, hp.sorted, hp.ge, hp.bnd, hp.sinceE, hp.sinceM, ?_, ?_, hp.unmerged,
    fun hf => absurd hp.behind (by omega)⟩
  · intro he x hx hcx
    rcases hp.evict he x hx hcx with h1 | h1
    · exact .inl h1
    · by_cases hxl : x.seq < lim
      · exact .inr (hp.complete x h1 hcx hxl)
      · exact .inl (mem_of_start h.core hp.window (List.mem_append_right s.merged hx) (by omega))
  · intro he
    obtain ⟨h1, h2⟩ := hp.merge he
    refine ⟨h1, fun m hm hcm hmf => ?_⟩
    obtain ⟨r, hr, hrs⟩ := start_mem hp.window
    have := h2 r hr
    refine hp.complete m (by rw [hp.seen]; exact hm) hcm ?_
    omega

theorem catchUp_eq {l : List Ev} (hs : Sorted l) : ∀ n, catchUp n l = l.filter (fun e => decide (n < e.seq)) := by
  induction l with
  | nil => intro n; rfl
  | cons e es ih =>
    intro n
    obtain ⟨h1, h2⟩ := List.pairwise_cons.1 hs
    unfold catchUp
    by_cases he : e.seq > n
    · rw [if_pos he, List.filter_cons_of_pos (by simpa using he), ih h2]
      congr 1
      refine List.filter_congr fun x hx => ?_
      have := h1 x hx
      rw [decide_eq_true this, decide_eq_true (show n < x.seq by omega)]
    · rw [if_neg he, List.filter_cons_of_neg (by simpa using he), ih h2]

theorem Scan.Yields.mem {sc : Scan} {stored : List Ev} {e : Ev} (h : sc.yields stored e = true) :
    e ∈ stored ∧ sc.pos ≤ e.seq ∧ ∀ m ∈ sc.snap, m.seq < sc.pos ∨ e.seq ≤ m.seq := by
  unfold Scan.yields at h
  rw [Bool.and_eq_true, Bool.and_eq_true] at h
  obtain ⟨⟨h1, h2⟩, h3⟩ := h
  refine ⟨by simpa using h1, by simpa using h2, fun m hm => ?_⟩
  simpa using List.all_eq_true.1 h3 m hm

/-- **Every step keeps the invariants.** -/
theorem Inv.act (h : Inv cfg gc s) (a : Act) (hs : act cfg gc s a = some s') : Inv cfg gc s' := by
  have hc := h.core
  cases a with
  | store e =>
    simp only [Fire.act] at hs
    split at hs
    · rename_i h1
      cases hs
      exact h.store h1.1 (fun x hx => by simpa using List.all_eq_true.1 h1.2 x hx)
    · cases hs
  | allot n =>
    cases hs
    exact ⟨h.core, h.nodup, h.isLive, h.sub, h.live⟩
  | lose n =>
    cases hs
    exact ⟨h.core, h.nodup, h.isLive, h.sub, h.live⟩
  | wake =>
    simp only [Fire.act] at hs
    split at hs
    · rename_i hcol
      cases hs
      exact h.collect (hc.col (by simp) (by simp) (by simp)) (not_handing (by rw [hcol]; rfl))
        (not_handing rfl) rfl rfl rfl rfl
    · cases hs
  | read e =>
    simp only [Fire.act] at hs
    split at hs
    · rename_i sc hcol
      split at hs
      · rename_i hy
        cases hs
        refine h.collect (hc.col ?_ (by simp) (by simp)) (not_handing (by rw [hcol]; rfl))
          (not_handing rfl) rfl rfl rfl rfl
        intro sc' e' he; cases he
        exact (Scan.Yields.mem hy).1
      · cases hs
    · cases hs
  | readEnd =>
    simp only [Fire.act] at hs
    split at hs
    · rename_i sc hcol
      split at hs
      · cases hs
        exact h.collect (hc.col (by simp) (by simp) (by simp)) (not_handing (by rw [hcol]; rfl))
          (not_handing rfl) rfl rfl rfl rfl
      · cases hs
    · cases hs
  | decide now =>
    simp only [Fire.act] at hs
    split at hs
    · rename_i sc e hcol
      split at hs
      · cases hs
        exact h.collect (hc.col (by simp) (by simp) (by simp)) (not_handing (by rw [hcol]; rfl))
          (not_handing rfl) rfl rfl rfl rfl
      · cases hs
        exact h.collect (hc.col (by simp) (by simp) (by simp)) (not_handing (by rw [hcol]; rfl))
          (not_handing rfl) rfl rfl rfl rfl
      · rename_i hv
        cases hs
        have hlt : s.lastSeq < e.seq := by
          unfold verdict at hv
          split at hv
          · cases hv
          · omega
        refine h.collect ⟨hc.win, hc.distinct, hc.pos, hc.sorted, hc.suffix, hc.full, hc.some, hc.base,
          hc.inStored, fun x hx => ?_, by simp, ?_, by simp⟩ (not_handing (by rw [hcol]; rfl))
          (not_handing rfl) rfl rfl rfl rfl
        · exact Nat.le_trans (hc.bound x hx) (Nat.le_of_lt hlt)
        · intro sc' e' he
          cases he
          exact ⟨rfl, hc.got sc e hcol, fun x hx => Nat.lt_of_le_of_lt (hc.bound x hx) hlt⟩
    · cases hs
  | fail now =>
    simp only [Fire.act] at hs
    split at hs
    · rename_i hcol
      cases hs
      exact h.collect (hc.col (by simp) (by simp) (by simp)) (not_handing (by rw [hcol]; rfl))
        (not_handing rfl) rfl rfl rfl rfl
    · rename_i hcol
      cases hs
      exact h.collect (hc.col (by simp) (by simp) (by simp)) (not_handing (by rw [hcol]; rfl))
        (not_handing rfl) rfl rfl rfl rfl
    · cases hs
  | crash now =>
    simp only [Fire.act] at hs
    split at hs
    · rename_i hcol
      cases hs
      exact h.collect (hc.col (by simp) (by simp) (by simp)) (not_handing (by rw [hcol]; rfl))
        (not_handing rfl) rfl rfl rfl rfl
    · cases hs
  | append =>
    simp only [Fire.act] at hs
    split at hs
    · rename_i hcol
      cases hs
      exact h.append hcol
    · cases hs
  | give =>
    simp only [Fire.act] at hs
    split at hs
    · rename_i hcol
      split at hs
      · rename_i ht
        cases hs
        exact h.give hcol ht
      · rename_i ht
        cases hs
        exact h.giveEnd hcol ht
    · cases hs
  | call i c =>
    simp only [Fire.act] at hs
    split at hs
    · rename_i hl
      cases hs
      have hsub := h.sub i
      unfold Sub at hsub
      rw [show (s.view i).loc = .idle from hl] at hsub
      refine h.local (i := i) hc rfl rfl rfl rfl (fun j hj => ?_) (by rw [hl]; simp) ?_ ?_
      · simp [State.view, State.goto, Function.update_of_ne hj]
      · simp [State.goto]
      · have hv : (({ s with cursor := Function.update s.cursor i c } : State).goto i (.ready c)).view i =
            { s.view i with loc := .ready c, cursor := c } := by simp [State.view, State.goto]
        rw [hv]
        exact ⟨hsub.1, hsub.2.1, rfl, hsub.2.2⟩
    · cases hs
  | begin i =>
    simp only [Fire.act] at hs
    split at hs
    · rename_i hl
      cases hs
      have hsub := h.sub i
      unfold Sub at hsub
      rw [show (s.view i).loc = .ready none from hl] at hsub
      refine h.local (i := i) hc rfl rfl rfl rfl (fun j hj => ?_) (by rw [hl]; simp) ?_ ?_
      · simp [State.view, State.goto, Function.update_of_ne hj]
      · simp [State.goto]
      · have hv : (s.goto i .join).view i = { s.view i with loc := .join } := by
          simp [State.view, State.goto]
        rw [hv]
        exact ⟨hsub.1, hsub.2.1, hsub.2.2.1⟩
    · rename_i c hl
      have hsub := h.sub i
      unfold Sub at hsub
      rw [show (s.view i).loc = .ready (some c) from hl] at hsub
      obtain ⟨ho, hq, hcur, hu⟩ := hsub
      have ho : s.out i = [] := ho
      split at hs
      · rename_i hlt
        cases hs
        refine h.local (i := i) hc rfl rfl rfl rfl (fun j hj => ?_) (by rw [hl]; simp) ?_ ?_
        · simp [State.view, State.goto, Function.update_of_ne hj]
        · simp [State.goto]
        · have hv : (({ s with
                since := Function.update s.since i (s.evictions, s.merges)
                seen := Function.update s.seen i s.stored
                front := Function.update s.front i s.start } : State).goto i
                  (.pre c ⟨s.stored, c⟩ none [])).view i = { s.view i with
                loc := .pre c ⟨s.stored, c⟩ none [], since := (s.evictions, s.merges)
                seen := s.stored, front := s.start } := by simp [State.view, State.goto]
          rw [hv]
          have hne : s.rollback ≠ [] := by
            intro hn; unfold State.start at hlt; rw [hn] at hlt; dsimp only at hlt; omega
          have ho' : (s.view i).out = [] := ho
          refine ⟨⟨hcur, hq, ?_, ?_, ?_, Nat.le_refl _, ?_, ?_, ?_, rfl, fun x hx => hx, Nat.le_refl _,
            Nat.le_refl _, ?_, ?_, hu, hne, hlt⟩, ho, by simp⟩
          · dsimp only; rw [ho']; exact .nil
          · dsimp only; rw [ho']; simp
          · dsimp only; rw [ho']; simp
          · dsimp only; rw [ho']; simp
          · dsimp only; rw [ho']; simp
          · intro m _ h1 h2
            have h1 : c ≤ m.seq := h1
            have h2 : m.seq < c := h2
            omega
          · intro _ x hx _
            exact .inr (hc.inStored x (List.mem_append_right _ hx))
          · intro _
            refine ⟨?_, fun r hr => start_le hc hr⟩
            dsimp only; rw [ho']; simp
      · rename_i hlt
        cases hs
        refine h.local (i := i) hc rfl rfl rfl rfl (fun j hj => ?_) (by rw [hl]; simp) ?_ ?_
        · simp [State.view, State.goto, Function.update_of_ne hj]
        · simp [State.goto]
        · have hv : (({ s with
                since := Function.update s.since i (s.evictions, s.merges)
                seen := Function.update s.seen i s.stored
                front := Function.update s.front i s.start } : State).goto i (.copy c)).view i =
                { s.view i with
                  loc := .copy c, since := (s.evictions, s.merges)
                  seen := s.stored, front := s.start } := by simp [State.view, State.goto]
          rw [hv]
          have ho' : (s.view i).out = [] := ho
          refine ⟨hcur, hq, ?_, ?_, ?_, Nat.le_refl _, Nat.le_refl _, ?_, ?_, hu, fun _ => ho⟩
          · dsimp only; rw [ho']; exact .nil
          · dsimp only; rw [ho']; simp
          · dsimp only; rw [ho']; simp
          · intro _ x hx hcx
            have hx : x ∈ s.hist := hx
            refine .inl (mem_of_start hc (hc.some (List.ne_nil_of_mem hx))
              (List.mem_append_right _ hx) ?_)
            omega
          · intro _
            refine ⟨?_, fun m _ h1 h2 => ?_⟩
            · dsimp only; rw [ho']; simp
            · have h2 : m.seq < s.start := h2
              omega
    · cases hs
  | scan i e =>
    simp only [Fire.act] at hs
    split at hs
    · rename_i c sc last pre hl
      have hsub := h.sub i
      unfold Sub at hsub
      rw [show (s.view i).loc = .pre c sc last pre from hl] at hsub
      obtain ⟨hp, ho, hla⟩ := hsub
      split at hs
      · rename_i hy
        obtain ⟨y1, y2, y3⟩ := Scan.Yields.mem hy
        have hnew : Inv cfg gc (s.goto i (.check c { sc with pos := e.seq + 1 } pre e)) := by
          refine h.local (i := i) hc rfl rfl rfl rfl (fun j hj => ?_) (by rw [hl]; simp) ?_ ?_
          · simp [State.view, State.goto, Function.update_of_ne hj]
          · simp [State.goto]
          · have hv : (s.goto i (.check c { sc with pos := e.seq + 1 } pre e)).view i = { s.view i with
                loc := .check c { sc with pos := e.seq + 1 } pre e } := by
              simp [State.view, State.goto]
            rw [hv]
            refine ⟨⟨hp.cursor, hp.empty, hp.sorted, fun x hx => ?_, hp.ge, Nat.le_trans hp.cle y2, hp.bnd,
              hp.stored, fun m hm hcm hml => ?_, hp.seen, hp.seenStored, hp.sinceE, hp.sinceM, hp.evict,
              hp.merge, hp.unmerged, hp.window, hp.behind⟩, ho, y1, rfl⟩
            · exact Nat.lt_of_lt_of_le (hp.below x hx) y2
            · rcases y3 m hm with h1 | h1
              · exact hp.complete m hm hcm h1
              · omega
        split at hs
        · rename_i l
          split at hs
          · rename_i hbad
            have := hla l rfl
            omega
          · cases hs; exact hnew
        · cases hs; exact hnew
      · cases hs
    · cases hs
  | scanEnd i =>
    simp only [Fire.act] at hs
    split at hs
    · rename_i c sc last pre hl
      have hsub := h.sub i
      unfold Sub at hsub
      rw [show (s.view i).loc = .pre c sc last pre from hl] at hsub
      obtain ⟨hp, ho, hla⟩ := hsub
      split at hs
      · rename_i he
        cases hs
        have he : ∀ m ∈ sc.snap, m.seq < sc.pos := by
          intro m hm
          simpa using List.all_eq_true.1 he m hm
        refine h.local (i := i) hc rfl rfl rfl rfl (fun j hj => ?_) (by rw [hl]; simp) ?_ ?_
        · simp [State.view, State.goto, Function.update_of_ne hj]
        · simp [State.goto]
        · have hv : (s.goto i (.copy c)).view i = { s.view i with loc := .copy c } := by
            simp [State.view, State.goto]
          rw [hv]
          refine ⟨hp.cursor, hp.empty, hp.sorted, hp.ge, hp.bnd, hp.sinceE, hp.sinceM,
            fun h1 x hx hcx => ?_, fun h1 => ⟨(hp.merge h1).1, fun m hm hcm _ => ?_⟩, hp.unmerged,
            fun hf => absurd hp.behind (Nat.not_lt_of_le hf)⟩
          · exact (hp.evict h1 x hx hcx).imp id (fun h2 => hp.complete x h2 hcx (he x h2))
          · have hm : m ∈ sc.snap := by rw [hp.seen]; exact hm
            exact hp.complete m hm hcm (he m hm)
      · cases hs
    · cases hs
  | look i =>
    simp only [Fire.act] at hs
    split at hs
    · cases hs
    · rename_i hlock
      split at hs
      · rename_i c sc pre e hl
        have hsub := h.sub i
        unfold Sub at hsub
        rw [show (s.view i).loc = .check c sc pre e from hl] at hsub
        obtain ⟨hp, ho, hes, hpos⟩ := hsub
        have hnl : s.loc i ≠ .live := by rw [hl]; simp
        split at hs
        · rename_i hge
          cases hs
          refine (h.handoff hnl (h.reached hp hge)).merge (sorted_extra (by rw [← ho]; exact hp.sorted)) ?_ ?_
          · intro x hx
            have := hp.stored x (by rw [ho]; exact (mem_extra hx).1)
            have hst : (s.handoff i c).stored = s.stored := by
              unfold State.handoff; split <;> rfl
            rw [hst]; exact this
          · intro x hx
            obtain ⟨_, h1, h2⟩ := mem_extra hx
            unfold State.start at h1 ⊢
            rw [handoff_rollback]
            exact ⟨h1, h2⟩
        · rename_i hlt
          cases hs
          refine h.local (i := i) hc rfl rfl rfl rfl (fun j hj => ?_) hnl ?_ ?_
          · simp [State.view, State.goto, State.yield, Function.update_of_ne hj]
          · simp [State.goto]
          · have hv : ((s.yield i e).goto i (.pre c sc (some e.seq) (pre ++ [e]))).view i = { s.view i with
                out := s.out i ++ [e], loc := .pre c sc (some e.seq) (pre ++ [e]) } := by
              simp [State.view, State.goto, State.yield]
            rw [hv]
            have ho : s.out i = pre := ho
            have hmem : ∀ x ∈ s.out i ++ [e], x ∈ s.out i ∨ x = e := fun x hx => by simpa using hx
            have hstart : e.seq < s.start := by omega
            obtain ⟨r0, hr0, hrs⟩ := start_mem hp.window
            obtain ⟨y0, hy0, hry⟩ := h.bnd hr0
            refine ⟨⟨hp.cursor, hp.empty, ?_, ?_, ?_, ?_, ?_, ?_, ?_, hp.seen, hp.seenStored, hp.sinceE,
              hp.sinceM, hp.evict, ?_, hp.unmerged, hp.window, hp.behind⟩, ?_, ?_⟩
            · refine List.pairwise_append.2 ⟨hp.sorted, by simp, fun a ha b hb => ?_⟩
              simp at hb; subst hb
              exact hp.below a ha
            · intro x hx
              rcases hmem x hx with h1 | rfl
              · have := hp.below x h1; omega
              · omega
            · intro x hx
              rcases hmem x hx with h1 | rfl
              · exact hp.ge x h1
              · exact hp.cle
            · have := hp.cle; omega
            · intro x hx
              rcases hmem x hx with h1 | rfl
              · exact hp.bnd x h1
              · exact ⟨y0, hy0, by omega⟩
            · intro x hx
              rcases hmem x hx with h1 | rfl
              · exact hp.stored x h1
              · exact hes
            · intro m hm hcm hml
              by_cases hme : m.seq < e.seq
              · exact List.mem_append_left _ (hp.complete m hm hcm hme)
              · have hms : m ∈ s.stored := hp.seenStored m (by rw [← hp.seen]; exact hm)
                have : m = e := eq_of_seq hc.distinct hms hes (by omega)
                show m ∈ s.out i ++ [e]
                rw [this]; simp
            · intro h1
              obtain ⟨h2, h3⟩ := hp.merge h1
              refine ⟨fun x hx r hr => ?_, h3⟩
              rcases hmem x hx with h4 | rfl
              · exact h2 x h4 r hr
              · have hr : r ∈ s.rollback := hr
                have := start_le hc hr
                omega
            · show s.out i ++ [e] = pre ++ [e]
              rw [ho]
            · intro l hle
              cases hle
              omega
      · cases hs
  | copyRollback i =>
    simp only [Fire.act] at hs
    split at hs
    · rename_i c hl
      cases hs
      have hsub := h.sub i
      unfold Sub at hsub
      rw [show (s.view i).loc = .copy c from hl] at hsub
      exact h.handoff (by rw [hl]; simp) hsub
    · cases hs
  | replay i =>
    simp only [Fire.act] at hs
    split at hs
    · rename_i c last e todo hl
      have hsub := h.sub i
      unfold Sub at hsub
      rw [show (s.view i).loc = .hand c last (e :: todo) from hl] at hsub
      have hsub : Hand s.env (s.view i) c last (e :: todo) := hsub
      have hnl : s.loc i ≠ .live := by rw [hl]; simp
      split at hs
      · rename_i hge
        cases hs
        refine h.local (i := i) hc rfl rfl rfl rfl (fun j hj => ?_) hnl ?_ ?_
        · simp [State.view, State.goto, State.yield, Function.update_of_ne hj]
        · simp [State.goto]
        · have hv : ((s.yield i e).goto i (.hand c last todo)).view i = { s.view i with
              out := s.out i ++ [e], loc := .hand c last todo } := by
            simp [State.view, State.goto, State.yield]
          rw [hv]
          have happ : s.out i ++ [e] ++ todo = s.out i ++ e :: todo := by simp
          refine ⟨hsub.cursor, hsub.empty, ?_, (List.pairwise_cons.1 hsub.tsorted).2, ?_, hsub.isLast, ?_, ?_, ?_⟩
          · intro x hx
            have hx : x ∈ s.out i ++ [e] := hx
            rcases List.mem_append.1 hx with hx | hx
            · exact hsub.ge x hx
            · simp at hx; subst hx; exact hge
          · show ∀ x ∈ s.out i ++ [e] ++ todo, x.seq ≤ last
            rw [happ]; exact hsub.le
          · show s.unevicted i = true → ∀ h ∈ s.hist, c ≤ h.seq → h.seq ≤ last → h ∈ s.out i ++ [e] ++ todo
            rw [happ]; exact hsub.evict
          · show (s.view i).ordered → Sorted (s.out i ++ [e] ++ todo)
            rw [happ]; exact hsub.sorted
          · intro hu m hm h1 h2
            exact List.mem_append_left _ (hsub.old hu m hm h1 h2)
      · rename_i hlt
        cases hs
        refine h.local (i := i) hc rfl rfl rfl rfl (fun j hj => ?_) hnl ?_ ?_
        · simp [State.view, State.goto, Function.update_of_ne hj]
        · simp [State.goto]
        · have hv : (s.goto i (.hand c last todo)).view i = { s.view i with loc := .hand c last todo } := by
            simp [State.view, State.goto]
          rw [hv]
          refine ⟨hsub.cursor, hsub.empty, hsub.ge, (List.pairwise_cons.1 hsub.tsorted).2, ?_, hsub.isLast,
            ?_, ?_, hsub.old⟩
          · intro x hx
            refine hsub.le x ?_
            rcases List.mem_append.1 hx with hx | hx
            · exact List.mem_append_left _ hx
            · exact List.mem_append_right _ (List.mem_cons_of_mem _ hx)
          · intro hu x hx h1 h2
            rcases List.mem_append.1 (hsub.evict hu x hx h1 h2) with h3 | h3
            · exact List.mem_append_left _ h3
            · rcases List.mem_cons.1 h3 with rfl | h3
              · omega
              · exact List.mem_append_right _ h3
          · intro hu
            exact (hsub.sorted hu).sublist ((List.Sublist.refl _).append (List.sublist_cons_self _ _))
    · cases hs
  | goLive i =>
    simp only [Fire.act] at hs
    split at hs
    · cases hs
    · rename_i hlock
      have hlock : s.col.locked = false := by simpa using hlock
      split at hs
      · rename_i hl
        cases hs
        have hsub := h.sub i
        unfold Sub at hsub
        rw [show (s.view i).loc = .join from hl] at hsub
        obtain ⟨ho, _, hcur⟩ := hsub
        have ho : s.out i = [] := ho
        have hcur : s.cursor i = none := hcur
        refine h.register hlock (by rw [hl]; simp) ?_ ?_ ?_ ?_ ?_
        · rw [ho]; intro _; exact .nil
        · rw [ho]; simp
        · rw [ho]; simp
        · rw [hcur]; simp
        · rw [hcur]; simp
      · rename_i c last hl
        have hsub := h.sub i
        unfold Sub at hsub
        rw [show (s.view i).loc = .hand c last [] from hl] at hsub
        have hsub : Hand s.env (s.view i) c last [] := hsub
        have hnl : s.loc i ≠ .live := by rw [hl]; simp
        split at hs
        · rename_i hge
          cases hs
          have hws := h.core.sorted.of_suffix h.core.suffix
          have hq := catchUp_eq hws last
          rw [hq]
          have hcur : s.cursor i = some c := hsub.cursor
          refine h.register hlock hnl ?_ ?_ ?_ ?_ ?_
          · intro hu
            have h1 : Sorted (s.out i ++ []) := hsub.sorted hu
            rw [List.append_nil] at h1
            refine List.pairwise_append.2 ⟨h1, hws.filter _, fun a ha b hb => ?_⟩
            have := hsub.le a (List.mem_append_left _ ha)
            have hb := (List.mem_filter.1 hb).2
            have hb : last < b.seq := by simpa using hb
            omega
          · intro x hx
            rcases List.mem_append.1 hx with hx | hx
            · obtain ⟨y, hy, hyl⟩ := hsub.isLast
              have := hsub.le x (List.mem_append_left _ hx)
              exact ⟨y, hy, by omega⟩
            · exact h.bnd (List.mem_filter.1 hx).1
          · rw [hcur]; simp
          · intro c' hc' hu x hx hcx
            rw [hcur] at hc'; cases hc'
            by_cases hxl : x.seq ≤ last
            · have := hsub.evict hu x hx hcx hxl
              rw [List.append_nil] at this
              exact List.mem_append_left _ this
            · refine List.mem_append_right _ (List.mem_filter.2 ⟨?_, by simpa using hxl⟩)
              exact mem_of_start hc (hc.some (List.ne_nil_of_mem hx)) (List.mem_append_right _ hx) (by omega)
          · intro c' hc' hu m hm h1 h2
            rw [hcur] at hc'; cases hc'
            exact List.mem_append_left _ (hsub.old hu m hm h1 h2)
        · cases hs
          refine h.local (i := i) hc rfl rfl rfl rfl (fun j hj => ?_) hnl ?_ ?_
          · simp [State.view, State.goto, Function.update_of_ne hj]
          · simp [State.goto]
          · have hv : (s.goto i .dead).view i = { s.view i with loc := .dead } := by
              simp [State.view, State.goto]
            rw [hv]
            exact fun hu => h.sorted i hu
      · cases hs
  | pull i =>
    simp only [Fire.act] at hs
    split at hs
    · rename_i e q hl hq
      cases hs
      exact h.pull hl hq
    · cases hs
  | close i =>
    simp only [Fire.act] at hs
    split at hs
    · cases hs
    · rename_i hl
      split at hs
      · cases hs
      · rename_i hlock
        cases hs
        exact h.leave hl (.inl (by simpa using hlock))
    · rename_i hl1 hl2
      cases hs
      refine h.local (i := i) hc rfl rfl rfl rfl (fun j hj => ?_) hl2 ?_ ?_
      · simp [State.view, State.goto, Function.update_of_ne hj]
      · simp [State.goto]
      · have hv : (s.goto i .dead).view i = { s.view i with loc := .dead } := by
          simp [State.view, State.goto]
        rw [hv]
        exact fun hu => h.sorted i hu
  | reap i =>
    simp only [Fire.act] at hs
    split at hs
    · rename_i hl
      split at hs
      · rename_i hg
        cases hs
        rw [Bool.and_eq_true] at hg
        exact h.leave hl (.inr hg.2)
      · cases hs
    · cases hs

theorem Reach.inv (h : Reach cfg gc s) : Inv cfg gc s := by
  induction h with
  | init now hst =>
    refine ⟨Core.init _ now hst, by simp [State.init], by simp [State.init], fun i => ?_, fun i hi => ?_⟩
    · exact ⟨rfl, rfl, rfl⟩
    · cases hi
  | step a _ hs ih => exact ih.act a hs

end Arroba.Fire
