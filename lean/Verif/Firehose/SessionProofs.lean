import Verif.Firehose.Sessions
import Verif.Props.C66

/-! Helper lemmas for C74. -/

namespace Arroba.Fire

variable {cfg : Cfg} {p : Nat} {s : State}

/-- Wherever a subscriber is, it has yielded the stored events from its cursor on, in order, up to some number. -/
theorem InOrder.sofar (h : InOrder cfg p s) {i c : Nat} (hc : s.cursor i = some c) (hl : s.loc i ≠ .dead)
    (hu : s.Undisturbed i c) : Sorted (s.out i) ∧ (∀ x ∈ s.out i, x ∈ s.stored) ∧
    ∀ x ∈ s.out i, ∀ e ∈ s.stored, c ≤ e.seq → e.seq ≤ x.seq → e ∈ s.out i := by
  have hr := h.reach
  have hcore := hr.inv.core
  have hsub := hr.inv.sub i
  have hkept := h.old.kept i
  have hg := h.gapless
  -- events up to an emitted one are emitted
  have hem : ∀ e ∈ s.stored, p ≤ e.seq → (∃ y ∈ s.hist, e.seq ≤ y.seq) → e ∈ s.hist := by
    rintro e he hpe ⟨y, hy, hle⟩
    rcases hg.emitted e he hpe (hle.trans (hcore.bound y (List.mem_append_right _ hy))) with k | ⟨sc, k⟩
    · exact k
    · have := (hcore.taken sc e k).2.2 y (List.mem_append_right _ hy)
      omega
  have key : ∀ {snap : List Ev} {lim : Nat}, Pre s.env (s.view i) c snap lim → (∀ x ∈ s.stored, x.seq < p → x ∈ s.seen i) →
      (s.since i).1 = s.evictions → ((s.since i).2 = s.merges ∨ s.front i ≤ c) →
      Sorted (s.out i) ∧ (∀ x ∈ s.out i, x ∈ s.stored) ∧
      ∀ x ∈ s.out i, ∀ e ∈ s.stored, c ≤ e.seq → e.seq ≤ x.seq → e ∈ s.out i := by
    intro snap lim hp hk he1 hm
    have hm : (s.since i).2 = s.merges := hm.resolve_right fun h => absurd hp.behind (Nat.not_lt.2 h)
    refine ⟨hp.sorted, hp.stored, fun x hx e he hce hle => ?_⟩
    obtain ⟨y, hy, hxy⟩ := hp.bnd x hx
    have hlim := hp.below x hx
    have hsnap : e ∈ s.rollback ∨ e ∈ snap := by
      by_cases hpe : p ≤ e.seq
      · exact hp.evict he1 e (hem e he hpe ⟨y, hy, hle.trans hxy⟩) hce
      · exact .inr (by rw [hp.seen]; exact hk e he (by omega))
    rcases hsnap with k | k
    · have := (hp.merge hm).1 x hx e k
      omega
    · exact hp.complete e k hce (by omega)
  cases hloc : s.loc i with
  | idle =>
    unfold Sub at hsub
    rw [show (s.view i).loc = .idle from hloc] at hsub
    have : s.out i = [] := hsub.1
    rw [this]
    exact ⟨.nil, fun _ h => (nomatch h), fun _ h => (nomatch h)⟩
  | ready c' =>
    unfold Sub at hsub
    rw [show (s.view i).loc = .ready c' from hloc] at hsub
    have : s.out i = [] := hsub.1
    rw [this]
    exact ⟨.nil, fun _ h => (nomatch h), fun _ h => (nomatch h)⟩
  | join =>
    unfold Sub at hsub
    rw [show (s.view i).loc = .join from hloc] at hsub
    have : s.out i = [] := hsub.1
    rw [this]
    exact ⟨.nil, fun _ h => (nomatch h), fun _ h => (nomatch h)⟩
  | dead => exact absurd hloc hl
  | pre c' sc last pre =>
    unfold Sub at hsub
    unfold Kept at hkept
    rw [show (s.view i).loc = .pre c' sc last pre from hloc] at hsub hkept
    unfold State.Undisturbed at hu
    rw [hloc] at hu
    obtain rfl : c = c' := by have := hsub.1.cursor; exact Option.some.inj (hc.symm.trans this)
    exact key hsub.1 hkept hu.1 hu.2
  | check c' sc pre e =>
    unfold Sub at hsub
    unfold Kept at hkept
    rw [show (s.view i).loc = .check c' sc pre e from hloc] at hsub hkept
    unfold State.Undisturbed at hu
    rw [hloc] at hu
    obtain rfl : c = c' := by have := hsub.1.cursor; exact Option.some.inj (hc.symm.trans this)
    exact key hsub.1 hkept hu.1 hu.2
  | copy c' =>
    unfold Sub at hsub
    unfold Kept at hkept
    rw [show (s.view i).loc = .copy c' from hloc] at hsub hkept
    unfold State.Undisturbed at hu
    rw [hloc] at hu
    have hsub : Copy s.env (s.view i) c' := hsub
    obtain rfl : c = c' := Option.some.inj (hc.symm.trans hsub.cursor)
    refine ⟨hsub.sorted, hkept.1, fun x hx e he hce hle => ?_⟩
    rcases hu.2 with hm | hf
    · obtain ⟨y, hy, hxy⟩ := hsub.bnd x hx
      have hroll : e ∈ s.rollback ∨ e ∈ s.out i := by
        by_cases hpe : p ≤ e.seq
        · exact hsub.evict hu.1 e (hem e he hpe ⟨y, hy, hle.trans hxy⟩) hce
        · exact hkept.2 hu.1 e he (by omega) hce
      rcases hroll with k | k
      · have := (hsub.merge hm).1 x hx e k
        omega
      · exact k
    · have : s.out i = [] := hsub.inside hf
      rw [this] at hx; cases hx
  | hand c' last todo =>
    unfold Sub at hsub
    unfold Kept at hkept
    rw [show (s.view i).loc = .hand c' last todo from hloc] at hsub hkept
    unfold State.Undisturbed at hu
    rw [hloc] at hu
    have hsub : Hand s.env (s.view i) c' last todo := hsub
    obtain rfl : c = c' := Option.some.inj (hc.symm.trans hsub.cursor)
    have hord : (s.view i).ordered := hu.2.elim .inl fun h => .inr (.inr ⟨c, hc, h⟩)
    have hso : Sorted (s.out i ++ todo) := hsub.sorted hord
    refine ⟨(List.pairwise_append.1 hso).1, fun x hx => hkept.1 x (List.mem_append_left _ hx), fun x hx e he hce hle => ?_⟩
    obtain ⟨y, hy, hyl⟩ := hsub.isLast
    have hxl := hsub.le x (List.mem_append_left _ hx)
    have hmem : e ∈ s.out i ++ todo := by
      by_cases hpe : p ≤ e.seq
      · exact hsub.evict hu.1 e (hem e he hpe ⟨y, hy, by omega⟩) hce (by omega)
      · exact hkept.2 hu.1 e he (by omega) hce
    rcases List.mem_append.1 hmem with k | k
    · exact k
    · have := (List.pairwise_append.1 hso).2.2 x hx e k
      omega
  | live =>
    unfold Kept at hkept
    rw [show (s.view i).loc = .live from hloc] at hkept
    unfold State.Undisturbed at hu
    rw [hloc] at hu
    have hj := hr.joinedView hloc
    have hord : (s.view i).ordered := hu.2.elim .inl fun h => .inr (.inr ⟨c, hc, h⟩)
    have hso := hr.inv.liveSorted hloc hord
    have hall : ∀ x ∈ s.out i ++ s.queue i, x ∈ s.stored ∧ ∃ y ∈ s.hist, x.seq ≤ y.seq := by
      intro x hx
      obtain ⟨l, g1, g2⟩ := C37_only hr hloc
      rw [g1] at hx
      rcases List.mem_append.1 hx with hx | hx
      · obtain ⟨y, hy, hle⟩ := hj.bnd x hx
        exact ⟨hkept.1 x hx, y, List.mem_of_mem_take hy, hle⟩
      · have := List.mem_of_mem_drop (g2.subset hx)
        exact ⟨hcore.inStored x (List.mem_append_right _ this), x, this, le_refl _⟩
    refine ⟨(List.pairwise_append.1 hso).1, fun x hx => (hall x (List.mem_append_left _ hx)).1, fun x hx e he hce hle => ?_⟩
    obtain ⟨_, y, hy, hxy⟩ := hall x (List.mem_append_left _ hx)
    have hmem : e ∈ s.out i ++ s.queue i := by
      by_cases hpe : p ≤ e.seq
      · have heh := hem e he hpe ⟨y, hy, by omega⟩
        have htake : ∀ z ∈ s.hist.take (s.joined i), c ≤ z.seq → z ∈ s.out i ++ s.queue i := by
          intro z hz hcz
          obtain ⟨l, g1, _⟩ := C37_only hr hloc
          rw [g1]
          exact List.mem_append_left _ (hj.evict c hc hu.1 z hz hcz)
        rcases C37_handing_partial hr hloc with g | g
        · rw [← List.take_append_drop (s.joined i) s.hist] at heh
          rcases List.mem_append.1 heh with k | k
          · exact htake e k hce
          · rw [g]; exact List.mem_append_right _ k
        · have hne : s.hist ≠ [] := List.ne_nil_of_mem heh
          have hhs : Sorted s.hist := (List.pairwise_append.1 hcore.sorted).2.1
          have hd := List.dropLast_concat_getLast hne
          rw [← hd] at heh
          rcases List.mem_append.1 heh with k | k
          · rw [← List.take_append_drop (s.joined i) s.hist.dropLast] at k
            rcases List.mem_append.1 k with k | k
            · refine htake e ?_ hce
              rw [← hd, List.take_append]
              exact List.mem_append_left _ k
            · rw [g]; exact List.mem_append_right _ k
          · have hel : e = s.hist.getLast hne := List.mem_singleton.1 k
            have hye : y.seq ≤ e.seq := le_getLast hhs (by rw [hel]; exact List.getLast?_eq_some_getLast hne) hy
            have hxe : x.seq = e.seq := by omega
            have := eq_of_seq hcore.distinct (hall x (List.mem_append_left _ hx)).1 he hxe
            rw [← this]; exact List.mem_append_left _ hx
      · obtain ⟨l, g1, _⟩ := C37_only hr hloc
        rw [g1]
        exact List.mem_append_left _ (hkept.2 c hc hu.1 e he (by omega) hce)
    rcases List.mem_append.1 hmem with k | k
    · exact k
    · have := (List.pairwise_append.1 hso).2.2 x hx e k
      omega

end Arroba.Fire

namespace Arroba.Fire

theorem nextAfter_cases (c : Nat) (got : List Nat) : (got = [] ∧ nextAfter c got = c) ∨
    ∃ n, got.getLast? = some n ∧ n ∈ got ∧ nextAfter c got = n + 1 := by
  unfold nextAfter
  cases h : got.getLast? with
  | none => exact .inl ⟨List.getLast?_eq_none_iff.1 h, rfl⟩
  | some n => exact .inr ⟨n, rfl, List.mem_of_getLast? h, rfl⟩

theorem le_last_of_sorted {l : List Nat} (h : l.Pairwise (· < ·)) {n m : Nat} (hl : l.getLast? = some n) (hm : m ∈ l) :
    m ≤ n := by
  obtain ⟨l', rfl⟩ := List.getLast?_eq_some_iff.1 hl
  rcases List.mem_append.1 hm with hm | hm
  · exact Nat.le_of_lt ((List.pairwise_append.1 h).2.2 m hm n (by simp))
  · simp at hm; omega

/-- Going on with what comes next. -/
theorem Upto.extend {P P' : Nat → Prop} {c cur : Nat} {got out : List Nat} (h : Upto P c got) (h1 : ∀ n, P n → P' n)
    (h2 : ∀ n, P' n → P n ∨ ∀ m ∈ got, m < n) (h3 : out.Pairwise (· < ·)) (h4 : ∀ n ∈ out, P' n)
    (h5 : ∀ x ∈ out, ∀ n, P' n → cur ≤ n → n ≤ x → n ∈ out) (hc : cur ≤ nextAfter c got) :
    Upto P' c (got ++ out.filter fun n => decide (nextAfter c got ≤ n)) := by
  have hlt : ∀ m ∈ got, m < nextAfter c got := fun m hm => ((h.mem m).1 hm).2.2
  have hcN : c ≤ nextAfter c got := by
    rcases nextAfter_cases c got with ⟨_, g⟩ | ⟨n, _, g1, g2⟩
    · omega
    · have := ((h.mem n).1 g1).2.1; omega
  generalize hN : nextAfter c got = N at *
  have hf : ∀ m, m ∈ out.filter (fun n => decide (N ≤ n)) ↔ m ∈ out ∧ N ≤ m := by
    intro m; rw [List.mem_filter, decide_eq_true_eq]
  have hfs : (out.filter fun n => decide (N ≤ n)).Pairwise (· < ·) := h3.filter _
  generalize out.filter (fun n => decide (N ≤ n)) = f at *
  have hs : (got ++ f).Pairwise (· < ·) := by
    refine List.pairwise_append.2 ⟨h.sorted, hfs, fun a ha b hb => ?_⟩
    have := hlt a ha
    have := ((hf b).1 hb).2
    omega
  refine ⟨hs, fun n => ?_⟩
  rcases nextAfter_cases c (got ++ f) with ⟨g1, g2⟩ | ⟨l, g1, g2, g3⟩
  · obtain ⟨rfl, rfl⟩ := List.append_eq_nil_iff.1 g1
    rw [g2]
    constructor
    · intro h; cases h
    · rintro ⟨_, _, _⟩; omega
  · rw [g3]
    constructor
    · intro hn
      have := le_last_of_sorted hs g1 hn
      rcases List.mem_append.1 hn with hn | hn
      · have := (h.mem n).1 hn
        exact ⟨h1 n this.1, this.2.1, by omega⟩
      · have := (hf n).1 hn
        exact ⟨h4 n this.1, by omega, by omega⟩
    · rintro ⟨k1, k2, k3⟩
      by_cases hnN : n < N
      · refine List.mem_append_left _ ((h.mem n).2 ⟨?_, k2, by rw [hN]; exact hnN⟩)
        rcases h2 n k1 with k | k
        · exact k
        · rcases nextAfter_cases c got with ⟨_, g⟩ | ⟨m, _, g4, g5⟩
          · omega
          · have := k m g4; omega
      · refine List.mem_append_right _ ((hf n).2 ⟨?_, by omega⟩)
        rcases List.mem_append.1 g2 with g | g
        · have := hlt l g; omega
        · exact h5 l ((hf l).1 g).1 n k1 (by omega) (by omega)

end Arroba.Fire

namespace Arroba.Store

variable {C R : Type} [DecidableEq C] {L : Lib C R} {Z : Nat} {be : Backend} {al : Allow} {w w' : World C R}

theorem MadeFor.later {n : Nat} {msg : Message C R} (h : MadeFor L be al w n msg)
    (hw : Relation.ReflTransGen (Step L be al) w w') : MadeFor L be al w' n msg := by
  obtain ⟨v, v', start, q, s, h1, h2, h3⟩ := h
  exact ⟨v, v', start, q, s, h1, h2.trans hw, h3⟩

/-- There is an event with that number in the log. -/
def InLog (L : Lib C R) (w : World C R) (n : Nat) : Prop := ∃ b, Logged L w 0 none b ∧ b.seq = n

theorem Consumed.upto (hL : L.OK Z) (hi : ¬ al.imports) {c : Nat} {got : List (Nat × Message C R)}
    (h : Consumed L be al c w got) : Reach L be al w ∧ Fire.Upto (InLog L w) c (got.map (·.1)) ∧
    ∀ x ∈ got, MadeFor L be al w x.1 x.2 := by
  induction h with
  | none hw =>
    refine ⟨hw, ⟨.nil, fun n => ?_⟩, fun _ h => (nomatch h)⟩
    constructor
    · intro h; cases h
    · rintro ⟨_, h1, h2⟩
      have h2 : n < c := h2
      omega
  | @session w w' got h hw cfg p s hj i cur hcur hc hl hu sent hs hm ih =>
    obtain ⟨hr, hup, hmade⟩ := ih
    obtain ⟨hr', hle, hg, hnew⟩ := later_seq hL hi hr hw
    have hok := hj.ok hL hi
    obtain ⟨k1, k2, k3⟩ := hok.order.sofar hcur hl hu
    refine ⟨hr', ?_, fun x hx => ?_⟩
    · rw [List.map_append, hs]
      refine hup.extend (cur := cur) ?_ ?_ (List.pairwise_map.2 k1) ?_ ?_ hc
      · rintro n ⟨b, hb, rfl⟩; exact ⟨b, hb.grow hg, rfl⟩
      · rintro n ⟨b, hb, rfl⟩
        rcases hnew _ _ hb.1 with g | g
        · exact .inl ⟨b, ⟨g, hb.2⟩, rfl⟩
        · right
          intro m hm
          obtain ⟨b', hb', rfl⟩ := ((hup.mem m).1 hm).1
          exact Nat.lt_of_le_of_lt (hb'.le_last hL hr) g
      · intro n hn
        obtain ⟨e, he, rfl⟩ := List.mem_map.1 hn
        exact hok.logged e (k2 e he)
      · intro x hx n hn hcn hnx
        obtain ⟨e, he, rfl⟩ := List.mem_map.1 hx
        obtain ⟨b, hb, rfl⟩ := hn
        rcases hok.todo b hb with ⟨y, hy, hyb⟩ | ⟨_, g⟩
        · exact List.mem_map.2 ⟨y, k3 e he y hy (by omega) (by omega), hyb⟩
        · have := g e (k2 e he); omega
    · rcases List.mem_append.1 hx with hx | hx
      · exact (hmade x hx).later hw
      · exact hm x hx

end Arroba.Store
