import Verif.Py

/-!
# Regular expressions

The part of Python's `re` that `HANDLE_RE` uses. `fullmatch` is computed with derivatives; its
meaning is the language of the expression (`fullmatch_iff`). Python's matcher backtracks, so that it
finds a match of the whole string exactly if there is one.
-/

namespace Arroba.Did

/-- did.py 46-47. Expressions: the empty set, the empty string, a set of characters, concatenation,
alternatives, repetition. -/
inductive Re where
  | none
  | eps
  | set (p : Char → Bool)
  | seq (a b : Re)
  | alt (a b : Re)
  | star (a : Re)

/-- did.py 46-47. `a?` -/
def Re.opt (a : Re) : Re := .alt .eps a

/-- did.py 46-47. `(a)+` -/
def Re.plus (a : Re) : Re := .seq a (.star a)

/-- did.py 46-47. `a{0,n}` -/
def Re.upTo (a : Re) : Nat → Re
  | 0 => .eps
  | n + 1 => .opt (.seq a (a.upTo n))

/-- did.py 46-47. A character. -/
def Re.chr (c : Char) : Re := .set (· == c)

/-- did.py 505. The expression matches the empty string. -/
def Re.nullable : Re → Bool
  | .none => false
  | .eps => true
  | .set _ => false
  | .seq a b => a.nullable && b.nullable
  | .alt a b => a.nullable || b.nullable
  | .star _ => true

/-- did.py 505. What has to match the rest after the character. -/
def Re.deriv (c : Char) : Re → Re
  | .none => .none
  | .eps => .none
  | .set p => if p c then .eps else .none
  | .seq a b => if a.nullable then .alt (.seq (a.deriv c) b) (b.deriv c) else .seq (a.deriv c) b
  | .alt a b => .alt (a.deriv c) (b.deriv c)
  | .star a => .seq (a.deriv c) (.star a)

/-- did.py 505. `re.fullmatch`. -/
def Re.fullmatch (r : Re) : Key → Bool
  | [] => r.nullable
  | c :: s => (r.deriv c).fullmatch s

/-- The language of an expression. -/
inductive Re.In : Re → Key → Prop
  | eps : Re.In .eps []
  | set {p : Char → Bool} {c : Char} (h : p c = true) : Re.In (.set p) [c]
  | seq {a b : Re} {s t : Key} (h1 : Re.In a s) (h2 : Re.In b t) : Re.In (.seq a b) (s ++ t)
  | left {a b : Re} {s : Key} (h : Re.In a s) : Re.In (.alt a b) s
  | right {a b : Re} {s : Key} (h : Re.In b s) : Re.In (.alt a b) s
  | done {a : Re} : Re.In (.star a) []
  | more {a : Re} {s t : Key} (h1 : Re.In a s) (h2 : Re.In (.star a) t) : Re.In (.star a) (s ++ t)

theorem Re.nullable_iff (r : Re) : r.nullable = true ↔ r.In [] := by
  induction r with
  | none => exact ⟨(fun h => nomatch h), (fun h => nomatch h)⟩
  | eps => exact ⟨fun _ => .eps, fun _ => rfl⟩
  | set p => exact ⟨(fun h => nomatch h), (fun h => nomatch h)⟩
  | seq a b iha ihb =>
    simp only [Re.nullable, Bool.and_eq_true, iha, ihb]
    constructor
    · exact fun ⟨h1, h2⟩ => .seq h1 h2
    · intro h
      generalize hs : ([] : Key) = s at h
      cases h with
      | seq h1 h2 =>
        obtain ⟨rfl, rfl⟩ := List.append_eq_nil_iff.1 hs.symm
        exact ⟨h1, h2⟩
  | alt a b iha ihb =>
    simp only [Re.nullable, Bool.or_eq_true, iha, ihb]
    constructor
    · rintro (h | h)
      · exact .left h
      · exact .right h
    · intro h
      cases h with
      | left h => exact .inl h
      | right h => exact .inr h
  | star a => exact ⟨fun _ => .done, fun _ => rfl⟩

/-- A nonempty string of repetitions begins with a nonempty repetition. -/
theorem Re.In.star_cons {a : Re} {c : Char} {s : Key} (h : Re.In (.star a) (c :: s)) :
    ∃ s1 s2, s = s1 ++ s2 ∧ a.In (c :: s1) ∧ Re.In (.star a) s2 := by
  generalize hr : Re.star a = r at h
  generalize ht : c :: s = t at h
  induction h with
  | eps => cases hr
  | set => cases hr
  | seq => cases hr
  | left => cases hr
  | right => cases hr
  | done => cases ht
  | more h1 h2 _ ih =>
    rename_i s1 s2 _
    cases hr
    cases s1 with
    | nil => exact ih rfl ht
    | cons c' s1 =>
      obtain ⟨rfl, rfl⟩ := List.cons.inj ht
      exact ⟨s1, s2, rfl, h1, h2⟩

theorem Re.deriv_iff (c : Char) (r : Re) : ∀ s, (r.deriv c).In s ↔ r.In (c :: s) := by
  induction r with
  | none => exact fun s => ⟨(fun h => nomatch h), (fun h => nomatch h)⟩
  | eps => exact fun s => ⟨(fun h => nomatch h), (fun h => nomatch h)⟩
  | set p =>
    intro s
    simp only [Re.deriv]
    constructor
    · intro h
      split at h
      · rename_i hp
        cases h
        exact .set hp
      · cases h
    · intro h
      cases h with
      | set hp => rw [if_pos hp]; exact .eps
  | seq a b iha ihb =>
    intro s
    have key : Re.In (.seq (a.deriv c) b) s → Re.In (.seq a b) (c :: s) := by
      intro h
      cases h with
      | seq h1 h2 => exact .seq ((iha _).1 h1) h2
    have back : Re.In (.seq a b) (c :: s) →
        Re.In (.seq (a.deriv c) b) s ∨ (a.In [] ∧ b.In (c :: s)) := by
      intro h
      generalize ht : c :: s = t at h
      cases h with
      | seq h1 h2 =>
        rename_i s1 s2
        cases s1 with
        | nil => exact .inr ⟨h1, h2⟩
        | cons c' s1 =>
          obtain ⟨rfl, rfl⟩ := List.cons.inj ht
          exact .inl (.seq ((iha _).2 h1) h2)
    simp only [Re.deriv]
    split
    · rename_i hn
      have hn' := (Re.nullable_iff a).1 hn
      constructor
      · intro h
        cases h with
        | left h => exact key h
        | right h => exact Re.In.seq hn' ((ihb _).1 h)
      · intro h
        rcases back h with h | ⟨_, h⟩
        · exact .left h
        · exact .right ((ihb _).2 h)
    · rename_i hn
      refine ⟨key, fun h => ?_⟩
      rcases back h with h | ⟨h, _⟩
      · exact h
      · exact absurd ((Re.nullable_iff a).2 h) hn
  | alt a b iha ihb =>
    intro s
    simp only [Re.deriv]
    constructor
    · intro h
      cases h with
      | left h => exact .left ((iha _).1 h)
      | right h => exact .right ((ihb _).1 h)
    · intro h
      cases h with
      | left h => exact .left ((iha _).2 h)
      | right h => exact .right ((ihb _).2 h)
  | star a iha =>
    intro s
    simp only [Re.deriv]
    constructor
    · intro h
      cases h with
      | seq h1 h2 => exact Re.In.more ((iha _).1 h1) h2
    · intro h
      obtain ⟨s1, s2, rfl, h1, h2⟩ := h.star_cons
      exact .seq ((iha _).2 h1) h2

/-- `fullmatch` decides the language. -/
theorem Re.fullmatch_iff : ∀ (s : Key) (r : Re), r.fullmatch s = true ↔ r.In s
  | [], r => r.nullable_iff
  | c :: s, r => (Re.fullmatch_iff s (r.deriv c)).trans (r.deriv_iff c s)

theorem Re.in_opt {a : Re} {s : Key} : a.opt.In s ↔ s = [] ∨ a.In s := by
  constructor
  · intro h
    cases h with
    | left h => cases h; exact .inl rfl
    | right h => exact .inr h
  · rintro (rfl | h)
    · exact .left .eps
    · exact .right h

theorem Re.in_set {p : Char → Bool} {s : Key} : (Re.set p).In s ↔ ∃ c, s = [c] ∧ p c = true := by
  constructor
  · intro h
    cases h with
    | set h => exact ⟨_, rfl, h⟩
  · rintro ⟨c, rfl, h⟩
    exact .set h

theorem Re.in_seq {a b : Re} {s : Key} : (Re.seq a b).In s ↔ ∃ u v, s = u ++ v ∧ a.In u ∧ b.In v := by
  constructor
  · intro h
    cases h with
    | seq h1 h2 => exact ⟨_, _, rfl, h1, h2⟩
  · rintro ⟨u, v, rfl, h1, h2⟩
    exact .seq h1 h2

theorem Re.in_upTo {p : Char → Bool} : ∀ {n : Nat} {s : Key},
    ((Re.set p).upTo n).In s ↔ s.length ≤ n ∧ ∀ c ∈ s, p c = true
  | 0, s => by
    constructor
    · intro h
      cases h
      exact ⟨Nat.le_refl _, fun _ h => nomatch h⟩
    · rintro ⟨h, _⟩
      cases s with
      | nil => exact .eps
      | cons c s => simp at h
  | n + 1, s => by
    rw [Re.upTo, Re.in_opt, Re.in_seq]
    constructor
    · rintro (rfl | ⟨u, v, rfl, h1, h2⟩)
      · exact ⟨Nat.zero_le _, fun _ h => nomatch h⟩
      · obtain ⟨c, rfl, hc⟩ := Re.in_set.1 h1
        obtain ⟨h3, h4⟩ := Re.in_upTo.1 h2
        refine ⟨by simp; omega, fun x hx => ?_⟩
        rcases List.mem_cons.1 hx with rfl | hx
        · exact hc
        · exact h4 x hx
    · rintro ⟨h1, h2⟩
      cases s with
      | nil => exact .inl rfl
      | cons c s =>
        refine .inr ⟨[c], s, rfl, .set (h2 c (by simp)), Re.in_upTo.2 ⟨by simp at h1; omega, ?_⟩⟩
        exact fun x hx => h2 x (List.mem_cons_of_mem _ hx)

theorem Re.in_star {a : Re} {s : Key} :
    (Re.star a).In s ↔ ∃ l : List Key, s = l.flatten ∧ ∀ x ∈ l, a.In x := by
  constructor
  · intro h
    generalize hr : Re.star a = r at h
    induction h with
    | eps => cases hr
    | set => cases hr
    | seq => cases hr
    | left => cases hr
    | right => cases hr
    | done => exact ⟨[], rfl, fun _ h => nomatch h⟩
    | more h1 _ _ ih =>
      rename_i u v _ _
      cases hr
      obtain ⟨l, rfl, hl⟩ := ih rfl
      refine ⟨u :: l, rfl, fun x hx => ?_⟩
      rcases List.mem_cons.1 hx with rfl | hx
      · exact h1
      · exact hl x hx
  · rintro ⟨l, rfl, hl⟩
    induction l with
    | nil => exact .done
    | cons u l ih =>
      exact .more (hl u (by simp)) (ih fun x hx => hl x (List.mem_cons_of_mem _ hx))

end Arroba.Did
