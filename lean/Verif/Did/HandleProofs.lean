import Verif.Did.Handle
import Verif.Did.HandleSpec
import Verif.Mst.DiffProofs2

/-!
# Lemmas about `resolve_handle`
-/

namespace Arroba.Did

theorem isLetter_eq (c : Char) : isLetter c = c.isAlpha := by
  unfold isLetter Char.isAlpha Char.isUpper Char.isLower
  rw [Bool.or_comm, Bool.decide_and]
  rfl

theorem isAlnum_eq (c : Char) : isAlnum c = c.isAlphanum := by
  unfold isAlnum Char.isAlphanum Char.isDigit
  rw [isLetter_eq]
  rfl

theorem isLdh_iff (c : Char) : isLdh c = true ↔ c.isAlphanum = true ∨ c = '-' := by
  unfold isLdh
  rw [Bool.or_eq_true, beq_iff_eq, isAlnum_eq]

/-- The part of `HANDLE_RE` after the first character of a label. -/
def restRe : Re := Re.opt (.seq ((Re.set isLdh).upTo 61) (.set isAlnum))

theorem in_rest {s : Key} : restRe.In s ↔ s = [] ∨ ∃ m e, s = m ++ [e] ∧ m.length ≤ 61 ∧
    (∀ c ∈ m, c.isAlphanum = true ∨ c = '-') ∧ e.isAlphanum = true := by
  unfold restRe
  rw [Re.in_opt, Re.in_seq]
  refine or_congr Iff.rfl ?_
  constructor
  · rintro ⟨u, v, rfl, h1, h2⟩
    obtain ⟨e, rfl, he⟩ := Re.in_set.1 h2
    obtain ⟨h3, h4⟩ := Re.in_upTo.1 h1
    exact ⟨u, e, rfl, h3, fun c hc => (isLdh_iff c).1 (h4 c hc), by rw [← isAlnum_eq]; exact he⟩
  · rintro ⟨m, e, rfl, h1, h2, h3⟩
    exact ⟨m, [e], rfl, Re.in_upTo.2 ⟨h1, fun c hc => (isLdh_iff c).2 (h2 c hc)⟩,
      .set (by rw [isAlnum_eq]; exact h3)⟩

theorem in_label {p : Char → Bool} (hp : ∀ c, p c = true → c.isAlphanum = true) {s : Key} :
    (Re.seq (.set p) restRe).In s ↔ Label s ∧ ∃ c, s.head? = some c ∧ p c = true := by
  rw [Re.in_seq]
  have hyp : ('-').isAlphanum = false := by decide
  constructor
  · rintro ⟨u, v, rfl, h1, h2⟩
    obtain ⟨c, rfl, hc⟩ := Re.in_set.1 h1
    have hc' := hp c hc
    have hne : c ≠ '-' := by rintro rfl; rw [hyp] at hc'; cases hc'
    refine ⟨?_, c, rfl, hc⟩
    rcases in_rest.1 h2 with rfl | ⟨m, e, rfl, h3, h4, h5⟩
    · refine ⟨by simp, by simp, ?_, by simpa using hne, by simpa using hne⟩
      intro x hx
      simp at hx; subst hx
      exact .inl hc'
    · have hee : e ≠ '-' := by rintro rfl; rw [hyp] at h5; cases h5
      refine ⟨by simp, by simp; omega, ?_, by simpa using hne, ?_⟩
      · intro x hx
        simp only [List.mem_append, List.mem_singleton] at hx
        rcases hx with rfl | hx | rfl
        · exact .inl hc'
        · exact h4 x hx
        · exact .inl h5
      · rw [show [c] ++ (m ++ [e]) = ([c] ++ m) ++ [e] by simp, List.getLast?_concat]
        simpa using hee
  · rintro ⟨⟨h1, h2, h3, h4, h5⟩, c, h6, h7⟩
    cases s with
    | nil => simp at h1
    | cons x s =>
      obtain rfl : x = c := by simpa using h6
      refine ⟨[x], s, rfl, .set h7, in_rest.2 ?_⟩
      rcases List.eq_nil_or_concat s with rfl | ⟨m, e, rfl⟩
      · exact .inl rfl
      · refine .inr ⟨m, e, by simp, by simp at h2; omega, fun c hc => h3 c ?_, ?_⟩
        · simp [hc]
        · have h8 : ((x :: (m ++ [e])).getLast?) = some e := by
            rw [show x :: (m ++ [e]) = (x :: m) ++ [e] by simp, List.getLast?_concat]
          rcases h3 e (by simp) with h9 | h9
          · exact h9
          · subst h9
            exact absurd (by simpa using h8) h5

theorem intercalate_concat {α : Type} (sep : List α) (ls : List (List α)) (l : List α) :
    List.intercalate sep (ls ++ [l]) = (ls.map (· ++ sep)).flatten ++ l := by
  induction ls with
  | nil => simp [List.intercalate]
  | cons x ls ih =>
    cases hls : ls ++ [l] with
    | nil => simp at hls
    | cons y ys =>
      rw [hls] at ih
      simp only [List.intercalate, List.cons_append, hls, List.intersperse, List.flatten_cons,
        List.map_cons] at ih ⊢
      rw [ih]
      simp

theorem in_dotted {s : Key} :
    (Re.seq (.seq (.set isAlnum) restRe) (.chr '.')).In s ↔ ∃ l, s = l ++ ['.'] ∧ Label l := by
  rw [Re.in_seq]
  constructor
  · rintro ⟨u, v, rfl, h1, h2⟩
    obtain ⟨c, rfl, hc⟩ := Re.in_set.1 h2
    rw [beq_iff_eq] at hc
    subst hc
    exact ⟨u, rfl, ((in_label (fun c hc => by rw [← isAlnum_eq]; exact hc)).1 h1).1⟩
  · rintro ⟨l, rfl, hl⟩
    refine ⟨l, ['.'], rfl, (in_label (fun c hc => by rw [← isAlnum_eq]; exact hc)).2 ⟨hl, ?_⟩,
      .set (by decide)⟩
    obtain ⟨h1, _, h3, h4, _⟩ := hl
    cases l with
    | nil => simp at h1
    | cons c l =>
      refine ⟨c, rfl, ?_⟩
      rcases h3 c (by simp) with h | h
      · rw [isAlnum_eq]; exact h
      · subst h; exact absurd rfl h4

theorem isAlpha_alphanum {c : Char} (h : c.isAlpha = true) : c.isAlphanum = true := by
  unfold Char.isAlphanum; rw [h]; rfl

theorem fullmatch_handle (h : Key) : handleRe.fullmatch h = true ↔ ValidHandle h := by
  rw [Re.fullmatch_iff]
  show (Re.seq (.plus (.seq (.seq (.set isAlnum) restRe) (.chr '.')))
    (.seq (.set isLetter) restRe)).In h ↔ _
  have hlet : ∀ c, isLetter c = true → c.isAlphanum = true :=
    fun c hc => isAlpha_alphanum (by rw [← isLetter_eq]; exact hc)
  unfold Re.plus
  rw [Re.in_seq]
  constructor
  · rintro ⟨u, v, rfl, h1, h2⟩
    obtain ⟨u1, u2, rfl, h3, h4⟩ := Re.in_seq.1 h1
    obtain ⟨l0, rfl, hl0⟩ := in_dotted.1 h3
    obtain ⟨ls, rfl, hls⟩ := Re.in_star.1 h4
    obtain ⟨ht, c, hc1, hc2⟩ := (in_label hlet).1 h2
    have : ∃ ks : List Key, ls = ks.map (· ++ ['.']) ∧ ∀ k ∈ ks, Label k := by
      clear h4 h1
      induction ls with
      | nil => exact ⟨[], rfl, fun _ h => nomatch h⟩
      | cons x ls ih =>
        obtain ⟨ks, rfl, hks⟩ := ih fun y hy => hls y (List.mem_cons_of_mem _ hy)
        obtain ⟨k, rfl, hk⟩ := in_dotted.1 (hls x (by simp))
        refine ⟨k :: ks, rfl, fun y hy => ?_⟩
        rcases List.mem_cons.1 hy with rfl | hy
        · exact hk
        · exact hks y hy
    obtain ⟨ks, rfl, hks⟩ := this
    refine ⟨l0 :: ks, v, by simp, ?_, ?_, ht, c, hc1, by rw [← isLetter_eq]; exact hc2⟩
    · rw [intercalate_concat]; simp
    · intro l hl
      rcases List.mem_cons.1 hl with rfl | hl
      · exact hl0
      · exact hks l hl
  · rintro ⟨labels, top, hne, rfl, hl, ht, c, hc1, hc2⟩
    cases labels with
    | nil => exact absurd rfl hne
    | cons l0 ks =>
      rw [intercalate_concat]
      refine ⟨(l0 ++ ['.']) ++ (ks.map (· ++ ['.'])).flatten, top, by simp, .seq ?_ ?_, ?_⟩
      · exact in_dotted.2 ⟨l0, rfl, hl l0 (by simp)⟩
      · refine Re.in_star.2 ⟨_, rfl, fun x hx => ?_⟩
        obtain ⟨k, hk, rfl⟩ := List.mem_map.1 hx
        exact in_dotted.2 ⟨k, rfl, hl k (List.mem_cons_of_mem _ hk)⟩
      · exact (in_label hlet).2 ⟨ht, c, hc1, by rw [isLetter_eq]; exact hc2⟩

/-- A handle has no characters that mean anything in a URL or a domain name. -/
theorem ValidHandle.chars {h : Key} (hv : ValidHandle h) {c : Char} (hc : c ∈ h) :
    c.isAlphanum = true ∨ c = '-' ∨ c = '.' := by
  obtain ⟨labels, top, _, rfl, hl, ht, _⟩ := hv
  rw [intercalate_concat] at hc
  have lab : ∀ l, Label l → c ∈ l → c.isAlphanum = true ∨ c = '-' ∨ c = '.' := by
    intro l hl hm
    rcases hl.2.2.1 c hm with h | h
    · exact .inl h
    · exact .inr (.inl h)
  rcases List.mem_append.1 hc with hc | hc
  · obtain ⟨x, hx, hcx⟩ := List.mem_flatten.1 hc
    obtain ⟨l, hlm, rfl⟩ := List.mem_map.1 hx
    rcases List.mem_append.1 hcx with h | h
    · exact lab l (hl l hlm) h
    · simp at h; exact .inr (.inr h)
  · exact lab top ht hc

theorem ValidHandle.ne_nil {h : Key} (hv : ValidHandle h) : h ≠ [] := by
  obtain ⟨labels, top, _, rfl, _, ht, _⟩ := hv
  rw [intercalate_concat]
  intro hn
  have := (List.append_eq_nil_iff.1 hn).2
  subst this
  exact absurd ht.1 (by simp)

/-! ### `strip` -/

theorem dropWhile_append_all {α : Type} {p : α → Bool} : ∀ {pre s : List α},
    (∀ c ∈ pre, p c = true) → (pre ++ s).dropWhile p = s.dropWhile p
  | [], _, _ => rfl
  | c :: pre, s, h => by
    rw [List.cons_append, List.dropWhile_cons_of_pos (h c (by simp))]
    exact dropWhile_append_all fun x hx => h x (List.mem_cons_of_mem _ hx)

theorem dropWhile_head {α : Type} {p : α → Bool} {s : List α} (h : ∀ c, s.head? = some c → p c = false) :
    s.dropWhile p = s := by
  cases s with
  | nil => rfl
  | cons c s => rw [List.dropWhile_cons_of_neg (by rw [h c rfl]; simp)]

theorem stripBy_of {p : Char → Bool} {pre d post : Key} (h1 : ∀ c ∈ pre, p c = true)
    (h2 : ∀ c ∈ post, p c = true) (hd : d ≠ []) (h3 : ∀ c, d.head? = some c → p c = false)
    (h4 : ∀ c, d.getLast? = some c → p c = false) : stripBy p (pre ++ d ++ post) = d := by
  unfold stripBy
  rw [List.append_assoc, dropWhile_append_all h1, dropWhile_head (s := d ++ post)]
  · rw [List.reverse_append, dropWhile_append_all (fun c hc => h2 c (List.mem_reverse.1 hc)),
      dropWhile_head, List.reverse_reverse]
    intro c hc
    rw [List.head?_reverse] at hc
    exact h4 c hc
  · intro c hc
    cases d with
    | nil => exact absurd rfl hd
    | cons x d => exact h3 c hc

theorem takeWhile_all {α : Type} {p : α → Bool} : ∀ {s : List α} {c : α}, c ∈ s.takeWhile p → p c = true
  | [], _, h => nomatch h
  | x :: s, c, h => by
    by_cases hx : p x = true
    · rw [List.takeWhile_cons_of_pos hx] at h
      rcases List.mem_cons.1 h with rfl | h
      · exact hx
      · exact takeWhile_all h
    · rw [List.takeWhile_cons_of_neg hx] at h
      cases h

theorem dropWhile_split {α : Type} (p : α → Bool) (s : List α) :
    ∃ pre, s = pre ++ s.dropWhile p ∧ ∀ c ∈ pre, p c = true :=
  ⟨s.takeWhile p, (List.takeWhile_append_dropWhile).symm, fun _ hc => takeWhile_all hc⟩

theorem dropWhile_head_not {α : Type} {p : α → Bool} : ∀ {s : List α} {c : α},
    (s.dropWhile p).head? = some c → p c = false
  | [], c, h => nomatch h
  | x :: s, c, h => by
    by_cases hx : p x = true
    · rw [List.dropWhile_cons_of_pos hx] at h
      exact dropWhile_head_not h
    · rw [List.dropWhile_cons_of_neg hx] at h
      cases h
      simpa using hx

theorem stripBy_spec (p : Char → Bool) (s : Key) :
    ∃ pre post, s = pre ++ stripBy p s ++ post ∧ (∀ c ∈ pre, p c = true) ∧ (∀ c ∈ post, p c = true) ∧
      ∀ c, (stripBy p s).getLast? = some c → p c = false := by
  obtain ⟨pre, h1, h2⟩ := dropWhile_split p s
  obtain ⟨post, h3, h4⟩ := dropWhile_split p (s.dropWhile p).reverse
  refine ⟨pre, post.reverse, ?_, h2, fun c hc => h4 c (List.mem_reverse.1 hc), ?_⟩
  · have h5 := congrArg List.reverse h3
    rw [List.reverse_reverse, List.reverse_append] at h5
    unfold stripBy
    rw [List.append_assoc, ← h5]
    exact h1
  · intro c hc
    unfold stripBy at hc
    rw [List.getLast?_reverse] at hc
    exact dropWhile_head_not hc

theorem dropWhile_append_not {α : Type} {p : α → Bool} {b : List α} (hb : b ≠ [])
    (h : ∀ c, b.head? = some c → p c = false) : ∀ a : List α, (a ++ b).dropWhile p = a.dropWhile p ++ b
  | [] => by
    rw [List.nil_append, dropWhile_head h]; rfl
  | x :: a => by
    by_cases hx : p x = true
    · rw [List.cons_append, List.dropWhile_cons_of_pos hx, List.dropWhile_cons_of_pos hx]
      exact dropWhile_append_not hb h a
    · rw [List.cons_append, List.dropWhile_cons_of_neg hx, List.dropWhile_cons_of_neg hx]
      rfl

/-! ### TXT records -/

theorem startsWith_iff {s p : Key} : startsWith s p = true ↔ p <+: s := by
  unfold startsWith
  rw [List.isPrefixOf_iff_prefix]

theorem ofNat_toNat' {b : Nat} (h : b < 127) : (Char.ofNat b).toNat = b := by
  have hv : b.isValidChar := .inl (by omega)
  unfold Char.ofNat
  rw [dif_pos hv]
  rfl

theorem escaped_prefix {rest : Key} : ∀ {P : Key} {bs : List Nat}, (∀ c ∈ P, Plain c) →
    (P <+: bs.flatMap escapify ++ '"' :: rest ↔ P.map Char.toNat <+: bs)
  | [], bs, _ => by simp
  | c :: P, [], hP => by
    have hc := hP c (by simp)
    constructor
    · intro h
      rw [List.flatMap_nil, List.nil_append, List.cons_prefix_cons] at h
      exact absurd h.1 hc.2.2.1
    · intro h
      simp at h
  | c :: P, b :: bs, hP => by
    have hc := hP c (by simp)
    have ih := escaped_prefix (rest := rest) (P := P) (bs := bs)
      fun x hx => hP x (List.mem_cons_of_mem _ hx)
    have back : ∀ t : Key, ¬ (c :: P <+: '\\' :: t) := by
      intro t h
      exact hc.2.2.2 (List.cons_prefix_cons.1 h).1
    rw [List.flatMap_cons, List.map_cons, List.cons_prefix_cons]
    by_cases hb : b = 34 ∨ b = 92
    · rw [show escapify b = ['\\', Char.ofNat b] from if_pos hb]
      refine ⟨fun h => absurd h (back _), fun h => ?_⟩
      rcases hb with hb | hb
      · exact absurd (Char.toNat_inj.1 (h.1.trans (hb.trans (by decide : 34 = ('"').toNat)))) hc.2.2.1
      · exact absurd (Char.toNat_inj.1 (h.1.trans (hb.trans (by decide : 92 = ('\\').toNat)))) hc.2.2.2
    · by_cases hb' : 32 ≤ b ∧ b < 127
      · rw [show escapify b = [Char.ofNat b] by unfold escapify; rw [if_neg hb, if_pos hb']]
        rw [List.singleton_append, List.cons_append, List.cons_prefix_cons, ih]
        refine and_congr ⟨fun h => ?_, fun h => ?_⟩ Iff.rfl
        · rw [h, ofNat_toNat' hb'.2]
        · exact Char.toNat_inj.1 (by rw [h, ofNat_toNat' hb'.2])
      · rw [show escapify b = '\\' :: decimal3 b by unfold escapify; rw [if_neg hb, if_neg hb']]
        refine ⟨fun h => absurd h (back _), fun h => ?_⟩
        have h1 := hc.1
        have h2 := hc.2.1
        rw [h.1] at h1 h2
        exact absurd ⟨h1, h2⟩ hb'

theorem txtText_cons (s : List Nat) (ss : List (List Nat)) :
    ∃ r, txtText (s :: ss) = '"' :: (s.flatMap escapify ++ '"' :: r) := by
  unfold txtText
  cases ss with
  | nil => exact ⟨[], by simp [List.intercalate]⟩
  | cons t ts =>
    rw [List.map_cons, List.map_cons]
    simp only [List.intercalate, List.intersperse, List.flatten_cons, List.cons_append,
      List.append_assoc, List.nil_append]
    exact ⟨_, rfl⟩

theorem flatMap_escapify : ∀ {t : Key}, (∀ c ∈ t, Plain c) → (t.map Char.toNat).flatMap escapify = t
  | [], _ => rfl
  | c :: t, h => by
    obtain ⟨h1, h2, h3, h4⟩ := h c (by simp)
    rw [List.map_cons, List.flatMap_cons, flatMap_escapify fun x hx => h x (List.mem_cons_of_mem _ hx)]
    unfold escapify
    rw [if_neg, if_pos ⟨h1, h2⟩, Char.ofNat_toNat]
    · rfl
    · rintro (hb | hb)
      · exact h3 (Char.toNat_inj.1 hb)
      · exact h4 (Char.toNat_inj.1 hb)

theorem txtText_plain {t : Key} (h : ∀ c ∈ t, Plain c) :
    txtText [t.map Char.toNat] = ['"'] ++ t ++ ['"'] := by
  unfold txtText
  rw [List.map_singleton, flatMap_escapify h]
  simp [List.intercalate]

theorem txtLoop_plain : ∀ {recs : List (Option Key)}, (∀ t, some t ∈ recs → ∀ c ∈ t, Plain c) →
    txtLoop (recs.map (Option.map fun t => [t.map Char.toNat])) =
      recs.findSome? (fun r => r.bind didOfTxt)
  | [], _ => rfl
  | none :: recs, h => by
    rw [List.map_cons, List.findSome?_cons]
    exact txtLoop_plain fun t ht => h t (List.mem_cons_of_mem _ ht)
  | some t :: recs, h => by
    have ht := h t (by simp)
    have ih := txtLoop_plain (recs := recs) fun t ht => h t (List.mem_cons_of_mem _ ht)
    rw [List.map_cons, List.findSome?_cons]
    simp only [Option.map_some, Option.bind_some, txtLoop]
    rw [txtText_plain ht, ih]
    have hpre : startsWith (['"'] ++ t ++ ['"']) "\"did=did:".toList = true ↔ "did=did:".toList <+: t := by
      rw [startsWith_iff]
      show '"' :: "did=did:".toList <+: '"' :: (t ++ ['"']) ↔ _
      rw [List.cons_prefix_cons]
      refine ⟨fun ⟨_, h1⟩ => ?_, fun h1 => ⟨rfl, h1.trans (List.prefix_append ..)⟩⟩
      rcases List.prefix_concat_iff.1 h1 with h2 | h2
      · have := congrArg List.getLast? h2
        rw [List.getLast?_concat] at this
        exact absurd this (by decide)
      · exact h2
    unfold didOfTxt
    by_cases hp : "did=did:".toList <+: t
    · rw [if_pos (hpre.2 hp), if_pos hp]
      have hne : t ≠ [] := by rintro rfl; exact absurd hp (by decide)
      rw [stripBy_of (by simp) (by simp) hne]
      · have : startsWith t "did=".toList = true :=
          startsWith_iff.2 ((by decide : "did=".toList <+: "did=did:".toList).trans hp)
        unfold removePrefix
        rw [if_pos this]
        rfl
      · intro c hc
        have := (ht c (List.mem_of_mem_head? hc)).2.2.1
        simpa using this
      · intro c hc
        have := (ht c (List.mem_of_getLast? hc)).2.2.1
        simpa using this
    · rw [if_neg (by rw [hpre]; exact hp), if_neg hp]

theorem txtLoop_sound : ∀ {rs : List (Option (List (List Nat)))} {did : Key}, txtLoop rs = some did →
    "did:".toList <+: did ∧ ∃ s ss, some (s :: ss) ∈ rs ∧ "did=did:".toList.map Char.toNat <+: s
  | [], _, h => nomatch h
  | none :: rs, did, h => by
    obtain ⟨h1, s, ss, h2, h3⟩ := txtLoop_sound (rs := rs) h
    exact ⟨h1, s, ss, List.mem_cons_of_mem _ h2, h3⟩
  | some strings :: rs, did, h => by
    simp only [txtLoop] at h
    split at h
    · rename_i hp
      rw [startsWith_iff] at hp
      cases strings with
      | nil => exact absurd hp (by decide)
      | cons s ss =>
        obtain ⟨r, hr⟩ := txtText_cons s ss
        have hp' := hp
        rw [hr] at hp'
        have h1 := (List.cons_prefix_cons (l₁ := "did=did:".toList).1 hp').2
        have h2 := (escaped_prefix (P := "did=did:".toList) (by unfold Plain; decide)).1 h1
        refine ⟨?_, s, ss, by simp, h2⟩
        obtain ⟨m, hm⟩ := hp
        injection h with h
        have hs : stripBy (· == '"') (txtText (s :: ss)) =
            "did=did:".toList ++ (m.reverse.dropWhile (· == '"')).reverse := by
          rw [← hm]
          unfold stripBy
          rw [show ("\"did=did:".toList ++ m).dropWhile (· == '"') = "did=did:".toList ++ m from rfl,
            List.reverse_append, dropWhile_append_not (by decide) (by decide), List.reverse_append,
            List.reverse_reverse]
        rw [hs] at h
        rw [← h]
        unfold removePrefix
        rw [if_pos (startsWith_iff.2 ((by decide : "did=".toList <+: "did=did:".toList).trans
          (List.prefix_append ..)))]
        exact ⟨_, rfl⟩
    · obtain ⟨h1, s, ss, h2, h3⟩ := txtLoop_sound (rs := rs) h
      exact ⟨h1, s, ss, List.mem_cons_of_mem _ h2, h3⟩

/-! ### The well-known page -/

theorem viaWeb_iff {w : Web} {did : Key} : viaWeb w = some did ↔
    ∃ text, w = .response true text ∧ Page (fun c => isSpace c = true) text did := by
  cases w with
  | exception => exact ⟨(fun h => nomatch h), fun ⟨_, h, _⟩ => nomatch h⟩
  | response ok text =>
    cases ok with
    | false => exact ⟨(fun h => nomatch h), fun ⟨_, h, _⟩ => nomatch h⟩
    | true =>
      simp only [viaWeb, if_true]
      constructor
      · intro h
        split at h
        · rename_i hp
          cases h
          obtain ⟨pre, post, h1, h2, h3, h4⟩ := stripBy_spec isSpace text
          exact ⟨text, rfl, pre, post, h1, h2, h3, fun c hc => by simp [h4 c hc],
            startsWith_iff.1 hp⟩
        · cases h
      · rintro ⟨_, hw, pre, post, rfl, h2, h3, h4, h5⟩
        obtain ⟨_, rfl⟩ := Web.response.inj hw
        have hne : did ≠ [] := by rintro rfl; exact absurd h5 (by decide)
        have hh : ∀ c, did.head? = some c → isSpace c = false := by
          obtain ⟨m, rfl⟩ := h5
          intro c hc
          cases hc
          decide
        rw [stripBy_of h2 h3 hne hh fun c hc => by simpa using h4 c hc, if_pos (startsWith_iff.2 h5)]

/-! ### The cache -/

variable {A B : Type} [DecidableEq A] {ttl : Int} {R : Int → A → B → Prop}

/-- The time of a step. -/
def CacheAct.time : CacheAct A B → Option Int
  | .hit _ now => some now
  | .finish _ _ now => some now
  | .evict _ => none

/-- Everything that is cached, and everything that was returned, goes back to a call of the function. -/
structure Genuine (ttl : Int) (R : Int → A → B → Prop) (clock : Int) (c : Cache A B) : Prop where
  entries : ∀ a b t, (a, (b, t)) ∈ c.entries → R t a b ∧ t ≤ clock
  got : ∀ a b now, (a, b, now) ∈ c.got → ∃ t, R t a b ∧ t ≤ now ∧ now < t + ttl

theorem Genuine.act {c c' : Cache A B} {x : CacheAct A B} {clock : Int} (hf : Genuine ttl R clock c)
    (httl : 0 < ttl) (hx : ∀ a b now, x = .finish a b now → R now a b)
    (ht : ∀ now, x.time = some now → clock ≤ now) (hs : c.act ttl x = some c') :
    Genuine ttl R (x.time.getD clock) c' := by
  have find : ∀ {a now b}, clock ≤ now → c.find ttl a now = some b →
      ∃ t, R t a b ∧ t ≤ now ∧ now < t + ttl := by
    intro a now b hn h1
    unfold Cache.find at h1
    split at h1
    · rename_i b' t h2
      split at h1
      · cases h1
        obtain ⟨h3, h4⟩ := hf.entries a b t (dictGet_mem h2)
        exact ⟨t, h3, by omega, by assumption⟩
      · cases h1
    · cases h1
  have later : ∀ now, clock ≤ now → ∀ a b t, (a, (b, t)) ∈ c.entries → R t a b ∧ t ≤ now := by
    intro now hn a b t h1
    obtain ⟨h2, h3⟩ := hf.entries a b t h1
    exact ⟨h2, by omega⟩
  have add : ∀ a0 b0 now0, (∃ t, R t a0 b0 ∧ t ≤ now0 ∧ now0 < t + ttl) → ∀ a b now,
      (a, b, now) ∈ c.got ++ [(a0, b0, now0)] → ∃ t, R t a b ∧ t ≤ now ∧ now < t + ttl := by
    intro a0 b0 now0 h0 a b now h1
    rcases List.mem_append.1 h1 with h1 | h1
    · exact hf.got a b now h1
    · simp at h1
      obtain ⟨rfl, rfl, rfl⟩ := h1
      exact h0
  cases x with
  | hit a now =>
    have hn := ht now rfl
    simp only [Cache.act] at hs
    split at hs
    · rename_i b h1
      cases hs
      exact ⟨later now hn, add a b now (find hn h1)⟩
    · cases hs
  | finish a b now =>
    have hn := ht now rfl
    simp only [Cache.act] at hs
    split at hs
    · rename_i b' h1
      cases hs
      exact ⟨later now hn, add a b' now (find hn h1)⟩
    · cases hs
      refine ⟨fun a' b' t h1 => ?_, add a b now ⟨now, hx a b now rfl, by omega, by omega⟩⟩
      rcases mem_dictSet h1 with h1 | h1
      · cases h1
        exact ⟨hx a b now rfl, Int.le_refl _⟩
      · exact later now hn a' b' t h1
  | evict a =>
    cases hs
    refine ⟨fun a' b' t h1 => ?_, hf.got⟩
    exact hf.entries a' b' t (List.mem_filter.1 h1).1

theorem Genuine.run (httl : 0 < ttl) : ∀ {as : List (CacheAct A B)} {c c' : Cache A B} {clock : Int},
    Genuine ttl R clock c → c.run ttl as = some c' → (∀ a b now, .finish a b now ∈ as → R now a b) →
    (clock :: as.filterMap CacheAct.time).Pairwise (· ≤ ·) →
    ∀ a b now, (a, b, now) ∈ c'.got → ∃ t, R t a b ∧ t ≤ now ∧ now < t + ttl
  | [], c, c', clock, hf, hs, _, _ => by cases hs; exact hf.got
  | x :: as, c, c', clock, hf, hs, hx, ht => by
    unfold Cache.run at hs
    obtain ⟨c1, h1, hs⟩ := Option.bind_eq_some_iff.1 hs
    have hle := (List.pairwise_cons.1 ht).1
    have hf1 := hf.act httl (x := x) (fun a b now he => hx a b now (by rw [he]; simp))
      (fun now hn => hle now (List.mem_filterMap.2 ⟨x, by simp, hn⟩)) h1
    refine Genuine.run httl hf1 hs (fun a b now hm => hx a b now (List.mem_cons_of_mem _ hm)) ?_
    cases hxt : x.time with
    | none =>
      rw [List.filterMap_cons_none hxt] at ht
      exact ht
    | some now =>
      rw [List.filterMap_cons_some hxt] at ht
      exact (List.pairwise_cons.1 ht).2

theorem Genuine.empty {clock : Int} : Genuine ttl R clock (⟨[], []⟩ : Cache A B) :=
  ⟨(fun _ _ _ h => nomatch h), (fun _ _ _ h => nomatch h)⟩

end Arroba.Did
