import Verif.Cbor.Proofs

/-! # DAG-CBOR: `decode` and `encode` are inverse to each other -/

namespace Arroba.Cbor

/-! ### Sorting -/

section
variable {α β : Type}

theorem insertKey_perm (p : Key × α) : ∀ ps, (insertKey p ps).Perm (p :: ps)
  | [] => .refl _
  | q :: qs => by
    unfold insertKey
    split_ifs
    · exact .refl _
    · exact ((insertKey_perm p qs).cons q).trans (.swap p q qs)

theorem sortKeys_perm : ∀ ps : List (Key × α), (sortKeys ps).Perm ps
  | [] => .refl _
  | p :: ps => (insertKey_perm p _).trans ((sortKeys_perm ps).cons p)

theorem insertKey_map (f : α → β) (p : Key × α) : ∀ ps,
    insertKey (p.1, f p.2) (ps.map fun q => (q.1, f q.2))
      = (insertKey p ps).map fun q => (q.1, f q.2)
  | [] => rfl
  | q :: qs => by
    simp only [insertKey, List.map_cons]
    split_ifs
    · rfl
    · rw [insertKey_map f p qs, List.map_cons]

theorem sortKeys_map (f : α → β) : ∀ ps : List (Key × α),
    sortKeys (ps.map fun q => (q.1, f q.2)) = (sortKeys ps).map fun q => (q.1, f q.2)
  | [] => rfl
  | p :: ps => by
    have h := sortKeys_map f ps
    simp only [sortKeys, List.map_cons, List.foldr_cons] at h ⊢
    rw [h, insertKey_map]

theorem keyLe_iff {a b : Key} : keyLe a b = true ↔
    (utf8 a).length < (utf8 b).length ∨ ((utf8 a).length = (utf8 b).length ∧
      (utf8 a).map UInt8.toNat ≤ (utf8 b).map UInt8.toNat) := by
  simp [keyLe]

theorem keyLe_total (a b : Key) : keyLe a b = true ∨ keyLe b a = true := by
  rw [keyLe_iff, keyLe_iff]
  rcases lt_trichotomy (utf8 a).length (utf8 b).length with h | h | h
  · exact .inl (.inl h)
  · rcases le_total ((utf8 a).map UInt8.toNat) ((utf8 b).map UInt8.toNat) with h' | h'
    · exact .inl (.inr ⟨h, h'⟩)
    · exact .inr (.inr ⟨h.symm, h'⟩)
  · exact .inr (.inl h)

theorem keyLe_trans {a b c : Key} (h : keyLe a b = true) (h' : keyLe b c = true) : keyLe a c = true := by
  rw [keyLe_iff] at *
  rcases h with h | ⟨h, h2⟩ <;> rcases h' with h' | ⟨h', h2'⟩
  · exact .inl (h.trans h')
  · exact .inl (h' ▸ h)
  · exact .inl (h ▸ h')
  · exact .inr ⟨h.trans h', h2.trans h2'⟩

theorem keyLe_antisymm {a b : Key} (h : keyLe a b = true) (h' : keyLe b a = true) : a = b := by
  rw [keyLe_iff] at *
  rcases h with h | ⟨h, h2⟩ <;> rcases h' with h' | ⟨h', h2'⟩
  · omega
  · omega
  · omega
  · exact utf8_inj (List.map_injective_iff.2 (fun _ _ => UInt8.toNat_inj.1) (le_antisymm h2 h2'))

theorem insertKey_sorted (p : Key × α) : ∀ ps : List (Key × α),
    ps.Pairwise (fun a b => keyLe a.1 b.1 = true) →
    (insertKey p ps).Pairwise (fun a b => keyLe a.1 b.1 = true)
  | [], _ => by simp [insertKey]
  | q :: qs, h => by
    unfold insertKey
    rw [List.pairwise_cons] at h
    split_ifs with hc
    · refine List.pairwise_cons.2 ⟨fun r hr => ?_, List.pairwise_cons.2 h⟩
      rcases List.mem_cons.1 hr with rfl | hr
      · exact hc
      · exact keyLe_trans hc (h.1 r hr)
    · refine List.pairwise_cons.2 ⟨fun r hr => ?_, insertKey_sorted p qs h.2⟩
      rcases List.mem_cons.1 ((insertKey_perm p qs).mem_iff.1 hr) with rfl | hr
      · exact (keyLe_total _ _).resolve_left hc
      · exact h.1 r hr

theorem sortKeys_sorted : ∀ ps : List (Key × α),
    (sortKeys ps).Pairwise (fun a b => keyLe a.1 b.1 = true)
  | [] => .nil
  | p :: ps => insertKey_sorted p _ (sortKeys_sorted ps)

/-- Two sorted lists with the same entries, no key twice, are equal. -/
theorem sorted_unique : ∀ {ps qs : List (Key × α)}, ps.Perm qs → (ps.map Prod.fst).Nodup →
    ps.Pairwise (fun a b => keyLe a.1 b.1 = true) → qs.Pairwise (fun a b => keyLe a.1 b.1 = true) →
    ps = qs := by
  intro ps qs h hn hp hq
  refine List.Perm.eq_of_pairwise (le := fun a b => keyLe a.1 b.1 = true) ?_ hp hq h
  intro a b ha hb h1 h2
  exact List.inj_on_of_nodup_map hn ha (h.mem_iff.2 hb) (keyLe_antisymm h1 h2)

theorem sortKeys_congr {ps qs : List (Key × α)} (h : ps.Perm qs) (hn : (ps.map Prod.fst).Nodup) :
    sortKeys ps = sortKeys qs :=
  sorted_unique (((sortKeys_perm ps).trans h).trans (sortKeys_perm qs).symm)
    (((sortKeys_perm ps).map _).nodup_iff.2 hn) (sortKeys_sorted ps) (sortKeys_sorted qs)

theorem ordered_iff : ∀ ks : List Key, ordered ks = true ↔
    ks.Nodup ∧ ks.Pairwise (fun a b => keyLe a b = true)
  | [] => by simp [ordered]
  | [_] => by simp [ordered]
  | a :: b :: ks => by
    rw [ordered, Bool.and_eq_true, Bool.and_eq_true, ordered_iff (b :: ks), decide_eq_true_iff,
      List.nodup_cons (a := a), List.pairwise_cons (a := a)]
    constructor
    · rintro ⟨⟨h1, h2⟩, h3, h4⟩
      have hle : ∀ c ∈ b :: ks, keyLe a c = true := by
        intro c hc
        rcases List.mem_cons.1 hc with rfl | hc
        · exact h1
        · exact keyLe_trans h1 ((List.pairwise_cons.1 h4).1 c hc)
      refine ⟨⟨fun hm => ?_, h3⟩, hle, h4⟩
      rcases List.mem_cons.1 hm with rfl | hm
      · exact h2 rfl
      · exact h2 (keyLe_antisymm h1 ((List.pairwise_cons.1 h4).1 a hm))
    · rintro ⟨⟨h1, h2⟩, h3, h4⟩
      exact ⟨⟨h3 b (by simp), fun hc => h1 (hc ▸ by simp)⟩, h2, h4⟩

theorem sortKeys_of_ordered {ps : List (Key × α)} (h : ordered (ps.map Prod.fst) = true) :
    sortKeys ps = ps := by
  obtain ⟨hn, hp⟩ := (ordered_iff _).1 h
  refine sorted_unique (sortKeys_perm ps) (((sortKeys_perm ps).map _).nodup_iff.2 hn)
    (sortKeys_sorted ps) ?_
  exact List.pairwise_map.1 hp

theorem ordered_sortKeys {ps : List (Key × α)} (h : (ps.map Prod.fst).Nodup) :
    ordered ((sortKeys ps).map Prod.fst) = true :=
  (ordered_iff _).2 ⟨((sortKeys_perm ps).map _).nodup_iff.2 h, List.pairwise_map.2 (sortKeys_sorted ps)⟩

end

/-! ### Lists and entries -/

theorem encItems_eq : ∀ xs, encItems xs = xs.map Ipld.enc
  | [] => rfl
  | x :: xs => by rw [encItems, encItems_eq xs, List.map_cons]

theorem encEntries_eq : ∀ ps, encEntries ps = ps.map fun p => (p.1, p.2.enc)
  | [] => rfl
  | (k, v) :: ps => by rw [encEntries, encEntries_eq ps, List.map_cons]

theorem okItems_iff : ∀ xs, okItems xs = true ↔ ∀ x ∈ xs, x.ok = true
  | [] => by simp [okItems]
  | x :: xs => by simp [okItems, okItems_iff xs]

theorem okEntries_iff : ∀ ps, okEntries ps = true ↔
    ∀ p ∈ ps, (utf8 p.1).length < 2 ^ 64 ∧ p.2.ok = true
  | [] => by simp [okEntries]
  | (k, v) :: ps => by simp [okEntries, okEntries_iff ps]

mutual
/-- All dicts in the order in which they are written. -/
def Ipld.norm : Ipld → Ipld
  | .list xs => .list (normItems xs)
  | .map ps => .map (sortKeys (normEntries ps))
  | v => v
def normItems : List Ipld → List Ipld
  | [] => []
  | x :: xs => x.norm :: normItems xs
def normEntries : List (Key × Ipld) → List (Key × Ipld)
  | [] => []
  | (k, v) :: ps => (k, v.norm) :: normEntries ps
end

theorem normItems_eq : ∀ xs, normItems xs = xs.map Ipld.norm
  | [] => rfl
  | x :: xs => by rw [normItems, normItems_eq xs, List.map_cons]

theorem normEntries_eq : ∀ ps, normEntries ps = ps.map fun p => (p.1, p.2.norm)
  | [] => rfl
  | (k, v) :: ps => by rw [normEntries, normEntries_eq ps, List.map_cons]

/-- The bytes of an entry. -/
def encEntry (p : Key × Ipld) : Bytes := head 3 (utf8 p.1).length ++ utf8 p.1 ++ p.2.enc

theorem enc_list (xs : List Ipld) :
    (Ipld.list xs).enc = head 4 xs.length ++ xs.flatMap Ipld.enc := by
  rw [Ipld.enc, encItems_eq, List.flatMap_def]

theorem enc_map (ps : List (Key × Ipld)) :
    (Ipld.map ps).enc = head 5 ps.length ++ (sortKeys ps).flatMap encEntry := by
  rw [Ipld.enc, encEntries_eq, sortKeys_map, List.flatMap_map]; rfl

/-! ### Reading what was written -/

theorem unMany_map {α γ : Type} (d : Bytes → Option (α × Bytes)) (e : γ → Bytes) (g : γ → α) :
    ∀ xs : List γ, (∀ x ∈ xs, ∀ rest, d (e x ++ rest) = some (g x, rest)) → ∀ rest,
      unMany d xs.length (xs.flatMap e ++ rest) = some (xs.map g, rest)
  | [], _, rest => rfl
  | x :: xs, h, rest => by
    rw [List.length_cons, unMany, List.flatMap_cons, List.append_assoc, h x (by simp)]
    dsimp only
    rw [unMany_map d e g xs (fun y hy => h y (by simp [hy])) rest]
    rfl

theorem unText_utf8 (s : Key) (rest : Bytes) :
    unText (utf8 s).length (utf8 s ++ rest) = some (s, rest) := by
  simp [unText, unUtf8_utf8]

theorem unEntry_enc {α : Type} {d : Bytes → Option (α × Bytes)} {p : Key × Ipld} {x : α}
    (hk : (utf8 p.1).length < 2 ^ 64) (hd : ∀ rest, d (p.2.enc ++ rest) = some (x, rest))
    (rest : Bytes) : unEntry d (encEntry p ++ rest) = some ((p.1, x), rest) := by
  simp [encEntry, unEntry, unHead_head (m := 3) (by omega) hk, unText_utf8, hd]

theorem length_flatMap_mem {α : Type} (e : α → Bytes) : ∀ {xs : List α} {x : α}, x ∈ xs →
    (e x).length ≤ (xs.flatMap e).length
  | y :: xs, x, h => by
    rw [List.flatMap_cons, List.length_append]
    rcases List.mem_cons.1 h with rfl | h
    · omega
    · have := length_flatMap_mem e h; omega

theorem dec_enc (v : Ipld) : v.ok = true → ∀ f, v.enc.length < f → ∀ rest,
    Ipld.dec f (v.enc ++ rest) = some (v.norm, rest) := by
  induction v using Ipld.ind with
  | null => intro _ f hf rest; obtain _ | f := f; · omega
            rfl
  | bool b => intro _ f hf rest; obtain _ | f := f; · omega
              cases b <;> rfl
  | int i =>
    intro h f hf rest; obtain _ | f := f; · omega
    simp only [Ipld.ok, Bool.and_eq_true, decide_eq_true_eq] at h
    unfold Ipld.enc
    split_ifs with hi
    · rw [Ipld.dec, unHead_head (by omega) (by omega)]
      dsimp only
      rw [Int.toNat_of_nonneg hi]; rfl
    · rw [Ipld.dec, unHead_head (by omega) (by omega)]
      rw [Ipld.norm]
      · change some (Ipld.int (-1 - ((-1 - i).toNat : Int)), rest) = _
        rw [Int.toNat_of_nonneg (by omega), show -1 - (-1 - i) = i by omega]
      all_goals (rintro _ ⟨⟩)
  | float n =>
    intro h f hf rest; obtain _ | f := f; · omega
    simp only [Ipld.ok, Bool.and_eq_true, decide_eq_true_eq, bne_iff_ne, ne_eq] at h
    rw [Ipld.enc, Ipld.dec, unHead_float h.1]
    simp [h.2, Ipld.norm]
  | bytes b =>
    intro h f hf rest; obtain _ | f := f; · omega
    simp only [Ipld.ok, decide_eq_true_eq] at h
    rw [Ipld.enc, Ipld.dec, List.append_assoc, unHead_head (by omega) h]
    simp [Ipld.norm]
  | text s =>
    intro h f hf rest; obtain _ | f := f; · omega
    simp only [Ipld.ok, decide_eq_true_eq] at h
    rw [Ipld.enc, Ipld.dec, List.append_assoc, unHead_head (by omega) h]
    simp [Ipld.norm, unText_utf8]
  | link c =>
    intro h f hf rest; obtain _ | f := f; · omega
    simp only [Ipld.ok, decide_eq_true_eq] at h
    rw [Ipld.enc, Ipld.dec, List.append_assoc, List.append_assoc, unHead_head (by omega) (by omega)]
    dsimp only
    rw [if_pos rfl, unHead_head (by omega) h]
    simp [Ipld.norm]
  | list xs ih =>
    intro h f hf rest; obtain _ | f := f; · omega
    simp only [Ipld.ok, Bool.and_eq_true, decide_eq_true_eq, okItems_iff] at h
    have hp := head_pos 4 xs.length
    rw [enc_list] at hf ⊢
    rw [List.length_append] at hf
    rw [Ipld.dec, List.append_assoc, unHead_head (by omega) h.1]
    change (match unMany (Ipld.dec f) xs.length (xs.flatMap Ipld.enc ++ rest) with
      | none => none
      | some (xs, bs) => some (Ipld.list xs, bs)) = _
    rw [unMany_map _ Ipld.enc Ipld.norm xs]
    · rw [Ipld.norm, normItems_eq]
    · intro x hx
      have := length_flatMap_mem Ipld.enc hx
      exact ih x hx (h.2 x hx) f (by omega)
  | map ps ih =>
    intro h f hf rest; obtain _ | f := f; · omega
    simp only [Ipld.ok, Bool.and_eq_true, decide_eq_true_eq, okEntries_iff] at h
    obtain ⟨⟨h1, h2⟩, h3⟩ := h
    have hp := head_pos 5 ps.length
    have hl : ps.length = (sortKeys ps).length := (sortKeys_perm ps).length_eq.symm
    rw [enc_map] at hf ⊢
    rw [List.length_append] at hf
    rw [Ipld.dec, List.append_assoc, unHead_head (by omega) h1]
    change (match unMany (unEntry (Ipld.dec f)) ps.length ((sortKeys ps).flatMap encEntry ++ rest) with
      | none => none
      | some (ps, bs) => if ordered (ps.map Prod.fst) then some (Ipld.map ps, bs) else none) = _
    rw [hl, unMany_map _ encEntry (fun p => (p.1, p.2.norm)) (sortKeys ps)]
    · dsimp only
      have ho : ((sortKeys ps).map fun p => (p.1, p.2.norm)).map Prod.fst = (sortKeys ps).map Prod.fst := by
        rw [List.map_map]; rfl
      rw [ho, if_pos (ordered_sortKeys h2), Ipld.norm, normEntries_eq, sortKeys_map]
    · intro p hp'
      have hle := length_flatMap_mem encEntry hp'
      have hm : p ∈ ps := (sortKeys_perm ps).mem_iff.1 hp'
      have hl' : p.2.enc.length ≤ (encEntry p).length := by
        rw [encEntry, List.length_append]; omega
      exact unEntry_enc (h3 p hm).1 (ih p hm (h3 p hm).2 f (by omega))

theorem decode_enc {v : Ipld} (h : v.ok = true) : decode v.enc = some v.norm := by
  have := dec_enc v h (v.enc.length + 1) (by omega) []
  rw [List.append_nil] at this
  rw [decode, this]

/-! ### Writing what was read -/

theorem unMany_some {α : Type} {d : Bytes → Option (α × Bytes)} {e : α → Bytes} {Q : α → Prop}
    (hd : ∀ bs x rest, d bs = some (x, rest) → bs = e x ++ rest ∧ Q x) :
    ∀ n bs xs rest, unMany d n bs = some (xs, rest) →
      bs = xs.flatMap e ++ rest ∧ xs.length = n ∧ ∀ x ∈ xs, Q x
  | 0, bs, xs, rest, h => by cases h; exact ⟨rfl, rfl, fun _ h => nomatch h⟩
  | n + 1, bs, xs, rest, h => by
    rw [unMany] at h
    split at h
    · cases h
    · rename_i x bs' hx
      obtain ⟨rfl, hq⟩ := hd _ _ _ hx
      split at h
      · cases h
      · rename_i ys bs'' hy
        cases h
        obtain ⟨rfl, rfl, hqs⟩ := unMany_some hd n _ _ _ hy
        refine ⟨by simp, rfl, fun z hz => ?_⟩
        rcases List.mem_cons.1 hz with rfl | hz
        · exact hq
        · exact hqs z hz

theorem unText_some {n : Nat} {bs rest : Bytes} {s : Key} (h : unText n bs = some (s, rest)) :
    bs = utf8 s ++ rest ∧ (utf8 s).length = n := by
  unfold unText at h
  split_ifs at h with hl
  split at h
  · cases h
  · rename_i s' hs
    cases h
    have := utf8_unUtf8 hs
    rw [this]
    exact ⟨(List.take_append_drop n bs).symm, by simp; omega⟩

/-- What a value looks like that was read: it can be written, and its dicts are in order. -/
def Read (v : Ipld) : Prop := v.ok = true ∧ v.norm = v

theorem dec_some : ∀ f bs v rest, Ipld.dec f bs = some (v, rest) → bs = v.enc ++ rest ∧ Read v
  | 0, _, _, _, h => by cases h
  | f + 1, bs, v, rest, h => by
    rw [Ipld.dec] at h
    split at h
    · cases h
    · rename_i m i n bs' hh
      obtain ⟨hm, hn, h6, h7, h7'⟩ := unHead_some hh
      split at h
      · cases h
        obtain rfl := h6 (by omega)
        refine ⟨by rw [Ipld.enc, if_pos (by omega)]; simp, ?_, rfl⟩
        simp only [Ipld.ok, Bool.and_eq_true, decide_eq_true_eq]; omega
      · cases h
        obtain rfl := h6 (by omega)
        refine ⟨?_, ?_, rfl⟩
        · rw [Ipld.enc, if_neg (by omega)]
          congr 2; omega
        · simp only [Ipld.ok, Bool.and_eq_true, decide_eq_true_eq]; omega
      · split_ifs at h with hl
        cases h
        obtain rfl := h6 (by omega)
        have hl' : (bs'.take n).length = n := by simp; omega
        refine ⟨?_, ?_, rfl⟩
        · rw [Ipld.enc, hl', List.append_assoc, List.take_append_drop]
        · simp only [Ipld.ok, decide_eq_true_eq]; omega
      · split at h
        · cases h
        · rename_i s bs'' ht
          cases h
          obtain rfl := h6 (by omega)
          obtain ⟨rfl, rfl⟩ := unText_some ht
          refine ⟨by rw [Ipld.enc, List.append_assoc], ?_, rfl⟩
          simp only [Ipld.ok, decide_eq_true_eq]; omega
      · split at h
        · cases h
        · rename_i xs bs'' hx
          cases h
          obtain rfl := h6 (by omega)
          obtain ⟨rfl, rfl, hq⟩ := unMany_some (e := Ipld.enc) (Q := Read) (dec_some f) _ _ _ _ hx
          refine ⟨by rw [enc_list, List.append_assoc], ?_, ?_⟩
          · simp only [Ipld.ok, Bool.and_eq_true, decide_eq_true_eq, okItems_iff]
            exact ⟨hn, fun x hx => (hq x hx).1⟩
          · rw [Ipld.norm, normItems_eq, List.map_congr_left fun x hx => (hq x hx).2, List.map_id'']
            intro; rfl
      · split at h
        · cases h
        · rename_i ps bs'' hx
          split_ifs at h with ho
          cases h
          obtain rfl := h6 (by omega)
          obtain ⟨rfl, rfl, hq⟩ := unMany_some (e := encEntry)
            (Q := fun p => (utf8 p.1).length < 2 ^ 64 ∧ Read p.2) (by
              intro bs p rest hp
              unfold unEntry at hp
              split at hp
              · rename_i i n bs' hh'
                obtain ⟨_, hn', h6', _, _⟩ := unHead_some hh'
                obtain rfl := h6' (by omega)
                split at hp
                · cases hp
                · rename_i k bs2 ht
                  obtain ⟨rfl, rfl⟩ := unText_some ht
                  split at hp
                  · cases hp
                  · rename_i w bs3 hw
                    cases hp
                    obtain ⟨rfl, hr⟩ := dec_some f _ _ _ hw
                    exact ⟨by simp [encEntry], hn', hr⟩
              · cases hp) _ _ _ _ hx
          refine ⟨by rw [enc_map, sortKeys_of_ordered ho, List.append_assoc], ?_, ?_⟩
          · simp only [Ipld.ok, Bool.and_eq_true, decide_eq_true_eq, okEntries_iff]
            exact ⟨⟨hn, ((ordered_iff _).1 ho).1⟩, fun p hp => ⟨(hq p hp).1, (hq p hp).2.1⟩⟩
          · have : ps.map (fun p => (p.1, p.2.norm)) = ps := by
              rw [List.map_congr_left (g := id) fun p hp => by rw [(hq p hp).2.2]; rfl, List.map_id]
            rw [Ipld.norm, normEntries_eq, this, sortKeys_of_ordered ho]
      · split_ifs at h with h42
        subst h42
        obtain rfl := h6 (by omega)
        split at h
        · rename_i i2 m bs2 hh2
          obtain ⟨_, hm2, h62, _, _⟩ := unHead_some hh2
          obtain rfl := h62 (by omega)
          split_ifs at h with hl
          split at h
          · rename_i c hc
            cases h
            have hl' : (bs2.take m).length = m := by simp; omega
            rw [hc, List.length_cons] at hl'
            subst hl'
            refine ⟨?_, ?_, rfl⟩
            · conv_lhs => rw [← List.take_append_drop (c.length + 1) bs2, hc]
              simp [Ipld.enc]
            · simp only [Ipld.ok, decide_eq_true_eq]; omega
          · cases h
        · cases h
      · rename_i hne0 hne1 hne2 hne3 hne4 hne5 hne6
        have h7m : m = 7 := by
          by_contra hc
          have : m = 0 ∨ m = 1 ∨ m = 2 ∨ m = 3 ∨ m = 4 ∨ m = 5 ∨ m = 6 := by omega
          rcases this with h | h | h | h | h | h | h <;> simp_all
        subst h7m
        split_ifs at h with e1 e2 e3 e4 e5
        · cases h; subst e1; rw [h7' rfl (by omega)]; exact ⟨rfl, rfl, rfl⟩
        · cases h; subst e2; rw [h7' rfl (by omega)]; exact ⟨rfl, rfl, rfl⟩
        · cases h; subst e3; rw [h7' rfl (by omega)]; exact ⟨rfl, rfl, rfl⟩
        · cases h; subst e4; rw [h7 rfl rfl]
          refine ⟨rfl, ?_, rfl⟩
          simp only [Ipld.ok, Bool.and_eq_true, decide_eq_true_eq, bne_iff_ne, ne_eq]
          exact ⟨hn, e5⟩

theorem decode_some {bs : Bytes} {v : Ipld} (h : decode bs = some v) : bs = v.enc ∧ Read v := by
  unfold decode at h
  split at h
  · rename_i w hw
    cases h
    have := dec_some _ _ _ _ hw
    rwa [List.append_nil] at this
  · cases h

end Arroba.Cbor
