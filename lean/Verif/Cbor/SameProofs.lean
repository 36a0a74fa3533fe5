import Verif.Cbor.Codec

/-! # The bytes decide the content -/

namespace Arroba.Cbor

theorem perm_map_inv {α β : Type} (f : α → β) : ∀ {l : List β} {m : List α}, l.Perm (m.map f) →
    ∃ m' : List α, m'.Perm m ∧ l = m'.map f
  | [], m, h => by
    have := h.symm.eq_nil
    simp at this
    exact ⟨[], by rw [this], rfl⟩
  | b :: l, m, h => by
    obtain ⟨a, ha, rfl⟩ := List.mem_map.1 (h.mem_iff.1 (List.mem_cons_self ..))
    obtain ⟨s, t, rfl⟩ := List.append_of_mem ha
    rw [List.map_append, List.map_cons] at h
    have h' : l.Perm ((s ++ t).map f) := by
      rw [List.map_append]
      exact (h.trans List.perm_middle).cons_inv
    obtain ⟨m', hm, rfl⟩ := perm_map_inv f h'
    exact ⟨a :: m', (hm.cons a).trans List.perm_middle.symm, rfl⟩

theorem same_of_norm (v : Ipld) : ∀ w, v.norm = w.norm → Same v w := by
  induction v using Ipld.ind with
  | null => intro w h; cases w <;> simp only [Ipld.norm, reduceCtorEq] at h; exact .null
  | bool b => intro w h; cases w <;> simp only [Ipld.norm, reduceCtorEq, Ipld.bool.injEq] at h; exact h ▸ .bool b
  | int b => intro w h; cases w <;> simp only [Ipld.norm, reduceCtorEq, Ipld.int.injEq] at h; exact h ▸ .int b
  | float b => intro w h; cases w <;> simp only [Ipld.norm, reduceCtorEq, Ipld.float.injEq] at h; exact h ▸ .float b
  | bytes b => intro w h; cases w <;> simp only [Ipld.norm, reduceCtorEq, Ipld.bytes.injEq] at h; exact h ▸ .bytes b
  | text b => intro w h; cases w <;> simp only [Ipld.norm, reduceCtorEq, Ipld.text.injEq] at h; exact h ▸ .text b
  | link b => intro w h; cases w <;> simp only [Ipld.norm, reduceCtorEq, Ipld.link.injEq] at h; exact h ▸ .link b
  | list xs ih =>
    intro w h
    cases w <;> simp only [Ipld.norm, reduceCtorEq, Ipld.list.injEq] at h
    rename_i ys
    refine .list ?_
    rw [normItems_eq, normItems_eq] at h
    clear * - ih h
    induction xs generalizing ys with
    | nil => cases ys with
      | nil => exact .nil
      | cons => simp at h
    | cons x xs ihx => cases ys with
      | nil => simp at h
      | cons y ys =>
        simp only [List.map_cons, List.cons.injEq] at h
        exact .cons (ih x (by simp) y h.1) (ihx (fun z hz => ih z (by simp [hz])) ys h.2)
  | map ps ih =>
    intro w h
    cases w <;> simp only [Ipld.norm, reduceCtorEq, Ipld.map.injEq] at h
    rename_i qs
    have hp : (normEntries ps).Perm (normEntries qs) :=
      (sortKeys_perm _).symm.trans (h ▸ sortKeys_perm _)
    rw [normEntries_eq, normEntries_eq] at hp
    obtain ⟨qs', hq, he⟩ := perm_map_inv _ hp
    refine .map ?_ hq
    clear * - ih he
    induction ps generalizing qs' with
    | nil => cases qs' with
      | nil => exact .nil
      | cons => simp at he
    | cons p ps ihp => cases qs' with
      | nil => simp at he
      | cons q qs' =>
        obtain ⟨k, v⟩ := p
        obtain ⟨k', v'⟩ := q
        simp only [List.map_cons, List.cons.injEq, Prod.mk.injEq] at he
        obtain ⟨⟨rfl, hv⟩, hr⟩ := he
        exact .cons (ih (k, v) (by simp) v' hv) (ihp (fun z hz => ih z (by simp [hz])) qs' hr)

theorem okEntries_perm {ps qs : List (Key × Ipld)} (h : ps.Perm qs) : okEntries ps = okEntries qs := by
  rw [Bool.eq_iff_iff, okEntries_iff, okEntries_iff]
  exact ⟨fun hp q hq => hp q (h.mem_iff.2 hq), fun hq p hp => hq p (h.mem_iff.1 hp)⟩

mutual
theorem Same.ok : ∀ {v w}, Same v w → v.ok = w.ok
  | _, _, .null => rfl
  | _, _, .bool _ => rfl
  | _, _, .int _ => rfl
  | _, _, .float _ => rfl
  | _, _, .bytes _ => rfl
  | _, _, .text _ => rfl
  | _, _, .link _ => rfl
  | _, _, .list h => by
    obtain ⟨h1, h2⟩ := SameItems.ok h
    rw [Ipld.ok, Ipld.ok, h1, h2]
  | _, _, .map h hp => by
    obtain ⟨h1, h2⟩ := SameEntries.ok h
    rw [Ipld.ok, Ipld.ok, ← okEntries_perm hp, h2, ← hp.length_eq]
    have hl := congrArg List.length h1
    rw [List.length_map, List.length_map] at hl
    rw [hl, h1]
    congr 2
    exact decide_eq_decide.2 (hp.map _).nodup_iff
theorem SameItems.ok : ∀ {xs ys}, SameItems xs ys → xs.length = ys.length ∧ okItems xs = okItems ys
  | _, _, .nil => ⟨rfl, rfl⟩
  | _, _, .cons h hs => by
    obtain ⟨h1, h2⟩ := SameItems.ok hs
    exact ⟨by rw [List.length_cons, List.length_cons, h1], by rw [okItems, okItems, Same.ok h, h2]⟩
theorem SameEntries.ok : ∀ {ps qs}, SameEntries ps qs →
    ps.map Prod.fst = qs.map Prod.fst ∧ okEntries ps = okEntries qs
  | _, _, .nil => ⟨rfl, rfl⟩
  | _, _, .cons h hs => by
    obtain ⟨h1, h2⟩ := SameEntries.ok hs
    exact ⟨by rw [List.map_cons, List.map_cons, h1], by rw [okEntries, okEntries, Same.ok h, h2]⟩
end

mutual
theorem Same.enc : ∀ {v w}, Same v w → v.ok = true → v.enc = w.enc
  | _, _, .null, _ => rfl
  | _, _, .bool _, _ => rfl
  | _, _, .int _, _ => rfl
  | _, _, .float _, _ => rfl
  | _, _, .bytes _, _ => rfl
  | _, _, .text _, _ => rfl
  | _, _, .link _, _ => rfl
  | _, _, .list h, ho => by
    simp only [Ipld.ok, Bool.and_eq_true] at ho
    rw [Ipld.enc, Ipld.enc, SameItems.enc h ho.2, (SameItems.ok h).1]
  | _, _, .map h hp, ho => by
    simp only [Ipld.ok, Bool.and_eq_true, decide_eq_true_eq] at ho
    have hl := congrArg List.length (SameEntries.ok h).1
    rw [List.length_map, List.length_map] at hl
    rw [Ipld.enc, Ipld.enc, SameEntries.enc h ho.2, hl, hp.length_eq]
    rw [encEntries_eq, encEntries_eq, sortKeys_congr (hp.map _)]
    rw [List.map_map]
    exact (SameEntries.ok h).1 ▸ ho.1.2
theorem SameItems.enc : ∀ {xs ys}, SameItems xs ys → okItems xs = true → encItems xs = encItems ys
  | _, _, .nil, _ => rfl
  | _, _, .cons h hs, ho => by
    simp only [okItems, Bool.and_eq_true] at ho
    rw [encItems, encItems, Same.enc h ho.1, SameItems.enc hs ho.2]
theorem SameEntries.enc : ∀ {ps qs}, SameEntries ps qs → okEntries ps = true →
    encEntries ps = encEntries qs
  | _, _, .nil, _ => rfl
  | _, _, .cons h hs, ho => by
    simp only [okEntries, Bool.and_eq_true] at ho
    rw [encEntries, encEntries, Same.enc h ho.1.2, SameEntries.enc hs ho.2]
end

/-- The bytes decide the content, and the content the bytes. -/
theorem encode_same {v w : Ipld} {b : Bytes} (h : encode v = .ok b) : encode w = .ok b ↔ Same v w := by
  unfold encode at *
  split_ifs at h with hv
  cases h
  constructor
  · intro h
    split_ifs at h with hw
    injection h with h
    have h1 := decode_enc hv
    rw [← h, decode_enc hw] at h1
    exact same_of_norm v w (Option.some.inj h1).symm
  · intro h
    rw [← h.ok, if_pos hv, h.enc hv]

theorem decode_encode {v : Ipld} {b : Bytes} (h : encode v = .ok b) : ∃ w, decode b = some w ∧ Same v w := by
  unfold encode at h
  split_ifs at h with hv
  cases h
  have h1 := decode_enc hv
  refine ⟨_, h1, ?_⟩
  have h2 := decode_some h1
  exact same_of_norm _ _ h2.2.2.symm

theorem encode_decode {v : Ipld} {b : Bytes} (h : decode b = some v) : encode v = .ok b := by
  obtain ⟨rfl, ho, _⟩ := decode_some h
  rw [encode, if_pos ho]

end Arroba.Cbor
