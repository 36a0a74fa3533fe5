import Verif.Props.C76

/-!
# C76: mirrors of repos with calls that are retried

`C76_mirror_partial` is about repos whose calls are not retried once they have written their blocks. Here they may be, if they have no
updates and return in the end. Then the first attempt may be announced instead of the one that took effect, but its operations are the
same.
-/

namespace Arroba.Store

open Arroba.Tree

section
variable {C R : Type} [DecidableEq C] {L : Lib C R} {Z : Nat} {al : Allow} {w : World C R}
  {job : Nat → Job R} {as : List (Act C)} {s : CState C R} {W : List (Nat × CommitData C R)}

/-! ### Operations of other attempts -/

/-- The operations of writes that were made on the records `n` do the same to the records `m`, unless there are updates, of which some
may have had nothing to change. -/
theorem mirror_writes (hL : L.OK Z) {car : Xrpc.Car C R} (hn : (car.blocks.map (·.1)).Nodup) :
    ∀ {ws : List (Write R)} {n n' m m' : Key → Option R}, specWrites L n ws = .ok n' → specWrites L m ws = .ok m' →
    (n = m ∨ ∀ x ∈ ws, x.action ≠ .update) →
    (∀ op ∈ (opsOf L n ws).map wireOp, ∀ c, op.cid = some c → ∃ r, c = L.hash (.record r) ∧ (c, .record r) ∈ car.blocks) →
    ((opsOf L n ws).map wireOp).foldl (mirrorOp car) m = m' := by
  intro ws
  induction ws with
  | nil => intro n n' m m' _ h2 _ _; cases h2; rfl
  | cons x ws ih =>
    intro n n' m m' h1 h2 h3 h4
    unfold specWrites at h1 h2
    unfold opsOf at h4 ⊢
    cases g1 : specWrite L n x with
    | error e => rw [g1] at h1; cases h1
    | ok n1 =>
    cases g2 : specWrite L m x with
    | error e => rw [g2] at h2; cases h2
    | ok m1 =>
    rw [g1] at h1 h4; rw [g2] at h2
    dsimp only at h1 h2 h4 ⊢
    rw [List.map_append, List.foldl_append]
    rw [List.map_append] at h4
    have h5 : n1 = m1 ∨ ∀ y ∈ ws, y.action ≠ .update := by
      rcases h3 with rfl | h3
      · rw [g1] at g2; cases g2; exact .inl rfl
      · exact .inr fun y hy => h3 y (.tail _ hy)
    have h6 : ((opOf L n x).map wireOp).foldl (mirrorOp car) m = m1 := by
      have hrec : ∀ r, (∃ op ∈ (opOf L n x).map wireOp, op.cid = some (L.rcid r)) → carRecord car (L.rcid r) = some r := by
        rintro r ⟨op, ho, hc⟩
        obtain ⟨r', e1, e2⟩ := h4 op (List.mem_append_left _ ho) _ hc
        have := hL.inj e1
        cases this
        exact carRecord_eq hn e2
      unfold specWrite at g1 g2
      unfold opOf at hrec ⊢
      cases ha : x.action with
      | create =>
        rw [ha] at g1 g2 hrec
        dsimp only at g2 hrec ⊢
        cases hr : specRecord L x with
        | error e => rw [hr] at g2; cases g2
        | ok r =>
          rw [hr] at g2
          dsimp only at g2
          split at g2
          · cases g2
          · split at g2
            · cases g2
            · cases g2
              have hx := specRecord_some hr
              rw [hx] at hrec ⊢
              have := hrec r (by simp [wireOp])
              simp [wireOp, mirrorOp, this]
      | update =>
        rw [ha] at g1 g2 hrec
        have hnm : n = m := by
          rcases h3 with h | h
          · exact h
          · exact absurd ha (h x (.head _))
        subst hnm
        dsimp only at g2 hrec ⊢
        split at g2
        · cases g2
        · cases hr : specRecord L x with
          | error e => rw [hr] at g2; cases g2
          | ok r =>
            rw [hr] at g2
            cases g2
            have hx := specRecord_some hr
            rw [hx] at hrec ⊢
            by_cases he : (n x.path).map L.rcid = (some r).map L.rcid
            · rw [if_pos he]
              have := Option.map_injective (fun a b h => by have := hL.inj h; cases this; rfl) he
              show n = _
              rw [← this, Function.update_eq_self]
            · rw [if_neg he] at hrec ⊢
              have := hrec r (by simp [wireOp])
              simp [wireOp, mirrorOp, this]
      | delete =>
        rw [ha] at g1 g2
        dsimp only at g2 ⊢
        split at g2
        · cases g2
        · cases g2
          simp [wireOp, mirrorOp]
    rw [h6]
    exact ih h1 h2 h5 fun op ho => h4 op (List.mem_append_right _ ho)

/-! ### Mirrors, from commits that need not be the ones that took effect -/

/-- The message has the operations that are stored with the commit. -/
def OpsAs (b : Block C R) (msg : Message C R) : Prop :=
  ∀ t p, msg = .commit t p → ∃ ops, b.ops = some ops ∧ p.ops = ops.map wireOp

theorem processEvent_ops {v : World C R} {b : Block C R} {e : Sent C R} {msg : Message C R} (hd : Delivers w b e)
    (hm : processEvent L v none e = .ok msg) : OpsAs b msg := by
  rintro t p rfl
  unfold Delivers at hd
  cases hv : b.val with
  | node d => rw [hv] at hd; exact hd.elim
  | record r => rw [hv] at hd; exact hd.elim
  | event ev =>
    rw [hv] at hd
    subst hd
    unfold processEvent at hm
    cases hm
  | commit co =>
    rw [hv] at hd
    obtain ⟨d, rfl, _⟩ := hd
    unfold processEvent at hm
    dsimp only at hm
    rw [hv] at hm
    cases ho : b.ops with
    | none => rw [ho] at hm; cases hm
    | some ops =>
      rw [ho] at hm
      dsimp only at hm
      refine ⟨ops, rfl, ?_⟩
      simp only [bind, Except.bind] at hm
      split at hm
      · cases hm
      · split at hm
        · cases hm
        · split at hm
          · cases hm
          · cases hm; rfl

/-- The messages for these commits take a mirror of the head `h` to one of the head `h'`. -/
inductive Leads (L : Lib C R) (w : World C R) (d : Did) : Option C → List (Block C R) → Option C → Prop
  | nil (h : Option C) : Leads L w d h [] h
  | cons {h h₁ h' : Option C} {b : Block C R} {bs : List (Block C R)}
      (hb : ∀ (mir : Mirror R) co p t, b.val = .commit co → Describes L w b co p → OpsAs b (.commit t p) →
        MirrorsHead L w d h mir → MirrorsHead L w d h₁ (mir.next (.commit t p)))
      (hr : Leads L w d h₁ bs h') : Leads L w d h (b :: bs) h'

theorem mirrored_leads {v : World C R} {d : Did} {h' : Option C} :
    ∀ {ms : List (Block C R)} {ss : List (Sent C R)} {h : Option C} {mir : Mirror R},
      List.Forall₂ (fun b s => ∃ msg, processEvent L v none s = .ok msg ∧ Announces L w b msg ∧ OpsAs b msg) ms ss →
      Leads L w d h (ms.filter (·.inDid d)) h' → MirrorsHead L w d h mir →
      ∃ msgs, List.Forall₂ (fun e msg => processEvent L v none e = .ok msg) ss msgs ∧
        MirrorsHead L w d h' (msgs.foldl Mirror.next mir) := by
  intro ms ss h mir hf
  induction hf generalizing h mir with
  | nil =>
    intro hl hm
    cases hl with
    | nil => exact ⟨[], .nil, hm⟩
  | @cons b e ms ss hd' _ ih =>
    intro hl hm
    obtain ⟨msg, hd1, hd2, hd3⟩ := hd'
    unfold Announces at hd2
    cases hval : b.val with
    | node d => rw [hval] at hd2; exact hd2.elim
    | record r => rw [hval] at hd2; exact hd2.elim
    | event ev =>
      rw [hval] at hd2
      dsimp only at hd2
      rw [List.filter_cons_of_neg (by simp [Block.inDid, hval])] at hl
      obtain ⟨msgs, k1, k2⟩ := ih (mir := mir) hl hm
      exact ⟨msg :: msgs, .cons hd1 k1, by rw [List.foldl_cons, hd2]; exact k2⟩
    | commit co =>
      rw [hval] at hd2
      dsimp only at hd2
      obtain ⟨q, rfl, hdesc⟩ := hd2
      by_cases hco : co.did = d
      · rw [List.filter_cons_of_pos (by simp [Block.inDid, hval, hco])] at hl
        cases hl with
        | cons hb hr =>
          obtain ⟨msgs, k1, k2⟩ := ih hr (hb mir co q "#commit".toList hval hdesc hd3 hm)
          exact ⟨_ :: msgs, .cons hd1 k1, k2⟩
      · rw [List.filter_cons_of_neg (by simp [Block.inDid, hval, hco])] at hl
        obtain ⟨msgs, k1, k2⟩ := ih (mir := mir.next (.commit "#commit".toList q)) hl (by
          intro m
          rw [← hm m]
          unfold Mirror.next
          dsimp only
          rw [hdesc.repo, Function.update_of_ne (Ne.symm hco)])
        exact ⟨_ :: msgs, .cons hd1 k1, k2⟩

/-! ### Schedules -/

/-- In this schedule, no call for the repo `d` fails once it has written its blocks; and if its transaction is aborted after that, then
it has no updates, and returns in the end (`z`). -/
def RecoversFor (L : Lib C R) (job : Nat → Job R) (d : Did) (z : CState C R) : CState C R → List (Act C) → Prop
  | _, [] => True
  | s, a :: as => (∀ i row ver cd, s.pc i = .written row ver cd → (job i).did = d → (∀ e, a ≠ .fail i e) ∧
        (a = .abort i → (∀ x ∈ (job i).writes, x.action ≠ .update) ∧ ∃ cd', z.pc i = .done cd')) ∧
      ∀ s', s.act L job a = some s' → RecoversFor L job d z s' as

/-- A call keeps its number until it fails. -/
theorem seq_act (hL : L.OK Z) {lo : Nat} {s s' : CState C R} {a : Act C} (hc : CInv L Z job lo s) (hs : s.act L job a = some s')
    {k n : Nat} (hk : (s.pc k).seq = some n ∨ ∃ e, s.pc k = .failed e) :
    (s'.pc k).seq = some n ∨ ∃ e, s'.pc k = .failed e := by
  by_cases hcall : a.call = some k
  · have hp := hc.pcs k
    cases a with
    | step i nonce =>
      cases hcall
      simp only [CState.act] at hs
      unfold Store.stepCall at hs
      dsimp only at hs
      cases hpc : s.pc k with
      | start =>
        rw [hpc] at hk
        rcases hk with hk | ⟨_, hk⟩ <;> cases hk
      | ready seq =>
        rw [hpc] at hs hk
        have hk : seq = n := by
          rcases hk with hk | ⟨_, hk⟩ <;> cases hk
          rfl
        dsimp only at hs
        split at hs
        · cases hs; right; exact ⟨_, by simp [CState.at]; rfl⟩
        · split at hs
          · cases hs; right; exact ⟨_, by simp [CState.at]; rfl⟩
          · cases hs; left; simp [CState.at, Pc.seq, hk]
      | loaded seq row ver co =>
        rw [hpc] at hs hk
        have hk : seq = n := by
          rcases hk with hk | ⟨_, hk⟩ <;> cases hk
          rfl
        dsimp only at hs
        split at hs
        · cases hs; right; exact ⟨_, by simp [CState.at]; rfl⟩
        · split at hs
          · cases hs; right; exact ⟨_, by simp [CState.at]; rfl⟩
          · cases hs; left; simp [CState.at, Pc.seq, hk]
      | applied seq row ver st =>
        rw [hpc] at hs hk hp
        have hk : seq = n := by
          rcases hk with hk | ⟨_, hk⟩ <;> cases hk
          rfl
        obtain ⟨h1, m, m', h2, h3, h4, h5, h6⟩ := hp
        dsimp only at hs
        rw [show s.w.rd = nodeIn s.w.blocks from rfl] at hs
        cases hb : buildCommit L (nodeIn s.w.blocks) st row.key nonce seq (job k).did (some row.head) with
        | error e => rw [hb] at hs; cases hs; right; exact ⟨e, by simp [CState.at]⟩
        | ok cd =>
          rw [hb] at hs
          cases hs
          obtain ⟨co, g1, _⟩ := buildCommit_pending hL hc.addr hc.store h6 hb
          have hseq : cd.commit.seq = seq := by rw [g1]
          left; simp [CState.at, Pc.seq, hseq, hk]
      | built row ver cd =>
        rw [hpc] at hs hk
        cases hs
        left
        rcases hk with hk | ⟨_, hk⟩ <;> cases hk
        simp [CState.at, Pc.seq]
      | queried row ver cd new =>
        rw [hpc] at hs hk
        cases hs
        left
        rcases hk with hk | ⟨_, hk⟩ <;> cases hk
        simp [CState.at, Pc.seq]
      | written row ver cd =>
        rw [hpc] at hs hk
        dsimp only at hs
        split at hs
        · cases hs
          left
          rcases hk with hk | ⟨_, hk⟩ <;> cases hk
          simp [CState.at, Pc.seq]
        · cases hs
      | done cd' => rw [hpc] at hs; cases hs
      | failed e => rw [hpc] at hs; cases hs
    | abort i =>
      cases hcall
      simp only [CState.act, abortCall] at hs
      cases hpc : s.pc k with
      | start => rw [hpc] at hs; cases hs
      | ready _ => rw [hpc] at hs; cases hs
      | done _ => rw [hpc] at hs; cases hs
      | failed _ => rw [hpc] at hs; cases hs
      | _ =>
        rw [hpc] at hs hk; cases hs
        left
        rcases hk with hk | ⟨_, hk⟩ <;> cases hk
        simp [CState.at, Pc.seq]
    | fail i e =>
      cases hcall
      simp only [CState.act, failCall] at hs
      cases hpc : s.pc k with
      | done cd => rw [hpc] at hs; cases hs
      | failed e' => rw [hpc] at hs; cases hs
      | _ => rw [hpc] at hs; cases hs; right; exact ⟨e, by simp [CState.at]⟩
    | setStatus d st => cases hcall
    | event d kind t => cases hcall
  · rw [act_pc hcall hs]; exact hk

/-- The attempts of calls for `d` that have written their blocks: they still are what the call has written, or the call has no updates
and returns. -/
def StillOrAgain (job : Nat → Job R) (d : Did) (z s : CState C R) (W : List (Nat × CommitData C R)) : Prop :=
  ∀ x ∈ W, ((s.pc x.1).seq = some x.2.commit.seq ∨ ∃ e, s.pc x.1 = .failed e) ∧ ((job x.1).did = d →
    (s.pc x.1).wrote = some x.2 ∨ ((∀ y ∈ (job x.1).writes, y.action ≠ .update) ∧ ∃ cd', z.pc x.1 = .done cd'))

theorem UInv.run_again (hL : L.OK Z) (hj : ∀ i, isDid (job i).did) {d : Did} {lo : Nat} {old : List (C × Block C R)}
    {z : CState C R} :
    ∀ {as : List (Act C)} {W : List (Nat × CommitData C R)} {s s' : CState C R}, CInv L Z job lo s → UInv L Z job lo old W s →
    StillOrAgain job d z s W → RecoversFor L job d z s as →
    s.run L job as = some s' → ∃ W', UInv L Z job lo old W' s' ∧ StillOrAgain job d z s' W'
  | [], W, s, s', _, h, hd, _, hs => by cases hs; exact ⟨W, h, hd⟩
  | a :: as, W, s, s', hc, h, hd, ht, hs => by
    unfold CState.run at hs
    cases ha : s.act L job a with
    | none => rw [ha] at hs; cases hs
    | some s1 =>
      rw [ha] at hs
      have hk : StillOrAgain job d z s1 W := by
        intro x hx
        obtain ⟨k1, k2⟩ := hd x hx
        refine ⟨seq_act hL hc ha k1, fun hxd => ?_⟩
        rcases k2 hxd with k2 | k2
        · by_cases hab : ∃ row ver cd, s.pc x.1 = .written row ver cd ∧ a = .abort x.1
          · obtain ⟨row, ver, cd, g1, g2⟩ := hab
            exact .inr ((ht.1 x.1 row ver cd g1 hxd).2 g2)
          · refine .inl (wrote_act k2 ha fun row ver cd hp => ⟨fun g => hab ⟨row, ver, cd, hp, g⟩, ?_⟩).1
            exact (ht.1 x.1 row ver cd hp hxd).1
        · exact .inr k2
      rcases h.act hL hc ha with h | ⟨i, nonce, row, ver, cd, e1, e2, h⟩
      · exact h.run_again hL hj (hc.act hL hj ha).1 hk (ht.2 s1 ha) hs
      · refine h.run_again hL hj (hc.act hL hj ha).1 (fun x hx => ?_) (ht.2 s1 ha) hs
        rcases List.mem_cons.1 hx with rfl | hx
        · dsimp only
          rw [e2]; exact ⟨.inl rfl, fun _ => .inl rfl⟩
        · exact hk x hx

/-- The messages for the attempts `bs` of the calls that are in the log do to a mirror what the commits in the log did. -/
theorem UInv.leads (hL : L.OK Z) {d : Did} (hc : CInv L Z job w.next s) (h : UInv L Z job w.next w.blocks W s)
    {h₀ h' : Option C} {ls : List (Nat × CommitData C R)} {bs : List (Block C R)}
    (hch : RepoChain L h₀ (ls.map (·.2.commit)) h') (hls : ∀ x ∈ ls, x ∈ W ∧ (job x.1).did = d)
    (hf : List.Forall₂ (fun x b => ∃ y ∈ W, y.2.commit = b ∧ y.1 = x.1 ∧
      (y = x ∨ ∀ z ∈ (job x.1).writes, z.action ≠ .update)) ls bs) : Leads L s.w d h₀ bs h' := by
  induction hf generalizing h₀ with
  | nil => cases hch; exact .nil _
  | @cons x b ls bs hy _ ih =>
    obtain ⟨y, hy, rfl, hyx, hor⟩ := hy
    obtain ⟨hx, hxd⟩ := hls x (.head _)
    rw [List.map_cons] at hch
    cases hch with
    | @cons _ _ _ co _ hv hp hr =>
    refine .cons (h₁ := some (L.hash x.2.commit.val)) (fun mir co₁ p t hv₁ hdesc hops hm => ?_)
      (ih hr fun x hx => hls x (.tail _ hx))
    obtain ⟨_, ⟨row, m, m', co', e1, e2, e3, e4, e5, e6, e7, e8, e9⟩, _⟩ := h.com x hx
    obtain ⟨_, ⟨row', n, n', co'', f1, f2, f3, f4, f5, f6, f7, f8, f9⟩, _⟩ := h.com y hy
    rw [hyx] at f2 f4 f5 f1
    have : co = co' := by rw [e4] at hv; cases hv; rfl
    subst this
    have : co₁ = co'' := by rw [f4] at hv₁; cases hv₁; rfl
    subst this
    have hh : h₀ = some row.head := by
      rcases hp with hp | hp
      · rw [e6] at hp; cases hp
      · rw [← hp, e6]
    subst hh
    have hmir : mir d = some m := (hm m).2 ⟨_, rfl, e1.commitShows hL hc.addr⟩
    have hnm : n = m ∨ ∀ z ∈ (job x.1).writes, z.action ≠ .update := by
      rcases hor with rfl | hor
      · left
        have : row.head = row'.head := Option.some.inj (e7.symm.trans f7)
        rw [← this] at f1
        exact (f1.commitShows hL hc.addr).unique (e1.commitShows hL hc.addr)
      · exact .inr hor
    obtain ⟨ops, o1, o2⟩ := hops t p rfl
    have : ops = opsOf L n (job x.1).writes := by rw [f4] at o1; cases o1; rfl
    subst this
    have hfold := mirror_writes hL hdesc.nodup f2 e2 hnm (by rw [← o2]; exact hdesc.records)
    rw [← o2] at hfold
    have hpd : p.prevData ≠ none := by
      have := hdesc.prevData
      rw [f6] at this
      obtain ⟨_, _, _, _, g⟩ := this
      rw [g]; simp
    have hshow : CommitShows L s.w (L.hash x.2.commit.val) m' :=
      Holds.commitShows hL hc.addr (d := (job x.1).did) ⟨co, by rw [hv], e5, e9⟩
    intro mm
    unfold Mirror.next
    dsimp only
    rw [if_neg hpd, hdesc.repo, f5, hxd, Function.update_self, hmir, Option.getD_some, hfold]
    constructor
    · intro g; cases g; exact ⟨_, rfl, hshow⟩
    · rintro ⟨c, g1, g2⟩
      cases g1
      rw [hshow.unique g2]

theorem forall₂_of_mem {α β : Type} {P Q : α → β → Prop} :
    ∀ {as : List α} {bs : List β}, List.Forall₂ P as bs → (∀ a ∈ as, ∀ b ∈ bs, P a b → Q a b) → List.Forall₂ Q as bs
  | _, _, .nil, _ => .nil
  | _, _, .cons h hs, hi => .cons (hi _ (.head _) _ (.head _) h) (forall₂_of_mem hs fun a ha b hb => hi a (.tail _ ha) b (.tail _ hb))

theorem forall₂_both {α β : Type} {P Q : α → β → Prop} :
    ∀ {as : List α} {bs : List β}, List.Forall₂ P as bs → List.Forall₂ Q as bs → List.Forall₂ (fun a b => P a b ∧ Q a b) as bs
  | _, _, .nil, .nil => .nil
  | _, _, .cons h hs, .cons k ks => .cons ⟨h, k⟩ (forall₂_both hs ks)

theorem map_eq_of_ascending {α β : Type} {f : α → Nat} {g : β → Nat} {as : List α} {bs : List β}
    (ha : as.Pairwise fun x y => f x < f y) (hb : bs.Pairwise fun x y => g x < g y)
    (h1 : ∀ a ∈ as, ∃ b ∈ bs, g b = f a) (h2 : ∀ b ∈ bs, ∃ a ∈ as, f a = g b) : as.map f = bs.map g := by
  have ha' : (as.map f).Pairwise (· < ·) := List.pairwise_map.2 ha
  have hb' : (bs.map g).Pairwise (· < ·) := List.pairwise_map.2 hb
  refine List.Perm.eq_of_pairwise ?_ ha' hb' ((List.perm_ext_iff_of_nodup (ha'.imp fun h => Nat.ne_of_lt h)
    (hb'.imp fun h => Nat.ne_of_lt h)).2 fun n => ?_)
  · intro x y _ _ h1 h2
    exact absurd h1 (Nat.lt_asymm h2)
  · rw [List.mem_map, List.mem_map]
    constructor
    · rintro ⟨a, h, rfl⟩; exact h1 a h
    · rintro ⟨b, h, rfl⟩; exact h2 b h

/-- **C76, mirrors of repos with retried calls, partial.** Let a consumer's mirror of the repo `d` be right when it all begins, and let it
go on with the messages from the next sequence number on. Transactions of calls for `d` may be aborted after the blocks were written, any
number of times, if the call has no updates, and returns in the end. If otherwise no call for `d` failed after it had written its blocks,
and none is between writing its blocks and the end of its transaction, and the transactions for `d` committed in the order of the calls'
sequence numbers, then after applying the messages in order the mirror of the repo is right again: though there may be messages for
attempts that did not take effect, and whatever happened to the calls for other repos.

Partial: `C76_stale_false` shows why there must not be updates, `C67_retry_false` and `C66_concurrent_false` why the rest is needed. -/
theorem C76_retried_partial (hL : L.OK Z) (hplain : PlainRecords L) (ht : ¬ al.torn) (hr : Reach L .datastore al w)
    (hj : ∀ i, isDid (job i).did) {d : Did} (hd : isDid d) (htd : RecoversFor L job d s (.init w) as)
    (hs : (CState.init w).run L job as = some s)
    (hidle : ∀ i row ver cd, (job i).did = d → s.pc i ≠ .written row ver cd)
    (hord : s.log.Pairwise fun a b => (job a.1).did = d → (job b.1).did = d → a.2.commit.seq < b.2.commit.seq)
    {mir : Mirror R} (hm : ∀ m, mir d = some m ↔ Shows L .datastore w d m)
    {q : List (Block C R)} (hq : Query L s.w ((lastSeq w.seqs subscribeRepos).getD 0 + 1) none q) :
    ∃ msgs, List.Forall₂ (fun e msg => processEvent L s.w none e = .ok msg) (readEvents L s.w q).1 msgs ∧
      ∀ m, msgs.foldl Mirror.next mir d = some m ↔ Shows L .datastore s.w d m := by
  have hi := CInv.init hL hr job
  have hc := hi.run hL hj hs
  obtain ⟨W, h, hW⟩ := (UInv.init hL hr job).run_again hL hj (d := d) (z := s) hi (fun x hx => (nomatch hx)) htd hs
  obtain ⟨_, ms, h2, h3', h4⟩ := h.log hL hplain hr hc (fun _ => Nat.le_add_left _ _) hq
  have h3 := announced hL (fun _ _ h => h) hc.addr (pc := fun _ => none) (fun _ _ _ _ h => nomatch h) h3'
    (fun b hb co hv => h.toldAll hL ht hr hc (h2.sound b hb).1 hv (h4 b hb)) (scan_nodup (by simp))
  have h5 : List.Forall₂ (fun b e => ∃ msg, processEvent L s.w none e = .ok msg ∧ Announces L s.w b msg ∧ OpsAs b msg) ms
      (readEvents L s.w q).1 := (forall₂_both h3' h3).imp fun b e ⟨g1, msg, g2, g3⟩ => ⟨msg, g2, g3, processEvent_ops g1 g2⟩
  rw [← (next_eq hL hr).1] at h2
  have hlog := C58_acknowledged hL hr hj hs
  have hlogW : ∀ x ∈ s.log, x ∈ W := fun x hx => h.wrote x.1 x.2 (by rw [(hlog.2 x.1 x.2).2 hx]; rfl)
  have hfin : ∀ x ∈ W, (job x.1).did = d → ∃ x' ∈ s.log, x'.1 = x.1 ∧ x'.2.commit.seq = x.2.commit.seq ∧
      (x = x' ∨ ∀ y ∈ (job x.1).writes, y.action ≠ .update) := by
    intro x hx hxd
    obtain ⟨k1, k2⟩ := hW x hx
    rcases k2 hxd with k2 | ⟨k2, cd', k3⟩
    · refine ⟨x, (hlog.2 x.1 x.2).1 ?_, rfl, rfl, .inl rfl⟩
      cases hp : s.pc x.1 with
      | done cd' => rw [hp] at k2; cases k2; rfl
      | written row ver cd' => exact absurd hp (hidle _ _ _ _ hxd)
      | _ => rw [hp] at k2; cases k2
    · refine ⟨(x.1, cd'), (hlog.2 x.1 cd').1 k3, rfl, ?_, .inr k2⟩
      rw [k3] at k1
      rcases k1 with k1 | ⟨_, k1⟩
      · exact Option.some.inj k1
      · cases k1
  have hone : ∀ x ∈ s.log, ∀ y ∈ s.log, x.1 = y.1 → x = y := by
    intro x hx y hy e
    have k1 := (hlog.2 x.1 x.2).2 hx
    have k2 := (hlog.2 y.1 y.2).2 hy
    rw [e, k2] at k1
    exact Prod.ext e (by injection k1 with k1; exact k1.symm)
  have hin : ∀ x ∈ W, (x.2.commit.inDid d = true ↔ (job x.1).did = d) := by
    intro x hx
    obtain ⟨co, h1, h2, _⟩ := h.commitVal hx
    simp [Block.inDid, h1, h2]
  have hms : ∀ b ∈ ms.filter (·.inDid d), ∃ y ∈ W, y.2.commit = b ∧ (job y.1).did = d := by
    intro b hb
    obtain ⟨g1, g3⟩ := List.mem_filter.1 hb
    obtain ⟨k1, k2, k3, _⟩ := h2.sound b g1
    have : ∃ co, b.val = .commit co := by
      unfold Block.inDid at g3
      cases hv : b.val with
      | commit co => exact ⟨co, rfl⟩
      | _ => rw [hv] at g3; cases g3
    obtain ⟨co, hv⟩ := this
    obtain ⟨x, hx, rfl⟩ := h.caller hL hr k1 hv k3
    exact ⟨x, hx, rfl, (hin x hx).1 g3⟩
  have hls : ∀ x ∈ s.log.filter (fun x => decide ((job x.1).did = d)), x ∈ s.log ∧ (job x.1).did = d := by
    intro x hx
    obtain ⟨g1, g2⟩ := List.mem_filter.1 hx
    exact ⟨g1, of_decide_eq_true g2⟩
  have hfol : Leads L s.w d (headOf L .datastore w d) (ms.filter (·.inDid d)) (headOf L .datastore s.w d) := by
    have hlink := linked_run hL hj (H := headOf L .datastore w) hi (.nil _) hs
    have hch := hlink.chain d
    have hfil : (s.log.map (·.2.commit)).filter (·.inDid d) =
        (s.log.filter fun x => decide ((job x.1).did = d)).map (·.2.commit) := by
      rw [List.filter_map]
      congr 1
      refine List.filter_congr fun x hx => ?_
      have := hin x (hlogW x hx)
      show x.2.commit.inDid d = decide _
      by_cases hxd : (job x.1).did = d
      · rw [this.2 hxd, decide_eq_true hxd]
      · rw [decide_eq_false hxd]
        cases hb : x.2.commit.inDid d with
        | false => rfl
        | true => exact absurd (this.1 hb) hxd
    rw [hfil] at hch
    refine h.leads hL hc hch (fun x hx => ⟨hlogW x (hls x hx).1, (hls x hx).2⟩) ?_
    have hmap := map_eq_of_ascending (f := fun x : Nat × CommitData C R => x.2.commit.seq) (g := fun b : Block C R => b.seq)
      (as := s.log.filter fun x => decide ((job x.1).did = d)) (bs := ms.filter (·.inDid d)) (by
        rw [List.pairwise_filter]
        exact hord.imp fun h g1 g2 => h (of_decide_eq_true g1) (of_decide_eq_true g2)) (h2.ascending.filter _)
      (fun x hx => by
        obtain ⟨g1, g2⟩ := hls x hx
        obtain ⟨y, y1, y2, y3, y4⟩ := h.marker hL hr hc (hlogW x g1)
        obtain ⟨co, hv, _⟩ := h.commitVal y1
        obtain ⟨b, b1, b2, _⟩ := h2.complete y.2.commit ⟨y2, .inl ⟨co, hv⟩, (h.com y y1).1.1, .inl rfl⟩
        refine ⟨b, List.mem_filter.2 ⟨b1, ?_⟩, by rw [b2, y4]⟩
        obtain ⟨k1, k2, k3, _⟩ := h2.sound b b1
        rcases k2 with ⟨co', k2⟩ | ⟨e, k2⟩
        · obtain ⟨z, hz, rfl⟩ := h.caller hL hr k1 k2 k3
          have e := h.one z hz x (hlogW x g1) (by rw [b2, y4])
          exact (hin z hz).2 (by rw [e]; exact g2)
        · rcases h.kinds hL hr k1 with ⟨_, j⟩ | ⟨_, z, hz, _, j⟩ | ⟨_, _, j⟩
          · omega
          · obtain ⟨co', hv', _⟩ := h.commitVal hz
            rcases j with ⟨_, j, _⟩ | ⟨_, j⟩ | j
            · rw [k2] at j; cases j
            · rw [k2] at j; cases j
            · rw [j, hv'] at k2; cases k2
          · exact absurd b2.symm (j y y1))
      (fun b hb => by
        obtain ⟨y, y1, rfl, y3⟩ := hms b hb
        obtain ⟨x', k1, k2, k3, _⟩ := hfin y y1 y3
        exact ⟨x', List.mem_filter.2 ⟨k1, decide_eq_true (by rw [k2]; exact y3)⟩, k3⟩)
    have hf2 : List.Forall₂ (fun (x : Nat × CommitData C R) (b : Block C R) => x.2.commit.seq = b.seq)
        (s.log.filter fun x => decide ((job x.1).did = d)) (ms.filter (·.inDid d)) := by
      rw [← List.forall₂_eq_eq_eq, List.forall₂_map_left_iff, List.forall₂_map_right_iff] at hmap
      exact hmap
    refine forall₂_of_mem hf2 fun x hx b hb he => ?_
    obtain ⟨g1, g2⟩ := hls x hx
    obtain ⟨y, y1, rfl, y3⟩ := hms b hb
    have e := h.one y y1 x (hlogW x g1) he.symm
    obtain ⟨x', k1, k2, k3, k4⟩ := hfin y y1 y3
    have := hone x' k1 x g1 (k2.trans e)
    subst this
    rw [e] at k4
    exact ⟨y, y1, rfl, e, k4⟩
  have hk := CInv.retains hL hj hi hs
  have hm' : MirrorsHead L s.w d (headOf L .datastore w d) mir := by
    intro m
    refine (hm m).trans ((hi.shows_iff hL hd m).trans ?_)
    constructor
    · rintro ⟨row, g1, g2⟩
      exact ⟨row.head, by have g1 : dictGet w.rows d = some row := g1; simp [headOf, g1], (g2.keeps hk).commitShows hL hc.addr⟩
    · rintro ⟨c, g1, g2⟩
      obtain ⟨row, g3, rfl⟩ := Option.map_eq_some_iff.1 (show (dictGet w.rows d).map (·.head) = some c from g1)
      obtain ⟨_, m', g4⟩ := hi.rows d row (dictGet_mem g3)
      have := ((g4.keeps hk).commitShows hL hc.addr).unique g2
      subst this
      exact ⟨row, g3, g4⟩
  obtain ⟨msgs, k1, k2⟩ := mirrored_leads h5 hfol hm'
  refine ⟨msgs, k1, fun m => (k2 m).trans ?_⟩
  rw [hc.shows_iff hL hd m]
  constructor
  · rintro ⟨c, g1, g2⟩
    obtain ⟨row, g3, rfl⟩ := Option.map_eq_some_iff.1 (show (dictGet s.w.rows d).map (·.head) = some c from g1)
    obtain ⟨_, m', g4⟩ := hc.rows d row (dictGet_mem g3)
    have := (g4.commitShows hL hc.addr).unique g2
    subst this
    exact ⟨row, g3, g4⟩
  · rintro ⟨row, g1, g2⟩
    exact ⟨row.head, by simp [headOf, g1], g2.commitShows hL hc.addr⟩

end

/-! ### A case that meets the hypotheses -/

/-- Nothing happens to calls for `d`, but that transactions of such calls without updates that return are aborted. -/
theorem RecoversFor.of_acts {C R : Type} [DecidableEq C] {L : Lib C R} {job : Nat → Job R} {d : Did} {z : CState C R} :
    ∀ {as : List (Act C)} {s : CState C R}, (∀ i e, .fail i e ∈ as → (job i).did ≠ d) →
    (∀ i, .abort i ∈ as → (job i).did = d → (∀ x ∈ (job i).writes, x.action ≠ .update) ∧ ∃ cd', z.pc i = .done cd') →
    RecoversFor L job d z s as
  | [], _, _, _ => trivial
  | a :: as, s, h, h' => ⟨fun i row ver cd _ hd => ⟨fun e ha => h i e (by rw [ha]; exact .head _) hd,
      fun ha => h' i (by rw [ha]; exact .head _) hd⟩,
    fun s' _ => RecoversFor.of_acts (fun i e hi => h i e (.tail _ hi)) (fun i hi => h' i (.tail _ hi))⟩

/-- Both calls are for the same repo. -/
def exTwice (i : Nat) : Job Nat :=
  if i = 0 then ⟨exDid, [wr .create "e" (some 6), wr .delete "a" none]⟩ else ⟨exDid, [wr .create "f" (some 5)]⟩

/-- As `exOutdated`: call 1 takes its sequence number, and then call 0 does, and writes its blocks. But then call 1's transaction
commits; so call 0's is aborted, and retried, and commits. -/
def exRecovered : List (Act SC) :=
  steps 1 1 ++ steps 0 6 ++ steps 1 6 ++ [.abort 0] ++ List.replicate 6 (.step 0 1)

/-- The message with call 0's number is for its first attempt, which has never been the head; but the mirror is right. -/
example : ∃ s, (CState.init (exW1 .datastore)).run exL exTwice exRecovered = some s ∧
    ((messagesTurned s.w 10).all fun | .commit _ p => decide (some p.commit ≠ headOf exL .datastore s.w exDid) | _ => false) = true ∧
    (messagesTurned s.w 10).length = 2 ∧
    readRecord s.w .datastore exDid "a" = some none ∧
    readRecord s.w .datastore exDid "e" = some (some (.record 6)) ∧
    readRecord s.w .datastore exDid "f" = some (some (.record 5)) ∧
    ∀ mir : Mirror Nat, (∀ m, mir exDid = some m ↔ Shows exL .datastore (exW1 .datastore) exDid m) →
      ∃ msgs, List.Forall₂ (fun e msg => processEvent exL s.w none e = .ok msg)
        (readEvents exL s.w (blocksTurned s.w 10)).1 msgs ∧
        ∀ m, msgs.foldl Mirror.next mir exDid = some m ↔ Shows exL .datastore s.w exDid m := by
  have h1 : ((CState.init (exW1 .datastore)).run exL exTwice exRecovered).map (fun s =>
      ((messagesTurned s.w 10).all fun | .commit _ p => decide (some p.commit ≠ headOf exL .datastore s.w exDid) | _ => false) &&
      decide ((messagesTurned s.w 10).length = 2) &&
      decide (readRecord s.w .datastore exDid "a" = some none) &&
      decide (readRecord s.w .datastore exDid "e" = some (some (.record 6))) &&
      decide (readRecord s.w .datastore exDid "f" = some (some (.record 5)))) = some true := by decide +kernel
  have h2 : ((CState.init (exW1 .datastore)).run exL exTwice exRecovered).map (fun s => decide ((s.w.blocks.map (·.1)).Nodup) &&
      s.w.blocks.all (fun x => decide (exL.hash x.2.val = x.1)) &&
      decide ((blocksTurned s.w 10).Pairwise (fun a b => a.seq ≤ b.seq)) &&
      decide ((blocksTurned s.w 10).Perm ((s.w.blocks.map (·.2)).filter (fun b => decide (10 ≤ b.seq) && inRepo none b)))) =
      some true := by decide +kernel
  have h3 : ((CState.init (exW1 .datastore)).run exL exTwice exRecovered).map (fun s =>
      decide (s.log.Pairwise (fun a b => a.2.commit.seq < b.2.commit.seq)) &&
      (match s.pc 0 with
        | .done _ => true
        | _ => false) &&
      match s.pc 1 with
        | .done _ => true
        | _ => false) = some true := by decide +kernel
  obtain ⟨s, hs, h1⟩ := Option.map_eq_some_iff.1 h1
  rw [hs, Option.map_some, Option.some.injEq] at h2 h3
  simp only [Bool.and_eq_true, decide_eq_true_eq, List.all_eq_true] at h1 h2 h3
  obtain ⟨⟨⟨b1, b2⟩, b3⟩, b4⟩ := h2
  obtain ⟨⟨c1, c2⟩, c3⟩ := h3
  have hlast : 10 = (lastSeq (exW1 .datastore).seqs subscribeRepos).getD 0 + 1 := by decide +kernel
  refine ⟨s, hs, List.all_eq_true.2 h1.1.1.1.1, h1.1.1.1.2, h1.1.1.2, h1.1.2, h1.2, fun mir hm =>
    C76_retried_partial (al := _) exL_ok (fun _ _ => ⟨rfl, rfl⟩) (fun h => h) (exW1_reach .datastore) (job := exTwice) (fun i => ?_)
      (by unfold isDid; decide +kernel) (RecoversFor.of_acts (fun i e hi => ?_) fun i hi _ => ?_) hs (fun i row ver cd _ hi => ?_)
      (c1.imp fun h _ _ => h) hm (hlast ▸ Query.of_blocks b1 (fun c b h => b2 _ (dictGet_mem h)) b3 b4)⟩
  · unfold exTwice isDid
    split <;> decide +kernel
  · revert hi
    simp [exRecovered, steps]
  · have : i = 0 := by
      revert hi
      simp [exRecovered, steps]
    subst this
    refine ⟨by decide +kernel, ?_⟩
    cases hp : s.pc 0 with
    | done cd => exact ⟨cd, rfl⟩
    | _ => rw [hp] at c2; cases c2
  · by_cases h : i = 0 ∨ i = 1
    · rcases h with rfl | rfl
      · rw [hi] at c2; cases c2
      · rw [hi] at c3; cases c3
    · have := run_pc (i := i) (fun a ha => by
        have : ∀ a ∈ exRecovered, a.call = some 0 ∨ a.call = some 1 := by decide
        rcases this a ha with e | e <;> rw [e]
        · exact fun e => h (.inl (Option.some.inj e).symm)
        · exact fun e => h (.inr (Option.some.inj e).symm)) hs
      rw [hi] at this
      cases this

end Arroba.Store
