import Verif.Xrpc.LinearProofs

/-! Helper lemmas: the invariant of requests that are served at the same time. -/

namespace Arroba.Xrpc

open Arroba.Store Arroba.Tree

variable {C R : Type} [DecidableEq C] {L : Lib C R} {Z : Nat} {cfg : Config R} {out : Surroundings}
  {req : Nat → Request R} {A0 : Accounts R} {names : Did → Option Key}

/-- The answer of a request that has taken effect. -/
def Lin (s : TState C R) (i : Nat) : Option (Answer C R) :=
  match s.stage i, s.c.pc i with
  | .answered a, _ => some a
  | .writing _ ans, .done _ => some ans
  | .changed, _ => some .done
  | _, _ => none

/-- A write to this repo has begun, and not taken effect. -/
def Pend (s : TState C R) (d : Did) (i : Nat) : Prop :=
  ∃ job ans, s.stage i = .writing job ans ∧ job.did = d ∧ ∀ cd, s.c.pc i ≠ .done cd

/-- It hasn't called `commit`. -/
def Early : Stage C R → Prop
  | .idle | .arrived | .checked => True
  | _ => False

/-- Reasons for a request to fail: something else did, `F`; sequence numbers have run out; another request for the
same record, or to make the repo anew, has succeeded at the same time. -/
def Excuse (cfg : Config R) (req : Nat → Request R) (names : Did → Option Key) (F : Nat → Prop) (P : Nat → Nat → Prop)
    (s : TState C R) (h : List (Point C R)) (i : Nat) : Prop :=
  F i ∨ 32 ^ 11 < s.c.w.next ∨ ∃ k ans d p, k ≠ i ∧ (k, ans) ∈ h.map (fun e => (e.i, e.ans)) ∧
    (∀ e, ans ≠ .failed e) ∧ ¬ P i k ∧ ¬ P k i ∧ s.stage i ≠ .idle ∧ Aims cfg names (req i) d p ∧
    Touches cfg names (req k) d p

/-- What is known about a request that writes. -/
structure Held (cfg : Config R) (out : Surroundings) (L : Lib C R) (Z : Nat) (req : Nat → Request R)
    (names : Did → Option Key) (A : Accounts R) (E : Nat → Prop) (c : CState C R) (i : Nat) (j : Job R) (ans : Answer C R)
    (a : Account R) (x : Write R) : Prop where
  acc : A j.did = some a
  planned : Planned a.handle L (fun A1 => Serves cfg out L A1 (req i)) j ans x
  aims : Aims cfg names (req i) j.did x.path
  same : (∀ cd, c.pc i ≠ .done cd) → (a.records x.path = none ↔ x.action = .create) ∨ E i
  got : ∀ seq row ver co, c.pc i = .loaded seq row ver co → ∀ m, Store.Holds L Z c.w.blocks j.did row.head m →
    (m x.path = none ↔ x.action = .create) ∨ E i
  why : ∀ e, c.pc i = .failed e → E i ∨ ∀ (A1 : Accounts R) (a1 : Account R), A1 j.did = some a1 →
    a1.handle = a.handle → a1.status = none → Serves cfg out L A1 (req i) (.failed e) A1

/-- What is known about the making of a new repo. -/
def Birth (L : Lib C R) (Z : Nat) (w : World C R) (q : Request R) : Stage C R → Prop
  | .creating seq => (∃ did handle, q = .newRepo did handle) ∧ seq < w.next
  | .made _ cd => ∃ did handle co, q = .newRepo did handle ∧ cd.commit.val = .commit co ∧ co.did = did ∧
      cd.commit.seq < w.next ∧ (∀ x ∈ cd.blocks, x.1 = L.hash x.2.val) ∧
      Pending L Z w.blocks (cd.blocks.map (·.2.val)) co (fun _ => none)
  | .asked _ cd new => ∃ did handle co, q = .newRepo did handle ∧ cd.commit.val = .commit co ∧ co.did = did ∧
      cd.commit.seq < w.next ∧ Pending L Z w.blocks (new.map (·.val)) co (fun _ => none)
  | .stored _ cd _ => ∃ did handle co, q = .newRepo did handle ∧ cd.commit.val = .commit co ∧ co.did = did ∧
      cd.commit.seq < w.next ∧ Pending L Z w.blocks [] co (fun _ => none)
  | _ => True

theorem Birth.next {w w' : World C R} {q : Request R} {p : Stage C R} (h : Birth L Z w q p)
    (hk : Retains L w.blocks w'.blocks) (hn : w.next ≤ w'.next) : Birth L Z w' q p := by
  cases p with
  | creating seq => exact ⟨h.1, lt_of_lt_of_le h.2 hn⟩
  | made key cd =>
    obtain ⟨did, handle, co, h1, h2, h3, h4, h5, h6⟩ := h
    exact ⟨did, handle, co, h1, h2, h3, lt_of_lt_of_le h4 hn, h5,
      h6.move (fun v hv => hv.imp_left (hk v)) (fun _ h => h)⟩
  | asked key cd new =>
    obtain ⟨did, handle, co, h1, h2, h3, h4, h5⟩ := h
    exact ⟨did, handle, co, h1, h2, h3, lt_of_lt_of_le h4 hn,
      h5.move (fun v hv => hv.imp_left (hk v)) (fun _ h => h)⟩
  | stored key cd n =>
    obtain ⟨did, handle, co, h1, h2, h3, h4, h5⟩ := h
    exact ⟨did, handle, co, h1, h2, h3, lt_of_lt_of_le h4 hn,
      h5.move (fun v hv => hv.imp_left (hk v)) (fun _ h => h)⟩
  | _ => trivial

structure TInv (cfg : Config R) (out : Surroundings) (L : Lib C R) (Z : Nat) (req : Nat → Request R)
    (names : Did → Option Key) (A0 : Accounts R) (lo : Nat) (job : Nat → Job R) (F : Nat → Prop) (P : Nat → Nat → Prop) (s : TState C R)
    (h : List (Point C R)) : Prop where
  dids : ∀ i, isDid (job i).did
  cinv : CInv L Z job lo s.c
  jobs : ∀ i j a, s.stage i = .writing j a → job i = j
  fresh : ∀ i, Early (s.stage i) → s.c.pc i = .start
  kept : Kept L Z s.c.w (cur A0 h)
  path : Path cfg out L req (Excuse cfg req names F P s h) A0 h
  nodup : (h.map (·.i)).Nodup
  lin : ∀ i a, (i, a) ∈ h.map (fun e => (e.i, e.ans)) ↔ Lin s i = some a
  order : h.Pairwise fun x y => ¬ P x.i y.i
  plan : ∀ i j ans, s.stage i = .writing j ans → Stores (req i) ∧
    ∃ a x, Held cfg out L Z req names (cur A0 h) (Excuse cfg req names F P s h) s.c i j ans a x
  checked : ∀ i header inp tid, s.stage i = .checked → req i = .createRecord header inp tid →
    ∀ A1 ans A2, ServesPut cfg L A1 header { inp with rkey := some (inp.rkey.getD tid) } ans A2 →
      Serves cfg out L A1 (req i) ans A2
  room : ∀ d, (∃ k, Pend s d k) → Room A0 P (Pend s d) d h
  before : ∀ i k, P i k → ∃ a, s.stage i = .answered a
  present : ∀ i did change, s.stage i = .changing → req i = .setStatus did change → cur A0 h did ≠ none
  named : Named names (cur A0 h)
  birth : ∀ i, Birth L Z s.c.w (req i) (s.stage i)

/-- Who was answered before whom was made. -/
def Extend (P : Nat → Nat → Prop) (s : TState C R) (i k : Nat) : Prop :=
  P i k ∨ (∃ a, s.stage i = .answered a) ∧ s.stage k = .idle

variable {lo : Nat} {job job' : Nat → Job R} {F F' : Nat → Prop} {P : Nat → Nat → Prop} {s s' : TState C R}
  {h h' : List (Point C R)}

theorem Lin.not_idle {i : Nat} {a : Answer C R} (hl : Lin s i = some a) : s.stage i ≠ .idle := by
  intro hi
  unfold Lin at hl
  rw [hi] at hl
  cases hl

theorem Excuse.next {i k : Nat} (hF : ∀ k, F k → F' k) (hnext : s.c.w.next ≤ s'.c.w.next)
    (hst : ∀ k, k ≠ i → s'.stage k = s.stage k) (hidle : s'.stage i ≠ .idle)
    (hlin : ∀ k a, (k, a) ∈ h'.map (fun e => (e.i, e.ans)) → Lin s' k = some a)
    (hsub : ∀ x ∈ h.map (fun e => (e.i, e.ans)), x ∈ h'.map (fun e => (e.i, e.ans)))
    (he : Excuse cfg req names F P s h k) : Excuse cfg req names F' (Extend P s') s' h' k := by
  rcases he with he | he | ⟨l, ans, d, p, h1, h2, h3, h4, h5, h6, h7⟩
  · exact .inl (hF k he)
  · exact .inr (.inl (lt_of_lt_of_le he hnext))
  · have hk : s'.stage k ≠ .idle := by
      by_cases he : k = i
      · subst he; exact hidle
      · rw [hst k he]; exact h6
    refine .inr (.inr ⟨l, ans, d, p, h1, hsub _ h2, h3, ?_, ?_, hk, h7⟩)
    · rintro (hp | ⟨_, hp⟩)
      · exact h4 hp
      · exact Lin.not_idle (hlin l ans (hsub _ h2)) hp
    · rintro (hp | ⟨_, hp⟩)
      · exact h5 hp
      · exact hk hp

theorem Held.next {A A' : Accounts R} {E E' : Nat → Prop} {c c' : CState C R} {i : Nat} {j : Job R}
    {ans : Answer C R} {a : Account R} {x : Write R} (hL : L.OK Z)
    (hh : Held cfg out L Z req names A E c i j ans a x) (hc : CInv L Z job lo c) (hj : job i = j) (hfr : Frame L c c')
    (hpc : c'.pc i = c.pc i) (hE : E i → E' i) (hA : Onward A A')
    (hrec : ∀ a', (∀ cd, c.pc i ≠ .done cd) → A' j.did = some a' →
      (a'.records x.path = none ↔ a.records x.path = none) ∨ E' i) :
    ∃ a, Held cfg out L Z req names A' E' c' i j ans a x := by
  obtain ⟨a', h1, h2⟩ := hA _ _ hh.acc
  refine ⟨a', h1, by rw [h2]; exact hh.planned, hh.aims, fun hn => ?_, fun seq row ver co hl m hm => ?_, fun e he => ?_⟩
  · rw [hpc] at hn
    rcases hh.same hn with h | h
    · rcases hrec a' hn h1 with g | g
      · exact .inl (g.trans h)
      · exact .inr g
    · exact .inr (hE h)
  · rw [hpc] at hl
    have hp := hc.pcs i
    rw [hl, hj] at hp
    obtain ⟨_, g2, g3, m0, g4⟩ := hp
    have hm0 : Store.Holds L Z c.w.blocks j.did row.head m0 := ⟨co, g2, g3, g4⟩
    have := hm.unique hL hfr.addr hfr.addr (hm0.keeps hfr.keeps)
    subst this
    exact (hh.got seq row ver co hl m hm0).imp_right hE
  · rw [hpc] at he
    refine (hh.why e he).imp hE fun h A1 a1 g1 g2 g3 => h A1 a1 g1 (g2.trans h2) g3

/-- One request has come to another place. -/
theorem TInv.next (hL : L.OK Z) (hi : TInv cfg out L Z req names A0 lo job F P s h) {i : Nat}
    (hst : ∀ k, k ≠ i → s'.stage k = s.stage k) (hpc : ∀ k, k ≠ i → s'.c.pc k = s.c.pc k)
    (hidle : s'.stage i ≠ .idle) (hans : ∀ a, s.stage i ≠ .answered a)
    (hjob : ∀ k, k ≠ i → job' k = job k) (hdid : isDid (job' i).did) (hcinv : CInv L Z job' lo s'.c)
    (hfr : Frame L s.c s'.c) (hnext : s.c.w.next ≤ s'.c.w.next) (hF : ∀ k, F k → F' k)
    (hjobs : ∀ j a, s'.stage i = .writing j a → job' i = j) (hfresh : Early (s'.stage i) → s'.c.pc i = .start)
    (hkept : Kept L Z s'.c.w (cur A0 h')) (hpath : Path cfg out L req (Excuse cfg req names F P s h) A0 h')
    (hnodup : (h'.map (·.i)).Nodup)
    (hlin : ∀ k a, (k, a) ∈ h'.map (fun e => (e.i, e.ans)) ↔ Lin s' k = some a)
    (hsub : ∀ x ∈ h.map (fun e => (e.i, e.ans)), x ∈ h'.map (fun e => (e.i, e.ans)))
    (horder : h'.Pairwise fun x y => ¬ P x.i y.i) (hsame : Course names (cur A0 h) (cur A0 h'))
    (hbirth : Birth L Z s'.c.w (req i) (s'.stage i))
    (hrec : ∀ k j ans a a' p, k ≠ i → s.stage k = .writing j ans → (∀ cd, s.c.pc k ≠ .done cd) →
      cur A0 h j.did = some a → cur A0 h' j.did = some a' → Aims cfg names (req k) j.did p →
      (a'.records p = none ↔ a.records p = none) ∨ Excuse cfg req names F' (Extend P s') s' h' k)
    (hplan : ∀ j ans, s'.stage i = .writing j ans → Stores (req i) ∧
      ∃ a x, Held cfg out L Z req names (cur A0 h') (Excuse cfg req names F' (Extend P s') s' h') s'.c i j ans a x)
    (hchecked : ∀ header inp tid, s'.stage i = .checked → req i = .createRecord header inp tid →
      ∀ A1 ans A2, ServesPut cfg L A1 header { inp with rkey := some (inp.rkey.getD tid) } ans A2 →
        Serves cfg out L A1 (req i) ans A2)
    (hpres : ∀ did change, s'.stage i = .changing → req i = .setStatus did change → cur A0 h did ≠ none)
    (hroom : ∀ d, (∃ k, Pend s' d k) → Room A0 P (Pend s' d) d h') :
    TInv cfg out L Z req names A0 lo job' F' (Extend P s') s' h' := by
  have hE : ∀ k, Excuse cfg req names F P s h k → Excuse cfg req names F' (Extend P s') s' h' k :=
    fun k => Excuse.next hF hnext hst hidle (fun k a => (hlin k a).1) hsub
  refine ⟨fun k => ?_, hcinv, fun k j a hk => ?_, fun k hk => ?_, hkept, hpath.mono hE, hnodup, hlin,
    horder.imp_of_mem fun {x y} hx hy hn => ?_, fun k j ans hk => ?_, fun k header inp tid hk hr => ?_, fun d hd => ?_,
    fun k l hp => ?_, fun k did change hk hr => ?_, hsame.2, fun k => ?_⟩
  · by_cases he : k = i
    · subst he; exact hdid
    · rw [hjob k he]; exact hi.dids k
  · by_cases he : k = i
    · subst he; exact hjobs j a hk
    · rw [hjob k he]; rw [hst k he] at hk; exact hi.jobs k j a hk
  · by_cases he : k = i
    · subst he; exact hfresh hk
    · rw [hpc k he]; rw [hst k he] at hk; exact hi.fresh k hk
  · rintro (hp | ⟨_, hp⟩)
    · exact hn hp
    · exact Lin.not_idle ((hlin y.i y.ans).1 (List.mem_map.2 ⟨y, hy, rfl⟩)) hp
  · by_cases he : k = i
    · subst he; exact hplan j ans hk
    · rw [hst k he] at hk
      obtain ⟨h1, a, x, h3⟩ := hi.plan k j ans hk
      obtain ⟨a', h4⟩ := h3.next hL hi.cinv (hi.jobs k j ans hk) hfr (hpc k he) (hE k) hsame.1
        fun a' hn ha' => hrec k j ans a a' x.path he hk hn h3.acc ha' h3.aims
      exact ⟨h1, a', x, h4⟩
  · by_cases he : k = i
    · subst he; exact hchecked header inp tid hk hr
    · rw [hst k he] at hk
      exact hi.checked k header inp tid hk hr
  · refine (hroom d hd).mono fun k hk => ⟨hk, ?_⟩
    rintro l (hp | ⟨_, hp⟩)
    · exact hp
    · obtain ⟨j, a, h1, _⟩ := hk
      rw [h1] at hp
      cases hp
  · rcases hp with hp | ⟨hp, _⟩
    · obtain ⟨a, ha⟩ := hi.before k l hp
      by_cases he : k = i
      · subst he; exact absurd ha (hans a)
      · exact ⟨a, by rw [hst k he]; exact ha⟩
    · exact hp
  · have : cur A0 h did ≠ none := by
      by_cases he : k = i
      · subst he; exact hpres did change hk hr
      · rw [hst k he] at hk; exact hi.present k did change hk hr
    obtain ⟨a, ha⟩ := Option.ne_none_iff_exists'.1 this
    obtain ⟨a', ha', _⟩ := hsame.1 _ _ ha
    rw [ha']
    exact fun h => nomatch h
  · by_cases he : k = i
    · subst he; exact hbirth
    · rw [hst k he]
      exact (hi.birth k).next hfr.keeps hnext

theorem Lin.congr {k : Nat} (h1 : s'.stage k = s.stage k) (h2 : s'.c.pc k = s.c.pc k) :
    Lin s' k = Lin s k := by
  unfold Lin
  rw [h1, h2]

theorem TInv.not_before (hi : TInv cfg out L Z req names A0 lo job F P s h) {i : Nat}
    (hans : ∀ a, s.stage i ≠ .answered a) (k : Nat) : ¬ P i k := by
  intro hp
  obtain ⟨a, ha⟩ := hi.before i k hp
  exact hans a ha

theorem Pend.other {i k : Nat} {d : Did} (he : k ≠ i) (hst : ∀ k, k ≠ i → s'.stage k = s.stage k)
    (hpc : ∀ k, k ≠ i → s'.c.pc k = s.c.pc k) (hp : Pend s' d k) : Pend s d k := by
  obtain ⟨j, a, h1, h2, h3⟩ := hp
  exact ⟨j, a, by rw [← hst k he]; exact h1, h2, by rw [← hpc k he]; exact h3⟩

/-- Nothing has taken effect. -/
theorem TInv.silent (hL : L.OK Z) (hi : TInv cfg out L Z req names A0 lo job F P s h) {i : Nat}
    (hst : ∀ k, k ≠ i → s'.stage k = s.stage k) (hpc : ∀ k, k ≠ i → s'.c.pc k = s.c.pc k)
    (hidle : s'.stage i ≠ .idle) (hans : ∀ a, s.stage i ≠ .answered a)
    (hjob : ∀ k, k ≠ i → job' k = job k) (hdid : isDid (job' i).did) (hcinv : CInv L Z job' lo s'.c)
    (hfr : Frame L s.c s'.c) (hnext : s.c.w.next ≤ s'.c.w.next) (hF : ∀ k, F k → F' k)
    (hjobs : ∀ j a, s'.stage i = .writing j a → job' i = j) (hfresh : Early (s'.stage i) → s'.c.pc i = .start)
    (hkept : Kept L Z s'.c.w (cur A0 h)) (hlin : Lin s' i = Lin s i)
    (hplan : ∀ j ans, s'.stage i = .writing j ans →
      (∀ k, Excuse cfg req names F P s h k → Excuse cfg req names F' (Extend P s') s' h k) → Stores (req i) ∧
      ∃ a x, Held cfg out L Z req names (cur A0 h) (Excuse cfg req names F' (Extend P s') s' h) s'.c i j ans a x)
    (hchecked : ∀ header inp tid, s'.stage i = .checked → req i = .createRecord header inp tid →
      ∀ A1 ans A2, ServesPut cfg L A1 header { inp with rkey := some (inp.rkey.getD tid) } ans A2 →
        Serves cfg out L A1 (req i) ans A2)
    (hpres : ∀ did change, s'.stage i = .changing → req i = .setStatus did change → cur A0 h did ≠ none)
    (hpend : ∀ d, Pend s' d i → Pend s d i ∨ Open (cur A0 h) d) (hbirth : Birth L Z s'.c.w (req i) (s'.stage i)) :
    TInv cfg out L Z req names A0 lo job' F' (Extend P s') s' h := by
  have hlin' : ∀ k a, (k, a) ∈ h.map (fun e => (e.i, e.ans)) ↔ Lin s' k = some a := by
    intro k a
    rw [hi.lin]
    by_cases he : k = i
    · subst he; rw [hlin]
    · rw [Lin.congr (hst k he) (hpc k he)]
  have hE : ∀ k, Excuse cfg req names F P s h k → Excuse cfg req names F' (Extend P s') s' h k :=
    fun k => Excuse.next hF hnext hst hidle (fun k a => (hlin' k a).1) (fun _ h => h)
  refine hi.next hL hst hpc hidle hans hjob hdid hcinv hfr hnext hF hjobs hfresh hkept hi.path hi.nodup hlin'
    (fun _ h => h) hi.order (.refl hi.named) hbirth (fun k j ans a a' p _ _ _ h1 h2 _ => ?_)
    (fun j ans hj => hplan j ans hj hE) hchecked hpres fun d hd => ?_
  · rw [h1] at h2
    cases h2
    exact .inl Iff.rfl
  · by_cases ho : Open (cur A0 h) d
    · exact .of_open ho
    · have hsub : ∀ k, Pend s' d k → Pend s d k := by
        intro k hk
        by_cases he : k = i
        · subst he; exact (hpend d hk).resolve_right ho
        · exact hk.other he hst hpc
      obtain ⟨k, hk⟩ := hd
      exact (hi.room d ⟨k, hsub k hk⟩).mono fun k hk => ⟨hsub k hk, fun _ h => h⟩

theorem TInv.not_in (hi : TInv cfg out L Z req names A0 lo job F P s h) {i : Nat} (hl : Lin s i = none) :
    i ∉ h.map (·.i) := by
  intro hm
  obtain ⟨e, he, hei⟩ := List.mem_map.1 hm
  have := (hi.lin e.i e.ans).1 (List.mem_map.2 ⟨e, he, rfl⟩)
  rw [hei, hl] at this
  cases this

theorem TInv.lin_add (hi : TInv cfg out L Z req names A0 lo job F P s h) {i : Nat} {ans : Answer C R}
    (hst : ∀ k, k ≠ i → s'.stage k = s.stage k) (hpc : ∀ k, k ≠ i → s'.c.pc k = s.c.pc k)
    (hold : Lin s i = none) (hnew : Lin s' i = some ans) (k : Nat) (a : Answer C R) :
    (k, a) ∈ (i, ans) :: h.map (fun e => (e.i, e.ans)) ↔ Lin s' k = some a := by
  rw [List.mem_cons, hi.lin]
  by_cases he : k = i
  · subst he
    rw [hnew, hold]
    constructor
    · rintro (h | h)
      · cases h; rfl
      · cases h
    · intro h; cases h; exact .inl rfl
  · rw [Lin.congr (hst k he) (hpc k he)]
    exact ⟨fun h => h.resolve_left fun h => he (Prod.mk.inj h).1, .inr⟩

/-- A request has taken effect. -/
theorem TInv.append (hL : L.OK Z) (hi : TInv cfg out L Z req names A0 lo job F P s h) {i : Nat} {ans : Answer C R}
    {A' : Accounts R}
    (hst : ∀ k, k ≠ i → s'.stage k = s.stage k) (hpc : ∀ k, k ≠ i → s'.c.pc k = s.c.pc k)
    (hans : ∀ a, s.stage i ≠ .answered a) (hcinv : CInv L Z job lo s'.c)
    (hfr : Frame L s.c s'.c) (hnext : s.c.w.next ≤ s'.c.w.next)
    (hkept : Kept L Z s'.c.w A') (hold : Lin s i = none) (hnew : s'.stage i = .answered ans ∨
      s'.stage i = .changed ∧ ans = .done)
    (hm : Tells cfg out L (Excuse cfg req names F P s h) (cur A0 h) i (req i) ans A') (ho : Fits names (req i))
    (hrec : (∀ d a a', cur A0 h d = some a → A' d = some a' → a'.records = a.records ∨
      (∀ e, ans ≠ .failed e) ∧ ∃ handle, req i = .newRepo d handle)) :
    TInv cfg out L Z req names A0 lo job F (Extend P s') s' (⟨i, ans, A'⟩ :: h) := by
  have hl : Lin s' i = some ans := by
    unfold Lin
    rcases hnew with e | ⟨e, rfl⟩ <;> rw [e]
  have hnw : ∀ j a, s'.stage i ≠ .writing j a := by
    rcases hnew with e | ⟨e, _⟩ <;> rw [e] <;> exact fun _ _ h => nomatch h
  refine hi.next hL hst hpc (Lin.not_idle hl) hans (fun _ _ => rfl) (hi.dids i) hcinv hfr hnext (fun _ h => h)
    (fun j a hj => absurd hj (hnw j a))
    (fun he => ?_) hkept ⟨hm, hi.path⟩ (List.nodup_cons.2 ⟨hi.not_in hold, hi.nodup⟩)
    (hi.lin_add hst hpc hold hl) (fun x hx => List.mem_cons_of_mem _ hx)
    (List.pairwise_cons.2 ⟨fun y _ => hi.not_before hans y.i, hi.order⟩) (tells_handles hm hi.named ho) ?_
    (fun k jk ansk a a' p hk hsk _ h1 h2 haim => ?_)
    (fun j a hj => absurd hj (hnw j a)) (fun header inp tid hc _ => ?_) (fun did ch hc _ => ?_) fun d hd => ?_
  · rcases hnew with e | ⟨e, _⟩ <;> rw [e] at he <;> exact he.elim
  · rcases hnew with e | ⟨e, _⟩ <;> rw [e] <;> trivial
  · rcases hrec _ a a' h1 h2 with hrec | ⟨hne, handle, hr⟩
    · exact .inl (by rw [hrec])
    · refine .inr (.inr (.inr ⟨i, ans, jk.did, p, Ne.symm hk, List.mem_cons_self, hne, ?_, ?_, ?_, haim,
        .inr ⟨handle, hr⟩⟩))
      · rintro (hp | ⟨⟨b, hp⟩, _⟩)
        · exact hi.not_before (by rw [hsk]; exact fun _ h => nomatch h) i hp
        · rw [hst k hk, hsk] at hp
          cases hp
      · rintro (hp | ⟨_, hp⟩)
        · exact hi.not_before hans k hp
        · rw [hst k hk, hsk] at hp
          cases hp
      · rw [hst k hk, hsk]
        exact fun h => nomatch h
  · rcases hnew with e | ⟨e, _⟩ <;> rw [e] at hc <;> cases hc
  · rcases hnew with e | ⟨e, _⟩ <;> rw [e] at hc <;> cases hc
  · have hsub : ∀ k, Pend s' d k → Pend s d k := by
      intro k hk
      by_cases he : k = i
      · subst he
        obtain ⟨j, a, h1, _⟩ := hk
        exact absurd h1 (hnw j a)
      · exact hk.other he hst hpc
    obtain ⟨k, hk⟩ := hd
    exact .inr ⟨fun k _ => hi.not_before hans k,
      (hi.room d ⟨k, hsub k hk⟩).mono fun k hk => ⟨hsub k hk, fun _ h => h⟩⟩

/-- A write that has begun takes effect, or is refused, at the end or earlier. -/
theorem TInv.insert (hL : L.OK Z) (hi : TInv cfg out L Z req names A0 lo job F P s h) {i : Nat} {j : Job R}
    {ans0 ans : Answer C R} {m : Key → Option R} {a : Account R} (hst0 : s.stage i = .writing j ans0)
    (hnd : ∀ cd, s.c.pc i ≠ .done cd) (ha : cur A0 h j.did = some a)
    (hw : ∀ (A1 : Accounts R) (a1 : Account R), A1 j.did = some a1 → a1.handle = a.handle → a1.status = none →
      a1.records = a.records →
      Serves cfg out L A1 (req i) ans (Function.update A1 j.did (some { a1 with records := m })))
    (hst : ∀ k, k ≠ i → s'.stage k = s.stage k) (hpc : ∀ k, k ≠ i → s'.c.pc k = s.c.pc k)
    (hcinv : CInv L Z job lo s'.c) (hfr : Frame L s.c s'.c) (hnext : s.c.w.next ≤ s'.c.w.next)
    (hkept : Kept L Z s'.c.w (setRec (cur A0 h) j.did m)) (hold : Lin s i = none) (hnew : Lin s' i = some ans)
    (hwr : ∀ j' ans', s'.stage i = .writing j' ans' → j' = j ∧ ans' = ans0 ∧ ∃ cd, s'.c.pc i = .done cd)
    (hrec : (∀ p, m p = none ↔ a.records p = none) ∨ s'.stage i = .writing j ans0 ∧ (∀ e, ans ≠ .failed e) ∧
      ∀ p, (m p = none ↔ a.records p = none) ∨ Aims cfg names (req i) j.did p) :
    ∃ h', TInv cfg out L Z req names A0 lo job F (Extend P s') s' h' := by
  obtain ⟨hsto, a', x, hh⟩ := hi.plan i j ans0 hst0
  have := ha.symm.trans hh.acc
  cases this
  have hans : ∀ a, s.stage i ≠ .answered a := by rw [hst0]; exact fun _ h => nomatch h
  have hnb := hi.not_before hans
  have hpend : Pend s j.did i := ⟨j, ans0, hst0, rfl, hnd⟩
  obtain ⟨h', k1, k2, k3, k4, k5⟩ := Path.insert (cfg := cfg) (out := out) (L := L) (req := req)
    (E := Excuse cfg req names F P s h) (m := m)
    (m0 := a.records) (handle := a.handle) (d := j.did) (i := i) (ans := ans) (P := P) (pend := Pend s j.did)
    hw hpend hnb hi.path (hi.room _ ⟨i, hpend⟩) hi.order a ha rfl rfl
  have hsame : Course names (cur A0 h) (cur A0 h') := by
    rw [k2, setRec_update ha]
    have := hi.named _ _ ha
    exact .update hi.named this
  have hlin : ∀ k a, (k, a) ∈ h'.map (fun e => (e.i, e.ans)) ↔ Lin s' k = some a := fun k a => by
    rw [k3.mem_iff]
    exact hi.lin_add hst hpc hold hnew k a
  have hsub : ∀ x ∈ h.map (fun e => (e.i, e.ans)), x ∈ h'.map (fun e => (e.i, e.ans)) :=
    fun x hx => k3.mem_iff.2 (List.mem_cons_of_mem _ hx)
  have hidle := Lin.not_idle hnew
  have hE : ∀ k, Excuse cfg req names F P s h k → Excuse cfg req names F (Extend P s') s' h' k :=
    fun k => Excuse.next (fun _ h => h) hnext hst hidle (fun k a => (hlin k a).1) hsub
  refine ⟨h', hi.next hL (i := i) hst hpc hidle hans (fun _ _ => rfl) (hi.dids i) hcinv hfr hnext (fun _ h => h)
    (fun j' a' hj' => ?_) (fun he => ?_) (by rw [k2]; exact hkept) k1 ?_ hlin hsub k4 hsame ?_ ?_
    (fun j' ans' hj' => ?_) (fun header inp tid hc _ => ?_) (fun did ch hc _ => ?_) fun d' hd' => ?_⟩
  · obtain ⟨rfl, rfl, _⟩ := hwr j' a' hj'
    exact hi.jobs i j' a' hst0
  · unfold Lin at hnew
    cases hs : s'.stage i <;> rw [hs] at he hnew <;> first | exact he.elim | cases hnew
  · have := (k3.map (·.1))
    simp only [List.map_cons, List.map_map] at this
    exact this.nodup_iff.2 (List.nodup_cons.2 ⟨hi.not_in hold, hi.nodup⟩)
  · unfold Lin at hnew
    cases hs : s'.stage i <;> rw [hs] at hnew <;> first | trivial | cases hnew
  · intro k jk ansk b b' p hk hsk hpk h1 h2 haim
    rw [k2] at h2
    by_cases hd : jk.did = j.did
    · rw [hd] at h1 h2 haim
      rw [setRec_eq ha] at h2
      rw [ha] at h1
      cases h1
      cases h2
      dsimp only
      rcases hrec with hrec | ⟨hwi, hne, hrec⟩
      · exact .inl (hrec p)
      · rcases hrec p with hrec | hrec
        · exact .inl hrec
        · refine .inr (.inr (.inr ⟨i, ans, j.did, p, Ne.symm hk, k3.mem_iff.2 List.mem_cons_self, hne, ?_, ?_, ?_,
            haim, .inl hrec⟩))
          · rintro (hp | ⟨⟨b, hp⟩, _⟩)
            · exact hi.not_before (by rw [hsk]; exact fun _ h => nomatch h) i hp
            · rw [hst k hk, hsk] at hp
              cases hp
          · rintro (hp | ⟨⟨b, hp⟩, _⟩)
            · exact hnb k hp
            · rw [hwi] at hp
              cases hp
          · rw [hst k hk, hsk]
            exact fun h => nomatch h
    · rw [setRec_ne hd, h1] at h2
      cases h2
      exact .inl Iff.rfl
  · obtain ⟨rfl, rfl, cd, hcd⟩ := hwr j' ans' hj'
    obtain ⟨b', h5, h6⟩ := hsame.1 _ _ ha
    refine ⟨hsto, b', x, h5, by rw [h6]; exact hh.planned, hh.aims, fun hn => absurd hcd (hn cd), ?_, ?_⟩
    · intro _ _ _ _ hl; rw [hcd] at hl; cases hl
    · intro _ hl; rw [hcd] at hl; cases hl
  · unfold Lin at hnew
    rw [hc] at hnew
    cases hnew
  · unfold Lin at hnew
    rw [hc] at hnew
    cases hnew
  · have hsub : ∀ k, Pend s' d' k → Pend s d' k := by
      intro k hk
      by_cases he : k = i
      · subst he
        obtain ⟨j', a', h1, _, h3⟩ := hk
        obtain ⟨_, _, cd, hcd⟩ := hwr j' a' h1
        exact absurd hcd (h3 cd)
      · exact hk.other he hst hpc
    obtain ⟨k, hk⟩ := hd'
    exact k5 d' _ (fun k hk => hnb k hk.2)
      ((hi.room d' ⟨k, hsub k hk⟩).mono fun k hk => ⟨hsub k hk, fun _ h => h⟩)

/-! ### The storage -/

theorem Kept.of_rows {w w' : World C R} {A : Accounts R} (hk : Kept L Z w A) (hr : w'.rows = w.rows)
    (hb : Retains L w.blocks w'.blocks) : Kept L Z w' A := by
  refine ⟨by rw [hr]; exact hk.nodup, hk.did, by rw [hr]; exact hk.missing, fun d a ha => ?_⟩
  obtain ⟨row, h1, h2, h3, h4, h5⟩ := hk.held d a ha
  exact ⟨row, by rw [hr]; exact h1, h2, h3, h4, h5.keeps hb⟩

theorem Kept.set {w w' : World C R} {A : Accounts R} (hk : Kept L Z w A) {d : Did} {row' : Row C}
    {a a' : Account R} (ha : A d = some a) (hr : w'.rows = dictSet w.rows d row') (hb : w'.blocks = w.blocks)
    (h1 : row'.handle = a'.handle) (h2 : row'.status = a'.status) (h3 : ∀ h, row'.handle = some h → ¬ isDid h)
    (h4 : Store.Holds L Z w.blocks d row'.head a'.records) : Kept L Z w' (Function.update A d (some a')) := by
  refine ⟨by rw [hr]; exact dictSet_nodup hk.nodup, fun e b hb => ?_, fun e he => ?_, fun e b hb' => ?_⟩
  · by_cases hd : e = d
    · subst hd; exact hk.did e a ha
    · rw [Function.update_of_ne hd] at hb; exact hk.did e b hb
  · by_cases hd : e = d
    · subst hd; rw [Function.update_self] at he; cases he
    · rw [Function.update_of_ne hd] at he
      rw [hr, dictGet_dictSet, if_neg hd]
      exact hk.missing e he
  · by_cases hd : e = d
    · subst hd
      rw [Function.update_self] at hb'
      cases hb'
      exact ⟨row', by rw [hr, dictGet_dictSet, if_pos rfl], h1, h2, h3, by rw [hb]; exact h4⟩
    · rw [Function.update_of_ne hd] at hb'
      obtain ⟨row, g1, g2, g3, g4, g5⟩ := hk.held e b hb'
      exact ⟨row, by rw [hr, dictGet_dictSet, if_neg hd]; exact g1, g2, g3, g4, by rw [hb]; exact g5⟩

theorem stepCall_cases {s s' : CState C R} {i nonce : Nat} (hs : stepCall L job s i nonce = some s') :
    (∀ cd, s.pc i ≠ .done cd) ∧ (∀ k, k ≠ i → s'.pc k = s.pc k) ∧
    ((s'.w.rows = s.w.rows ∧ ∀ cd, s'.pc i ≠ .done cd) ∨
      ∃ row ver cd, s.pc i = .written row ver cd ∧ s.ver (job i).did = ver ∧ s'.pc i = .done cd ∧
        s'.w.blocks = s.w.blocks ∧
        s'.w.rows = dictSet s.w.rows (job i).did { row with head := L.hash cd.commit.val }) := by
  have quiet : ∀ (s1 : CState C R) (p : Pc C R), s1.pc = s.pc → s1.w.rows = s.w.rows → (∀ cd, p ≠ .done cd) →
      s' = s1.at i p → (∀ k, k ≠ i → s'.pc k = s.pc k) ∧
      (s'.w.rows = s.w.rows ∧ ∀ cd, s'.pc i ≠ .done cd) := by
    rintro s1 p h1 h2 h3 rfl
    refine ⟨fun k hk => ?_, h2, fun cd => ?_⟩
    · show Function.update s1.pc i p k = _
      rw [Function.update_of_ne hk, h1]
    · show Function.update s1.pc i p i ≠ _
      rw [Function.update_self]
      exact h3 cd
  have fin : (∀ cd, s.pc i ≠ .done cd) → (∃ (s1 : CState C R) (p : Pc C R), s1.pc = s.pc ∧ s1.w.rows = s.w.rows ∧
      (∀ cd, p ≠ .done cd) ∧ s' = s1.at i p) → (∀ cd, s.pc i ≠ .done cd) ∧ (∀ k, k ≠ i → s'.pc k = s.pc k) ∧
    ((s'.w.rows = s.w.rows ∧ ∀ cd, s'.pc i ≠ .done cd) ∨
      ∃ row ver cd, s.pc i = .written row ver cd ∧ s.ver (job i).did = ver ∧ s'.pc i = .done cd ∧
        s'.w.blocks = s.w.blocks ∧
        s'.w.rows = dictSet s.w.rows (job i).did { row with head := L.hash cd.commit.val }) := by
    rintro hn ⟨s1, p, h1, h2, h3, h4⟩
    obtain ⟨g1, g2⟩ := quiet s1 p h1 h2 h3 h4
    exact ⟨hn, g1, .inl g2⟩
  unfold stepCall at hs
  dsimp only at hs
  cases hpc : s.pc i with
  | start =>
    rw [hpc] at hs fin
    cases hs
    exact fin (fun _ h => nomatch h) (by refine ⟨_, _, ?_, ?_, ?_, rfl⟩ <;> first | rfl | exact (fun _ h => nomatch h))
  | ready seq =>
    rw [hpc] at hs fin
    dsimp only at hs
    split at hs
    · cases hs
      exact fin (fun _ h => nomatch h) (by refine ⟨_, _, ?_, ?_, ?_, rfl⟩ <;> first | rfl | exact (fun _ h => nomatch h))
    · split at hs <;> cases hs <;>
        exact fin (fun _ h => nomatch h) (by refine ⟨_, _, ?_, ?_, ?_, rfl⟩ <;> first | rfl | exact (fun _ h => nomatch h))
  | loaded seq row ver co =>
    rw [hpc] at hs fin
    dsimp only at hs
    split at hs
    · cases hs
      exact fin (fun _ h => nomatch h) (by refine ⟨_, _, ?_, ?_, ?_, rfl⟩ <;> first | rfl | exact (fun _ h => nomatch h))
    · split at hs <;> cases hs <;>
        exact fin (fun _ h => nomatch h) (by refine ⟨_, _, ?_, ?_, ?_, rfl⟩ <;> first | rfl | exact (fun _ h => nomatch h))
  | applied seq row ver st =>
    rw [hpc] at hs fin
    dsimp only at hs
    split at hs <;> cases hs <;>
      exact fin (fun _ h => nomatch h) (by refine ⟨_, _, ?_, ?_, ?_, rfl⟩ <;> first | rfl | exact (fun _ h => nomatch h))
  | built row ver cd =>
    rw [hpc] at hs fin
    cases hs
    exact fin (fun _ h => nomatch h) (by refine ⟨_, _, ?_, ?_, ?_, rfl⟩ <;> first | rfl | exact (fun _ h => nomatch h))
  | queried row ver cd new =>
    rw [hpc] at hs fin
    cases hs
    exact fin (fun _ h => nomatch h) (by refine ⟨_, _, ?_, ?_, ?_, rfl⟩ <;> first | rfl | exact (fun _ h => nomatch h))
  | written row ver cd =>
    rw [hpc] at hs
    dsimp only at hs
    split at hs
    · rename_i hv
      cases hs
      refine ⟨fun _ h => (nomatch h), fun k hk => ?_, .inr ⟨row, ver, cd, rfl, hv, ?_, rfl, rfl⟩⟩
      · exact Function.update_of_ne hk _ _
      · exact Function.update_self _ _ _
    · cases hs
  | done cd => rw [hpc] at hs; cases hs
  | failed e => rw [hpc] at hs; cases hs

theorem stepCall_congr {s : CState C R} {i nonce : Nat} (hj : job i = job' i) :
    stepCall L job s i nonce = stepCall L job' s i nonce := by
  unfold stepCall
  rw [hj]

/-- A call that goes back or fails. -/
theorem quiet_cases {s s' : CState C R} {i : Nat} {p : Pc C R} (hs : s' = s.at i p) (hp : ∀ cd, p ≠ .done cd) :
    (∀ k, k ≠ i → s'.pc k = s.pc k) ∧ s'.w = s.w ∧ ∀ cd, s'.pc i ≠ .done cd := by
  subst hs
  refine ⟨fun k hk => Function.update_of_ne hk _ _, rfl, fun cd => ?_⟩
  show Function.update s.pc i p i ≠ _
  rw [Function.update_self]
  exact hp cd

theorem abortCall_cases {s s' : CState C R} {i : Nat} (hs : abortCall s i = some s') :
    (∀ cd, s.pc i ≠ .done cd) ∧ (∀ k, k ≠ i → s'.pc k = s.pc k) ∧ s'.w = s.w ∧ (∀ cd, s'.pc i ≠ .done cd) ∧
      ∃ seq, s'.pc i = .ready seq := by
  unfold abortCall at hs
  cases hpc : s.pc i <;> rw [hpc] at hs <;> cases hs <;>
    (refine ⟨fun _ h => (nomatch h), (quiet_cases rfl ?_).1, (quiet_cases rfl ?_).2.1, (quiet_cases rfl ?_).2.2, _,
       Function.update_self _ _ _⟩ <;> exact fun _ h => (nomatch h))

theorem failCall_cases {s s' : CState C R} {i : Nat} {e : Err} (hs : failCall s i e = some s') :
    (∀ cd, s.pc i ≠ .done cd) ∧ (∀ k, k ≠ i → s'.pc k = s.pc k) ∧ s'.w = s.w ∧ (∀ cd, s'.pc i ≠ .done cd) ∧
      s'.pc i = .failed e := by
  unfold failCall at hs
  cases hpc : s.pc i <;> rw [hpc] at hs <;> cases hs <;>
    (refine ⟨fun _ h => (nomatch h), (quiet_cases rfl ?_).1, (quiet_cases rfl ?_).2.1, (quiet_cases rfl ?_).2.2,
       Function.update_self _ _ _⟩ <;> exact fun _ h => (nomatch h))

theorem CInv.rejob {s : CState C R} (hc : CInv L Z job lo s) {i : Nat} (hi : s.pc i = .start)
    (hj : ∀ k, k ≠ i → job' k = job k) : CInv L Z job' lo s := by
  refine ⟨hc.addr, hc.store, hc.rows, fun k => ?_, hc.next, hc.seqs, hc.distinct, hc.finished, hc.once⟩
  by_cases he : k = i
  · subst he; rw [hi]; trivial
  · rw [hj k he]; exact hc.pcs k

theorem stepCall_next {s s' : CState C R} {i nonce : Nat} (hs : stepCall L job s i nonce = some s') :
    s.w.next ≤ s'.w.next := by
  unfold stepCall at hs
  dsimp only at hs
  cases hpc : s.pc i <;> rw [hpc] at hs <;> dsimp only at hs
  case start =>
    cases hs
    obtain ⟨_, a2, _⟩ := alloc_fresh s.w
    show s.w.next ≤ s.w.alloc.2.next
    omega
  all_goals (repeat' split at hs) <;> first | (cases hs; exact le_refl _) | cases hs

/-- How a commit of one write comes to read the repo, or fails. -/
theorem stepCall_one (hL : L.OK Z) {s s' : CState C R} (hc : CInv L Z job lo s) (hd : ∀ i, isDid (job i).did)
    {i nonce : Nat} {x : Write R} (hx : (job i).writes = [x]) {row0 : Row C}
    (hrow : dictGet s.w.rows (job i).did = some row0) (hs : stepCall L job s i nonce = some s') :
    (∀ seq row ver co, s'.pc i = .loaded seq row ver co → row = row0) ∧
    ∀ e, s'.pc i = .failed e → 32 ^ 11 < s.w.next ∨ ∃ seq row ver co m, s.pc i = .loaded seq row ver co ∧
      Store.Holds L Z s.w.blocks (job i).did row.head m ∧ specWrite L m x = .error e := by
  have fin : ∀ (s1 : CState C R) (p : Pc C R), s' = s1.at i p →
      (∀ seq row ver co, p ≠ .loaded seq row ver co) → (∀ e, p ≠ .failed e) →
      (∀ seq row ver co, s'.pc i = .loaded seq row ver co → row = row0) ∧
      ∀ e, s'.pc i = .failed e → 32 ^ 11 < s.w.next ∨ ∃ seq row ver co m, s.pc i = .loaded seq row ver co ∧
        Store.Holds L Z s.w.blocks (job i).did row.head m ∧ specWrite L m x = .error e := by
    rintro s1 p rfl h1 h2
    have : (s1.at i p).pc i = p := Function.update_self _ _ _
    rw [this]
    exact ⟨fun a b c d h => absurd h (h1 a b c d), fun e h => absurd h (h2 e)⟩
  have hp := hc.pcs i
  have hq := hc.seqs i
  unfold stepCall at hs
  dsimp only at hs
  cases hpc : s.pc i with
  | start =>
    rw [hpc] at hs
    cases hs
    rw [hpc] at fin
    exact fin _ _ rfl (fun _ _ _ _ h => (nomatch h)) (fun _ h => (nomatch h))
  | ready seq =>
    rw [hpc] at hs
    dsimp only at hs
    rw [findRow_did (fun d row hr => (hc.rows d row hr).1) (hd i), hrow] at hs
    dsimp only at hs
    obtain ⟨_, m, hm⟩ := hc.rows _ _ (dictGet_mem hrow)
    obtain ⟨b, co, hcm, _⟩ := hm.commitAt hL hc.addr
    rw [hcm] at hs
    cases hs
    have : (s.at i (.loaded seq row0 (s.ver (job i).did) co)).pc i = .loaded seq row0 (s.ver (job i).did) co :=
      Function.update_self _ _ _
    rw [this]
    exact ⟨fun _ _ _ _ h => by cases h; rfl, fun _ h => nomatch h⟩
  | loaded seq row ver co =>
    rw [hpc] at hs hp
    dsimp only at hs
    obtain ⟨h1, h2, h3, m, h4⟩ := hp
    obtain ⟨l, t, g1, g2, g3⟩ := (h4.root hc.addr).2.load
    have hl : LoopOK L Z s.w.blocks seq (job i).did ⟨Arroba.load co.data, [], []⟩ m :=
      ⟨⟨l, t, g1⟩, by simp, fun k r' hk => .inl (g2.recs k r' hk)⟩
    have hws := hl.writes hL (ws := (job i).writes)
    rw [hx, if_neg (by simp [maxOps]), show s.w.rd = nodeIn s.w.blocks from rfl] at hs
    rw [hx, specWrites_one] at hws
    cases hsw : specWrite L m x with
    | error e =>
      rw [hsw] at hws
      obtain ⟨n, hn, _⟩ := hws
      rw [hn] at hs
      cases hs
      have : (s.at i (.failed e)).pc i = .failed e := Function.update_self _ _ _
      rw [this]
      refine ⟨fun _ _ _ _ h => (nomatch h), fun e' h => .inr ⟨seq, row, ver, co, m, rfl, ⟨co, h2, h3, h4⟩, ?_⟩⟩
      cases h
      exact hsw
    | ok m' =>
      rw [hsw] at hws
      obtain ⟨st, hn, _⟩ := hws
      rw [hn] at hs
      cases hs
      rw [hpc] at fin
      exact fin _ _ rfl (fun _ _ _ _ h => (nomatch h)) (fun _ h => (nomatch h))
  | applied seq row ver st =>
    rw [hpc] at hs hp hq
    dsimp only at hs
    obtain ⟨_, m, m', _, _, _, _, hl⟩ := hp
    obtain ⟨_, hlt⟩ := hq seq rfl
    cases hb : buildCommit L s.w.rd st row.key nonce seq (job i).did (some row.head) with
    | ok cd =>
      rw [hb] at hs
      cases hs
      rw [hpc] at fin
      exact fin _ _ rfl (fun _ _ _ _ h => (nomatch h)) (fun _ h => (nomatch h))
    | error e =>
      rw [hb] at hs
      cases hs
      have : (s.at i (.failed e)).pc i = .failed e := Function.update_self _ _ _
      rw [this]
      refine ⟨fun _ _ _ _ h => (nomatch h), fun e' _ => .inl ?_⟩
      by_contra hn
      obtain ⟨rev, hrev⟩ := intToTid_ok (seq := seq) (by omega)
      obtain ⟨l, t, hi⟩ := hl.inv
      have hbd := hi.bound
      have hfu := hL.fuel
      obtain ⟨bl, hu1, hu2⟩ := getUnstoredBlocks_spec hi.repr hi.wf hi.valid (f := L.fuel) (by omega)
      unfold buildCommit at hb
      rw [show s.w.rd = nodeIn s.w.blocks from rfl, hu1, ok_bind] at hb
      dsimp only at hb
      unfold signedCommit at hb
      rw [hrev] at hb
      cases hb
  | built row ver cd =>
    rw [hpc] at hs
    cases hs
    rw [hpc] at fin
    exact fin _ _ rfl (fun _ _ _ _ h => (nomatch h)) (fun _ h => (nomatch h))
  | queried row ver cd new =>
    rw [hpc] at hs
    cases hs
    rw [hpc] at fin
    exact fin _ _ rfl (fun _ _ _ _ h => (nomatch h)) (fun _ h => (nomatch h))
  | written row ver cd =>
    rw [hpc] at hs
    dsimp only at hs
    split at hs
    · cases hs
      rw [hpc] at fin
      exact fin _ _ rfl (fun _ _ _ _ h => (nomatch h)) (fun _ h => (nomatch h))
    · cases hs
  | done cd => rw [hpc] at hs; cases hs
  | failed e => rw [hpc] at hs; cases hs

theorem specWrite_other {m m' : Key → Option R} {x : Write R} (h : specWrite L m x = .ok m') {p : Key}
    (hp : p ≠ x.path) : m' p = m p := by
  unfold specWrite at h
  repeat' split at h
  all_goals first | cases h; exact Function.update_of_ne hp _ _ | cases h

theorem Kept.grammar (hL : L.OK Z) {w : World C R} {A : Accounts R} (ha : Addressed L w.blocks) {d : Did} {c : C}
    {m : Key → Option R} (h : Store.Holds L Z w.blocks d c m) : ∀ k, m k ≠ none → KeyGrammar k := by
  obtain ⟨o, _, _, _, _, k5⟩ := holds_object hL ha h (handle := none) (fun _ h => nomatch h) none 0 false
  exact (ObjRep.shows hL (w := w) k5).paths

/-- The transaction of a commit has succeeded. -/
theorem TInv.committed (hL : L.OK Z) (hi : TInv cfg out L Z req names A0 lo job F P s h) {i : Nat} {j : Job R}
    {ans : Answer C R} (hst : s.stage i = .writing j ans) {c : CState C R} (hs' : s' = ⟨c, s.stage⟩)
    (hcinv : CInv L Z job lo c) (hfr : Frame L s.c c) (hnext : s.c.w.next ≤ c.w.next)
    (hpc : ∀ k, k ≠ i → c.pc k = s.c.pc k) {row : Row C} {ver : Nat}
    {cd : CommitData C R} (hp : s.c.pc i = .written row ver cd) (hv : s.c.ver (job i).did = ver)
    (hd : c.pc i = .done cd) (hb : c.w.blocks = s.c.w.blocks)
    (hr : c.w.rows = dictSet s.c.w.rows (job i).did { row with head := L.hash cd.commit.val }) :
    ∃ h', TInv cfg out L Z req names A0 lo job F (Extend P s') s' h' := by
  subst hs'
  have hj := hi.jobs i j ans hst
  obtain ⟨hsto, a, x, hh⟩ := hi.plan i j ans hst
  have ha := hh.acc
  have hok := hi.cinv.pcs i
  rw [hp, hj] at hok
  rw [hj] at hv hr
  obtain ⟨hsn, m1, m2, co, e1, e2, e3, e4, e5, e6, e7, e8, e9⟩ := hok
  have hrow := hsn.2 hv.symm
  obtain ⟨row', g1, g2, g3, g4, g5⟩ := hi.kept.held j.did a ha
  rw [hrow] at g1
  cases g1
  have := e1.unique hL hi.cinv.addr hi.cinv.addr g5
  subst this
  have hg := Kept.grammar hL (A := A0) hi.cinv.addr g5
  have hnd : ∀ cd, s.c.pc i ≠ .done cd := by rw [hp]; exact fun _ h => nomatch h
  have hx : specWrite L a.records x = .ok m2 := by rw [← specWrites_one, ← hh.planned.writes]; exact e2
  obtain ⟨b, hb', hbh⟩ : ∃ A1 : Accounts R, ∃ a1 : Account R, A1 j.did = some a1 ∧ a1.handle = a.handle ∧
      a1.status = none ∧ a1.records = a.records :=
    ⟨fun _ => some { a with status := none }, _, rfl, rfl, rfl, rfl⟩
  have hne : ∀ e, ans ≠ .failed e :=
    (hh.planned.accepts b hb' m2 hbh.1 hbh.2.1 hbh.2.2.1 (by rw [hbh.2.2.2]; exact hg)
      (by rw [hbh.2.2.2]; exact e2)).1
  refine hi.insert hL (s' := ⟨c, s.stage⟩) (ans := ans) (m := m2) hst hnd ha
    (fun A1 a1 h1 h2 h3 h4 => (hh.planned.accepts A1 a1 m2 h1 h2 h3 (by rw [h4]; exact hg) (by rw [h4]; exact e2)).2)
    (fun _ _ => rfl) hpc hcinv hfr hnext ?_ (by unfold Lin; rw [hst, hp]) (by unfold Lin; dsimp only; rw [hst, hd])
    (fun j' ans' hj' => ?_) (.inr ⟨hst, hne, fun p => ?_⟩)
  · rw [setRec_update ha]
    exact hi.kept.set ha hr hb g2 g3 g4 ⟨co, by rw [e4], e5, e9⟩
  · dsimp only at hj'
    rw [hst] at hj'
    cases hj'
    exact ⟨rfl, rfl, cd, hd⟩
  · by_cases hpx : p = x.path
    · subst hpx; exact .inr hh.aims
    · rw [specWrite_other hx hpx]
      exact .inl Iff.rfl

/-- Steps of a commit that don't take effect. -/
theorem TInv.waits (hL : L.OK Z) (hi : TInv cfg out L Z req names A0 lo job F P s h) {i : Nat} {j : Job R}
    {ans : Answer C R} (hst : s.stage i = .writing j ans) {c : CState C R} (hs' : s' = ⟨c, s.stage⟩)
    (hcinv : CInv L Z job lo c) (hfr : Frame L s.c c) (hnext : s.c.w.next ≤ c.w.next) (hF : ∀ k, F k → F' k)
    (h1 : ∀ cd, s.c.pc i ≠ .done cd) (hpc : ∀ k, k ≠ i → c.pc k = s.c.pc k)
    (h2 : ∀ cd, c.pc i ≠ .done cd) (hr : c.w.rows = s.c.w.rows)
    (hl : ∀ seq row ver co, c.pc i = .loaded seq row ver co → dictGet s.c.w.rows j.did = some row)
    (he : ∀ x, j.writes = [x] → ∀ e, c.pc i = .failed e → F' i ∨ 32 ^ 11 < s.c.w.next ∨
      ∃ seq row ver co m, s.c.pc i = .loaded seq row ver co ∧
      Store.Holds L Z s.c.w.blocks j.did row.head m ∧ specWrite L m x = .error e) :
    TInv cfg out L Z req names A0 lo job F' (Extend P s') s' h := by
  subst hs'
  refine hi.silent hL (i := i) (fun _ _ => rfl) hpc (by dsimp only; rw [hst]; exact fun h => nomatch h)
    (by rw [hst]; exact fun _ h => nomatch h) (fun _ _ => rfl) (hi.dids i) hcinv hfr hnext hF
    (fun j' a' hj' => hi.jobs i j' a' hj')
    (fun he => ?_) (hi.kept.of_rows hr hfr.keeps) ?_ (fun j' ans' hj' hE => ?_)
    (fun header inp tid hc hr => hi.checked i header inp tid hc hr)
    (fun did ch hc hr => hi.present i did ch hc hr) (fun d hd => .inl ?_) (by dsimp only; rw [hst]; trivial)
  · dsimp only at he
    rw [hst] at he
    exact he.elim
  · unfold Lin
    dsimp only
    rw [hst]
    cases hc : c.pc i <;> cases hp : s.c.pc i <;> first | rfl | exact absurd hc (h2 _) | exact absurd hp (h1 _)
  · dsimp only at hj'
    rw [hst] at hj'
    cases hj'
    obtain ⟨k1, a, x, hh⟩ := hi.plan i j ans hst
    refine ⟨k1, a, x, hh.acc, hh.planned, hh.aims, fun _ => (hh.same h1).imp_right (hE i), ?_, ?_⟩
    · intro seq row ver co hc m hm
      obtain ⟨row', g1, _, _, _, g5⟩ := hi.kept.held j.did a hh.acc
      rw [hl seq row ver co hc] at g1
      cases g1
      have := hm.unique hL hfr.addr hfr.addr (g5.keeps hfr.keeps)
      subst this
      exact (hh.same h1).imp_right (hE i)
    · intro e hc
      rcases he x hh.planned.writes e hc with h | h | ⟨seq, row, ver, co, m, g1, g2, g3⟩
      · exact .inl (.inl h)
      · exact .inl (.inr (.inl (lt_of_lt_of_le h hnext)))
      · rcases hh.got seq row ver co g1 m g2 with h | h
        · exact .inr (hh.planned.refuses m e (Kept.grammar hL (A := A0) hi.cinv.addr g2) g3 h)
        · exact .inl (hE i h)
  · obtain ⟨j', a', g1, g2, _⟩ := hd
    exact ⟨j', a', g1, g2, h1⟩

theorem TState.to_other (i : Nat) (p : Stage C R) : ∀ k, k ≠ i → (s.to i p).stage k = s.stage k :=
  fun _ hk => Function.update_of_ne hk _ _

theorem TState.to_self (i : Nat) (p : Stage C R) : (s.to i p).stage i = p := Function.update_self _ _ _

/-- A request that has read. -/
theorem TInv.reads (hL : L.OK Z) (hi : TInv cfg out L Z req names A0 lo job F P s h) {i : Nat} (he : Early (s.stage i))
    (hfit : Fits names (req i)) {p : Stage C R} (hsto : ∀ j a, p = .writing j a → Stores (req i))
    (hp : PlanOK (cur A0 h) L (fun A1 => Serves cfg out L A1 (req i)) (Aims cfg names (req i)) p) :
    ∃ job' h', TInv cfg out L Z req names A0 lo job' F (Extend P (s.to i p)) (s.to i p) h' := by
  have hpc := hi.fresh i he
  have hans : ∀ a, s.stage i ≠ .answered a := by
    intro a ha; rw [ha] at he; exact he
  have hl : Lin s i = none := by
    unfold Lin
    rw [hpc]
    cases hst : s.stage i <;> rw [hst] at he <;> first | rfl | exact he.elim
  cases p with
  | answered ans =>
    exact ⟨job, _, hi.append hL (TState.to_other i _) (fun _ _ => rfl) hans hi.cinv
      (.same hi.cinv.addr rfl rfl rfl rfl) (le_refl _) hi.kept hl (.inl (TState.to_self i _)) (.inl hp) hfit
      fun d a a' h1 h2 => .inl (by rw [h1] at h2; cases h2; rfl)⟩
  | writing j ans =>
    obtain ⟨a, x, h1, h2, h3, h4, h5, h6⟩ := hp
    refine ⟨Function.update job i j, h, hi.silent hL (TState.to_other i _) (fun _ _ => rfl)
      (by rw [TState.to_self]; exact fun h => nomatch h) hans (fun k hk => Function.update_of_ne hk _ _)
      (by rw [Function.update_self]; exact h3) (CInv.rejob hi.cinv hpc fun k hk => Function.update_of_ne hk _ _)
      (.same hi.cinv.addr rfl rfl rfl rfl) (le_refl _) (fun _ h => h)
      (fun j' a' hj' => ?_) (fun he => ?_) hi.kept ?_ (fun j' ans' hj' _ => ?_) (fun _ _ _ hc _ => ?_)
      (fun _ _ hc _ => by rw [TState.to_self] at hc; cases hc) (fun d hd => .inr ?_) (by rw [TState.to_self]; trivial)⟩
    · rw [TState.to_self] at hj'
      cases hj'
      exact Function.update_self _ _ _
    · rw [TState.to_self] at he; exact he.elim
    · rw [hl]
      unfold Lin
      rw [TState.to_self, show (s.to i (.writing j ans)).c.pc i = .start from hpc]
    · rw [TState.to_self] at hj'
      cases hj'
      have hp' : (s.to i (.writing j ans)).c.pc i = .start := hpc
      refine ⟨hsto _ _ rfl, a, x, h1, h4, h6, fun _ => .inl h5, ?_, ?_⟩
      · intro _ _ _ _ hc; rw [hp'] at hc; cases hc
      · intro _ hc; rw [hp'] at hc; cases hc
    · rw [TState.to_self] at hc
      cases hc
    · obtain ⟨j', a', g1, g2, _⟩ := hd
      rw [TState.to_self] at g1
      cases g1
      subst g2
      exact ⟨a, h1, h2⟩
  | _ => exact hp.elim

/-- A request that only moves on. -/
theorem TInv.moves (hL : L.OK Z) (hi : TInv cfg out L Z req names A0 lo job F P s h) {i : Nat} (he : Early (s.stage i)) {p : Stage C R}
    (hp : p = .arrived ∨ (p = .changing ∧ ∀ did change, req i = .setStatus did change → cur A0 h did ≠ none) ∨ p = .checked ∧ ∀ header inp tid, req i = .createRecord header inp tid →
      ∀ A1 ans A2, ServesPut cfg L A1 header { inp with rkey := some (inp.rkey.getD tid) } ans A2 →
        Serves cfg out L A1 (req i) ans A2) :
    TInv cfg out L Z req names A0 lo job F (Extend P (s.to i p)) (s.to i p) h := by
  have hpc := hi.fresh i he
  have hl : Lin s i = none := by
    unfold Lin
    rw [hpc]
    cases hst : s.stage i <;> rw [hst] at he <;> first | rfl | exact he.elim
  refine hi.silent hL (TState.to_other i _) (fun _ _ => rfl) ?_ (fun a ha => by rw [ha] at he; exact he)
    (fun _ _ => rfl) (hi.dids i) hi.cinv (.same hi.cinv.addr rfl rfl rfl rfl) (le_refl _) (fun _ h => h)
    (fun j a hj => ?_) (fun _ => hpc) hi.kept ?_ (fun j a hj _ => ?_)
    (fun header inp tid hc hr => ?_) (fun did ch hc hr => ?_) (fun d hd => ?_) ?_
  · rw [TState.to_self]
    rcases hp with rfl | ⟨rfl, _⟩ | ⟨rfl, _⟩ <;> exact fun h => nomatch h
  · rw [TState.to_self] at hj
    rcases hp with rfl | ⟨rfl, _⟩ | ⟨rfl, _⟩ <;> cases hj
  · rw [hl]
    unfold Lin
    rw [TState.to_self]
    rcases hp with rfl | ⟨rfl, _⟩ | ⟨rfl, _⟩ <;> rfl
  · rw [TState.to_self] at hj
    rcases hp with rfl | ⟨rfl, _⟩ | ⟨rfl, _⟩ <;> cases hj
  · rw [TState.to_self] at hc
    rcases hp with rfl | ⟨rfl, _⟩ | ⟨rfl, hp⟩
    · cases hc
    · cases hc
    · exact hp header inp tid hr
  · rw [TState.to_self] at hc
    rcases hp with rfl | ⟨rfl, hp⟩ | ⟨rfl, _⟩
    · cases hc
    · exact hp did ch hr
    · cases hc
  · obtain ⟨j', a', g1, _⟩ := hd
    rw [TState.to_self] at g1
    rcases hp with rfl | ⟨rfl, _⟩ | ⟨rfl, _⟩ <;> cases g1
  · rw [TState.to_self]
    rcases hp with rfl | ⟨rfl, _⟩ | ⟨rfl, _⟩ <;> trivial

/-- A request that has taken effect answers. -/
theorem TInv.replies (hL : L.OK Z) (hi : TInv cfg out L Z req names A0 lo job F P s h) {i : Nat} {ans : Answer C R} {c : CState C R}
    (hl : Lin s i = some ans) (hans : ∀ a, s.stage i ≠ .answered a) (hs' : s' = TState.to ⟨c, s.stage⟩ i (.answered ans))
    (hcinv : CInv L Z job lo c) (hfr : Frame L s.c c) (hnext : s.c.w.next ≤ c.w.next) (hpc : ∀ k, k ≠ i → c.pc k = s.c.pc k)
    (hr : c.w.rows = s.c.w.rows) :
    TInv cfg out L Z req names A0 lo job F (Extend P s') s' h := by
  subst hs'
  have hst : (TState.to ⟨c, s.stage⟩ i (.answered ans)).stage i = .answered ans := Function.update_self _ _ _
  refine hi.silent hL (i := i) (fun k hk => Function.update_of_ne hk _ _) hpc (by rw [hst]; exact fun h => nomatch h) hans
    (fun _ _ => rfl) (hi.dids i) hcinv hfr hnext (fun _ h => h) (fun j a hj => ?_) (fun he => ?_)
    (hi.kept.of_rows hr hfr.keeps) ?_ (fun j a hj _ => ?_) (fun _ _ _ hc _ => ?_) (fun _ _ hc _ => ?_)
    (fun d hd => ?_) (by rw [hst]; trivial)
  · rw [hst] at hj; cases hj
  · rw [hst] at he; exact he.elim
  · rw [hl]
    unfold Lin
    rw [hst]
  · rw [hst] at hj; cases hj
  · rw [hst] at hc; cases hc
  · rw [hst] at hc; cases hc
  · obtain ⟨j', a', g1, _⟩ := hd
    rw [hst] at g1; cases g1

theorem TInv.weaken (hi : TInv cfg out L Z req names A0 lo job F P s h) (hF : ∀ k, F k → F' k) :
    TInv cfg out L Z req names A0 lo job F' P s h := by
  have hE : ∀ k, Excuse cfg req names F P s h k → Excuse cfg req names F' P s h k := fun k he => he.imp_left (hF k)
  refine ⟨hi.dids, hi.cinv, hi.jobs, hi.fresh, hi.kept, hi.path.mono hE, hi.nodup, hi.lin, hi.order,
    fun i j ans hs => ?_, hi.checked, hi.room, hi.before, hi.present, hi.named, hi.birth⟩
  obtain ⟨h1, a, x, hh⟩ := hi.plan i j ans hs
  exact ⟨h1, a, x, hh.acc, hh.planned, hh.aims, fun hn => (hh.same hn).imp_right (hE i),
    fun seq row ver co hl m hm => (hh.got seq row ver co hl m hm).imp_right (hE i),
    fun e he => (hh.why e he).imp_left (hE i)⟩

theorem storeEvent_next (c : CState C R) (d : Did) (kind : EventKind C) (time : Nat) :
    c.w.next ≤ (storeEvent L c d kind time).w.next := by
  obtain ⟨_, a2, _⟩ := alloc_fresh c.w
  show c.w.next ≤ c.w.alloc.2.next
  omega

/-! ### New repos -/

theorem CInv.beside {s s' : CState C R} (h : CInv L Z job lo s) (hf : Frame L s s') (hpc : s'.pc = s.pc)
    (hlog : s'.log = s.log) (hstore : StoreOK L.env (nodeIn s'.w.blocks))
    (hrows : ∀ d row, (d, row) ∈ s'.w.rows → (∀ h, row.handle = some h → ¬ isDid h) ∧
      ∃ m, Store.Holds L Z s'.w.blocks d row.head m) (hnext : s.w.next ≤ s'.w.next) : CInv L Z job lo s' := by
  refine h.change hf (i := 0) (p := s.pc 0) (fun k => ?_) hstore hrows ((h.pcs 0).frame h.addr hf) hnext
    (fun n hn => .inl hn) (.inl ⟨hlog, fun _ h => h⟩)
  rw [hpc]
  split
  · rename_i he; subst he; rfl
  · rfl

theorem CInv.overwrites (hL : L.OK Z) {c : CState C R} (h : CInv L Z job lo c) {new : List (Block C R)}
    {co : Commit C} {m : Key → Option R} (hp : Pending L Z c.w.blocks (new.map (·.val)) co m) {c' : CState C R}
    (hc : c' = { c with w := { c.w with blocks := overwrite L c.w.blocks new } }) :
    CInv L Z job lo c' ∧ Frame L c c' ∧ Pending L Z c'.w.blocks [] co m := by
  subst hc
  have hhas := fun v => has_overwrite hL.inj new (blocks := c.w.blocks) v
  have hk : Retains L c.w.blocks (overwrite L c.w.blocks new) := fun v hv => (hhas v).2 (.inl hv)
  have ha := h.addr.overwrite new
  have hf : Frame L c { c with w := { c.w with blocks := overwrite L c.w.blocks new } } :=
    ⟨ha, hk, fun _ => le_refl _, fun _ _ => rfl, fun _ h => h⟩
  refine ⟨CInv.beside h hf rfl rfl ?_ (fun d row hr => ?_) (le_refl _), hf,
    hp.move (fun v hv => .inl ((hhas v).2 hv)) (by simp)⟩
  · show StoreOK L.env (nodeIn (overwrite L c.w.blocks new))
    rw [storeOK_iff ha]
    intro d hd e he
    rcases (hhas _).1 hd with hd | hd
    · obtain ⟨d', g1, g2⟩ := (storeOK_iff h.addr).1 h.store d hd e he
      exact ⟨d', g1, hk _ g2⟩
    · obtain ⟨d', g1, g2⟩ := hp.kids d hd e he
      exact ⟨d', g1, (hhas _).2 g2⟩
  · obtain ⟨g1, m, g2⟩ := h.rows d row hr
    exact ⟨g1, m, g2.keeps hk⟩

theorem CInv.putRow {c : CState C R} (h : CInv L Z job lo c) {did : Did} {row : Row C}
    (hh : ∀ h, row.handle = some h → ¬ isDid h) {m : Key → Option R}
    (hm : Store.Holds L Z c.w.blocks did row.head m) :
    CInv L Z job lo (putRow c did row) ∧ Frame L c (putRow c did row) := by
  have hf : Frame L c (Xrpc.putRow c did row) := by
    refine ⟨h.addr, .refl _, fun d' => ?_, fun d' hd => ?_, fun x hx => hx⟩
    · simp only [Xrpc.putRow, Function.update_apply]
      split
      · rename_i he; rw [he]; omega
      · exact le_refl _
    · simp only [Xrpc.putRow, Function.update_apply] at hd ⊢
      split at hd
      · rename_i he; rw [he] at hd; omega
      · rename_i he
        rw [dictGet_dictSet, if_neg he]
  refine ⟨CInv.beside h hf rfl rfl h.store (fun d' row' hr' => ?_) (le_refl _), hf⟩
  rcases mem_dictSet hr' with he | hr'
  · cases he
    exact ⟨hh, m, hm⟩
  · exact h.rows d' row' hr'

theorem firstCommit_ok (hL : L.OK Z) {c : CState C R} (h : CInv L Z job lo c) {did : Did} {key nonce seq : Nat} :
    (∃ cd co, firstCommit L c.w did key nonce seq = .ok cd ∧ cd.commit.val = .commit co ∧ co.did = did ∧
      cd.commit.seq = seq ∧ (∀ x ∈ cd.blocks, x.1 = L.hash x.2.val) ∧
      Pending L Z c.w.blocks (cd.blocks.map (·.2.val)) co (fun _ => none)) ∨
    ∃ e, firstCommit L c.w did key nonce seq = .error e ∧ 32 ^ 11 ≤ seq := by
  obtain ⟨root, h1, h2⟩ := create_root hL c.w.rd
  have hl : LoopOK L Z c.w.blocks seq did ⟨root, [], []⟩ (fun _ => none) :=
    ⟨⟨0, nil, h2⟩, by simp, fun k r hk => nomatch hk⟩
  unfold firstCommit
  rw [h1, ok_bind]
  cases hb : buildCommit L c.w.rd ⟨root, [], []⟩ key nonce seq did none with
  | ok cd =>
    obtain ⟨co, g1, g2, _, _, _, _, g7, g8⟩ := buildCommit_pending hL h.addr h.store hl hb
    exact .inl ⟨cd, co, rfl, by rw [g1], g2, by rw [g1], fun x hx => (g7 x hx).1, g8⟩
  | error e =>
    refine .inr ⟨e, rfl, ?_⟩
    by_contra hn
    obtain ⟨rev, hrev⟩ := intToTid_ok (seq := seq) (by omega)
    have hbd := h2.bound
    have hfu := hL.fuel
    obtain ⟨bl, hu1, hu2⟩ := getUnstoredBlocks_spec h2.repr h2.wf h2.valid (f := L.fuel) (by omega)
    unfold buildCommit at hb
    rw [hu1, ok_bind] at hb
    dsimp only at hb
    unfold signedCommit at hb
    rw [hrev] at hb
    cases hb

/-- `Repo.create` is in progress. -/
def Labour : Stage C R → Prop
  | .creating _ | .made _ _ | .asked _ _ _ | .stored _ _ _ => True
  | _ => False

theorem Labour.quiet {i : Nat} (h : s.stage i = .arrived ∨ Labour (s.stage i)) :
    (∀ a, s.stage i ≠ .answered a) ∧ Lin s i = none := by
  unfold Lin
  cases hs : s.stage i <;> rw [hs] at h <;> first
    | exact ⟨(fun _ h => nomatch h), rfl⟩
    | exact (h.elim (fun h => nomatch h) (fun h => h)).elim

/-- A step of `Repo.create` before the last one. -/
theorem TInv.labours (hL : L.OK Z) (hi : TInv cfg out L Z req names A0 lo job F P s h) {i : Nat}
    (hst : s.stage i = .arrived ∨ Labour (s.stage i)) {c : CState C R} {p : Stage C R}
    (hs' : s' = TState.to ⟨c, s.stage⟩ i p) (hcinv : CInv L Z job lo c) (hfr : Frame L s.c c)
    (hnext : s.c.w.next ≤ c.w.next) (hpc : c.pc = s.c.pc) (hr : c.w.rows = s.c.w.rows) (hp : Labour p)
    (hb : Birth L Z c.w (req i) p) : TInv cfg out L Z req names A0 lo job F (Extend P s') s' h := by
  obtain ⟨hans, hl⟩ := Labour.quiet hst
  subst hs'
  have hself : (TState.to ⟨c, s.stage⟩ i p).stage i = p := Function.update_self _ _ _
  refine hi.silent hL (i := i) (fun k hk => Function.update_of_ne hk _ _) (fun k _ => congrFun hpc k) ?_ hans
    (fun _ _ => rfl) (hi.dids i) hcinv hfr hnext (fun _ h => h) (fun j a hj => ?_) (fun he => ?_)
    (hi.kept.of_rows hr hfr.keeps) ?_ (fun j a hj _ => ?_) (fun _ _ _ hc _ => ?_) (fun _ _ hc _ => ?_)
    (fun d hd => ?_) (by rw [hself]; exact hb)
  · rw [hself]; rintro rfl; exact hp
  · rw [hself] at hj; subst hj; exact hp.elim
  · rw [hself] at he; cases p <;> first | exact he.elim | exact hp.elim
  · rw [hl]
    unfold Lin
    rw [hself]
    cases p <;> first | rfl | exact hp.elim
  · rw [hself] at hj; subst hj; exact hp.elim
  · rw [hself] at hc; subst hc; exact hp.elim
  · rw [hself] at hc; subst hc; exact hp.elim
  · obtain ⟨j', a', g1, _⟩ := hd
    rw [hself] at g1; subst g1; exact hp.elim

/-- `Repo.create` raises an exception. -/
theorem TInv.miscarries (hL : L.OK Z) (hi : TInv cfg out L Z req names A0 lo job F P s h) {i : Nat}
    (hst : s.stage i = .arrived ∨ Labour (s.stage i)) (hq : Stores (req i)) (hN : Fits names (req i))
    (hE : Excuse cfg req names F P s h i) (e : Err) :
    ∃ h', TInv cfg out L Z req names A0 lo job F (Extend P (s.to i (.answered (.failed e))))
      (s.to i (.answered (.failed e))) h' := by
  obtain ⟨hans, hl⟩ := Labour.quiet hst
  exact ⟨_, hi.append hL (TState.to_other i _) (fun _ _ => rfl) hans hi.cinv
    (.same hi.cinv.addr rfl rfl rfl rfl) (le_refl _) hi.kept hl (.inl (TState.to_self i _))
    (.inr ⟨e, rfl, hq, hE, rfl⟩) hN fun d b b' hb hb' => .inl (by rw [hb] at hb'; cases hb'; rfl)⟩

theorem Kept.put {w w' : World C R} {A : Accounts R} (hk : Kept L Z w A) {d : Did} {row' : Row C}
    {a' : Account R} (hd : isDid d) (hr : w'.rows = dictSet w.rows d row') (hb : w'.blocks = w.blocks)
    (h1 : row'.handle = a'.handle) (h2 : row'.status = a'.status) (h3 : ∀ h, row'.handle = some h → ¬ isDid h)
    (h4 : Store.Holds L Z w.blocks d row'.head a'.records) : Kept L Z w' (Function.update A d (some a')) := by
  refine ⟨by rw [hr]; exact dictSet_nodup hk.nodup, fun e b hb => ?_, fun e he => ?_, fun e b hb' => ?_⟩
  · by_cases he : e = d
    · subst he; exact hd
    · rw [Function.update_of_ne he] at hb; exact hk.did e b hb
  · by_cases hd : e = d
    · subst hd; rw [Function.update_self] at he; cases he
    · rw [Function.update_of_ne hd] at he
      rw [hr, dictGet_dictSet, if_neg hd]
      exact hk.missing e he
  · by_cases hd : e = d
    · subst hd
      rw [Function.update_self] at hb'
      cases hb'
      exact ⟨row', by rw [hr, dictGet_dictSet, if_pos rfl], h1, h2, h3, by rw [hb]; exact h4⟩
    · rw [Function.update_of_ne hd] at hb'
      obtain ⟨row, g1, g2, g3, g4, g5⟩ := hk.held e b hb'
      exact ⟨row, by rw [hr, dictGet_dictSet, if_neg hd]; exact g1, g2, g3, g4, by rw [hb]; exact g5⟩

theorem TInv.create (hL : L.OK Z) (hi : TInv cfg out L Z req names A0 lo job F P s h) {i : Nat} {did : Did}
    {handle : Option Key} (hr : req i = .newRepo did handle) (hq : Proper (req i)) (hN : Fits names (req i))
    {key nonce time : Nat} (hs : s.create L i did handle key nonce time = some s') :
    ∃ h', TInv cfg out L Z req names A0 lo job F (Extend P s') s' h' := by
  have hq' := hq
  rw [hr] at hq'
  have hb := hi.birth i
  unfold TState.create at hs
  cases hst : s.stage i <;> rw [hst] at hs hb
  case arrived =>
    cases hs
    obtain ⟨a1, a2, _⟩ := alloc_fresh s.c.w
    have hf : Frame L s.c { s.c with w := s.c.w.alloc.2 } := .same hi.cinv.addr rfl rfl rfl rfl
    have hn : s.c.w.next ≤ s.c.w.alloc.2.next := by omega
    exact ⟨h, hi.labours hL (.inl hst) rfl (CInv.beside hi.cinv hf rfl rfl hi.cinv.store hi.cinv.rows hn) hf hn rfl rfl trivial
      ⟨⟨did, handle, hr⟩, by show s.c.w.alloc.1 < s.c.w.alloc.2.next; omega⟩⟩
  case creating seq =>
    dsimp only at hs
    rcases firstCommit_ok hL hi.cinv (did := did) (key := key) (nonce := nonce) (seq := seq) with
      ⟨cd, co, h1, h2, h3, h4, h5, h6⟩ | ⟨e, h1, h2⟩
    · rw [h1] at hs
      cases hs
      exact ⟨h, hi.labours hL (c := s.c) (.inr (by rw [hst]; trivial)) rfl hi.cinv (.same hi.cinv.addr rfl rfl rfl rfl)
        (le_refl _) rfl rfl trivial ⟨did, handle, co, hr, h2, h3, by rw [h4]; exact hb.2, h5, h6⟩⟩
    · rw [h1] at hs
      cases hs
      exact hi.miscarries hL (.inr (by rw [hst]; trivial)) (by rw [hr]; trivial) hN (.inr (.inl (lt_of_le_of_lt h2 hb.2))) e
  case made key cd =>
    cases hs
    obtain ⟨did', handle', co, h1, h2, h3, h4, h5, h6⟩ := hb
    have hm := missing_spec hL hi.cinv.addr h5
    exact ⟨h, hi.labours hL (c := s.c) (.inr (by rw [hst]; trivial)) rfl hi.cinv (.same hi.cinv.addr rfl rfl rfl rfl)
      (le_refl _) rfl rfl trivial ⟨did', handle', co, h1, h2, h3, h4, h6.move hm.1 hm.2⟩⟩
  case asked key cd new =>
    cases hs
    obtain ⟨did', handle', co, h1, h2, h3, h4, h5⟩ := hb
    obtain ⟨g1, g2, g3⟩ := CInv.overwrites hL hi.cinv h5 rfl
    exact ⟨h, hi.labours hL (.inr (by rw [hst]; trivial)) rfl g1 g2 (le_refl _) rfl rfl trivial
      ⟨did', handle', co, h1, h2, h3, h4, g3⟩⟩
  case stored key cd n =>
    dsimp only at hs
    split at hs
    · cases hs
      obtain ⟨g1, g2⟩ := hi.cinv.act hL hi.dids (a := .event did (birthEvent L handle cd n) time) rfl
      have hn := storeEvent_next (L := L) s.c did (birthEvent L handle cd n) time
      exact ⟨h, hi.labours hL (.inr (by rw [hst]; trivial)) rfl g1 g2 hn rfl rfl trivial
        (Birth.next (p := .stored key cd (n + 1)) hb g2.keeps hn)⟩
    · cases hs
      obtain ⟨did', handle', co, h1, h2, h3, h4, h5⟩ := hb
      rw [hr] at h1
      cases h1
      have hh : Store.Holds L Z s.c.w.blocks did (L.hash cd.commit.val) (fun _ => none) := ⟨co, by rw [h2], h3, h5⟩
      obtain ⟨g1, g2⟩ := CInv.putRow hi.cinv (row := ⟨handle, L.hash cd.commit.val, none, key⟩)
        (fun h hh => (hq'.2 h hh).1) hh
      obtain ⟨hans, hl⟩ := Labour.quiet (s := s) (i := i) (.inr (by rw [hst]; trivial))
      refine ⟨_, hi.append hL (i := i) (ans := .done) (A' := Function.update (cur A0 h) did (some ⟨handle, none, fun _ => none⟩))
        (fun k hk => Function.update_of_ne hk _ _) (fun _ _ => rfl) hans g1 g2 (le_refl _)
        (hi.kept.put hq'.1 rfl rfl rfl rfl (fun h hh => (hq'.2 h hh).1) hh) hl (.inl (Function.update_self _ _ _))
        (.inl ?_) hN fun d b b' hb hb' => ?_⟩
      · rw [hr]
        exact ⟨rfl, rfl⟩
      · by_cases hd : d = did
        · subst hd
          exact .inr ⟨(fun _ h => nomatch h), handle, hr⟩
        · rw [Function.update_of_ne hd, hb] at hb'
          cases hb'
          exact .inl rfl
  all_goals cases hs

theorem TInv.again (hL : L.OK Z) (hi : TInv cfg out L Z req names A0 lo job F P s h) {i : Nat}
    (hs : s.again i = some s') : TInv cfg out L Z req names A0 lo job F (Extend P s') s' h := by
  have hb := hi.birth i
  unfold TState.again at hs
  have fin : ∀ cd : CommitData C R, Labour (s.stage i) → (∃ did handle, req i = .newRepo did handle) →
      cd.commit.seq < s.c.w.next → s' = s.to i (.creating cd.commit.seq) →
      TInv cfg out L Z req names A0 lo job F (Extend P s') s' h := by
    intro cd hl hr hn hs
    exact hi.labours hL (c := s.c) (.inr hl) hs hi.cinv (.same hi.cinv.addr rfl rfl rfl rfl) (le_refl _) rfl rfl trivial
      ⟨hr, hn⟩
  split at hs
  · rename_i key cd hst
    cases hs
    rw [hst] at hb
    obtain ⟨did, handle, _, h1, _, _, h4, _⟩ := hb
    exact fin cd (by rw [hst]; trivial) ⟨did, handle, h1⟩ h4 rfl
  · rename_i key cd new hst
    cases hs
    rw [hst] at hb
    obtain ⟨did, handle, _, h1, _, _, h4, _⟩ := hb
    exact fin cd (by rw [hst]; trivial) ⟨did, handle, h1⟩ h4 rfl
  · rename_i key cd hst
    cases hs
    rw [hst] at hb
    obtain ⟨did, handle, _, h1, _, _, h4, _⟩ := hb
    exact fin cd (by rw [hst]; trivial) ⟨did, handle, h1⟩ h4 rfl
  · cases hs

theorem TInv.gives (hL : L.OK Z) (hi : TInv cfg out L Z req names A0 lo job F P s h) {i : Nat} {e : Err}
    (hN : Fits names (req i)) (hF : F i) (hs : s.gives i e = some s') :
    ∃ h', TInv cfg out L Z req names A0 lo job F (Extend P s') s' h' := by
  have hb := hi.birth i
  have hl : Labour (s.stage i) ∧ s' = s.to i (.answered (.failed e)) := by
    unfold TState.gives at hs
    split at hs <;> cases hs <;> rename_i hst <;> rw [hst] <;> exact ⟨trivial, rfl⟩
  obtain ⟨hl, rfl⟩ := hl
  refine hi.miscarries hL (.inr hl) ?_ hN (.inl hF) e
  cases hst : s.stage i <;> rw [hst] at hb hl <;> try exact hl.elim
  · obtain ⟨⟨_, _, h1⟩, _⟩ := hb
    rw [h1]; trivial
  all_goals
    obtain ⟨_, _, _, h1, _⟩ := hb
    rw [h1]; trivial

theorem TInv.act (hL : L.OK Z) (hf : cfg.flask = true) (hq : ∀ i, Proper (req i)) (hN : ∀ i, Fits names (req i))
    (hi : TInv cfg out L Z req names A0 lo job F P s h) {a : TAct} (hs : s.act cfg out L req a = some s') :
    ∃ job' h', TInv cfg out L Z req names A0 lo job' (fun k => F k ∨ ∃ e, a = .fail k e) (Extend P s') s' h' := by
  have wk : (∃ job' h', TInv cfg out L Z req names A0 lo job' F (Extend P s') s' h') →
      ∃ job' h', TInv cfg out L Z req names A0 lo job' (fun k => F k ∨ ∃ e, a = .fail k e) (Extend P s') s' h' :=
    fun ⟨job', h', g⟩ => ⟨job', h', g.weaken fun k => .inl⟩
  cases a with
  | arrive i =>
    refine wk ?_
    simp only [TState.act] at hs
    split at hs
    · rename_i hst
      cases hs
      exact ⟨job, h, hi.moves hL (by rw [hst]; trivial) (.inl rfl)⟩
    · cases hs
  | check i =>
    refine wk ?_
    simp only [TState.act] at hs
    split at hs
    · rename_i header inp tid hst hr
      cases hs
      rcases checkCreate_ok (out := out) hL hi.kept hi.cinv.addr hf header inp tid with ⟨ans, h1, h2⟩ | ⟨h1, h2⟩
      · rw [h1]
        refine hi.reads hL (by rw [hst]; trivial) (hN i) (fun _ _ h => nomatch h) ?_
        show Serves cfg out L _ (req i) _ _
        rw [hr]
        exact h2
      · rw [h1]
        refine ⟨job, h, hi.moves hL (by rw [hst]; trivial) (.inr (.inr ⟨rfl, ?_⟩))⟩
        intro header' inp' tid' hr'
        rw [hr] at hr'
        cases hr'
        rw [hr]
        exact h2
    · cases hs
  | read i =>
    refine wk ?_
    simp only [TState.act] at hs
    split at hs
    · rename_i header inp tid hst hr
      cases hs
      have hp := planPut_ok hL hi.kept hi.cinv.addr hf hi.named header { inp with rkey := some (inp.rkey.getD tid) }
      refine hi.reads hL (by rw [hst]; trivial) (hN i) (fun _ _ _ => by rw [hr]; trivial) ?_
      have hc := hi.checked i header inp tid hst hr
      cases hpl : planPut cfg L s.c.w header { inp with rkey := some (inp.rkey.getD tid) } <;>
        rw [hpl] at hp <;> try exact hp.elim
      · obtain ⟨a, x, g1, g2, g3, g4, g5, g6⟩ := hp
        refine ⟨a, x, g1, g2, g3, ⟨g4.writes, fun A1 a1 m k1 k2 k3 k4 k5 => ?_, fun m e k1 k2 k3 A1 a1 k4 k5 k6 =>
          hc _ _ _ (g4.refuses m e k1 k2 k3 A1 a1 k4 k5 k6)⟩, g5, ?_⟩
        · obtain ⟨g6, g7⟩ := g4.accepts A1 a1 m k1 k2 k3 k4 k5
          exact ⟨g6, hc _ _ _ g7⟩
        · rw [hr]
          obtain ⟨g6, c, k, g7, g8, g9⟩ := g6
          cases g8
          exact ⟨g6, c, g7, g9⟩
      · exact hc _ _ _ hp
    · cases hs
    · cases hs
    · rename_i header inp hst hr
      cases hs
      refine hi.reads hL (by rw [hst]; trivial) (hN i) (fun _ _ _ => by rw [hr]; trivial) ?_
      rw [hr]
      exact planPut_ok hL hi.kept hi.cinv.addr hf hi.named header inp
    · rename_i header inp hst hr
      cases hs
      refine hi.reads hL (by rw [hst]; trivial) (hN i) (fun _ _ _ => by rw [hr]; trivial) ?_
      rw [hr]
      exact planDelete_ok hL hi.kept hi.cinv.addr hf hi.named header inp
    · rename_i did change hst hr
      cases hs
      have hd := hq i
      rw [hr] at hd
      rcases planChange_ok (cfg := cfg) (out := out) hL hi.kept hi.cinv.addr hd change with ⟨h1, h2⟩ | ⟨h1, h2⟩
      · rw [h1]
        refine hi.reads hL (by rw [hst]; trivial) (hN i) (fun _ _ h => nomatch h) ?_
        show Serves cfg out L _ (req i) _ _
        rw [hr]
        exact h2
      · rw [h1]
        refine ⟨job, h, hi.moves hL (by rw [hst]; trivial) (.inr (.inl ⟨rfl, fun did' change' hr' hn => ?_⟩))⟩
        rw [hr] at hr'
        cases hr'
        obtain ⟨a, ha⟩ := h2
        rw [ha] at hn
        cases hn
    · rename_i hst h1 h2 h3 h4 h5
      cases hs
      have hk : match req i with
          | .putRecord _ _ | .createRecord _ _ _ | .deleteRecord _ _ | .newRepo _ _ | .setStatus _ _ => False
          | _ => True := by
        cases hr : req i <;> first | trivial | exact (h1 _ _ _ hr).elim | exact (h2 _ _ hr).elim | exact (h3 _ _ hr).elim |
            exact (h4 _ _ hr).elim | exact (h5 _ _ hr).elim
      refine hi.reads hL (by rw [hst]; trivial) (hN i) (fun _ _ h => nomatch h) ?_
      exact serve_read hL hi.kept hi.cinv.addr hf _ hk
    · cases hs
  | step i nonce =>
    refine wk ?_
    simp only [TState.act] at hs
    split at hs
    · rename_i j ans hst
      obtain ⟨c, hc, rfl⟩ := Option.map_eq_some_iff.1 hs
      have hc : stepCall L job s.c i nonce = some c := by
        rw [stepCall_congr (job' := fun _ => j) (hi.jobs i j ans hst)]
        exact hc
      obtain ⟨g1, g2⟩ := hi.cinv.stepCall hL hi.dids hc
      obtain ⟨h1, h2, ⟨h3, h4⟩ | ⟨row, ver, cd, h3, h4, h5, h6, h7⟩⟩ := stepCall_cases hc
      · obtain ⟨_, a, x, hh⟩ := hi.plan i j ans hst
        obtain ⟨row, k1, _⟩ := hi.kept.held j.did a hh.acc
        have hj := hi.jobs i j ans hst
        have k2 := stepCall_one hL hi.cinv hi.dids (by rw [hj]; exact hh.planned.writes) (by rw [hj]; exact k1) hc
        rw [hj] at k2
        refine ⟨job, h, hi.waits hL hst rfl g1 g2 (stepCall_next hc) (fun _ h => h) h1 h2 h4 h3
          (fun _ _ _ _ hl => by rw [k2.1 _ _ _ _ hl]; exact k1) fun x' hx' e he => .inr ?_⟩
        rw [hh.planned.writes] at hx'
        cases hx'
        exact k2.2 e he
      · exact ⟨job, hi.committed hL hst rfl g1 g2 (stepCall_next hc) h2 h3 h4 h5 h6 h7⟩
    · cases hs
  | abort i =>
    refine wk ?_
    simp only [TState.act] at hs
    split at hs
    · rename_i j ans hst
      obtain ⟨c, hc, rfl⟩ := Option.map_eq_some_iff.1 hs
      obtain ⟨g1, g2⟩ := hi.cinv.act hL hi.dids (a := .abort i) hc
      obtain ⟨h1, h2, h3, h4, seq, h5⟩ := abortCall_cases hc
      exact ⟨job, h, hi.waits hL hst rfl g1 g2 (by rw [h3]) (fun _ h => h) h1 h2 h4 (by rw [h3])
        (fun _ _ _ _ hl => by rw [h5] at hl; cases hl) fun _ _ _ he => by rw [h5] at he; cases he⟩
    · exact ⟨job, h, hi.again hL hs⟩
  | fail i e =>
    simp only [TState.act] at hs
    split at hs
    · rename_i j ans hst
      obtain ⟨c, hc, rfl⟩ := Option.map_eq_some_iff.1 hs
      obtain ⟨g1, g2⟩ := hi.cinv.act hL hi.dids (a := .fail i e) hc
      obtain ⟨h1, h2, h3, h4, h5⟩ := failCall_cases hc
      exact ⟨job, h, hi.waits hL hst rfl g1 g2 (by rw [h3]) (fun _ => .inl) h1 h2 h4 (by rw [h3])
        (fun _ _ _ _ hl => by rw [h5] at hl; cases hl) fun _ _ _ _ => .inl (.inr ⟨e, rfl⟩)⟩
    · obtain ⟨h', g⟩ := (hi.weaken (F' := fun k => F k ∨ ∃ e', TAct.fail i e = .fail k e') fun k => .inl).gives hL
        (hN i) (.inr ⟨e, rfl⟩) hs
      exact ⟨job, h', g⟩
  | change i =>
    refine wk ?_
    simp only [TState.act] at hs
    split at hs
    · rename_i did change hst hr
      obtain ⟨c, hc, rfl⟩ := Option.map_eq_some_iff.1 hs
      obtain ⟨g1, g2⟩ := hi.cinv.act hL hi.dids (a := .setStatus did change.status) hc
      unfold setStatusRow at hc
      cases hrow : dictGet s.c.w.rows did with
      | none => rw [hrow] at hc; cases hc
      | some row =>
        rw [hrow] at hc
        cases hc
        cases hA : cur A0 h did with
        | none => rw [hi.kept.missing did hA] at hrow; cases hrow
        | some a =>
          obtain ⟨row', k1, k2, k3, k4, k5⟩ := hi.kept.held did a hA
          rw [hrow] at k1
          cases k1
          refine ⟨job, _, hi.append hL (ans := .done) (A' := Function.update (cur A0 h) did
            (some { a with status := change.status })) (fun k hk => Function.update_of_ne hk _ _)
            (fun _ _ => rfl) (by rw [hst]; exact fun _ h => nomatch h) g1 g2 (le_refl _)
            (hi.kept.set hA rfl rfl k2 rfl k4 k5) (by unfold Lin; rw [hst]) (.inr ⟨Function.update_self _ _ _, rfl⟩)
            (.inl ?_) (hN i) fun d b b' hb hb' => .inl ?_⟩
          · rw [hr]
            unfold Serves
            dsimp only
            rw [hA]
            exact ⟨rfl, rfl⟩
          · by_cases hd : d = did
            · subst hd
              rw [hA] at hb
              rw [Function.update_self] at hb'
              cases hb
              cases hb'
              rfl
            · rw [Function.update_of_ne hd, hb] at hb'
              cases hb'
              rfl
    · cases hs
  | finish i time =>
    refine wk ?_
    simp only [TState.act] at hs
    split at hs
    · rename_i did change hst hr
      cases hs
      obtain ⟨g1, g2⟩ := hi.cinv.act hL hi.dids (a := .event did (changeKind change) time) rfl
      exact ⟨job, h, hi.replies hL (ans := .done) (by unfold Lin; rw [hst]) (by rw [hst]; exact fun _ h => nomatch h) rfl
        g1 g2 (storeEvent_next s.c did (changeKind change) time) (fun _ _ => rfl) rfl⟩
    · cases hs
  | reply i =>
    refine wk ?_
    simp only [TState.act] at hs
    split at hs
    · rename_i j ans cd hst hpc
      cases hs
      exact ⟨job, h, hi.replies hL (c := s.c) (by unfold Lin; rw [hst, hpc]) (by rw [hst]; exact fun _ h => nomatch h) rfl
        hi.cinv (.same hi.cinv.addr rfl rfl rfl rfl) (le_refl _) (fun _ _ => rfl) rfl⟩
    · rename_i j ans e hst hpc
      cases hs
      obtain ⟨h1, a, x, hh⟩ := hi.plan i j ans hst
      have hnd : ∀ cd, s.c.pc i ≠ .done cd := by rw [hpc]; exact fun _ h => nomatch h
      rcases hh.why e hpc with hE | hS
      · exact ⟨job, _, hi.append hL (TState.to_other i _) (fun _ _ => rfl) (by rw [hst]; exact fun _ h => nomatch h)
          hi.cinv (.same hi.cinv.addr rfl rfl rfl rfl) (le_refl _) hi.kept (by unfold Lin; rw [hst, hpc])
          (.inl (TState.to_self i _)) (.inr ⟨e, rfl, h1, hE, rfl⟩) (hN i)
          fun d b b' hb hb' => .inl (by rw [hb] at hb'; cases hb'; rfl)⟩
      · refine ⟨job, hi.insert hL (ans := .failed e) (m := a.records) hst hnd hh.acc (fun A1 a1 k1 k2 k3 k4 => ?_)
          (TState.to_other i _) (fun _ _ => rfl) hi.cinv (.same hi.cinv.addr rfl rfl rfl rfl) (le_refl _) ?_
          (by unfold Lin; rw [hst, hpc]) (by unfold Lin; rw [TState.to_self]) (fun _ _ h => ?_) (.inl fun _ => Iff.rfl)⟩
        · rw [← k4, Function.update_eq_self_iff.2 k1.symm]
          exact hS A1 a1 k1 k2 k3
        · rw [setRec_update hh.acc, Function.update_eq_self_iff.2 hh.acc.symm]
          exact hi.kept
        · rw [TState.to_self] at h
          cases h
    · cases hs
  | create i key nonce time =>
    refine wk ?_
    simp only [TState.act] at hs
    split at hs
    · rename_i did handle hr
      exact ⟨job, hi.create hL hr (hq i) (hN i) hs⟩
    · cases hs

end Arroba.Xrpc
