import Verif.Xrpc.CompleteProofs
import Verif.Props.C69

/-!
# C70: requests that are served at the same time

Any number of requests overlap (`Xrpc/Together.lean`), in several threads or processes, with one Datastore. New
repos are made, and repos made anew, at the same time; a DID keeps its handle then.

* `C70_linearizable`: they are answered as if they had been made one after the other, to the reference server of
  C68, in an order that agrees with real time; except that requests that write may fail, and then have done
  nothing, if their commits are made to fail, if sequence numbers have run out, or if another request has written
  the same record, or made the repo anew, in the meantime.
* `C70_served`: if there is nothing of that kind, then they are answered as by the reference server.
* `C70_completes`: a request is not held up by others; if they stop, wherever they are, it is answered after a few
  steps of its own.

`C70_conflict_false`: requests for one record, made at the same time, can fail although they would succeed in
any order. `C70_handle_false`: a DID has to keep its handle. `C70_late_false`: a record may be written to a repo after a request to deactivate it was answered, and
the log then has the commit after the `#account` event.
-/

namespace Arroba.Xrpc

open Arroba.Store

variable {C R : Type} [DecidableEq C] {L : Lib C R} {Z : Nat}
  {w : World C R} {cfg : Config R} {A : Accounts R} {out : Surroundings} {req : Nat → Request R}
  {as : List TAct} {s : TState C R} {names : Did → Option Key}

/-! ### Assembling the order -/

theorem TState.run_append (cfg : Config R) (out : Surroundings) (L : Lib C R) (req : Nat → Request R) :
    ∀ (s : TState C R) (as bs : List TAct),
    s.run cfg out L req (as ++ bs) = (s.run cfg out L req as).bind fun s' => s'.run cfg out L req bs
  | s, [], bs => rfl
  | s, a :: as, bs => by
    show (s.act cfg out L req a).bind _ = ((s.act cfg out L req a).bind _).bind _
    cases s.act cfg out L req a with
    | none => rfl
    | some s1 => exact TState.run_append cfg out L req s1 as bs

theorem Precedes.snoc {s0 s' : TState C R} {a : TAct} (hs : s0.run cfg out L req (as ++ [a]) = some s') {i k : Nat}
    (h : Precedes cfg out L req s0 (as ++ [a]) i k) :
    Extend (Precedes cfg out L req s0 as) s' i k := by
  obtain ⟨as₁, as₂, s₁, b, h1, h2, h3, h4⟩ := h
  rcases List.eq_nil_or_concat as₂ with rfl | ⟨bs, c, rfl⟩
  · rw [List.append_nil] at h1
    rw [← h1, hs] at h2
    cases h2
    exact .inr ⟨⟨b, h3⟩, h4⟩
  · rw [List.concat_eq_append, ← List.append_assoc] at h1
    obtain ⟨h5, _⟩ := List.append_inj' h1 rfl
    exact .inl ⟨as₁, bs, s₁, b, h5, h2, h3, h4⟩

theorem tinv_run (hL : L.OK Z) (hf : cfg.flask = true) (hr : Reach L .datastore .untorn w)
    (hk : Keeping L .datastore w A) (hq : ∀ i, Proper (req i)) (hn : Named names A)
    (hN : ∀ i, Fits names (req i)) :
    ∀ {as : List TAct} {s : TState C R}, (TState.init w).run cfg out L req as = some s →
    ∃ job h P, TInv cfg out L Z req names A w.next job (fun i => ∃ e, TAct.fail i e ∈ as) P s h ∧
      ∀ i k, Precedes cfg out L req (TState.init w) as i k → P i k := by
  intro as
  induction as using List.reverseRecOn with
  | nil =>
    intro s hs
    cases hs
    have hd : isDid exDid := by unfold isDid; decide +kernel
    refine ⟨fun _ => ⟨exDid, []⟩, [], fun _ _ => False, ⟨fun _ => hd, CInv.init hL hr _, fun i j a h => (nomatch h),
      fun _ _ => rfl, Kept.init hL hr hk, trivial, .nil, fun i a => ⟨fun h => (nomatch h), fun h => (nomatch h)⟩, .nil,
      fun i j a h => (nomatch h), fun i _ _ _ h => (nomatch h), fun d ⟨k, _, _, h, _⟩ => (nomatch h), fun _ _ h => h.elim,
      fun _ _ _ h => (nomatch h), hn, fun _ => trivial⟩, ?_⟩
    rintro i k ⟨as₁, as₂, s₁, b, h1, h2, h3, h4⟩
    obtain ⟨rfl, rfl⟩ := List.nil_eq_append_iff.1 h1
    cases h2
    cases h3
  | append_singleton as a ih =>
    intro s' hs
    have hs0 := hs
    rw [TState.run_append] at hs
    obtain ⟨s, h1, h2⟩ := Option.bind_eq_some_iff.1 hs
    obtain ⟨s1, h3, h4⟩ := Option.bind_eq_some_iff.1 h2
    cases h4
    obtain ⟨job, h, P, hi, hP⟩ := ih h1
    obtain ⟨job', h', hi'⟩ := hi.act hL hf hq hN h3
    refine ⟨job', h', _, hi'.weaken fun k hk => ?_, fun i k hp => (hp.snoc hs0).imp_left (hP i k)⟩
    rcases hk with ⟨e, he⟩ | ⟨e, rfl⟩
    · exact ⟨e, List.mem_append_left _ he⟩
    · exact ⟨e, List.mem_append_right _ List.mem_cons_self⟩

theorem Sequential.append {E : Nat → Prop} {X Y Y' : Accounts R} {l l' : List (Nat × Answer C R)}
    (h : Sequential cfg out L req E X l Y) (h' : Sequential cfg out L req E Y l' Y') :
    Sequential cfg out L req E X (l ++ l') Y' := by
  induction h with
  | nil A => exact h'
  | serves h _ ih => exact .serves h (ih h')
  | failed e hs he _ ih => exact .failed e hs he (ih h')

theorem Path.sequential {E : Nat → Prop} : ∀ {h : List (Point C R)}, Path cfg out L req E A h →
    Sequential cfg out L req E A (h.reverse.map fun e => (e.i, e.ans)) (cur A h)
  | [], _ => .nil A
  | e :: h, ⟨h1, h2⟩ => by
    simp only [List.reverse_cons, List.map_append, List.map_cons, List.map_nil]
    refine h2.sequential.append ?_
    rcases h1 with h1 | ⟨err, h1, h3, h4, h5⟩
    · exact .serves h1 (.nil _)
    · rw [h1, show cur A (e :: h) = cur A h from h5]
      exact .failed err h3 h4 (.nil _)

/-! ### The theorem -/

/-- At any moment of any execution there is an order of the requests, with an answer to each, such that
* every request that has been answered is in it, with its answer, and no request twice;
* no request is in it that hasn't been made, and those in it that haven't been answered have changed the storage;
* a request that was answered before another one was made comes first;
* the reference server, given these requests one after the other in this order, gives these answers, except that
  requests that write may fail, and do nothing, if they have an excuse: their commits were made to fail, sequence
  numbers have run out, or another request has written the same record, or made the repo anew, in the meantime;
* the storage has what the reference server has then. -/
theorem C70_linearizable (hL : L.OK Z) (hf : cfg.flask = true) (hr : Reach L .datastore .untorn w)
    (hk : Keeping L .datastore w A) (hq : ∀ i, Proper (req i)) (hn : Named names A)
    (hN : ∀ i, Fits names (req i))
    (hs : (TState.init w).run cfg out L req as = some s) :
    ∃ (order : List (Nat × Answer C R)) (A' : Accounts R), (order.map (·.1)).Nodup ∧
      (∀ i a, s.stage i = .answered a → (i, a) ∈ order) ∧
      (∀ x ∈ order, s.stage x.1 ≠ .idle) ∧
      order.Pairwise (fun x y => ¬ Precedes cfg out L req (TState.init w) as y.1 x.1) ∧
      Sequential cfg out L req (Excused cfg out L req names (TState.init w) as s order) A order A' ∧
      Keeping L .datastore s.c.w A' := by
  obtain ⟨job, h, P, hi, hP⟩ := tinv_run hL hf hr hk hq hn hN hs
  refine ⟨h.reverse.map fun e => (e.i, e.ans), cur A h, ?_, fun i a ha => ?_, fun x hx => ?_, ?_,
    (hi.path.mono fun i hE => ?_).sequential, hi.kept.keeping hL hi.cinv.addr⟩
  · rw [List.map_map, List.map_reverse, List.nodup_reverse]
    exact hi.nodup
  · rw [List.map_reverse, List.mem_reverse, hi.lin]
    unfold Lin
    rw [ha]
  · rw [List.map_reverse, List.mem_reverse] at hx
    exact Lin.not_idle ((hi.lin x.1 x.2).1 hx)
  · rw [List.pairwise_map, List.pairwise_reverse]
    exact hi.order.imp fun {x y} hn hp => hn (hP _ _ hp)
  · rcases hE with h | h | ⟨k, ans, d, p, h1, h2, h3, h4, h5, _, h7, h8⟩
    · exact .inl h
    · refine .inr (.inl ?_)
      unfold World.next at h
      unfold lastSeq
      cases hd : dictGet s.c.w.seqs subscribeRepos with
      | none => rw [hd] at h; simp at h
      | some n =>
        rw [hd] at h
        simp only [Option.getD_some] at h
        cases n with
        | zero => omega
        | succ n => exact ⟨n, rfl, by omega⟩
    · exact .inr (.inr ⟨k, ans, d, p, h1, by rw [List.map_reverse, List.mem_reverse]; exact h2, h3, h7, h8,
        fun hp => h4 (hP _ _ hp), fun hp => h5 (hP _ _ hp)⟩)

theorem Sequential.served {E : Nat → Prop} {X Y : Accounts R} {l : List (Nat × Answer C R)}
    (h : Sequential cfg out L req E X l Y) (hE : ∀ x ∈ l, ¬ E x.1) :
    ServesAll cfg out L X (l.map fun x => req x.1) (l.map (·.2)) Y := by
  induction h with
  | nil A => exact .nil A
  | serves h _ ih => exact .cons h (ih fun x hx => hE x (List.mem_cons_of_mem _ hx))
  | failed e hs he _ ih => exact absurd he (hE _ List.mem_cons_self)

/-- No commit is made to fail, there are sequence numbers left, and of two requests for one record, or one for a
record and one that makes its repo anew, the first is answered before the second is made: then all requests are answered as by the reference server. -/
theorem C70_served (hL : L.OK Z) (hf : cfg.flask = true) (hr : Reach L .datastore .untorn w)
    (hk : Keeping L .datastore w A) (hq : ∀ i, Proper (req i)) (hn : Named names A)
    (hN : ∀ i, Fits names (req i))
    (hs : (TState.init w).run cfg out L req as = some s) (hno : ∀ i e, .fail i e ∉ as)
    (hseq : ∀ n, lastSeq s.c.w.seqs subscribeRepos = some n → n < 32 ^ 11)
    (hdis : ∀ i k d p, i ≠ k → s.stage i ≠ .idle → s.stage k ≠ .idle → Aims cfg names (req i) d p →
      Touches cfg names (req k) d p → Precedes cfg out L req (TState.init w) as i k ∨
        Precedes cfg out L req (TState.init w) as k i) :
    ∃ (order : List (Nat × Answer C R)) (A' : Accounts R), (order.map (·.1)).Nodup ∧
      (∀ i a, s.stage i = .answered a → (i, a) ∈ order) ∧
      (∀ x ∈ order, s.stage x.1 ≠ .idle) ∧
      order.Pairwise (fun x y => ¬ Precedes cfg out L req (TState.init w) as y.1 x.1) ∧
      ServesAll cfg out L A (order.map fun x => req x.1) (order.map (·.2)) A' ∧
      Keeping L .datastore s.c.w A' := by
  obtain ⟨order, A', h1, h2, h3, h4, h5, h6⟩ := C70_linearizable hL hf hr hk hq hn hN hs
  refine ⟨order, A', h1, h2, h3, h4, h5.served fun x hx hE => ?_, h6⟩
  rcases hE with ⟨e, he⟩ | ⟨n, g1, g2⟩ | ⟨k, ans, d, p, g1, g2, _, g4, g5, g6, g7⟩
  · exact hno _ _ he
  · have := hseq n g1
    omega
  · rcases hdis x.1 k d p (Ne.symm g1) (h3 x hx) (h3 _ g2) g4 g5 with h | h
    · exact g6 h
    · exact g7 h

/-- Wherever the other requests are: if only the actions of one of them follow, then it is answered after at most
ten. -/
theorem C70_completes (hL : L.OK Z) (hf : cfg.flask = true) (hr : Reach L .datastore .untorn w)
    (hk : Keeping L .datastore w A) (hq : ∀ i, Proper (req i)) (hn : Named names A)
    (hN : ∀ i, Fits names (req i))
    (hs : (TState.init w).run cfg out L req as = some s) {i : Nat} (hi : s.stage i ≠ .idle) :
    ∃ as', as'.length ≤ 10 ∧ (∀ a ∈ as', a.of = i ∧ ∀ e, a ≠ .fail i e) ∧
      ∃ s' ans, (TState.init w).run cfg out L req (as ++ as') = some s' ∧ s'.stage i = .answered ans := by
  obtain ⟨job, h, P, hinv, _⟩ := tinv_run hL hf hr hk hq hn hN hs
  obtain ⟨as', h1, h2, s', ans, h3, h4⟩ := hinv.ends hL (hq i) hi (Typed.run hs (fun _ => trivial) i)
  refine ⟨as', h1, h2, s', ans, ?_, h4⟩
  rw [TState.run_append, hs]
  exact h3

/-! ### Examples -/

/-- The answer. -/
def answerOf : Stage C R → Option (Answer C R)
  | .answered a => some a
  | _ => none

theorem answerOf_some {st : Stage C R} {a : Answer C R} (h : answerOf st = some a) : st = .answered a := by
  unfold answerOf at h
  split at h
  · cases h; rfl
  · cases h

theorem exNew_proper : Proper (Request.newRepo (R := Nat) exDid (some exHandle)) := by
  refine ⟨by unfold isDid; decide +kernel, fun h hh => ?_⟩
  cases hh
  exact ⟨by unfold isDid; decide +kernel, by decide +kernel⟩

/-- The handles of the examples. -/
def exHandles (d : Did) : Option Key := if d = exDid then some exHandle else none

theorem exS1_keeps : ∃ A, Keeping exL .datastore exS1 A ∧ Reach exL .datastore .untorn exS1 ∧ Named exHandles A := by
  obtain ⟨A, h1, h2, h3⟩ := C68_request (out := exSurroundings) exL_ok (Reach.empty (L := exL) (be := .datastore)
    (al := .untorn)) C68_empty (cfg := exCfg) rfl (req := .newRepo exDid (some exHandle)) exNew_proper
    exFine (exFine_fine (by decide +kernel)) rfl
  refine ⟨A, h2, h3, fun d a ha => ?_⟩
  rw [h1.2] at ha
  unfold exHandles
  by_cases hd : d = exDid
  · subst hd
    rw [Function.update_self] at ha
    cases ha
    rw [if_pos rfl]
  · rw [Function.update_of_ne hd] at ha
    cases ha

/-- Requests 0 and 1 put one record; 2 deactivates the repo; 3 creates another record; the others read it. -/
def exReqs : Nat → Request Nat
  | 0 => exPutReq "a".toList 1
  | 1 => exPutReq "a".toList 2
  | 2 => .setStatus exDid .deactivate
  | 3 => .createRecord exHeader ⟨some exDid, some "coll".toList, none, some 6, false⟩ "t".toList
  | _ => .listRecords exDid "coll".toList 9 none

abbrev exRun (as : List TAct) : Option (TState SC Nat) :=
  (TState.init exS1).run exCfg exSurroundings exL exReqs as

def tsteps (i n : Nat) : List TAct := List.replicate n (.step i 0)

theorem exReqs_proper (i : Nat) : Proper (exReqs i) := by
  unfold Proper
  match i with
  | 0 => trivial
  | 1 => trivial
  | 2 => show isDid exDid; unfold isDid; decide +kernel
  | 3 => trivial
  | _ + 4 => trivial

theorem exReqs_fit (i : Nat) : Fits exHandles (exReqs i) := by
  match i with
  | 0 | 1 | 2 | 3 | _ + 4 => trivial

/-- Requests 0 and 3 write at the same time. The transaction of 0 is begun first, and has to be retried, since that of
3 has changed the repo. Request 4 is made while they run, 5 afterwards. -/
def exOverlap : List TAct :=
  [.arrive 0, .read 0] ++ tsteps 0 6 ++ [.arrive 3, .check 3, .arrive 4, .read 3] ++ tsteps 3 7 ++
    [.read 4, .abort 0] ++ tsteps 0 6 ++ [.reply 0, .reply 3, .arrive 5, .read 5]

example : (exRun exOverlap).map (fun s => [0, 3, 4, 5].map fun i => answerOf (s.stage i)) =
    some [some (.written ⟨"at://did:plc:alice/coll/a".toList, .record 1⟩),
      some (.written ⟨"at://did:plc:alice/coll/t".toList, .record 6⟩),
      some (.page ⟨[⟨"at://did:plc:alice/coll/t".toList, .record 6, .record 6⟩], none⟩),
      some (.page ⟨[⟨"at://did:plc:alice/coll/a".toList, .record 1, .record 1⟩,
        ⟨"at://did:plc:alice/coll/t".toList, .record 6, .record 6⟩], none⟩)] := by decide +kernel

/-- The hypotheses of the theorems can be met. -/
example : ∃ (s : TState SC Nat) (A : Accounts Nat) (order : List (Nat × Answer SC Nat)) (A' : Accounts Nat), exRun exOverlap = some s ∧ Keeping exL .datastore exS1 A ∧
    ServesAll exCfg exSurroundings exL A (order.map fun x => exReqs x.1) (order.map (·.2)) A' ∧
    Keeping exL .datastore s.c.w A' ∧ ∀ i ∈ [0, 3, 4, 5], ∃ a, (i, a) ∈ order := by
  obtain ⟨A, hk, hr, hn⟩ := exS1_keeps
  obtain ⟨s, hs⟩ := Option.isSome_iff_exists.1 (show (exRun exOverlap).isSome = true by decide +kernel)
  have idle : ∀ i, i = 1 ∨ i = 2 → s.stage i = .idle := by
    intro i hi
    have h1 : (exRun exOverlap).map (fun s => [1, 2].all fun i => match s.stage i with
      | .idle => true
      | _ => false) = some true := by decide +kernel
    rw [hs] at h1
    simp only [Option.map_some, Option.some.injEq, List.all_cons, List.all_nil, Bool.and_true, Bool.and_eq_true] at h1
    rcases hi with rfl | rfl
    · have := h1.1
      split at this
      · assumption
      · cases this
    · have := h1.2
      split at this
      · assumption
      · cases this
  have ans : ∀ i ∈ [0, 3, 4, 5], ∃ a, s.stage i = .answered a := by
    have h1 : (exRun exOverlap).map (fun s => [0, 3, 4, 5].all fun i => (answerOf (s.stage i)).isSome) = some true := by
      decide +kernel
    rw [hs] at h1
    simp only [Option.map_some, Option.some.injEq, List.all_eq_true] at h1
    intro i hi
    have := h1 i hi
    unfold answerOf at this
    split at this
    · exact ⟨_, by assumption⟩
    · cases this
  obtain ⟨order, A', _, h2, _, _, h5, h6⟩ := C70_served exL_ok (cfg := exCfg) rfl hr hk exReqs_proper hn exReqs_fit hs
    (by intro i e h; simp [exOverlap, tsteps] at h)
    (by
      have h1 : (exRun exOverlap).map (fun s => (lastSeq s.c.w.seqs subscribeRepos).all (· < 32 ^ 11)) = some true := by
        decide +kernel
      rw [hs] at h1
      intro n hn
      simp only [Option.map_some, Option.some.injEq, hn, Option.all_some, decide_eq_true_eq] at h1
      exact h1)
    (by
      intro i k d p hne hi hk ha hb
      have only : ∀ i d p, s.stage i ≠ .idle → Touches exCfg exHandles (exReqs i) d p →
          i = 0 ∧ p = pathOf "coll".toList "a".toList ∨ i = 3 ∧ p = pathOf "coll".toList "t".toList := by
        intro i d p hi ha
        rcases ha with ha | ⟨handle, ha⟩
        swap
        · match i with
          | 0 | 1 | 2 | 3 | _ + 4 => cases ha
        match i with
        | 0 => obtain ⟨_, c, k, h1, h2, h3⟩ := ha; cases h1; cases h2; exact .inl ⟨rfl, h3⟩
        | 1 => exact absurd (idle 1 (.inl rfl)) hi
        | 2 => exact ha.elim
        | 3 => obtain ⟨_, c, h1, h3⟩ := ha; cases h1; exact .inr ⟨rfl, h3⟩
        | _ + 4 => exact ha.elim
      rcases only i d p hi (.inl ha) with ⟨rfl, h1⟩ | ⟨rfl, h1⟩ <;> rcases only k d p hk hb with ⟨rfl, h2⟩ | ⟨rfl, h2⟩
      · exact absurd rfl hne
      · rw [h1] at h2; exact absurd h2 (by decide +kernel)
      · rw [h1] at h2; exact absurd h2 (by decide +kernel)
      · exact absurd rfl hne)
  exact ⟨s, A, order, A', hs, hk, h5, h6, fun i hi => (ans i hi).imp fun a ha => h2 i a ha⟩

/-- Request 0 puts a record, with the handle of the repo, and 1 makes the repo anew, with this handle. -/
def exReqsNew (handle : Key) : Nat → Request Nat
  | 0 => exPutReq "a".toList 1
  | 1 => .newRepo exDid (some handle)
  | _ => .listRecords exDid "coll".toList 9 none

abbrev exRunNew (handle : Key) (as : List TAct) : Option (TState SC Nat) :=
  (TState.init exS1).run exCfg exSurroundings exL (exReqsNew handle) as

def creates (i n : Nat) : List TAct := List.replicate n (.create i 7 0 100)

/-- The repo is made anew while 0 writes: 0 is retried. Requests 3 to 5 are made before, in between, and after. -/
def exAnew : List TAct :=
  [.arrive 3, .read 3, .arrive 1, .arrive 0, .read 0] ++ tsteps 0 6 ++ creates 1 2 ++ [.abort 1] ++ creates 1 7 ++
    [.abort 0, .arrive 4, .read 4] ++ tsteps 0 6 ++ [.reply 0, .arrive 5, .read 5]

example : (exRunNew exHandle exAnew).map (fun s => [0, 1, 3, 4, 5].map fun i => answerOf (s.stage i)) =
    some [some (.written ⟨"at://did:plc:alice/coll/a".toList, .record 1⟩), some .done, some (.page ⟨[], none⟩),
      some (.page ⟨[], none⟩),
      some (.page ⟨[⟨"at://did:plc:alice/coll/a".toList, .record 1, .record 1⟩], none⟩)] := by decide +kernel

/-- The hypotheses of the theorems can be met. -/
example : ∃ (s : TState SC Nat) (A : Accounts Nat), exRunNew exHandle exAnew = some s ∧
    Keeping exL .datastore exS1 A ∧ Reach exL .datastore .untorn exS1 ∧ Named exHandles A ∧
    (∀ i, Proper (exReqsNew exHandle i)) ∧ ∀ i, Fits exHandles (exReqsNew exHandle i) := by
  obtain ⟨A, hk, hr, hn⟩ := exS1_keeps
  obtain ⟨s, hs⟩ := Option.isSome_iff_exists.1 (show (exRunNew exHandle exAnew).isSome = true by decide +kernel)
  refine ⟨s, A, hs, hk, hr, hn, fun i => ?_, fun i => ?_⟩
  · match i with
    | 0 | _ + 2 => trivial
    | 1 => exact exNew_proper
  · match i with
    | 0 | _ + 2 => trivial
    | 1 => exact (if_pos rfl).symm

/-! ### What isn't so -/

/-- These requests, to the empty server, would not be answered like this. -/
theorem not_served {qs : List (Request Nat)} {as : List (Answer SC Nat)} {A' : Accounts Nat} (hp : ∀ q ∈ qs, Proper q)
    (ho : ∀ q ∈ qs, Owned (fun _ => exDid) q) (hpl : plenty .datastore exSurroundings exFine .empty qs = true)
    (hne : (play .datastore exSurroundings exFine .empty qs).2 ≠ as) :
    ¬ ServesAll exCfg exSurroundings exL (fun _ => none) qs as A' := by
  intro h
  obtain ⟨A, g1, _⟩ := C68_history exL_ok (cfg := exCfg) rfl hp
    (play_played (be := .datastore) (out := exSurroundings) (x := exFine) rfl rfl hpl)
  exact hne (C68_unique hp ho g1 h).1

/-- Both requests have read the repo before they write. -/
def exConflict : List TAct :=
  [.arrive 0, .arrive 1, .read 0, .read 1] ++ tsteps 0 7 ++ [.reply 0] ++ tsteps 1 3 ++ [.reply 1]

theorem exConflict_ends : (exRun exConflict).map (fun s => [0, 1].map fun i => answerOf (s.stage i)) =
    some [some (.written ⟨"at://did:plc:alice/coll/a".toList, .record 1⟩), some (.failed .value)] := by decide +kernel

/-- Two requests to put the same record, which doesn't exist, overlap. Both would succeed in any order; but one
of them fails with `ValueError`, as it is about to create a record that has been created in the meantime. -/
theorem C70_conflict_false : ∃ s a, exRun exConflict = some s ∧ s.stage 0 = .answered a ∧
    s.stage 1 = .answered (.failed .value) ∧
    (∀ A', ¬ ServesAll exCfg exSurroundings exL (fun _ => none)
      [.newRepo exDid (some exHandle), exReqs 0, exReqs 1] [.done, a, .failed .value] A') ∧
    ∀ A', ¬ ServesAll exCfg exSurroundings exL (fun _ => none)
      [.newRepo exDid (some exHandle), exReqs 1, exReqs 0] [.done, .failed .value, a] A' := by
  have hs := exConflict_ends
  obtain ⟨s, h1, h2⟩ := Option.map_eq_some_iff.1 hs
  simp only [List.map_cons, List.map_nil, List.cons.injEq, and_true] at h2
  refine ⟨s, _, h1, answerOf_some h2.1, answerOf_some h2.2, fun A' => not_served ?_ ?_ (by decide +kernel) (by decide +kernel),
    fun A' => not_served ?_ ?_ (by decide +kernel) (by decide +kernel)⟩
  all_goals
    intro q hq
    simp only [List.mem_cons, List.not_mem_nil, or_false] at hq
    rcases hq with rfl | rfl | rfl
  all_goals first | exact exNew_proper | trivial | (intro h hh; rfl) | skip

def exOther : Key := "other.test".toList

/-- Request 0 has found the repo by its handle. Then the repo is made anew, with another handle. Request 2 is made
after that, and 3 after all others have been answered. -/
def exRenamed : List TAct :=
  [.arrive 0, .read 0, .arrive 1] ++ creates 1 8 ++ [.arrive 2, .read 2] ++ tsteps 0 7 ++
    [.reply 0, .arrive 3, .read 3]

/-- Request 0 is answered as if it had been made after 2, since 3 finds the record, and 2 doesn't. 1 was answered
before 2 was made. But after 1 nothing has the handle any more that 0 asks for. -/
theorem C70_handle_false : ∃ s a₀ a₁ a₂ a₃, exRunNew exOther exRenamed = some s ∧
    s.stage 0 = .answered a₀ ∧ s.stage 1 = .answered a₁ ∧ s.stage 2 = .answered a₂ ∧ s.stage 3 = .answered a₃ ∧
    let q := exReqsNew exOther
    let no (qs : List (Request Nat)) (as : List (Answer SC Nat)) : Prop := ∀ A',
      ¬ ServesAll exCfg exSurroundings exL (fun _ => none) (.newRepo exDid (some exHandle) :: qs) (.done :: as) A'
    no [q 0, q 1, q 2, q 3] [a₀, a₁, a₂, a₃] ∧ no [q 1, q 0, q 2, q 3] [a₁, a₀, a₂, a₃] ∧
      no [q 1, q 2, q 0, q 3] [a₁, a₂, a₀, a₃] := by
  have hs : (exRunNew exOther exRenamed).map (fun s => [0, 1, 2, 3].map fun i => answerOf (s.stage i)) =
    some [some (.written ⟨"at://did:plc:alice/coll/a".toList, .record 1⟩), some .done, some (.page ⟨[], none⟩),
      some (.page ⟨[⟨"at://did:plc:alice/coll/a".toList, .record 1, .record 1⟩], none⟩)] := by decide +kernel
  obtain ⟨s, h1, h2⟩ := Option.map_eq_some_iff.1 hs
  simp only [List.map_cons, List.map_nil, List.cons.injEq, and_true] at h2
  refine ⟨s, _, _, _, _, h1, answerOf_some h2.1, answerOf_some h2.2.1, answerOf_some h2.2.2.1,
    answerOf_some h2.2.2.2, fun A' => not_served ?_ ?_ (by decide +kernel) (by decide +kernel),
    fun A' => not_served ?_ ?_ (by decide +kernel) (by decide +kernel),
    fun A' => not_served ?_ ?_ (by decide +kernel) (by decide +kernel)⟩
  all_goals
    intro q hq
    simp only [List.mem_cons, List.not_mem_nil, or_false] at hq
    rcases hq with rfl | rfl | rfl | rfl | rfl
  all_goals first
    | exact exNew_proper
    | trivial
    | (intro h hh; rfl)
    | (refine ⟨by unfold isDid; decide +kernel, fun h hh => ?_⟩; cases hh
       exact ⟨by unfold isDid; decide +kernel, by decide +kernel⟩)

/-- Request 3 has read the repo. -/
def exLate₁ : List TAct := [.arrive 3, .check 3, .read 3, .arrive 2, .read 2, .change 2, .finish 2 100]

def exLate₂ : List TAct := tsteps 3 7 ++ [.reply 3]

def exLate (s₁ s₂ : TState SC Nat) : Bool :=
  match s₂.c.pc 3, lastSeq s₁.c.w.seqs subscribeRepos with
  | .done cd, some n => decide (answerOf (s₁.stage 2) = some .done ∧
      storedStatus s₁.c.w exDid = some (some .deactivated) ∧
      answerOf (s₂.stage 3) = some (.written ⟨"at://did:plc:alice/coll/t".toList, .record 6⟩) ∧
      storedStatus s₂.c.w exDid = some (some .deactivated) ∧
      readHead exL .datastore s₁.c.w exDid ≠ readHead exL .datastore s₂.c.w exDid ∧ n < cd.commit.seq)
  | _, _ => false

/-- A request to deactivate the repo is answered. After that, a record is written to the repo, by a request that was
made before: the status is checked when the repo is loaded and in the `Repo` object that was loaded then (storage.py
526-530), and the transaction of the commit loads the repo again without checking it. The sequence number of the
commit is larger than that of the `#account` event. -/
theorem C70_late_false : ∃ s₁ s₂ cd n uri, exRun exLate₁ = some s₁ ∧ exRun (exLate₁ ++ exLate₂) = some s₂ ∧
    s₁.stage 2 = .answered .done ∧ storedStatus s₁.c.w exDid = some (some .deactivated) ∧
    s₂.stage 3 = .answered (.written uri) ∧ storedStatus s₂.c.w exDid = some (some .deactivated) ∧
    readHead exL .datastore s₁.c.w exDid ≠ readHead exL .datastore s₂.c.w exDid ∧
    s₂.c.pc 3 = .done cd ∧ lastSeq s₁.c.w.seqs subscribeRepos = some n ∧ n < cd.commit.seq := by
  have e : ((exRun exLate₁).bind fun s₁ => (exRun (exLate₁ ++ exLate₂)).map fun s₂ => exLate s₁ s₂) = some true := by
    decide +kernel
  obtain ⟨s₁, h1, e⟩ := Option.bind_eq_some_iff.1 e
  obtain ⟨s₂, h2, e⟩ := Option.map_eq_some_iff.1 e
  unfold exLate at e
  split at e
  · rename_i cd n hc hn
    obtain ⟨g1, g2, g3, g4, g5, g6⟩ := of_decide_eq_true e
    exact ⟨s₁, s₂, cd, n, _, h1, h2, answerOf_some g1, g2, answerOf_some g3, g4, g5, hc, hn, g6⟩
  · cases e

end Arroba.Xrpc
