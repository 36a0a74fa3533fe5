import Verif.Example
import Verif.Storage.Exec

/-!
# A concrete instance of the storage model, for the non-vacuity examples and counterexamples

CIDs are symbolic (a perfect hash), records are numbers, layers are the real ones.
-/

namespace Arroba.Store

/-- Symbolic CIDs. -/
inductive SC where
  | node (d : NodeData SC)
  | record (r : Nat)
  | commit (c : Commit SC)
  | event (e : Event SC)

mutual
def SC.beq : SC → SC → Bool
  | .node ⟨l, e⟩, .node ⟨l', e'⟩ => SC.beqO l l' && SC.beqL e e'
  | .record a, .record b => a == b
  | .commit ⟨v, d, r, p, t, s⟩, .commit ⟨v', d', r', p', t', s'⟩ =>
    v == v' && d == d' && r == r' && SC.beqO p p' && SC.beq t t' && s == s'
  | .event ⟨k, s, d, t⟩, .event ⟨k', s', d', t'⟩ => SC.beqK k k' && s == s' && d == d' && t == t'
  | _, _ => false
def SC.beqK : EventKind SC → EventKind SC → Bool
  | .account a s, .account a' s' => a == a' && decide (s = s')
  | .identity h, .identity h' => h == h'
  | .sync c r, .sync c' r' => SC.beq c c' && r == r'
  | .tombstone, .tombstone => true
  | _, _ => false
def SC.beqO : Option SC → Option SC → Bool
  | none, none => true
  | some a, some b => SC.beq a b
  | _, _ => false
def SC.beqL : List (EntryData SC) → List (EntryData SC) → Bool
  | [], [] => true
  | ⟨p, k, v, t⟩ :: r, ⟨p', k', v', t'⟩ :: r' =>
    p == p' && k == k' && SC.beq v v' && SC.beqO t t' && SC.beqL r r'
  | _, _ => false
end

mutual
theorem SC.beq_iff : ∀ a b : SC, SC.beq a b = true ↔ a = b
  | .node ⟨l, e⟩, .node ⟨l', e'⟩ => by
    simp [SC.beq, SC.beqO_iff l l', SC.beqL_iff e e']
  | .record a, .record b => by simp [SC.beq]
  | .commit ⟨v, d, r, p, t, s⟩, .commit ⟨v', d', r', p', t', s'⟩ => by
    simp [SC.beq, SC.beqO_iff p p', SC.beq_iff t t', and_assoc]
  | .event ⟨k, s, d, t⟩, .event ⟨k', s', d', t'⟩ => by
    simp [SC.beq, SC.beqK_iff k k', and_assoc]
  | .node _, .record _ => by simp [SC.beq]
  | .node _, .commit _ => by simp [SC.beq]
  | .node _, .event _ => by simp [SC.beq]
  | .record _, .node _ => by simp [SC.beq]
  | .record _, .commit _ => by simp [SC.beq]
  | .record _, .event _ => by simp [SC.beq]
  | .commit _, .node _ => by simp [SC.beq]
  | .commit _, .record _ => by simp [SC.beq]
  | .commit _, .event _ => by simp [SC.beq]
  | .event _, .node _ => by simp [SC.beq]
  | .event _, .record _ => by simp [SC.beq]
  | .event _, .commit _ => by simp [SC.beq]
theorem SC.beqK_iff : ∀ a b : EventKind SC, SC.beqK a b = true ↔ a = b
  | .account a s, .account a' s' => by simp [SC.beqK]
  | .identity h, .identity h' => by simp [SC.beqK]
  | .sync c r, .sync c' r' => by simp [SC.beqK, SC.beq_iff c c']
  | .tombstone, .tombstone => by simp [SC.beqK]
  | .account _ _, .identity _ => by simp [SC.beqK]
  | .account _ _, .sync _ _ => by simp [SC.beqK]
  | .account _ _, .tombstone => by simp [SC.beqK]
  | .identity _, .account _ _ => by simp [SC.beqK]
  | .identity _, .sync _ _ => by simp [SC.beqK]
  | .identity _, .tombstone => by simp [SC.beqK]
  | .sync _ _, .account _ _ => by simp [SC.beqK]
  | .sync _ _, .identity _ => by simp [SC.beqK]
  | .sync _ _, .tombstone => by simp [SC.beqK]
  | .tombstone, .account _ _ => by simp [SC.beqK]
  | .tombstone, .identity _ => by simp [SC.beqK]
  | .tombstone, .sync _ _ => by simp [SC.beqK]
theorem SC.beqO_iff : ∀ a b : Option SC, SC.beqO a b = true ↔ a = b
  | none, none => by simp [SC.beqO]
  | some a, some b => by simp [SC.beqO, SC.beq_iff a b]
  | none, some _ => by simp [SC.beqO]
  | some _, none => by simp [SC.beqO]
theorem SC.beqL_iff : ∀ a b : List (EntryData SC), SC.beqL a b = true ↔ a = b
  | [], [] => by simp [SC.beqL]
  | ⟨p, k, v, t⟩ :: r, ⟨p', k', v', t'⟩ :: r' => by
    simp [SC.beqL, SC.beq_iff v v', SC.beqO_iff t t', SC.beqL_iff r r', and_assoc]
  | [], _ :: _ => by simp [SC.beqL]
  | _ :: _, [] => by simp [SC.beqL]
end

instance : DecidableEq SC := fun a b => decidable_of_iff _ (SC.beq_iff a b)

/-- The CID of a block. -/
def SC.of : Val SC Nat → SC
  | .node d => .node d
  | .record r => .record r
  | .commit c => .commit c
  | .event e => .event e

/-- Perfect hashing, real layers; records are numbers, `n` is `n` bytes long, and records from
2,000,000 on do not validate. -/
def exL : Lib SC Nat where
  zeros := leadingZerosOnHash
  hash := SC.of
  valid r := decide (r < 2000000)
  size r := r
  eventLike _ := false
  commitLike _ := false
  sign key _ nonce := [key, nonce]
  fuel := 200
  touch _ n := n

theorem exL_ok : exL.OK 128 where
  inj a b h := by cases a <;> cases b <;> simp_all [exL, SC.of]
  zeros := leadingZerosOnHash_le
  fuel := by decide
  touch _ _ := .refl

/-- A repo's DID, another one's, and a handle. -/
def exDid : Did := "did:plc:alice".toList
def exDid2 : Did := "did:plc:bob".toList
def exHandle : Key := "alice.com".toList

/-- Nothing fails. -/
def lucky : List Luck := [{}]

abbrev ExWorld := World SC Nat

/-- `Repo.create` for two repos. -/
def exW0 (be : Backend) : ExWorld :=
  (repoCreate exL be (repoCreate exL be .empty exDid (some exHandle) 7 true 100 lucky false).1
    exDid2 none 8 true 100 lucky false).1

def wr (action : Action) (rkey : String) (record : Option Nat) : Write Nat :=
  ⟨action, "coll".toList, rkey.toList, record⟩

/-- Two records in the first repo. -/
def exWrites : List (Write Nat) := [wr .create "a" (some 1), wr .create "b" (some 2)]

def exW1 (be : Backend) : ExWorld := (commit exL be (exW0 be) 0 exWrites none lucky false).1

/-- Every kind of write; `b` is rewritten with the same record. -/
def exWrites2 : List (Write Nat) :=
  [wr .create "c" (some 3), wr .update "a" (some 4), wr .update "b" (some 2), wr .delete "b" none]

def exW2 (be : Backend) : ExWorld := (commit exL be (exW1 be) 0 exWrites2 none lucky false).1

/-- A successful commit is not torn. -/
theorem NotTorn.of_ok {C R : Type} {be : Backend} {w : World C R}
    {res : World C R × Except Err (CommitData C R)} (h : (match res.2 with
      | .ok _ => true | .error _ => false) = true) : NotTorn be w res := by
  right; left
  cases hr : res.2 with
  | ok cd => exact ⟨cd, rfl⟩
  | error e => rw [hr] at h; cases h

theorem exW0_reach (be : Backend) : Reach exL be .orderly (exW0 be) := by
  refine .step (.step .empty (.create exDid (some exHandle) 7 true 100 lucky false ?_ ?_ ?_ ?_ ?_))
    (.create exDid2 none 8 true 100 lucky false ?_ ?_ ?_ ?_ ?_)
  · unfold isDid; decide +kernel
  · rintro h ⟨⟩; unfold isDid; decide +kernel
  · right; decide
  · exact .inr rfl
  · exact .inr rfl
  · unfold isDid; decide +kernel
  · rintro h ⟨⟩
  · right; decide
  · exact .inr rfl
  · exact .inr rfl

theorem exW1_reach (be : Backend) : Reach exL be .orderly (exW1 be) := by
  refine .step (exW0_reach be) (.commit 0 exWrites lucky false ⟨.inr (.of_ok ?_), ?_, ?_, .inr rfl⟩)
  · cases be <;> decide +kernel
  · right; decide
  · right; cases be <;> decide +kernel

theorem exW2_reach (be : Backend) : Reach exL be .orderly (exW2 be) := by
  refine .step (exW1_reach be) (.commit 0 exWrites2 lucky false ⟨.inr (.of_ok ?_), ?_, ?_, .inr rfl⟩)
  · cases be <;> decide +kernel
  · right; decide
  · right; cases be <;> decide +kernel

/-- Relaxing the restrictions on executions. -/
theorem Reach.weaken {C R : Type} [DecidableEq C] {L : Lib C R} {be : Backend} {al al' : Allow}
    (h1 : al.torn → al'.torn) (h2 : al.partway → al'.partway) (h3 : al.silent → al'.silent)
    (h4 : al.raising → al'.raising) {w : World C R} (h : Reach L be al w)
    (h5 : al.imports → al'.imports := by first | exact fun h => h | exact fun _ => trivial | exact fun h => False.elim h) :
    Reach L be al' w := by
  induction h with
  | empty => exact .empty
  | step _ h ih =>
    refine .step ih ?_
    cases h with
    | create did handle key callback time xs cbFails hd hh hp hs hr =>
      exact .create _ _ _ _ _ _ _ hd hh (hp.imp_left h2) (hs.imp_left h3) (hr.imp_left h4)
    | commit r writes xs cbFails h =>
      exact .commit _ _ _ _ ⟨h.torn.imp_left h1, h.partway.imp_left h2, h.silent.imp_left h3,
        h.raising.imp_left h4⟩
    | allocate hp => exact .allocate (h2 hp)
    | setStatus r s hp => exact .setStatus r s (h2 hp)
    | importBlocks did new hi hp hnew ha => exact .importBlocks did new (h5 hi) (h2 hp) hnew ha
    | setCallback r b => exact .setCallback r b
    | deactivate r t => exact .deactivate r t
    | activate r t => exact .activate r t
    | tombstone r t => exact .tombstone r t
    | event r k t hr => exact .event r k t hr
    | loadRepo q => exact .loadRepo q
    | repoLoad c ha st k cb hh => exact .repoLoad c ha st k cb hh
    | cache r o n ho hn => exact .cache r o n ho hn
    | «import» co ha k new hi h1 h2 h3 h4 h6 h7 => exact .import co ha k new (h5 hi) h1 h2 h3 h4 h6 h7

end Arroba.Store
