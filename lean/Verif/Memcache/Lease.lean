import Verif.Py
import Mathlib.Logic.Function.Basic

/-!
# `Lease` (memcache.py 11-94)

Any number of `Lease` objects for one key, in any processes, and the memcached server. Times are in
microseconds, as in `datetime` and `timedelta`. Every process has a clock of its own, which may be
adjusted at any moment; the server's time is `now`.
-/

namespace Arroba.Lease

/-- A second. -/
abbrev sec : Int := 1000000

/-- The constructor's arguments (memcache.py 31-49). `expiration` is not negative. The delay between
attempts is constant (line 74 is commented out). -/
structure Conf where
  expiration : Nat
  retries : Nat
  delay : Nat

/-- memcache.py 65 `int(self.expiration.total_seconds())`. -/
def Conf.expire (c : Conf) : Nat := c.expiration / 1000000

/-- memcache.py 51-86. Where a `Lease` object is. -/
inductive Loc where
  /-- `expires_at` is None, and `acquire` is not running -/
  | idle
  /-- memcache.py 64, about to send `add`; this many attempts have been refused -/
  | trying (refused : Nat)
  /-- memcache.py 72, until this time -/
  | sleeping (refused : Nat) (till : Int)
  /-- memcache.py 64, the server has accepted `add` but the answer hasn't been seen. `since` and `ends` are
  when that was and when the entry ends on the server: they are not known to the code. -/
  | added (since : Int) (ends : Option Int)
  /-- `expires_at` is set -/
  | held (since : Int) (ends : Option Int) (expiresAt : Int)
  /-- memcache.py 83, about to send `delete` -/
  | deleting (since : Int) (ends : Option Int) (expiresAt : Int)
  /-- `release` has returned: line 84, or line 86 -/
  | released
  /-- an exception of the client (or of the process) ended it -/
  | dead
  deriving DecidableEq

/-- memcache.py 64. The server's entry for the key: who added it (not known to the server: all leases
write the same value, `locked`), when, and when it ends. -/
structure Entry where
  owner : Nat
  since : Int
  ends : Option Int
  deriving DecidableEq

/-- memcache.py 11-94: all `Lease` objects, their clocks, and memcached. -/
structure State where
  now : Int
  /-- `webutil.util.now()` in the process of each lease -/
  clock : Nat → Int
  entry : Option Entry
  loc : Nat → Loc

def State.goto (s : State) (i : Nat) (l : Loc) : State :=
  { s with loc := Function.update s.loc i l }

/-- memcached: an entry is visible until it ends. -/
def Entry.live (e : Entry) (now : Int) : Prop := ∀ t ∈ e.ends, now < t

instance (e : Entry) (now : Int) : Decidable (e.live now) :=
  decidable_of_iff (e.ends.all fun t => decide (now < t)) (by
    unfold Entry.live; cases e.ends <;> simp)

/-- memcache.py 64. memcached: the key is taken. -/
def State.taken (s : State) : Prop := ∃ e ∈ s.entry, e.live s.now

instance (s : State) : Decidable s.taken :=
  decidable_of_iff (s.entry.any fun e => decide (e.live s.now)) (by
    unfold State.taken; cases s.entry <;> simp)

/-- memcached's reading of the `expire` argument: 0 means never, up to thirty days is relative to now,
anything larger is an absolute Unix time. Its clock ticks once per second, so that an entry ends up to
a second early. -/
def endOf (now : Int) (expire early : Nat) : Option Int :=
  if expire = 0 then none
  else if expire ≤ 2592000 then some (now + expire * sec - early)
  else some (expire * sec - early)

/-- memcache.py 51-86, and what memcached and the clocks do. -/
inductive Act where
  /-- the server's time and all processes' clocks advance -/
  | tick (d : Nat)
  /-- the clock of a process is adjusted, forwards or backwards -/
  | adjust (i : Nat) (d : Int)
  /-- the server loses the entry: eviction, restart, flush -/
  | evict
  /-- `acquire` is called -/
  | acquire (i : Nat)
  /-- the server runs `add` -/
  | add (i : Nat) (early : Nat)
  /-- the client returns from `add` -/
  | reply (i : Nat)
  /-- `time.sleep` returns -/
  | wake (i : Nat)
  /-- `release` is called -/
  | release (i : Nat)
  /-- the server runs `delete` -/
  | delete (i : Nat)
  /-- an exception, at any point -/
  | fail (i : Nat)
  deriving DecidableEq

variable (conf : Nat → Conf)

/-- memcache.py 51-86: one step. None when it can't happen. -/
def act (s : State) : Act → Option State
  | .tick d => some { s with now := s.now + d, clock := fun i => s.clock i + d }
  | .adjust i d => some { s with clock := Function.update s.clock i (s.clock i + d) }
  | .evict => some { s with entry := none }
  | .acquire i =>
    match s.loc i with
    -- memcache.py 57
    | .idle => some (s.goto i (.trying 0))
    | _ => none
  | .add i early =>
    match s.loc i with
    | .trying n =>
      if early < 1000000 then
        -- memcache.py 64
        if s.taken then
          -- memcache.py 70
          if n < (conf i).retries then
            some (s.goto i (.sleeping (n + 1) (s.now + (conf i).delay)))
          -- memcache.py 76
          else some (s.goto i .idle)
        else
          let ends := endOf s.now (conf i).expire early
          some ({ s with entry := some ⟨i, s.now, ends⟩ }.goto i (.added s.now ends))
      else none
    | _ => none
  | .reply i =>
    match s.loc i with
    -- memcache.py 66
    | .added since ends => some (s.goto i (.held since ends (s.clock i + (conf i).expiration)))
    | _ => none
  | .wake i =>
    match s.loc i with
    | .sleeping n till => if till ≤ s.now then some (s.goto i (.trying n)) else none
    | _ => none
  | .release i =>
    match s.loc i with
    | .held since ends expiresAt =>
      -- memcache.py 82
      if s.clock i ≤ expiresAt then some (s.goto i (.deleting since ends expiresAt))
      else some (s.goto i .released)
    | _ => none
  | .delete i =>
    match s.loc i with
    -- memcache.py 83: whatever the entry is
    | .deleting _ _ _ => some ({ s with entry := none }.goto i .released)
    | _ => none
  | .fail i => some (s.goto i .dead)

/-- Nothing has happened yet. -/
def State.fresh (s : State) : Prop := s.entry = none ∧ ∀ i, s.loc i = .idle

/-- The executions all of whose steps, from the state that each one starts in, are `ok`. -/
inductive Reach (ok : State → Act → Prop) : State → Prop
  | init {s} : s.fresh → Reach ok s
  | step {s s' a} : Reach ok s → ok s a → act conf s a = some s' → Reach ok s'

/-- memcache.py 51-86. The code's view: it has acquired, has not released, and `expires_at` hasn't
passed. -/
def State.believes (s : State) (i : Nat) : Prop :=
  ∃ since ends expiresAt, s.loc i = .held since ends expiresAt ∧ s.clock i ≤ expiresAt

end Arroba.Lease
