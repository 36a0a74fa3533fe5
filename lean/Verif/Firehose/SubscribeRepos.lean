import Verif.Py

/-!
# `com.atproto.sync.subscribeRepos` (xrpc_sync.py 111-163)
-/

namespace Arroba.Fire

/-- xrpc_sync.py 150-160. What `subscribe_repos` yields itself. -/
inductive Notice where
  /-- `({'op': -1}, {'error': 'FutureCursor', ...})` -/
  | futureCursor
  /-- `({'op': 1, 't': '#info'}, {'name': 'OutdatedCursor'})` -/
  | outdatedCursor
  deriving DecidableEq

/-- xrpc_sync.py 114-163. What `subscribe_repos` does: the notices it yields, and the argument with
which it goes on to yield everything from `firehose.subscribe`, if it does. -/
structure Served where
  notices : List Notice
  subscribe : Option (Option Int)
  deriving DecidableEq

/-- xrpc_sync.py 145-163 `subscribe_repos`; `cur` is `sequences.last`, `window` is
`ROLLBACK_WINDOW`. -/
def subscribeRepos (window : Nat) (cur : Option Nat) (cursor : Option Int) : Except Err Served :=
  match cur with
  | none => .error .assertion
  | some cur => match cursor with
    | none => .ok ⟨[], some none⟩
    | some c =>
      if c > cur then .ok ⟨[.futureCursor], none⟩
      else
        let start := max ((cur : Int) - window) 0
        if c < start then .ok ⟨[.outdatedCursor], some (some start)⟩
        else .ok ⟨[], some (some c)⟩

end Arroba.Fire
