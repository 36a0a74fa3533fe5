import Verif.Xrpc.Model

/-!
# Model of `arroba/xrpc_server.py`

`server.repo` is the repo object that app.py 129-133 loads or creates at startup, the parameter `main`;
`none` where app.py hasn't run, as in `testutil`.

Not modelled: describeServer, getAccountInviteCodes and listAppPasswords, which return constants.
-/

namespace Arroba.Xrpc

open Arroba.Store

variable {C R : Type} [DecidableEq C]

/-- xrpc_server.py 11-52. The answer of the session methods. -/
structure Session where
  handle : Option Key
  did : Option Did
  accessJwt : Key
  refreshJwt : Key
  deriving DecidableEq

/-- xrpc_server.py 11-25 `create_session`. The request's `password` isn't used. -/
def createSession (cfg : Config R) (be : Backend) (w : World C R) (identifier _password : Key) :
    World C R × Except Err Session :=
  match loadRepo be w identifier with
  | (w, .error e) => (w, .error e)
  | (w, .ok none) => (w, .error .value)
  | (w, .ok (some r)) =>
    match cfg.token with
    | none => (w, .error .key)
    | some token =>
      match w.heap[r]? with
      | none => (w, .error .attribute)
      | some o => (w, .ok ⟨o.handle, o.did, token, token⟩)

/-- xrpc_server.py 29-38 `get_session`. -/
def getSession (cfg : Config R) (w : World C R) (main : Option Ref) (header : Option Key) :
    Except Err (Option Key × Option Did) :=
  match auth cfg header with
  | .error e => .error e
  | .ok () =>
    match main.bind (w.heap[·]?) with
    | none => .error .attribute
    | some o => .ok (o.handle, o.did)

/-- xrpc_server.py 42-52 `refresh_session`. -/
def refreshSession (cfg : Config R) (w : World C R) (main : Option Ref) (header : Option Key) :
    Except Err Session :=
  match auth cfg header with
  | .error e => .error e
  | .ok () =>
    match cfg.token, main.bind (w.heap[·]?) with
    | none, _ => .error .key
    | some _, none => .error .attribute
    | some token, some o => .ok ⟨o.handle, o.did, token, token⟩

end Arroba.Xrpc
