import Verif.Xrpc.Model
import Verif.Storage.Example

/-! A concrete server, for the examples and counterexamples. -/

namespace Arroba.Xrpc

open Arroba.Store

/-- A server with a token that supports all collections; the record 0 is empty. -/
def exCfg : Config Nat where
  token := some "secret".toList
  flask := true
  supported := []
  netlocOk _ := true
  empty r := r == 0
  typ _ := some "coll".toList

/-- The right header. -/
def exHeader : Option Key := some "Bearer secret".toList

/-- Alice's repo is deactivated. -/
def exInactive (be : Backend) : ExWorld := (deactivateRepo exL be (exW1 be) 0 200).1

theorem exInactive_reach (be : Backend) : Reach exL be .orderly (exInactive be) :=
  .step (exW1_reach be) (.deactivate 0 200)

end Arroba.Xrpc
