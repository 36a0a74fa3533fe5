import Verif.Xrpc.Survive

/-!
# Starting the server

`app.py` loads the repo of the server when it is started, and makes it if there is none.
-/

namespace Arroba.Xrpc

open Arroba.Store

variable {C R : Type} [DecidableEq C]

/-- The environment variables of `app.py`: `REPO_DID` and `REPO_HANDLE`. -/
structure Home where
  did : Did
  handle : Key

/-- app.py 125-130. The server is started; the exception is one with which the process ends. (The keys come from
`REPO_PRIVKEY`, in `x`.) -/
def start (cfg : Config R) (out : Surroundings) (L : Lib C R) (home : Home) (w : World C R) (x : Chance) :
    World C R × Answer C R :=
  match loadRepo .datastore w home.did with
  | (w, .error e) => (w, .failed e)
  | (w, .ok (some _)) => (w, .done)
  | (w, .ok none) => serve cfg out L .datastore w x (.newRepo home.did (some home.handle))

/-- app.py 125-130. What is in the Datastore when the process is killed while it starts: loading a repo writes nothing. -/
inductive StartLeaves (cfg : Config R) (out : Surroundings) (L : Lib C R) (home : Home) (w : World C R) :
    World C R → Prop
  | idle : StartLeaves cfg out L home w w
  | loading {w1 : World C R} {res : Except Err (Option Ref)} (h : loadRepo .datastore w home.did = (w1, res)) :
      StartLeaves cfg out L home w w1
  | making {w1 w' : World C R} (h : loadRepo .datastore w home.did = (w1, .ok none))
      (hl : Leaves cfg out L w1 (.newRepo home.did (some home.handle)) w') : StartLeaves cfg out L home w w'

/-- What happens to a server. -/
inductive Occasion (R : Type) where
  | start
  | request (q : Request R)

/-- Starts and requests, one after another, and what became of them. -/
inductive Lived (cfg : Config R) (out : Surroundings) (L : Lib C R) (home : Home) :
    World C R → List (Occasion R) → List (Outcome C R) → World C R → Prop
  | nil (w : World C R) : Lived cfg out L home w [] [] w
  | request {w w1 w' : World C R} {q : Request R} {o : Outcome C R} {l : List (Occasion R)} {os : List (Outcome C R)}
      (h : Struggled cfg out L w [q] [o] w1) (h' : Lived cfg out L home w1 l os w') :
      Lived cfg out L home w (.request q :: l) (o :: os) w'
  | fine {w w' : World C R} {l : List (Occasion R)} {os : List (Outcome C R)} (x : Chance) (hf : Fine w x.xs)
      (hc : x.raises = false) (h' : Lived cfg out L home (start cfg out L home w x).1 l os w') :
      Lived cfg out L home w (.start :: l) (.fine (start cfg out L home w x).2 :: os) w'
  | troubled {w w' : World C R} {l : List (Occasion R)} {os : List (Outcome C R)} (x : Chance)
      (h' : Lived cfg out L home (start cfg out L home w x).1 l os w') :
      Lived cfg out L home w (.start :: l) (.troubled (start cfg out L home w x).2 :: os) w'
  | killed {w w1 w' : World C R} {l : List (Occasion R)} {os : List (Outcome C R)}
      (hl : StartLeaves cfg out L home w w1) (h' : Lived cfg out L home w1 l os w') :
      Lived cfg out L home w (.start :: l) (.killed :: os) w'

/-! ### What should become of them -/

/-- An account without records. -/
def fresh (home : Home) : Account R := ⟨some home.handle, none, fun _ => none⟩

/-- A start does nothing if the server has an account; otherwise it makes one, unless it fails or is killed, and then
there is still none, or, if it was killed, perhaps a new one. -/
inductive Begins (home : Home) (A : Accounts R) : Outcome C R → Accounts R → Prop
  | again {a : Account R} (h : A home.did = some a) : Begins home A (.fine .done) A
  | againTroubled {a : Account R} (h : A home.did = some a) : Begins home A (.troubled .done) A
  | first (h : A home.did = none) : Begins home A (.fine .done) (Function.update A home.did (some (fresh home)))
  | firstTroubled (h : A home.did = none) :
      Begins home A (.troubled .done) (Function.update A home.did (some (fresh home)))
  | failed (h : A home.did = none) (e : Err) : Begins home A (.troubled (.failed e)) A
  | killed : Begins home A .killed A
  | killedFirst (h : A home.did = none) : Begins home A .killed (Function.update A home.did (some (fresh home)))

/-- All of them. -/
inductive Lives (cfg : Config R) (out : Surroundings) (L : Lib C R) (home : Home) :
    Accounts R → List (Occasion R) → List (Outcome C R) → Accounts R → Prop
  | nil (A : Accounts R) : Lives cfg out L home A [] [] A
  | start {A A' A'' : Accounts R} {o : Outcome C R} {l : List (Occasion R)} {os : List (Outcome C R)}
      (h : Begins home A o A') (h' : Lives cfg out L home A' l os A'') :
      Lives cfg out L home A (.start :: l) (o :: os) A''
  | request {A A' A'' : Accounts R} {q : Request R} {o : Outcome C R} {l : List (Occasion R)}
      {os : List (Outcome C R)} (h : Manages cfg out L A q o A') (h' : Lives cfg out L home A' l os A'') :
      Lives cfg out L home A (.request q :: l) (o :: os) A''

end Arroba.Xrpc
