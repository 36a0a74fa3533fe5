import Verif.Blob.Table

/-!
# Executions on the table of blobs

`Run`: any number of `get_or_create` and `getBlob` calls, concurrently. `Seq`: one after the other.
-/

namespace Arroba.Blob

/-- What a fetch of the entity is served: the URL and the CID of the content. -/
def served (cfg : Config) (web : Key → Resp) (now : Int) (key : Key) (e : Entity) : List (Key × Key) :=
  if needsFetch cfg now e.blob then
    match web (location key e) with
    | .resp _ _ _ (.content cid _ _) => [(location key e, cid)]
    | _ => []
  else []

/-- A table, the entities that the threads have in memory, with their keys, and a record of all content
that has been served. `S` restricts the URLs that `get_or_create` is called with. -/
inductive Run (cfg : Config) (S : Key → Prop) : Table → List (Key × Entity) → List (Key × Key) → Prop
  | empty : Run cfg S [] [] []
  /-- the transaction of `get_or_create` -/
  | start {t mem log} (h : Run cfg S t mem log) (now : Int) {url : Key} (hu : url ≠ []) (hs : S url)
      (repo : Option Key) :
      Run cfg S (getOrInsert t now url repo).1 ((urlKey url, (getOrInsert t now url repo).2) :: mem) log
  /-- `getBlob` queries an entity -/
  | query {t mem log} (h : Run cfg S t mem log) {key : Key} {e : Entity} (hg : dictGet t key = some e) :
      Run cfg S t ((key, e) :: mem) log
  /-- `maybe_fetch` of an entity in memory -/
  | fetch {t mem log} (h : Run cfg S t mem log) {key : Key} {e : Entity} (hm : (key, e) ∈ mem)
      (ha : e.blob.inactive = false) (web : Key → Resp) (now : Int) :
      Run cfg S (fetchEntity cfg web t now key e).1
        ((key, (fetchEntity cfg web t now key e).2.1) :: mem) (log ++ served cfg web now key e)

/-- Calls that don't overlap. The list has the URL and the repo of each `get_or_create` call. -/
inductive Seq (cfg : Config) : Table → List (Key × Option Key) → Prop
  | empty : Seq cfg [] []
  | create {t calls} (h : Seq cfg t calls) (web : Key → Resp) (mimeOk : Key → Bool) (maxSize : Option Int)
      (now : Int) {url : Key} (hu : url ≠ []) (repo : Option Key) :
      Seq cfg (getOrCreateIn cfg web mimeOk maxSize t now url repo).1 (calls ++ [(url, repo)])
  | getBlob {t calls} (h : Seq cfg t calls) (web : Key → Resp) (now : Int) {cid : Key}
      {rows : List (Key × Entity)} (hr : IsResult t cid rows) :
      Seq cfg (getBlobLoop cfg web now t rows).1 calls

end Arroba.Blob
