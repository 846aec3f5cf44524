import Verif.Db.Props
import Verif.Db.TxnModel

/-!
# What a database holds between transactions

The specification side of the transaction properties: `DbOk env h hf m fl` says that the committed
state of the database is the map `m` (what a read transaction begun now is to answer).
-/

namespace Verif.Db

open Verif.Page

/-- The pages of a tree that may be missing (root 0). -/
def treePages (g : View) (h r : Nat) : List Nat := if r = 0 then [] else pagesOf g h r

/-- The Free DB with root `fr` and height `hf` holds the entries `fl`. -/
def FreeDb (g : View) (hf fr : Nat) (fl : List (Bytes × Bytes)) : Prop :=
  (fr = 0 ∧ fl = []) ∨
  (fr ≠ 0 ∧ WFT g hf none none fr ∧ Full g hf fr ∧ (pagesOf g hf fr).Nodup ∧ contents g hf fr = fl)

/-- The committed state of the database is the map `m`, in a tree of height `h`; the Free DB has
the entries `fl`, each under the id of a transaction that has committed.  Both meta pages are
valid and the live one is the newer; the two trees share no page and lie in the file and the
map. -/
structure DbOk (env : Env) (h hf : Nat) (m : KvMap) (fl : List (Bytes × Bytes)) : Prop where
  live : env.live < 2
  valid : ∀ n < 2, validMeta (env.file n) = true
  newest : metaTxnid (env.file (staleMeta env)) < metaTxnid env.liveMeta
  main : IsMap env (readTxn env) h m
  low : ∀ x ∈ treePages (mapPage env) h (metaRoot env.liveMeta), 2 ≤ x
  free : FreeDb (mapPage env) hf (metaFree env.liveMeta) fl
  depth : hf < maxDepth
  apart : ∀ x ∈ treePages (mapPage env) hf (metaFree env.liveMeta), 2 ≤ x ∧ x ≤ metaLast env.liveMeta ∧
    x ∉ treePages (mapPage env) h (metaRoot env.liveMeta)
  ids : ∀ kv ∈ fl, ∃ i ≤ metaTxnid env.liveMeta, kv.1 = le 8 i
  first : 1 ≤ metaLast env.liveMeta
  file : metaLast env.liveMeta < env.filePages
  map : metaLast env.liveMeta < env.mapPages
  cap : env.mapPages < 2 ^ 52

/-- The pages that the main tree of a write transaction keeps off: the meta pages and the Free DB. -/
def offLimits (env : Env) (hf : Nat) : List Nat := 0 :: 1 :: treePages (mapPage env) hf (metaFree env.liveMeta)

end Verif.Db
