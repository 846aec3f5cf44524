import Verif.Db.TxnModel

/-!
# Model of `src/napr_cache.c`

The cache is a database (`Verif.Db`) with at most one remembered transaction and a set of
visited paths.

* Paths are byte lists without a zero byte; both `strlen` (L311, L346) and `APR_HASH_KEY_STRING` (L387)
  then give the whole path.  The set of visited paths is a list read by membership.
* `NULL` arguments, `APR_ENOMEM` and failures of mutexes and pools are not modelled.
* A cursor of the C code holds pointers to pages, the cursor of the model the pages.  The two
  agree as long as the pages do not change under the cursor.  Deletions change leaves only, and
  only in their copies: so it is enough that a leaf the cursor comes to is not a copy.  `sweepFrom`
  asks for this and otherwise has no outcome (`ub`); `Verif.Cache.Live` has the cursor with pointers.
-/

namespace Verif.Cache

open Verif.Page Verif.Db

/-- napr_cache.h L47-53: the size of `napr_cache_entry_t` (three 8-byte numbers and a 16-byte hash). -/
def entrySize : Nat := 40

/-- napr_cache.c L24-32 `struct napr_cache_t`. -/
structure Cache where
  env : Env
  txn : Option Txn
  visited : List Bytes

/-- napr_cache.c L191-207 `napr_cache_begin_read`, called by thread `tid` of process `pid`.  A transaction
that is already remembered is forgotten. -/
def beginRead (c : Cache) (pid tid : Nat) : Status × Cache :=
  match Db.beginRead c.env pid tid with
  | .error e => (e, c)
  | .ok (env, t) => (.success, { c with env := env, txn := some t })

/-- napr_cache.c L209-225 `napr_cache_begin_write`; `none`: the caller waits for the writer lock. -/
def beginWrite (c : Cache) : Option (Status × Cache) :=
  match Db.beginWrite c.env with
  | none => none
  | some (env, t) => some (.success, { c with env := env, txn := some t })

/-- napr_db.c L1274-1313 `napr_db_txn_abort`. -/
def abortTxn (env : Env) (t : Txn) (pid tid : Nat) : Env :=
  if t.rdonly then endRead env t pid tid else Db.abortWrite env

/-- napr_cache.c L227-245 `napr_cache_end_read` and L267-285 `napr_cache_abort_write`. -/
def abort (c : Cache) (pid tid : Nat) : Status × Cache :=
  match c.txn with
  | none => (.inval, c)
  | some t => (.success, { c with env := abortTxn c.env t pid tid, txn := none })

/-- napr_cache.c L247-265 `napr_cache_commit_write`.  `fail` as in `Db.commitWith`. -/
def commitWrite (c : Cache) (fuel : Nat) (fail : Option Nat) (pid tid : Nat) : Res (Status × Cache) :=
  match c.txn with
  | none => .ok (.inval, c)
  | some t =>
    if t.rdonly then .ok (.success, { c with env := endRead c.env t pid tid, txn := none })
    else do
      let r ← commitWith (alloc c.env fuel) fail c.env t
      .ok (r.1, { c with env := r.2, txn := none })

/-- napr_cache.c L291-329 `napr_cache_lookup_in_txn`. -/
def lookup (c : Cache) (fuel : Nat) (path : Bytes) : Res (Except Status Bytes) :=
  match c.txn with
  | none => .ok (.error .inval)
  | some t => do
    match ← get c.env t fuel path with
    | .error e => .ok (.error e)
    | .ok v => if v.length ≠ entrySize then .ok (.error .general) else .ok (.ok v)

/-- napr_cache.c L331-354 `napr_cache_upsert_in_txn`; `entry` are the bytes of the record. -/
def upsert (c : Cache) (fuel : Nat) (path entry : Bytes) : Res (Status × Cache) :=
  match c.txn with
  | none => .ok (.inval, c)
  | some t => do
    let r ← put c.env fuel t path entry
    .ok (r.1, { c with txn := some r.2 })

/-- napr_cache.c L360-396 `napr_cache_mark_visited`. -/
def markVisited (c : Cache) (path : Bytes) : Cache := { c with visited := path :: c.visited }

/-- The cursor has just come to a leaf that is a copy. -/
def onCopy (t : Txn) (c : Cursor) : Bool :=
  match c.stack with
  | (p, 0) :: _ => (t.getDirty (pgno p)).isSome
  | _ => false

/-- napr_cache.c L440-474: the loop of the sweep, from a cursor result on, at most `n` times. -/
def sweepFrom (env : Env) (visited : List Bytes) (fuel : Nat) : Nat → Txn → Cursor × Except Status (Bytes × Bytes) → Res (Status × Txn)
  | 0, _, _ => .div
  | n + 1, t, r =>
    match r.2 with
    | .error .notfound => .ok (.success, t)
    | .error e => .ok (e, t)
    | .ok kv =>
      if onCopy t r.1 then .ub
      else if kv.1 ∈ visited then do
        let r ← cursorGet env t fuel r.1 .next
        sweepFrom env visited fuel n t r
      else do
        let d ← del env t kv.1
        if d.1 = .success then do
          let r ← cursorGet env d.2 fuel r.1 .next
          sweepFrom env visited fuel n d.2 r
        else .ok d

/-- napr_cache.c L398-514 `napr_cache_sweep`.  A caller that waits for the writer lock forever is `div`. -/
def sweep (c : Cache) (fuel : Nat) (fail : Option Nat) (pid tid : Nat) : Res (Status × Cache) :=
  match beginWrite c with
  | none => .div
  | some (_, c) =>
    match c.txn with
    | none => .ub
    | some t => do
      let r ← cursorGet c.env t fuel Cursor.opened (.seek .first)
      let s ← sweepFrom c.env c.visited fuel fuel t r
      if s.1 = .success then do
        let k ← commitWrite { c with txn := some s.2 } fuel fail pid tid
        if k.1 = .success then .ok (.success, { k.2 with visited := [] })
        else .ok k
      else .ok (s.1, (abort { c with txn := some s.2 } pid tid).2)

end Verif.Cache
