import Verif.Db.CursorProps
import Verif.Db.TxnModel
import Verif.Db.Witness

/-!
# The database tests of the project, run on the model

These are tests of the model, not proofs of properties: the calls of /repo/check/check_db_*.c with the results their assertions ask for.
-/

namespace Verif.TestsDb

open Verif.Page Verif.Db

def bytes (s : String) : Bytes := s.toUTF8.toList

/-- `%0wd`. -/
def pad (w n : Nat) : String := let s := toString n; String.ofList (List.replicate (w - s.length) '0') ++ s

/-! The pages of the model are functions; between calls their used bytes are put into tables, so that the long tests run in reasonable time. -/

def table (p : Page) (a b : Nat) : Array UInt8 := Array.ofFn (n := b - a) fun i => p (a + i)
@[noinline] def ofTables (a b : Array UInt8) (p : Page) : Page := fun i =>
  if i < a.size then a.getD i 0 else if i < 4096 ∧ 4096 ≤ i + b.size then b.getD (i + b.size - 4096) 0 else p i

/-- The page with its header and slots, and its nodes, in tables. -/
def settlePage (p : Page) : Unit × Page :=
  let a := table p 0 (min (lower p) 4096)
  let b := table p (upper p) 4096
  ((), ofTables a b p)

def settleEnv (e : Env) : Env :=
  let a := ((List.range e.filePages).map fun n => table (e.file n) 0 4096).toArray
  { e with file := fun n => ofTables (a.getD n #[]) #[] zeroPage }

/-- Settle the pages a call changed last: those in front of the list. -/
def settleFront (k : Nat) (t : Txn) : Txn :=
  { t with dirty := (t.dirty.take k).map (fun e => (e.1, (settlePage e.2).2)) ++ t.dirty.drop k }

def fuel : Nat := 2000

def newEnv (mapPages : Nat) : Res Env := envCreate mapPages

def begin_ (e : Env) : Res (Env × Txn) := match beginWrite e with | some r => .ok r | none => .div

/-- Calls that must all give `APR_SUCCESS`. -/
def calls {α : Type} (f : Txn → α → Res (Status × Txn)) (t : Txn) (l : List α) : Res Txn := do
  let r ← l.foldlM (fun (s : Txn × Nat) x => do
    let r ← f s.1 x
    if r.1 = .success then .ok (if s.2 % 8 = 7 then settleFront 1 r.2 else r.2, s.2 + 1) else .ub) (t, 0)
  .ok r.1

def puts (e : Env) (t : Txn) (l : List (String × String)) : Res Txn := calls (fun t kv => put e fuel t (bytes kv.1) (bytes kv.2)) t l

def dels (e : Env) (t : Txn) (l : List String) : Res Txn := calls (fun t k => do
  let r ← del e t (bytes k)
  .ok (r.1, settleFront 1 r.2)) t l

def commit_ (e : Env) (t : Txn) : Res Env := do
  let r ← commit e fuel t
  if r.1 = .success then .ok (settleEnv r.2) else .ub

/-- One transaction that inserts. -/
def load (e : Env) (l : List (String × String)) : Res (Env × Txn) := do
  let b ← begin_ e
  let t ← puts b.1 b.2 l
  let e ← commit_ b.1 t
  .ok (e, t)

def unload (e : Env) (l : List String) : Res (Env × Txn) := do
  let b ← begin_ e
  let t ← dels b.1 b.2 l
  let e ← commit_ b.1 t
  .ok (e, t)

def gets (e : Env) (t : Txn) (l : List String) : Res (List (Option Bytes)) := l.mapM fun k => do
  let r ← get e t fuel (bytes k)
  match r with
  | .ok v => .ok (some v)
  | .error .notfound => .ok none
  | .error _ => .ub

def vals (l : List String) : List (Option Bytes) := l.map fun s => some (bytes s)

/-! ## check_db_split.c -/

def keys8 (a b : Nat) : List (String × String) := (List.range (b - a)).map fun i => ("key_" ++ pad 8 (a + i), "data_" ++ pad 8 (a + i))

/-! `test_root_split`. -/

#guard Res.holds (do
    let e ← newEnv 256
    let a ← load e (keys8 0 1)
    let b ← load a.1 (keys8 1 1000)
    let g ← gets b.1 (readTxn b.1) ((keys8 0 1000).map (·.1))
    .ok (a.2.root, b.2.root, g)) (fun r => r.1 != r.2.1 && r.2.2 == vals ((keys8 0 1000).map (·.2))) = true

/-! `test_leaf_split_basic`: ten entries come apart into five and five. -/

def leaf10 : Res Page := (List.range 10).foldlM (fun p i => do
    let r ← insert p i (.leaf (bytes ("key_" ++ pad 3 i)) (bytes ("data_value_" ++ pad 3 i)))
    if r.1 = .ok then .ok r.2 else .ub) (emptyPage true 2)

#guard Res.holds (do
    let p ← leaf10
    let s ← splitLeaf p 3
    .ok (s.map fun s => (isLeaf s.right, items s.left ++ items s.right == items p, numKeys s.left, numKeys s.right, s.divider)))
  (fun r => r == some (true, true, 5, 5, bytes "key_005")) = true

/-! ## check_db_write.c -/

def keysOf (k v : String) (n : Nat) : List (String × String) := (List.range n).map fun i => (k ++ "_" ++ pad 3 i, v ++ "_" ++ pad 3 i)

/-- Insert and look up in one transaction, which is then aborted; a reader comes after it. -/
def tryKeys (l q : List (String × String)) : Res (List (Option Bytes) × List (Option Bytes)) := do
  let e ← newEnv 256
  let b ← begin_ e
  let t ← puts b.1 b.2 l
  let g ← gets b.1 t (q.map (·.1))
  let h ← gets (abortWrite b.1) (readTxn (abortWrite b.1)) (q.map (·.1))
  .ok (g, h)

#guard ([([("testkey", "testvalue")], [("testkey", "testvalue")]), (keysOf "key" "value_%03d_data" 10, keysOf "key" "value_%03d_data" 10),
    ([("abort_key", "abort_value")], [("abort_key", "abort_value")]), (keysOf "sorted_key" "sorted_value" 8, keysOf "sorted_key" "sorted_value" 8),
    ((keysOf "reverse_key" "reverse_value" 8).reverse, keysOf "reverse_key" "reverse_value" 8)] : List (List (String × String) × List (String × String))).all
  (fun x => tryKeys x.1 x.2 == .ok (vals (x.2.map (·.2)), x.2.map fun _ => none)) = true

/-! `test_insert_duplicate_key`, `test_insert_rdonly_rejected`. -/

#guard Res.holds (do
    let e ← newEnv 256
    let b ← begin_ e
    let t ← puts b.1 b.2 [("dupkey", "value1")]
    let r ← put b.1 fuel t (bytes "dupkey") (bytes "value2")
    let q ← put e fuel (readTxn e) (bytes "rdonly_key") (bytes "rdonly_value")
    .ok (r.1, q.1)) (fun r => r == (.exist, .acces)) = true

/-! `test_commit_persistence`. -/

#guard Res.holds (do
    let e ← newEnv 256
    let a ← load e (keysOf "persist_key" "persist_value" 5)
    match ← envOpen a.1.file a.1.filePages 256 with
    | .error _ => .ub
    | .ok e => gets e (readTxn e) ((keysOf "persist_key" "persist_value" 5).map (·.1)))
  (fun g => g == vals ((keysOf "persist_key" "persist_value" 5).map (·.2))) = true

/-! `test_mvcc_isolation`: in an empty database. -/

#guard Res.holds (do
    let e ← newEnv 256
    match beginRead e 1 1 with
    | .error _ => .ub
    | .ok r1 => do
      let a ← load r1.1 [("isolation_key", "isolation_value")]
      let g ← gets a.1 r1.2 ["isolation_key"]
      match beginRead (endRead a.1 r1.2 1 1) 1 1 with
      | .error _ => .ub
      | .ok r2 => do
        let h ← gets r2.1 r2.2 ["isolation_key"]
        .ok (g, h)) (fun r => r == ([none], vals ["isolation_value"])) = true

/-! ## check_db_delete.c -/

def keys3 (a b : Nat) : List (String × String) := (List.range (b - a)).map fun i => ("key" ++ pad 3 (a + i), "value" ++ pad 3 (a + i))

#guard Res.holds (do
    let e ← newEnv 2560
    let a ← load e [("keyA", "valueA"), ("keyB", "valueB"), ("keyC", "valueC")]
    let b ← unload a.1 ["keyB"]
    gets b.1 (readTxn b.1) ["keyA", "keyB", "keyC"]) (fun g => g == [some (bytes "valueA"), none, some (bytes "valueC")]) = true

#guard Res.holds (do
    let e ← newEnv 2560
    let a ← load e (keys3 0 10)
    let b ← unload a.1 ["key000"]
    let c ← unload b.1 ["key009"]
    let g ← gets c.1 (readTxn c.1) ["key000", "key009"]
    let h ← gets c.1 (readTxn c.1) ((keys3 1 9).map (·.1))
    .ok (g, h)) (fun r => r == ([none, none], vals ((keys3 1 9).map (·.2)))) = true

#guard Res.holds (do
    let e ← newEnv 2560
    let a ← load e [("keyA", "valueA")]
    let b ← begin_ a.1
    let r ← del b.1 b.2 (bytes "keyZ")
    let c ← unload (abortWrite b.1) ["keyA"]
    let d ← begin_ c.1
    let s ← del d.1 d.2 (bytes "keyA")
    let q ← del a.1 (readTxn a.1) (bytes "keyA")
    .ok [r.1, s.1, q.1]) (fun l => l == [.notfound, .notfound, .inval]) = true

/-! ## check_db_mvcc.c -/

def nReaders (e : Env) : Nat := (e.readers.filter fun s => s.txnid != 0).length

/-! `test_reader_registration`. -/

#guard Res.holds (do
    let e ← newEnv 2560
    match beginRead e 7 1 with
    | .error _ => .ub
    | .ok a => match beginRead a.1 7 1 with
      | .error _ => .ub
      | .ok b => do
        let c := endRead b.1 a.2 7 1
        .ok [nReaders e, nReaders a.1, nReaders b.1, nReaders c, nReaders (endRead c b.2 7 1)]) (fun l => l == [0, 1, 2, 1, 0]) = true

/-! `test_oldest_reader_txnid`. -/

#guard Res.holds (do
    let e ← newEnv 2560
    let w1 ← load e [("key1\x00", "value1\x00")]
    match beginRead w1.1 7 1 with
    | .error _ => .ub
    | .ok r1 => do
      let w2 ← load r1.1 [("key2\x00", "value2\x00")]
      match beginRead w2.1 7 1 with
      | .error _ => .ub
      | .ok r2 => do
        let w3 ← load r2.1 [("key3\x00", "value3\x00")]
        match beginRead w3.1 7 1 with
        | .error _ => .ub
        | .ok r3 => do
          let a := endRead r3.1 r1.2 7 1
          let b := endRead a r2.2 7 1
          let c := endRead b r3.2 7 1
          .ok ([e, r1.1, r2.1, r3.1, a, b, c].map (fun e => oldestReader e.readers), [r1.2, r2.2, r3.2].map (·.txnid)))
  (fun r => r == ([0, 2, 2, 2, 3, 4, 0], [2, 3, 4])) = true

/-- `read_from_free_db`, napr_db.c: the value stored for a transaction id. -/
def freedBy (e : Env) (id : Nat) : Res (Except Status Bytes) := get e { readTxn e with root := metaFree e.liveMeta } fuel (le 8 id)

/-! `test_freed_pages_tracking`, `test_free_db_initialization`, `test_free_db_entry_storage`, `test_free_db_multiple_entries`. -/

#guard Res.holds (do
    let e ← newEnv 2560
    let a ← load e [("key1\x00", "value1\x00")]
    let b ← load a.1 [("key2\x00", "value2\x00")]
    let r ← freedBy b.1 b.2.txnid
    .ok (a.2.freed.length, metaFree a.1.liveMeta, b.2.freed.length, metaFree b.1.liveMeta, (readTxn b.1).freeRoot, r.toOption.map List.length))
  (fun r => r.1 == 0 && r.2.1 == 0 && decide (0 < r.2.2.1) && r.2.2.2.1 != 0 && r.2.2.2.1 == r.2.2.2.2.1 && r.2.2.2.2.2 == some (8 * r.2.2.1)) = true

#guard Res.holds (do
    let e ← newEnv 2560
    let a ← load e [("key1\x00", "value0\x00")]
    let s ← (List.range 5).foldlM (fun (s : Env × List Nat) i => do
      let r ← load s.1 [("key1\x00", "value" ++ toString (i + 1) ++ "\x00")]
      .ok (r.1, s.2 ++ [r.2.txnid])) (a.1, [])
    let l ← s.2.mapM (freedBy s.1)
    let n ← freedBy s.1 99999
    let g ← gets s.1 (readTxn s.1) ["key1\x00"]
    .ok (l, n, g)) (fun r => r.1.all (fun x => match x with | .ok v => decide (0 < v.length) && decide (v.length % 8 = 0) | .error _ => false) && r.2.1 == .error .notfound &&
      r.2.2 == vals ["value5\x00"]) = true

end Verif.TestsDb
