import Verif.Db.Model

/-!
# Model of environments and transactions of `src/napr_db.c`

Opening a database, beginning, committing and aborting transactions, the reader table, and the
file operations of a commit in their order.  The operations inside a transaction are in
`Verif.Db.Model`.

* The map is shared, so what is written to the file is at once visible through the map; the
  `memcpy` into the stale meta page (L1178) stores what has just been written.
* The file operations of a commit are a list of actions.  A commit may stop after any number
  of them: because an operation reports an error (`commit` with `some k`) or because the machine
  stops (`Crash`).
* The dirty pages are written in the order of the model's list; the C code takes them in the
  order of its hash table.
* `APR_ENOMEM` from allocations and failures of mutexes are not modelled here; the flags of
  `napr_db_env_open`, its failures and several environments on one file are in `Verif.Db.Handle`.
* The page number map and the update of the child pointers (L618-696) are modelled as they are
  written, although they do not change anything as long as each page carries its own number.
-/

namespace Verif.Db

open Verif.Page

/-- napr_db_internal.h L131 `DB_MAGIC`. -/
def dbMagic : Nat := 0xDECAFBAD
/-- napr_db_internal.h L134 `DB_VERSION`. -/
def dbVersion : Nat := 1
/-- napr_db_internal.h L57 `MAX_READERS`. -/
def maxReaders : Nat := 126

/-- A page of zero bytes. -/
def zeroPage : Page := fun _ => 0

/-- A meta page: napr_db.c L92-101 `init_meta_page`, L1154-1160. -/
def metaPage (txnid root last free : Nat) : Page :=
  put64 (put64 (put64 (put64 (blit (blit zeroPage 0 (le 4 dbMagic)) 4 (le 4 dbVersion)) 8 txnid) 16 root) 24 last) 32 free

/-- napr_db.c L111-120 `validate_meta_page`. -/
def validMeta (p : Page) : Bool := ule p 0 4 == dbMagic && ule p 4 4 == dbVersion

/-- napr_db.c L128-162 `select_live_meta`: which meta page is live, if any. -/
def selectLive (m0 m1 : Page) : Option Nat :=
  if !validMeta m0 && !validMeta m1 then none
  else if validMeta m0 && !validMeta m1 then some 0
  else if !validMeta m0 && validMeta m1 then some 1
  else if metaTxnid m1 < metaTxnid m0 then some 0
  else some 1

/-- An empty slot of the reader table (a slot is free when its `txnid` is 0). -/
def noSlot : Slot := ⟨0, 0, 0⟩

/-- napr_db.c L296-356 `napr_db_env_open` of a file that does not exist, with `NAPR_DB_CREATE`: L204-209
makes it two pages long, L248-262 fills them.  A map of less than two pages is written beyond
its end. -/
def envCreate (mapPages : Nat) : Res Env :=
  if mapPages < 2 then .ub
  else .ok ⟨fun n => if n = 0 then metaPage 0 0 1 0 else if n = 1 then metaPage 1 0 1 0 else zeroPage,
    2, mapPages, 1, false, List.replicate maxReaders noSlot⟩

/-- napr_db.c L296-356 `napr_db_env_open` of an existing file.  The meta pages are read through the
map whatever the length of the file. -/
def envOpen (file : Nat → Page) (filePages mapPages : Nat) : Res (Except Status Env) :=
  if mapPages < 2 ∨ filePages < 2 then .ub
  else match selectLive (file 0) (file 1) with
    | none => .ok (.error .inval)
    | some l => .ok (.ok ⟨file, filePages, mapPages, l, false, List.replicate maxReaders noSlot⟩)

/-! ## Begin and end -/

/-- napr_db.c L497-599 `napr_db_txn_begin` of a write transaction; `none`: the caller waits for the
writer lock (L520-526). -/
def beginWrite (env : Env) : Option (Env × Txn) :=
  if env.locked then none
  else some ({ env with locked := true },
    ⟨false, (metaTxnid env.liveMeta + 1) % 2 ^ 64, metaRoot env.liveMeta, metaFree env.liveMeta, metaLast env.liveMeta, [], []⟩)

/-- The transaction that L529-541 sets up for a reader. -/
def readTxn (env : Env) : Txn :=
  ⟨true, metaTxnid env.liveMeta, metaRoot env.liveMeta, metaFree env.liveMeta, metaLast env.liveMeta, [], []⟩

/-- napr_db.c L577-587: enter the slot at the first free place; `none` if there is none. -/
def register (s : Slot) : List Slot → Option (List Slot)
  | [] => none
  | x :: rest =>
    if x.txnid = 0 then some (s :: rest)
    else (register s rest).map (x :: ·)

/-- napr_db.c L1204-1215: clear the first slot with this transaction id, process and thread. -/
def unregister (pid tid txnid : Nat) : List Slot → List Slot
  | [] => []
  | x :: rest =>
    if x.txnid = txnid ∧ x.pid = pid ∧ x.tid = tid then noSlot :: rest
    else x :: unregister pid tid txnid rest

/-- napr_db.c L497-599 `napr_db_txn_begin` of a read transaction by thread `tid` of process `pid`. -/
def beginRead (env : Env) (pid tid : Nat) : Except Status (Env × Txn) :=
  match register ⟨pid, tid, (readTxn env).txnid⟩ env.readers with
  | none => .error .nomem
  | some rs => .ok ({ env with readers := rs }, readTxn env)

/-- The end of a read transaction, by commit (L1196-1225) or abort (L1284-1302), called by thread
`tid` of process `pid`. -/
def endRead (env : Env) (t : Txn) (pid tid : Nat) : Env :=
  { env with readers := unregister pid tid t.txnid env.readers }

/-- napr_db.c L1274-1313 `napr_db_txn_abort` of a write transaction. -/
def abortWrite (env : Env) : Env := { env with locked := false }

/-! ## The Free DB entry of a commit -/

/-- napr_db.c L837-921 `insert_into_free_db`: the new root of the Free DB.  A failing descent
starts a new Free DB. -/
def insertFree (al : Alloc) (env : Env) (t : Txn) (key val : Bytes) : Res (Txn × Except Status Nat) := do
  match ← findPath env t key maxDepth t.freeRoot with
  | .error _ => newTree al t key val
  | .ok path => do
    let leaf ← getPage env t (path.getLastD 0)
    let f ← probe leaf key
    if f.hit then .ok (t, .error .exist)
    else do
      let c ← cowPath env t path.reverse
      let p ← Res.ofOption (c.2.getDirty c.1)
      let r ← insert p f.idx (.leaf key val)
      match r.1 with
      | .ok => .ok (c.2.setDirty c.1 r.2, .ok (path.headD 0))
      | .inval => .ok (c.2, .error .inval)
      | .nospc => pageSplit al c.2 c.1 path key val

/-- napr_db.c L923-950 `populate_free_db`: the freed pages of this transaction under its id.  Pages
that the Free DB itself copies are added to the array after its contents have been taken. -/
def populate (al : Alloc) (env : Env) (t : Txn) : Res (Txn × Except Status Nat) :=
  if t.freed = [] then .ok (t, .ok t.freeRoot)
  else if t.freeRoot = 0 ∨ maxPgno env t < t.freeRoot then newTree al t (le 8 t.txnid) (t.freed.flatMap (le 8))
  else insertFree al env t (le 8 t.txnid) (t.freed.flatMap (le 8))

/-! ## Writing the pages -/

/-- napr_db.c L618-655 `build_pgno_map` and the lookups in it. -/
def newPgno (t : Txn) (n : Nat) : Nat :=
  match t.getDirty n with
  | some p => pgno p
  | none => n

/-- napr_db.c L686-694: the child pointers of a branch page, from entry `i` on. -/
def remapFrom (m : Nat → Nat) (p : Page) (i : Nat) : Nat → Res Page
  | 0 => .ok p
  | k + 1 => do
    let o ← rdSlot p i
    chk o 8
    remapFrom m (put64 p o (m (u64 p o))) (i + 1) k

/-- napr_db.c L674-695: one dirty page. -/
def remap (m : Nat → Nat) (p : Page) : Res Page :=
  if isBranch p then remapFrom m p 0 (numKeys p) else .ok p

/-- napr_db.c L663-696 `update_dirty_page_pointers`: the pages to write with their numbers. -/
def remapAll (m : Nat → Nat) : List (Nat × Page) → Res (List (Nat × Page))
  | [] => .ok []
  | e :: rest => do
    let p ← remap m e.2
    let ps ← remapAll m rest
    .ok ((pgno p, p) :: ps)

/-- An operation on the database file. -/
inductive Act where
  | grow (pages : Nat)
  | write (n : Nat) (p : Page)
  | sync

/-- A longer file; the new part is read as zero bytes. -/
def growFile (env : Env) (k : Nat) : Env :=
  if env.filePages < k then
    { env with file := fun n => if n < env.filePages then env.file n else zeroPage, filePages := k }
  else env

/-- A page written to the file, which grows if the page is beyond its end. -/
def writeFile (env : Env) (n : Nat) (p : Page) : Env :=
  { growFile env (n + 1) with file := fun m => if m = n then p else (growFile env (n + 1)).file m }

/-- The effect of an operation on the file. -/
def Act.run (env : Env) : Act → Env
  | .grow k => growFile env k
  | .write n p => writeFile env n p
  | .sync => env

/-- Operations one after the other. -/
def runActs (env : Env) (acts : List Act) : Env := acts.foldl Act.run env

/-- napr_db.c L703-736 `extend_database_file`. -/
def extendActs (env : Env) (t : Txn) : List Act :=
  if metaLast env.liveMeta < t.newLast then
    if env.filePages < t.newLast + 1 then [.grow (t.newLast + 1), .sync] else []
  else []

/-- napr_db.c L743-774 `write_dirty_pages_to_disk`. -/
def writeActs (ps : List (Nat × Page)) : List Act := ps.map (fun e => Act.write e.1 e.2) ++ [.sync]

/-- The number of the meta page that is not live: napr_db.c L1145-1152. -/
def staleMeta (env : Env) : Nat := if env.live = 0 then 1 else 0

/-- napr_db.c L1135-1175 `commit_meta_page`. -/
def metaActs (env : Env) (t : Txn) (root free : Nat) : List Act :=
  [.write (staleMeta env) (metaPage t.txnid root t.newLast free), .sync]

/-- The file operations of a commit: napr_db.c L1229-1254. -/
def commitActs (al : Alloc) (env : Env) (t : Txn) : Res (Except Status (List Act)) := do
  let r ← populate al env t
  match r.2 with
  | .error e => .ok (.error e)
  | .ok free => do
    let ps ← remapAll (newPgno r.1) r.1.dirty
    .ok (.ok (extendActs env r.1 ++ writeActs ps ++ metaActs env r.1 (newPgno r.1 r.1.root) free))

/-- napr_db.c L1184-1262 `napr_db_txn_commit` of a write transaction.  `some k`: the file operation
number `k` reports an error.  Only a complete commit changes which meta page is live (L1179). -/
def commitWith (al : Alloc) (fail : Option Nat) (env : Env) (t : Txn) : Res (Status × Env) :=
  if t.dirty = [] then .ok (.success, { env with locked := false })
  else do
    match ← commitActs al env t with
    | .error e => .ok (e, { env with locked := false })
    | .ok acts =>
      match fail with
      | some k =>
        if k < acts.length then .ok (.general, { runActs env (acts.take k) with locked := false })
        else .ok (.success, { runActs env acts with locked := false, live := staleMeta env })
      | none => .ok (.success, { runActs env acts with locked := false, live := staleMeta env })

/-- `napr_db_txn_commit` with the allocator of the library. -/
def commit (env : Env) (fuel : Nat) (t : Txn) : Res (Status × Env) := commitWith (alloc env fuel) none env t

/-! ## Stopping in between -/

/-- Is it a `sync`? -/
def Act.isSync : Act → Bool
  | .sync => true
  | _ => false

/-- The operations up to the last `sync`. -/
def synced (acts : List Act) : List Act := (acts.reverse.dropWhile fun a => !a.isSync).reverse

/-- The operations after the last `sync`. -/
def unsynced (acts : List Act) : List Act := acts.reverse.takeWhile fun a => !a.isSync

/-- What may be found in the file when the machine stopped after the operations `acts`: what was
there at the last `sync`, and of what was written later any selection of the bytes.  A write
to a meta page happens completely or not at all. -/
structure Crash (env : Env) (acts : List Act) (file : Nat → Page) : Prop where
  data : ∀ n b, 2 ≤ n → file n b = (runActs env (synced acts)).file n b ∨
    ∃ p, Act.write n p ∈ unsynced acts ∧ file n b = p b
  head : ∀ n, n < 2 → file n = (runActs env (synced acts)).file n ∨
    ∃ p, Act.write n p ∈ unsynced acts ∧ file n = p

end Verif.Db
