import Verif.Page.Model

/-!
# Model of the tree operations of `src/napr_db.c`, `src/napr_db_tree.c`, `src/napr_db_cursor.c`

The operations inside one transaction: page lookup, descent, `get`, `put` with page splits,
`del`, cursors, page allocation with reclamation from the Free DB.  Pages are the byte-level
pages of `Verif.Page.Model`.

* The memory map is a function from page numbers to pages.  Reading a page beyond the mapped
  size or beyond the end of the file is undefined behaviour.
* The dirty-page hash table is an association list from page numbers to page buffers.  A buffer
  that the C code changes in place through a pointer is changed here under its table key.  The
  one case in which a caller goes on using a buffer that a split has just displaced from the
  table (the new page got the very number of the page being split) is modelled in
  `insertHalf`.
* `putWith` takes the page allocator as a parameter because in the C code allocation may call
  `put` again (for the Free DB); `alloc` ties the knot with fuel.

Simplifications: memory allocation and the mutexes do not fail; NULL arguments are not
modelled; a cursor keeps the pages it visited as values, so it models iteration without
modifications in between (`Verif.Db.Live` has the cursor with pointers).  The key that `update_or_delete_reclaimed_entry` uses after its deletion is read through a
pointer into the page it has just modified; `putRest` models this, up to changes that allocations
inside that `put` may make.
-/

namespace Verif.Db

open Verif.Page

/-- The `apr_status_t` values used. -/
inductive Status where
  | success | inval | nospc | exist | notfound | acces | general | incomplete | nomem
  deriving Repr, DecidableEq

/-- Status of a page operation as an `apr_status_t`. -/
def ofSt : St → Status
  | .ok => .success
  | .inval => .inval
  | .nospc => .nospc

/-- A slot of the reader table, napr_db_internal.h L72-78 `DB_ReaderSlot`. -/
structure Slot where
  pid : Nat
  tid : Nat
  txnid : Nat
  deriving Repr, DecidableEq

/-- The environment, napr_db_internal.h `struct napr_db_env_t`: file contents as seen through
the shared map, length of the file and of the map in pages, which meta page is live, whether
the writer lock is held, and the reader table. -/
structure Env where
  file : Nat → Page
  filePages : Nat
  mapPages : Nat
  live : Nat
  locked : Bool
  readers : List Slot

/-- A transaction, napr_db_internal.h `struct napr_db_txn_t`.  `freed` is the array of freed
page numbers in push order. -/
structure Txn where
  rdonly : Bool
  txnid : Nat
  root : Nat
  freeRoot : Nat
  newLast : Nat
  dirty : List (Nat × Page)
  freed : List Nat

/-- `apr_hash_get(txn->dirty_pages, &pgno)`. -/
def Txn.getDirty (t : Txn) (n : Nat) : Option Page := t.dirty.lookup n

/-- `apr_hash_set(txn->dirty_pages, &pgno, page)`, or an in-place change of the buffer. -/
def Txn.setDirty (t : Txn) (n : Nat) (p : Page) : Txn :=
  { t with dirty := (n, p) :: t.dirty.filter fun e => e.1 != n }

/-- The page at `map_addr + pgno * PAGE_SIZE`. -/
def mapPage (env : Env) (n : Nat) : Res Page :=
  if n < env.mapPages ∧ n < env.filePages then .ok (env.file n) else .ub

/-- napr_db_tree.c L143-157 `db_get_page`. -/
def getPage (env : Env) (t : Txn) (n : Nat) : Res Page :=
  if t.rdonly then mapPage env n
  else match t.getDirty n with
    | some p => .ok p
    | none => mapPage env n

/-- napr_db_internal.h L197-215 `DB_MetaPage`: `txnid`. -/
def metaTxnid (p : Page) : Nat := u64 p 8
/-- `DB_MetaPage.root`. -/
def metaRoot (p : Page) : Nat := u64 p 16
/-- `DB_MetaPage.last_pgno`. -/
def metaLast (p : Page) : Nat := u64 p 24
/-- `DB_MetaPage.free_db_root`. -/
def metaFree (p : Page) : Nat := u64 p 32

/-- `env->live_meta` as a page. -/
def Env.liveMeta (env : Env) : Page := env.file env.live

/-- `db_page_search` where the page kind has been checked before, so that `APR_EINVAL` does not
occur. -/
def probe (p : Page) (key : Bytes) : Res Found := do
  match ← search p key with
  | some f => .ok f
  | none => .ok (.notFound 0)

/-- napr_db_tree.c L206-230, L884-900: the position of the child to follow.  Indices are
`uint16_t`, so `num_keys - 1` wraps around for an empty page. -/
def childIdx (p : Page) (key : Bytes) : Res Nat := do
  let f ← probe p key
  let i := match f with
    | .found i => i
    | .notFound i => if 0 < i then i - 1 else i
  .ok (if numKeys p ≤ i then (numKeys p + 65535) % 65536 else i)

/-- `db_page_branch_node(page, index)->pgno`. -/
def child (p : Page) (i : Nat) : Res Nat := do
  let o ← rdSlot p i
  chk o 8
  .ok (u64 p o)

/-- Key and value of leaf node `i`: napr_db.c L1362-1367, napr_db_cursor.c L432-440, together
with the caller's reads of the bytes. -/
def leafNode (p : Page) (i : Nat) : Res (Bytes × Bytes) := do
  let o ← rdSlot p i
  chk o 4
  let ks := nodeKs p true o
  let ds := nodeDs p true o
  chk (o + 4) (ks + ds)
  .ok (slice p (o + 4) ks, slice p (o + 4 + ks) ds)

/-- napr_db_tree.c L172-238 `db_find_leaf_page_in_tree`: the loop has no bound, hence the fuel. -/
def findLeaf (env : Env) (t : Txn) (key : Bytes) : Nat → Nat → Res (Except Status Page)
  | 0, _ => .div
  | fuel + 1, n => do
    let p ← getPage env t n
    if isLeaf p then .ok (.ok p)
    else if !isBranch p then .ok (.error .inval)
    else do
      let i ← childIdx p key
      let c ← child p i
      findLeaf env t key fuel c

/-- napr_db_internal.h L17-19 `MAX_TREE_DEPTH`. -/
def maxDepth : Nat := 32

/-- napr_db_tree.c L864: the last page number a descent may visit. -/
def maxPgno (env : Env) (t : Txn) : Nat := if t.rdonly then metaLast env.liveMeta else t.newLast

/-- napr_db_tree.c L838-904 `db_find_leaf_page_with_path_in_tree`: the page numbers from the
root to the leaf.  The first argument after the key is the number of levels left. -/
def findPath (env : Env) (t : Txn) (key : Bytes) : Nat → Nat → Res (Except Status (List Nat))
  | 0, _ => .ok (.error .general)
  | d + 1, n =>
    if maxPgno env t < n then .ok (.error .inval)
    else do
      let p ← getPage env t n
      if isLeaf p then .ok (.ok [n])
      else if !isBranch p then .ok (.error .inval)
      else do
        let i ← childIdx p key
        let c ← child p i
        match ← findPath env t key d c with
        | .error e => .ok (.error e)
        | .ok path => .ok (.ok (n :: path))

/-- napr_db.c L1329-1370 `napr_db_get`. -/
def get (env : Env) (t : Txn) (fuel : Nat) (key : Bytes) : Res (Except Status Bytes) :=
  if t.root = 0 then .ok (.error .notfound)
  else do
    match ← findLeaf env t key fuel t.root with
    | .error e => .ok (.error e)
    | .ok p =>
      match ← probe p key with
      | .notFound _ => .ok (.error .notfound)
      | .found i => do
        let kv ← leafNode p i
        .ok (.ok kv.2)

/-- napr_db_tree.c L320-376 `db_page_get_writable` for the mapped page `n`: the copy is filed
under the number in the header of the page.  Gives the table key of the copy. -/
def getWritable (env : Env) (t : Txn) (n : Nat) : Res (Nat × Txn) := do
  let p ← mapPage env n
  match t.getDirty (pgno p) with
  | some _ => .ok (pgno p, t)
  | none => .ok (pgno p, { t.setDirty (pgno p) p with freed := t.freed ++ [pgno p] })

/-- napr_db.c L1489-1508, L1889-1906, L862-877: a writable copy of one page of the path. -/
def cow (env : Env) (t : Txn) (n : Nat) : Res (Nat × Txn) :=
  match t.getDirty n with
  | some _ => .ok (n, t)
  | none => getWritable env t n

/-- The loop over the rest of the path, towards the root. -/
def cowAll (env : Env) (t : Txn) : List Nat → Res Txn
  | [] => .ok t
  | n :: rest => do
    let r ← cow env t n
    cowAll env r.2 rest

/-- The whole loop over the path given from the leaf up: the table key of the leaf's copy. -/
def cowPath (env : Env) (t : Txn) : List Nat → Res (Nat × Txn)
  | [] => .ub
  | n :: rest => do
    let r ← cow env t n
    let t ← cowAll env r.2 rest
    .ok (r.1, t)

/-- A page allocator: page number and new transaction state. -/
abbrev Alloc := Txn → Res (Nat × Txn)

/-- A split inside a transaction: the new page's number and both pages. -/
structure SplitTxn where
  no : Nat
  left : Page
  right : Page
  divider : Bytes

/-- napr_db_tree.c L553-666 `db_split_leaf` (`leaf`) and L684-821 `db_split_branch`, for the
buffer under table key `lk`.  The page number is chosen first; the left page is changed in
place before the right page enters the table.  (`db_split_branch` of an empty page, which
fails after emptying the page, is reported without the change.) -/
def splitTxn (al : Alloc) (leaf : Bool) (t : Txn) (lk : Nat) :
    Res (Txn × Except Status SplitTxn) := do
  let p ← Res.ofOption (t.getDirty lk)
  if !(if leaf then isLeaf p else isBranch p) then .ok (t, .error .inval)
  else do
    let a ← al t
    let t := a.2
    let p ← Res.ofOption (t.getDirty lk)
    match ← (if leaf then splitLeaf p a.1 else splitBranch p a.1) with
    | none => .ok (t, .error .general)
    | some s => .ok ((t.setDirty lk s.left).setDirty a.1 s.right, .ok ⟨a.1, s.left, s.right, s.divider⟩)

/-- napr_db.c L1556-1567, L1608-1622: after a split, insert the entry into the half it belongs
to.  When the right page took the table key of the left page, the left page is no longer in
the table and a change of it is lost. -/
def insertHalf (t : Txn) (lk : Nat) (s : SplitTxn) (it : Item) : Res (Status × Txn) := do
  let f ← probe s.left it.key
  if !f.hit && numKeys s.left ≤ f.idx then do
    let g ← probe s.right it.key
    let r ← insert s.right g.idx it
    .ok (ofSt r.1, t.setDirty s.no r.2)
  else do
    let r ← insert s.left f.idx it
    .ok (ofSt r.1, if s.no = lk then t else t.setDirty lk r.2)

/-- napr_db.c L1582-1633 `propagate_split_up_tree` (and its duplicate L1710-1760): the pages
above the leaf, deepest first; the key and page to enter.  `incomplete` means the split was
absorbed, `success` that the root was split. -/
def propagate (al : Alloc) : List Nat → Txn → Bytes → Nat → Res (Txn × Status × Bytes × Nat)
  | [], t, k, c => .ok (t, .success, k, c)
  | pg :: rest, t, k, c =>
    match t.getDirty pg with
    | none => .ok (t, .general, k, c)
    | some p => do
      let f ← probe p k
      let r ← insert p f.idx (.branch k c)
      match r.1 with
      | .ok => .ok (t.setDirty pg r.2, .incomplete, k, c)
      | .inval => .ok (t, .inval, k, c)
      | .nospc => do
        let sp ← splitTxn al false t pg
        match sp.2 with
        | .error e => .ok (sp.1, e, k, c)
        | .ok s => do
          let h ← insertHalf sp.1 pg s (.branch k c)
          if h.1 = .success then propagate al rest h.2 s.divider s.no
          else .ok (h.2, h.1, k, c)

/-- napr_db.c L1635-1695 `handle_root_split` and L1776-1838: the new root's number. -/
def rootSplit (al : Alloc) (t : Txn) (old right : Nat) (divider : Bytes) :
    Res (Txn × Except Status Nat) := do
  let a ← al t
  let t := a.2
  match t.getDirty old with
  | none => .ok (t, .error .general)
  | some op => do
    let minKey ← firstKey op (!isBranch op)
    let r ← insert (emptyPage false a.1) 0 (.branch minKey old)
    if r.1 = .ok then do
      let r ← insert r.2 1 (.branch divider right)
      if r.1 = .ok then .ok (t.setDirty a.1 r.2, .ok a.1)
      else .ok (t, .error (ofSt r.1))
    else .ok (t, .error (ofSt r.1))

/-- The divider of a leaf split as it is read after the pair was inserted in one of the halves: the
pointer of napr_db_tree.c L654-656 is followed only then (napr_db.c L1567-1570, L1584-1650;
L908-925).  The first node of the right page is not touched by the insertion.  When the
right page was empty the pointer leads into its header, which the insertion has changed.
Simplified: a size that leads out of the page (a page number above 4092) is undefined at once. -/
def dividerNow (t : Txn) (s : SplitTxn) : Res Bytes :=
  if numKeys s.right = 0 then do
    chk 4 s.divider.length
    .ok (slice ((t.getDirty s.no).getD s.right) 4 s.divider.length)
  else .ok s.divider

theorem dividerNow_pos {t : Txn} {s : SplitTxn} (h : numKeys s.right ≠ 0) : dividerNow t s = .ok s.divider :=
  if_neg h

/-- napr_db.c L1542-1580 `handle_page_split` and L887-920: split the leaf under table key `lk`,
insert, propagate; `path` runs from the root to the leaf.  The result is the root of the tree
afterwards. -/
def pageSplit (al : Alloc) (t : Txn) (lk : Nat) (path : List Nat) (key val : Bytes) :
    Res (Txn × Except Status Nat) := do
  let sp ← splitTxn al true t lk
  match sp.2 with
  | .error e => .ok (sp.1, .error e)
  | .ok s => do
    let h ← insertHalf sp.1 lk s (.leaf key val)
    if h.1 = .success then do
      let d ← dividerNow h.2 s
      let r ← propagate al path.dropLast.reverse h.2 d s.no
      if r.2.1 = .incomplete then .ok (r.1, .ok (path.headD 0))
      else if r.2.1 = .success then rootSplit al r.1 (path.headD 0) r.2.2.2 r.2.2.1
      else .ok (r.1, .error r.2.1)
    else .ok (h.2, .error h.1)

/-- napr_db.c L1387-1430 `handle_empty_tree_put` and L794-835: a tree of one leaf. -/
def newTree (al : Alloc) (t : Txn) (key val : Bytes) : Res (Txn × Except Status Nat) := do
  let a ← al t
  let r ← insert (emptyPage true a.1) 0 (.leaf key val)
  if r.1 = .ok then .ok (a.2.setDirty a.1 r.2, .ok a.1)
  else .ok (a.2, .error (ofSt r.1))

/-- `txn->root_pgno = new_root` on success. -/
def withRoot (r : Txn × Except Status Nat) : Status × Txn :=
  match r.2 with
  | .ok n => (.success, { r.1 with root := n })
  | .error e => (e, r.1)

/-- napr_db.c L1436-1540 `napr_db_put`. -/
def putWith (al : Alloc) (env : Env) (t : Txn) (key val : Bytes) : Res (Status × Txn) :=
  if t.rdonly then .ok (.acces, t)
  else if t.root = 0 then do
    let r ← newTree al t key val
    .ok (withRoot r)
  else do
    match ← findPath env t key maxDepth t.root with
    | .error e => .ok (e, t)
    | .ok path => do
      let leaf ← getPage env t (path.getLastD 0)
      let f ← probe leaf key
      if f.hit && (t.getDirty (path.getLastD 0)).isSome then .ok (.exist, t)
      else do
        let c ← cowPath env t path.reverse
        let lk := c.1
        let t := c.2
        let p ← Res.ofOption (t.getDirty lk)
        let d ← (if f.hit then delete p f.idx else .ok (.ok, p))
        let t := t.setDirty lk d.2
        if d.1 = .ok then do
          let r ← insert d.2 f.idx (.leaf key val)
          match r.1 with
          | .ok => .ok (.success, t.setDirty lk r.2)
          | .inval => .ok (.inval, t)
          | .nospc => do
            let r ← pageSplit al t lk path key val
            .ok (withRoot r)
        else .ok (ofSt d.1, t)

/-- napr_db.c L1856-1921 `napr_db_del`. -/
def del (env : Env) (t : Txn) (key : Bytes) : Res (Status × Txn) :=
  if t.rdonly then .ok (.inval, t)
  else if t.root = 0 then .ok (.notfound, t)
  else do
    match ← findPath env t key maxDepth t.root with
    | .error e => .ok (e, t)
    | .ok path => do
      let leaf ← getPage env t (path.getLastD 0)
      let f ← probe leaf key
      if f.hit then do
        let c ← cowPath env t path.reverse
        let t := c.2
        match t.getDirty (path.getLastD 0) with
        | none => .ok (.general, t)
        | some p => do
          let d ← delete p f.idx
          .ok (ofSt d.1, t.setDirty (path.getLastD 0) d.2)
      else .ok (.notfound, t)

/-! ## Cursors -/

/-- napr_db_internal.h `struct napr_db_cursor_t`: the stack (top first) and the `eof` flag. -/
structure Cursor where
  stack : List (Page × Nat)
  eof : Bool

/-- napr_db_cursor.c L36-66 `napr_db_cursor_open`. -/
def Cursor.opened : Cursor := ⟨[], false⟩

/-- napr_db_cursor.c L83-90 `cursor_push`: nothing happens at depth 32. -/
def push (st : List (Page × Nat)) (p : Page) (i : Nat) : List (Page × Nat) :=
  if st.length < maxDepth then (p, i) :: st else st

/-- The operations `db_cursor_seek` accepts. -/
inductive Seek where
  | first
  | last
  | set (key : Bytes)
  | range (key : Bytes)

/-- napr_db_cursor.c L122-144: the child to follow. -/
def seekIdx (op : Seek) (p : Page) : Res Nat :=
  match op with
  | .first => .ok 0
  | .last => .ok ((numKeys p + 65535) % 65536)
  | .set key => childIdx p key
  | .range key => childIdx p key

/-- napr_db_cursor.c L107-152: descend to a leaf; the leaf is pushed with index 0. -/
def seekDown (env : Env) (t : Txn) (op : Seek) : Nat → List (Page × Nat) → Nat →
    Res (Status × List (Page × Nat))
  | 0, _, _ => .div
  | fuel + 1, st, n => do
    let p ← getPage env t n
    if isLeaf p then .ok (.success, push st p 0)
    else if !isBranch p then .ok (.general, st)
    else do
      let i ← seekIdx op p
      let c ← child p i
      seekDown env t op fuel (push st p i) c

/-- napr_db_cursor.c L155-184: the position inside the leaf; `none` is "not found". -/
def leafIdx (op : Seek) (p : Page) : Res (Option Nat) :=
  match op with
  | .first => .ok (some 0)
  | .last => .ok (some (if 0 < numKeys p then numKeys p - 1 else 0))
  | .set key => do
    match ← probe p key with
    | .found i => .ok (some i)
    | .notFound _ => .ok none
  | .range key => do
    let f ← probe p key
    if numKeys p ≤ f.idx then .ok none else .ok (some f.idx)

/-- napr_db_cursor.c L95-193 `db_cursor_seek`. -/
def seek (env : Env) (t : Txn) (fuel : Nat) (op : Seek) : Res (Status × Cursor) :=
  if t.root = 0 then .ok (.notfound, ⟨[], true⟩)
  else do
    let r ← seekDown env t op fuel [] t.root
    if r.1 = .success then
      match r.2 with
      | [] => .ub
      | (p, i) :: rest => do
        match ← leafIdx op p with
        | none => .ok (.notfound, ⟨(p, i) :: rest, false⟩)
        | some j =>
          if numKeys p = 0 then .ok (.notfound, ⟨(p, i) :: rest, true⟩)
          else .ok (.success, ⟨(p, j) :: rest, false⟩)
    else .ok (r.1, ⟨r.2, false⟩)

/-- napr_db_cursor.c L256-279: descend to the leftmost leaf. -/
def leftmost (env : Env) (t : Txn) : Nat → List (Page × Nat) → Nat → Res (Status × Cursor)
  | 0, _, _ => .div
  | fuel + 1, st, n => do
    let p ← getPage env t n
    if isLeaf p then
      if numKeys p = 0 then .ok (.notfound, ⟨push st p 0, true⟩)
      else .ok (.success, ⟨push st p 0, false⟩)
    else do
      let c ← child p 0
      leftmost env t fuel (push st p 0) c

/-- napr_db_cursor.c L242-284: go up until a page has a further child, then down. -/
def nextUp (env : Env) (t : Txn) (fuel : Nat) : List (Page × Nat) → Res (Status × Cursor)
  | [] => .ok (.notfound, ⟨[], true⟩)
  | (p, i) :: st =>
    if (i + 1) % 65536 < numKeys p then do
      let c ← child p ((i + 1) % 65536)
      leftmost env t fuel ((p, (i + 1) % 65536) :: st) c
    else nextUp env t fuel st

/-- napr_db_cursor.c L213-289 `db_cursor_next`. -/
def next (env : Env) (t : Txn) (fuel : Nat) (c : Cursor) : Res (Status × Cursor) :=
  if c.eof then .ok (.notfound, c)
  else match c.stack with
    | [] => .ok (.notfound, c)
    | (p, i) :: st =>
      if (i + 1) % 65536 < numKeys p then .ok (.success, ⟨(p, (i + 1) % 65536) :: st, false⟩)
      else nextUp env t fuel st

/-- napr_db_cursor.c L309-336 `descend_rightmost`. -/
def rightmost (env : Env) (t : Txn) : Nat → List (Page × Nat) → Nat → Res (Status × Cursor)
  | 0, _, _ => .div
  | fuel + 1, st, n => do
    let p ← getPage env t n
    if numKeys p = 0 then .ok (.notfound, ⟨st, true⟩)
    else if isLeaf p then .ok (.success, ⟨push st p (numKeys p - 1), false⟩)
    else do
      let c ← child p (numKeys p - 1)
      rightmost env t fuel (push st p (numKeys p - 1)) c

/-- napr_db_cursor.c L360-373: go up until a page has a preceding child, then down. -/
def prevUp (env : Env) (t : Txn) (fuel : Nat) : List (Page × Nat) → Res (Status × Cursor)
  | [] => .ok (.notfound, ⟨[], true⟩)
  | (p, i) :: st =>
    if 0 < i then do
      let c ← child p (i - 1)
      rightmost env t fuel ((p, i - 1) :: st) c
    else prevUp env t fuel st

/-- napr_db_cursor.c L338-377 `db_cursor_prev`. -/
def prev (env : Env) (t : Txn) (fuel : Nat) (c : Cursor) : Res (Status × Cursor) :=
  if c.eof then .ok (.notfound, c)
  else match c.stack with
    | [] => .ok (.notfound, c)
    | (p, i) :: st =>
      if 0 < i then .ok (.success, ⟨(p, i - 1) :: st, false⟩)
      else prevUp env t fuel st

/-- The operations of `napr_db_cursor_get`. -/
inductive Op where
  | seek (s : Seek)
  | next
  | prev
  | current

/-- napr_db_cursor.c L421-442: the pair under the cursor. -/
def atCursor (c : Cursor) : Res (Except Status (Bytes × Bytes)) :=
  if c.eof then .ok (.error .notfound)
  else match c.stack with
    | [] => .ok (.error .notfound)
    | (p, i) :: _ =>
      if numKeys p ≤ i then .ok (.error .notfound)
      else do
        let kv ← leafNode p i
        .ok (.ok kv)

/-- napr_db_cursor.c L386-419: the movement. -/
def move (env : Env) (t : Txn) (fuel : Nat) (c : Cursor) : Op → Res (Status × Cursor)
  | .seek s => seek env t fuel s
  | .next => next env t fuel c
  | .prev => prev env t fuel c
  | .current => .ok (.success, c)

/-- napr_db_cursor.c L382-443 `napr_db_cursor_get`. -/
def cursorGet (env : Env) (t : Txn) (fuel : Nat) (c : Cursor) (op : Op) :
    Res (Cursor × Except Status (Bytes × Bytes)) := do
  let r ← move env t fuel c op
  if r.1 = .success then do
    let kv ← atCursor r.2
    .ok (r.2, kv)
  else .ok (r.2, .error r.1)

/-! ## Allocation -/

/-- napr_db.c L450-479 `db_get_oldest_reader_txnid`: 0 if there is no reader. -/
def oldestReader (readers : List Slot) : Nat :=
  readers.foldl (fun o s => if 0 < s.txnid ∧ (o = 0 ∨ s.txnid < o) then s.txnid else o) 0

/-- `memcpy(&x, data, 8)`. -/
def leVal : Bytes → Nat
  | [] => 0
  | b :: bs => b.toNat + 256 * leVal bs

/-- napr_db.c L1029-1041: may a page of this entry be reused? -/
def reclaimable (oldest : Nat) (kv : Bytes × Bytes) : Bool :=
  kv.1.length == 8 && decide (leVal kv.1 < oldest) && kv.2.length % 8 == 0 && decide (0 < kv.2.length)

/-- napr_db.c L1019-1044 `find_reclaimable_entry` from a cursor result on: any status other than
success ends the search with "not found".  The result includes the cursor: the key and the data are pointers into its page. -/
def findEntry (env : Env) (t : Txn) (fuel : Nat) (oldest : Nat) : Nat →
    Cursor × Except Status (Bytes × Bytes) → Res (Option (Cursor × (Bytes × Bytes)))
  | 0, _ => .div
  | n + 1, r =>
    match r.2 with
    | .error _ => .ok none
    | .ok kv =>
      if reclaimable oldest kv then .ok (some (r.1, kv))
      else do
        let r ← cursorGet env t fuel r.1 .next
        findEntry env t fuel oldest n r

/-- The page the cursor stands on and the offset of its key in it: where `key->data` points
(napr_db_cursor.c L432-440). -/
def keyHome (c : Cursor) : Res (Page × Nat) :=
  match c.stack with
  | [] => .ub
  | (p, i) :: _ => do
    let o ← rdSlot p i
    .ok (p, o + 4)

/-- What `db_page_insert` (napr_db_tree.c L440-449) files as the key when the key it is given lies at offset `off` of the page `p` itself:
the header of the new node is written first, then the key is copied.  Copying between overlapping places is undefined. -/
def filedKey (p : Page) (off ks vs : Nat) : Res Bytes :=
  let o := (upper p + 65536 - (4 + ks + vs) % 65536) % 65536
  if off < o + 4 + ks ∧ o + 4 < off + ks then .ub
  else .ok (slice (put16 (put16 p o ks) (o + 2) vs) off ks)

/-- napr_db.c L1436-1540 `napr_db_put` when the key lies at offset `off` of the dirty page `n`, where its bytes are `key`.  It is looked up as
it is there; if it belongs into that page, the insertion may change it (`filedKey`).  (If it does not fit or belongs into
another page, the key is taken to stay as it is while other pages are allocated.) -/
def putThrough (al : Alloc) (env : Env) (t : Txn) (n off : Nat) (key val : Bytes) : Res (Status × Txn) := do
  match ← findPath env t key maxDepth t.root with
  | .error e => .ok (e, t)
  | .ok path =>
    if path.getLastD 0 = n then do
      let p ← Res.ofOption (t.getDirty n)
      let f ← probe p key
      if f.hit then .ok (.exist, t)
      else do
        let r ← insert p f.idx (.leaf key val)
        if r.1 = .ok then do
          let c ← cowPath env t path.reverse
          let k ← filedKey p off key.length val.length
          let r ← insert p f.idx (.leaf k val)
          .ok (ofSt r.1, c.2.setDirty c.1 r.2)
        else putWith al env t key val
    else putWith al env t key val

/-- napr_db.c L1071: the entry is put back without its first page; `t` is the transaction before the deletion, `t1` after it.  If
the page was dirty before the deletion, the key is by now whatever the deletion has left at its place. -/
def putRest (al : Alloc) (env : Env) (t t1 : Txn) (c : Cursor) (kv : Bytes × Bytes) : Res (Status × Txn) := do
  let h ← keyHome c
  match t.getDirty (pgno h.1) with
  | none => putWith al env t1 kv.1 (kv.2.drop 8)
  | some _ => do
    let p ← Res.ofOption (t1.getDirty (pgno h.1))
    putThrough al env t1 (pgno h.1) h.2 (slice p h.2 kv.1.length) (kv.2.drop 8)

/-- napr_db.c L1047-1072 `update_or_delete_reclaimed_entry`. -/
def updateEntry (al : Alloc) (env : Env) (t : Txn) (c : Cursor) (kv : Bytes × Bytes) : Res (Status × Txn) :=
  if kv.2.length / 8 = 1 then del env t kv.1
  else do
    let r ← del env t kv.1
    if r.1 = .success then putRest al env t r.2 c kv
    else .ok r

/-- napr_db.c L1084-1127 `db_reclaim_page_from_free_db`: `none` is any status other than
success.  The root of the transaction is the Free DB's root in between. -/
def reclaim (al : Alloc) (env : Env) (fuel : Nat) (t : Txn) : Res (Option Nat × Txn) :=
  if t.freeRoot = 0 then .ok (none, t)
  else do
    let oldest := if oldestReader env.readers = 0 then t.txnid else oldestReader env.readers
    let ft := { t with root := t.freeRoot }
    let r ← cursorGet env ft fuel Cursor.opened (.seek .first)
    match ← findEntry env ft fuel oldest fuel r with
    | none => .ok (none, t)
    | some (c, kv) => do
      let u ← updateEntry al env ft c kv
      let t' := { u.2 with root := t.root }
      if u.1 = .success then .ok (some (leVal (kv.2.take 8)), t') else .ok (none, t')

/-- napr_db_tree.c L298-299: extend the file. -/
def extend (t : Txn) : Nat × Txn := (t.newLast + 1, { t with newLast := t.newLast + 1 })

/-- napr_db_tree.c L272-302 `db_page_alloc` with `count = 1`. -/
def alloc (env : Env) : Nat → Alloc
  | 0, _ => .div
  | fuel + 1, t => do
    let r ← reclaim (alloc env fuel) env fuel t
    match r.1 with
    | some n => .ok (n, r.2)
    | none => .ok (extend r.2)

/-- napr_db.c L1436-1540 `napr_db_put` with the allocator of the library. -/
def put (env : Env) (fuel : Nat) (t : Txn) (key val : Bytes) : Res (Status × Txn) :=
  putWith (alloc env fuel) env t key val

end Verif.Db
