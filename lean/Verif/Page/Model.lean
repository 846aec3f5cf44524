import Verif.Basic

/-!
# Model of the slotted pages of `src/napr_db_internal.h` and `src/napr_db_tree.c`

A page is its 4096 bytes.  All fields are read and written at their byte offsets, little-endian,
as the packed structures of `napr_db_internal.h` lay them out; an access at or beyond offset
4096 is undefined behaviour (`Res.ub`).  Arithmetic on `uint16_t` variables is done modulo
2^16 wherever the C code stores into one.

The functions here are the ones that work inside page buffers: `db_key_compare`,
`db_page_search`, `db_page_insert`, `db_page_delete` and the page part of `db_split_leaf` and
`db_split_branch` (choosing the page number and registering the page in the dirty set belong
to the transaction model).

Simplifications: NULL arguments are not modelled (the `APR_EINVAL` checks on NULL pointers,
except the `data == NULL` of a branch insertion, which is the `branch` case of `Item`);
allocation does not fail.
-/

namespace Verif.Page

/-- A string of bytes: a key or a value (`napr_db_val_t`). -/
abbrev Bytes := List UInt8

/-- napr_db_internal.h L128 `PAGE_SIZE`: a page is a function from offsets to bytes of which
only the offsets below 4096 are ever accessed. -/
abbrev Page := Nat → UInt8

/-- napr_db_internal.h L128. -/
def pageSize : Nat := 4096

/-- napr_db_internal.h L89 `sizeof(DB_PageHeader)`. -/
def hdrSize : Nat := 18

/-- Access to `n` bytes at offset `o` is inside the page. -/
def chk (o n : Nat) : Res Unit := if o + n ≤ pageSize then .ok () else .ub

/-- Little-endian 16-bit load. -/
def u16 (p : Page) (o : Nat) : Nat := (p o).toNat + 256 * (p (o + 1)).toNat

/-- `n`-byte load, least significant byte first. -/
def ule (p : Page) (o : Nat) : Nat → Nat
  | 0 => 0
  | n + 1 => (p o).toNat + 256 * ule p (o + 1) n

/-- Little-endian 64-bit load. -/
def u64 (p : Page) (o : Nat) : Nat := ule p o 8

/-- The `n` bytes at offset `o`. -/
def slice (p : Page) (o n : Nat) : Bytes := (List.range n).map fun i => p (o + i)

/-- Store the bytes `bs` at offset `o` (`memcpy`). -/
def blit (p : Page) (o : Nat) (bs : Bytes) : Page := fun j =>
  if o ≤ j ∧ j < o + bs.length then bs.getD (j - o) 0 else p j

/-- The `n` bytes of the little-endian representation of `v`. -/
def le : Nat → Nat → Bytes
  | 0, _ => []
  | n + 1, v => UInt8.ofNat v :: le n (v / 256)

/-- Little-endian 16-bit store; the value is converted to `uint16_t`. -/
def put16 (p : Page) (o v : Nat) : Page := blit p o (le 2 v)

/-- Little-endian 64-bit store. -/
def put64 (p : Page) (o v : Nat) : Page := blit p o (le 8 v)

/-- napr_db_internal.h L180-193 `DB_PageHeader.pgno`. -/
def pgno (p : Page) : Nat := u64 p 0
/-- `DB_PageHeader.flags`. -/
def flags (p : Page) : Nat := u16 p 8
/-- `DB_PageHeader.num_keys`. -/
def numKeys (p : Page) : Nat := u16 p 10
/-- `DB_PageHeader.lower`. -/
def lower (p : Page) : Nat := u16 p 12
/-- `DB_PageHeader.upper`. -/
def upper (p : Page) : Nat := u16 p 14

/-- napr_db_internal.h L141 `P_BRANCH`, tested as `flags & P_BRANCH`. -/
def isBranch (p : Page) : Bool := flags p % 2 == 1
/-- napr_db_internal.h L144 `P_LEAF`, tested as `flags & P_LEAF`. -/
def isLeaf (p : Page) : Bool := flags p / 2 % 2 == 1

/-- Slot `i`, napr_db_internal.h L378-395 `db_page_slots`, `db_page_slot_offset`. -/
def slot (p : Page) (i : Nat) : Nat := u16 p (hdrSize + 2 * i)

/-- `slots[i]` as an r-value. -/
def rdSlot (p : Page) (i : Nat) : Res Nat := do
  chk (hdrSize + 2 * i) 2
  .ok (slot p i)

/-- `slots[i] = v`. -/
def wrSlot (p : Page) (i v : Nat) : Res Page := do
  chk (hdrSize + 2 * i) 2
  .ok (put16 p (hdrSize + 2 * i) v)

/-- `sizeof(DB_LeafNode)` = 4 (napr_db_internal.h L115) and `sizeof(DB_BranchNode)` = 10
(L109). -/
def baseSize (leaf : Bool) : Nat := if leaf then 4 else 10

/-- Offset of `key_size` inside a node: leaf L116, branch L111. -/
def ksOff (leaf : Bool) : Nat := if leaf then 0 else 8

/-- `node->key_size` of the node at offset `o`. -/
def nodeKs (p : Page) (leaf : Bool) (o : Nat) : Nat := u16 p (o + ksOff leaf)

/-- `node->data_size` of the leaf node at offset `o`; a branch node has no data. -/
def nodeDs (p : Page) (leaf : Bool) (o : Nat) : Nat := if leaf then u16 p (o + 2) else 0

/-- Bytes of the node at offset `o`: napr_db_tree.c L496-503, L607, L742. -/
def nodeSize (p : Page) (leaf : Bool) (o : Nat) : Nat :=
  baseSize leaf + nodeKs p leaf o + nodeDs p leaf o

/-- `memcmp` over the common length, then the shorter key first.  Negative, zero, positive
are `lt`, `eq`, `gt`.  napr_db_tree.c L25-44 `db_key_compare`. -/
def keyCompare : Bytes → Bytes → Ordering
  | [], [] => .eq
  | [], _ :: _ => .lt
  | _ :: _, [] => .gt
  | a :: as, b :: bs => if a.toNat < b.toNat then .lt else if b.toNat < a.toNat then .gt else keyCompare as bs

/-- napr_db_tree.c L90-101: compare the key with the key of node `i`.  The key's size is converted to
`uint16_t`; the node header and the bytes `memcmp` may look at must lie in the page. -/
def cmpAt (p : Page) (leaf : Bool) (key : Bytes) (i : Nat) : Res Ordering := do
  let o ← rdSlot p i
  chk o (baseSize leaf)
  let k := key.take (key.length % 65536)
  let ks := nodeKs p leaf o
  chk (o + baseSize leaf) (min k.length ks)
  .ok (keyCompare k (slice p (o + baseSize leaf) ks))

/-- Outcome of `db_page_search`: found at a position, or insertion point. -/
inductive Found where
  | found (i : Nat)
  | notFound (i : Nat)
  deriving Repr, DecidableEq

/-- Position reported through `index_out`. -/
def Found.idx : Found → Nat
  | .found i => i
  | .notFound i => i

/-- Status `APR_SUCCESS`. -/
def Found.hit : Found → Bool
  | .found _ => true
  | .notFound _ => false

/-- napr_db_tree.c L86-119, the binary search loop, together with the positions it probes
(most recent last).  The C loop ends because `right - left` shrinks; the recursion follows
that measure. -/
def searchLoop (p : Page) (leaf : Bool) (key : Bytes) (left right : Nat) (probes : List Nat) :
    Res (Found × List Nat) :=
  if left < right then
    let mid := left + (right - left) / 2
    match cmpAt p leaf key mid with
    | .ub => .ub
    | .div => .div
    | .ok .eq => .ok (.found mid, probes ++ [mid])
    | .ok .lt => searchLoop p leaf key left mid (probes ++ [mid])
    | .ok .gt => searchLoop p leaf key (mid + 1) right (probes ++ [mid])
  else .ok (.notFound left, probes)
termination_by right - left
decreasing_by all_goals omega

/-- napr_db_tree.c L67-131 `db_page_search`, with the probed positions.  `none` is
`APR_EINVAL` (L102-105: neither branch nor leaf, reached only when the page is not empty). -/
def searchTrace (p : Page) (key : Bytes) : Res (Option (Found × List Nat)) :=
  if numKeys p = 0 then .ok (some (.notFound 0, []))
  else if isBranch p then do
    let r ← searchLoop p false key 0 (numKeys p) []
    .ok (some r)
  else if isLeaf p then do
    let r ← searchLoop p true key 0 (numKeys p) []
    .ok (some r)
  else .ok none

/-- napr_db_tree.c L67-131 `db_page_search`. -/
def search (p : Page) (key : Bytes) : Res (Option Found) := do
  let r ← searchTrace p key
  .ok (r.map Prod.fst)

/-- Status of a page operation. -/
inductive St where
  | ok
  | inval
  | nospc
  deriving Repr, DecidableEq

/-- What `db_page_insert` is given: the key and, as its callers pass them, either a value and
child 0 (leaf) or no value and a child page (branch). -/
inductive Item where
  | leaf (key val : Bytes)
  | branch (key : Bytes) (child : Nat)
  deriving Repr, DecidableEq

/-- The key argument. -/
def Item.key : Item → Bytes
  | .leaf k _ => k
  | .branch k _ => k

/-- Is the `data` argument present? -/
def Item.hasData : Item → Bool
  | .leaf _ _ => true
  | .branch _ _ => false

/-- The `data` argument. -/
def Item.val : Item → Bytes
  | .leaf _ v => v
  | .branch _ _ => []

/-- The `child_pgno` argument. -/
def Item.child : Item → Nat
  | .leaf _ _ => 0
  | .branch _ c => c

/-- napr_db_tree.c L435-438: shift the slots `index … num_keys - 1` up by one. -/
def shiftUp (p : Page) (index : Nat) : Nat → Res Page
  | 0 => .ok p
  | idx + 1 =>
    if index < idx + 1 then do
      let v ← rdSlot p idx
      let p ← wrSlot p (idx + 1) v
      shiftUp p index idx
    else .ok p

/-- L443-456: store the node's fields and bytes at `o`. -/
def wrNode (p : Page) (leaf : Bool) (o : Nat) (it : Item) : Res Page :=
  if leaf then do
    chk o 4
    let p := put16 p o it.key.length
    let p := put16 p (o + 2) it.val.length
    chk (o + 4) it.key.length
    let p := blit p (o + 4) it.key
    chk (o + 4 + it.key.length) it.val.length
    .ok (blit p (o + 4 + it.key.length) it.val)
  else do
    chk o 10
    let p := put64 p o it.child
    let p := put16 p (o + 8) it.key.length
    chk (o + 10) it.key.length
    .ok (blit p (o + 10) it.key)

/-- napr_db_tree.c L398-467 `db_page_insert`. -/
def insert (p : Page) (index : Nat) (it : Item) : Res (St × Page) :=
  if isLeaf p && !it.hasData then .ok (.inval, p)
  else if !isLeaf p && !isBranch p then .ok (.inval, p)
  else
    let leaf := isLeaf p
    let nodeSize :=
      (baseSize leaf + it.key.length + (if leaf then it.val.length else 0)) % 65536
    let free := (upper p + 65536 - lower p) % 65536
    if free < nodeSize + 2 then .ok (.nospc, p)
    else do
      let q ← shiftUp p index (numKeys p)
      let newOff := (upper p + 65536 - nodeSize) % 65536
      let q ← wrNode q leaf newOff it
      let q ← wrSlot q index newOff
      let q := put16 q 10 (numKeys q + 1)
      let q := put16 q 12 (lower q + 2)
      .ok (.ok, put16 q 14 newOff)

/-- L508-511: shift the slots after `index` down by one; `n` is the number of slots moved. -/
def shiftDown (p : Page) (index : Nat) : Nat → Res Page
  | 0 => .ok p
  | n + 1 => do
    let v ← rdSlot p (index + 1)
    let p ← wrSlot p index v
    shiftDown p (index + 1) n

/-- L522-526: add `size` to every slot below the deleted offset; `i` runs up to `n`. -/
def relocate (p : Page) (off size : Nat) (i : Nat) : Nat → Res Page
  | 0 => .ok p
  | n + 1 => do
    let v ← rdSlot p i
    if v < off then do
      let p ← wrSlot p i ((v + size) % 65536)
      relocate p off size (i + 1) n
    else relocate p off size (i + 1) n

/-- L514-527: when the deleted node is not the lowest one, move the bytes between `upper` and
it up and adjust the slots.  The number of keys is read again for this, from the page with the bytes moved. -/
def compact (p : Page) (off size : Nat) : Res Page :=
  if upper p < off then do
    let u := upper p
    chk u (off - u)
    chk (u + size) (off - u)
    let q := blit p (u + size) (slice p u (off - u))
    relocate q off size 0 (numKeys q - 1)
  else .ok p

/-- napr_db_tree.c L481-535 `db_page_delete`. -/
def delete (p : Page) (index : Nat) : Res (St × Page) :=
  if numKeys p ≤ index then .ok (.inval, p)
  else do
    let off ← rdSlot p index
    if !isLeaf p && !isBranch p then .ok (.inval, p)
    else do
      let leaf := isLeaf p
      chk off (baseSize leaf)
      let size := nodeSize p leaf off % 65536
      let q ← shiftDown p index (numKeys p - 1 - index)
      let q ← compact q off size
      let q := put16 q 10 (numKeys q + 65535)
      let q := put16 q 12 (lower q + 65534)
      .ok (.ok, put16 q 14 (upper q + size))

/-- napr_db_tree.c L584-596, L715-727: a zeroed buffer with an empty page header. -/
def emptyPage (leaf : Bool) (no : Nat) : Page :=
  let p : Page := fun _ => 0
  let p := put64 p 0 no
  let p := put16 p 8 (if leaf then 2 else 1)
  let p := put16 p 10 0
  let p := put16 p 12 hdrSize
  let p := put16 p 14 pageSize
  put16 p 16 0

/-- napr_db_tree.c L604-626 and L740-761: copy the nodes from position `idx` on to the end of
the right page; `n` is the number of nodes left to copy and `sp` the split point. -/
def moveNodes (leaf : Bool) (l : Page) (sp : Nat) (r : Page) (idx : Nat) : Nat → Res Page
  | 0 => .ok r
  | n + 1 => do
    let o ← rdSlot l idx
    chk o (baseSize leaf)
    let size := nodeSize l leaf o % 65536
    let newOff := (upper r + 65536 - size) % 65536
    chk o size
    chk newOff size
    let r := blit r newOff (slice l o size)
    let r ← wrSlot r (idx - sp) newOff
    let r := put16 r 10 (numKeys r + 1)
    let r := put16 r 12 (lower r + 2)
    moveNodes leaf l sp (put16 r 14 newOff) (idx + 1) n

/-- napr_db_tree.c L638-645, L781-788: the least offset among the first `n` slots, or the page size. -/
def minOffset (p : Page) : Nat → Res Nat
  | 0 => .ok pageSize
  | n + 1 => do
    let m ← minOffset p n
    let o ← rdSlot p n
    .ok (if o < m then o else m)

/-- napr_db_tree.c L628-647, L772-794: shrink the left page to its first `sp` entries. -/
def shrink (p : Page) (sp : Nat) : Res Page := do
  let p := put16 p 10 sp
  let p := put16 p 12 (hdrSize + sp * 2)
  let m ← minOffset p sp
  .ok (put16 p 14 m)

/-- The key of the first node of a page: napr_db_tree.c L657-660, L799-803, napr_db.c L1664-1673. -/
def firstKey (p : Page) (leaf : Bool) : Res Bytes := do
  let o ← rdSlot p 0
  chk o (baseSize leaf)
  chk (o + baseSize leaf) (nodeKs p leaf o)
  .ok (slice p (o + baseSize leaf) (nodeKs p leaf o))

/-- A finished split: both pages and the divider key. -/
structure Split where
  left : Page
  right : Page
  divider : Bytes

/-- napr_db_tree.c L657-660: the divider as `db_split_leaf` leaves it, a pointer and a size.  When
nothing was moved (an empty leaf) the first slot of the new page is 0, so the "node" is the page
header: the size is the low half of the page number and the pointer leads into the header at
offset 4.  Nothing is read through the pointer yet, so this is not undefined whatever the size. -/
def dividerOf (r : Page) : Res Bytes :=
  if numKeys r = 0 then .ok (slice r 4 (u16 r 0)) else firstKey r true

theorem dividerOf_pos {r : Page} (h : numKeys r ≠ 0) : dividerOf r = firstKey r true := if_neg h

/-- The page part of napr_db_tree.c L553-666 `db_split_leaf` for a new page numbered `no`:
`none` is `APR_EINVAL`. -/
def splitLeaf (p : Page) (no : Nat) : Res (Option Split) :=
  if !isLeaf p then .ok none
  else do
    let sp := numKeys p / 2
    let r ← moveNodes true p sp (emptyPage true no) sp (numKeys p - sp)
    let l ← shrink p sp
    let d ← dividerOf r
    .ok (some ⟨l, r, d⟩)

/-- The page part of napr_db_tree.c L684-821 `db_split_branch` for a new page numbered `no`:
`none` is an error status (`APR_EINVAL`, or `APR_EGENERAL` when nothing was moved). -/
def splitBranch (p : Page) (no : Nat) : Res (Option Split) :=
  if !isBranch p then .ok none
  else do
    let sp := numKeys p / 2
    let r ← moveNodes false p sp (emptyPage false no) sp (numKeys p - sp)
    let l ← shrink p sp
    if numKeys r = 0 then .ok none
    else do
      let d ← firstKey r false
      .ok (some ⟨l, r, d⟩)

end Verif.Page
