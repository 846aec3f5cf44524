/-!
# Beginning a read transaction while others commit, step by step

The transactions of `TxnModel.lean` begin in one step.  A read transaction takes no lock when it begins: it loads the pointer to the live meta page and the
fields behind it one after the other (napr_db.c L529-536) and enters the reader table afterwards (L562-590), while the one writer the lock admits may be
anywhere in `commit_meta_page` (L1135-1182).  This file models these loads and stores one by one.

Simplified: loads and stores take effect at once and in one order for all threads, and a field of eight bytes is stored whole (the C program has a data race
here, so that not even this is promised); one reader is followed, the others appear as a number; what the transaction stores is chosen when it begins.
-/

namespace Verif.Db.Begin

/-- The fields of a meta page that a transaction copies (napr_db_internal.h: `DB_MetaPage`). -/
structure Info where
  txnid : Nat
  root : Nat
  free : Nat
  last : Nat
  deriving DecidableEq, Repr

/-- Their names, in the order in which `napr_db_txn_begin` loads them (napr_db.c L530-536). -/
inductive Field where
  | txnid | root | free | last
  deriving DecidableEq, Repr

def order : List Field := [.txnid, .root, .free, .last]

def Info.get (m : Info) : Field → Nat
  | .txnid => m.txnid
  | .root => m.root
  | .free => m.free
  | .last => m.last

def Info.set (m : Info) (f : Field) (v : Nat) : Info :=
  match f with
  | .txnid => { m with txnid := v }
  | .root => { m with root := v }
  | .free => { m with free := v }
  | .last => { m with last := v }

/-- The values of all fields in the order of loading. -/
def Info.values (m : Info) : List Nat := order.map m.get

/-- The write transaction in progress, if any: what it is going to store, and the fields stored so far. -/
inductive Writer where
  | idle
  | busy (new : Info) (stored : List Field)
  deriving DecidableEq, Repr

/-- Shared memory, the writer, and one thread that begins a read transaction. -/
structure St where
  /-- The two meta pages (`meta0`, `meta1`). -/
  page0 : Info
  page1 : Info
  /-- `live_meta` points to the second one. -/
  live : Bool
  writer : Writer
  /-- The finished commits, the last one first. -/
  past : List Info
  /-- The reader has loaded `live_meta` and not yet used it. -/
  ptr : Option Bool
  /-- The values the reader has loaded so far. -/
  got : List Nat
  /-- The transaction id in the reader's slot of the reader table, 0 before it has one. -/
  slot : Nat
  /-- The results of the writers' searches for the oldest reader, the last one first. -/
  floors : List Nat
  deriving DecidableEq, Repr

def St.page (s : St) (b : Bool) : Info := if b then s.page1 else s.page0

def St.setPage (s : St) (b : Bool) (m : Info) : St := if b then { s with page1 := m } else { s with page0 := m }

/-- The steps of the threads. -/
inductive Ev where
  /-- A write transaction begins, that will store these values if it commits (napr_db.c L522-542). -/
  | start (root free last : Nat)
  /-- It looks for the oldest reader (napr_db.c L1094-1100); `others` is the oldest of the other readers, 0 if there is none. -/
  | scan (others : Nat)
  /-- One field of the stale meta page gets its new value, by the write to the mapped file or by the `memcpy` (napr_db.c L1166-1178). -/
  | store (f : Field)
  /-- `live_meta` is switched (napr_db.c L1179); the commit is finished. -/
  | switch
  /-- The transaction is aborted or a file operation fails (napr_db.c L1161-1176). -/
  | fail
  /-- The reader loads `live_meta` (in each of the lines L530, L531, L532, L536). -/
  | point
  /-- The reader loads the next field through the pointer. -/
  | load
  /-- The reader enters the table (napr_db.c L562-590). -/
  | enter
  deriving DecidableEq, Repr

/-- The smaller of two transaction ids of which 0 stands for none (napr_db.c L463-475). -/
def older (a b : Nat) : Nat := if a = 0 then b else if b = 0 then a else min a b

/-- One step; `none` if the step is not possible in this state. -/
def step (s : St) : Ev → Option St
  | .start root free last =>
    match s.writer with
    | .idle => some { s with writer := .busy ⟨(s.page s.live).txnid + 1, root, free, last⟩ [] }
    | .busy _ _ => none
  | .scan others =>
    match s.writer with
    | .idle => none
    | .busy new _ => some { s with floors := (if older s.slot others = 0 then new.txnid else older s.slot others) :: s.floors }
  | .store f =>
    match s.writer with
    | .idle => none
    | .busy new stored => some { s.setPage (!s.live) ((s.page (!s.live)).set f (new.get f)) with writer := .busy new (f :: stored) }
  | .switch =>
    match s.writer with
    | .idle => none
    | .busy new stored => if ∀ f ∈ order, f ∈ stored then some { s with live := !s.live, writer := .idle, past := new :: s.past } else none
  | .fail =>
    match s.writer with
    | .idle => none
    | .busy _ _ => some { s with writer := .idle }
  | .point => some { s with ptr := some s.live }
  | .load =>
    match s.ptr, order[s.got.length]? with
    | some b, some f => some { s with got := s.got ++ [(s.page b).get f], ptr := none }
    | _, _ => none
  | .enter =>
    match s.got with
    | [i, _, _, _] => if s.slot = 0 then some { s with slot := i } else none
    | _ => none

/-- A run is a sequence of possible steps. -/
def run : St → List Ev → Option St
  | s, [] => some s
  | s, e :: es => (step s e).bind (run · es)

end Verif.Db.Begin
