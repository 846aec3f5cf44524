import Verif.Heap.Props
import Verif.Hash.Props
import Verif.File.Model

/-!
# Model of the pipeline: `ft_traverse.c: process_file`, `ft_process.c`, `ft_report.c`,
`ft_report_json.c`

Candidates go into a heap ordered by size and are counted per size in a hash table (the models
of `napr_heap.c` and `napr_hash.c` are used as they are); size classes with one member are
dropped; the members of larger classes are hashed; the reporter sorts each class by digest,
compares files with equal digests byte by byte and lists the groups.

An `ft_fsize_t` record is reached through the table by its size, which never changes; the table holds
the sizes and `recs` the records.  The outside world is a parameter: `dig` the digest of a file or a failure,
`junk` what an uninitialised digest field holds, `fc` the outcome of `filecmp`.

Simplifications: archives (`OPTION_UNTAR`) are not modelled, so `get_comparison_paths` only
dereferences both files; the digests are computed one after the other (`Verif.Pool` shows that
the thread pool gives the same result for every schedule); `qsort` is any function `qs` whose
result is a sorted permutation.
-/

namespace Verif.Report

open Verif.Heap (u32)

/-- `ft_file_t`, ft_types.h L57-66 (archive and image fields omitted). -/
structure FileEnt where
  path : String
  size : Nat
  mtime : Int := 0
  prio : Bool := false
  deriving DecidableEq

/-- `ft_chksum_t`, ft_types.h L68-72; a file marked as already reported is `none` (NULL). -/
structure Entry (η : Type) where
  hash : η
  file : Option FileEnt

/-- `ft_fsize_t`, ft_types.h L74-80: `arr` is the filled part of `chksum_array`, so
`nb_checksumed` is its length; the array has room for `nb` entries. -/
structure FSize (η : Type) where
  val : Nat
  nb : Nat
  arr : List (Entry η)

/-- The part of `ft_conf_t` the pipeline works on. -/
structure Conf (η : Type) where
  heap : Heap.Heap FileEnt
  sizes : Hash.Table Nat
  recs : Nat → FSize η

/-- The outside world. -/
structure World (η : Type) where
  dig : FileEnt → Option η
  junk : FileEnt → η
  fc : FileEnt → FileEnt → Int → Res (Bool × Int)
  zero : η
  hcmp : η → η → Int
  qs : List (Entry η) → List (Entry η)
  sizeHash : Nat → UInt32
  fuel : Nat

/-- ft_config.c L45-58 `ft_file_cmp`. -/
def fileCmp (a b : FileEnt) : Int := Heap.fileCmp a.size b.size

/-- Table callbacks of `conf->sizes`, ft_config.c L232-241. -/
def sizeFns (w : World η) : Hash.Fns Nat Nat := ⟨id, w.sizeHash⟩

/-- ft_config.c L223-241 `ft_config_create`: empty heap, empty table of 4096 buckets of 8. -/
def conf0 (η : Type) : Conf η :=
  { heap := Heap.make FileEnt, sizes := Hash.makeEx Nat 4096 8, recs := fun k => ⟨k, 0, []⟩ }

/-- ft_traverse.c L67-87, the part of `process_file` after the size filter. -/
def addFile (w : World η) (c : Conf η) (f : FileEnt) : Res (Conf η) := do
  let heap ← Heap.insert fileCmp w.fuel c.heap f
  let o ← Hash.search (sizeFns w) c.sizes f.size
  match o with
  | none => do
    let sizes ← Hash.set (sizeFns w) w.fuel c.sizes f.size (w.sizeHash f.size)
    .ok { heap := heap, sizes := sizes, recs := fun k => if k = f.size then ⟨f.size, u32 (0 + 1), []⟩ else c.recs k }
  | some p =>
    .ok { c with heap := heap, recs := fun k => if k = p then { c.recs p with nb := u32 ((c.recs p).nb + 1) } else c.recs k }

/-- `while ((file = napr_heap_extract(heap)) != NULL)`: all the elements in the order of
extraction.  Neither loop of this shape (ft_process.c L139, ft_report.c L122, ft_report_json.c
L204) touches the heap it drains in its body, so draining first changes nothing. -/
def drain (fuel : Nat) : Nat → Heap.Heap FileEnt → Res (List FileEnt)
  | 0, _ => .div
  | n + 1, h => do
    let (o, h) ← Heap.extract fileCmp fuel h
    match o with
    | none => .ok []
    | some f => do
      let l ← drain fuel n h
      .ok (f :: l)

/-- Result of `categorize_files`: `ok = false` is `APR_EGENERAL`. -/
structure Cat (η : Type) where
  ok : Bool
  sizes : Hash.Table Nat
  recs : Nat → FSize η
  tmp : Heap.Heap FileEnt
  tasks : Nat

/-- ft_process.c L139-167, the loop of `categorize_files`.  A digest field that is not set
holds `junk`. -/
def categorize (w : World η) (json : Bool) : List FileEnt → Cat η → Res (Cat η)
  | [], c => .ok c
  | f :: fs, c => do
    let o ← Hash.search (sizeFns w) c.sizes f.size
    match o with
    | none => .ok { c with ok := false }
    | some p =>
      let r := c.recs p
      if r.nb = 1 then do
        let sizes ← Hash.remove (sizeFns w) c.sizes p (w.sizeHash p)
        categorize w json fs { c with sizes := sizes }
      else if r.arr.length < r.nb then
        if (r.nb = 2 ∨ r.val = 0) ∧ json = false then do
          let recs := fun k => if k = p then { r with arr := r.arr ++ [⟨w.zero, some f⟩] } else c.recs k
          let tmp ← Heap.insert fileCmp w.fuel c.tmp f
          categorize w json fs { c with recs := recs, tmp := tmp }
        else
          categorize w json fs { c with
            recs := fun k => if k = p then { r with arr := r.arr ++ [⟨w.junk f, some f⟩] } else c.recs k
            tasks := c.tasks + 1 }
      else .ub

/-- ft_process.c L200-203 and L250-253: whether a class is hashed. -/
def shouldHash (json : Bool) (r : FSize η) : Bool :=
  if json then decide (2 ≤ r.nb) else decide (2 < r.nb) && decide (r.val ≠ 0)

/-- ft_process.c L20-80: the digest field of one entry after its task has run. -/
def hashEntry (w : World η) (e : Entry η) : Entry η :=
  match e.file with
  | none => e
  | some f => match w.dig f with
    | some h => { e with hash := h }
    | none => e

/-- ft_process.c L197-222 and L247-262: the classes in table order, each hashed, and the files
inserted into the heap of the reporter.  Returns the records, that heap and the files hashed. -/
def hashClasses (w : World η) (json : Bool) : List Nat → (Nat → FSize η) → Heap.Heap FileEnt →
    Res ((Nat → FSize η) × Heap.Heap FileEnt × List FileEnt)
  | [], recs, tmp => .ok (recs, tmp, [])
  | p :: ps, recs, tmp =>
    let r := recs p
    if shouldHash json r then
      if r.arr.length < r.nb then .ub
      else do
        let files := r.arr.filterMap (·.file)
        let tmp ← files.foldlM (fun h f => Heap.insert fileCmp w.fuel h f) tmp
        let (recs', tmp, log) ← hashClasses w json ps
          (fun k => if k = p then { r with arr := r.arr.map (hashEntry w) } else recs k) tmp
        .ok (recs', tmp, files ++ log)
    else hashClasses w json ps recs tmp

/-- ft_process.c L113-125: hash only if there is something to hash. -/
def hashPhase (w : World η) (json : Bool) (ps : List Nat) (cat : Cat η) :
    Res ((Nat → FSize η) × Heap.Heap FileEnt × List FileEnt) :=
  if 0 < cat.tasks then hashClasses w json ps cat.recs cat.tmp else .ok (cat.recs, cat.tmp, [])

/-- Value of the one-bit signed field `prioritized`. -/
def prioVal (f : FileEnt) : Int := if f.prio then -1 else 0

/-- ft_report.c L41-54 `ft_chksum_cmp`, on entries whose files are not NULL. -/
def chksumCmp (w : World η) (a b : Entry η) : Int :=
  let r := w.hcmp a.hash b.hash
  if r = 0 then
    match a.file, b.file with
    | some f, some g => prioVal f - prioVal g
    | _, _ => 0
  else r

/-- What the inner loop returns: the array suffix with duplicates marked, the duplicates found,
the pairs compared and the variable `result` of the JSON reporter. -/
structure Inner (η : Type) where
  rest : List (Entry η)
  dups : List FileEnt
  log : List (FileEnt × FileEnt)
  res : Int

/-- The inner loop of ft_report.c L83-94 with L225-273, and of ft_report_json.c L146-165 with
L91-117, over the suffix of the array after the entry of file `f` with digest `h`.  The text
reporter compares with a fresh `return_value = 0`, the JSON reporter with the variable shared by
all pairs, set to 1 when a comparison fails. -/
def inner [DecidableEq η] (w : World η) (json : Bool) (f : FileEnt) (h : η) : List (Entry η) → Int → Res (Inner η)
  | [], r => .ok ⟨[], [], [], r⟩
  | e :: es, r =>
    if h = e.hash then
      match e.file with
      | none => .ub
      | some g => do
        let (ok, v) ← w.fc f g (if json then r else 0)
        let v := if ok then v else 1
        if v = 0 then do
          let x ← inner w json f h es v
          .ok { x with rest := { e with file := none } :: x.rest, dups := g :: x.dups, log := (f, g) :: x.log }
        else do
          let x ← inner w json f h es v
          .ok { x with rest := e :: x.rest, log := (f, g) :: x.log }
    else .ok ⟨e :: es, [], [], r⟩

/-- A reported group. -/
structure Group (η : Type) where
  size : Nat
  hash : η
  files : List FileEnt

/-- The outer loop, ft_report.c L133-137 with L74-101, and ft_report_json.c L138-170; the first
argument counts the remaining indices below `nb_files`. -/
def outer [DecidableEq η] (w : World η) (json : Bool) (size : Nat) : Nat → List (Entry η) → Int →
    Res (List (Group η) × List (FileEnt × FileEnt))
  | 0, _, _ => .ok ([], [])
  | _ + 1, [], _ => .ub
  | n + 1, e :: es, r =>
    match e.file with
    | none => outer w json size n es r
    | some f => do
      let x ← inner w json f e.hash es r
      let (gs, log) ← outer w json size n x.rest x.res
      .ok (if x.dups = [] then gs else ⟨size, e.hash, f :: x.dups⟩ :: gs, x.log ++ log)

/-- ft_report.c L130-131, ft_report_json.c L185-186: sort the first
`min(nb_files, nb_checksumed)` entries; the comparator dereferences the files. -/
def sortClass (w : World η) (r : FSize η) : Res (List (Entry η)) :=
  let k := min r.nb r.arr.length
  if (r.arr.take k).all (·.file.isSome) then .ok (w.qs (r.arr.take k) ++ r.arr.drop k) else .ub

/-- Result of a report: `none` is `APR_EGENERAL`. -/
abbrev Report (η : Type) := Option (List (Group η)) × List (FileEnt × FileEnt)

/-- ft_report.c L103-146 `ft_report_duplicates` and ft_report_json.c L174-210: walk the files
from the largest on; `old` is `old_size` (`none` for -1).  After a class is reported its whole
array counts as marked; this is conservative, as only the duplicates are, and makes reading it again
undefined behaviour. -/
def report [DecidableEq η] (w : World η) (json : Bool) (sizes : Hash.Table Nat) :
    List FileEnt → (Nat → FSize η) → Option Nat → Res (Report η)
  | [], _, _ => .ok (some [], [])
  | f :: fs, recs, old =>
    if old = some f.size then report w json sizes fs recs old
    else do
      let o ← Hash.search (sizeFns w) sizes f.size
      match o with
      | none => .ok (none, [])
      | some p => do
        let es ← sortClass w (recs p)
        let (gs, log) ← outer w json p (recs p).nb es 0
        let (rest, log') ← report w json sizes fs
          (fun k => if k = p then { recs p with arr := (recs p).arr.map (fun e => { e with file := none }) } else recs k) (some f.size)
        .ok (rest.map (gs ++ ·), log ++ log')

/-- Everything a run does: the groups (`none`: it failed), the files hashed and the pairs
compared. -/
structure Outcome (η : Type) where
  groups : Option (List (Group η))
  hashed : List FileEnt
  compared : List (FileEnt × FileEnt)

/-- ft_process.c L87-131 `ft_process_files`, then the report (ftwin.c L104-122), on a populated
configuration.  `n` is the iteration budget for the drain loops. -/
def processAndReport [DecidableEq η] (w : World η) (json : Bool) (n : Nat) (c : Conf η) : Res (Outcome η) := do
  let l ← drain w.fuel n c.heap
  let cat ← categorize w json l ⟨true, c.sizes, c.recs, Heap.make FileEnt, 0⟩
  if cat.ok = false then .ok ⟨none, [], []⟩
  else do
    let ps ← Hash.iterate cat.sizes n (Hash.first cat.sizes)
    let (recs, tmp, log) ← hashPhase w json ps cat
    let l2 ← drain w.fuel n tmp
    let (gs, cmps) ← report w json cat.sizes l2 recs none
    .ok ⟨gs, log, cmps⟩

/-- The whole run on the candidates in the order the traversal finds them. -/
def ftwin [DecidableEq η] (w : World η) (json : Bool) (cands : List FileEnt) : Res (Outcome η) := do
  let c ← cands.foldlM (addFile w) (conf0 η)
  processAndReport w json (cands.length + 1) c

end Verif.Report
