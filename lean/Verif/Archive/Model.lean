import Verif.Report.Model

/-!
# Model of `ft_archive.c` and of its callers (`-t`)

libarchive is a parameter: an archive is what reading it yields, header after header and block after block, with the failures that occur, and
with the failures of writing the blocks to the disk.  Of the process this is modelled: the files of the disk with their contents, the file creation mask,
and the number of libarchive objects not yet freed (reader and writer).  `mkstemp` is a function that may choose any name not in use.  Members are regular files; `apr_file_remove` does
not fail on a file that exists.  Failing allocations and the two `support` calls (L76-85) are not modelled.
-/

namespace Verif.Archive

open Verif.Report (FileEnt)

/-- A block of a member, as `archive_read_data_block` gives it (L51): an offset and bytes, or an error; `written` says whether
`archive_write_data_block` succeeds (L59). -/
inductive Block where
  | error
  | data (off : Nat) (bytes : List UInt8) (written : Bool)

/-- What `archive_read_next_header` gives (L101): an error (a warning counts as one), or a member with its name; `opened` says whether
`archive_write_header` succeeds (L130). -/
inductive Item where
  | error
  | member (name : String) (opened : Bool) (blocks : List Block)

/-- An archive file: `none` if it cannot be opened (L86). -/
abbrev Archive := Option (List Item)

/-- The process and its disk. -/
structure St where
  files : String → Option (List UInt8)
  umask : Nat
  handles : Nat

/-- The world outside: the archives on the disk, and the choice of `mkstemp` (`none`: failure). -/
structure World where
  archives : String → Archive
  mkstemp : (String → Option (List UInt8)) → Option String

/-- Set or remove a file. -/
def setFile (fs : String → Option (List UInt8)) (p : String) (c : Option (List UInt8)) : String → Option (List UInt8) :=
  fun q => if q = p then c else fs q

/-- Write bytes at an offset; a gap is filled with zeros.  (A gap behind the last block is not modelled.) -/
def writeAt (c : List UInt8) (off : Nat) (b : List UInt8) : List UInt8 :=
  if b = [] then c else (c ++ List.replicate (off - c.length) 0).take off ++ b ++ c.drop (off + b.length)

/-- ft_archive.c L44-66 `copy_data`: the contents written, and whether it succeeds. -/
def copyData : List Block → List UInt8 → List UInt8 × Bool
  | [], c => (c, true)
  | .error :: _, c => (c, false)
  | .data off b written :: r, c => if written then copyData r (writeAt c off b) else (c, false)

/-- `S_IRWXG | S_IRWXO`. -/
def mask077 : Nat := 63

/-- ft_archive.c L112-147: the member has been found.  `archive_write_header` creates the file anew. -/
def extractMember (w : World) (st : St) (opened : Bool) (blocks : List Block) : Option String × St :=
  let current := st.umask
  let st := { st with umask := mask077 }
  match w.mkstemp st.files with
  | none => (none, st)
  | some tmp =>
    let st := { st with files := setFile st.files tmp (some []), umask := current }
    if opened then
      let r := copyData blocks []
      if r.2 then (some tmp, { st with files := setFile st.files tmp (some r.1), handles := st.handles - 2 })
      else (none, { st with files := setFile st.files tmp none })
    else (none, { st with files := setFile st.files tmp none })

/-- ft_archive.c L100-149: the loop over the members, with L151-154 at its end. -/
def findMember (w : World) (st : St) (sub : String) : List Item → Option String × St
  | [] => (none, st)
  | .error :: _ => (none, st)
  | .member name opened blocks :: r => if sub = name then extractMember w st opened blocks else findMember w st sub r

/-- ft_archive.c L68-155 `ft_archive_untar_file`: the name of the temporary file, or NULL. -/
def untarFile (w : World) (st : St) (path sub : String) : Option String × St :=
  match w.archives path with
  | none => (none, { st with handles := st.handles + 1 })
  | some items => findMember w { st with handles := st.handles + 2 } sub items

/-- The field `subpath` of an `ft_file_t`: `process_file` (ft_traverse.c L67-75) leaves it unset. -/
inductive Sub where
  | unset
  | null
  | name (s : String)

/-- An `ft_file_t` with that field. -/
structure ArcFile where
  ent : FileEnt
  sub : Sub

/-- Reading the field `subpath`; the value of an unset one must not be used. -/
def getSub : Sub → Res (Option String)
  | .unset => .ub
  | .null => .ok none
  | .name s => .ok (some s)

/-- ft_traverse.c L67-75: the record of a file found. -/
def newFile (f : FileEnt) : ArcFile := ⟨f, .unset⟩

/-- ft_file.c L307-321 `ft_file_make`: the record of a member, or of a file if both names are the same. -/
def makeFile (f : FileEnt) (subpath : Option String) : ArcFile :=
  match subpath with
  | none => ⟨f, .null⟩
  | some s => if f.path = s then ⟨f, .null⟩ else ⟨f, .name s⟩

/-- `is_option_set(mask, OPTION_UNTAR) && file->subpath`: which member is meant, if any. -/
def memberOf (untar : Bool) (f : ArcFile) : Res (Option String) := if untar then getSub f.sub else .ok none

/-- ft_process.c L38-54: the digest of a file or of a member; `dig` is `checksum_file` on the contents of the file it is given (`none`: it cannot be read). -/
def hashFile (w : World) (untar : Bool) (dig : Option (List UInt8) → Option η) (st : St) (f : ArcFile) : Res (Option η × St) := do
  let m ← memberOf untar f
  match m with
  | none => .ok (dig (st.files f.ent.path), st)
  | some sub =>
    match untarFile w st f.ent.path sub with
    | (none, st) => .ok (none, st)
    | (some p, st) => .ok (dig (st.files p), { st with files := setFile st.files p none })

/-- ft_report.c L161-167 and L173-179: the name of the file to be read for a record; a temporary one if a member is named. -/
def fetch (w : World) (st : St) (f : ArcFile) (m : Option String) : Option String × St :=
  match m with
  | some sub => untarFile w st f.ent.path sub
  | none => (some f.ent.path, st)

/-- ft_report.c L157-187 `get_comparison_paths`. -/
def comparisonPaths (w : World) (untar : Bool) (st : St) (f g : ArcFile) : Res (Option (String × String) × St) :=
  if untar then do
    let m ← getSub f.sub
    match fetch w st f m with
    | (none, st) => .ok (none, st)
    | (some p, st) => do
      let m2 ← getSub g.sub
      match fetch w st g m2 with
      | (none, st) => .ok (none, if m.isSome then { st with files := setFile st.files p none } else st)
      | (some q, st) => .ok (some (p, q), st)
  else .ok (some (f.ent.path, g.ent.path), st)

/-- ft_report.c L197-207 `cleanup_comparison_paths`. -/
def cleanup (untar : Bool) (st : St) (f g : ArcFile) (p q : String) : Res St := do
  if untar then
    let m ← getSub f.sub
    let st := if m.isSome then { st with files := setFile st.files p none } else st
    let m2 ← getSub g.sub
    .ok (if m2.isSome then { st with files := setFile st.files q none } else st)
  else .ok st

/-- ft_report.c L238-244 and ft_report_json.c L99-107: the comparison of two files; `cmp` is `filecmp` on the contents.  `none`: a member cannot be extracted, and
the whole report fails. -/
def compareFiles (w : World) (untar : Bool) (cmp : Option (List UInt8) → Option (List UInt8) → ρ) (st : St) (f g : ArcFile) : Res (Option ρ × St) := do
  let (o, st) ← comparisonPaths w untar st f g
  match o with
  | none => .ok (none, st)
  | some (p, q) =>
    let r := cmp (st.files p) (st.files q)
    let st ← cleanup untar st f g p q
    .ok (some r, st)

/-- The comparison that a run with `-t` makes (`filecmp` of `Verif.Report`): the records of all its files come from the traversal. -/
def archiveFc (w : World) (cmp : Option (List UInt8) → Option (List UInt8) → Bool × Int) (st : St) : FileEnt → FileEnt → Int → Res (Bool × Int) :=
  fun f g _ => do
    let (o, _) ← compareFiles w true cmp st (newFile f) (newFile g)
    .ok (o.getD (false, 0))

/-- The file creation mask, which belongs to the process, and what the threads inside the section between the two calls of `umask` have saved in
`current_mode`. -/
structure Masks where
  umask : Nat
  saved : Nat → Option Nat

/-- ft_archive.c L113 and L126: thread `i` enters or leaves the section. -/
def Masks.act (m : Masks) (i : Nat) : Masks :=
  match m.saved i with
  | none => ⟨mask077, fun j => if j = i then some m.umask else m.saved j⟩
  | some old => ⟨old, fun j => if j = i then none else m.saved j⟩

/-- The mask after the threads have acted in the order given (`hashing_worker_callback` runs in several threads). -/
def maskAfter (umask : Nat) (order : List Nat) : Nat := (order.foldl Masks.act ⟨umask, fun _ => none⟩).umask

end Verif.Archive
