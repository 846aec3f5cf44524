import Verif.Ignore.Props
import Verif.Report.Disk

/-!
# Model of `ft_traverse.c` and of the driver in `ftwin.c`

The file system is a parameter: what `apr_stat` answers for a path (following links or not), what `apr_dir_open` and
`apr_dir_read` give, and the content of the `.gitignore` in a directory if it is a regular file that can be opened.

Simplifications: the tables `gids` and `ig_files` are lists (the table model is `Verif.Hash`); the file system does not
change during a traversal; sizes are natural numbers; the resolution of paths in JSON mode (`apr_filepath_merge`) is a parameter.  With
links followed, `get_file_info` reads `finfo->filetype` after a failed `apr_stat`, which leaves it uninitialised:
that is undefined behaviour here.
-/

namespace Verif.Traverse

open Verif.Ignore (Engine Ctx ignoreMatch loadContent addPattern Verdict)
open Verif.Report (FileEnt World Outcome)

abbrev Path := List Char

/-- `apr_filetype_e`, as far as it is distinguished. -/
inductive Kind where
  | reg | dir | lnk | other
  deriving DecidableEq

/-- The permission bits that are looked at. -/
structure Prot where
  ur : Bool := true
  ux : Bool := true
  gr : Bool := true
  gx : Bool := true
  wr : Bool := true
  wx : Bool := true

/-- `apr_finfo_t`. -/
structure Finfo where
  kind : Kind
  size : Nat := 0
  mtime : Int := 0
  user : Nat := 0
  group : Nat := 0
  prot : Prot := {}

/-- The outside world. -/
structure FS where
  stat : Bool → Path → Option Finfo
  readdir : Path → Option (List (Path × Kind))
  ignore : Path → Option (List Char)

/-- The part of `ft_conf_t` the traversal reads. -/
structure Opts where
  follow : Bool := false
  hidden : Bool := false
  recurse : Bool := true
  icase : Bool := false
  gitignore : Bool := true
  uid : Nat := 0
  gids : List Nat := []
  minsize : Int := 0
  maxsize : Int := 0
  pPath : Option Path := none
  igNames : List Path := [['.'], ['.', '.']]
  igRe : Option (Path → Bool) := none
  wlRe : Option (Path → Bool) := none
  engine : Engine
  globals : List Ctx := []

/-- L18-37 `get_file_info`; `none` is a failure. -/
def fileInfo (o : Opts) (fs : FS) (path : Path) : Res (Option Finfo) :=
  match fs.stat o.follow path with
  | some i => .ok (some i)
  | none => if o.follow then .ub else .ok none

/-- L39-62 `check_permissions`. -/
def permitted (o : Opts) (i : Finfo) : Bool :=
  if o.uid ≠ 0 then
    if i.user = o.uid then (if i.kind = .dir then i.prot.ux else i.prot.ur)
    else if i.group ∈ o.gids then (if i.kind = .dir then i.prot.gx else i.prot.gr)
    else (if i.kind = .dir then i.prot.wx else i.prot.wr)
  else true

/-- L71-73: whether a path begins with the priority path. -/
def prioritized (o : Opts) (path : Path) : Bool :=
  match o.pPath with
  | none => false
  | some p =>
    decide (p.length ≤ path.length) &&
      (if o.icase then (path.take p.length).map Char.toLower == p.map Char.toLower else path.take p.length == p)

/-- L64-90 `process_file`: the candidate it adds, if any. -/
def processFile (o : Opts) (path : Path) (i : Finfo) : List FileEnt :=
  if (i.size : Int) ≥ o.minsize ∧ (o.maxsize = 0 ∨ (i.size : Int) ≤ o.maxsize) then
    [{ path := String.ofList path, size := i.size, mtime := i.mtime, prio := prioritized o path }]
  else []

/-- L135-140: entries that are skipped by name or kind. -/
def skipName (o : Opts) (e : Path × Kind) : Bool :=
  (decide (e.1 ∈ o.igNames) || (e.1.head? == some '.' && !o.hidden)) || (decide (e.2 = .dir) && !o.recurse)

/-- L94-98: entries that are skipped by expression. -/
def skipRe (o : Opts) (full : Path) : Bool :=
  (match o.igRe with | some r => r full | none => false) || (match o.wlRe with | some r => !r full | none => false)

/-- L142: the path of an entry. -/
def join (dir name : Path) : Path := if dir.getLast? = some '/' then dir ++ name else dir ++ '/' :: name

/-- L134-147, the loop of `process_directory` with L92-110 `process_directory_entry`. -/
def entries (o : Opts) (visit : Path → Res (Bool × List FileEnt)) (dir : Path) : List (Path × Kind) → Res (Bool × List FileEnt)
  | [] => .ok (true, [])
  | e :: es =>
    if skipName o e then entries o visit dir es
    else if skipRe o (join dir e.1) then entries o visit dir es
    else do
      let r ← visit (join dir e.1)
      if r.1 then do
        let r' ← entries o visit dir es
        .ok (r'.1, r.2 ++ r'.2)
      else .ok (false, r.2)

/-- L123-132: the ignore rules inside a directory. -/
def openCtx (o : Opts) (fs : FS) (dir : Path) (chain : List Ctx) : Res (List Ctx) :=
  if o.gitignore then
    match fs.ignore dir with
    | none => .ok chain
    | some content => do
      let ps ← loadContent o.engine (content.length + 1) content []
      .ok (⟨dir, ps⟩ :: chain)
  else .ok chain

/-- L153-176 `traverse_recursive` with L112-151 `process_directory`: whether it succeeded, and the candidates added. -/
def traverse (o : Opts) (fs : FS) : Nat → Path → List Ctx → Res (Bool × List FileEnt)
  | 0, _, _ => .div
  | n + 1, path, chain => do
    let info ← fileInfo o fs path
    match info with
    | none => .ok (false, [])
    | some i =>
      if o.gitignore && decide (ignoreMatch chain path (decide (i.kind = .dir)) = .ignored) then .ok (true, [])
      else if !permitted o i then .ok (true, [])
      else match i.kind with
        | .dir => match fs.readdir path with
          | none => .ok (false, [])
          | some es => do
            let inner ← openCtx o fs path chain
            entries o (fun p => traverse o fs n p inner) path es
        | .reg => .ok (true, processFile o path i)
        | .lnk => .ok (true, if o.follow then processFile o path i else [])
        | .other => .ok (true, [])

/-- ftwin.c L86-102: the arguments one after the other; a failure ends the run. -/
def scanArgs (o : Opts) (fs : FS) (n : Nat) (resolve : Path → Option Path) : List Path → Res (Bool × List FileEnt)
  | [] => .ok (true, [])
  | a :: as =>
    match resolve a with
    | none => .ok (false, [])
    | some p => do
      let r ← traverse o fs n p o.globals
      if r.1 then do
        let r' ← scanArgs o fs n resolve as
        .ok (r'.1, r.2 ++ r'.2)
      else .ok (false, r.2)

/-- ftwin.c L74-131 `run_ftwin_processing`; `none` is an error status. -/
def run [DecidableEq η] (o : Opts) (fs : FS) (n : Nat) (resolve : Path → Option Path) (w : World η) (json : Bool) (args : List Path) :
    Res (Option (Outcome η)) := do
  let r ← scanArgs o fs n resolve args
  if !r.1 then .ok none
  else if r.2.isEmpty then .ok none
  else do
    let out ← Report.ftwin w json r.2
    .ok (if out.groups.isSome then some out else none)

/-- ft_config.c L61-72 `default_ignores`. -/
def defaultIgnores : List Path :=
  [".git/", ".hg/", ".svn/", "build/", "dist/", "out/", "target/", "bin/", "*.o", "*.class", "*.pyc", "*.pyo", "node_modules/",
   "vendor/", ".venv/", ".DS_Store", "Thumbs.db", "*.swp", "*~", ".idea/", ".vscode/"].map String.toList

/-- ft_config.c L167-172 `ft_load_defaults`. -/
def loadDefaults (E : Engine) : Res (List Ignore.Pattern) := defaultIgnores.foldlM (addPattern E) []

/-- ft_config.c L266-267: the outermost context. -/
def globalChain (E : Engine) : Res (List Ctx) := do
  let ps ← loadDefaults E
  .ok [⟨['/'], ps⟩]

end Verif.Traverse
