import Verif.Config.Names
import Verif.Traverse.Run
import Verif.Image.Main
import Verif.Xxh.Gids

/-!
# The whole program

Model of `ftwin_main`, ftwin.c L133-180: `ft_config_create`, `ft_config_parse_args` and `run_ftwin_processing` put together from the models of their parts.  The
hash tables hash with XXH32.

Not modelled: failure of `apr_initialize` and `apr_pool_create` (L141-157), and archives (`-t`, see `Verif.Archive`): with `-t` the model treats an archive like
any other file.  `apr_getopt_long` is modelled apart (Config/Getopt.lean, Main/Argv.lean): here a command line is the list of its tokens and the arguments left over.
-/

namespace Verif.Main

open Verif.Ignore (Engine Ctx)
open Verif.Report (FileEnt World)
open Verif.Traverse (Path FS Opts)
open Verif.Config (Tok Conf isOptionSet)
open Verif.Output (Digest)

/-- What the program meets. `compile` is `pcre_compile` with or without `PCRE_CASELESS`, and then `pcre_exec` on a path; `merge` is `apr_filepath_merge`; `files` has
the order in which `qsort` leaves equal elements and what else the report depends on beyond `disk`. -/
structure Machine where
  cores : Nat
  uid : Nat
  groups : List Nat
  egid : Nat
  userKnown : Bool
  compile : List Char → Bool → Option (Path → Bool)
  engine : Engine
  fs : FS
  merge : Path → Option Path
  disk : String → File.OnDisk
  xxh128 : File.Bytes → Digest
  files : World Digest
  gmt : Int → Option Output.Exp
  tty : Bool
  depth : Nat
  fuel : Nat

/-- What option parsing asks of the machine. -/
def Machine.lookups (m : Machine) (args : List Path) : Config.World where
  nargs := args.length
  userOk := m.userKnown && decide (m.groups.length ≤ Xxh.maxGids)
  compiles := fun e ic => (m.compile e ic).isSome

/-- The configuration as the traversal sees it: ft_config.c L223-272 (`respect_gitignore` is 1), L626-663. -/
def optsOf (m : Machine) (globals : List Ctx) (gids : Hash.Table Nat) (c : Conf) : Opts where
  follow := isOptionSet c.mask Config.bFSYML
  hidden := isOptionSet c.mask Config.bSHOW_HIDDEN
  recurse := isOptionSet c.mask Config.bRECSD
  icase := isOptionSet c.mask Config.bICASE
  gitignore := true
  uid := m.uid
  gids := Hash.elems gids
  minsize := c.minsize
  maxsize := c.maxsize
  pPath := c.pPath
  igNames := Hash.elems c.igFiles
  igRe := c.ignoreRegex.bind (fun e => m.compile e (isOptionSet c.mask Config.bICASE))
  wlRe := c.whitelistRegex.bind (fun e => m.compile e (isOptionSet c.mask Config.bICASE))
  engine := m.engine
  globals := globals

/-- ftwin.c L86-95: the argument as it is, or resolved in JSON mode. -/
def resolveOf (m : Machine) (c : Conf) (a : Path) : Option Path := if isOptionSet c.mask Config.bJSON then m.merge a else some a

/-- The files as read with the threshold of the configuration (`-x`). -/
def worldOf (m : Machine) (c : Conf) : World Digest := Report.diskWorld m.disk m.xxh128 c.excess.toNat m.fuel m.files

/-- ftwin.c L74-131 `run_ftwin_processing`. -/
def processing (m : Machine) (pz : Image.Puzzle ν δ) (level : Nat → δ) (evs : List (Pool.Ev Nat)) (globals : List Ctx) (gids : Hash.Table Nat) (c : Conf) (args : List Path) :
    Res Image.Out := do
  let r ← Traverse.scanArgs (optsOf m globals gids c) m.fs m.depth (resolveOf m c) args
  if !r.1 then .ok .failed
  else Image.processing ⟨pz, level, worldOf m c, m.gmt, m.tty, evs, m.fuel⟩ c r.2

/-- ftwin.c L158-180: the exit status of a run (-1 is seen as 255). -/
def statusOf : Image.Out → Int
  | .failed => -1
  | _ => 0

/-- The option at which the loop of ft_config.c L610-619 ends with a failure. -/
def loopStop (h : List Char → UInt32) (fuel : Nat) : List Tok → Conf → Res (Option Char)
  | [], _ => .ok none
  | .bad :: _, _ => .ok none
  | .opt o arg :: ts, conf => do
    let s ← Config.processOption h fuel o arg conf
    match s with
    | none => .ok (some o)
    | some c => loopStop h fuel ts c

/-- The exit status if option parsing fails: `exit(0)` after help and version (ft_config.c L527-540), `exit(EXIT_FAILURE)` after an error of usage
(L202-215, called in L450, L459, L466, L473, L517, L622), else -1 from `ftwin_main`. -/
def parseStatus (h : List Char → UInt32) (fuel : Nat) (ts : List Tok) (nargs : Nat) (conf : Conf) : Res Int := do
  let s ← loopStop h fuel ts conf
  match s with
  | some o => .ok (if o = 'h' ∨ o = 'V' then 0 else 1)
  | none => .ok (if nargs < 1 then 1 else -1)

/-- ftwin.c L133-180 `ftwin_main`: the exit status and what is on the standard output (help and version apart). `level` are the thresholds of `-T`, `evs` is what
the threads do. -/
def ftwinMain (m : Machine) (pz : Image.Puzzle ν δ) (level : Nat → δ) (evs : List (Pool.Ev Nat)) (ts : List Tok) (args : List Path) : Res (Int × Image.Out) := do
  let ig ← Config.createIgnored Xxh.strHash m.fuel
  let globals ← Traverse.globalChain m.engine
  let o ← Config.parseArgs Xxh.strHash m.fuel (m.lookups args) ts (Config.create m.cores ig)
  match o with
  | none => do
    let s ← parseStatus Xxh.strHash m.fuel ts args.length (Config.create m.cores ig)
    .ok (s, .failed)
  | some c => do
    let og ← Xxh.fillGids m.fuel m.groups m.egid Xxh.gids0
    match og with
    | none => .ok (-1, .failed)
    | some gids => do
      let out ← processing m pz level evs globals gids c args
      .ok (statusOf out, out)

end Verif.Main
