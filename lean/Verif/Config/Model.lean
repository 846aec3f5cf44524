import Verif.Hash.Model
import Verif.HumanSize.Model

/-!
# Model of `src/ft_config.c` (option parsing)

The option scanner `apr_getopt_long` is modelled in Getopt.lean: its result is the list of tokens it
returns, either an option character with its argument or an error (unknown option, missing
argument).  Compiled with JSON support (`HAVE_JANSSON`).  System calls that fill in the user
and group identifiers (L626-642) and the regular-expression compiler (L644-663) are
parameters; texts printed to the terminal are not modelled.  The tests' switch
`should_exit_on_error` only decides between `exit` and returning the error.
-/

namespace Verif.Config

/-- ft_types.h L36-47: option bits, by bit number. -/
def bICASE := 0
def bFSYML := 1
def bRECSD := 2
def bVERBO := 3
def bOPMEM := 4
def bSIZED := 6
def bSHOW_HIDDEN := 7
def bPUZZL := 8
def bUNTAR := 9
def bDRY_RUN := 10
def bJSON := 11

/-- ft_types.h L36-47: the value of an option, e.g. `OPTION_JSON` is 0x0800. -/
def optVal (b : Nat) : BitVec 16 := BitVec.twoPow 16 b

example : (optVal bJSON, optVal bICASE, optVal bRECSD, optVal bDRY_RUN) = (0x0800#16, 0x0001#16, 0x0004#16, 0x0400#16) := by
  decide

/-- ft_types.h L26 `is_option_set`. -/
def isOptionSet (mask : BitVec 16) (b : Nat) : Bool := (mask &&& optVal b) == optVal b

/-- ft_types.h L28-34 `set_option`. -/
def setOption (mask : BitVec 16) (b : Nat) (on : Bool) : BitVec 16 :=
  if on then mask ||| optVal b else mask &&& ~~~(optVal b)

/-- The fields of `ft_conf_t` (ft_config.h L90-130) that option parsing writes, together with
the pending regular expressions (`struct regex_options`, ft_config.c L312-317). -/
structure Conf where
  mask : BitVec 16
  numThreads : Nat
  minsize : Int
  maxsize : Int
  excess : Int
  sep : Char
  pPath : Option (List Char)
  igFiles : Hash.Table (List Char)
  threshold : Nat
  ignoreRegex : Option (List Char)
  whitelistRegex : Option (List Char)
  archiveRegex : Option (List Char)

/-- A token returned by `apr_getopt_long`. -/
inductive Tok where
  | opt (c : Char) (arg : List Char)
  | bad

/-- L390-399 `flag_mappings`. -/
def flagMappings : List (Char × Nat × Bool) :=
  [('a', bSHOW_HIDDEN, true), ('c', bICASE, true), ('d', bSIZED, true), ('n', bDRY_RUN, true), ('f', bFSYML, true),
   ('o', bOPMEM, true), ('r', bRECSD, true), ('R', bRECSD, false)]

/-- L401-416 `handle_flag_option`. -/
def handleFlag (o : Char) (conf : Conf) : Conf :=
  match flagMappings.find? (fun m => m.1 = o) with
  | some (_, b, on) => { conf with mask := setOption conf.mask b on }
  | none =>
    if o = 'v' then
      if isOptionSet conf.mask bJSON then conf else { conf with mask := setOption conf.mask bVERBO true }
    else conf

/-- L149-164: the names of a comma-separated list; a trailing comma adds nothing. -/
def segments : List Char → List Char → List (List Char)
  | acc, [] => [acc.reverse]
  | acc, c :: s =>
    if c = ',' then
      match s with
      | [] => [acc.reverse]
      | _ :: _ => acc.reverse :: segments [] s
    else segments (c :: acc) s

/-- The callbacks of a string table (`napr_hash_str_make`, napr_hash.c L101-113). -/
def strFns (h : List Char → UInt32) : Hash.Fns (List Char) (List Char) := ⟨id, h⟩

/-- L140-165 `ft_hash_add_ignore_list`: every name is set without looking whether the search
found it. -/
def addIgnoreList (h : List Char → UInt32) (fuel : Nat) (t : Hash.Table (List Char)) (s : List Char) :
    Res (Hash.Table (List Char)) :=
  (segments [] s).foldlM (fun t n => Hash.set (strFns h) fuel t n (h n)) t

/-- L418-441 `handle_string_option`. `*optarg` of an empty argument is NUL. -/
def handleString (h : List Char → UInt32) (fuel : Nat) (o : Char) (arg : List Char) (conf : Conf) : Res Conf :=
  if o = 'e' then .ok { conf with ignoreRegex := some arg }
  else if o = 'i' then do
    let t ← addIgnoreList h fuel conf.igFiles arg
    .ok { conf with igFiles := t }
  else if o = 'p' then .ok { conf with pPath := some arg }
  else if o = 's' then .ok { conf with sep := arg.head?.getD '\x00' }
  else if o = 'w' then .ok { conf with whitelistRegex := some arg }
  else .ok conf

/-- `strtol(s, &end, 10)` on a 64-bit platform: the clamped value and the unread rest. -/
def strtol (s : List Char) : Int × List Char :=
  let (neg, s1) := HumanSize.sign (s.dropWhile HumanSize.isSpace)
  let (ds, r) := HumanSize.takeDigits HumanSize.decVal s1
  if ds = [] then (0, s)
  else
    let v : Int := HumanSize.ofDigits 10 ds
    (if neg then max (-v) (-(2 ^ 63)) else min v (2 ^ 63 - 1), r)

/-- L446-455: the thread count, `none` when rejected. -/
def parseThreads (arg : List Char) : Option Nat :=
  let (v, r) := strtol arg
  if r ≠ [] ∨ v < 1 ∨ v > 256 then none else some v.toNat

/-- Outcome of one option: continue with a configuration, or `APR_EGENERAL`. -/
abbrev Step := Option Conf

/-- L443-482 `handle_numeric_option`. -/
def handleNumeric (o : Char) (arg : List Char) (conf : Conf) : Res Step :=
  if o = 'j' then
    match parseThreads arg with
    | some n => .ok (some { conf with numThreads := n })
    | none => .ok none
  else if o = 'm' then do
    let v ← HumanSize.parse arg
    .ok (if v < 0 then none else some { conf with minsize := v })
  else if o = 'M' then do
    let v ← HumanSize.parse arg
    .ok (if v < 0 then none else some { conf with maxsize := v })
  else if o = 'x' then do
    let v ← HumanSize.parse arg
    .ok (if v < 0 then none else some { conf with excess := v })
  else .ok (some conf)

/-- L490-525 `handle_image_options`. The thresholds are numbered by their option digit. -/
def handleImage (o : Char) (arg : List Char) (conf : Conf) : Step :=
  if o = 'I' then
    some { conf with
      mask := setOption (setOption conf.mask bICASE true) bPUZZL true
      whitelistRegex := some ".*\\.(gif|png|jpe?g)$".toList }
  else if o = 'T' then
    match arg.head? with
    | some '1' => some { conf with threshold := 1 }
    | some '2' => some { conf with threshold := 2 }
    | some '3' => some { conf with threshold := 3 }
    | some '4' => some { conf with threshold := 4 }
    | some '5' => some { conf with threshold := 5 }
    | _ => none
  else some conf

/-- L546-553 `handle_json_option`. -/
def handleJson (conf : Conf) : Conf :=
  let mask := setOption conf.mask bJSON true
  if isOptionSet mask bVERBO then { conf with mask := setOption mask bVERBO false } else { conf with mask := mask }

/-- L560-564 `handle_archive_option`. -/
def handleArchive (conf : Conf) : Conf :=
  { conf with
    mask := setOption conf.mask bUNTAR true
    archiveRegex := some ".*\\.(tar\\.gz|tgz|tar\\.bz2|tbz2|tar\\.xz|txz|zip|rar|7z|tar)$".toList }

/-- L566-590 `handle_special_option`. -/
def handleSpecial (o : Char) (arg : List Char) (conf : Conf) : Step :=
  if o = 'h' ∨ o = 'V' then none
  else if o = 'I' ∨ o = 'T' then handleImage o arg conf
  else if o = 'J' then some (handleJson conf)
  else if o = 't' then some (handleArchive conf)
  else some conf

/-- L337-388 `process_options`. -/
def processOption (h : List Char → UInt32) (fuel : Nat) (o : Char) (arg : List Char) (conf : Conf) : Res Step :=
  if o ∈ ['a', 'c', 'd', 'n', 'f', 'o', 'r', 'R', 'v'] then .ok (some (handleFlag o conf))
  else if o ∈ ['e', 'i', 'p', 's', 'w'] then do
    let c ← handleString h fuel o arg conf
    .ok (some c)
  else if o ∈ ['j', 'm', 'M', 'x'] then handleNumeric o arg conf
  else if o ∈ ['h', 'V', 'I', 'T', 'J', 't'] then .ok (handleSpecial o arg conf)
  else .ok (some conf)

/-- L610-619: the option loop.  An error of the scanner ends the loop without failing. -/
def optionLoop (h : List Char → UInt32) (fuel : Nat) : List Tok → Conf → Res Step
  | [], conf => .ok (some conf)
  | .bad :: _, conf => .ok (some conf)
  | .opt o arg :: ts, conf => do
    match ← processOption h fuel o arg conf with
    | none => .ok none
    | some c => optionLoop h fuel ts c

/-- Parameters of `ft_config_parse_args` outside the code: the number of non-option arguments,
whether the user lookups succeed, and whether an expression compiles. -/
structure World where
  nargs : Nat
  userOk : Bool
  compiles : List Char → Bool → Bool

/-- L644-663: a pending expression that does not compile. -/
def regexBad (w : World) (icase : Bool) : Option (List Char) → Bool
  | none => false
  | some s => !w.compiles s icase

/-- L592-672 `ft_config_parse_args`: `none` is a failure status. -/
def parseArgs (h : List Char → UInt32) (fuel : Nat) (w : World) (ts : List Tok) (conf : Conf) : Res Step := do
  match ← optionLoop h fuel ts conf with
  | none => .ok none
  | some c =>
    if w.nargs < 1 then .ok none
    else if !w.userOk then .ok none
    else if regexBad w (isOptionSet c.mask bICASE) c.ignoreRegex || regexBad w (isOptionSet c.mask bICASE) c.whitelistRegex
        || regexBad w (isOptionSet c.mask bICASE) c.archiveRegex then .ok none
    else .ok (some c)

/-- L223-272 `ft_config_create`, with `cores` the value of `ft_get_cpu_cores` and `ig` the
table of ignored names holding "." and "..". -/
def create (cores : Nat) (ig : Hash.Table (List Char)) : Conf :=
  { mask := optVal bRECSD, numThreads := cores, minsize := 0, maxsize := 0, excess := 50 * 1024 * 1024, sep := '\n',
    pPath := none, igFiles := ig, threshold := 1, ignoreRegex := none, whitelistRegex := none, archiveRegex := none }

/-- L246-249: the table of ignored names of a new configuration. -/
def createIgnored (h : List Char → UInt32) (fuel : Nat) : Res (Hash.Table (List Char)) := do
  let t ← Hash.set (strFns h) fuel (Hash.makeEx (List Char) 32 8) ['.'] (h ['.'])
  Hash.set (strFns h) fuel t ['.', '.'] (h ['.', '.'])

end Verif.Config
