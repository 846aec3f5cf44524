import Verif.Config.Model

/-!
# From the words of a command line to options

The table of options is that of ft_config.c.  `apr_getopt_long` (APR 1.7, misc/unix/getopt.c; not part of /repo) is modelled as it works with `interleave` unset, which is
how ft_config.c L603 sets it up: options end at the first word that is not one.  The index ft_config.c L621 and L667 read from the scanner after the last option, or after an error,
is that of the first word not consumed.
-/

namespace Verif.Config

abbrev Word := List Char

/-- `apr_getopt_option_t`, without the description. -/
structure OptDef where
  name : Word
  ch : Char
  hasArg : Bool
  deriving DecidableEq

/-- ft_config.c L276-306 `opt_option`, with JSON support. -/
def optTable : List OptDef :=
  [⟨"hidden".toList, 'a', false⟩, ⟨"case-unsensitive".toList, 'c', false⟩, ⟨"display-size".toList, 'd', false⟩, ⟨"dry-run".toList, 'n', false⟩,
   ⟨"regex-ignore-file".toList, 'e', true⟩, ⟨"follow-symlink".toList, 'f', false⟩, ⟨"help".toList, 'h', false⟩, ⟨"image-cmp".toList, 'I', false⟩,
   ⟨"image-threshold".toList, 'T', true⟩, ⟨"ignore-list".toList, 'i', true⟩, ⟨"json".toList, 'J', false⟩, ⟨"minimal-length".toList, 'm', true⟩,
   ⟨"max-size".toList, 'M', true⟩, ⟨"optimize-memory".toList, 'o', false⟩, ⟨"priority-path".toList, 'p', true⟩, ⟨"recurse-subdir".toList, 'r', false⟩,
   ⟨"no-recurse".toList, 'R', false⟩, ⟨"separator".toList, 's', true⟩, ⟨"tar-cmp".toList, 't', false⟩, ⟨"threads".toList, 'j', true⟩,
   ⟨"verbose".toList, 'v', false⟩, ⟨"version".toList, 'V', false⟩, ⟨"whitelist-regex-file".toList, 'w', true⟩, ⟨"excessive-size".toList, 'x', true⟩]

/-- Whether a long option names a table entry: the name, and then the end or an equals sign. -/
def OptDef.named (d : OptDef) (p : Word) : Bool := d.name.isPrefixOf p && (p.drop d.name.length == [] || (p.drop d.name.length).head? == some '=')

/-- A long option: what is behind its two dashes, and the words that follow; the token, and the words left. -/
def longOpt (tbl : List OptDef) (p : Word) (ws : List Word) : Tok × List Word :=
  match tbl.find? (·.named p) with
  | none => (.bad, ws)
  | some d =>
    match d.hasArg, p.drop d.name.length, ws with
    | true, _ :: a, ws => (.opt d.ch a, ws)
    | true, [], a :: ws => (.opt d.ch a, ws)
    | true, [], [] => (.bad, [])
    | false, [], ws => (.opt d.ch [], ws)
    | false, _ :: _, ws => (.bad, ws)

/-- The first option of a run of short ones: the token, what is left of the run, and the words left. -/
def shortOpt (tbl : List OptDef) (c : Char) (p : Word) (ws : List Word) : Tok × Word × List Word :=
  match tbl.find? (fun d => d.ch == c) with
  | none => (.bad, p, ws)
  | some d =>
    match d.hasArg, p, ws with
    | true, a :: p, ws => (.opt c (a :: p), [], ws)
    | true, [], a :: ws => (.opt c a, [], ws)
    | true, [], [] => (.bad, [], [])
    | false, p, ws => (.opt c [], p, ws)

/-- The loop of ft_config.c L610-619 over `apr_getopt_long`: the tokens up to the first error, and the words behind them.  The first argument is what is left of a run of short options;
an empty option argument that is not there is the empty list, as in `Tok`.  The number bounds the calls. -/
def getopt (tbl : List OptDef) : Nat → Word → List Word → Res (List Tok × List Word)
  | 0, _, _ => .div
  | n + 1, c :: p, ws =>
    match shortOpt tbl c p ws with
    | (.bad, _, ws) => .ok ([.bad], ws)
    | (t, p, ws) => do
      let r ← getopt tbl n p ws
      .ok (t :: r.1, r.2)
  | _ + 1, [], [] => .ok ([], [])
  | n + 1, [], w :: ws =>
    match w with
    | '-' :: '-' :: [] => .ok ([], ws)
    | '-' :: '-' :: c :: p =>
      match longOpt tbl (c :: p) ws with
      | (.bad, ws) => .ok ([.bad], ws)
      | (t, ws) => do
        let r ← getopt tbl n [] ws
        .ok (t :: r.1, r.2)
    | '-' :: [] => .ok ([.bad], ws)
    | '-' :: c :: p => getopt tbl n (c :: p) ws
    | w => .ok ([], w :: ws)

/-- Enough calls for these words. -/
def calls (ws : List Word) : Nat := (ws.map (fun w => w.length + 1)).sum + 1

end Verif.Config
