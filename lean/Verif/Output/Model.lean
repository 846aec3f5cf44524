import Verif.Report.Model
import Verif.HumanSize.Model
import Verif.Config.Model

/-!
# Model of what `ft_report.c` prints to the standard output

The reporter's loops are in `Verif.Report`, which gives the groups; here are the `printf` calls of each pair.
They go to one buffered stream, so the text is the concatenation of what is printed.  Archive members (`subpath`) are
in `Verif.Archive`.  What goes to the standard error is not part of the text.
-/

namespace Verif.Output

open Verif.Report (FileEnt Group)
open Verif.HumanSize (Printed)

/-- `reporting_colors_t`, ft_report.h L19-24; all empty if the output is not a terminal (L111-116). -/
structure Colors where
  size : List Char
  path : List Char
  reset : List Char

/-- ft_report.c L111-116: `use_color` is `isatty(STDOUT_FILENO)`. -/
def colors (tty : Bool) : Colors :=
  if tty then ⟨"\x1b[36m\x1b[1m".toList, "\x1b[34m\x1b[1m".toList, "\x1b[0m".toList⟩ else ⟨[], [], []⟩

/-- human_size.c L21: the unit names. -/
def unitName : Nat → List Char
  | 0 => ['B']
  | 1 => "KiB".toList
  | 2 => "MiB".toList
  | 3 => "GiB".toList
  | 4 => "TiB".toList
  | 5 => "PiB".toList
  | _ => "EiB".toList

/-- human_size.c L30-34: the text of a size (sizes are not negative). -/
def sizeText : Printed → List Char
  | .bytes n => Nat.toDigits 10 n.toNat ++ ' ' :: unitName 0
  | .tenths t u => Nat.toDigits 10 (t / 10) ++ '.' :: (Nat.toDigits 10 (t % 10) ++ ' ' :: unitName u)

/-- The options the printing depends on. -/
structure Style where
  sep : Char
  sized : Bool
  colors : Colors

/-- ft_report.c L215-223 `format_and_print_duplicate`, for a file that is no archive member. -/
def printFile (s : Style) (f : FileEnt) : List Char := s.colors.path ++ f.path.toList ++ s.colors.reset

/-- ft_report.c L257-264: what is printed before the first duplicate of a file. -/
def printHead (s : Style) (size : Nat) (f : FileEnt) : List Char :=
  (if s.sized then s.colors.size ++ ['S', 'i', 'z', 'e', ':', ' '] ++ sizeText (HumanSize.format size) ++ s.colors.reset ++ ['\n'] else []) ++ printFile s f

/-- ft_report.c L252-268: what `compare_and_report_pair` prints for a pair of identical files, and `already_printed`. -/
def printPair (s : Style) (size : Nat) (f : FileEnt) (already : Bool) (g : FileEnt) : List Char × Bool :=
  ((if already then [] else printHead s size f) ++ s.sep :: printFile s g, true)

/-- ft_report.c L83-99: the pairs of one file, and the blank line after them. -/
def printPairs (s : Style) (size : Nat) (f : FileEnt) : Bool → List FileEnt → List Char
  | already, [] => if already then ['\n', '\n'] else []
  | already, g :: gs => (printPair s size f already g).1 ++ printPairs s size f (printPair s size f already g).2 gs

/-- One group: the file compared with the others, and those found identical to it. -/
def printGroup (s : Style) (g : Group η) : List Char :=
  match g.files with
  | [] => []
  | f :: gs => printPairs s g.size f false gs

/-- ft_report.c L103-146 `ft_report_duplicates`: the standard output. -/
def textReport (s : Style) (gs : List (Group η)) : List Char := gs.flatMap (printGroup s)

/-- ft_report.c L111-116 with the options of the command line. -/
def styleOf (c : Config.Conf) (tty : Bool) : Style := ⟨c.sep, Config.isOptionSet c.mask Config.bSIZED, colors tty⟩

end Verif.Output
