/-!
# Reading a text report back (specification for C80, C81)

A program that consumes the report knows the separator.  It cuts the text at blank lines, and each block at the
separator.  Nothing here refers to the model of the printing code.  A `Char` stands for a byte.
-/

namespace Verif.Output

/-- Cut a text behind every blank line; `acc` is the current block, reversed. -/
def cutBlocks : List Char → List Char → List (List Char)
  | [], [] => []
  | [], acc => [acc.reverse]
  | [c], acc => [(c :: acc).reverse]
  | c :: d :: r, acc => if c = '\n' ∧ d = '\n' then acc.reverse :: cutBlocks r [] else cutBlocks (d :: r) (c :: acc)

/-- Cut a text at every separator; `acc` is the current piece, reversed. -/
def cutAt (sep : Char) : List Char → List Char → List (List Char)
  | [], acc => [acc.reverse]
  | c :: r, acc => if c = sep then acc.reverse :: cutAt sep r [] else cutAt sep r (c :: acc)

/-- The groups of a report. -/
def readReport (sep : Char) (text : List Char) : List (List (List Char)) := (cutBlocks text []).map (cutAt sep · [])

/-- The first line of a block, and the rest. -/
def firstLine : List Char → List Char × List Char
  | [] => ([], [])
  | c :: r => if c = '\n' then ([], r) else ((firstLine r).1.cons c, (firstLine r).2)

/-- The groups of a report in which each block begins with a line giving the size. -/
def readSized (sep : Char) (text : List Char) : List (List Char × List (List Char)) :=
  (cutBlocks text []).map (fun b => ((firstLine b).1, cutAt sep (firstLine b).2 []))

/-- A name that cannot be confused with punctuation. -/
structure Plain (sep : Char) (name : List Char) : Prop where
  nonempty : name ≠ []
  oneLine : '\n' ∉ name
  noSep : sep ∉ name

end Verif.Output
