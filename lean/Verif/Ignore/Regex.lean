import Verif.Ignore.Model

/-!
# The fragment of PCRE that the translation emits

An independent description of what PCRE (default options, single-line) does with a text: a parser to syntax trees and a
matching relation.  Constructs outside the fragment (back-references, lazy quantifiers, collating elements, …) do not parse
here; nothing is claimed about them.
-/

namespace Verif.Ignore

/-- A character lies in one of the ranges. -/
def inSet (rs : List (Char × Char)) (c : Char) : Bool := rs.any (fun r => decide (r.1 ≤ c) && decide (c ≤ r.2))

/-- Regular expressions; a class is a list of ranges. -/
inductive Re where
  | eps | bol | eol | any
  | set (neg : Bool) (rs : List (Char × Char))
  | seq (a b : Re) | alt (a b : Re) | star (a : Re) | opt (a : Re)
  deriving DecidableEq

/-- `M r b m a`: in the subject `b ++ m ++ a`, `r` matches the part `m`. -/
inductive M : Re → List Char → List Char → List Char → Prop
  | eps {b a} : M .eps b [] a
  | bol {a} : M .bol [] [] a
  | eol {b} : M .eol b [] []
  | eolNl {b} : M .eol b [] ['\n']
  | any {b c a} : c ≠ '\n' → M .any b [c] a
  | set {neg rs b c a} : inSet rs c = !neg → M (.set neg rs) b [c] a
  | seq {r s b m n a} : M r b m (n ++ a) → M s (b ++ m) n a → M (.seq r s) b (m ++ n) a
  | altL {r s b m a} : M r b m a → M (.alt r s) b m a
  | altR {r s b m a} : M s b m a → M (.alt r s) b m a
  | starNil {r b a} : M (.star r) b [] a
  | starCons {r b m n a} : M r b m (n ++ a) → M (.star r) (b ++ m) n a → M (.star r) b (m ++ n) a
  | optNil {r b a} : M (.opt r) b [] a
  | optSome {r b m a} : M r b m a → M (.opt r) b m a

/-- A search: some part of the subject matches. -/
def Re.Search (r : Re) (s : List Char) : Prop := ∃ b m a, s = b ++ m ++ a ∧ M r b m a

/-! ## Parsing -/

/-- The named classes of POSIX in the C locale. -/
def named : List Char → Option (List (Char × Char))
  | ['a', 'l', 'p', 'h', 'a'] => some [('A', 'Z'), ('a', 'z')]
  | ['l', 'o', 'w', 'e', 'r'] => some [('a', 'z')]
  | ['u', 'p', 'p', 'e', 'r'] => some [('A', 'Z')]
  | ['d', 'i', 'g', 'i', 't'] => some [('0', '9')]
  | ['a', 'l', 'n', 'u', 'm'] => some [('0', '9'), ('A', 'Z'), ('a', 'z')]
  | ['x', 'd', 'i', 'g', 'i', 't'] => some [('0', '9'), ('A', 'F'), ('a', 'f')]
  | ['s', 'p', 'a', 'c', 'e'] => some [('\t', '\r'), (' ', ' ')]
  | ['b', 'l', 'a', 'n', 'k'] => some [('\t', '\t'), (' ', ' ')]
  | ['p', 'u', 'n', 'c', 't'] => some [('!', '/'), (':', '@'), ('[', '`'), ('{', '~')]
  | ['g', 'r', 'a', 'p', 'h'] => some [('!', '~')]
  | ['p', 'r', 'i', 'n', 't'] => some [(' ', '~')]
  | ['c', 'n', 't', 'r', 'l'] => some [('\x00', '\x1f'), ('\x7f', '\x7f')]
  | _ => none

/-- Inside a class: nothing pending, after a character that may begin a range, after that and a hyphen, after a backslash (the
same at the end of a range), after an opening bracket, inside the name of a named class, after the colon that ends it, after
a named class. -/
inductive CMode where
  | idle | one (c : Char) | dash (c : Char) | esc | escTo (c : Char) | brk | name (n : List Char) | nameEnd (n : List Char) | named

/-- Lexical state: ordinary, after a backslash, after the bracket that opens a class, after its `^`, inside it (with the ranges
read so far, last first). -/
inductive Mode where
  | normal | esc | clsStart | clsNeg | cls (neg : Bool) (acc : List (Char × Char)) (m : CMode)

/-- Parser state: the items of the current sequence (last first), whether the last one can take a quantifier, the finished
alternatives, and the same for the enclosing groups. -/
structure PS where
  mode : Mode
  items : List Re
  canQ : Bool
  alts : List Re
  stack : List (List Re × List Re)

def seqOf : List Re → Re → Re
  | [], acc => acc
  | r :: rs, acc => seqOf rs (.seq r acc)

def altOf : List Re → Re → Re
  | [], acc => acc
  | r :: rs, acc => altOf rs (.alt r acc)

def PS.push (p : PS) (r : Re) : PS := { p with mode := .normal, items := r :: p.items, canQ := true }

/-- Letters and digits: after a backslash they are not literals. -/
def isAlnum (c : Char) : Bool := ('0' ≤ c && c ≤ '9') || ('A' ≤ c && c ≤ 'Z') || ('a' ≤ c && c ≤ 'z')

/-- A character of a class with nothing pending. -/
def PS.clsIdle (p : PS) (neg : Bool) (acc : List (Char × Char)) (c : Char) : PS :=
  if c = ']' then p.push (.set neg acc)
  else { p with mode := .cls neg acc (if c = '\\' then .esc else if c = '[' then .brk else .one c) }

/-- A character of a class after one that may begin a range. -/
def PS.clsOne (p : PS) (neg : Bool) (acc : List (Char × Char)) (a c : Char) : PS :=
  if c = '-' then { p with mode := .cls neg acc (.dash a) } else p.clsIdle neg ((a, a) :: acc) c

/-- The first character of a class: a closing bracket is ordinary there. -/
def PS.clsFirst (p : PS) (neg : Bool) (c : Char) : PS :=
  if c = ']' then { p with mode := .cls neg [] (.one ']') } else p.clsIdle neg [] c

/-- The end of a range; a range that goes backwards does not compile. -/
def PS.clsRange (p : PS) (neg : Bool) (acc : List (Char × Char)) (a c : Char) : Option PS :=
  if a ≤ c then some { p with mode := .cls neg ((a, c) :: acc) .idle } else none

/-- One character of a class. -/
def PS.clsStep (p : PS) (neg : Bool) (acc : List (Char × Char)) (m : CMode) (c : Char) : Option PS :=
  match m with
  | .idle => some (p.clsIdle neg acc c)
  | .one a => some (p.clsOne neg acc a c)
  | .dash a =>
    if c = ']' then some (p.push (.set neg (('-', '-') :: (a, a) :: acc)))
    else if c = '\\' then some { p with mode := .cls neg acc (.escTo a) }
    else if c = '[' then none
    else p.clsRange neg acc a c
  | .esc => if isAlnum c then none else some { p with mode := .cls neg acc (.one c) }
  | .escTo a => if isAlnum c then none else p.clsRange neg acc a c
  | .brk =>
    if c = ':' then some { p with mode := .cls neg acc (.name []) }
    else if c = '.' ∨ c = '=' then none else some (p.clsOne neg acc '[' c)
  | .name n =>
    if c = ':' then some { p with mode := .cls neg acc (.nameEnd n) }
    else if 'a' ≤ c ∧ c ≤ 'z' then some { p with mode := .cls neg acc (.name (n ++ [c])) } else none
  | .nameEnd n =>
    if c = ']' then (Verif.Ignore.named n).map (fun rs => { p with mode := .cls neg (rs.reverse ++ acc) .named }) else none
  | .named => if c = '-' then none else some (p.clsIdle neg acc c)

/-- Whether a text after an opening bracket and one of `:`, `.` and `=` looks like a POSIX element: it comes to that character
and a closing bracket before anything that speaks against it. -/
def posixEnd (x : Char) : List Char → Bool
  | [] => false
  | [_] => false
  | a :: b :: r =>
    if a = '\\' ∧ (b = ']' ∨ b = '\\') then posixEnd x r
    else if a = ']' ∨ a = '[' ∧ b = x then false
    else if a = x ∧ b = ']' then true
    else posixEnd x (b :: r)

/-- Outside a class a POSIX element is an error. -/
def posixAlone (c : Char) (rest : List Char) : Bool := (c == ':' || c == '.' || c == '=') && posixEnd c rest

/-- One character of the text and what follows it.  Of the escapes with letters and digits only `\d` is known here. -/
def PS.step (p : PS) (c : Char) (rest : List Char) : Option PS :=
  match p.mode with
  | .esc =>
    if c = 'd' then some (p.push (.set false [('0', '9')]))
    else if isAlnum c then none else some (p.push (.set false [(c, c)]))
  | .clsStart =>
    if c = '^' then some { p with mode := .clsNeg }
    else if posixAlone c rest then none else some (p.clsFirst false c)
  | .clsNeg => some (p.clsFirst true c)
  | .cls neg acc m => p.clsStep neg acc m c
  | .normal =>
    if c = '\\' then some { p with mode := .esc }
    else if c = '[' then some { p with mode := .clsStart }
    else if c = '^' then some { p with items := .bol :: p.items, canQ := false }
    else if c = '$' then some { p with items := .eol :: p.items, canQ := false }
    else if c = '.' then some (p.push .any)
    else if c = '(' then some { p with items := [], canQ := false, alts := [], stack := (p.items, p.alts) :: p.stack }
    else if c = '|' then some { p with items := [], canQ := false, alts := seqOf p.items .eps :: p.alts }
    else if c = ')' then
      match p.stack with
      | [] => none
      | (items, alts) :: st =>
        some { p with items := altOf p.alts (seqOf p.items .eps) :: items, canQ := true, alts := alts, stack := st }
    else if c = '*' then
      match p.canQ, p.items with
      | true, r :: rs => some { p with items := .star r :: rs, canQ := false }
      | _, _ => none
    else if c = '?' then
      match p.canQ, p.items with
      | true, r :: rs => some { p with items := .opt r :: rs, canQ := false }
      | _, _ => none
    else if c = '+' ∨ c = '{' then none
    else some (p.push (.set false [(c, c)]))

def PS.run : PS → List Char → Option PS
  | p, [] => some p
  | p, c :: cs => match p.step c cs with
    | none => none
    | some q => q.run cs

def PS.init : PS := ⟨.normal, [], false, [], []⟩

/-- The expression a text stands for. -/
def parse (text : List Char) : Option Re :=
  match PS.init.run text with
  | some ⟨.normal, items, _, alts, []⟩ => some (altOf alts (seqOf items .eps))
  | _ => none

/-- The text ends inside a class. -/
def Unclosed (text : List Char) : Prop :=
  ∃ p, PS.init.run text = some p ∧ (p.mode = .clsStart ∨ p.mode = .clsNeg ∨ ∃ neg acc m, p.mode = .cls neg acc m)

/-- A POSIX element stands outside a class. -/
def Alone (text : List Char) : Prop :=
  ∃ u x t p, text = u ++ '[' :: x :: t ∧ PS.init.run u = some p ∧ p.mode = .normal ∧ posixAlone x t = true

/-- An engine that is right about the texts above, and compiles neither a text that ends inside a class nor one with a POSIX
element outside a class. -/
structure Engine.Conforms (E : Engine) : Prop where
  runs : ∀ text r, parse text = some r → ∃ f, E text = some f ∧ ∀ s, f s = true ↔ r.Search s
  rejects : ∀ text, Unclosed text → E text = none
  posix : ∀ text, Alone text → E text = none

end Verif.Ignore
