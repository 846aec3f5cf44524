import Verif.Basic

/-!
# Model of `ft_ignore.c`

Translation of ignore patterns to PCRE text, loading of ignore files and matching of a path against a chain of
contexts.  Characters are bytes; strings hold no NUL.  The regular-expression engine is a parameter
`Engine`: it compiles a text to a predicate on subjects or fails.

Simplifications: `pcre_exec` errors other than "no match" (match limits) count as no match; allocation
succeeds.
-/

namespace Verif.Ignore

/-- `isspace` in the C locale. -/
def isSpace (c : Char) : Bool := c == ' ' || c == '\t' || c == '\n' || c == '\x0b' || c == '\x0c' || c == '\r'

/-- What the prefix and suffix of a pattern say. -/
structure Marks where
  negate : Bool
  dirOnly : Bool
  anchored : Bool
  deriving DecidableEq

/-- L72-78: the negation mark and the blanks after it. -/
def takeNegation : List Char → Bool × List Char
  | '!' :: r => (true, r.dropWhile isSpace)
  | r => (false, r)

/-- L81-84: the leading slash. -/
def takeAnchor : List Char → Bool × List Char
  | '/' :: r => (true, r)
  | r => (false, r)

/-- L87-93: whether the last non-blank character is a slash.  For an empty rest `end` points at the last character of the
pattern. -/
def endsSlash (pattern rest : List Char) : Bool :=
  match rest.reverse.dropWhile isSpace with
  | c :: _ => c == '/'
  | [] => rest.isEmpty && pattern.getLast? == some '/'

/-- L63-96 `handle_negation_and_slashes`. -/
def handleMarks (pattern : List Char) : Marks × List Char :=
  let n := takeNegation pattern
  let a := takeAnchor n.2
  (⟨n.1, endsSlash pattern a.2, a.1⟩, a.2)

/-- L261: the characters that are escaped. -/
def metaChars : List Char := ['.', '^', '$', '+', '{', '}', '(', ')', '|']

/-- L234-272 `convert_glob_body_to_pcre` with L156-176 `handle_star`, L184-188 `handle_question_mark` and L196-221
`handle_char_class`; the first flag is `FT_IGNORE_DIR_ONLY`, the second tells that a character class is open. -/
def convert (dir : Bool) : Bool → List Char → List Char
  | true, [] => []
  | true, ']' :: r => ']' :: convert dir false r
  | true, '\\' :: c :: r => '\\' :: c :: convert dir true r
  | true, c :: r => c :: convert dir true r
  | false, [] => []
  | false, '/' :: [] => if dir then [] else ['/']
  | false, '\\' :: c :: r => '\\' :: c :: convert dir false r
  | false, '*' :: '*' :: '/' :: r => ['(', '.', '*', '/', ')', '?'] ++ convert dir false r
  | false, '*' :: '*' :: r => ['.', '*'] ++ convert dir false r
  | false, '*' :: r => ['[', '^', '/', ']', '*'] ++ convert dir false r
  | false, '?' :: r => ['[', '^', '/', ']'] ++ convert dir false r
  | false, '[' :: '!' :: r => ['[', '^'] ++ convert dir true r
  | false, '[' :: '^' :: r => ['[', '^'] ++ convert dir true r
  | false, '[' :: r => '[' :: convert dir true r
  | false, c :: r => if c ∈ metaChars then '\\' :: c :: convert dir false r else c :: convert dir false r

/-- L134-147 `set_pcre_anchors`. -/
def startAnchor (m : Marks) : List Char := if m.anchored then ['^'] else ['(', '^', '|', '/', ')']

/-- L289-297. -/
def endAnchor (m : Marks) : List Char := if m.dirOnly then ['(', '/', '|', '$', ')'] else ['$']

/-- The text `ft_glob_to_pcre` writes, without the terminator. -/
def pcreText (pattern : List Char) : List Char :=
  let (m, body) := handleMarks pattern
  startAnchor m ++ convert m.dirOnly false body ++ endAnchor m

/-- L39 `MAX_PATTERN_LEN`. -/
def maxLen : Nat := 4096

/-- L274-301 `ft_glob_to_pcre`: the buffer has `MAX_PATTERN_LEN` bytes, writing past it is undefined behaviour. -/
def globToPcre (pattern : List Char) : Res (List Char) :=
  if (pcreText pattern).length + 1 ≤ maxLen then .ok (pcreText pattern) else .ub

/-- A regular-expression engine: `pcre_compile` and `pcre_exec`. -/
abbrev Engine := List Char → Option (List Char → Bool)

/-- `ft_ignore_pattern_t`. -/
structure Pattern where
  negate : Bool
  dirOnly : Bool
  exec : List Char → Bool

/-- L316-357 `ft_ignore_add_pattern_str` on the patterns of a context; a text that does not compile is dropped. -/
def addPattern (E : Engine) (ps : List Pattern) (str : List Char) : Res (List Pattern) :=
  match str.dropWhile isSpace with
  | [] => .ok ps
  | '#' :: _ => .ok ps
  | p => do
    let text ← globToPcre p
    match E text with
    | none => .ok ps
    | some f => .ok (ps ++ [⟨(handleMarks p).1.negate, (handleMarks p).1.dirOnly, f⟩])

/-- `apr_file_gets` with a buffer of `n + 1` bytes: up to `n` characters, to the first newline inclusive. -/
def gets : Nat → List Char → List Char × List Char
  | 0, s => ([], s)
  | _, [] => ([], [])
  | n + 1, c :: s => if c = '\n' then (['\n'], s) else ((c :: (gets n s).1), (gets n s).2)

/-- L370-379: a trailing newline, then a trailing carriage return, is removed. -/
def chomp (line : List Char) : List Char :=
  let l := if line.getLast? = some '\n' then line.dropLast else line
  if l.getLast? = some '\r' then l.dropLast else l

/-- L359-386 `ft_ignore_load_file` on the content of the file; the fuel bounds the number of lines. -/
def loadContent (E : Engine) : Nat → List Char → List Pattern → Res (List Pattern)
  | 0, _, _ => .div
  | _, [], ps => .ok ps
  | n + 1, s, ps => do
    let ps ← addPattern E ps (chomp (gets (maxLen - 1) s).1)
    loadContent E n (gets (maxLen - 1) s).2 ps

/-- `ft_ignore_match_result_t`. -/
inductive Verdict where
  | none | ignored | whitelisted
  deriving DecidableEq

/-- `ft_ignore_context_t`; the chain to the root is a list, the context of the innermost directory first. -/
structure Ctx where
  base : List Char
  patterns : List Pattern

/-- L404-411: the path relative to a base directory (`none`: not below it). -/
def relative (base path : List Char) : Option (List Char) :=
  if base.isPrefixOf path then some ((path.drop base.length).dropWhile (· == '/')) else none

/-- L417-438: the loop over the patterns of one context. -/
def scan (isDir : Bool) (rel : List Char) : List Pattern → Verdict → Verdict
  | [], v => v
  | p :: ps, v =>
    if p.dirOnly && !isDir then scan isDir rel ps v
    else if p.exec rel then scan isDir rel ps (if p.negate then .whitelisted else .ignored)
    else scan isDir rel ps v

/-- L388-442 `ft_ignore_match`: walk up the chain; the result is kept from one context to the next. -/
def matchChain (path : List Char) (isDir : Bool) : List Ctx → Verdict → Verdict
  | [], v => v
  | c :: cs, v =>
    match relative c.base path with
    | some rel => matchChain path isDir cs (scan isDir rel c.patterns v)
    | none => matchChain path isDir cs v

/-- L388-399: no context, no verdict. -/
def ignoreMatch (chain : List Ctx) (path : List Char) (isDir : Bool) : Verdict := matchChain path isDir chain .none

end Verif.Ignore
