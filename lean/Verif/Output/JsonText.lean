import Verif.Output.JsonSpec

/-!
# The text of a JSON document

Two things that do not refer to each other: how a program reads a JSON text (RFC 8259), and a model of how jansson's `json_dumpf`
writes a document with the flags `JSON_INDENT(2) | JSON_ENSURE_ASCII` (ft_report_json.c L212).  jansson is not in /repo; the model
follows `dump.c` and `utf.c` of jansson 2.14.  A `Char` stands for a byte.
-/

namespace Verif.Output

/-! ## Reading (specification) -/

/-- The UTF-8 encoding of a code point (RFC 3629). -/
def utf8Encode (n : Nat) : List Nat :=
  if n < 0x80 then [n]
  else if n < 0x800 then [0xC0 + n / 64, 0x80 + n % 64]
  else if n < 0x10000 then [0xE0 + n / 4096, 0x80 + n / 64 % 64, 0x80 + n % 64]
  else [0xF0 + n / 262144, 0x80 + n / 4096 % 64, 0x80 + n / 64 % 64, 0x80 + n % 64]

/-- A hexadecimal digit of either case. -/
def hexVal (c : Char) : Option Nat :=
  if 48 ≤ c.toNat ∧ c.toNat ≤ 57 then some (c.toNat - 48)
  else if 65 ≤ c.toNat ∧ c.toNat ≤ 70 then some (c.toNat - 55)
  else if 97 ≤ c.toNat ∧ c.toNat ≤ 102 then some (c.toNat - 87)
  else none

def hex4 (a b c d : Char) : Option Nat := do
  some ((((← hexVal a) * 16 + (← hexVal b)) * 16 + (← hexVal c)) * 16 + (← hexVal d))

/-- The characters that are written with a backslash and one letter. -/
def shortEscape : Char → Option Nat
  | '"' => some 0x22
  | '\\' => some 0x5C
  | '/' => some 0x2F
  | 'b' => some 0x08
  | 'f' => some 0x0C
  | 'n' => some 0x0A
  | 'r' => some 0x0D
  | 't' => some 0x09
  | _ => none

def bytesOf (n : Nat) : List Char := (utf8Encode n).map Char.ofNat

/-- Bytes in front of what has been read. -/
def withBytes (b : List Char) (r : Option (List Char × List Char)) : Option (List Char × List Char) := r.map fun x => (b ++ x.1, x.2)

/-- The rest of a string, behind its opening quotation mark: its bytes, and what follows the closing one. -/
def readString : List Char → Option (List Char × List Char)
  | [] => none
  | '"' :: r => some ([], r)
  | '\\' :: 'u' :: a :: b :: c :: d :: r =>
    match hex4 a b c d with
    | none => none
    | some n =>
      if 0xD800 ≤ n ∧ n ≤ 0xDBFF then
        match r with
        | '\\' :: 'u' :: a :: b :: c :: d :: r =>
          match hex4 a b c d with
          | none => none
          | some m => if 0xDC00 ≤ m ∧ m ≤ 0xDFFF then withBytes (bytesOf (0x10000 + (n - 0xD800) * 1024 + (m - 0xDC00))) (readString r) else none
        | _ => none
      else if 0xDC00 ≤ n ∧ n ≤ 0xDFFF then none
      else withBytes (bytesOf n) (readString r)
  | '\\' :: c :: r =>
    match shortEscape c with
    | none => none
    | some n => withBytes (bytesOf n) (readString r)
  | c :: r => if c.toNat < 0x20 then none else withBytes [c] (readString r)

def isBlank (c : Char) : Bool := c == ' ' || c == '\n' || c == '\t' || c == '\r'

def skipBlanks (s : List Char) : List Char := s.dropWhile isBlank

/-- A number without sign, fraction and exponent; no zero in front. -/
def readDigits (s : List Char) : Option (Nat × List Char) :=
  match s.takeWhile Char.isDigit with
  | [] => none
  | '0' :: _ :: _ => none
  | ds => some (readNat 10 ds, s.dropWhile Char.isDigit)

/-- An integer. -/
def readSigned : List Char → Option (Int × List Char)
  | '-' :: s => (readDigits s).map fun x => (-(x.1 : Int), x.2)
  | s => (readDigits s).map fun x => ((x.1 : Int), x.2)

/-- A number: an integer that is not followed by a fraction or an exponent. -/
def readInt (s : List Char) : Option (Int × List Char) :=
  match readSigned s with
  | none => none
  | some (n, r) =>
    match r with
    | '.' :: _ => none
    | 'e' :: _ => none
    | 'E' :: _ => none
    | r => some (n, r)

mutual

/-- A value, after blanks; the number bounds the depth of the calls. -/
def readValue : Nat → List Char → Option (Json × List Char)
  | 0, _ => none
  | k + 1, s =>
    match skipBlanks s with
    | 'n' :: 'u' :: 'l' :: 'l' :: r => some (.null, r)
    | 't' :: 'r' :: 'u' :: 'e' :: r => some (.bool true, r)
    | 'f' :: 'a' :: 'l' :: 's' :: 'e' :: r => some (.bool false, r)
    | '"' :: r => (readString r).map fun x => (.str x.1, x.2)
    | '[' :: r =>
      match skipBlanks r with
      | ']' :: r => some (.arr [], r)
      | _ => (readElements k r).map fun x => (.arr x.1, x.2)
    | '{' :: r =>
      match skipBlanks r with
      | '}' :: r => some (.obj [], r)
      | _ => (readMembers k r).map fun x => (.obj x.1, x.2)
    | s => (readInt s).map fun x => (.int x.1, x.2)

/-- The elements of an array, up to the closing bracket. -/
def readElements : Nat → List Char → Option (List Json × List Char)
  | 0, _ => none
  | k + 1, s => do
    let v ← readValue k s
    match skipBlanks v.2 with
    | ',' :: r => (readElements k r).map fun x => (v.1 :: x.1, x.2)
    | ']' :: r => some ([v.1], r)
    | _ => none

/-- The members of an object, up to the closing brace. -/
def readMembers : Nat → List Char → Option (List (String × Json) × List Char)
  | 0, _ => none
  | k + 1, s => do
    match skipBlanks s with
    | '"' :: r =>
      let key ← readString r
      match skipBlanks key.2 with
      | ':' :: r =>
        let v ← readValue k r
        match skipBlanks v.2 with
        | ',' :: r => (readMembers k r).map fun x => ((String.ofList key.1, v.1) :: x.1, x.2)
        | '}' :: r => some ([(String.ofList key.1, v.1)], r)
        | _ => none
      | _ => none
    | _ => none

end

/-- A text that is one document. -/
def readText (s : List Char) : Option Json :=
  match readValue (s.length + 1) s with
  | none => none
  | some (j, r) => if skipBlanks r = [] then some j else none

example : (readText " [1, -20 ,{\"a\\u00e9\\ud83d\\uDE00\\n\": null}]\n".toList).isSome := by decide +kernel
example : (readText "[01]".toList).isNone ∧ (readText "[1,]".toList).isNone ∧ (readText "[1".toList).isNone ∧ (readText "[\"\\ud83d\"]".toList).isNone ∧
  (readText "[1.5]".toList).isNone ∧ (readText "[1] 2".toList).isNone := by decide +kernel

/-! ## Writing (model) -/

/-- jansson, utf.c `utf8_iterate`: the next code point of a text. -/
def nextCode : List Nat → Option (Nat × List Nat)
  | [] => none
  | a :: r =>
    if a < 0x80 then some (a, r)
    else if 0xC2 ≤ a ∧ a ≤ 0xDF then
      match r with
      | b :: r => if 0x80 ≤ b ∧ b ≤ 0xBF then some ((a - 0xC0) * 64 + (b - 0x80), r) else none
      | _ => none
    else if 0xE0 ≤ a ∧ a ≤ 0xEF then
      match r with
      | b :: c :: r =>
        let n := ((a - 0xE0) * 64 + (b - 0x80)) * 64 + (c - 0x80)
        if 0x80 ≤ b ∧ b ≤ 0xBF ∧ 0x80 ≤ c ∧ c ≤ 0xBF ∧ 0x800 ≤ n ∧ ¬ (0xD800 ≤ n ∧ n ≤ 0xDFFF) then some (n, r) else none
      | _ => none
    else if 0xF0 ≤ a ∧ a ≤ 0xF4 then
      match r with
      | b :: c :: d :: r =>
        let n := (((a - 0xF0) * 64 + (b - 0x80)) * 64 + (c - 0x80)) * 64 + (d - 0x80)
        if 0x80 ≤ b ∧ b ≤ 0xBF ∧ 0x80 ≤ c ∧ c ≤ 0xBF ∧ 0x80 ≤ d ∧ d ≤ 0xBF ∧ 0x10000 ≤ n ∧ n ≤ 0x10FFFF then some (n, r) else none
      | _ => none
    else none

/-- A digit of `%X`. -/
def upperHex (n : Nat) : Char := Char.ofNat (if n < 10 then 48 + n else 55 + n)

/-- `"\\u%04X"` for a number of at most 16 bits. -/
def unicodeEscape (n : Nat) : List Char := ['\\', 'u', upperHex (n / 4096 % 16), upperHex (n / 256 % 16), upperHex (n / 16 % 16), upperHex (n % 16)]

/-- jansson, dump.c `dump_string`: what is written for one code point, with `JSON_ENSURE_ASCII`. -/
def dumpCode (n : Nat) : List Char :=
  if n = 0x5C then ['\\', '\\']
  else if n = 0x22 then ['\\', '"']
  else if n = 0x08 then ['\\', 'b']
  else if n = 0x0C then ['\\', 'f']
  else if n = 0x0A then ['\\', 'n']
  else if n = 0x0D then ['\\', 'r']
  else if n = 0x09 then ['\\', 't']
  else if 0x20 ≤ n ∧ n ≤ 0x7F then [Char.ofNat n]
  else if n < 0x10000 then unicodeEscape n
  else unicodeEscape (0xD800 + (n - 0x10000) / 1024) ++ unicodeEscape (0xDC00 + (n - 0x10000) % 1024)

/-- jansson, dump.c `dump_string`: the code points of a text, then the closing quotation mark; fails where the text is not UTF-8. -/
def dumpCodes : Nat → List Nat → Option (List Char)
  | _, [] => some ['"']
  | 0, _ => none
  | k + 1, s => do
    let x ← nextCode s
    let r ← dumpCodes k x.2
    some (dumpCode x.1 ++ r)

def dumpString (s : List Char) : Option (List Char) := (dumpCodes s.length (s.map Char.toNat)).map fun t => '"' :: t

/-- jansson, dump.c `dump_indent` with an indent of two. -/
def dumpIndent (depth : Nat) : List Char := '\n' :: List.replicate (2 * depth) ' '

/-- `"%lld"`. -/
def dumpInt (n : Int) : List Char := if 0 ≤ n then Nat.toDigits 10 n.toNat else '-' :: Nat.toDigits 10 (-n).toNat

mutual

/-- jansson, dump.c `do_dump`. -/
def dump (depth : Nat) : Json → Option (List Char)
  | .null => some "null".toList
  | .bool true => some "true".toList
  | .bool false => some "false".toList
  | .int n => some (dumpInt n)
  | .str s => dumpString s
  | .arr [] => some ['[', ']']
  | .arr (x :: l) => do
    let a ← dump (depth + 1) x
    let t ← dumpElements depth l
    some ('[' :: (dumpIndent (depth + 1) ++ (a ++ t)))
  | .obj [] => some ['{', '}']
  | .obj ((key, v) :: l) => do
    let a ← dumpString key.toList
    let b ← dump (depth + 1) v
    let t ← dumpMembers depth l
    some ('{' :: (dumpIndent (depth + 1) ++ (a ++ ':' :: ' ' :: (b ++ t))))

/-- jansson, dump.c `do_dump`, `case JSON_ARRAY`: behind an element. -/
def dumpElements (depth : Nat) : List Json → Option (List Char)
  | [] => some (dumpIndent depth ++ [']'])
  | x :: l => do
    let a ← dump (depth + 1) x
    let t ← dumpElements depth l
    some (',' :: (dumpIndent (depth + 1) ++ (a ++ t)))

/-- jansson, dump.c `do_dump`, `case JSON_OBJECT`: behind a member.  The members are in the order in which they were set. -/
def dumpMembers (depth : Nat) : List (String × Json) → Option (List Char)
  | [] => some (dumpIndent depth ++ ['}'])
  | (key, v) :: l => do
    let a ← dumpString key.toList
    let b ← dump (depth + 1) v
    let t ← dumpMembers depth l
    some (',' :: (dumpIndent (depth + 1) ++ (a ++ ':' :: ' ' :: (b ++ t))))

end

/-- ft_report_json.c L212-216: what is written on the standard output; `none` if `json_dumpf` fails. -/
def jsonStdout (j : Json) : Option (List Char) := (dump 0 j).map fun t => t ++ ['\n']

end Verif.Output
