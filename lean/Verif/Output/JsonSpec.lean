/-!
# Reading a JSON report back (specification for C82)

What a program does that consumes the JSON report of `ftwin`: it takes the members it needs from the objects, and turns digits into
numbers and time stamps into seconds.  Nothing here refers to the model of the code that builds the document.  A `Char` in a string stands
for a byte.
-/

namespace Verif.Output

/-- A JSON document. -/
inductive Json where
  | null
  | bool (b : Bool)
  | int (n : Int)
  | str (s : List Char)
  | arr (l : List Json)
  | obj (m : List (String × Json))

/-- A member of an object. -/
def Json.get : Json → String → Option Json
  | .obj m, k => m.lookup k
  | _, _ => none

def Json.text : Json → Option (List Char)
  | .str s => some s
  | _ => none

def Json.nat : Json → Option Nat
  | .int n => if 0 ≤ n then some n.toNat else none
  | _ => none

def Json.flag : Json → Option Bool
  | .bool b => some b
  | _ => none

def Json.items : Json → Option (List Json)
  | .arr l => some l
  | _ => none

/-- The value of a digit in base 10 or 16 (lower case). -/
def digitVal (c : Char) : Nat := if c.toNat < 58 then c.toNat - 48 else c.toNat - 87

/-- The number written with digits of a base. -/
def readNat (base : Nat) (s : List Char) : Nat := s.foldl (fun a c => a * base + digitVal c) 0

/-- Days from 1 January of year 0 to 1 January of year `y` in the Gregorian calendar. -/
def daysToYear : Nat → Nat
  | 0 => 0
  | y + 1 => daysToYear y + if y % 4 = 0 ∧ (y % 100 ≠ 0 ∨ y % 400 = 0) then 366 else 365

/-- Length of month `m` (1 to 12) of year `y`. -/
def monthLength (y m : Nat) : Nat :=
  if m = 2 then (if y % 4 = 0 ∧ (y % 100 ≠ 0 ∨ y % 400 = 0) then 29 else 28)
  else if m = 4 ∨ m = 6 ∨ m = 9 ∨ m = 11 then 30 else 31

/-- Days from 1 January to the first day of month `m` of year `y`. -/
def daysToMonth (y : Nat) : Nat → Nat
  | 0 => 0
  | 1 => 0
  | m + 1 => daysToMonth y m + monthLength y m

/-- Seconds from 1 January 1970, 00:00 UTC, to a date and time. -/
def epochSeconds (y mo d h mi s : Nat) : Int :=
  (((daysToYear y + daysToMonth y mo + (d - 1) : Nat) : Int) - daysToYear 1970) * 86400 + ((h * 3600 + mi * 60 + s : Nat) : Int)

/-- The second denoted by a time stamp `YYYY-MM-DDTHH:MM:SSZ`. -/
def readTime : List Char → Option Int
  | [y1, y2, y3, y4, '-', m1, m2, '-', d1, d2, 'T', h1, h2, ':', i1, i2, ':', s1, s2, 'Z'] =>
    some (epochSeconds (readNat 10 [y1, y2, y3, y4]) (readNat 10 [m1, m2]) (readNat 10 [d1, d2]) (readNat 10 [h1, h2])
      (readNat 10 [i1, i2]) (readNat 10 [s1, s2]))
  | _ => none

example : readTime "1970-01-01T00:00:00Z".toList = some 0 := by decide +kernel
example : readTime "2024-02-29T12:30:05Z".toList = some 1709209805 := by decide +kernel

/-- What the report says about a file: name, second of the last change, priority. -/
structure FileRec where
  name : List Char
  second : Int
  prio : Bool
  deriving DecidableEq

/-- What the report says about a group: size, digest, files. -/
structure GroupRec where
  size : Nat
  digest : Nat
  files : List FileRec
  deriving DecidableEq

/-- `none` if one of them is. -/
def sequence : List (Option α) → Option (List α)
  | [] => some []
  | x :: xs => do
    let a ← x
    let l ← sequence xs
    some (a :: l)

def readFile (j : Json) : Option FileRec := do
  let name ← (← j.get "path").text
  let second ← readTime (← (← j.get "mtime_utc").text)
  let prio ← (← j.get "prioritized").flag
  some ⟨name, second, prio⟩

def readGroup (j : Json) : Option GroupRec := do
  let size ← (← j.get "size_bytes").nat
  let digest ← (← j.get "hash_xxh128").text
  let files ← sequence ((← (← j.get "duplicates").items).map readFile)
  some ⟨size, readNat 16 digest, files⟩

/-- The groups of a JSON report; `none` if something is missing. -/
def readJson (j : Json) : Option (List GroupRec) := do
  sequence ((← j.items).map readGroup)

/-- Well-formed UTF-8 (RFC 3629), on bytes. -/
def utf8 : List Nat → Bool
  | [] => true
  | a :: r =>
    if a < 0x80 then utf8 r
    else if 0xC2 ≤ a ∧ a ≤ 0xDF then
      match r with
      | b :: r => (0x80 ≤ b ∧ b ≤ 0xBF) && utf8 r
      | _ => false
    else if 0xE0 ≤ a ∧ a ≤ 0xEF then
      match r with
      | b :: c :: r =>
        (0x80 ≤ b ∧ b ≤ 0xBF ∧ 0x80 ≤ c ∧ c ≤ 0xBF ∧ (a = 0xE0 → 0xA0 ≤ b) ∧ (a = 0xED → b ≤ 0x9F)) && utf8 r
      | _ => false
    else if 0xF0 ≤ a ∧ a ≤ 0xF4 then
      match r with
      | b :: c :: d :: r =>
        (0x80 ≤ b ∧ b ≤ 0xBF ∧ 0x80 ≤ c ∧ c ≤ 0xBF ∧ 0x80 ≤ d ∧ d ≤ 0xBF ∧ (a = 0xF0 → 0x90 ≤ b) ∧ (a = 0xF4 → b ≤ 0x8F)) && utf8 r
      | _ => false
    else false

end Verif.Output
