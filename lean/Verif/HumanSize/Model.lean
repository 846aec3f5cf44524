import Verif.Basic

/-!
# Model of `src/human_size.c`

C strings are lists of characters without the terminating NUL.  `strtod` is modelled in the C
locale: optional blanks, optional sign, then a hexadecimal number, a decimal number,
`inf`/`infinity` or `nan` (the optional parenthesised part of `nan(...)` is not modelled); the
result is the exact rational, which is then rounded to the nearest double, ties to even.

A non-negative finite double is the natural number of units of 2^-1074 it is worth, so that
subnormals need no special case.  Multiplying or dividing by a power of two is exact in the
range used.  Converting to a 64-bit integer truncates and is undefined out of range.
-/

namespace Verif.HumanSize

/-- `isspace` in the C locale. -/
def isSpace (c : Char) : Bool := c == ' ' || c == '\t' || c == '\n' || c == '\x0b' || c == '\x0c' || c == '\r'

/-- Value of a decimal digit. -/
def decVal (c : Char) : Option Nat := if '0' ≤ c ∧ c ≤ '9' then some (c.toNat - 48) else none

/-- Value of a hexadecimal digit. -/
def hexVal (c : Char) : Option Nat :=
  if '0' ≤ c ∧ c ≤ '9' then some (c.toNat - 48)
  else if 'a' ≤ c ∧ c ≤ 'f' then some (c.toNat - 87)
  else if 'A' ≤ c ∧ c ≤ 'F' then some (c.toNat - 55) else none

/-- The longest prefix of digits and the rest. -/
def takeDigits (dv : Char → Option Nat) : List Char → List Nat × List Char
  | [] => ([], [])
  | c :: s =>
    match dv c with
    | some d => let (ds, r) := takeDigits dv s; (d :: ds, r)
    | none => ([], c :: s)

/-- Value of a digit string. -/
def ofDigits (base : Nat) (ds : List Nat) : Nat := ds.foldl (fun a d => a * base + d) 0

/-- Optional sign. -/
def sign : List Char → Bool × List Char
  | '-' :: s => (true, s)
  | '+' :: s => (false, s)
  | s => (false, s)

/-- Digits with an optional point: numerator, denominator and the rest. -/
def mantissa (dv : Char → Option Nat) (base : Nat) (s : List Char) : Option (Nat × Nat × List Char) :=
  let (ip, r) := takeDigits dv s
  match r with
  | '.' :: r2 =>
    let (fp, r3) := takeDigits dv r2
    if ip = [] ∧ fp = [] then none else some (ofDigits base (ip ++ fp), base ^ fp.length, r3)
  | _ => if ip = [] then none else some (ofDigits base ip, 1, r)

/-- Optional exponent introduced by one of two marks (`e`/`E` or `p`/`P`). -/
def exponent (lo up : Char) (s : List Char) : Int × List Char :=
  match s with
  | c :: r =>
    if c = lo ∨ c = up then
      let (neg, r2) := sign r
      let (ds, r3) := takeDigits decVal r2
      if ds = [] then (0, s) else (if neg then -(ofDigits 10 ds : Int) else ofDigits 10 ds, r3)
    else (0, s)
  | [] => (0, [])

/-- `num / den * base ^ e`. -/
def scale (num den base : Nat) (e : Int) : Nat × Nat :=
  if 0 ≤ e then (num * base ^ e.toNat, den) else (num, den * base ^ (-e).toNat)

/-- Result of `strtod`: an exact magnitude with a sign, or infinity / not-a-number. -/
inductive Num where
  | fin (neg : Bool) (num den : Nat)
  | special

/-- Lower-case comparison with a keyword; the rest when it is a prefix. -/
def keyword : List Char → List Char → Option (List Char)
  | [], s => some s
  | _ :: _, [] => none
  | k :: ks, c :: s => if c.toLower = k then keyword ks s else none

/-- `inf`, `infinity` or `nan`. -/
def specials (s : List Char) : Option (Num × List Char) :=
  match keyword "infinity".toList s with
  | some r => some (.special, r)
  | none =>
    match keyword "inf".toList s with
    | some r => some (.special, r)
    | none =>
      match keyword "nan".toList s with
      | some r => some (.special, r)
      | none => none

/-- Decimal number or keyword, after the sign. -/
def decimal (neg : Bool) (s : List Char) : Option (Num × List Char) :=
  match mantissa decVal 10 s with
  | some (n, d, r) =>
    let (e, r2) := exponent 'e' 'E' r
    let (n, d) := scale n d 10 e
    some (.fin neg n d, r2)
  | none => specials s

/-- `strtod`, called at human_size.c L40: `none` when nothing is converted
(`endptr == size_str`). -/
def strtod (s : List Char) : Option (Num × List Char) :=
  let (neg, s) := sign (s.dropWhile isSpace)
  match s with
  | '0' :: x :: h =>
    if x = 'x' ∨ x = 'X' then
      match mantissa hexVal 16 h with
      | some (n, d, r) =>
        let (e, r2) := exponent 'p' 'P' r
        let (n, d) := scale n d 2 e
        some (.fin neg n d, r2)
      | none => decimal neg s
    else decimal neg s
  | _ => decimal neg s

/-- `n / d` rounded to an integer, ties to even. -/
def roundHalfEven (n d : Nat) : Nat :=
  let q := n / d
  let r := n % d
  if 2 * r < d then q else if d < 2 * r then q + 1 else if q % 2 = 0 then q else q + 1

/-- Number of units of 2^-1074 in one. -/
@[irreducible] def one : Nat := 2 ^ 1074

/-- Exponent (in units of 2^-1074) of the last place of the double nearest to `n / d`: 53
significant bits, or fewer for subnormals. -/
def ulpExp (n d : Nat) : Nat := Nat.log2 (n * one / d) - 52

/-- The double nearest to `n / d`, in units of 2^-1074. -/
def toDouble (n d : Nat) : Nat := roundHalfEven (n * one) (d * 2 ^ ulpExp n d) * 2 ^ ulpExp n d

/-- L16-19, L50-66: the multiplier of a suffix character (`toupper` in the C locale), `none`
for the `default` case. -/
def multiplier (c : Char) : Option Nat :=
  if c = 'T' ∨ c = 't' then some (2 ^ 40)
  else if c = 'G' ∨ c = 'g' then some (2 ^ 30)
  else if c = 'M' ∨ c = 'm' then some (2 ^ 20)
  else if c = 'K' ∨ c = 'k' then some (2 ^ 10)
  else none

/-- L70: `(apr_off_t) (size * (double) multiplier)`. -/
def toOff (neg : Bool) (u mult : Nat) : Res Int :=
  let t : Nat := u * mult / one
  if neg then (if t ≤ 2 ^ 63 then .ok (-(t : Int)) else .ub)
  else if t < 2 ^ 63 then .ok t else .ub

/-- L70 applied to the result of `strtod`; converting an infinity or a NaN is undefined. -/
def convert (v : Num) (mult : Nat) : Res Int :=
  match v with
  | .special => .ub
  | .fin neg n d => toOff neg (toDouble n d) mult

/-- human_size.c L37-71 `parse_human_size`. -/
def parse (s : List Char) : Res Int :=
  match strtod s with
  | none => .ok (-1)
  | some (v, r) =>
    match r.dropWhile isSpace with
    | [] => convert v 1
    | c :: _ =>
      match multiplier c with
      | none => .ok (-1)
      | some m => convert v m

/-- L25-28: divide by 1024 while at least 1024 and a larger unit exists.  `num` is the value
in units of 2^-1074 (`readable_size`), `den` the power of 1024 divided out so far; the exact
quotient is kept as a pair. -/
def unitLoop (num : Nat) : Nat → Nat → Nat → Nat × Nat
  | 0, idx, den => (idx, den)
  | left + 1, idx, den =>
    if 1024 * den ≤ num then unitLoop num left (idx + 1) (den * 1024) else (idx, den)

/-- What `format_human_size` prints. -/
inductive Printed where
  /-- `"%d B"` -/
  | bytes (n : Int)
  /-- `"%.1f <unit>"`: the number of tenths and the unit index (1 = KiB, ..., 6 = EiB) -/
  | tenths (t : Nat) (unit : Nat)
  deriving DecidableEq, Repr

/-- L25-34, with `readable_size` initially the whole number `v`. -/
def formatVal (v : Nat) : Printed :=
  let (idx, den) := unitLoop v 6 0 1
  if idx = 0 then .bytes (v : Int) else .tenths ((20 * v + den) / (2 * den)) idx

/-- human_size.c L19-35 `format_human_size` for a non-negative size: the size is converted to
the nearest double (a whole number).  `"%.1f"` is APR's: the digits of the exact value with 5
added behind the last one, i.e. rounding half up. -/
def format (size : Nat) : Printed := formatVal (toDouble size 1 / one)

end Verif.HumanSize
