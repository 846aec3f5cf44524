import Verif.HumanSize.Props

/-!
# What a size argument says (specification for C98)

Texts of numbers as the C standard describes them for `strtod` in the C locale, the value they have,
and the double nearest to a rational.
-/

namespace Verif.HumanSize

/-- The digits. -/
def digitTable : List (Char × Nat) :=
  [('0', 0), ('1', 1), ('2', 2), ('3', 3), ('4', 4), ('5', 5), ('6', 6), ('7', 7), ('8', 8), ('9', 9),
   ('a', 10), ('b', 11), ('c', 12), ('d', 13), ('e', 14), ('f', 15),
   ('A', 10), ('B', 11), ('C', 12), ('D', 13), ('E', 14), ('F', 15)]

/-- The value of a digit in a base. -/
def digit (base : Nat) (c : Char) : Option Nat := (digitTable.lookup c).filter (fun v => decide (v < base))

/-- The text consists of digits of the base. -/
def AllDigits (base : Nat) (t : List Char) : Prop := ∀ c ∈ t, (digit base c).isSome

/-- Place value of a text of digits, most significant first. -/
def place (base : Nat) : List Char → Nat
  | [] => 0
  | c :: t => (digit base c).getD 0 * base ^ t.length + place base t

/-- A sign, and whether it is minus. -/
inductive SignText : List Char → Bool → Prop
  | absent : SignText [] false
  | plus : SignText ['+'] false
  | minus : SignText ['-'] true

/-- Nothing, or a point and digits (second: the digits). -/
inductive FractionText (base : Nat) : List Char → List Char → Prop
  | absent : FractionText base [] []
  | present (t : List Char) : AllDigits base t → FractionText base ('.' :: t) t

/-- Nothing, or a mark, a sign and at least one decimal digit (second: the exponent). -/
inductive ExponentText (marks : List Char) : List Char → Int → Prop
  | absent : ExponentText marks [] 0
  | present (m : Char) (s t : List Char) (neg : Bool) : m ∈ marks → SignText s neg → t ≠ [] → AllDigits 10 t →
      ExponentText marks (m :: (s ++ t)) (if neg then -(place 10 t : Int) else (place 10 t : Int))

/-- The notations: base, prefix, marks of the exponent, what the exponent is an exponent of. -/
def notations : List (Nat × List Char × List Char × Nat) :=
  [(10, [], ['e', 'E'], 10), (16, ['0', 'x'], ['p', 'P'], 2), (16, ['0', 'X'], ['p', 'P'], 2)]

/-- `Magnitude t n d`: the text `t` is an unsigned number with the value `n / d`. -/
inductive Magnitude : List Char → Nat → Nat → Prop
  | mk (base ebase : Nat) (pre marks ip ft fp et : List Char) (e : Int) :
      (base, pre, marks, ebase) ∈ notations → AllDigits base ip → FractionText base ft fp → ip ++ fp ≠ [] → ExponentText marks et e →
      Magnitude (pre ++ (ip ++ (ft ++ et))) (place base (ip ++ fp) * ebase ^ e.toNat) (base ^ fp.length * ebase ^ (-e).toNat)

/-- The non-negative doubles, in units of 2^-1074: 53 significant bits.  (There is no largest one
here; what lies beyond the range of the doubles is beyond that of the offsets anyway.) -/
def IsDouble (u : Nat) : Prop := ∃ m e, m < 2 ^ 53 ∧ u = m * 2 ^ e

/-- Distance of two numbers. -/
def dist (a b : Nat) : Nat := (a - b) + (b - a)

/-- `u` is the double nearest to `n / d`; if two are equally near, it is the one whose last bit is
zero, that is, the one which is an even multiple of the distance between the two. -/
def Nearest (n d u : Nat) : Prop :=
  IsDouble u ∧ ∀ v, IsDouble v → dist (u * d) (n * one) ≤ dist (v * d) (n * one) ∧
    (v ≠ u → dist (u * d) (n * one) = dist (v * d) (n * one) → ∃ q, u = 2 * q * dist u v)

/-- A whole size argument: blanks, sign, number, blanks and, if not at the end, a suffix and anything
behind it. -/
structure SizeText (s : List Char) (neg : Bool) (n d mult : Nat) : Prop where
  parts : ∃ ws sg t bl sfx tail, s = ws ++ (sg ++ (t ++ (bl ++ (sfx ++ tail)))) ∧ (∀ c ∈ ws, isSpace c = true) ∧ SignText sg neg ∧
    Magnitude t n d ∧ (∀ c ∈ bl, isSpace c = true) ∧ (sfx, mult) ∈ suffixes ∧ (sfx = [] → tail = [])

/-- An infinity or a not-a-number, in any case of letters. -/
def SpecialText (s : List Char) : Prop :=
  ∃ ws sg kw tail, s = ws ++ (sg ++ (kw ++ tail)) ∧ (∀ c ∈ ws, isSpace c = true) ∧ (∃ neg, SignText sg neg) ∧
    (kw.map Char.toLower = ['i', 'n', 'f'] ∨ kw.map Char.toLower = ['n', 'a', 'n'])

end Verif.HumanSize
