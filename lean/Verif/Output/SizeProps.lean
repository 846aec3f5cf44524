import Verif.Output.Props
import Verif.Output.JsonProps
import Verif.HumanSize.Props

/-! # Reading a displayed size, and what a JSON entry says of archives (C80, C82) -/

namespace Verif.Output

/-- The number of a unit: 1024 to that power. -/
def unitIndex (u : List Char) : Option Nat :=
  if u = ['B'] then some 0 else if u = ['K', 'i', 'B'] then some 1 else if u = ['M', 'i', 'B'] then some 2 else if u = ['G', 'i', 'B'] then some 3
  else if u = ['T', 'i', 'B'] then some 4 else if u = ['P', 'i', 'B'] then some 5 else if u = ['E', 'i', 'B'] then some 6 else none

/-- Read a size: a number with or without a decimal, a space, a unit.  Gives the number of tenths and the number of the unit. -/
def readSize (t : List Char) : Option (Nat × Nat) :=
  let num := t.takeWhile (· ≠ ' ')
  let whole := num.takeWhile (· ≠ '.')
  (unitIndex ((t.dropWhile (· ≠ ' ')).drop 1)).map (fun u =>
    (match num.dropWhile (· ≠ '.') with
      | [] => 10 * Nat.ofDigitChars 10 whole 0
      | _ :: f => 10 * Nat.ofDigitChars 10 whole 0 + Nat.ofDigitChars 10 f 0, u))

example : readSize ['1', '2', '.', '5', ' ', 'M', 'i', 'B'] = some (125, 2) := by decide
example : readSize ['7', ' ', 'B'] = some (70, 0) := by decide

theorem takeWhile_all (P : Char → Bool) (a : List Char) (c : Char) (r : List Char) (ha : ∀ x ∈ a, P x = true) (hc : P c = false) :
    (a ++ c :: r).takeWhile P = a ∧ (a ++ c :: r).dropWhile P = c :: r := by
  induction a with
  | nil => simp [hc]
  | cons x a ih =>
    have hx := ha x (by simp)
    have := ih (fun y hy => ha y (by simp [hy]))
    simp [hx, this]

theorem digit_ne {n : Nat} {c : Char} (h : c ∈ Nat.toDigits 10 n) : c ≠ ' ' ∧ c ≠ '.' := by
  have := Nat.isDigit_of_mem_toDigits (by decide) (by decide) h
  constructor <;> rintro rfl <;> revert this <;> decide

theorem takeWhile_digits (n : Nat) : (Nat.toDigits 10 n).takeWhile (· ≠ '.') = Nat.toDigits 10 n ∧ (Nat.toDigits 10 n).dropWhile (· ≠ '.') = [] := by
  have h : ∀ l : List Char, (∀ c ∈ l, c ≠ '.') → l.takeWhile (· ≠ '.') = l ∧ l.dropWhile (· ≠ '.') = [] := by
    intro l
    induction l with
    | nil => intro _; exact ⟨rfl, rfl⟩
    | cons c l ih =>
      intro h
      have h1 := h c (by simp)
      have := ih (fun d hd => h d (by simp [hd]))
      simp only [List.takeWhile_cons, List.dropWhile_cons, h1, ne_eq, not_false_eq_true, decide_true, if_true, this, and_self]
  exact h _ (fun c hc => (digit_ne hc).2)

theorem unitIndex_unitName : ∀ u, u ≤ 6 → unitIndex (unitName u) = some u := by
  intro u hu
  have : u = 0 ∨ u = 1 ∨ u = 2 ∨ u = 3 ∨ u = 4 ∨ u = 5 ∨ u = 6 := by omega
  rcases this with rfl | rfl | rfl | rfl | rfl | rfl | rfl <;> decide

theorem readSize_bytes (n : Nat) : readSize (sizeText (.bytes n)) = some (10 * n, 0) := by
  have h := takeWhile_all (· ≠ ' ') (Nat.toDigits 10 n) ' ' (unitName 0) (fun c hc => by simp [(digit_ne hc).1]) (by decide)
  have h2 := takeWhile_digits n
  simp only [readSize, sizeText, Int.toNat_natCast, h.1, h.2, h2.1, h2.2, List.drop_succ_cons, List.drop_zero, unitIndex_unitName 0 (by decide),
    Option.map_some, Nat.ofDigitChars_toDigits (b := 10) (by decide) (by decide)]

theorem readSize_tenths (t u : Nat) (hu : u ≤ 6) : readSize (sizeText (.tenths t u)) = some (t, u) := by
  have hs : sizeText (.tenths t u) = (Nat.toDigits 10 (t / 10) ++ '.' :: Nat.toDigits 10 (t % 10)) ++ ' ' :: unitName u := by simp [sizeText]
  have h := takeWhile_all (· ≠ ' ') (Nat.toDigits 10 (t / 10) ++ '.' :: Nat.toDigits 10 (t % 10)) ' ' (unitName u) (by
    intro c hc
    rw [List.mem_append, List.mem_cons] at hc
    rcases hc with hc | rfl | hc
    · simp [(digit_ne hc).1]
    · decide
    · simp [(digit_ne hc).1]) (by decide)
  have h2 := takeWhile_all (· ≠ '.') (Nat.toDigits 10 (t / 10)) '.' (Nat.toDigits 10 (t % 10)) (fun c hc => by simp [(digit_ne hc).2]) (by decide)
  simp only [readSize, hs, h.1, h.2, h2.1, h2.2, List.drop_succ_cons, List.drop_zero, unitIndex_unitName u hu,
    Option.map_some, Nat.ofDigitChars_toDigits (b := 10) (by decide) (by decide)]
  congr 2
  omega

/-- **C80, part.**  The size shown in a report, read as a number with a unit, is the size of the files rounded to a tenth of the unit, and exact below 1024 bytes;
the unit is the largest that is not larger than the size.  For sizes below 2^53 bytes (C24). -/
theorem displayed_size_right (size : Nat) (hs : size < 2 ^ 53) :
    ∃ t u, readSize (sizeText (HumanSize.format size)) = some (t, u) ∧ (u = 0 → t = 10 * size) ∧ (1 ≤ u → 1024 ^ u ≤ size) ∧ size < 1024 ^ (u + 1) ∧
      2 * (10 * size) ≤ 2 * (t * 1024 ^ u) + 1024 ^ u ∧ 2 * (t * 1024 ^ u) ≤ 2 * (10 * size) + 1024 ^ u := by
  rcases HumanSize.format_right size hs with ⟨h, e⟩ | ⟨u, t, e, h1, h2, h3, h4, h5, h6⟩
  · rw [e]
    exact ⟨10 * size, 0, readSize_bytes size, fun _ => rfl, fun h => absurd h (by omega), by omega, by simp, by simp⟩
  · rw [e]
    exact ⟨t, u, readSize_tenths t u h2, fun h => absurd h (by omega), fun _ => h3, h4, h5, h6⟩

/-- **C82, part.**  An entry speaks of archives exactly if archives were asked for. -/
theorem archive_member_iff (gmt : Int → Option Exp) (untar : Bool) (f : Report.FileEnt) :
    (fileJson gmt untar f).get "archive_subpath" = if untar then some .null else none := by
  unfold fileJson
  cases untar <;> cases jsonString f.path.toList <;> cases jsonString (isoTime gmt f.mtime) <;> simp [setNew, Json.get, List.lookup]

/-- A size that is rounded: 1536 bytes. -/
example : (1536 : Nat) < 2 ^ 53 ∧ readSize (sizeText (HumanSize.format 1536)) = some (15, 1) := by decide +kernel

end Verif.Output
