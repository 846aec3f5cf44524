import Verif.HumanSize.Lemmas

/-!
# Properties of size parsing and formatting (C23, C24)

The specification is the textbook one: place-value of a decimal numeral, times a power of
1024.
-/

namespace Verif.HumanSize

/-- Place value of a list of decimal digits, most significant first. -/
def valueOf : List Nat → Nat
  | [] => 0
  | d :: ds => d * 10 ^ ds.length + valueOf ds

/-- A decimal numeral as written: digits, optionally a point and more digits. -/
def numeral (ip : List Nat) : Option (List Nat) → List Char
  | none => ip.map dchar
  | some fp => ip.map dchar ++ '.' :: fp.map dchar

/-- The documented suffixes and their meaning. -/
def suffixes : List (List Char × Nat) :=
  [([], 1), (['K'], 1024), (['k'], 1024), (['M'], 1024 ^ 2), (['m'], 1024 ^ 2), (['G'], 1024 ^ 3), (['g'], 1024 ^ 3),
   (['T'], 1024 ^ 4), (['t'], 1024 ^ 4)]

theorem ofDigits_eq (ds : List Nat) : ofDigits 10 ds = valueOf ds := by
  unfold ofDigits
  induction ds with
  | nil => rfl
  | cons d ds ih =>
    simp only [List.foldl_cons, valueOf]
    rw [foldl_digits, ih]; simp

/-- What may follow a numeral so that it ends there. -/
def Follow (r : List Char) : Prop :=
  ∀ c ∈ r.head?, decVal c = none ∧ c ≠ '.' ∧ c ≠ 'e' ∧ c ≠ 'E' ∧ c ≠ 'x' ∧ c ≠ 'X'

theorem dchar_ne : ∀ d, d < 10 → dchar d ≠ '-' ∧ dchar d ≠ '+' ∧ dchar d ≠ 'x' ∧ dchar d ≠ 'X' ∧ dchar d ≠ '.' := by decide

theorem mantissa_numeral (ip : List Nat) (fp : Option (List Nat)) (r : List Char)
    (hip : ∀ d ∈ ip, d < 10) (hfp : ∀ f ∈ fp, ∀ d ∈ f, d < 10) (hne : ip ≠ []) (hr : Follow r) :
    mantissa decVal 10 (numeral ip fp ++ r) =
      some (valueOf (ip ++ fp.getD []), 10 ^ (fp.getD []).length, r) := by
  cases fp with
  | none =>
    unfold mantissa numeral
    rw [takeDigits_append ip r hip (fun c hc => (hr c hc).1)]
    simp only
    split
    · exact absurd rfl (hr '.' (by simp)).2.1
    · simp [hne, ofDigits_eq]
  | some f =>
    unfold mantissa numeral
    rw [List.append_assoc, List.cons_append, takeDigits_append ip _ hip (by
      intro c hc; simp at hc; subst hc; decide)]
    simp only
    rw [takeDigits_append f r (hfp f rfl) (fun c hc => (hr c hc).1)]
    simp [hne, ofDigits_eq]

theorem strtod_numeral (ws : List Char) (ip : List Nat) (fp : Option (List Nat)) (r : List Char)
    (hws : ∀ c ∈ ws, isSpace c = true) (hip : ∀ d ∈ ip, d < 10) (hfp : ∀ f ∈ fp, ∀ d ∈ f, d < 10) (hne : ip ≠ [])
    (hr : Follow r) :
    strtod (ws ++ (numeral ip fp ++ r)) =
      some (.fin false (valueOf (ip ++ fp.getD [])) (10 ^ (fp.getD []).length), r) := by
  have hdec : decimal false (numeral ip fp ++ r) =
      some (.fin false (valueOf (ip ++ fp.getD [])) (10 ^ (fp.getD []).length), r) := by
    unfold decimal
    rw [mantissa_numeral ip fp r hip hfp hne hr]
    simp only
    rw [exponent_of_ne (fun c hc => ⟨(hr c hc).2.2.1, (hr c hc).2.2.2.1⟩)]
    simp [scale]
  cases ip with
  | nil => exact absurd rfl hne
  | cons d ds =>
    obtain ⟨s, hs⟩ : ∃ s, numeral (d :: ds) fp ++ r = dchar d :: s := by cases fp <;> exact ⟨_, rfl⟩
    have hd := hip d (by simp)
    have hsec : ∀ x h, s = x :: h → x ≠ 'x' ∧ x ≠ 'X' := by
      intro x h e
      subst e
      cases ds with
      | cons d2 ds =>
        have h2 := hip d2 (by simp)
        have : x = dchar d2 := by cases fp <;> simp [numeral] at hs <;> exact hs.1.symm
        subst this
        exact ⟨(dchar_ne d2 h2).2.2.1, (dchar_ne d2 h2).2.2.2.1⟩
      | nil =>
        cases fp with
        | none =>
          simp [numeral] at hs
          subst hs
          exact ⟨(hr x (by simp)).2.2.2.2.1, (hr x (by simp)).2.2.2.2.2⟩
        | some f =>
          simp [numeral] at hs
          obtain ⟨rfl, _⟩ := hs
          decide
    unfold strtod
    rw [dropWhile_spaces ws _ hws (by
      rw [hs]; intro c hc; simp at hc; subst hc; exact not_space_dchar d hd)]
    rw [sign_of_ne (by
      rw [hs]; intro c hc; simp at hc; subst hc; exact ⟨(dchar_ne d hd).1, (dchar_ne d hd).2.1⟩)]
    simp only
    rw [hs] at hdec ⊢
    split
    · rename_i x h heq
      injection heq with h1 h2
      have := hsec x h h2
      simp [this.1, this.2, hdec]
    · exact hdec

theorem suffix_cases {sfx : List Char} {mult : Nat} (h : (sfx, mult) ∈ suffixes) :
    (sfx = [] ∧ mult = 1) ∨ ∃ c, sfx = [c] ∧ multiplier c = some mult ∧ isSpace c = false ∧ Follow [c] ∧ mult ≤ 2 ^ 40 ∧ 0 < mult := by
  simp only [suffixes, List.mem_cons, Prod.mk.injEq, List.not_mem_nil, or_false] at h
  rcases h with ⟨rfl, rfl⟩ | h
  · exact Or.inl ⟨rfl, rfl⟩
  · right
    rcases h with ⟨rfl, rfl⟩ | ⟨rfl, rfl⟩ | ⟨rfl, rfl⟩ | ⟨rfl, rfl⟩ | ⟨rfl, rfl⟩ | ⟨rfl, rfl⟩ | ⟨rfl, rfl⟩ | ⟨rfl, rfl⟩ <;>
      exact ⟨_, rfl, by decide, by decide, by intro c hc; simp at hc; subst hc; decide, by decide, by decide⟩

theorem space_follow {c : Char} (h : isSpace c = true) : decVal c = none ∧ c ≠ '.' ∧ c ≠ 'e' ∧ c ≠ 'E' ∧ c ≠ 'x' ∧ c ≠ 'X' := by
  simp only [isSpace, Bool.or_eq_true, beq_iff_eq] at h
  rcases h with ((((rfl | rfl) | rfl) | rfl) | rfl) | rfl <;> decide

theorem follow_blanks (bl r : List Char) (hbl : ∀ c ∈ bl, isSpace c = true) (hr : Follow r) : Follow (bl ++ r) := by
  cases bl with
  | nil => exact hr
  | cons c bl =>
    intro x hx
    simp at hx; subst hx
    exact space_follow (hbl c (by simp))

/-- Parsing a well-formed size: everything but the final conversion. -/
theorem parse_numeral (ws bl sfx tail : List Char) (ip : List Nat) (fp : Option (List Nat)) (mult : Nat)
    (hws : ∀ c ∈ ws, isSpace c = true) (hbl : ∀ c ∈ bl, isSpace c = true)
    (hip : ∀ d ∈ ip, d < 10) (hfp : ∀ f ∈ fp, ∀ d ∈ f, d < 10) (hne : ip ≠ [])
    (hs : (sfx, mult) ∈ suffixes) (ht : sfx = [] → tail = []) :
    parse (ws ++ (numeral ip fp ++ (bl ++ (sfx ++ tail)))) =
      convert (.fin false (valueOf (ip ++ fp.getD [])) (10 ^ (fp.getD []).length)) mult := by
  rcases suffix_cases hs with ⟨rfl, rfl⟩ | ⟨c, rfl, hm, hsp, hf, _, _⟩
  · rw [ht rfl]
    unfold parse
    rw [strtod_numeral ws ip fp _ hws hip hfp hne (follow_blanks bl _ hbl (by intro c hc; simp at hc))]
    simp only [List.append_nil]
    have := dropWhile_spaces bl [] hbl (by simp)
    rw [List.append_nil] at this
    simp [this]
  · unfold parse
    rw [strtod_numeral ws ip fp _ hws hip hfp hne (follow_blanks bl _ hbl (by
      intro x hx; exact hf x (by simpa using hx)))]
    have := dropWhile_spaces bl ([c] ++ tail) hbl (by intro x hx; simp at hx; subst hx; exact hsp)
    simp only [this]
    simp [hm]

/-- **C23** (exactness). Blanks, a decimal integer below 2^53, blanks, an optional suffix and
(after a suffix) any text parse to the integer times the unit, whenever the product fits the
file-offset type. -/
theorem parse_integer_exact (ws bl sfx tail : List Char) (ip : List Nat) (mult : Nat)
    (hws : ∀ c ∈ ws, isSpace c = true) (hbl : ∀ c ∈ bl, isSpace c = true)
    (hip : ∀ d ∈ ip, d < 10) (hne : ip ≠ []) (hs : (sfx, mult) ∈ suffixes) (ht : sfx = [] → tail = [])
    (hv : valueOf ip < 2 ^ 53) (hm : valueOf ip * mult < 2 ^ 63) :
    parse (ws ++ (ip.map dchar ++ (bl ++ (sfx ++ tail)))) = .ok ((valueOf ip * mult : Nat) : Int) := by
  have := parse_numeral ws bl sfx tail ip none mult hws hbl hip (by simp) hne hs ht
  rw [show numeral ip none = ip.map dchar from rfl] at this
  rw [this]
  simp only [convert, Option.getD_none, List.append_nil, List.length_nil, Nat.pow_zero]
  exact toOff_nat hv hm

/-- **C23** (fractions). With a fractional part the result is never off by more than one below
or two above the exact value (nothing is lost to rounding beyond that) below 2^53 bytes; in
cross-multiplied form with denominator `10^k`, `k` the number of decimals. -/
theorem parse_decimal_close (ws bl sfx tail : List Char) (ip fp : List Nat) (mult : Nat)
    (hws : ∀ c ∈ ws, isSpace c = true) (hbl : ∀ c ∈ bl, isSpace c = true)
    (hip : ∀ d ∈ ip, d < 10) (hfp : ∀ d ∈ fp, d < 10) (hne : ip ≠ []) (hs : (sfx, mult) ∈ suffixes)
    (ht : sfx = [] → tail = []) (hv : valueOf (ip ++ fp) * mult < 2 ^ 53 * 10 ^ fp.length) :
    ∃ r : Nat, parse (ws ++ (numeral ip (some fp) ++ (bl ++ (sfx ++ tail)))) = .ok (r : Int) ∧
      r * 10 ^ fp.length ≤ valueOf (ip ++ fp) * mult + 10 ^ fp.length ∧
      valueOf (ip ++ fp) * mult < (r + 2) * 10 ^ fp.length := by
  rw [parse_numeral ws bl sfx tail ip (some fp) mult hws hbl hip (by
    intro f hf d hd; simp at hf; subst hf; exact hfp d hd) hne hs ht]
  simp only [convert, Option.getD_some]
  have hm : 0 < mult ∧ mult ≤ 2 ^ 40 := by
    rcases suffix_cases hs with ⟨_, rfl⟩ | ⟨c, _, _, _, _, h1, h2⟩
    · decide
    · exact ⟨h2, h1⟩
  exact toOff_err _ _ mult (Nat.pow_pos (by decide)) hm.1 hm.2 hv

/-- **C23** (exact fractions). A decimal fraction that is a multiple of 2^-20 (such as 2.5 or
0.125) with at most 53 significant bits is converted without any loss when the product is a
whole number of bytes. -/
theorem parse_dyadic_exact (ws bl sfx tail : List Char) (ip fp : List Nat) (mult w b : Nat)
    (hws : ∀ c ∈ ws, isSpace c = true) (hbl : ∀ c ∈ bl, isSpace c = true)
    (hip : ∀ d ∈ ip, d < 10) (hfp : ∀ d ∈ fp, d < 10) (hne : ip ≠ []) (hs : (sfx, mult) ∈ suffixes)
    (ht : sfx = [] → tail = []) (hw : valueOf (ip ++ fp) * 2 ^ 20 = w * 10 ^ fp.length) (hw53 : w < 2 ^ 53)
    (hb : valueOf (ip ++ fp) * mult = b * 10 ^ fp.length) (hb63 : b < 2 ^ 63) :
    parse (ws ++ (numeral ip (some fp) ++ (bl ++ (sfx ++ tail)))) = .ok (b : Int) := by
  rw [parse_numeral ws bl sfx tail ip (some fp) mult hws hbl hip (by
    intro f hf d hd; simp at hf; subst hf; exact hfp d hd) hne hs ht]
  simp only [convert, Option.getD_some]
  have hd : 0 < 10 ^ fp.length := Nat.pow_pos (by decide)
  have hone : one = 2 ^ 20 * 2 ^ 1054 := by rw [one_eq, ← Nat.pow_add]
  generalize valueOf (ip ++ fp) = n at *
  generalize 10 ^ fp.length = d at *
  have e : n * one = w * 2 ^ 1054 * d := by
    rw [hone, ← Nat.mul_assoc, hw]
    generalize (2 : Nat) ^ 1054 = P
    ac_rfl
  rw [toDouble_exact hd e hw53]
  generalize (2 : Nat) ^ 1054 = P at *
  have e2 : w * P * mult = b * one := by
    have h1 : w * P * mult * d = b * one * d := by
      calc w * P * mult * d = (w * P * d) * mult := by ac_rfl
        _ = n * one * mult := by rw [← e]
        _ = (n * mult) * one := by ac_rfl
        _ = b * d * one := by rw [hb]
        _ = b * one * d := by ac_rfl
    exact Nat.eq_of_mul_eq_mul_right hd h1
  unfold toOff
  simp only [e2, Nat.mul_div_cancel _ one_pos, hb63, if_true, Bool.false_eq_true, if_false]

/-- **C23** (rejection of unknown suffixes): after a number, any other letter — in
particular `B`, which the header documents as supported — makes the parse fail. -/
theorem parse_rejects_suffix (ws bl tail : List Char) (c : Char) (ip : List Nat)
    (hws : ∀ c ∈ ws, isSpace c = true) (hbl : ∀ c ∈ bl, isSpace c = true)
    (hip : ∀ d ∈ ip, d < 10) (hne : ip ≠ []) (hsp : isSpace c = false) (hf : Follow [c])
    (hc : c ∉ ['K', 'k', 'M', 'm', 'G', 'g', 'T', 't']) :
    parse (ws ++ (ip.map dchar ++ (bl ++ c :: tail))) = .ok (-1) := by
  have h := strtod_numeral ws ip none (bl ++ c :: tail) hws hip (by simp) hne (follow_blanks bl _ hbl (by
    intro x hx; exact hf x (by simpa using hx)))
  rw [show numeral ip none = ip.map dchar from rfl] at h
  unfold parse
  rw [h]
  have := dropWhile_spaces bl (c :: tail) hbl (by intro x hx; simp at hx; subst hx; exact hsp)
  have hm : multiplier c = none := by
    simp at hc; simp [multiplier, hc]
  simp only [this, hm]

/-- **C23** (rejection of non-numbers): if the first non-blank character cannot start a number
(sign, digit, point, or the `i`/`n` of `inf`/`nan`), or there is none, the parse fails. -/
theorem parse_rejects_text (ws r : List Char) (hws : ∀ c ∈ ws, isSpace c = true)
    (hr : ∀ c ∈ r.head?, isSpace c = false ∧ decVal c = none ∧ c.toLower ∉ ['i', 'n'] ∧ c ∉ ['+', '-', '.']) :
    parse (ws ++ r) = .ok (-1) := by
  have : strtod (ws ++ r) = none := by
    unfold strtod
    rw [dropWhile_spaces ws r hws (fun c hc => (hr c hc).1), sign_of_ne (by
      intro c hc; have := (hr c hc).2.2.2; simp at this; exact ⟨this.2.1, this.1⟩)]
    simp only
    have hdec : decimal false r = none := by
      unfold decimal
      cases r with
      | nil => rfl
      | cons c r =>
        have h := hr c (by simp)
        have hm : mantissa decVal 10 (c :: r) = none := by
          unfold mantissa
          simp only [takeDigits, h.2.1]
          split
          · rename_i heq; injection heq with h1 h2; subst h1; simp at h
          · simp
        rw [hm]
        have h2 := h.2.2.1
        simp at h2
        have k1 : keyword "infinity".toList (c :: r) = none := by
          simp [keyword, h2]
        have k2 : keyword "inf".toList (c :: r) = none := by simp [keyword, h2]
        have k3 : keyword "nan".toList (c :: r) = none := by simp [keyword, h2]
        simp only [specials, k1, k2, k3]
    split
    · rename_i x h
      have := (hr '0' (by simp)).2.1
      exact absurd this (by decide)
    · exact hdec
  simp [parse, this]

/-! ## Formatting -/

theorem unitLoop_spec (num : Nat) : ∀ (left idx : Nat), (idx = 0 ∨ 1024 ^ idx ≤ num) →
    ∃ i, unitLoop num left idx (1024 ^ idx) = (i, 1024 ^ i) ∧ idx ≤ i ∧ i ≤ idx + left ∧ (i = 0 ∨ 1024 ^ i ≤ num) ∧
      (num < 1024 ^ (i + 1) ∨ i = idx + left) := by
  intro left
  induction left with
  | zero => intro idx h; exact ⟨idx, rfl, by omega, by omega, h, Or.inr rfl⟩
  | succ left ih =>
    intro idx h
    unfold unitLoop
    by_cases hc : 1024 * 1024 ^ idx ≤ num
    · simp only [hc, if_true]
      rw [← Nat.pow_succ]
      obtain ⟨i, e, h1, h2, h3, h4⟩ := ih (idx + 1) (by right; rw [Nat.pow_succ]; omega)
      exact ⟨i, e, by omega, by omega, h3, by omega⟩
    · simp only [hc, if_false]
      exact ⟨idx, rfl, by omega, by omega, h, Or.inl (by rw [Nat.pow_succ]; omega)⟩

/-- **C24.** Below 1024 bytes the exact number is printed; otherwise the unit `u` (1 = KiB, 2 =
MiB, ...) is the largest one not exceeding the size, and the printed number of tenths is
within half a tenth of the quotient. -/
theorem format_right (size : Nat) (hs : size < 2 ^ 53) :
    (size < 1024 ∧ format size = .bytes size) ∨
    ∃ u t, format size = .tenths t u ∧ 1 ≤ u ∧ u ≤ 6 ∧ 1024 ^ u ≤ size ∧ size < 1024 ^ (u + 1) ∧
      2 * (10 * size) ≤ 2 * (t * 1024 ^ u) + 1024 ^ u ∧ 2 * (t * 1024 ^ u) ≤ 2 * (10 * size) + 1024 ^ u := by
  obtain ⟨i, e, _, h2, h3, h4⟩ := unitLoop_spec size 6 0 (Or.inl rfl)
  have hv : toDouble size 1 / one = size := by rw [toDouble_nat hs, Nat.mul_div_cancel _ one_pos]
  rw [format, hv]
  rw [show (1024 : Nat) ^ 0 = 1 from rfl] at e
  have hlt : size < 1024 ^ (i + 1) := by
    rcases h4 with h | h
    · exact h
    · subst h
      have : (2 : Nat) ^ 53 < 1024 ^ (0 + 6 + 1) := by decide
      omega
  by_cases h0 : i = 0
  · left
    subst h0
    refine ⟨by simpa using hlt, ?_⟩
    unfold formatVal
    simp [e]
  · right
    refine ⟨i, (20 * size + 1024 ^ i) / (2 * 1024 ^ i), ?_, by omega, by omega, by omega, hlt, ?_, ?_⟩
    · unfold formatVal; simp [e, h0]
    · have hp : 0 < 1024 ^ i := Nat.pow_pos (by decide)
      generalize 1024 ^ i = D at *
      have := Nat.lt_div_mul_add (a := 20 * size + D) (b := 2 * D) (by omega)
      rw [show (20 * size + D) / (2 * D) * (2 * D) = 2 * ((20 * size + D) / (2 * D) * D) by ac_rfl] at this
      omega
    · have hp : 0 < 1024 ^ i := Nat.pow_pos (by decide)
      generalize 1024 ^ i = D at *
      have := Nat.div_mul_le_self (20 * size + D) (2 * D)
      rw [show (20 * size + D) / (2 * D) * (2 * D) = 2 * ((20 * size + D) / (2 * D) * D) by ac_rfl] at this
      omega

/-! ## Non-vacuity and disagreements with the documentation -/

example : parse ([' '] ++ ([1, 0].map dchar ++ ([' '] ++ (['M'] ++ [])))) = .ok ((valueOf [1, 0] * 1024 ^ 2 : Nat) : Int) :=
  parse_integer_exact [' '] [' '] ['M'] [] [1, 0] (1024 ^ 2) (by decide) (by decide) (by decide) (by decide) (by decide)
    (by decide) (by decide +kernel) (by decide +kernel)

example : [' '] ++ ([1, 0].map dchar ++ ([' '] ++ (['M'] ++ []))) = " 10 M".toList ∧ valueOf [1, 0] = 10 := by decide +kernel

example : parse ([] ++ (numeral [2] (some [5]) ++ ([] ++ (['g'] ++ [])))) = .ok ((2684354560 : Nat) : Int) :=
  parse_dyadic_exact [] [] ['g'] [] [2] [5] (1024 ^ 3) (5 * 2 ^ 19) 2684354560 (by decide) (by decide) (by decide)
    (by decide) (by decide) (by decide) (by decide) (by decide +kernel) (by decide +kernel) (by decide +kernel)
    (by decide +kernel)

example : ∃ r : Nat, parse ([] ++ (numeral [0] (some [1]) ++ ([] ++ (['K'] ++ [])))) = .ok (r : Int) ∧
    r * 10 ^ [1].length ≤ valueOf ([0] ++ [1]) * 1024 + 10 ^ [1].length ∧
    valueOf ([0] ++ [1]) * 1024 < (r + 2) * 10 ^ [1].length :=
  parse_decimal_close [] [] ['K'] [] [0] [1] 1024 (by decide) (by decide) (by decide)
    (by decide) (by decide) (by decide) (by decide) (by decide +kernel)

/-- The header (`human_size.h` L15) documents the suffix `B`; the code rejects it. -/
theorem parse_documented_B_rejected : parse ([] ++ ([1, 0].map dchar ++ ([] ++ 'B' :: []))) = .ok (-1) :=
  parse_rejects_suffix [] [] [] 'B' [1, 0] (by decide) (by decide) (by decide) (by decide) (by decide)
    (by intro c hc; simp at hc; subst hc; decide) (by decide)

example : parse ([' ', ' '] ++ ['l', 'o', 't', 's']) = .ok (-1) :=
  parse_rejects_text [' ', ' '] ['l', 'o', 't', 's'] (by decide) (by decide)

/-- A size out of the range of the file-offset type is converted all the same, which is
undefined behaviour. -/
theorem parse_overflow_ub : parse "9223372036854775808".toList = .ub ∧ parse "1e30".toList = .ub ∧ parse "inf".toList = .ub := by
  decide +kernel

/-- A negative fraction of a byte is accepted as zero. -/
example : parse "-0.5".toList = .ok 0 := by decide +kernel

example : format 1048575 = .tenths 10240 1 := by decide +kernel
example : format 1000 = .bytes 1000 := by decide +kernel

end Verif.HumanSize
