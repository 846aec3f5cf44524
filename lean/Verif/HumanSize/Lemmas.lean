import Verif.HumanSize.Model

/-! Helper lemmas for `Verif.HumanSize.Props`. -/

namespace Verif.HumanSize

theorem one_eq : one = 2 ^ 1074 := by unfold one; rfl

theorem one_pos : 0 < one := by rw [one_eq]; exact Nat.two_pow_pos _

theorem roundHalfEven_mul (q D : Nat) (hD : 0 < D) : roundHalfEven (q * D) D = q := by
  unfold roundHalfEven
  simp [Nat.mul_div_cancel _ hD, Nat.mul_mod_left]
  omega

theorem roundHalfEven_err (n D : Nat) (hD : 0 < D) :
    2 * n ≤ 2 * (roundHalfEven n D * D) + D ∧ 2 * (roundHalfEven n D * D) ≤ 2 * n + D := by
  unfold roundHalfEven
  have h1 := Nat.div_add_mod n D
  have h2 := Nat.mod_lt n hD
  have h3 : D * (n / D) = n / D * D := Nat.mul_comm _ _
  simp only
  split
  · constructor <;> omega
  · split
    · rw [Nat.add_mul]; constructor <;> omega
    · split
      · constructor <;> omega
      · rw [Nat.add_mul]; constructor <;> omega

theorem ulpExp_le {n d w j : Nat} (hd : 0 < d) (h : n * one = w * 2 ^ j * d) (hw : w < 2 ^ 53) :
    ulpExp n d ≤ j := by
  unfold ulpExp
  rw [h, Nat.mul_div_cancel _ hd]
  by_cases h0 : w * 2 ^ j = 0
  · simp [h0]
  · have : Nat.log2 (w * 2 ^ j) < 53 + j := by
      rw [Nat.log2_lt h0, Nat.pow_add]
      exact Nat.mul_lt_mul_of_pos_right hw (Nat.two_pow_pos j)
    omega

/-- Numbers with at most 53 significant bits are represented exactly. -/
theorem toDouble_exact {n d w j : Nat} (hd : 0 < d) (h : n * one = w * 2 ^ j * d) (hw : w < 2 ^ 53) :
    toDouble n d = w * 2 ^ j := by
  have hk := ulpExp_le hd h hw
  unfold toDouble
  have e : n * one = (w * 2 ^ (j - ulpExp n d)) * (d * 2 ^ ulpExp n d) := by
    rw [h]
    have : 2 ^ j = 2 ^ (j - ulpExp n d) * 2 ^ ulpExp n d := by rw [← Nat.pow_add]; congr 1; omega
    rw [this]; ac_rfl
  rw [e, roundHalfEven_mul _ _ (Nat.mul_pos hd (Nat.two_pow_pos _)), Nat.mul_assoc, ← Nat.pow_add]
  congr 2; omega

theorem toDouble_nat {v : Nat} (hv : v < 2 ^ 53) : toDouble v 1 = v * one :=
  by
  rw [toDouble_exact (j := 1074) (by omega) (by rw [Nat.mul_one, one_eq]) hv, one_eq]

theorem toDouble_err (n d : Nat) (hd : 0 < d) :
    2 * (n * one) ≤ 2 * (toDouble n d * d) + d * 2 ^ ulpExp n d ∧
    2 * (toDouble n d * d) ≤ 2 * (n * one) + d * 2 ^ ulpExp n d := by
  have h := roundHalfEven_err (n * one) (d * 2 ^ ulpExp n d) (Nat.mul_pos hd (Nat.two_pow_pos _))
  have e : roundHalfEven (n * one) (d * 2 ^ ulpExp n d) * (d * 2 ^ ulpExp n d) = toDouble n d * d := by
    unfold toDouble; ac_rfl
  rw [e] at h; exact h

theorem ulpExp_bound (n d : Nat) (hd : 0 < d) (hk : 0 < ulpExp n d) :
    2 ^ (ulpExp n d + 52) * d ≤ n * one := by
  have h0 : n * one / d ≠ 0 := by
    intro h; unfold ulpExp at hk; rw [h] at hk; simp at hk
  have h1 : ulpExp n d + 52 = Nat.log2 (n * one / d) := by unfold ulpExp at hk ⊢; omega
  have h2 := (Nat.le_log2 h0).mp (Nat.le_of_eq h1)
  exact (Nat.le_div_iff_mul_le hd).mp h2

/-- Truncation after rounding is off by less than two below 2^53. -/
theorem toOff_err (n d mult : Nat) (hd : 0 < d) (hm : 0 < mult) (hmu : mult ≤ 2 ^ 40) (h : n * mult < 2 ^ 53 * d) :
    ∃ r : Nat, toOff false (toDouble n d) mult = .ok (r : Int) ∧ r * d ≤ n * mult + d ∧ n * mult < (r + 2) * d := by
  unfold toOff
  have hP : (2 : Nat) ^ 41 ≤ one := by
    rw [one_eq]; exact Nat.pow_le_pow_right (by decide) (by decide)
  have hPpos : (0 : Nat) < one := one_pos
  have herr := toDouble_err n d hd
  have hulp : 2 ^ ulpExp n d * mult ≤ 2 * one := by
    rcases Nat.eq_zero_or_pos (ulpExp n d) with hk | hk
    · rw [hk]; have : (2 : Nat) ^ 40 ≤ 2 ^ 41 := by decide
      omega
    · have hb := ulpExp_bound n d hd hk
      have h1 : 2 ^ (ulpExp n d + 52) * d * mult ≤ 2 ^ 53 * d * one := by
        calc 2 ^ (ulpExp n d + 52) * d * mult ≤ n * one * mult := Nat.mul_le_mul_right _ hb
          _ = n * mult * one := by ac_rfl
          _ ≤ 2 ^ 53 * d * one := Nat.mul_le_mul_right _ (Nat.le_of_lt h)
      have h2 : (2 ^ 52 * d) * (2 ^ ulpExp n d * mult) ≤ (2 ^ 52 * d) * (2 * one) := by
        calc (2 ^ 52 * d) * (2 ^ ulpExp n d * mult) = 2 ^ (ulpExp n d + 52) * d * mult := by
              rw [Nat.pow_add]; ac_rfl
          _ ≤ 2 ^ 53 * d * one := h1
          _ = (2 ^ 52 * d) * (2 * one) := by
              have : (2 : Nat) ^ 53 = 2 ^ 52 * 2 := by decide
              rw [this]; ac_rfl
      exact Nat.le_of_mul_le_mul_left h2 (Nat.mul_pos (by decide) hd)
  have e1 := Nat.mul_le_mul_right mult herr.1
  have e2 := Nat.mul_le_mul_right mult herr.2
  have hdu : d * (2 ^ ulpExp n d * mult) ≤ d * (2 * one) := Nat.mul_le_mul_left _ hulp
  generalize toDouble n d = u at *
  generalize 2 ^ ulpExp n d = U at *
  generalize one = P at *
  have a1 : n * mult * P ≤ u * mult * d + d * P := by
    have x1 : 2 * (n * P) * mult = 2 * (n * mult * P) := by ac_rfl
    have x2 : (2 * (u * d) + d * U) * mult = 2 * (u * mult * d) + d * (U * mult) := by
      rw [Nat.add_mul]; ac_rfl
    have x3 : d * (2 * P) = 2 * (d * P) := by ac_rfl
    omega
  have a2 : u * mult * d ≤ n * mult * P + d * P := by
    have x1 : 2 * (u * d) * mult = 2 * (u * mult * d) := by ac_rfl
    have x2 : (2 * (n * P) + d * U) * mult = 2 * (n * mult * P) + d * (U * mult) := by
      rw [Nat.add_mul]; ac_rfl
    have x3 : d * (2 * P) = 2 * (d * P) := by ac_rfl
    omega
  have q1 := Nat.div_mul_le_self (u * mult) P
  have q2 := Nat.lt_div_mul_add hPpos (a := u * mult)
  have hr1 : u * mult / P * d ≤ n * mult + d := by
    have : u * mult / P * d * P ≤ (n * mult + d) * P := by
      calc u * mult / P * d * P = u * mult / P * P * d := by ac_rfl
        _ ≤ u * mult * d := Nat.mul_le_mul_right _ q1
        _ ≤ n * mult * P + d * P := a2
        _ = (n * mult + d) * P := by rw [Nat.add_mul]
    exact Nat.le_of_mul_le_mul_right this hPpos
  have hr2 : n * mult < (u * mult / P + 2) * d := by
    have : n * mult * P < (u * mult / P + 2) * d * P := by
      calc n * mult * P ≤ u * mult * d + d * P := a1
        _ < (u * mult / P * P + P) * d + d * P := by
            exact Nat.add_lt_add_right (Nat.mul_lt_mul_of_pos_right q2 hd) _
        _ = (u * mult / P + 2) * d * P := by
            rw [Nat.add_mul, Nat.add_mul (u * mult / P) 2 d, Nat.add_mul]
            have : 2 * d * P = P * d + d * P := by rw [Nat.mul_comm P d, Nat.mul_assoc]; omega
            rw [this]
            have : u * mult / P * P * d = u * mult / P * d * P := by ac_rfl
            omega
    exact Nat.lt_of_mul_lt_mul_right this
  refine ⟨u * mult / P, ?_, hr1, hr2⟩
  have hlt : u * mult / P < 2 ^ 63 := by
    have : u * mult / P * d < (2 ^ 53 + 1) * d := by rw [Nat.add_mul]; omega
    have := Nat.lt_of_mul_lt_mul_right this
    have h3 : (2 : Nat) ^ 53 + 1 < 2 ^ 63 := by decide
    omega
  simp [hlt]

theorem toOff_nat {v mult : Nat} (hv : v < 2 ^ 53) (hm : v * mult < 2 ^ 63) :
    toOff false (toDouble v 1) mult = .ok ((v * mult : Nat) : Int) := by
  have e : v * one * mult / one = v * mult := by
    rw [show v * one * mult = v * mult * one by ac_rfl, Nat.mul_div_cancel _ one_pos]
  unfold toOff
  rw [toDouble_nat hv]
  simp only [e, hm, if_true, Bool.false_eq_true, if_false]

/-! ## Digits -/

/-- The character of a decimal digit. -/
def dchar (d : Nat) : Char := Char.ofNat (48 + d)

theorem decVal_dchar : ∀ d, d < 10 → decVal (dchar d) = some d := by decide

theorem not_space_dchar : ∀ d, d < 10 → isSpace (dchar d) = false := by decide

theorem takeDigits_append (ds : List Nat) (r : List Char) (hds : ∀ d ∈ ds, d < 10)
    (hr : ∀ c ∈ r.head?, decVal c = none) : takeDigits decVal (ds.map dchar ++ r) = (ds, r) := by
  induction ds with
  | nil =>
    cases r with
    | nil => rfl
    | cons c r => simp [takeDigits, hr c (by simp)]
  | cons d ds ih =>
    simp only [List.map_cons, List.cons_append, takeDigits]
    rw [decVal_dchar d (hds d (by simp)), ih (fun x hx => hds x (by simp [hx]))]

theorem foldl_digits (ds : List Nat) (a : Nat) :
    ds.foldl (fun a d => a * 10 + d) a = a * 10 ^ ds.length + ds.foldl (fun a d => a * 10 + d) 0 := by
  induction ds generalizing a with
  | nil => simp
  | cons d ds ih =>
    simp only [List.foldl_cons, List.length_cons]
    rw [ih, ih (0 * 10 + d), Nat.pow_succ, Nat.add_mul, Nat.add_mul, Nat.mul_assoc, Nat.mul_comm 10]
    omega

theorem dropWhile_spaces (ws r : List Char) (hws : ∀ c ∈ ws, isSpace c = true) (hr : ∀ c ∈ r.head?, isSpace c = false) :
    (ws ++ r).dropWhile isSpace = r := by
  induction ws with
  | nil =>
    cases r with
    | nil => rfl
    | cons c r => simp [hr c (by simp)]
  | cons c ws ih =>
    simp only [List.cons_append]
    rw [List.dropWhile_cons_of_pos (hws c (by simp))]
    exact ih (fun x hx => hws x (by simp [hx]))

theorem sign_of_ne {s : List Char} (h : ∀ c ∈ s.head?, c ≠ '-' ∧ c ≠ '+') : sign s = (false, s) := by
  unfold sign
  split
  · exact absurd rfl (h '-' (by simp)).1
  · exact absurd rfl (h '+' (by simp)).2
  · rfl

theorem exponent_of_ne {lo up : Char} {s : List Char} (h : ∀ c ∈ s.head?, c ≠ lo ∧ c ≠ up) :
    exponent lo up s = (0, s) := by
  cases s with
  | nil => rfl
  | cons c r =>
    have := h c (by simp)
    simp [exponent, this.1, this.2]

end Verif.HumanSize
