import Verif.HumanSize.NumSpec

/-!
# Every size argument means what it says, or is rejected (C98)
-/

namespace Verif.HumanSize

/-! ## Rounding -/

theorem ulp_upper (n d : Nat) (hd : 0 < d) : n * one < 2 ^ (ulpExp n d + 53) * d := by
  have h : n * one / d < 2 ^ (ulpExp n d + 53) := by
    unfold ulpExp
    by_cases h0 : n * one / d = 0
    · rw [h0]; exact Nat.two_pow_pos _
    · have := (Nat.log2_lt h0 (k := Nat.log2 (n * one / d) + 1)).mp (by omega)
      exact Nat.lt_of_lt_of_le this (Nat.pow_le_pow_right (by decide) (by omega))
  exact (Nat.div_lt_iff_lt_mul hd).mp h

theorem roundHalfEven_le {n D k : Nat} (hD : 0 < D) (h : n < k * D) : roundHalfEven n D ≤ k := by
  have h1 : n / D < k := (Nat.div_lt_iff_lt_mul hD).mpr h
  unfold roundHalfEven
  simp only
  repeat' split
  all_goals omega

theorem toDouble_isDouble (n d : Nat) (hd : 0 < d) : IsDouble (toDouble n d) := by
  have hle : roundHalfEven (n * one) (d * 2 ^ ulpExp n d) ≤ 2 ^ 53 := by
    apply roundHalfEven_le (Nat.mul_pos hd (Nat.two_pow_pos _))
    have := ulp_upper n d hd
    rw [Nat.pow_add] at this
    calc n * one < 2 ^ ulpExp n d * 2 ^ 53 * d := this
      _ = 2 ^ 53 * (d * 2 ^ ulpExp n d) := by ac_rfl
  rcases Nat.lt_or_ge (roundHalfEven (n * one) (d * 2 ^ ulpExp n d)) (2 ^ 53) with h | h
  · exact ⟨_, _, h, rfl⟩
  · have e : roundHalfEven (n * one) (d * 2 ^ ulpExp n d) = 2 ^ 53 := Nat.le_antisymm hle h
    refine ⟨1, 53 + ulpExp n d, by decide, ?_⟩
    unfold toDouble
    rw [e, Nat.pow_add, Nat.one_mul]

/-- Among the multiples of `D`, `roundHalfEven` gives the nearest, and of two the even one. -/
theorem roundHalfEven_nearest (n D : Nat) (hD : 0 < D) (k : Nat) :
    dist (roundHalfEven n D * D) n ≤ dist (k * D) n ∧
    (k ≠ roundHalfEven n D → dist (roundHalfEven n D * D) n = dist (k * D) n →
      roundHalfEven n D % 2 = 0 ∧ (k + 1 = roundHalfEven n D ∨ k = roundHalfEven n D + 1)) := by
  have h1 := Nat.div_add_mod n D
  have h2 := Nat.mod_lt n hD
  have h3 : D * (n / D) = n / D * D := Nat.mul_comm _ _
  have hk : k ≤ n / D - 1 ∧ 1 ≤ n / D ∨ k = n / D ∨ k = n / D + 1 ∨ n / D + 2 ≤ k := by omega
  have hm : (k ≤ n / D - 1 ∧ 1 ≤ n / D → k * D + D ≤ n / D * D) ∧ (n / D + 2 ≤ k → n / D * D + 2 * D ≤ k * D) := by
    constructor
    · rintro ⟨a, b⟩
      have := Nat.mul_le_mul_right D (show k + 1 ≤ n / D by omega)
      rw [Nat.add_mul] at this; omega
    · intro a
      have := Nat.mul_le_mul_right D a
      rw [Nat.add_mul] at this; omega
  unfold roundHalfEven dist
  simp only
  rcases hk with hk | rfl | rfl | hk
  · have := hm.1 hk
    split
    · constructor
      · omega
      · intro _ e; exfalso; omega
    · split
      · rw [Nat.add_mul]
        constructor
        · omega
        · intro _ e; exfalso; omega
      · split
        · constructor
          · omega
          · intro _ e; exfalso; omega
        · rw [Nat.add_mul]
          constructor
          · omega
          · intro _ e; exfalso; omega
  · split
    · constructor
      · omega
      · intro hne; exact absurd rfl hne
    · split
      · rw [Nat.add_mul]
        constructor
        · omega
        · intro _ e; exfalso; omega
      · split
        · constructor
          · omega
          · intro hne; exact absurd rfl hne
        · rw [Nat.add_mul]
          constructor
          · omega
          · intro _ e; omega
  · split
    · rw [Nat.add_mul]
      constructor
      · omega
      · intro _ e; exfalso; omega
    · split
      · rw [Nat.add_mul]
        constructor
        · omega
        · intro hne; exact absurd rfl hne
      · split
        · rw [Nat.add_mul]
          constructor
          · omega
          · intro _ e; omega
        · rw [Nat.add_mul]
          constructor
          · omega
          · intro hne; exact absurd rfl hne
  · have := hm.2 hk
    split
    · constructor
      · omega
      · intro _ e; exfalso; omega
    · split
      · rw [Nat.add_mul]
        constructor
        · omega
        · intro _ e; exfalso; omega
      · split
        · constructor
          · omega
          · intro _ e; exfalso; omega
        · rw [Nat.add_mul]
          constructor
          · omega
          · intro _ e; exfalso; omega

theorem toDouble_nearest (n d : Nat) (hd : 0 < d) : Nearest n d (toDouble n d) := by
  refine ⟨toDouble_isDouble n d hd, ?_⟩
  rintro v ⟨m, e, hm, rfl⟩
  have hD : 0 < d * 2 ^ ulpExp n d := Nat.mul_pos hd (Nat.two_pow_pos _)
  have hu : toDouble n d * d = roundHalfEven (n * one) (d * 2 ^ ulpExp n d) * (d * 2 ^ ulpExp n d) := by unfold toDouble; ac_rfl
  rcases Nat.lt_or_ge e (ulpExp n d) with he | he
  · -- smaller than the least number with this last place, which lies between
    have hb := ulpExp_bound n d hd (by omega)
    have hlt : m * 2 ^ e < 2 ^ (ulpExp n d + 52) := by
      calc m * 2 ^ e < 2 ^ 53 * 2 ^ e := Nat.mul_lt_mul_of_pos_right hm (Nat.two_pow_pos _)
        _ = 2 ^ (53 + e) := by rw [← Nat.pow_add]
        _ ≤ 2 ^ (ulpExp n d + 52) := Nat.pow_le_pow_right (by decide) (by omega)
    have hlt' : m * 2 ^ e * d < 2 ^ (ulpExp n d + 52) * d := Nat.mul_lt_mul_of_pos_right hlt hd
    have hk := (roundHalfEven_nearest (n * one) _ hD (2 ^ 52)).1
    rw [← hu] at hk
    have e2 : 2 ^ 52 * (d * 2 ^ ulpExp n d) = 2 ^ (ulpExp n d + 52) * d := by rw [Nat.pow_add]; ac_rfl
    rw [e2] at hk
    unfold dist at hk ⊢
    constructor
    · omega
    · intro _ h; exfalso; omega
  · have e2 : m * 2 ^ e = m * 2 ^ (e - ulpExp n d) * 2 ^ ulpExp n d := by
      rw [Nat.mul_assoc, ← Nat.pow_add]; congr 2; omega
    have e3 : m * 2 ^ e * d = m * 2 ^ (e - ulpExp n d) * (d * 2 ^ ulpExp n d) := by rw [e2]; ac_rfl
    have hk := roundHalfEven_nearest (n * one) _ hD (m * 2 ^ (e - ulpExp n d))
    rw [← hu, ← e3] at hk
    refine ⟨hk.1, fun hne heq => ?_⟩
    have hne' : m * 2 ^ (e - ulpExp n d) ≠ roundHalfEven (n * one) (d * 2 ^ ulpExp n d) := by
      intro h; apply hne; rw [e2, h]; rfl
    obtain ⟨h2, h3⟩ := hk.2 hne' heq
    refine ⟨roundHalfEven (n * one) (d * 2 ^ ulpExp n d) / 2, ?_⟩
    have hdist : dist (toDouble n d) (m * 2 ^ e) = 2 ^ ulpExp n d := by
      rw [e2]
      unfold toDouble dist
      rcases h3 with h3 | h3
      · rw [← h3, Nat.add_mul]; omega
      · rw [h3, Nat.add_mul]; omega
    rw [hdist]
    unfold toDouble
    congr 1; omega

/-- There is only one nearest double. -/
theorem nearest_unique {n d u v : Nat} (h1 : Nearest n d u) (h2 : Nearest n d v) : u = v := by
  apply Classical.byContradiction
  intro hne
  have hpos : 0 < dist u v := by unfold dist; omega
  have hs : dist v u = dist u v := by unfold dist; omega
  have this : dist u v = u - v ∨ dist u v = v - u := by unfold dist; omega
  obtain ⟨a1, a2⟩ := h1.2 v h2.1
  obtain ⟨b1, b2⟩ := h2.2 u h1.1
  obtain ⟨p, hp⟩ := a2 (Ne.symm hne) (Nat.le_antisymm a1 b1)
  obtain ⟨q, hq⟩ := b2 hne (Nat.le_antisymm b1 a1)
  rw [hs] at hq
  generalize dist u v = g at *
  subst hp hq
  rcases this with h | h
  · rw [← Nat.sub_mul] at h
    have : g * 1 = g * (2 * p - 2 * q) := by rw [Nat.mul_one, Nat.mul_comm]; exact h
    have := Nat.eq_of_mul_eq_mul_left hpos this
    omega
  · rw [← Nat.sub_mul] at h
    have : g * 1 = g * (2 * q - 2 * p) := by rw [Nat.mul_one, Nat.mul_comm]; exact h
    have := Nat.eq_of_mul_eq_mul_left hpos this
    omega

/-! ## Texts -/

theorem char_cases (P : Char → Prop) (h1 : ∀ n, n < 128 → P (Char.ofNat n)) (h2 : ∀ c : Char, 128 ≤ c.toNat → P c) (c : Char) : P c := by
  rcases Nat.lt_or_ge c.toNat 128 with h | h
  · have := h1 _ h
    rwa [Char.ofNat_toNat] at this
  · exact h2 c h

theorem lookup_high {c : Char} (h : 128 ≤ c.toNat) : digitTable.lookup c = none := by
  rw [List.lookup_eq_none_iff]
  intro p hp
  have hp' : p.1.toNat < 128 := by
    have : ∀ p ∈ digitTable, p.1.toNat < 128 := by decide
    exact this p hp
  simp only [bne_iff_ne, ne_eq]
  rintro rfl
  omega

theorem hexVal_eq (c : Char) : hexVal c = digit 16 c := by
  apply char_cases (fun c => hexVal c = digit 16 c)
  · decide
  · intro c h
    unfold digit
    rw [lookup_high h]
    unfold hexVal
    have hc : ∀ (d : Char), d.toNat < 128 → ¬ c ≤ d := by
      intro d hd hle
      have : c.toNat ≤ d.toNat := hle
      omega
    simp [hc '9' (by decide), hc 'f' (by decide), hc 'F' (by decide)]

theorem decVal_eq (c : Char) : decVal c = digit 10 c := by
  apply char_cases (fun c => decVal c = digit 10 c)
  · decide
  · intro c h
    unfold digit
    rw [lookup_high h]
    unfold decVal
    have hc : ∀ (d : Char), d.toNat < 128 → ¬ c ≤ d := by
      intro d hd hle
      have : c.toNat ≤ d.toNat := hle
      omega
    simp [hc '9' (by decide)]

/-- The values of the digits of a text. -/
def vals (base : Nat) (t : List Char) : List Nat := t.map (fun c => (digit base c).getD 0)

theorem foldl_base (b : Nat) (ds : List Nat) (a : Nat) :
    ds.foldl (fun a d => a * b + d) a = a * b ^ ds.length + ds.foldl (fun a d => a * b + d) 0 := by
  induction ds generalizing a with
  | nil => simp
  | cons d ds ih =>
    simp only [List.foldl_cons, List.length_cons]
    rw [ih, ih (0 * b + d), Nat.pow_succ, Nat.add_mul, Nat.add_mul, Nat.mul_assoc, Nat.mul_comm b]
    simp [Nat.add_assoc]

theorem ofDigits_vals (base : Nat) (t : List Char) : ofDigits base (vals base t) = place base t := by
  unfold ofDigits vals
  induction t with
  | nil => rfl
  | cons c t ih =>
    simp only [List.map_cons, List.foldl_cons, place]
    rw [foldl_base, ih]
    simp

theorem takeDigits_text {dv : Char → Option Nat} {base : Nat} (hdv : ∀ c, dv c = digit base c) (t r : List Char) (ht : AllDigits base t)
    (hr : ∀ c ∈ r.head?, digit base c = none) : takeDigits dv (t ++ r) = (vals base t, r) := by
  induction t with
  | nil =>
    cases r with
    | nil => rfl
    | cons c r => simp [takeDigits, hdv, hr c (by simp), vals]
  | cons c t ih =>
    have hc := ht c (by simp)
    obtain ⟨v, hv⟩ := Option.isSome_iff_exists.mp hc
    simp only [List.cons_append, takeDigits]
    rw [hdv, hv, ih (fun x hx => ht x (by simp [hx]))]
    simp [vals, hv]

theorem takeDigits_inv {dv : Char → Option Nat} {base : Nat} (hdv : ∀ c, dv c = digit base c) (s : List Char) :
    ∃ t r, s = t ++ r ∧ takeDigits dv s = (vals base t, r) ∧ AllDigits base t := by
  induction s with
  | nil => exact ⟨[], [], rfl, rfl, by intro c hc; cases hc⟩
  | cons c s ih =>
    obtain ⟨t, r, e, h1, h2⟩ := ih
    cases hv : digit base c with
    | none => exact ⟨[], c :: s, rfl, by simp [takeDigits, hdv, hv, vals], by intro c hc; cases hc⟩
    | some v =>
      refine ⟨c :: t, r, by rw [e]; rfl, ?_, ?_⟩
      · unfold takeDigits
        rw [hdv, hv, h1]
        simp [vals, hv]
      · intro x hx
        rcases List.mem_cons.mp hx with rfl | hx
        · rw [hv]; rfl
        · exact h2 x hx

theorem head_append {P : Char → Prop} {l r : List Char} (hl : ∀ c ∈ l.head?, P c) (hr : ∀ c ∈ r.head?, P c) : ∀ c ∈ (l ++ r).head?, P c := by
  cases l with
  | nil => exact hr
  | cons a l => exact hl

theorem head_digits {P : Char → Prop} {base : Nat} {l : List Char} (h : AllDigits base l) (hP : ∀ p ∈ digitTable, P p.1) :
    ∀ c ∈ l.head?, P c := by
  cases l with
  | nil => intro c hc; cases hc
  | cons a l =>
    intro c hc
    simp at hc
    subst hc
    obtain ⟨v, hv⟩ := Option.isSome_iff_exists.mp (h a (by simp))
    unfold digit at hv
    rw [Option.filter_eq_some_iff] at hv
    have := List.lookup_eq_some_iff.mp hv.1
    obtain ⟨l1, l2, e, -⟩ := this
    exact hP (a, v) (by rw [e]; simp)

theorem head_append_ne {P : Char → Prop} {l r : List Char} (h0 : l ≠ []) (hl : ∀ c ∈ l.head?, P c) : ∀ c ∈ (l ++ r).head?, P c := by
  cases l with
  | nil => exact absurd rfl h0
  | cons a l => exact hl

/-- What may follow a number in a size argument: a blank or a suffix. -/
def FollowB (r : List Char) : Prop := ∀ c ∈ r.head?, isSpace c = true ∨ c ∈ ['K', 'k', 'M', 'm', 'G', 'g', 'T', 't']

/-- None of the characters a number may go on with. -/
def Stop (c : Char) : Prop := digit 16 c = none ∧ digit 10 c = none ∧ c ∉ ['.', 'e', 'E', 'p', 'P', 'x', 'X', '+', '-']

theorem followB_stop {r : List Char} (h : FollowB r) : ∀ c ∈ r.head?, Stop c := by
  intro c hc
  rcases h c hc with h | h
  · simp only [isSpace, Bool.or_eq_true, beq_iff_eq] at h
    rcases h with ((((rfl | rfl) | rfl) | rfl) | rfl) | rfl <;> exact ⟨by decide, by decide, by decide⟩
  · simp only [List.mem_cons, List.not_mem_nil, or_false] at h
    rcases h with rfl | rfl | rfl | rfl | rfl | rfl | rfl | rfl <;> exact ⟨by decide, by decide, by decide⟩

theorem sign_text {sg s : List Char} {neg : Bool} (h : SignText sg neg) (hs : ∀ c ∈ s.head?, c ≠ '-' ∧ c ≠ '+') : sign (sg ++ s) = (neg, s) := by
  cases h with
  | absent => exact sign_of_ne hs
  | plus => rfl
  | minus => rfl

theorem sign_inv (s : List Char) : ∃ sg r neg, s = sg ++ r ∧ SignText sg neg ∧ sign s = (neg, r) := by
  unfold sign
  split
  · exact ⟨['-'], _, true, rfl, .minus, rfl⟩
  · exact ⟨['+'], _, false, rfl, .plus, rfl⟩
  · exact ⟨[], s, false, rfl, .absent, rfl⟩

theorem exponent_text {lo up : Char} {et r : List Char} {e : Int} (h : ExponentText [lo, up] et e)
    (hr : ∀ c ∈ r.head?, digit 10 c = none ∧ c ≠ lo ∧ c ≠ up) : exponent lo up (et ++ r) = (e, r) := by
  cases h with
  | absent => exact exponent_of_ne (fun c hc => (hr c hc).2)
  | present m s t neg hm hs ht hd =>
    unfold exponent
    simp only [List.cons_append]
    have hm' : m = lo ∨ m = up := by simpa using hm
    have hhead : ∀ c ∈ (t ++ r).head?, c ≠ '-' ∧ c ≠ '+' := head_append_ne ht (head_digits hd (by decide))
    rw [if_pos hm', List.append_assoc, sign_text hs hhead]
    simp only
    rw [takeDigits_text decVal_eq t r hd (fun c hc => (hr c hc).1)]
    have : vals 10 t ≠ [] := by
      cases t with
      | nil => exact absurd rfl ht
      | cons a t => simp [vals]
    simp only [this, if_false, ofDigits_vals]

theorem exponent_inv (lo up : Char) (s : List Char) : ∃ et r e, s = et ++ r ∧ ExponentText [lo, up] et e ∧ exponent lo up s = (e, r) := by
  cases s with
  | nil => exact ⟨[], [], 0, rfl, .absent, rfl⟩
  | cons m s =>
    unfold exponent
    by_cases hm : m = lo ∨ m = up
    · simp only [hm, if_true]
      obtain ⟨sg, r1, neg, e1, h1, h2⟩ := sign_inv s
      obtain ⟨t, r, e2, h3, h4⟩ := takeDigits_inv decVal_eq r1
      rw [h2]
      simp only
      rw [h3]
      by_cases ht : t = []
      · subst ht
        exact ⟨[], m :: s, 0, rfl, .absent, by simp [vals]⟩
      · have hv : vals 10 t ≠ [] := by
          cases t with
          | nil => exact absurd rfl ht
          | cons a t => simp [vals]
        refine ⟨m :: (sg ++ t), r, _, by rw [e1, e2]; simp, .present m sg t neg (by simpa using hm) h1 ht h4, ?_⟩
        simp only [hv, if_false, ofDigits_vals]
    · simp only [hm, if_false]
      exact ⟨[], m :: s, 0, rfl, .absent, rfl⟩

theorem vals_append (base : Nat) (a b : List Char) : vals base a ++ vals base b = vals base (a ++ b) := by simp [vals]

theorem vals_nil (base : Nat) (a : List Char) : vals base a = [] ↔ a = [] := by simp [vals]

theorem mantissa_text {dv : Char → Option Nat} {base : Nat} (hdv : ∀ c, dv c = digit base c) (hdot : digit base '.' = none)
    {ip ft fp r : List Char} (hip : AllDigits base ip) (hf : FractionText base ft fp) (hne : ip ++ fp ≠ [])
    (hr : ∀ c ∈ r.head?, digit base c = none ∧ c ≠ '.') :
    mantissa dv base (ip ++ (ft ++ r)) = some (place base (ip ++ fp), base ^ fp.length, r) := by
  unfold mantissa
  cases hf with
  | absent =>
    rw [List.nil_append, takeDigits_text hdv ip r hip (fun c hc => (hr c hc).1)]
    simp only
    split
    · exact absurd rfl (hr '.' (by simp)).2
    · rw [List.append_nil] at hne
      simp [vals_nil, hne, ofDigits_vals]
  | present t ht =>
    rw [takeDigits_text hdv ip _ hip (by intro c hc; simp at hc; subst hc; exact hdot)]
    simp only [List.cons_append]
    rw [takeDigits_text hdv fp r ht (fun c hc => (hr c hc).1)]
    have : ¬ (ip = [] ∧ fp = []) := by
      rintro ⟨rfl, rfl⟩; exact hne rfl
    simp only [vals_nil, this, if_false, vals_append, ofDigits_vals]
    simp [vals]

theorem mantissa_inv {dv : Char → Option Nat} {base : Nat} (hdv : ∀ c, dv c = digit base c) (s : List Char) {n d : Nat} {r : List Char}
    (h : mantissa dv base s = some (n, d, r)) :
    ∃ ip ft fp, s = ip ++ (ft ++ r) ∧ AllDigits base ip ∧ FractionText base ft fp ∧ ip ++ fp ≠ [] ∧
      n = place base (ip ++ fp) ∧ d = base ^ fp.length := by
  obtain ⟨ip, r1, e, h1, h2⟩ := takeDigits_inv hdv s
  unfold mantissa at h
  rw [h1] at h
  simp only at h
  split at h
  · rename_i r2
    obtain ⟨fp, r3, e2, h3, h4⟩ := takeDigits_inv hdv r2
    rw [h3] at h
    simp only at h
    split at h
    · cases h
    · rename_i hne
      simp only [Option.some.injEq, Prod.mk.injEq] at h
      obtain ⟨rfl, rfl, rfl⟩ := h
      refine ⟨ip, '.' :: fp, fp, by rw [e, e2]; simp, h2, .present fp h4, ?_, by rw [vals_append, ofDigits_vals], by simp [vals]⟩
      intro h0
      apply hne
      simp only [List.append_eq_nil_iff] at h0
      simp [vals_nil, h0]
  · split at h
    · cases h
    · rename_i hne
      simp only [Option.some.injEq, Prod.mk.injEq] at h
      obtain ⟨rfl, rfl, rfl⟩ := h
      refine ⟨ip, [], [], by simpa using e, h2, .absent, ?_, by simp [ofDigits_vals], by simp⟩
      intro h0
      exact hne ((vals_nil _ _).mpr (by simpa using h0))

theorem scale_eq (num den base : Nat) (e : Int) : scale num den base e = (num * base ^ e.toNat, den * base ^ (-e).toNat) := by
  unfold scale
  split
  · have : (-e).toNat = 0 := by omega
    simp [this]
  · have : e.toNat = 0 := by omega
    simp [this]

/-! ## `strtod` -/

theorem decimal_text {ip ft fp et r : List Char} {e : Int} (neg : Bool) (hip : AllDigits 10 ip) (hf : FractionText 10 ft fp) (hne : ip ++ fp ≠ [])
    (he : ExponentText ['e', 'E'] et e) (hr : ∀ c ∈ r.head?, Stop c) :
    decimal neg (ip ++ (ft ++ (et ++ r))) = some (.fin neg (place 10 (ip ++ fp) * 10 ^ e.toNat) (10 ^ fp.length * 10 ^ (-e).toNat), r) := by
  unfold decimal
  have hh : ∀ c ∈ (et ++ r).head?, digit 10 c = none ∧ c ≠ '.' := by
    apply head_append
    · cases he with
      | absent => intro c hc; cases hc
      | present m s t ng hm _ _ _ =>
        intro c hc
        simp at hc; subst hc
        simp at hm
        rcases hm with rfl | rfl <;> decide
    · intro c hc
      have := hr c hc
      exact ⟨this.2.1, fun h => this.2.2 (by simp [h])⟩
  rw [mantissa_text decVal_eq (by decide) hip hf hne hh]
  simp only
  rw [exponent_text he (fun c hc => by
    have := hr c hc
    exact ⟨this.2.1, fun h => this.2.2 (by simp [h]), fun h => this.2.2 (by simp [h])⟩)]
  simp only [scale_eq]

theorem strtod_text {ws sg t r : List Char} {neg : Bool} {n d : Nat} (hws : ∀ c ∈ ws, isSpace c = true) (hsg : SignText sg neg)
    (ht : Magnitude t n d) (hr : ∀ c ∈ r.head?, Stop c) : strtod (ws ++ (sg ++ (t ++ r))) = some (.fin neg n d, r) := by
  obtain ⟨base, ebase, pre, marks, ip, ft, fp, et, e, hn, hip, hf, hne, he⟩ := ht
  -- the first character of the number
  have hfirst : ∀ c ∈ ((pre ++ (ip ++ (ft ++ et))) ++ r).head?, isSpace c = false ∧ c ≠ '-' ∧ c ≠ '+' := by
    apply head_append_ne
    · intro h0
      simp only [List.append_eq_nil_iff] at h0
      apply hne
      cases hf with
      | absent => simp [h0]
      | present => simp at h0
    · apply head_append
      · simp only [notations, List.mem_cons, Prod.mk.injEq, List.not_mem_nil, or_false] at hn
        rcases hn with ⟨-, rfl, -⟩ | ⟨-, rfl, -⟩ | ⟨-, rfl, -⟩
        · intro c hc; cases hc
        · intro c hc; simp at hc; subst hc; decide
        · intro c hc; simp at hc; subst hc; decide
      · by_cases h0 : ip = []
        · subst h0
          cases hf with
          | absent => exact absurd rfl hne
          | present => intro c hc; simp at hc; subst hc; decide
        · exact head_append_ne h0 (head_digits hip (by decide))
  unfold strtod
  rw [dropWhile_spaces ws _ hws (by
    cases hsg with
    | absent => exact fun c hc => (hfirst c hc).1
    | plus => intro c hc; simp at hc; subst hc; decide
    | minus => intro c hc; simp at hc; subst hc; decide), sign_text hsg (fun c hc => (hfirst c hc).2)]
  simp only
  simp only [notations, List.mem_cons, Prod.mk.injEq, List.not_mem_nil, or_false] at hn
  have hhex : ∀ x, (x = 'x' ∨ x = 'X') → base = 16 → marks = ['p', 'P'] → ebase = 2 → pre = ['0', x] →
      (match pre ++ (ip ++ (ft ++ et)) ++ r with
      | '0' :: x :: h =>
        if x = 'x' ∨ x = 'X' then
          match mantissa hexVal 16 h with
          | some (n, d, r) =>
            let (e, r2) := exponent 'p' 'P' r
            let (n, d) := scale n d 2 e
            some (Num.fin neg n d, r2)
          | none => decimal neg (pre ++ (ip ++ (ft ++ et)) ++ r)
        else decimal neg (pre ++ (ip ++ (ft ++ et)) ++ r)
      | _ => decimal neg (pre ++ (ip ++ (ft ++ et)) ++ r)) =
      some (.fin neg (place base (ip ++ fp) * ebase ^ e.toNat) (base ^ fp.length * ebase ^ (-e).toNat), r) := by
    intro x hx h1 h2 h3 h4
    subst h1 h2 h3 h4
    simp only [List.cons_append, List.nil_append, List.append_assoc]
    rw [if_pos hx]
    have hh : ∀ c ∈ (et ++ r).head?, digit 16 c = none ∧ c ≠ '.' := by
      apply head_append
      · cases he with
        | absent => intro c hc; cases hc
        | present m s t ng hm _ _ _ =>
          intro c hc
          simp at hc; subst hc
          simp at hm
          rcases hm with rfl | rfl <;> decide
      · intro c hc
        have := hr c hc
        exact ⟨this.1, fun h => this.2.2 (by simp [h])⟩
    rw [mantissa_text hexVal_eq (by decide) hip hf hne hh]
    simp only
    rw [exponent_text he (fun c hc => by
      have := hr c hc
      exact ⟨this.2.1, fun h => this.2.2 (by simp [h]), fun h => this.2.2 (by simp [h])⟩)]
    simp only [scale_eq]
  rcases hn with ⟨rfl, rfl, rfl, rfl⟩ | ⟨h1, h2, h3, h4⟩ | ⟨h1, h2, h3, h4⟩
  · have hdec := decimal_text neg hip hf hne he hr
    simp only [List.nil_append, List.append_assoc]
    split
    · rename_i x h heq
      have hx : x ≠ 'x' ∧ x ≠ 'X' := by
        have hh : ∀ c ∈ (ft ++ (et ++ r)).head?, c ≠ 'x' ∧ c ≠ 'X' := by
          apply head_append
          · cases hf with
            | absent => intro c hc; cases hc
            | present => intro c hc; simp at hc; subst hc; decide
          · apply head_append
            · cases he with
              | absent => intro c hc; cases hc
              | present m s t ng hm _ _ _ =>
                intro c hc
                simp at hc; subst hc
                simp at hm
                rcases hm with rfl | rfl <;> decide
            · intro c hc
              have := (hr c hc).2.2
              simp at this
              exact ⟨this.2.2.2.2.2.1, this.2.2.2.2.2.2.1⟩
        cases ip with
        | nil =>
          cases hf with
          | absent => exact absurd rfl hne
          | present => simp at heq
        | cons a ip =>
          simp only [List.cons_append, List.cons.injEq] at heq
          have h3 : ∀ c ∈ (ip ++ (ft ++ (et ++ r))).head?, c ≠ 'x' ∧ c ≠ 'X' :=
            head_append (head_digits (base := 10) (fun c hc => hip c (by simp [hc])) (by decide)) hh
          rw [heq.2] at h3
          exact h3 x (by simp)
      simp only [hx.1, hx.2, or_self, if_false]
      exact hdec
    · exact hdec
  · exact hhex 'x' (.inl rfl) h1 h3 h4 h2
  · exact hhex 'X' (.inr rfl) h1 h3 h4 h2

theorem keyword_inv : ∀ (k s r : List Char), keyword k s = some r → ∃ w, s = w ++ r ∧ w.map Char.toLower = k := by
  intro k
  induction k with
  | nil => intro s r h; simp [keyword] at h; exact ⟨[], by simpa using h, rfl⟩
  | cons a k ih =>
    intro s r h
    cases s with
    | nil => cases h
    | cons c s =>
      unfold keyword at h
      split at h
      · rename_i hc
        obtain ⟨w, e, hw⟩ := ih s r h
        exact ⟨c :: w, by rw [e]; rfl, by simp [hw, hc]⟩
      · cases h

/-- What `specials` finds begins with one of the two words. -/
theorem specials_inv {s r : List Char} {v : Num} (h : specials s = some (v, r)) :
    v = .special ∧ ∃ kw tail, s = kw ++ tail ∧ (kw.map Char.toLower = ['i', 'n', 'f'] ∨ kw.map Char.toLower = ['n', 'a', 'n']) := by
  unfold specials at h
  split at h
  · rename_i r2 hk
    obtain ⟨w, e, hw⟩ := keyword_inv _ _ _ hk
    cases h
    refine ⟨rfl, w.take 3, w.drop 3 ++ r, by rw [← List.append_assoc, List.take_append_drop]; exact e, .inl ?_⟩
    rw [List.map_take, hw]; rfl
  · split at h
    · rename_i r1' hk
      obtain ⟨w, e, hw⟩ := keyword_inv _ _ _ hk
      cases h
      exact ⟨rfl, w, r, e, .inl hw⟩
    · split at h
      · rename_i r1 hk
        obtain ⟨w, e, hw⟩ := keyword_inv _ _ _ hk
        cases h
        exact ⟨rfl, w, r, e, .inr hw⟩
      · cases h

/-- What `decimal` gives. -/
theorem decimal_inv {neg : Bool} {s r : List Char} {v : Num} (h : decimal neg s = some (v, r)) :
    (v = .special ∧ ∃ kw tail, s = kw ++ tail ∧ (kw.map Char.toLower = ['i', 'n', 'f'] ∨ kw.map Char.toLower = ['n', 'a', 'n'])) ∨
    ∃ t n d, s = t ++ r ∧ v = .fin neg n d ∧ Magnitude t n d := by
  unfold decimal at h
  split at h
  · rename_i n d r1 hm
    right
    obtain ⟨ip, ft, fp, e, h1, h2, h3, h4, h5⟩ := mantissa_inv decVal_eq s hm
    obtain ⟨et, r2, ex, e2, h6, h7⟩ := exponent_inv 'e' 'E' r1
    rw [h7] at h
    simp only [scale_eq, Option.some.injEq, Prod.mk.injEq] at h
    obtain ⟨rfl, rfl⟩ := h
    subst h4 h5
    exact ⟨[] ++ (ip ++ (ft ++ et)), _, _, by rw [e, e2]; simp, rfl, .mk 10 10 [] ['e', 'E'] ip ft fp et ex (by simp [notations]) h1 h2 h3 h6⟩
  · exact .inl (specials_inv h)

/-- Whatever `strtod` converts is a number or a special word, behind blanks and a sign. -/
theorem strtod_inv {s r : List Char} {v : Num} (h : strtod s = some (v, r)) :
    (v = .special ∧ SpecialText s) ∨
    ∃ ws sg t neg n d, s = ws ++ (sg ++ (t ++ r)) ∧ (∀ c ∈ ws, isSpace c = true) ∧ SignText sg neg ∧ Magnitude t n d ∧ v = .fin neg n d := by
  unfold strtod at h
  have hws : ∀ c ∈ s.takeWhile isSpace, isSpace c = true := fun c hc => by
    have := List.all_takeWhile (p := isSpace) (l := s)
    rw [List.all_eq_true] at this
    exact this c hc
  have hs : s = s.takeWhile isSpace ++ s.dropWhile isSpace := (List.takeWhile_append_dropWhile).symm
  obtain ⟨sg, r1, neg, e1, h1, h2⟩ := sign_inv (s.dropWhile isSpace)
  rw [h2] at h
  simp only at h
  have hdec : ∀ {v r}, decimal neg r1 = some (v, r) → (v = .special ∧ SpecialText s) ∨
      ∃ ws sg t neg n d, s = ws ++ (sg ++ (t ++ r)) ∧ (∀ c ∈ ws, isSpace c = true) ∧ SignText sg neg ∧ Magnitude t n d ∧ v = .fin neg n d := by
    intro v r hd
    rcases decimal_inv hd with ⟨hv, kw, tail, e, hk⟩ | ⟨t, n, d, e, hv, hm⟩
    · exact .inl ⟨hv, s.takeWhile isSpace, sg, kw, tail, by rw [← e, ← e1]; exact hs, hws, ⟨neg, h1⟩, hk⟩
    · exact .inr ⟨s.takeWhile isSpace, sg, t, neg, n, d, by rw [← e, ← e1]; exact hs, hws, h1, hm, hv⟩
  split at h
  · rename_i x hh
    split at h
    · rename_i hx
      split at h
      · rename_i n d r2 hm
        right
        obtain ⟨ip, ft, fp, e, h3, h4, h5, h6, h7⟩ := mantissa_inv hexVal_eq hh hm
        obtain ⟨et, r3, ex, e2, h8, h9⟩ := exponent_inv 'p' 'P' r2
        rw [h9] at h
        simp only [scale_eq, Option.some.injEq, Prod.mk.injEq] at h
        obtain ⟨rfl, rfl⟩ := h
        subst h6 h7
        refine ⟨s.takeWhile isSpace, sg, ['0', x] ++ (ip ++ (ft ++ et)), neg, _, _, ?_, hws, h1,
          .mk 16 2 ['0', x] ['p', 'P'] ip ft fp et ex (by rcases hx with rfl | rfl <;> simp [notations]) h3 h4 h5 h8, rfl⟩
        conv => lhs; rw [hs, e1, e, e2]
        simp
      · exact hdec h
    · exact hdec h
  · exact hdec h

/-! ## C98 -/

theorem magnitude_den {t : List Char} {n d : Nat} (h : Magnitude t n d) : 0 < d := by
  obtain ⟨base, ebase, pre, marks, ip, ft, fp, et, e, hn, -⟩ := h
  simp only [notations, List.mem_cons, Prod.mk.injEq, List.not_mem_nil, or_false] at hn
  rcases hn with ⟨rfl, -, -, rfl⟩ | ⟨rfl, -, -, rfl⟩ | ⟨rfl, -, -, rfl⟩ <;>
    exact Nat.mul_pos (Nat.pow_pos (by decide)) (Nat.pow_pos (by decide))

theorem parse_sizeText {s : List Char} {neg : Bool} {n d mult : Nat} (h : SizeText s neg n d mult) :
    parse s = convert (.fin neg n d) mult := by
  obtain ⟨ws, sg, t, bl, sfx, tail, rfl, hws, hsg, ht, hbl, hs, htl⟩ := h.parts
  have hsp : ∀ c ∈ bl.head?, isSpace c = true := by
    cases bl with
    | nil => intro c hc; cases hc
    | cons a bl => intro c hc; simp at hc; subst hc; exact hbl a (by simp)
  have key : FollowB (bl ++ (sfx ++ tail)) ∧ (bl ++ (sfx ++ tail)).dropWhile isSpace = sfx ++ tail ∧
      (sfx = [] ∧ mult = 1 ∨ ∃ c, sfx = [c] ∧ multiplier c = some mult) := by
    simp only [suffixes, List.mem_cons, Prod.mk.injEq, List.not_mem_nil, or_false] at hs
    rcases hs with ⟨rfl, rfl⟩ | hs
    · rw [htl rfl]
      refine ⟨?_, ?_, .inl ⟨rfl, rfl⟩⟩
      · exact head_append (fun c hc => .inl (hsp c hc)) (by simp)
      · exact dropWhile_spaces bl _ hbl (by simp)
    · rcases hs with ⟨rfl, rfl⟩ | ⟨rfl, rfl⟩ | ⟨rfl, rfl⟩ | ⟨rfl, rfl⟩ | ⟨rfl, rfl⟩ | ⟨rfl, rfl⟩ | ⟨rfl, rfl⟩ | ⟨rfl, rfl⟩ <;>
        exact ⟨head_append (fun c hc => .inl (hsp c hc)) (by intro c hc; simp at hc; subst hc; right; decide),
          dropWhile_spaces bl _ hbl (by intro c hc; simp at hc; subst hc; decide), .inr ⟨_, rfl, by decide⟩⟩
  obtain ⟨k1, k2, k3⟩ := key
  unfold parse
  rw [strtod_text hws hsg ht (followB_stop k1)]
  simp only [k2]
  rcases k3 with ⟨rfl, rfl⟩ | ⟨c, rfl, hc⟩
  · rw [htl rfl]; rfl
  · simp only [List.cons_append, List.nil_append, hc]

/-- **C98** (meaning).  A size argument (blanks, sign, a decimal or hexadecimal number with optional
fraction and exponent, blanks, suffix) is converted to the double nearest to the number written,
multiplied by the unit and truncated; it is undefined exactly if that does not fit. -/
theorem size_text_means {s : List Char} {neg : Bool} {n d mult : Nat} (h : SizeText s neg n d mult) :
    ∃ u, Nearest n d u ∧
      (u * mult / one < 2 ^ 63 → parse s = .ok (if neg then -((u * mult / one : Nat) : Int) else ((u * mult / one : Nat) : Int))) ∧
      (u * mult / one = 2 ^ 63 → parse s = if neg then .ok (-(2 ^ 63)) else .ub) ∧
      (2 ^ 63 < u * mult / one → parse s = .ub) := by
  obtain ⟨ws, sg, t, bl, sfx, tail, -, -, -, ht, -⟩ := h.parts
  refine ⟨toDouble n d, toDouble_nearest n d (magnitude_den ht), ?_⟩
  rw [parse_sizeText h]
  simp only [convert, toOff]
  generalize toDouble n d * mult / one = t
  clear h
  refine ⟨fun h => ?_, fun h => ?_, fun h => ?_⟩
  · cases neg
    · simp only [Bool.false_eq_true, if_false, if_pos h]
    · simp only [if_true, if_pos (Nat.le_of_lt h)]
  · subst h
    cases neg
    · simp only [Bool.false_eq_true, if_false, if_neg (Nat.lt_irrefl _)]
    · simp only [if_true, if_pos (Nat.le_refl _)]; rfl
  · cases neg
    · simp only [Bool.false_eq_true, if_false, if_neg (Nat.not_lt.mpr (Nat.le_of_lt h))]
    · simp only [if_true, if_neg (Nat.not_le.mpr h)]

/-- **C98** (nothing else).  Every argument is rejected, or is a size argument as above, or begins
with an infinity or a not-a-number. -/
theorem size_text_only (s : List Char) :
    parse s = .ok (-1) ∨ SpecialText s ∨ ∃ neg n d mult, SizeText s neg n d mult := by
  unfold parse
  cases hst : strtod s with
  | none => exact .inl rfl
  | some p =>
    obtain ⟨v, r⟩ := p
    rcases strtod_inv hst with ⟨-, h⟩ | ⟨ws, sg, t, neg, n, d, e, h1, h2, h3, rfl⟩
    · exact .inr (.inl h)
    · simp only
      have hbl : ∀ c ∈ r.takeWhile isSpace, isSpace c = true := fun c hc => by
        have := List.all_takeWhile (p := isSpace) (l := r)
        rw [List.all_eq_true] at this
        exact this c hc
      have hr : r = r.takeWhile isSpace ++ r.dropWhile isSpace := (List.takeWhile_append_dropWhile).symm
      cases hd : r.dropWhile isSpace with
      | nil =>
        refine .inr (.inr ⟨neg, n, d, 1, ⟨ws, sg, t, r.takeWhile isSpace, [], [], ?_, h1, h2, h3, hbl, by simp [suffixes], fun _ => rfl⟩⟩)
        rw [hd] at hr
        rw [List.nil_append, ← hr]; exact e
      | cons c tail =>
        simp only
        cases hm : multiplier c with
        | none => exact .inl rfl
        | some m =>
          refine .inr (.inr ⟨neg, n, d, m, ⟨ws, sg, t, r.takeWhile isSpace, [c], tail, ?_, h1, h2, h3, hbl, ?_, by simp⟩⟩)
          · rw [hd] at hr
            rw [show [c] ++ tail = c :: tail from rfl, ← hr]; exact e
          · unfold multiplier at hm
            split at hm
            · rename_i hc
              cases hm
              rcases hc with rfl | rfl <;> decide
            · split at hm
              · rename_i hc
                cases hm
                rcases hc with rfl | rfl <;> decide
              · split at hm
                · rename_i hc
                  cases hm
                  rcases hc with rfl | rfl <;> decide
                · split at hm
                  · rename_i hc
                    cases hm
                    rcases hc with rfl | rfl <;> decide
                  · cases hm

theorem toLower_high {c : Char} (h : 128 ≤ c.toNat) : c.toLower = c := by
  have : 128 ≤ c.val.toNat := h
  unfold Char.toLower
  split
  · rename_i hc
    have h2 : c.val.toNat ≤ 90 := UInt32.le_iff_toNat_le.mp hc.2
    omega
  · rfl

theorem lower_first (c : Char) : c.toLower = 'i' ∨ c.toLower = 'n' →
    isSpace c = false ∧ c ≠ '-' ∧ c ≠ '+' ∧ c ≠ '0' ∧ c ≠ '.' ∧ digit 10 c = none := by
  apply char_cases (fun c => c.toLower = 'i' ∨ c.toLower = 'n' →
    isSpace c = false ∧ c ≠ '-' ∧ c ≠ '+' ∧ c ≠ '0' ∧ c ≠ '.' ∧ digit 10 c = none)
  · decide
  · intro c hc h
    rw [toLower_high hc] at h
    rcases h with rfl | rfl <;> exact absurd hc (by decide)

theorem keyword_text : ∀ (w r : List Char), keyword (w.map Char.toLower) (w ++ r) = some r := by
  intro w
  induction w with
  | nil => intro r; rfl
  | cons c w ih => intro r; simp [keyword, ih]

/-- **C98** (infinities and not-a-numbers).  They are rejected only for the suffix; otherwise the
conversion is undefined. -/
theorem special_text_undefined {s : List Char} (h : SpecialText s) : parse s = .ub ∨ parse s = .ok (-1) := by
  obtain ⟨ws, sg, kw, tail, rfl, hws, ⟨neg, hsg⟩, hk⟩ := h
  have hst : ∃ r, strtod (ws ++ (sg ++ (kw ++ tail))) = some (.special, r) := by
    have hsp : ∃ r, specials (kw ++ tail) = some (.special, r) := by
      unfold specials
      split
      · exact ⟨_, rfl⟩
      · rcases hk with hk | hk
        · rw [show "inf".toList = kw.map Char.toLower from hk.symm, keyword_text]
          exact ⟨_, rfl⟩
        · split
          · exact ⟨_, rfl⟩
          · rw [show "nan".toList = kw.map Char.toLower from hk.symm, keyword_text]
            exact ⟨_, rfl⟩
    cases kw with
    | nil => simp at hk
    | cons c kw =>
      have hc := lower_first c (by rcases hk with hk | hk <;> simp at hk <;> simp [hk.1])
      unfold strtod
      rw [dropWhile_spaces ws _ hws (by
        cases hsg with
        | absent => intro x hx; simp at hx; subst hx; exact hc.1
        | plus => intro x hx; simp at hx; subst hx; decide
        | minus => intro x hx; simp at hx; subst hx; decide), sign_text hsg (by
          intro x hx; simp at hx; subst hx; exact ⟨hc.2.1, hc.2.2.1⟩)]
      simp only
      have hd : decimal neg (c :: kw ++ tail) = specials (c :: kw ++ tail) := by
        unfold decimal
        have : mantissa decVal 10 (c :: kw ++ tail) = none := by
          unfold mantissa
          simp only [List.cons_append, takeDigits, decVal_eq, hc.2.2.2.2.2]
          split
          · rename_i heq
            injection heq with h1 h2
            exact absurd h1 hc.2.2.2.2.1
          · simp
        rw [this]
      split
      · rename_i heq
        injection heq with h1 h2
        exact absurd h1 hc.2.2.2.1
      · rw [hd]; exact hsp
  obtain ⟨r, hr⟩ := hst
  unfold parse
  rw [hr]
  simp only
  split
  · exact .inl rfl
  · split
    · exact .inr rfl
    · exact .inl rfl

/-! ## Examples -/

/-- ` 0x1.8p4 k` is 24 KiB. -/
example : SizeText " 0x1.8p4 k".toList false (24 * 2 ^ 4) (16 * 1) 1024 :=
  ⟨[' '], [], "0x1.8p4".toList, [' '], ['k'], [], rfl, by decide, .absent,
    .mk 16 2 ['0', 'x'] ['p', 'P'] ['1'] ['.', '8'] ['8'] ['p', '4'] 4 (by decide) (by unfold AllDigits; decide) (.present ['8'] (by unfold AllDigits; decide))
      (by decide) (.present 'p' [] ['4'] false (by decide) .absent (by decide) (by unfold AllDigits; decide)), by decide, by decide, by decide⟩

example : parse " 0x1.8p4 k".toList = .ok 24576 ∧ parse "1e3".toList = .ok 1000 ∧ parse "25e-1K".toList = .ok 2560 ∧
    parse "-0x10".toList = .ok (-16) ∧ parse "1e".toList = .ok (-1) := by
  decide +kernel

end Verif.HumanSize
