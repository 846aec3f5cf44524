import Verif.Xxh.Whole

/-!
# The digest of a short input can be undone: helper lemmas (C112)
-/

namespace Verif.Xxh3

/-! ## The steps -/

/-- A number is known from its exclusive or with itself shifted: from the highest bit downwards. -/
theorem xorshift_inj {k : Nat} (hk : 0 < k) {x y : D} (e : xorshift x k = xorshift y k) : x = y := by
  have key : ∀ n i, 64 ≤ i + n → x.getLsbD i = y.getLsbD i := by
    intro n
    induction n with
    | zero => intro i hi; rw [BitVec.getLsbD_of_ge _ _ (by omega), BitVec.getLsbD_of_ge _ _ (by omega)]
    | succ n ih =>
      intro i hi
      have h := congrArg (fun z => BitVec.getLsbD z i) e
      simp only [xorshift, BitVec.getLsbD_xor, BitVec.getLsbD_ushiftRight] at h
      rw [ih (k + i) (by omega)] at h
      cases hx : x.getLsbD i <;> cases hy : y.getLsbD i <;> cases hz : y.getLsbD (k + i) <;> simp_all
  exact BitVec.eq_of_getLsbD_eq (fun i hi => key 64 i (by omega))

theorem mul_inj {n : Nat} {p q : BitVec n} (h : p * q = 1#n) {x y : BitVec n} (e : x * p = y * p) : x = y := by
  have : x * p * q = y * p * q := by rw [e]
  rwa [BitVec.mul_assoc, BitVec.mul_assoc, h, BitVec.mul_one, BitVec.mul_one] at this

theorem add_right_inj {n : Nat} {a x y : BitVec n} (e : a + x = a + y) : x = y := by
  have : -a + (a + x) = -a + (a + y) := by rw [e]
  rwa [← BitVec.add_assoc, ← BitVec.add_assoc, BitVec.add_left_neg, BitVec.zero_add, BitVec.zero_add] at this

theorem add_left_inj {n : Nat} {a x y : BitVec n} (e : x + a = y + a) : x = y := by
  rw [BitVec.add_comm x, BitVec.add_comm y] at e; exact add_right_inj e

theorem xor_inj {n : Nat} {a x y : BitVec n} (e : x ^^^ a = y ^^^ a) : x = y := by
  have : x ^^^ a ^^^ a = y ^^^ a ^^^ a := by rw [e]
  rwa [BitVec.xor_assoc, BitVec.xor_assoc, BitVec.xor_self, BitVec.xor_zero, BitVec.xor_zero] at this

theorem q1_inv : q1 * 0x887493432badb37#64 = 1#64 := by decide
theorem q2_inv : q2 * 0xba79078168d4baf#64 = 1#64 := by decide
theorem q3_inv : q3 * 0xe9e9f4c41d6df849#64 = 1#64 := by decide
theorem mx1_inv : mx1 * 0x8da8ee41d6df849#64 = 1#64 := by decide
theorem mx2_inv : mx2 * 0x2ab9c720d1024ad#64 = 1#64 := by decide

theorem avalanche64_inj {x y : D} (e : avalanche64 x = avalanche64 y) : x = y :=
  xorshift_inj (k := 33) (by decide) (mul_inj q2_inv (xorshift_inj (k := 29) (by decide) (mul_inj q3_inv (xorshift_inj (k := 32) (by decide) e))))

theorem avalanche3_inj {x y : D} (e : avalanche3 x = avalanche3 y) : x = y :=
  xorshift_inj (k := 37) (by decide) (mul_inj mx1_inv (xorshift_inj (k := 32) (by decide) e))

/-- The upper half of the input in a digest of 9 to 16 bytes (L6255). -/
theorem spread_inj {x y : D} (e : x + (x &&& 0xffffffff#64) * (s2 - 1) = y + (y &&& 0xffffffff#64) * (s2 - 1)) : x = y := by
  have hw : ∀ x : D, (x + (x &&& 0xffffffff#64) * (s2 - 1)).setWidth 32 = x.setWidth 32 * 0x85EBCA77#32 := by
    intro x
    have hm : (x &&& 0xffffffff#64).setWidth 32 = x.setWidth 32 := by
      rw [BitVec.setWidth_and, show (0xffffffff#64).setWidth 32 = BitVec.allOnes 32 by decide, BitVec.and_allOnes]
    rw [BitVec.setWidth_add _ _ (by decide), BitVec.setWidth_mul _ _ (by decide), hm, show (s2 - 1).setWidth 32 = 0x85EBCA76#32 by decide]
    have : (0x85EBCA77#32 : BitVec 32) = 1#32 + 0x85EBCA76#32 := by decide
    rw [this, BitVec.mul_add, BitVec.mul_one]
  have e32 : x.setWidth 32 = y.setWidth 32 := by
    refine mul_inj (p := 0x85EBCA77#32) (q := 0xb6c92f47#32) (by decide) ?_
    rw [← hw, ← hw, e]
  have em : x &&& 0xffffffff#64 = y &&& 0xffffffff#64 := by
    apply BitVec.eq_of_getLsbD_eq
    intro i hi
    have hb : ∀ j : Nat, j < 64 → (0xffffffff#64).getLsbD j = decide (j < 32) := by decide
    rw [BitVec.getLsbD_and, BitVec.getLsbD_and, hb i hi]
    by_cases h : i < 32
    · have h2 := congrArg (fun z => BitVec.getLsbD z i) e32
      simp only [BitVec.getLsbD_setWidth, h, decide_true, Bool.true_and] at h2
      rw [h2]
    · simp [h]
  rw [em] at e
  exact add_left_inj e

/-! ## The reads -/

theorem leNat_lt (m : Bytes) : leNat m < 256 ^ m.length := by
  induction m with
  | nil => decide
  | cons a m ih =>
    have := a.toNat_lt
    rw [leNat, List.length_cons, Nat.pow_succ]
    omega

theorem leNat_inj : ∀ {a b : Bytes}, a.length = b.length → leNat a = leNat b → a = b := by
  intro a
  induction a with
  | nil => intro b h _; exact (List.eq_nil_of_length_eq_zero h.symm).symm
  | cons x a ih =>
    intro b h e
    cases b with
    | nil => simp at h
    | cons y b =>
      have hx := x.toNat_lt
      have hy := y.toNat_lt
      simp only [leNat] at e
      rw [ih (by simpa using h) (by omega), UInt8.toNat_inj.1 (by omega : x.toNat = y.toNat)]

/-- The value read by `XXH_readLE64`. -/
def word64 (m : Bytes) (i : Nat) : D := BitVec.ofNat 64 (leNat ((m.drop i).take 8))

def word32 (m : Bytes) (i : Nat) : D := BitVec.ofNat 64 (leNat ((m.drop i).take 4))

theorem rd64_word {m : Bytes} {i : Nat} (h : i + 8 ≤ m.length) : rd64 m i = .ok (word64 m i) := if_pos h

theorem rd32_word {m : Bytes} {i : Nat} (h : i + 4 ≤ m.length) : rd32 m i = .ok (word32 m i) := if_pos h

theorem word64_inj {m m' : Bytes} {i j : Nat} (h : i + 8 ≤ m.length) (h' : j + 8 ≤ m'.length) (e : word64 m i = word64 m' j) : (m.drop i).take 8 = (m'.drop j).take 8 := by
  have l1 : ((m.drop i).take 8).length = 8 := by rw [List.length_take, List.length_drop]; omega
  have l2 : ((m'.drop j).take 8).length = 8 := by rw [List.length_take, List.length_drop]; omega
  have b1 := leNat_lt ((m.drop i).take 8)
  have b2 := leNat_lt ((m'.drop j).take 8)
  rw [l1] at b1; rw [l2] at b2
  have e := congrArg BitVec.toNat e
  rw [word64, word64, BitVec.toNat_ofNat, BitVec.toNat_ofNat] at e
  exact leNat_inj (by rw [l1, l2]) (by omega)

theorem word32_lt {m : Bytes} {i : Nat} (h : i + 4 ≤ m.length) : (word32 m i).toNat = leNat ((m.drop i).take 4) ∧ (word32 m i).toNat < 2 ^ 32 := by
  have l1 : ((m.drop i).take 4).length = 4 := by rw [List.length_take, List.length_drop]; omega
  have b1 := leNat_lt ((m.drop i).take 4)
  rw [l1] at b1
  rw [word32, BitVec.toNat_ofNat]
  omega

/-- Two parts that cover a list. -/
theorem of_parts {a b : Bytes} {n : Nat} (hl : a.length = b.length) (hn : a.length ≤ 2 * n) (h1 : a.take n = b.take n) (h2 : a.drop (a.length - n) = b.drop (a.length - n)) : a = b := by
  have h3 : a.drop n = b.drop n := by
    by_cases hc : n ≤ a.length
    · have : ∀ c : Bytes, c.length = a.length → c.drop n = (c.drop (a.length - n)).drop (n - (a.length - n)) := by
        intro c _; rw [List.drop_drop]; congr 1; omega
      rw [this a rfl, this b hl.symm, h2]
    · rw [List.drop_eq_nil_of_le (by omega), List.drop_eq_nil_of_le (by omega)]
  rw [← List.take_append_drop n a, h1, h3, List.take_append_drop]

/-! ## The kinds of length -/

theorem len9to16_inj {a b : Bytes} (hl : a.length = b.length) (h : 8 < a.length) (h' : a.length ≤ 16) (e : len9to16 a = len9to16 b) : a = b := by
  obtain ⟨k1, e1⟩ := sec64 (i := 32) (by decide)
  obtain ⟨k2, e2⟩ := sec64 (i := 40) (by decide)
  obtain ⟨k3, e3⟩ := sec64 (i := 48) (by decide)
  obtain ⟨k4, e4⟩ := sec64 (i := 56) (by decide)
  unfold len9to16 at e
  simp only [e1, e2, e3, e4, Res.ok_bind, rd64_word (m := a) (i := 0) (by omega), rd64_word (m := a) (i := a.length - 8) (by omega),
    rd64_word (m := b) (i := 0) (by omega), rd64_word (m := b) (i := b.length - 8) (by omega)] at e
  rw [← hl] at e
  have hh := Hash128.mk.inj (Res.ok.inj e)
  have hp := mul_inj q2_inv (avalanche3_inj hh.1)
  have hq := avalanche3_inj hh.2
  rw [hp] at hq
  have hph := mul_inj q2_inv (add_right_inj hq)
  rw [hph] at hp
  have hx := mul_inj q1_inv (add_left_inj (xor_inj hp))
  rw [hx] at hph
  have hhi := xor_inj (spread_inj (add_right_inj hph))
  rw [hhi] at hx
  have hlo := xor_inj (xor_inj hx)
  refine of_parts hl (n := 8) (by omega) (word64_inj (i := 0) (j := 0) (by omega) (by omega) hlo) ?_
  have := word64_inj (by omega) (by omega) hhi
  rwa [List.take_of_length_le (by rw [List.length_drop]; omega), List.take_of_length_le (by rw [List.length_drop]; omega)] at this

theorem odd_inv {n : Nat} (h : 4 ≤ n) (h' : n ≤ 8) : ∃ q, (q1 + (BitVec.ofNat 64 n <<< 2)) * q = 1#64 := by
  have : n = 4 ∨ n = 5 ∨ n = 6 ∨ n = 7 ∨ n = 8 := by omega
  rcases this with rfl | rfl | rfl | rfl | rfl
  · exact ⟨0xc58fc94211b05527#64, by decide⟩
  · exact ⟨0xf3655c2b3b120b93#64, by decide⟩
  · exact ⟨0x4a353fc06e6cd15f#64, by decide⟩
  · exact ⟨0x72a86f8ff240390b#64, by decide⟩
  · exact ⟨0x6261c8662f213d17#64, by decide⟩

theorem len4to8_inj {a b : Bytes} (hl : a.length = b.length) (h : 4 ≤ a.length) (h' : a.length ≤ 8) (e : len4to8 a = len4to8 b) : a = b := by
  obtain ⟨k1, e1⟩ := sec64 (i := 16) (by decide)
  obtain ⟨k2, e2⟩ := sec64 (i := 24) (by decide)
  unfold len4to8 at e
  simp only [e1, e2, Res.ok_bind, rd32_word (m := a) (i := 0) (by omega), rd32_word (m := a) (i := a.length - 4) (by omega),
    rd32_word (m := b) (i := 0) (by omega), rd32_word (m := b) (i := b.length - 4) (by omega)] at e
  rw [← hl] at e
  have hh := Hash128.mk.inj (Res.ok.inj e)
  have hph := avalanche3_inj hh.2
  have hp := xorshift_inj (by decide) (mul_inj mx2_inv (xorshift_inj (by decide) hh.1))
  rw [hph] at hp
  obtain ⟨q, hq⟩ := odd_inv h h'
  have hk := xor_inj (mul_inj hq (xor_inj hp))
  have ha0 := word32_lt (m := a) (i := 0) (by omega)
  have hb0 := word32_lt (m := b) (i := 0) (by omega)
  have ha1 := word32_lt (m := a) (i := a.length - 4) (by omega)
  have hb1 := word32_lt (m := b) (i := a.length - 4) (by omega)
  have hk := congrArg BitVec.toNat hk
  rw [BitVec.toNat_add, BitVec.toNat_add, BitVec.toNat_shiftLeft, BitVec.toNat_shiftLeft, Nat.shiftLeft_eq, Nat.shiftLeft_eq] at hk
  have l : ∀ (c : Bytes) (i : Nat), i + 4 ≤ c.length → ((c.drop i).take 4).length = 4 := by
    intro c i hc; rw [List.length_take, List.length_drop]; omega
  have w0 := leNat_inj (a := (a.drop 0).take 4) (b := (b.drop 0).take 4) (by rw [l _ _ (by omega), l _ _ (by omega)]) (by omega)
  have w1 := leNat_inj (a := (a.drop (a.length - 4)).take 4) (b := (b.drop (a.length - 4)).take 4) (by rw [l _ _ (by omega), l _ _ (by omega)]) (by omega)
  refine of_parts hl (n := 4) (by omega) w0 ?_
  rwa [List.take_of_length_le (by rw [List.length_drop]; omega), List.take_of_length_le (by rw [List.length_drop]; omega)] at w1

/-- The three bytes in a word. -/
theorem packed {a b c a' b' c' : UInt8} {n : D}
    (e : (BitVec.ofNat 64 a.toNat <<< 16) ||| (BitVec.ofNat 64 b.toNat <<< 24) ||| BitVec.ofNat 64 c.toNat ||| (n <<< 8) =
      (BitVec.ofNat 64 a'.toNat <<< 16) ||| (BitVec.ofNat 64 b'.toNat <<< 24) ||| BitVec.ofNat 64 c'.toNat ||| (n <<< 8)) (hn : n.toNat < 4) : a = a' ∧ b = b' ∧ c = c' := by
  have bit : ∀ (x : UInt8) (i : Nat), (BitVec.ofNat 64 x.toNat).getLsbD i = x.toBitVec.getLsbD i := by
    intro x i
    rw [BitVec.getLsbD_ofNat]
    by_cases hi : i < 64
    · simp [hi]; rfl
    · rw [BitVec.getLsbD_of_ge _ _ (by omega)]; simp [hi]
  have hn8 : ∀ i, 8 ≤ i → n.getLsbD i = false := by
    intro i hi
    rw [BitVec.getLsbD, Nat.testBit_lt_two_pow (Nat.lt_of_lt_of_le hn (Nat.le_trans (by decide : 4 ≤ 2 ^ 8) (Nat.pow_le_pow_right (by decide) hi)))]
  have high : ∀ (x : UInt8) (i : Nat), 8 ≤ i → x.toBitVec.getLsbD i = false := fun x i hi => BitVec.getLsbD_of_ge _ _ hi
  have e' := fun i => congrArg (fun z => BitVec.getLsbD z i) e
  simp only [BitVec.getLsbD_or, BitVec.getLsbD_shiftLeft, bit] at e'
  have ext : ∀ {x y : UInt8}, (∀ i, i < 8 → x.toBitVec.getLsbD i = y.toBitVec.getLsbD i) → x = y := fun h => UInt8.toBitVec_inj.1 (BitVec.eq_of_getLsbD_eq h)
  refine ⟨ext fun i hi => ?_, ext fun i hi => ?_, ext fun i hi => ?_⟩
  · have := e' (16 + i)
    simpa [hi, show ¬ 16 + i < 16 by omega, show 16 + i < 64 by omega, show 16 + i < 24 by omega, high _ (16 + i) (by omega), hn8 (16 + i - 8) (by omega)] using this
  · have := e' (24 + i)
    simpa [hi, show ¬ 24 + i < 24 by omega, show 24 + i < 64 by omega, high _ (24 + i - 16) (by omega), high _ (24 + i) (by omega), hn8 (24 + i - 8) (by omega)] using this
  · have := e' i
    simpa [hi, show i < 16 by omega, show i < 24 by omega] using this

theorem rd8_get {m : Bytes} {i : Nat} (h : i < m.length) : rd8 m i = .ok (BitVec.ofNat 64 m[i].toNat) := by
  unfold rd8
  rw [List.getElem?_eq_getElem h]

theorem len1to3_inj {a b : Bytes} (hl : a.length = b.length) (h : a.length ≠ 0) (h' : a.length ≤ 3) (e : len1to3 a = len1to3 b) : a = b := by
  obtain ⟨k1, e1⟩ := sec32 (i := 0) (by decide)
  obtain ⟨k2, e2⟩ := sec32 (i := 4) (by decide)
  obtain ⟨k3, e3⟩ := sec32 (i := 8) (by decide)
  obtain ⟨k4, e4⟩ := sec32 (i := 12) (by decide)
  unfold len1to3 at e
  have hs : a.length >>> 1 < a.length := by rw [Nat.shiftRight_eq_div_pow]; omega
  rw [← hl] at e
  simp only [e1, e2, e3, e4, Res.ok_bind, rd8_get (m := a) (i := 0) (by omega), rd8_get (m := a) (i := a.length - 1) (by omega), rd8_get (m := a) hs,
    rd8_get (m := b) (i := 0) (by omega), rd8_get (m := b) (i := a.length - 1) (by omega), rd8_get (m := b) (i := a.length >>> 1) (by omega)] at e
  have hh := Hash128.mk.inj (Res.ok.inj e)
  obtain ⟨h0, h1, h2⟩ := packed (xor_inj (avalanche64_inj hh.1)) (by rw [BitVec.toNat_ofNat]; omega)
  clear e hh
  refine List.ext_getElem hl fun i hi hi' => ?_
  rw [Nat.shiftRight_eq_div_pow] at hs
  simp only [Nat.shiftRight_eq_div_pow] at h1
  have : i = 0 ∨ i = a.length / 2 ^ 1 ∨ i = a.length - 1 := by omega
  rcases this with hi0 | hi1 | hi2
  · simp only [hi0]; exact h0
  · simp only [hi1]; exact h1
  · simp only [hi2]; exact h2

theorem len0to16_inj {a b : Bytes} (hl : a.length = b.length) (h : a.length ≤ 16) (e : len0to16 a = len0to16 b) : a = b := by
  unfold len0to16 at e
  rw [← hl] at e
  by_cases h8 : 8 < a.length
  · rw [if_pos h8, if_pos h8] at e; exact len9to16_inj hl h8 h e
  · rw [if_neg h8, if_neg h8] at e
    by_cases h4 : 4 ≤ a.length
    · rw [if_pos h4, if_pos h4] at e; exact len4to8_inj hl h4 (by omega) e
    · rw [if_neg h4, if_neg h4] at e
      by_cases h0 : a.length ≠ 0
      · rw [if_pos h0, if_pos h0] at e; exact len1to3_inj hl h0 (by omega) e
      · rw [List.eq_nil_of_length_eq_zero (l := a) (by omega), List.eq_nil_of_length_eq_zero (l := b) (by omega)]

end Verif.Xxh3
