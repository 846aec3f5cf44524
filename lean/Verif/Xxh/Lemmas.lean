import Verif.Xxh.Model

/-! # Each step of XXH32 can be undone -/

namespace Verif.Xxh

theorem rotl_rotl {r : Nat} (h0 : 0 < r) (h : r < 32) (x : W) : rotl (rotl x r) (32 - r) = x := by
  apply BitVec.eq_of_getLsbD_eq
  intro i hi
  unfold rotl
  rw [show 32 - (32 - r) = r by omega]
  simp only [BitVec.getLsbD_or, BitVec.getLsbD_shiftLeft, BitVec.getLsbD_ushiftRight]
  by_cases hc : i < 32 - r
  · have e1 : decide (r + i < 32) = true := by simp; omega
    have e2 : decide (r + i < r) = false := by simp
    have e3 : x.getLsbD (32 - r + (r + i)) = false := BitVec.getLsbD_of_ge _ _ (by omega)
    simp [hc, e1, e3]
  · have e0 : decide (i < 32 - r) = false := by simp; omega
    have e1 : decide (r + i < 32) = false := by simp; omega
    have e2 : decide (i - (32 - r) < r) = true := by simp; omega
    have e3 : decide (i - (32 - r) < 32) = true := by simp; omega
    have e5 : 32 - r + (i - (32 - r)) = i := by omega
    have e6 : x.getLsbD (32 - r + (r + i)) = false := BitVec.getLsbD_of_ge _ _ (by omega)
    simp only [e0, e1, e2, e3, e5, e6, hi, decide_true, Bool.not_true, Bool.not_false, Bool.true_and, Bool.false_and, Bool.false_or, Bool.or_false, Bool.and_false]

theorem rotl_inj {r : Nat} (h0 : 0 < r) (h : r < 32) {x y : W} (e : rotl x r = rotl y r) : x = y := by
  rw [← rotl_rotl h0 h x, e, rotl_rotl h0 h]

theorem mul_inj {p q : W} (h : p * q = 1#32) {x y : W} (e : x * p = y * p) : x = y := by
  have : x * p * q = y * p * q := by rw [e]
  rwa [BitVec.mul_assoc, BitVec.mul_assoc, h, BitVec.mul_one, BitVec.mul_one] at this

/-- The inverses of the odd constants. -/
def q1 : W := 0x0E8B2F51#32
def q2 : W := 0xB6C92F47#32
def q3 : W := 0xA89ED915#32
def q4 : W := 0xA0FE3BCF#32
def q5 : W := 0xAE398151#32

theorem p1q1 : p1 * q1 = 1#32 := by decide
theorem p2q2 : p2 * q2 = 1#32 := by decide
theorem p3q3 : p3 * q3 = 1#32 := by decide
theorem p4q4 : p4 * q4 = 1#32 := by decide
theorem p5q5 : p5 * q5 = 1#32 := by decide

/-- A number is known from its exclusive or with itself shifted: from the highest bit downwards. -/
theorem xorshift_inj {k : Nat} (hk : 0 < k) {x y : W} (e : x ^^^ (x >>> k) = y ^^^ (y >>> k)) : x = y := by
  have key : ∀ n i, 32 ≤ i + n → x.getLsbD i = y.getLsbD i := by
    intro n
    induction n with
    | zero => intro i hi; rw [BitVec.getLsbD_of_ge _ _ (by omega), BitVec.getLsbD_of_ge _ _ (by omega)]
    | succ n ih =>
      intro i hi
      have h := congrArg (fun z => BitVec.getLsbD z i) e
      simp only [BitVec.getLsbD_xor, BitVec.getLsbD_ushiftRight] at h
      rw [ih (k + i) (by omega)] at h
      cases hx : x.getLsbD i <;> cases hy : y.getLsbD i <;> cases hz : y.getLsbD (k + i) <;> simp_all
  exact BitVec.eq_of_getLsbD_eq (fun i hi => key 32 i (by omega))

theorem avalanche_inj {x y : W} (e : avalanche x = avalanche y) : x = y :=
  xorshift_inj (k := 15) (by decide) (mul_inj p2q2 (xorshift_inj (k := 13) (by decide) (mul_inj p3q3 (xorshift_inj (k := 16) (by decide) e))))

theorem add_right_inj {a x y : W} (e : a + x = a + y) : x = y := by
  have : -a + (a + x) = -a + (a + y) := by rw [e]
  rwa [← BitVec.add_assoc, ← BitVec.add_assoc, BitVec.add_left_neg, BitVec.zero_add, BitVec.zero_add] at this

theorem add_left_inj {a x y : W} (e : x + a = y + a) : x = y := by
  rw [BitVec.add_comm x, BitVec.add_comm y] at e; exact add_right_inj e

/-- For a given state the word is known from the next state. -/
theorem process4_word {h w w' : W} (e : process4 h w = process4 h w') : w = w' :=
  mul_inj p3q3 (add_right_inj (rotl_inj (by decide) (by decide) (mul_inj p4q4 e)))

/-- For a given word the state is known from the next state. -/
theorem process4_state {h h' w : W} (e : process4 h w = process4 h' w) : h = h' :=
  add_left_inj (rotl_inj (by decide) (by decide) (mul_inj p4q4 e))

/-- The word that leads from a state to another. -/
def solve (h target : W) : W := (rotl (target * q4) 15 - h) * q3

theorem process4_solve (h target : W) : process4 h (solve h target) = target := by
  unfold process4 solve
  rw [BitVec.mul_assoc, show q3 * p3 = 1#32 by decide, BitVec.mul_one]
  have : h + (rotl (target * q4) 15 - h) = rotl (target * q4) 15 := by
    rw [BitVec.add_comm, BitVec.sub_add_cancel]
  rw [this]
  have := rotl_rotl (r := 15) (by decide) (by decide) (target * q4)
  rw [show 32 - 15 = 17 from rfl] at this
  rw [this, BitVec.mul_assoc, show q4 * p4 = 1#32 by decide, BitVec.mul_one]

/-- Four bytes of a number are a word. -/
theorem word_bytes (x : Nat) : word (UInt8.ofNat (x % 256)) (UInt8.ofNat (x / 256 % 256)) (UInt8.ofNat (x / 256 / 256 % 256)) (UInt8.ofNat (x / 256 / 256 / 256 % 256)) =
    BitVec.ofNat 32 x := by
  unfold word
  apply BitVec.eq_of_toNat_eq
  simp only [BitVec.toNat_ofNat, UInt8.toNat_ofNat']
  omega

theorem hash4 (x : Nat) (seed : W) : xxh32 (bytes 4 x) seed = avalanche (process4 (seed + p5 + 4#32) (BitVec.ofNat 32 x)) := by
  have : bytes 4 x = [UInt8.ofNat (x % 256), UInt8.ofNat (x / 256 % 256), UInt8.ofNat (x / 256 / 256 % 256), UInt8.ofNat (x / 256 / 256 / 256 % 256)] := rfl
  rw [this, xxh32, if_neg (by simp), tail, tail, word_bytes]
  rfl

theorem hash8 (x : Nat) (seed : W) : xxh32 (bytes 8 x) seed =
    avalanche (process4 (process4 (seed + p5 + 8#32) (BitVec.ofNat 32 x)) (BitVec.ofNat 32 (x / 2 ^ 32))) := by
  have : bytes 8 x = [UInt8.ofNat (x % 256), UInt8.ofNat (x / 256 % 256), UInt8.ofNat (x / 256 / 256 % 256), UInt8.ofNat (x / 256 / 256 / 256 % 256),
      UInt8.ofNat (x / 256 / 256 / 256 / 256 % 256), UInt8.ofNat (x / 256 / 256 / 256 / 256 / 256 % 256),
      UInt8.ofNat (x / 256 / 256 / 256 / 256 / 256 / 256 % 256), UInt8.ofNat (x / 256 / 256 / 256 / 256 / 256 / 256 / 256 % 256)] := rfl
  rw [this, xxh32, if_neg (by simp), tail, tail, tail, word_bytes, word_bytes]
  have : x / 256 / 256 / 256 / 256 = x / 2 ^ 32 := by omega
  rw [this]
  rfl

end Verif.Xxh
