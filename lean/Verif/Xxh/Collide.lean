import Verif.Xxh.Inj

/-!
# Inputs with the same digest: helper lemmas (C112)
-/

namespace Verif.Xxh3

/-- A number as `n` bytes in memory, the lowest first. -/
def leBytes : Nat → Nat → Bytes
  | 0, _ => []
  | n + 1, x => UInt8.ofNat x :: leBytes n (x / 256)

theorem leBytes_length (n : Nat) : ∀ x, (leBytes n x).length = n := by
  induction n with
  | zero => intro; rfl
  | succ n ih => intro x; rw [leBytes, List.length_cons, ih]

theorem leNat_leBytes (n : Nat) : ∀ x, leNat (leBytes n x) = x % 256 ^ n := by
  induction n with
  | zero => intro x; rw [Nat.pow_zero, Nat.mod_one]; rfl
  | succ n ih =>
    intro x
    rw [leBytes, leNat, ih, Nat.pow_succ, Nat.mul_comm (256 ^ n), Nat.mod_mul, UInt8.toNat_ofNat']

/-- Eight bytes. -/
def le64 (x : D) : Bytes := leBytes 8 x.toNat

theorem le64_length (x : D) : (le64 x).length = 8 := leBytes_length 8 _

theorem word_le64 (x : D) : BitVec.ofNat 64 (leNat (le64 x)) = x := by
  apply BitVec.eq_of_toNat_eq
  have := x.isLt
  rw [le64, leNat_leBytes, BitVec.toNat_ofNat]
  omega

theorem rd64_le64 {m a r : Bytes} {x : D} {i : Nat} (hm : m = a ++ (le64 x ++ r)) (hi : a.length = i) : rd64 m i = .ok x := by
  have hl := le64_length x
  subst hm hi
  unfold rd64
  rw [if_pos (by simp only [List.length_append]; omega), List.drop_left, ← hl, List.take_left, word_le64]

/-- Reads behind what may differ. -/
theorem rd64_drop {m m' : Bytes} {i k : Nat} (hl : m.length = m'.length) (h : m.drop k = m'.drop k) (hk : k ≤ i) : rd64 m i = rd64 m' i := by
  have : ∀ c : Bytes, c.drop i = (c.drop k).drop (i - k) := by
    intro c; rw [List.drop_drop]; congr 1; omega
  unfold rd64
  rw [hl, this m, this m', h]

/-! ## Up to 240 bytes -/

theorem fold64_zero_left (x : D) : fold64 0 x = 0 := by
  simp [fold64, mulLo, mulHi]

theorem fold64_zero_right (x : D) : fold64 x 0 = 0 := by
  simp [fold64, mulLo, mulHi]

/-- Two inputs that a round cannot tell apart. -/
structure Alike (m m' : Bytes) : Prop where
  len : m.length = m'.length
  rest : m.drop 16 = m'.drop 16
  mix : mix16 m 0 0 = mix16 m' 0 0
  sum : ∃ a b a' b', rd64 m 0 = .ok a ∧ rd64 m 8 = .ok b ∧ rd64 m' 0 = .ok a' ∧ rd64 m' 8 = .ok b' ∧ a + b = a' + b'

theorem mix16_alike {m m' : Bytes} (h : Alike m m') {i : Nat} (hi : 16 ≤ i) (s : Nat) : mix16 m i s = mix16 m' i s := by
  unfold mix16
  rw [rd64_drop h.len h.rest hi, rd64_drop h.len h.rest (by omega : 16 ≤ i + 8)]

theorem mix32_alike {m m' : Bytes} (h : Alike m m') {i j : Nat} (hi : 16 ≤ i) (hj : 16 ≤ j) (s : Nat) (acc : Hash128) : mix32 acc m i j s = mix32 acc m' i j s := by
  unfold mix32
  rw [mix16_alike h hi, mix16_alike h hj, rd64_drop h.len h.rest hi, rd64_drop h.len h.rest (by omega : 16 ≤ i + 8), rd64_drop h.len h.rest hj,
    rd64_drop h.len h.rest (by omega : 16 ≤ j + 8)]

theorem mix32_first {m m' : Bytes} (h : Alike m m') {j : Nat} (hj : 16 ≤ j) (acc : Hash128) : mix32 acc m 0 j 0 = mix32 acc m' 0 j 0 := by
  obtain ⟨a, b, a', b', e1, e2, e3, e4, es⟩ := h.sum
  unfold mix32
  rw [h.mix, mix16_alike h hj, rd64_drop h.len h.rest hj, rd64_drop h.len h.rest (by omega : 16 ≤ j + 8)]
  simp only [Nat.zero_add, e1, e2, e3, e4, Res.ok_bind, es]

theorem mid_alike {m m' : Bytes} (h : Alike m m') (k : Nat) : ∀ {i : Nat} (acc : Hash128), 160 ≤ i → mid m k i acc = mid m' k i acc := by
  induction k with
  | zero => intros; rfl
  | succ k ih =>
    intro i acc hi
    unfold mid
    rw [mix32_alike h (by omega) (by omega)]
    congr 1
    funext acc'
    exact ih acc' (by omega)

theorem len17to128_alike {m m' : Bytes} (h : Alike m m') (hn : m.length = 32 ∨ 48 ≤ m.length) : len17to128 m = len17to128 m' := by
  unfold len17to128
  rw [← h.len]
  dsimp only
  by_cases h1 : 96 < m.length
  · simp only [if_pos h1, if_pos (by omega : 64 < m.length), if_pos (by omega : 32 < m.length), mix32_first h (by omega : 16 ≤ m.length - 16),
      mix32_alike h (by omega : 16 ≤ 16) (by omega : 16 ≤ m.length - 32), mix32_alike h (by omega : 16 ≤ 32) (by omega : 16 ≤ m.length - 48),
      mix32_alike h (by omega : 16 ≤ 48) (by omega : 16 ≤ m.length - 64)]
  · by_cases h2 : 64 < m.length
    · simp only [if_neg h1, if_pos h2, if_pos (by omega : 32 < m.length), mix32_first h (by omega : 16 ≤ m.length - 16),
        mix32_alike h (by omega : 16 ≤ 16) (by omega : 16 ≤ m.length - 32), mix32_alike h (by omega : 16 ≤ 32) (by omega : 16 ≤ m.length - 48)]
    · by_cases h3 : 32 < m.length
      · simp only [if_neg h1, if_neg h2, if_pos h3, mix32_first h (by omega : 16 ≤ m.length - 16),
          mix32_alike h (by omega : 16 ≤ 16) (by omega : 16 ≤ m.length - 32)]
      · simp only [if_neg h1, if_neg h2, if_neg h3, mix32_first h (by omega : 16 ≤ m.length - 16)]

theorem len129to240_alike {m m' : Bytes} (h : Alike m m') (hn : 128 < m.length) : len129to240 m = len129to240 m' := by
  unfold len129to240
  rw [← h.len]
  simp only [mix32_first h (by omega : 16 ≤ 16), mix32_alike h (by omega : 16 ≤ 32) (by omega : 16 ≤ 48), mix32_alike h (by omega : 16 ≤ 64) (by omega : 16 ≤ 80),
    mix32_alike h (by omega : 16 ≤ 96) (by omega : 16 ≤ 112), mid_alike h _ _ (by omega : 160 ≤ 160), mix32_alike h (by omega : 16 ≤ m.length - 16) (by omega : 16 ≤ m.length - 32)]

/-- The first two words of the secret. -/
def k0 : D := 0xBE4BA423396CFEB8#64
def k1 : D := 0x1CAD21F72C81017C#64

theorem secret0 : rd64 secret 0 = .ok k0 := by decide +kernel

theorem secret8 : rd64 secret 8 = .ok k1 := by decide +kernel

theorem mix16_zero {m : Bytes} {a b : D} (ha : rd64 m 0 = .ok a) (hb : rd64 m 8 = .ok b) (h : a = k0 ∨ b = k1) : mix16 m 0 0 = .ok 0 := by
  unfold mix16
  simp only [ha, hb, secret0, secret8, Nat.zero_add, Res.ok_bind]
  rcases h with rfl | rfl
  · rw [BitVec.xor_self]; exact congrArg _ (fold64_zero_left _)
  · rw [BitVec.xor_self]; exact congrArg _ (fold64_zero_right _)

theorem first_two (x y : D) (rest : Bytes) : rd64 (le64 x ++ (le64 y ++ rest)) 0 = .ok x ∧ rd64 (le64 x ++ (le64 y ++ rest)) 8 = .ok y :=
  ⟨rd64_le64 (a := []) rfl rfl, rd64_le64 (a := le64 x) rfl (le64_length x)⟩

theorem alike_of (d : D) (rest : Bytes) : Alike (le64 (k0 + d) ++ (le64 k1 ++ rest)) (le64 k0 ++ (le64 (k1 + d) ++ rest)) := by
  obtain ⟨a1, a2⟩ := first_two (k0 + d) k1 rest
  obtain ⟨b1, b2⟩ := first_two k0 (k1 + d) rest
  refine ⟨by simp only [List.length_append, le64_length], ?_, ?_, ⟨_, _, _, _, a1, a2, b1, b2, ?_⟩⟩
  · have : ∀ x y : D, (le64 x ++ (le64 y ++ rest)).drop 16 = rest := by
      intro x y
      rw [← List.append_assoc, drop_past (by rw [List.length_append, le64_length, le64_length]; exact Nat.le_refl _), List.length_append, le64_length, le64_length]
      rfl
    rw [this, this]
  · rw [mix16_zero a1 a2 (.inr rfl), mix16_zero b1 b2 (.inl rfl)]
  · rw [BitVec.add_assoc, BitVec.add_comm d]

/-! ## More than 240 bytes -/

/-- Adding to one accumulator. -/
def addAt (acc : Acc) (i : Nat) (w : D) : Acc := acc.set i (acc.getD i 0 + w)

theorem addAt_comm (acc : Acc) (i j : Nat) (a b : D) : addAt (addAt acc i a) j b = addAt (addAt acc j b) i a := by
  unfold addAt
  by_cases h : i = j
  · subst h
    by_cases hi : i < acc.length
    · simp [List.getD_eq_getElem?_getD, List.set_set, hi, BitVec.add_assoc, BitVec.add_comm a]
    · simp [List.set_eq_of_length_le (Nat.le_of_not_lt hi)]
  · rw [List.set_comm _ _ h]
    simp [List.getD_eq_getElem?_getD, List.getElem?_set_ne h, List.getElem?_set_ne (Ne.symm h)]

theorem addAt_addAt (acc : Acc) (i : Nat) (a b : D) : addAt (addAt acc i a) i b = addAt acc i (a + b) := by
  unfold addAt
  by_cases hi : i < acc.length
  · simp [List.getD_eq_getElem?_getD, List.set_set, hi, BitVec.add_assoc]
  · simp [List.set_eq_of_length_le (Nat.le_of_not_lt hi)]

theorem addAt_zero (acc : Acc) (i : Nat) : addAt acc i 0 = acc := by
  unfold addAt
  rw [show acc.getD i 0 + 0 = acc.getD i 0 from BitVec.add_zero _]
  by_cases hi : i < acc.length
  · simp [List.getD_eq_getElem?_getD, hi]
  · rw [List.set_eq_of_length_le (Nat.le_of_not_lt hi)]

theorem scalarRound_addAt (m : Bytes) (s : Nat) (acc : Acc) (k : Nat) : scalarRound m s acc k = (do
    let v ← rd64 m (8 * k)
    let c ← rd64 secret (s + 8 * k)
    .ok (addAt (addAt acc (k ^^^ 1) v) k (((v ^^^ c) &&& 0xffffffff#64) * ((v ^^^ c) >>> 32)))) := by
  unfold scalarRound addAt
  cases rd64 m (8 * k) with
  | ub => simp only [Res.ub_bind]
  | div => simp only [Res.div_bind]
  | ok v =>
    cases rd64 secret (s + 8 * k) with
    | ub => simp only [Res.ub_bind, Res.ok_bind]
    | div => simp only [Res.div_bind, Res.ok_bind]
    | ok c => simp only [Res.ok_bind, BitVec.add_comm]

/-- An addition can be made before the rounds or after them. -/
theorem rounds_addAt (m : Bytes) (s i : Nat) (w : D) (l : List Nat) : ∀ acc : Acc,
    l.foldlM (scalarRound m s) (addAt acc i w) = (do let a ← l.foldlM (scalarRound m s) acc; .ok (addAt a i w)) := by
  induction l with
  | nil => intro acc; rfl
  | cons k l ih =>
    intro acc
    rw [List.foldlM_cons, List.foldlM_cons, scalarRound_addAt, scalarRound_addAt]
    cases rd64 m (8 * k) with
    | ub => simp only [Res.ub_bind]
    | div => simp only [Res.div_bind]
    | ok v =>
      cases rd64 secret (s + 8 * k) with
      | ub => simp only [Res.ub_bind, Res.ok_bind]
      | div => simp only [Res.div_bind, Res.ok_bind]
      | ok c =>
        simp only [Res.ok_bind]
        rw [addAt_comm _ i, addAt_comm _ i, ih]

/-- A stripe whose first word has the lower half of the secret: its upper half is only added to the second accumulator. -/
theorem stripe_free {m : Bytes} {s : Nat} {v c : D} (hv : rd64 m 0 = .ok v) (hc : rd64 secret s = .ok c) (h : (v ^^^ c) &&& 0xffffffff#64 = 0) (acc : Acc) :
    accumulate512 acc m s = (do let a ← [1, 2, 3, 4, 5, 6, 7].foldlM (scalarRound m s) acc; .ok (addAt a 1 v)) := by
  unfold accumulate512
  rw [show List.range 8 = 0 :: [1, 2, 3, 4, 5, 6, 7] from rfl, List.foldlM_cons, scalarRound_addAt]
  simp only [Nat.mul_zero, Nat.add_zero, hv, hc, Res.ok_bind, h, Nat.zero_xor]
  have : (0 : D) * (v ^^^ c) >>> 32 = 0 := BitVec.zero_mul
  rw [this, addAt_zero, rounds_addAt]

theorem low_half (k d : D) : ((k + (d <<< 32)) ^^^ k) &&& 0xffffffff#64 = 0 := by
  have h0 : (d <<< 32).setWidth 32 = 0#32 := by
    apply BitVec.eq_of_getLsbD_eq
    intro i hi
    simp [BitVec.getLsbD_setWidth, BitVec.getLsbD_shiftLeft, hi]
  have hw : (k + (d <<< 32)).setWidth 32 = k.setWidth 32 := by
    rw [BitVec.setWidth_add _ _ (by decide), h0, BitVec.add_zero]
  apply BitVec.eq_of_getLsbD_eq
  intro i hi
  have hb : ∀ j : Nat, j < 64 → (0xffffffff#64).getLsbD j = decide (j < 32) := by decide
  rw [BitVec.getLsbD_and, BitVec.getLsbD_xor, hb i hi]
  by_cases h : i < 32
  · have h2 := congrArg (fun z => BitVec.getLsbD z i) hw
    simp only [BitVec.getLsbD_setWidth, h, decide_true, Bool.true_and] at h2
    rw [h2]; simp
  · simp [h]

/-- Two long inputs whose first two stripes differ only so. -/
structure AlikeLong (m m' : Bytes) : Prop where
  len : m.length = m'.length
  long : 240 < m.length
  first : ∀ k ∈ [1, 2, 3, 4, 5, 6, 7], rd64 m (8 * k) = rd64 m' (8 * k)
  second : ∀ k ∈ [1, 2, 3, 4, 5, 6, 7], rd64 (m.drop 64) (8 * k) = rd64 (m'.drop 64) (8 * k)
  rest : m.drop 72 = m'.drop 72
  words : ∃ a b a' b', rd64 m 0 = .ok a ∧ rd64 (m.drop 64) 0 = .ok b ∧ rd64 m' 0 = .ok a' ∧ rd64 (m'.drop 64) 0 = .ok b' ∧ a + b = a' + b' ∧
    (a ^^^ k0) &&& 0xffffffff#64 = 0 ∧ (b ^^^ k1) &&& 0xffffffff#64 = 0 ∧ (a' ^^^ k0) &&& 0xffffffff#64 = 0 ∧ (b' ^^^ k1) &&& 0xffffffff#64 = 0

theorem rounds_congr {m m' : Bytes} {l : List Nat} (h : ∀ k ∈ l, rd64 m (8 * k) = rd64 m' (8 * k)) (s : Nat) (acc : Acc) :
    l.foldlM (scalarRound m s) acc = l.foldlM (scalarRound m' s) acc := by
  refine foldlM_congr _ _ fun k hk acc => ?_
  unfold scalarRound
  rw [h k hk]

theorem two_stripes {m : Bytes} {a b : D} (ha : rd64 m 0 = .ok a) (hb : rd64 (m.drop 64) 0 = .ok b) (fa : (a ^^^ k0) &&& 0xffffffff#64 = 0) (fb : (b ^^^ k1) &&& 0xffffffff#64 = 0) :
    absorbN 2 (initAcc, 0) m = (do
      let x ← [1, 2, 3, 4, 5, 6, 7].foldlM (scalarRound m 0) initAcc
      let y ← [1, 2, 3, 4, 5, 6, 7].foldlM (scalarRound (m.drop 64) 8) x
      .ok (addAt y 1 (a + b), 2)) := by
  rw [absorbN_inside 2 initAcc m (by decide)]
  simp only [accumulate, Nat.mul_zero, Nat.zero_add]
  rw [stripe_free ha secret0 fa]
  cases [1, 2, 3, 4, 5, 6, 7].foldlM (scalarRound m 0) initAcc with
  | ub => simp only [Res.ub_bind]
  | div => simp only [Res.div_bind]
  | ok x =>
    simp only [Res.ok_bind]
    rw [stripe_free hb secret8 fb, rounds_addAt]
    cases [1, 2, 3, 4, 5, 6, 7].foldlM (scalarRound (m.drop 64) 8) x with
    | ub => simp only [Res.ub_bind]
    | div => simp only [Res.div_bind]
    | ok y => simp only [Res.ok_bind, addAt_addAt]

theorem hashLong_alike {m m' : Bytes} (h : AlikeLong m m') : hashLong m = hashLong m' := by
  obtain ⟨a, b, a', b', e1, e2, e3, e4, es, f1, f2, f3, f4⟩ := h.words
  have h2 : absorbN 2 (initAcc, 0) m = absorbN 2 (initAcc, 0) m' := by
    rw [two_stripes e1 e2 f1 f2, two_stripes e3 e4 f3 f4, es, rounds_congr h.first]
    congr 1
    funext x
    rw [rounds_congr h.second]
  have hlen := h.len
  have hlong := h.long
  have hd : ∀ k, 72 ≤ k → m.drop k = m'.drop k := by
    intro k hk
    have : ∀ c : Bytes, c.drop k = (c.drop 72).drop (k - 72) := by
      intro c; rw [List.drop_drop]; congr 1; omega
    rw [this m, this m', h.rest]
  unfold hashLong
  rw [longLoop_spec, longLoop_spec, ← hlen, hd (m.length - 64) (by omega)]
  obtain ⟨n, hn⟩ : ∃ n, (m.length - 1) / 64 = 2 + n := ⟨(m.length - 1) / 64 - 2, by omega⟩
  rw [hn, absorbN_add, absorbN_add, h2, hd (64 * 2) (by decide)]

theorem alikeLong_of (d : D) {r1 r2 : Bytes} (h1 : r1.length = 56) (h2 : 168 < r2.length) :
    AlikeLong (le64 (k0 + (d <<< 32)) ++ (r1 ++ (le64 k1 ++ r2))) (le64 k0 ++ (r1 ++ (le64 (k1 + (d <<< 32)) ++ r2))) := by
  have a0 : ∀ (x : D) (r : Bytes), rd64 (le64 x ++ r) 0 = .ok x := fun x r => rd64_le64 (a := []) rfl rfl
  have d64 : ∀ (x y : D), (le64 x ++ (r1 ++ (le64 y ++ r2))).drop 64 = le64 y ++ r2 := by
    intro x y
    rw [← List.append_assoc, drop_past (by rw [List.length_append, le64_length]; omega), List.length_append, le64_length, h1]
    rfl
  have d8 : ∀ (x : D) (r : Bytes), (le64 x ++ r).drop 8 = r := by
    intro x r
    rw [drop_past (by rw [le64_length]; omega), le64_length]; rfl
  have low : ∀ x : D, (x ^^^ x) &&& 0xffffffff#64 = 0 := by intro x; rw [BitVec.xor_self]; exact BitVec.zero_and
  refine ⟨by simp only [List.length_append, le64_length], ?_, ?_, ?_, ?_, ⟨_, _, _, _, a0 _ _, by rw [d64]; exact a0 _ _, a0 _ _, by rw [d64]; exact a0 _ _, ?_, low_half _ _, low _, low _, low_half _ _⟩⟩
  · simp only [List.length_append, le64_length]; omega
  · intro k hk
    simp only [List.mem_cons, List.not_mem_nil, or_false] at hk
    have t64 : ∀ (x y : D), (le64 x ++ (r1 ++ (le64 y ++ r2))).take 64 = le64 x ++ r1 := by
      intro x y
      rw [← List.append_assoc, ← show (le64 x ++ r1).length = 64 by rw [List.length_append, le64_length, h1], List.take_left]
    rw [← rd64_take (n := 64) (by omega), t64, ← rd64_take (m := le64 k0 ++ _) (n := 64) (by omega), t64]
    exact rd64_drop (k := 8) (by simp only [List.length_append, le64_length]) (by rw [d8, d8]) (by omega)
  · intro k hk
    rw [d64, d64]
    refine rd64_drop (k := 8) (by simp only [List.length_append, le64_length]) (by rw [d8, d8]) ?_
    simp only [List.mem_cons, List.not_mem_nil, or_false] at hk
    omega
  · have : ∀ c : Bytes, c.drop 72 = (c.drop 64).drop 8 := by intro c; rw [List.drop_drop]
    rw [this, this, d64, d64, d8, d8]
  · rw [BitVec.add_assoc, BitVec.add_comm (d <<< 32)]

end Verif.Xxh3
