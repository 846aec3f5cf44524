import Verif.Xxh.Model128

/-!
# Hashing in pieces: helper lemmas (C111)

Both interfaces are shown to absorb the same stripes of 64 bytes one after the other (`absorbN`), however the input is cut into pieces.
-/

namespace Verif.Xxh3

theorem rd64_take {m : Bytes} {i n : Nat} (h : i + 8 ≤ n) : rd64 (m.take n) i = rd64 m i := by
  unfold rd64
  rw [List.length_take, List.drop_take, List.take_take, Nat.min_eq_left (by omega : 8 ≤ n - i)]
  by_cases hm : i + 8 ≤ m.length
  · rw [if_pos hm, if_pos (by omega)]
  · rw [if_neg hm, if_neg (by omega)]

theorem rd64_ok {m : Bytes} {i : Nat} (h : i + 8 ≤ m.length) : ∃ v, rd64 m i = .ok v := ⟨_, if_pos h⟩

theorem secret_length : secret.length = 192 := by decide +kernel

theorem foldlM_congr {α β : Type} {f g : β → α → Res β} (l : List α) : ∀ (b : β), (∀ x ∈ l, ∀ b, f b x = g b x) → l.foldlM f b = l.foldlM g b := by
  induction l with
  | nil => intros; rfl
  | cons a l ih =>
    intro b h
    rw [List.foldlM_cons, List.foldlM_cons, h a List.mem_cons_self]
    congr 1
    funext b'
    exact ih b' (fun x hx => h x (List.mem_cons_of_mem _ hx))

theorem foldlM_ok {α β : Type} {f : β → α → Res β} (l : List α) : ∀ (b : β), (∀ x ∈ l, ∀ b, ∃ b', f b x = .ok b') → ∃ b', l.foldlM f b = .ok b' := by
  induction l with
  | nil => intro b _; exact ⟨b, rfl⟩
  | cons a l ih =>
    intro b h
    obtain ⟨b1, h1⟩ := h a List.mem_cons_self b
    rw [List.foldlM_cons, h1]
    exact ih b1 (fun x hx => h x (List.mem_cons_of_mem _ hx))

/-- Only the first 64 bytes matter. -/
theorem accumulate512_take (acc : Acc) (m : Bytes) (s n : Nat) (h : 64 ≤ n) : accumulate512 acc (m.take n) s = accumulate512 acc m s := by
  refine foldlM_congr _ _ fun k hk acc => ?_
  have hk := List.mem_range.1 hk
  unfold scalarRound
  rw [rd64_take (by omega)]

theorem accumulate512_ok (acc : Acc) {m : Bytes} {s : Nat} (hm : 64 ≤ m.length) (hs : s + 64 ≤ 192) : ∃ acc', accumulate512 acc m s = .ok acc' := by
  refine foldlM_ok _ _ fun k hk acc => ?_
  have hk := List.mem_range.1 hk
  unfold scalarRound
  obtain ⟨v, hv⟩ := rd64_ok (m := m) (i := 8 * k) (by omega)
  obtain ⟨c, hc⟩ := rd64_ok (m := secret) (i := s + 8 * k) (by rw [secret_length]; omega)
  rw [hv, hc]
  exact ⟨_, rfl⟩

theorem scramble_ok (acc : Acc) : ∃ acc', scramble acc 128 = .ok acc' := by
  refine foldlM_ok _ _ fun k hk acc => ?_
  have hk := List.mem_range.1 hk
  unfold scrambleRound
  obtain ⟨c, hc⟩ := rd64_ok (m := secret) (i := 128 + 8 * k) (by rw [secret_length]; omega)
  rw [hc]
  exact ⟨_, rfl⟩

/-- One stripe: after the sixteenth of a block the accumulators are scrambled. -/
def absorb (p : Acc × Nat) (m : Bytes) : Res (Acc × Nat) := do
  let acc ← accumulate512 p.1 m (8 * p.2)
  if p.2 + 1 = 16 then do
    let acc ← scramble acc 128
    .ok (acc, 0)
  else .ok (acc, p.2 + 1)

/-- The first `n` stripes of `m`. -/
def absorbN : Nat → Acc × Nat → Bytes → Res (Acc × Nat)
  | 0, p, _ => .ok p
  | n + 1, p, m => do
    let p ← absorb p m
    absorbN n p (m.drop 64)

theorem absorb_take (p : Acc × Nat) (m : Bytes) (n : Nat) (h : 64 ≤ n) : absorb p (m.take n) = absorb p m := by
  unfold absorb
  rw [accumulate512_take _ _ _ _ h]

theorem absorbN_take (n : Nat) : ∀ (p : Acc × Nat) (m : Bytes) (k : Nat), 64 * n ≤ k → absorbN n p (m.take k) = absorbN n p m := by
  induction n with
  | zero => intros; rfl
  | succ n ih =>
    intro p m k h
    rw [absorbN, absorbN, absorb_take _ _ _ (by omega), List.drop_take]
    congr 1
    funext p'
    exact ih p' _ _ (by omega)

theorem absorbN_congr {n : Nat} {p : Acc × Nat} {m m' : Bytes} (h : m.take (64 * n) = m'.take (64 * n)) : absorbN n p m = absorbN n p m' := by
  rw [← absorbN_take n p m _ (Nat.le_refl _), h, absorbN_take n p m' _ (Nat.le_refl _)]

theorem absorb_ok {p : Acc × Nat} {m : Bytes} (hp : p.2 < 16) (hm : 64 ≤ m.length) : ∃ p', absorb p m = .ok p' ∧ p'.2 < 16 := by
  unfold absorb
  obtain ⟨a, ha⟩ := accumulate512_ok p.1 hm (s := 8 * p.2) (by omega)
  rw [ha, Res.ok_bind]
  split
  · obtain ⟨b, hb⟩ := scramble_ok a
    rw [hb]
    exact ⟨_, rfl, Nat.zero_lt_succ 15⟩
  · exact ⟨_, rfl, by simp only; omega⟩

theorem absorbN_ok {n : Nat} : ∀ {p : Acc × Nat} {m : Bytes}, p.2 < 16 → 64 * n ≤ m.length → ∃ p', absorbN n p m = .ok p' ∧ p'.2 < 16 := by
  induction n with
  | zero => intro p m hp _; exact ⟨p, rfl, hp⟩
  | succ n ih =>
    intro p m hp hm
    obtain ⟨p1, h1, h2⟩ := absorb_ok (m := m) hp (by omega)
    rw [absorbN, h1, Res.ok_bind]
    exact ih h2 (by rw [List.length_drop]; omega)

theorem absorbN_add (a b : Nat) : ∀ (p : Acc × Nat) (m : Bytes), absorbN (a + b) p m = (do let p ← absorbN a p m; absorbN b p (m.drop (64 * a))) := by
  induction a with
  | zero => intro p m; rw [Nat.zero_add]; rfl
  | succ a ih =>
    intro p m
    rw [Nat.add_right_comm, absorbN, absorbN]
    cases h : absorb p m with
    | ok p' =>
      rw [Res.ok_bind, Res.ok_bind, ih, List.drop_drop, Nat.mul_add, Nat.add_comm 64]
    | ub => simp only [Res.ub_bind]
    | div => simp only [Res.div_bind]

/-- Inside a block. -/
theorem absorbN_inside (n : Nat) : ∀ {k : Nat} (acc : Acc) (m : Bytes), k + n < 16 →
    absorbN n (acc, k) m = (do let acc ← accumulate n acc m (8 * k); .ok (acc, k + n)) := by
  induction n with
  | zero => intros; rfl
  | succ n ih =>
    intro k acc m h
    rw [absorbN, accumulate, absorb]
    cases accumulate512 acc m (8 * k) with
    | ok a =>
      simp only [Res.ok_bind]
      rw [if_neg (by omega), Res.ok_bind, ih _ _ (by omega), Nat.mul_add, Nat.mul_one, Nat.add_assoc k 1 n, Nat.add_comm 1 n]
    | ub => simp only [Res.ub_bind]
    | div => simp only [Res.div_bind]

/-- To the end of a block. -/
theorem absorbN_block (n : Nat) : ∀ {k : Nat} (acc : Acc) (m : Bytes), k + (n + 1) = 16 →
    absorbN (n + 1) (acc, k) m = (do let acc ← accumulate (n + 1) acc m (8 * k); let acc ← scramble acc 128; .ok (acc, 0)) := by
  intro k acc m h
  induction n generalizing k acc m with
  | zero =>
    rw [absorbN, accumulate, absorb]
    cases accumulate512 acc m (8 * k) with
    | ok a =>
      simp only [Res.ok_bind]
      rw [if_pos (by omega), accumulate, Res.ok_bind]
      cases scramble a 128 <;> rfl
    | ub => simp only [Res.ub_bind]
    | div => simp only [Res.div_bind]
  | succ n ih =>
    rw [absorbN, accumulate, absorb]
    cases accumulate512 acc m (8 * k) with
    | ok a =>
      simp only [Res.ok_bind]
      rw [if_neg (by omega), Res.ok_bind, ih _ _ (by omega), Nat.mul_add]
    | ub => simp only [Res.ub_bind]
    | div => simp only [Res.div_bind]

theorem consumeLoop_spec (fuel : Nat) : ∀ (acc : Acc) (m : Bytes) (k nb : Nat), k < 16 → 16 - k ≤ nb → nb < fuel →
    (do let (acc, m, nb) ← consumeLoop fuel acc m (8 * k) (16 - k) nb
        if 0 < nb then do
          let acc ← accumulate nb acc m 0
          .ok (acc, nb)
        else .ok (acc, 0)) = absorbN nb (acc, k) m := by
  induction fuel with
  | zero => intro acc m k nb _ _ h; omega
  | succ fuel ih =>
    intro acc m k nb hk hn hf
    obtain ⟨j, hj⟩ : ∃ j, 16 - k = j + 1 := ⟨15 - k, by omega⟩
    rw [hj]
    have hnb : nb = (j + 1) + (nb - (j + 1)) := by omega
    rw [show absorbN nb (acc, k) m = _ from by rw [hnb, absorbN_add, absorbN_block j acc m (by omega)]]
    rw [consumeLoop]
    cases accumulate (j + 1) acc m (8 * k) with
    | ub => simp only [Res.ub_bind]
    | div => simp only [Res.div_bind]
    | ok a =>
      simp only [Res.ok_bind]
      cases scramble a 128 with
      | ub => simp only [Res.ub_bind]
      | div => simp only [Res.div_bind]
      | ok b =>
        simp only [Res.ok_bind]
        by_cases h16 : 16 ≤ nb - (j + 1)
        · rw [if_pos h16]
          have := ih b (m.drop (64 * (j + 1))) 0 (nb - (j + 1)) (by omega) (by omega) (by omega)
          simpa using this
        · rw [if_neg h16]
          simp only [Res.ok_bind]
          rw [absorbN_inside _ b _ (by omega)]
          simp only [Nat.mul_zero, Nat.zero_add]
          by_cases h0 : 0 < nb - (j + 1)
          · rw [if_pos h0]
          · rw [if_neg h0]
            have : nb - (j + 1) = 0 := by omega
            rw [this]; rfl

theorem consume_spec (acc : Acc) (m : Bytes) {k : Nat} (nb : Nat) (hk : k < 16) : consume acc k m nb = absorbN nb (acc, k) m := by
  unfold consume
  by_cases h : 16 - k ≤ nb
  · rw [if_pos h]
    exact consumeLoop_spec (nb + 1) acc m k nb hk h (by omega)
  · rw [if_neg h, absorbN_inside _ acc m (by omega)]
    by_cases h0 : 0 < nb
    · rw [if_pos h0]
    · rw [if_neg h0]
      have : nb = 0 := by omega
      rw [this]; rfl

theorem blocks_spec (n : Nat) : ∀ (acc : Acc) (m : Bytes), absorbN (16 * n) (acc, 0) m = (do let acc ← blocks n acc m; .ok (acc, 0)) := by
  induction n with
  | zero => intros; rfl
  | succ n ih =>
    intro acc m
    rw [Nat.mul_add, Nat.add_comm, absorbN_add, blocks, absorbN_block 15 acc m rfl]
    cases accumulate 16 acc m 0 with
    | ub => simp only [Res.ub_bind]
    | div => simp only [Res.div_bind]
    | ok a =>
      simp only [Res.ok_bind]
      cases scramble a 128 with
      | ub => simp only [Res.ub_bind]
      | div => simp only [Res.div_bind]
      | ok b =>
        simp only [Res.ok_bind]
        exact ih b _

/-- The loop over a long input, in one call. -/
theorem longLoop_spec (m : Bytes) : longLoop m = (do let p ← absorbN ((m.length - 1) / 64) (initAcc, 0) m; accumulate512 p.1 (m.drop (m.length - 64)) 121) := by
  unfold longLoop
  dsimp only
  generalize hN : (m.length - 1) / 1024 = N
  have e : (m.length - 1) / 64 = 16 * N + (m.length - 1 - 1024 * N) / 64 := by omega
  rw [e, absorbN_add, blocks_spec]
  cases blocks N initAcc m with
  | ub => simp only [Res.ub_bind]
  | div => simp only [Res.div_bind]
  | ok a =>
    simp only [Res.ok_bind]
    rw [absorbN_inside _ a _ (by omega), show 64 * (16 * N) = N * 1024 by omega]
    cases accumulate ((m.length - 1 - 1024 * N) / 64) a (m.drop (N * 1024)) (8 * 0) with
    | ub => simp only [Res.ub_bind]
    | div => simp only [Res.div_bind]
    | ok b => rfl

/-! ## The state after some bytes -/

/-- After `xs`, with `c` stripes absorbed and the rest in the buffer. -/
structure Holds (xs : Bytes) (c : Nat) (st : State) : Prop where
  acc : absorbN c (initAcc, 0) xs = .ok (st.acc, st.soFar)
  soFar : st.soFar < 16
  le : 64 * c ≤ xs.length
  some : c = 0 ∨ 4 ≤ c ∧ 64 * c < xs.length
  buffered : st.buffered = xs.length - 64 * c
  room : st.buffered ≤ 256
  size : st.buffer.length = 256
  rest : st.buffer.take st.buffered = xs.drop (64 * c)
  last : 0 < c → st.buffered ≤ 192 → st.buffer.drop 192 = (xs.drop (64 * c - 64)).take 64
  total : st.total = xs.length % 2 ^ 64

theorem holds_reset {junk : Bytes} (h : junk.length = 256) : Holds [] 0 (reset junk) :=
  ⟨rfl, Nat.zero_lt_succ 15, Nat.le_refl _, .inl rfl, rfl, Nat.zero_le _, h, by simp [reset], fun h => absurd h (Nat.lt_irrefl 0), rfl⟩

/-- Between the parts of an update: the buffer is empty, `pre` is absorbed. -/
structure Between (pre : Bytes) (c : Nat) (st : State) : Prop where
  acc : absorbN c (initAcc, 0) pre = .ok (st.acc, st.soFar)
  soFar : st.soFar < 16
  len : pre.length = 64 * c
  four : c = 0 ∨ 4 ≤ c
  size : st.buffer.length = 256
  last : 0 < c → st.buffer.drop 192 = pre.drop (64 * c - 64)

/-- Absorbing goes on where it stopped. -/
theorem absorbN_append {c n : Nat} {pre rest : Bytes} {p : Acc × Nat} (h : absorbN c (initAcc, 0) pre = .ok p) (hl : pre.length = 64 * c) :
    absorbN (c + n) (initAcc, 0) (pre ++ rest) = absorbN n p rest := by
  have e : absorbN c (initAcc, 0) (pre ++ rest) = .ok p := by
    rw [← h]
    exact absorbN_congr (by rw [← hl, List.take_left, List.take_length])
  rw [absorbN_add, e, Res.ok_bind, ← hl, List.drop_left]

theorem absorbN_mono {c : Nat} {xs ys : Bytes} (h : 64 * c ≤ xs.length) : absorbN c (initAcc, 0) (xs ++ ys) = absorbN c (initAcc, 0) xs :=
  absorbN_congr (by rw [List.take_append_of_le_length h])

theorem drop_past {a b : Bytes} {k : Nat} (h : a.length ≤ k) : (a ++ b).drop k = b.drop (k - a.length) := by
  rw [List.drop_append, List.drop_eq_nil_of_le h, List.nil_append]

theorem blit_ok {buf src : Bytes} {off : Nat} (h : off + src.length ≤ buf.length) : blit buf off src = .ok (buf.take off ++ src ++ buf.drop (off + src.length)) := if_pos h

theorem blit_length {buf src : Bytes} {off : Nat} (h : off + src.length ≤ buf.length) : (buf.take off ++ src ++ buf.drop (off + src.length)).length = buf.length := by
  simp only [List.length_append, List.length_take, List.length_drop]; omega

/-- A write that ends before `k` leaves what is behind `k`. -/
theorem blit_behind {buf src : Bytes} {off k : Nat} (h : off + src.length ≤ k) (hk : k ≤ buf.length) : (buf.take off ++ src ++ buf.drop (off + src.length)).drop k = buf.drop k := by
  have e : (buf.take off ++ src).length = off + src.length := by
    simp only [List.length_append, List.length_take]; omega
  rw [List.drop_append, List.drop_eq_nil_of_le (by omega), e, List.nil_append, List.drop_drop]
  congr 1; omega

/-- Draining. -/
theorem drain_spec {xs input : Bytes} {c : Nat} {st : State} (h : Holds xs c st) (hi : 256 - st.buffered < input.length) (t : Nat) :
    ∃ st' rest pre c', drain { st with total := t } input = .ok (st', rest) ∧ Between pre c' st' ∧ pre ++ rest = xs ++ input ∧ rest ≠ [] ∧ st'.total = t := by
  unfold drain
  have hb := h.buffered
  have hr := h.room
  have hs := h.size
  by_cases h0 : st.buffered ≠ 0
  · simp only [if_pos h0]
    have hlen : (input.take (256 - st.buffered)).length = 256 - st.buffered := by
      rw [List.length_take]; omega
    rw [blit_ok (by rw [hlen, hs]; omega), Res.ok_bind, hlen]
    have hd : st.buffer.drop (st.buffered + (256 - st.buffered)) = [] := List.drop_eq_nil_of_le (by omega)
    rw [hd, List.append_nil, h.rest]
    generalize hbuf : xs.drop (64 * c) ++ input.take (256 - st.buffered) = buf
    have hbl : buf.length = 256 := by
      rw [← hbuf, List.length_append, hlen, List.length_drop]; omega
    rw [consume_spec _ _ _ h.soFar]
    obtain ⟨p, hp, hp2⟩ := absorbN_ok (n := 4) (p := (st.acc, st.soFar)) (m := buf) h.soFar (by omega)
    rw [hp]
    have hsplit : xs.take (64 * c) ++ buf = xs ++ input.take (256 - st.buffered) := by
      rw [← hbuf, ← List.append_assoc, List.take_append_drop]
    have hl1 : (xs.take (64 * c)).length = 64 * c := by
      rw [List.length_take]; have := h.le; omega
    refine ⟨_, _, xs.take (64 * c) ++ buf, c + 4, rfl, ⟨?_, hp2, ?_, .inr (by omega), hbl, ?_⟩, ?_, ?_, rfl⟩
    · rw [absorbN_append (p := (st.acc, st.soFar)) _ hl1, hp]
      rw [absorbN_take _ _ _ _ (Nat.le_refl _), h.acc]
    · rw [List.length_append, hl1, hbl]; omega
    · intro _
      show buf.drop 192 = _
      rw [drop_past (by rw [hl1]; omega), hl1]
      congr 1; omega
    · rw [hsplit, List.append_assoc, List.take_append_drop]
    · intro e
      have := congrArg List.length e
      rw [List.length_drop, List.length_nil] at this
      omega
  · have h0' : st.buffered = 0 := by omega
    simp only [if_neg h0]
    have hc : c = 0 := by rcases h.some with hc | hc <;> omega
    subst hc
    have hx : xs = [] := List.eq_nil_of_length_eq_zero (by omega)
    subst hx
    refine ⟨_, _, [], 0, rfl, ⟨h.acc, h.soFar, rfl, .inl rfl, hs, fun h => absurd h (Nat.lt_irrefl 0)⟩, rfl, ?_, rfl⟩
    intro e
    rw [e, List.length_nil] at hi
    omega

/-- The bulk of an update. -/
theorem bulk_spec {pre rest : Bytes} {c : Nat} {st : State} (h : Between pre c st) (hr : rest ≠ []) :
    ∃ st' rest' pre' c', bulk st rest = .ok (st', rest') ∧ Between pre' c' st' ∧ pre' ++ rest' = pre ++ rest ∧ rest' ≠ [] ∧ rest'.length ≤ 256 ∧ st'.total = st.total := by
  unfold bulk
  by_cases hl : 256 < rest.length
  · rw [if_pos hl]
    dsimp only
    generalize hn : (rest.length - 1) / 64 = nb
    rw [consume_spec _ _ _ h.soFar]
    obtain ⟨p, hp, hp2⟩ := absorbN_ok (n := nb) (p := (st.acc, st.soFar)) (m := rest) h.soFar (by omega)
    have hl2 : ((rest.drop (64 * nb - 64)).take 64).length = 64 := by
      rw [List.length_take, List.length_drop]; omega
    rw [hp, Res.ok_bind, blit_ok (by rw [hl2, h.size]; omega), hl2, Res.ok_bind]
    have hd : st.buffer.drop (256 - 64 + 64) = [] := List.drop_eq_nil_of_le (by have := h.size; omega)
    rw [hd, List.append_nil]
    have ht : (st.buffer.take (256 - 64)).length = 192 := by rw [List.length_take, h.size]; rfl
    refine ⟨_, _, pre ++ rest.take (64 * nb), c + nb, rfl, ⟨?_, hp2, ?_, .inr (by omega), ?_, ?_⟩, ?_, ?_, ?_, rfl⟩
    · rw [absorbN_append h.acc h.len, absorbN_take _ _ _ _ (Nat.le_refl _), hp]
    · rw [List.length_append, h.len, List.length_take]; omega
    · rw [List.length_append, ht, hl2]
    · intro _
      show ((st.buffer.take (256 - 64)) ++ _).drop 192 = _
      rw [drop_past (by rw [ht]; exact Nat.le_refl _), ht, Nat.sub_self, List.drop_zero, drop_past (by rw [h.len]; omega), h.len, List.drop_take]
      rw [show 64 * (c + nb) - 64 - 64 * c = 64 * nb - 64 by omega, show 64 * nb - (64 * nb - 64) = 64 by omega]
    · rw [List.append_assoc, List.take_append_drop]
    · intro e
      have := congrArg List.length e
      rw [List.length_drop, List.length_nil] at this
      omega
    · rw [List.length_drop]; omega
  · rw [if_neg hl]
    exact ⟨_, _, pre, c, rfl, h, rfl, hr, by omega, rfl⟩

/-- Giving more bytes. -/
theorem update_holds {xs : Bytes} {c : Nat} {st : State} (h : Holds xs c st) (input : Bytes) :
    ∃ st' c', update st input = .ok st' ∧ Holds (xs ++ input) c' st' := by
  have hb := h.buffered
  have hr := h.room
  have hs := h.size
  have hle := h.le
  have htot : (st.total + input.length) % 2 ^ 64 = (xs ++ input).length % 2 ^ 64 := by
    rw [h.total, List.length_append]; omega
  unfold update
  dsimp only
  by_cases hi : input.length ≤ 256 - st.buffered
  · rw [if_pos hi, blit_ok (by omega), Res.ok_bind]
    refine ⟨_, c, rfl, ?_, h.soFar, ?_, ?_, ?_, ?_, ?_, ?_, ?_, htot⟩
    · rw [absorbN_mono hle, h.acc]
    · rw [List.length_append]; omega
    · rw [List.length_append]; rcases h.some with hc | hc <;> omega
    · simp only [List.length_append]; omega
    · simp only; omega
    · rw [blit_length (by omega), hs]
    · simp only
      have e : (st.buffer.take st.buffered ++ input).length = st.buffered + input.length := by
        simp only [List.length_append, List.length_take]; omega
      rw [← e, List.take_left, h.rest, List.drop_append_of_le_length hle]
    · intro hc hb'
      simp only at hb' ⊢
      rw [blit_behind hb' (by omega), h.last hc (by omega), List.drop_append_of_le_length (by omega), List.take_append_of_le_length (by rw [List.length_drop]; omega)]
  · rw [if_neg hi]
    obtain ⟨st1, rest, pre, c1, e1, b1, hx1, hne1, ht1⟩ := drain_spec h (input := input) (by omega) ((st.total + input.length) % 2 ^ 64)
    rw [e1, Res.ok_bind]
    simp only
    obtain ⟨st2, rest2, pre2, c2, e2, b2, hx2, hne2, hl2, ht2⟩ := bulk_spec b1 hne1
    rw [e2, Res.ok_bind]
    simp only
    rw [blit_ok (by rw [b2.size]; omega), Res.ok_bind]
    have hpos : 0 < rest2.length := List.length_pos_iff.2 hne2
    have hlen := b2.len
    have h4 := b2.four
    rw [← hx1, ← hx2]
    refine ⟨_, c2, rfl, ?_, b2.soFar, ?_, ?_, ?_, hl2, ?_, ?_, ?_, ?_⟩
    · rw [absorbN_mono (by omega), b2.acc]
    · rw [List.length_append]; omega
    · rw [List.length_append]; omega
    · simp only [List.length_append]; omega
    · rw [blit_length (by rw [b2.size]; omega), b2.size]
    · simp only [List.take_zero, List.nil_append, Nat.zero_add]
      rw [List.take_left, ← hlen, List.drop_left]
    · intro hc hb'
      simp only at hb' ⊢
      rw [blit_behind (by omega) (by rw [b2.size]; omega), b2.last hc, List.drop_append_of_le_length (by omega), List.take_append_of_le_length (by rw [List.length_drop]; omega)]
      rw [List.take_of_length_le (by rw [List.length_drop]; omega)]
    · simp only
      rw [ht2, ht1, htot, hx2, hx1]

/-- `XXH3_128bits_update` for each piece in turn. -/
def updates (st : State) (pieces : List Bytes) : Res State := pieces.foldlM update st

theorem updates_holds (pieces : List Bytes) : ∀ {xs : Bytes} {c : Nat} {st : State}, Holds xs c st →
    ∃ st' c', updates st pieces = .ok st' ∧ Holds (xs ++ pieces.flatten) c' st' := by
  induction pieces with
  | nil => intro xs c st h; exact ⟨st, c, rfl, by rw [List.flatten_nil, List.append_nil]; exact h⟩
  | cons p ps ih =>
    intro xs c st h
    obtain ⟨st1, c1, e1, h1⟩ := update_holds h p
    obtain ⟨st2, c2, e2, h2⟩ := ih h1
    refine ⟨st2, c2, ?_, by rw [List.flatten_cons, ← List.append_assoc]; exact h2⟩
    unfold updates
    rw [List.foldlM_cons, e1, Res.ok_bind]
    exact e2

/-- The digest of the state. -/
theorem digest_holds {xs : Bytes} {c : Nat} {st : State} (h : Holds xs c st) (hx : xs.length < 2 ^ 64) : digest st = xxh128 xs := by
  have hb := h.buffered
  have hr := h.room
  have hs := h.size
  have hle := h.le
  have ht : st.total = xs.length := by rw [h.total]; omega
  unfold digest
  by_cases hl : 240 < xs.length
  · rw [ht, if_pos hl]
    have e : xxh128 xs = hashLong xs := by
      unfold xxh128
      rw [if_neg (by omega), if_neg (by omega), if_neg (by omega)]
    rw [e, hashLong, longLoop_spec]
    congr 1
    unfold digestLong
    generalize hN : (xs.length - 1) / 64 = N
    have hcN : c ≤ N := by rcases h.some with hc | hc <;> omega
    obtain ⟨d, hd⟩ := Nat.exists_eq_add_of_le hcN
    rw [hd, absorbN_add, h.acc, Res.ok_bind]
    by_cases h64 : 64 ≤ st.buffered
    · rw [if_pos h64, consume_spec _ _ _ h.soFar, h.rest, show (st.buffered - 1) / 64 = d by omega]
      rw [List.drop_drop, show 64 * c + (st.buffered - 64) = xs.length - 64 by omega]
    · rw [if_neg h64]
      dsimp only
      have hd0 : d = 0 := by omega
      subst hd0
      rw [absorbN, Res.ok_bind]
      rw [h.rest]
      have hcp : 0 < c := by omega
      congr 1
      have hl1 := h.last hcp (by omega)
      have e1 : st.buffer.drop (256 - (64 - st.buffered)) = (st.buffer.drop 192).drop st.buffered := by
        rw [List.drop_drop]; congr 1; omega
      rw [e1, hl1, List.drop_take, List.drop_drop, List.take_take, Nat.min_self]
      have e2 : 64 * c - 64 + st.buffered = xs.length - 64 := by omega
      rw [e2]
      have e3 : xs.drop (64 * c) = (xs.drop (xs.length - 64)).drop (64 - st.buffered) := by
        rw [List.drop_drop]; congr 1; omega
      rw [e3, List.take_append_drop]
  · rw [ht, if_neg hl]
    have hc : c = 0 := by rcases h.some with hc | hc <;> omega
    subst hc
    have := h.rest
    rw [hb, Nat.mul_zero, Nat.sub_zero, List.drop_zero] at this
    rw [this]

end Verif.Xxh3
