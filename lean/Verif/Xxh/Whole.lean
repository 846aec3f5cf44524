import Verif.Xxh.Stream

/-!
# The digest is defined for all inputs: helper lemmas (C111)
-/

namespace Verif.Xxh3

theorem bindOk {α β : Type} {x : Res α} {f : α → Res β} (hx : ∃ v, x = .ok v) (hf : ∀ v, ∃ w, f v = .ok w) : ∃ w, (x >>= f) = .ok w := by
  obtain ⟨v, rfl⟩ := hx
  exact hf v

theorem rd32_ok {m : Bytes} {i : Nat} (h : i + 4 ≤ m.length) : ∃ v, rd32 m i = .ok v := ⟨_, if_pos h⟩

theorem rd8_ok {m : Bytes} {i : Nat} (h : i < m.length) : ∃ v, rd8 m i = .ok v := by
  unfold rd8
  rw [List.getElem?_eq_getElem h]
  exact ⟨_, rfl⟩

theorem sec64 {i : Nat} (h : i + 8 ≤ 192) : ∃ v, rd64 secret i = .ok v := rd64_ok (by rw [secret_length]; exact h)

theorem sec32 {i : Nat} (h : i + 4 ≤ 192) : ∃ v, rd32 secret i = .ok v := rd32_ok (by rw [secret_length]; exact h)

theorem mix16_ok {m : Bytes} {i s : Nat} (hi : i + 16 ≤ m.length) (hs : s + 16 ≤ 192) : ∃ v, mix16 m i s = .ok v :=
  bindOk (rd64_ok (by omega)) fun _ => bindOk (rd64_ok (by omega)) fun _ => bindOk (sec64 (by omega)) fun _ => bindOk (sec64 (by omega)) fun _ => ⟨_, rfl⟩

theorem mix32_ok (acc : Hash128) {m : Bytes} {i j s : Nat} (hi : i + 16 ≤ m.length) (hj : j + 16 ≤ m.length) (hs : s + 32 ≤ 192) : ∃ v, mix32 acc m i j s = .ok v :=
  bindOk (mix16_ok hi (by omega)) fun _ => bindOk (rd64_ok (by omega)) fun _ => bindOk (rd64_ok (by omega)) fun _ => bindOk (mix16_ok hj (by omega)) fun _ =>
    bindOk (rd64_ok (by omega)) fun _ => bindOk (rd64_ok (by omega)) fun _ => ⟨_, rfl⟩

theorem len0to16_ok {m : Bytes} (h : m.length ≤ 16) : ∃ v, len0to16 m = .ok v := by
  unfold len0to16
  split
  · unfold len9to16
    exact bindOk (sec64 (by omega)) fun _ => bindOk (sec64 (by omega)) fun _ => bindOk (sec64 (by omega)) fun _ => bindOk (sec64 (by omega)) fun _ =>
      bindOk (rd64_ok (by omega)) fun _ => bindOk (rd64_ok (by omega)) fun _ => ⟨_, rfl⟩
  · split
    · unfold len4to8
      exact bindOk (rd32_ok (by omega)) fun _ => bindOk (rd32_ok (by omega)) fun _ => bindOk (sec64 (by omega)) fun _ => bindOk (sec64 (by omega)) fun _ => ⟨_, rfl⟩
    · split
      · unfold len1to3
        refine bindOk (rd8_ok (by omega)) fun _ => bindOk (rd8_ok ?_) fun _ => bindOk (rd8_ok (by omega)) fun _ => ?_
        · rw [Nat.shiftRight_eq_div_pow]; omega
        · exact bindOk (sec32 (by omega)) fun _ => bindOk (sec32 (by omega)) fun _ => bindOk (sec32 (by omega)) fun _ => bindOk (sec32 (by omega)) fun _ => ⟨_, rfl⟩
      · exact bindOk (sec64 (by omega)) fun _ => bindOk (sec64 (by omega)) fun _ => bindOk (sec64 (by omega)) fun _ => bindOk (sec64 (by omega)) fun _ => ⟨_, rfl⟩

theorem len17to128_ok {m : Bytes} (h : 16 < m.length) (h' : m.length ≤ 128) : ∃ v, len17to128 m = .ok v := by
  unfold len17to128
  dsimp only
  repeat' (first | rw [Res.ok_bind] | split | (refine bindOk (mix32_ok _ ?_ ?_ ?_) fun _ => ?_))
  all_goals first | omega | exact ⟨_, rfl⟩

theorem mid_ok {m : Bytes} (k : Nat) : ∀ {i : Nat} (acc : Hash128), 160 ≤ i → i + 32 * k ≤ m.length + 32 → m.length ≤ 240 → ∃ v, mid m k i acc = .ok v := by
  induction k with
  | zero => intros; exact ⟨_, rfl⟩
  | succ k ih =>
    intro i acc hi hk hm
    unfold mid
    exact bindOk (mix32_ok _ (by omega) (by omega) (by omega)) fun _ => ih _ (by omega) (by omega) hm

theorem len129to240_ok {m : Bytes} (h : 128 < m.length) (h' : m.length ≤ 240) : ∃ v, len129to240 m = .ok v := by
  unfold len129to240
  exact bindOk (mix32_ok _ (by omega) (by omega) (by omega)) fun _ => bindOk (mix32_ok _ (by omega) (by omega) (by omega)) fun _ =>
    bindOk (mix32_ok _ (by omega) (by omega) (by omega)) fun _ => bindOk (mix32_ok _ (by omega) (by omega) (by omega)) fun _ =>
    bindOk (mid_ok _ _ (by omega) (by omega) h') fun _ => bindOk (mix32_ok _ (by omega) (by omega) (by omega)) fun _ => ⟨_, rfl⟩

theorem mergeAccs_ok (acc : Acc) {s : Nat} (start : D) (hs : s + 64 ≤ 192) : ∃ v, mergeAccs acc s start = .ok v := by
  refine bindOk (foldlM_ok _ _ fun i hi r => ?_) fun _ => ⟨_, rfl⟩
  have hi := List.mem_range.1 hi
  exact bindOk (bindOk (sec64 (by omega)) fun _ => bindOk (sec64 (by omega)) fun _ => ⟨_, rfl⟩) fun _ => ⟨_, rfl⟩

theorem finishLong_ok (acc : Acc) (n : Nat) : ∃ v, finishLong acc n = .ok v :=
  bindOk (mergeAccs_ok _ _ (by omega)) fun _ => bindOk (mergeAccs_ok _ _ (by omega)) fun _ => ⟨_, rfl⟩

theorem hashLong_ok {m : Bytes} (h : 240 < m.length) : ∃ v, hashLong m = .ok v := by
  unfold hashLong
  rw [longLoop_spec]
  refine bindOk (bindOk ?_ fun p => accumulate512_ok _ (by rw [List.length_drop]; omega) (by omega)) fun _ => finishLong_ok _ _
  obtain ⟨p, hp, _⟩ := absorbN_ok (n := (m.length - 1) / 64) (p := (initAcc, 0)) (m := m) (Nat.zero_lt_succ 15) (by omega)
  exact ⟨p, hp⟩

theorem xxh128_ok (m : Bytes) : ∃ v, xxh128 m = .ok v := by
  unfold xxh128
  split
  · exact len0to16_ok ‹_›
  · split
    · exact len17to128_ok (by omega) ‹_›
    · split
      · exact len129to240_ok (by omega) ‹_›
      · exact hashLong_ok (by omega)

/-- The digest of some bytes, as a function without other outcomes. -/
def hash (m : Bytes) : Hash128 := match xxh128 m with
  | .ok h => h
  | _ => ⟨0, 0⟩

theorem xxh128_hash (m : Bytes) : xxh128 m = .ok (hash m) := by
  obtain ⟨v, hv⟩ := xxh128_ok m
  rw [hash, hv]

end Verif.Xxh3
