import Verif.Page.Search

/-!
# Pages with arbitrary contents (C116)

What is undefined on a page nothing is known about, and what is not.
-/

namespace Verif.Page

/-! ## Specification -/

/-- The slot of node `i`, the fixed part of the node it points to, and its first `n` key bytes lie in the 4096 bytes of the page.  Offsets are read from the page: the slots begin at byte 18; in a leaf a node has four
bytes before its key and the key size in the first two, in a branch ten and the key size in the last two. -/
def Inside (p : Page) (leaf : Bool) (i n : Nat) : Prop :=
  20 + 2 * i ≤ 4096 ∧
  u16 p (18 + 2 * i) + (if leaf then 4 else 10) + min n (u16 p (u16 p (18 + 2 * i) + if leaf then 0 else 8)) ≤ 4096

/-- The key of node `i` as the page has it. -/
def keyAt (p : Page) (leaf : Bool) (i : Nat) : Bytes :=
  slice p (u16 p (18 + 2 * i) + if leaf then 4 else 10) (u16 p (u16 p (18 + 2 * i) + if leaf then 0 else 8))

/-! ## Theorems -/

/-- The two bits of the flags: bit 0 marks a branch, bit 1 a leaf, whatever the others are. -/
theorem flag_bits (p : Page) : isBranch p = (u16 p 8).testBit 0 ∧ isLeaf p = (u16 p 8).testBit 1 := by
  constructor
  · unfold isBranch flags
    rw [Nat.testBit_zero, Bool.eq_iff_iff]
    simp
  · unfold isLeaf flags
    rw [Nat.testBit_succ, Nat.testBit_zero, Bool.eq_iff_iff]
    simp

/-- A comparison with node `i` is undefined exactly if the node is not inside the page as far as it is looked at; otherwise it compares the key with the bytes there. -/
theorem cmpAt_exact (p : Page) (leaf : Bool) (key : Bytes) (i : Nat) (hk : key.length < 65536) :
    (Inside p leaf i key.length → cmpAt p leaf key i = .ok (keyCompare key (keyAt p leaf i))) ∧ (¬ Inside p leaf i key.length → cmpAt p leaf key i = .ub) := by
  have hmod : key.take (key.length % 65536) = key := by rw [Nat.mod_eq_of_lt hk, List.take_length]
  unfold Inside cmpAt rdSlot chk slot nodeKs baseSize ksOff keyAt hdrSize pageSize
  rw [hmod]
  constructor
  · rintro ⟨h1, h2⟩
    rw [if_pos (by omega), Res.ok_bind, Res.ok_bind, if_pos (by cases leaf <;> simp at h2 ⊢ <;> omega), Res.ok_bind]
    dsimp only
    rw [if_pos (by cases leaf <;> simp at h2 ⊢ <;> omega), Res.ok_bind]
  · intro h
    by_cases h1 : 18 + 2 * i + 2 ≤ 4096
    · rw [if_pos h1, Res.ok_bind, Res.ok_bind]
      dsimp only
      by_cases h2 : u16 p (18 + 2 * i) + (if leaf = true then 4 else 10) ≤ 4096
      · rw [if_pos h2, Res.ok_bind, if_neg, Res.ub_bind]
        intro h3
        exact h ⟨by omega, h3⟩
      · rw [if_neg h2, Res.ub_bind]
    · rw [if_neg h1, Res.ub_bind, Res.ub_bind]

theorem searchLoop_any (p : Page) (leaf : Bool) (key : Bytes) (hk : key.length < 65536) : ∀ (n left right : Nat) (probes : List Nat), right - left = n → left ≤ right →
    (∃ r t, searchLoop p leaf key left right probes = .ok (r, probes ++ t) ∧ (∀ i ∈ t, left ≤ i ∧ i < right ∧ Inside p leaf i key.length) ∧ left ≤ r.idx ∧ r.idx ≤ right ∧
      (∀ i, r = .found i → i < right ∧ keyAt p leaf i = key)) ∨
    (searchLoop p leaf key left right probes = .ub ∧ ∃ i, left ≤ i ∧ i < right ∧ ¬ Inside p leaf i key.length) := by
  intro n
  induction n using Nat.strongRecOn with
  | _ n ih =>
    intro left right probes hn hle
    rw [searchLoop]
    by_cases h : left < right
    · rw [if_pos h]
      dsimp only
      generalize hm : left + (right - left) / 2 = mid
      by_cases hin : Inside p leaf mid key.length
      · rw [(cmpAt_exact p leaf key mid hk).1 hin]
        cases hc : keyCompare key (keyAt p leaf mid) with
        | eq =>
          refine Or.inl ⟨.found mid, [mid], rfl, ?_, ?_, ?_, ?_⟩
          · intro i hi; rw [List.mem_singleton] at hi; subst hi; exact ⟨by omega, by omega, hin⟩
          · show left ≤ mid; omega
          · show mid ≤ right; omega
          · intro i hi
            injection hi with hi
            subst hi
            exact ⟨by omega, ((keyCompare_eq _ _).mp hc).symm⟩
        | lt =>
          dsimp only
          rcases ih (mid - left) (by omega) left mid (probes ++ [mid]) rfl (by omega) with ⟨r, t, e, h1, h2, h3, h4⟩ | ⟨e, i, h1, h2, h3⟩
          · refine Or.inl ⟨r, mid :: t, by rw [e]; simp, ?_, h2, by omega, fun i hi => ⟨by have := (h4 i hi).1; omega, (h4 i hi).2⟩⟩
            intro i hi
            rcases List.mem_cons.mp hi with rfl | hi
            · exact ⟨by omega, by omega, hin⟩
            · obtain ⟨a, b, c⟩ := h1 i hi; exact ⟨a, by omega, c⟩
          · exact Or.inr ⟨e, i, h1, by omega, h3⟩
        | gt =>
          dsimp only
          rcases ih (right - (mid + 1)) (by omega) (mid + 1) right (probes ++ [mid]) rfl (by omega) with ⟨r, t, e, h1, h2, h3, h4⟩ | ⟨e, i, h1, h2, h3⟩
          · refine Or.inl ⟨r, mid :: t, by rw [e]; simp, ?_, by omega, h3, h4⟩
            intro i hi
            rcases List.mem_cons.mp hi with rfl | hi
            · exact ⟨by omega, by omega, hin⟩
            · obtain ⟨a, b, c⟩ := h1 i hi; exact ⟨by omega, b, c⟩
          · exact Or.inr ⟨e, i, by omega, h2, h3⟩
      · rw [(cmpAt_exact p leaf key mid hk).2 hin]
        exact Or.inr ⟨rfl, mid, by omega, by omega, hin⟩
    · rw [if_neg h]
      exact Or.inl ⟨.notFound left, [], by simp, by simp, Nat.le_refl _, hle, by intro i hi; cases hi⟩

/-- **C116.**  A search of any page, whatever its bytes are, ends.  If all its nodes lie inside the page as far as they are compared, it is defined, looks only at existing nodes, gives a position not beyond the last
node, and a key it says it has found is there.  It is undefined only if some node does not lie inside; and it is undefined if the one in the middle does not. -/
theorem search_any (p : Page) (key : Bytes) (hk : key.length < 65536) :
    ((numKeys p ≠ 0 ∧ isBranch p = false ∧ isLeaf p = false) ∧ search p key = .ok none ∨
     (∃ r, search p key = .ok (some r) ∧ r.idx ≤ numKeys p ∧ ∀ i, r = .found i → i < numKeys p ∧ keyAt p (!isBranch p) i = key) ∨
     search p key = .ub ∧ ∃ i, i < numKeys p ∧ ¬ Inside p (!isBranch p) i key.length) ∧
    (numKeys p ≠ 0 → (isBranch p = true ∨ isLeaf p = true) → ¬ Inside p (!isBranch p) (numKeys p / 2) key.length → search p key = .ub) := by
  have hloop : ∀ leaf, (∃ r, (do let r ← searchLoop p leaf key 0 (numKeys p) []; Res.ok ((some r).map Prod.fst)) = .ok (some r) ∧ r.idx ≤ numKeys p ∧ ∀ i, r = .found i → i < numKeys p ∧ keyAt p leaf i = key) ∨
      (do let r ← searchLoop p leaf key 0 (numKeys p) []; Res.ok ((some r).map Prod.fst)) = .ub ∧ ∃ i, i < numKeys p ∧ ¬ Inside p leaf i key.length := by
    intro leaf
    rcases searchLoop_any p leaf key hk (numKeys p) 0 (numKeys p) [] (by omega) (Nat.zero_le _) with ⟨r, t, e, -, -, h3, h4⟩ | ⟨e, i, -, h2, h3⟩
    · exact Or.inl ⟨r, by rw [e]; rfl, h3, h4⟩
    · exact Or.inr ⟨by rw [e]; rfl, i, h2, h3⟩
  have hmid : ∀ leaf, numKeys p ≠ 0 → ¬ Inside p leaf (numKeys p / 2) key.length → searchLoop p leaf key 0 (numKeys p) [] = .ub := by
    intro leaf h0 hin
    rw [searchLoop, if_pos (by omega)]
    dsimp only
    rw [show 0 + (numKeys p - 0) / 2 = numKeys p / 2 by omega, (cmpAt_exact p leaf key _ hk).2 hin]
  have hsw : ∀ leaf, (do let r ← (do let r ← searchLoop p leaf key 0 (numKeys p) []; Res.ok (some r)); Res.ok (r.map Prod.fst)) = (do let r ← searchLoop p leaf key 0 (numKeys p) []; Res.ok ((some r).map Prod.fst)) := by
    intro leaf; cases searchLoop p leaf key 0 (numKeys p) [] <;> rfl
  unfold search searchTrace
  by_cases h0 : numKeys p = 0
  · rw [if_pos h0]
    exact ⟨Or.inr (Or.inl ⟨.notFound 0, rfl, Nat.zero_le _, by intro i hi; cases hi⟩), fun h => absurd h0 h⟩
  · rw [if_neg h0]
    cases hb : isBranch p with
    | true =>
      rw [if_pos rfl, hsw]
      refine ⟨Or.inr (hloop false), fun _ _ hin => ?_⟩
      rw [hmid false h0 hin]; rfl
    | false =>
      rw [if_neg (by simp)]
      cases hlf : isLeaf p with
      | true =>
        rw [if_pos rfl, hsw]
        refine ⟨Or.inr (hloop true), fun _ _ hin => ?_⟩
        rw [hmid true h0 hin]; rfl
      | false =>
        rw [if_neg (by simp)]
        exact ⟨Or.inl ⟨⟨h0, rfl, rfl⟩, rfl⟩, fun _ h => by simp at h⟩

/-! ### Insertion -/

/-- Storing a node is undefined exactly if it does not fit between its offset and the end of the page. -/
theorem wrNode_exact (p : Page) (leaf : Bool) (o : Nat) (it : Item) :
    (o + (if leaf then 4 + it.key.length + it.val.length else 10 + it.key.length) ≤ 4096 → ∃ q, wrNode p leaf o it = .ok q) ∧
    (4096 < o + (if leaf then 4 + it.key.length + it.val.length else 10 + it.key.length) → wrNode p leaf o it = .ub) := by
  unfold wrNode chk pageSize
  cases leaf with
  | true =>
    simp only [if_true]
    constructor
    · intro h
      rw [if_pos (by omega), if_pos (by omega), if_pos (by omega)]
      exact ⟨_, rfl⟩
    · intro h
      split
      · rw [Res.ok_bind]
        split
        · rw [Res.ok_bind, if_neg (by omega)]; rfl
        · rfl
      · rfl
  | false =>
    simp only [Bool.false_eq_true, if_false]
    constructor
    · intro h
      rw [if_pos (by omega), if_pos (by omega)]
      exact ⟨_, rfl⟩
    · intro h
      split
      · rw [Res.ok_bind, if_neg (by omega)]; rfl
      · rfl

theorem wrSlot_exact (p : Page) (i v : Nat) :
    (20 + 2 * i ≤ 4096 → ∃ q, wrSlot p i v = .ok q) ∧ (4096 < 20 + 2 * i → wrSlot p i v = .ub) := by
  unfold wrSlot chk hdrSize pageSize
  constructor
  · intro h; rw [if_pos (by omega)]; exact ⟨_, rfl⟩
  · intro h; rw [if_neg (by omega)]; rfl

theorem rdSlot_exact (p : Page) (i : Nat) :
    (20 + 2 * i ≤ 4096 → rdSlot p i = .ok (u16 p (18 + 2 * i))) ∧ (4096 < 20 + 2 * i → rdSlot p i = .ub) := by
  unfold rdSlot chk slot hdrSize pageSize
  constructor
  · intro h; rw [if_pos (by omega)]; rfl
  · intro h; rw [if_neg (by omega)]; rfl

theorem shiftUp_exact (index : Nat) : ∀ (n : Nat) (p : Page),
    (n ≤ index ∨ 20 + 2 * n ≤ 4096 → ∃ q, shiftUp p index n = .ok q) ∧ (index < n → 4096 < 20 + 2 * n → shiftUp p index n = .ub) := by
  intro n
  induction n with
  | zero => exact fun p => ⟨fun _ => ⟨p, rfl⟩, fun h => absurd h (by omega)⟩
  | succ n ih =>
    intro p
    rw [shiftUp]
    constructor
    · intro h
      by_cases h0 : index < n + 1
      · rw [if_pos h0, (rdSlot_exact p n).1 (by omega), Res.ok_bind]
        obtain ⟨q, hq⟩ := (wrSlot_exact p (n + 1) (u16 p (18 + 2 * n))).1 (by omega)
        rw [hq, Res.ok_bind]
        exact (ih q).1 (Or.inr (by omega))
      · rw [if_neg h0]; exact ⟨p, rfl⟩
    · intro h0 h
      rw [if_pos h0]
      by_cases h1 : 20 + 2 * n ≤ 4096
      · rw [(rdSlot_exact p n).1 h1, Res.ok_bind, (wrSlot_exact p (n + 1) _).2 h]; rfl
      · rw [(rdSlot_exact p n).2 (by omega)]; rfl

/-- **C116.**  An insertion into any page whatever its bytes are: `APR_EINVAL` and `APR_ENOSPC` are decided by the flags and the two bounds of the free space alone, both taken modulo 65536, and leave the page as it
was; after that the insertion is undefined exactly if a slot that is written, or the node at the lowered bound, does not lie inside the page. -/
theorem insert_any (p : Page) (index : Nat) (it : Item) :
    let leaf := (u16 p 8).testBit 1
    let size := if leaf then 4 + it.key.length + it.val.length else 10 + it.key.length
    let off := (u16 p 14 + 65536 - size % 65536) % 65536
    (leaf = true ∧ it.hasData = false ∨ leaf = false ∧ (u16 p 8).testBit 0 = false → insert p index it = .ok (.inval, p)) ∧
    (¬ (leaf = true ∧ it.hasData = false ∨ leaf = false ∧ (u16 p 8).testBit 0 = false) →
      ((u16 p 14 + 65536 - u16 p 12) % 65536 < size % 65536 + 2 → insert p index it = .ok (.nospc, p)) ∧
      (size % 65536 + 2 ≤ (u16 p 14 + 65536 - u16 p 12) % 65536 →
        ((u16 p 10 ≤ index ∨ 20 + 2 * u16 p 10 ≤ 4096) ∧ 20 + 2 * index ≤ 4096 ∧ off + size ≤ 4096 → ∃ q, insert p index it = .ok (.ok, q)) ∧
        (¬ ((u16 p 10 ≤ index ∨ 20 + 2 * u16 p 10 ≤ 4096) ∧ 20 + 2 * index ≤ 4096 ∧ off + size ≤ 4096) → insert p index it = .ub))) := by
  obtain ⟨hb, hl⟩ := flag_bits p
  intro leaf size off
  have hl' : isLeaf p = leaf := hl
  have hsize : baseSize leaf + it.key.length + (if leaf then it.val.length else 0) = size := by
    show _ = if leaf then _ else _
    unfold baseSize
    cases leaf <;> simp
  unfold insert
  rw [hb, hl']
  constructor
  · rintro (⟨h1, h2⟩ | ⟨h1, h2⟩)
    · rw [h1, h2]; rfl
    · rw [h1, h2]; rfl
  · intro h
    rw [if_neg (by intro h'; simp at h'; exact h (Or.inl h')), if_neg (by intro h'; rw [Bool.and_eq_true, Bool.not_eq_true', Bool.not_eq_true'] at h'; exact h (Or.inr h'))]
    dsimp only
    rw [hsize]
    constructor
    · intro hs
      rw [if_pos (show (upper p + 65536 - lower p) % 65536 < size % 65536 + 2 from hs)]
    · intro hs
      rw [if_neg (show ¬ (upper p + 65536 - lower p) % 65536 < size % 65536 + 2 from by unfold upper lower; omega)]
      constructor
      · rintro ⟨h1, h2, h3⟩
        obtain ⟨q, hq⟩ := (shiftUp_exact index (numKeys p) p).1 h1
        obtain ⟨q2, hq2⟩ := (wrNode_exact q leaf off it).1 h3
        obtain ⟨q3, hq3⟩ := (wrSlot_exact q2 index off).1 h2
        have hq2' : wrNode q leaf ((upper p + 65536 - size % 65536) % 65536) it = .ok q2 := hq2
        have hq3' : wrSlot q2 index ((upper p + 65536 - size % 65536) % 65536) = .ok q3 := hq3
        rw [hq, Res.ok_bind, hq2', Res.ok_bind, hq3', Res.ok_bind]
        exact ⟨_, rfl⟩
      · intro hn
        by_cases h1 : numKeys p ≤ index ∨ 20 + 2 * numKeys p ≤ 4096
        · obtain ⟨q, hq⟩ := (shiftUp_exact index (numKeys p) p).1 h1
          rw [hq, Res.ok_bind]
          by_cases h3 : off + size ≤ 4096
          · obtain ⟨q2, hq2⟩ := (wrNode_exact q leaf off it).1 h3
            have hq2' : wrNode q leaf ((upper p + 65536 - size % 65536) % 65536) it = .ok q2 := hq2
            rw [hq2', Res.ok_bind, (wrSlot_exact q2 index _).2 (Nat.lt_of_not_le fun h2 => hn ⟨h1, h2, h3⟩)]
            rfl
          · have hq2 : wrNode q leaf ((upper p + 65536 - size % 65536) % 65536) it = .ub := (wrNode_exact q leaf off it).2 (Nat.lt_of_not_le h3)
            rw [hq2]; rfl
        · rw [(shiftUp_exact index (numKeys p) p).2 (by omega) (by omega)]; rfl

/-! ### Deletion -/

theorem put16_slot (p : Page) (i v : Nat) {j : Nat} (hj : j < 18) : put16 p (hdrSize + 2 * i) v j = p j := by
  exact put16_out (Or.inl (by unfold hdrSize; omega))

theorem shiftDown_exact : ∀ (n : Nat) (p : Page) (index : Nat),
    (n = 0 ∨ 20 + 2 * (index + n) ≤ 4096 → ∃ q, shiftDown p index n = .ok q ∧ ∀ j < 18, q j = p j) ∧
    (n ≠ 0 → 4096 < 20 + 2 * (index + n) → shiftDown p index n = .ub) := by
  intro n
  induction n with
  | zero => exact fun p index => ⟨fun _ => ⟨p, rfl, fun _ _ => rfl⟩, fun h => absurd rfl h⟩
  | succ n ih =>
    intro p index
    rw [shiftDown]
    constructor
    · intro h
      rw [(rdSlot_exact p (index + 1)).1 (by omega), Res.ok_bind]
      have hw : wrSlot p index (u16 p (18 + 2 * (index + 1))) = .ok (put16 p (hdrSize + 2 * index) (u16 p (18 + 2 * (index + 1)))) := by
        unfold wrSlot chk; rw [if_pos (by unfold hdrSize pageSize; omega)]; rfl
      rw [hw, Res.ok_bind]
      obtain ⟨q, hq, hu⟩ := (ih (put16 p (hdrSize + 2 * index) (u16 p (18 + 2 * (index + 1)))) (index + 1)).1 (Or.inr (by omega))
      exact ⟨q, hq, fun j hj => by rw [hu j hj, put16_slot _ _ _ hj]⟩
    · intro _ h
      by_cases h1 : 20 + 2 * (index + 1) ≤ 4096
      · rw [(rdSlot_exact p (index + 1)).1 h1, Res.ok_bind]
        obtain ⟨q, hq⟩ := (wrSlot_exact p index (u16 p (18 + 2 * (index + 1)))).1 (by omega)
        rw [hq, Res.ok_bind]
        exact (ih q (index + 1)).2 (by omega) (by omega)
      · rw [(rdSlot_exact p (index + 1)).2 (by omega)]; rfl

theorem relocate_ub (off size : Nat) : ∀ (n : Nat) (p : Page) (i : Nat), n ≠ 0 → 4096 < 18 + 2 * (i + n) → relocate p off size i n = .ub := by
  intro n
  induction n with
  | zero => exact fun _ _ h => absurd rfl h
  | succ n ih =>
    intro p i _ h
    rw [relocate]
    by_cases h1 : 20 + 2 * i ≤ 4096
    · rw [(rdSlot_exact p i).1 h1, Res.ok_bind]
      split
      · obtain ⟨q, hq⟩ := (wrSlot_exact p i ((u16 p (18 + 2 * i) + size) % 65536)).1 h1
        rw [hq, Res.ok_bind]
        exact ih q (i + 1) (by omega) (by omega)
      · exact ih p (i + 1) (by omega) (by omega)
    · rw [(rdSlot_exact p i).2 (by omega)]; rfl

theorem relocate_ok (off size : Nat) : ∀ (n : Nat) (p : Page) (i : Nat), 18 + 2 * (i + n) ≤ 4096 → ∃ q, relocate p off size i n = .ok q := by
  intro n
  induction n with
  | zero => exact fun p i _ => ⟨p, rfl⟩
  | succ n ih =>
    intro p i h
    rw [relocate, (rdSlot_exact p i).1 (by omega), Res.ok_bind]
    split
    · obtain ⟨q, hq⟩ := (wrSlot_exact p i ((u16 p (18 + 2 * i) + size) % 65536)).1 (by omega)
      rw [hq, Res.ok_bind]
      exact ih q (i + 1) (by omega)
    · exact ih p (i + 1) (by omega)

/-- The header bytes once the bytes between `upper` and a node at `off` have moved up by the size of the node: the moved bytes may cover them if `upper` is less than 12. -/
theorem moved_keys {p q : Page} {off size : Nat} (hb : ∀ j < 18, q j = p j) :
    numKeys (blit q (upper q + size) (slice q (upper q) (off - upper q))) =
      (let moved := fun j => if u16 p 14 + size ≤ j ∧ j < off + size then p (j - size) else p j
       (moved 10).toNat + 256 * (moved 11).toNat) := by
  have hup : upper q = u16 p 14 := u16_congr (hb 14 (by omega)) (hb 15 (by omega))
  have key : ∀ j, j < 18 → blit q (upper q + size) (slice q (upper q) (off - upper q)) j =
      if u16 p 14 + size ≤ j ∧ j < off + size then p (j - size) else p j := by
    intro j hj
    unfold blit
    rw [slice_length, hup]
    by_cases hc : u16 p 14 + size ≤ j ∧ j < off + size
    · rw [if_pos (by omega), if_pos hc, List.getD_eq_getElem?_getD, List.getElem?_eq_getElem (by rw [slice_length]; omega), slice_getElem]
      simp only [Option.getD_some]
      rw [← hb (j - size) (by omega)]
      congr 1; omega
    · rw [if_neg (by omega), if_neg hc, hb j hj]
  show (blit q _ _ 10).toNat + 256 * (blit q _ _ 11).toNat = _
  rw [key 10 (by omega), key 11 (by omega)]

/-- **C116.**  A deletion from any page whatever its bytes are: a position beyond the last node is refused; otherwise the deletion is undefined exactly if the slots do not lie inside the page, the fixed part of the
node does not, or the node is not the lowest one and either does not end inside the page or the bytes moved over the number of keys make the slots leave the page. -/
theorem delete_any (p : Page) (index : Nat) :
    let leaf := (u16 p 8).testBit 1
    let off := u16 p (18 + 2 * index)
    let size := (if leaf then 4 + u16 p off + u16 p (off + 2) else 10 + u16 p (off + 8)) % 65536
    let moved := fun j => if u16 p 14 + size ≤ j ∧ j < off + size then p (j - size) else p j
    let keys := (moved 10).toNat + 256 * (moved 11).toNat
    (u16 p 10 ≤ index → delete p index = .ok (.inval, p)) ∧
    (index < u16 p 10 → leaf = false → (u16 p 8).testBit 0 = false → 20 + 2 * index ≤ 4096 → delete p index = .ok (.inval, p)) ∧
    (index < u16 p 10 → leaf = true ∨ (u16 p 8).testBit 0 = true →
      (18 + 2 * u16 p 10 ≤ 4096 ∧ off + (if leaf then 4 else 10) ≤ 4096 ∧ (off ≤ u16 p 14 ∨ off + size ≤ 4096 ∧ 16 + 2 * keys ≤ 4096) → ∃ q, delete p index = .ok (.ok, q)) ∧
      (¬ (18 + 2 * u16 p 10 ≤ 4096 ∧ off + (if leaf then 4 else 10) ≤ 4096 ∧ (off ≤ u16 p 14 ∨ off + size ≤ 4096 ∧ 16 + 2 * keys ≤ 4096)) → delete p index = .ub)) := by
  obtain ⟨hb, hl⟩ := flag_bits p
  intro leaf off size moved keys
  have hl' : isLeaf p = leaf := hl
  have hnk : numKeys p = u16 p 10 := rfl
  have hsize : nodeSize p leaf off % 65536 = size := by
    show _ = (if leaf then _ else _) % 65536
    unfold nodeSize baseSize nodeKs nodeDs ksOff
    cases leaf <;> simp
  refine ⟨fun h => by unfold delete; rw [if_pos (show numKeys p ≤ index from h)], fun h h1 h2 h3 => ?_, fun h hf => ?_⟩
  · unfold delete
    rw [if_neg (by omega), (rdSlot_exact p index).1 h3, Res.ok_bind, hl', hb, h1, h2]; rfl
  · unfold delete
    rw [if_neg (show ¬ numKeys p ≤ index by omega), hl', hb]
    have hflag : ¬ (!leaf && !(u16 p 8).testBit 0) = true := by
      rcases hf with hf | hf <;> rw [hf] <;> simp
    by_cases h0 : 20 + 2 * index ≤ 4096
    · rw [(rdSlot_exact p index).1 h0, Res.ok_bind, if_neg hflag]
      dsimp only
      show (_ → ∃ q, (chk off (baseSize leaf) >>= fun _ => _) = _) ∧ (_ → (chk off (baseSize leaf) >>= fun _ => _) = _)
      by_cases h1 : off + (if leaf then 4 else 10) ≤ 4096
      · have hc : chk off (baseSize leaf) = .ok () := by unfold chk baseSize pageSize; rw [if_pos h1]
        rw [hc, Res.ok_bind]
        show (_ → ∃ q, (shiftDown p index (numKeys p - 1 - index) >>= fun q => compact q off (nodeSize p leaf off % 65536) >>= fun _ => _) = _) ∧
          (_ → (shiftDown p index (numKeys p - 1 - index) >>= fun q => compact q off (nodeSize p leaf off % 65536) >>= fun _ => _) = _)
        rw [hsize]
        by_cases h2 : 18 + 2 * u16 p 10 ≤ 4096
        · obtain ⟨q, hq, hu⟩ := (shiftDown_exact (numKeys p - 1 - index) p index).1 (by omega)
          rw [hq, Res.ok_bind]
          have hup : upper q = u16 p 14 := u16_congr (hu 14 (by omega)) (hu 15 (by omega))
          have hend : off ≤ 4096 := by omega
          by_cases h3 : off ≤ u16 p 14
          · have hcomp : compact q off size = .ok q := by unfold compact; rw [if_neg (by omega)]
            rw [hcomp, Res.ok_bind]
            exact ⟨fun _ => ⟨_, rfl⟩, fun hn => absurd ⟨h2, h1, Or.inl h3⟩ hn⟩
          · by_cases h4 : off + size ≤ 4096
            · have hcomp : compact q off size = relocate (blit q (upper q + size) (slice q (upper q) (off - upper q))) off size 0 (keys - 1) := by
                unfold compact chk pageSize
                rw [if_pos (by omega)]
                dsimp only
                rw [if_pos (by omega), Res.ok_bind, if_pos (by omega), Res.ok_bind, moved_keys hu]
              rw [hcomp]
              by_cases h5 : 16 + 2 * keys ≤ 4096
              · obtain ⟨q', hq'⟩ := relocate_ok off size (keys - 1) (blit q (upper q + size) (slice q (upper q) (off - upper q))) 0 (by omega)
                rw [hq', Res.ok_bind]
                exact ⟨fun _ => ⟨_, rfl⟩, fun hn => absurd ⟨h2, h1, Or.inr ⟨h4, h5⟩⟩ hn⟩
              · rw [relocate_ub off size (keys - 1) _ 0 (by omega) (by omega)]
                exact ⟨fun ⟨_, _, h⟩ => absurd h (by omega), fun _ => rfl⟩
            · have hcomp : compact q off size = .ub := by
                unfold compact chk pageSize
                rw [if_pos (by omega)]
                dsimp only
                rw [if_pos (by omega), Res.ok_bind, if_neg (by omega)]
                rfl
              rw [hcomp]
              exact ⟨fun ⟨_, _, h⟩ => absurd h (by omega), fun _ => rfl⟩
        · rw [(shiftDown_exact (numKeys p - 1 - index) p index).2 (by omega) (by omega)]
          exact ⟨fun ⟨h, _⟩ => absurd h h2, fun _ => rfl⟩
      · have hc : chk off (baseSize leaf) = .ub := by unfold chk baseSize pageSize; rw [if_neg h1]
        rw [hc]
        exact ⟨fun ⟨_, h, _⟩ => absurd h h1, fun _ => rfl⟩
    · rw [(rdSlot_exact p index).2 (by omega)]
      exact ⟨fun ⟨h, _⟩ => absurd h (by omega), fun _ => rfl⟩

/-! ### The first key -/

/-- The divider of a split is read from the first node of the page: this is undefined exactly if that node's key does not lie inside the page. -/
theorem firstKey_any (p : Page) (leaf : Bool) :
    (u16 p 18 + (if leaf then 4 else 10) + u16 p (u16 p 18 + if leaf then 0 else 8) ≤ 4096 → firstKey p leaf = .ok (keyAt p leaf 0)) ∧
    (4096 < u16 p 18 + (if leaf then 4 else 10) + u16 p (u16 p 18 + if leaf then 0 else 8) → firstKey p leaf = .ub) := by
  unfold firstKey
  rw [(rdSlot_exact p 0).1 (by omega), Res.ok_bind]
  show (_ → (chk (u16 p 18) _ >>= fun _ => chk (u16 p 18 + _) (u16 p (u16 p 18 + _)) >>= fun _ => _) = _) ∧
    (_ → (chk (u16 p 18) _ >>= fun _ => chk (u16 p 18 + _) (u16 p (u16 p 18 + _)) >>= fun _ => _) = _)
  generalize ho : u16 p 18 = o
  unfold chk baseSize ksOff pageSize
  constructor
  · intro h
    rw [if_pos (show o + (if leaf then 4 else 10) ≤ 4096 by omega), Res.ok_bind, if_pos h]; subst ho; rfl
  · intro h
    by_cases h1 : o + (if leaf then 4 else 10) ≤ 4096
    · rw [if_pos h1, Res.ok_bind, if_neg (Nat.not_le_of_lt h)]; rfl
    · rw [if_neg h1]; rfl

/-! ## Examples -/

/-- A leaf with three slots of which the last points beyond the page, and whose other two nodes are out of order: `b` at 100, `a` at 200. -/
def exBroken : Page :=
  let p := put16 (put16 (put16 (put16 (fun _ => 0) 8 2) 10 3) 12 24) 14 100
  let p := put16 (put16 (put16 p 18 100) 20 200) 22 4094
  let p := blit p 100 [1, 0, 0, 0, 98]
  blit p 200 [1, 0, 0, 0, 97]

/-- The node in the middle is inside the page, the last one is not: looking for `a` is defined and finds it, looking for `c` is undefined; the last node cannot be deleted, the first can, and there is room to insert. -/
example : Inside exBroken true 0 1 ∧ Inside exBroken true 1 1 ∧ ¬ Inside exBroken true 2 1 ∧
    search exBroken [97] = .ok (some (.found 1)) ∧ search exBroken [99] = .ub ∧ delete exBroken 2 = .ub ∧ (∃ q, delete exBroken 0 = .ok (.ok, q)) ∧
    (∃ q, insert exBroken 0 (.leaf [100] [1]) = .ok (.ok, q)) := by
  refine ⟨by unfold Inside; decide +kernel, by unfold Inside; decide +kernel, by unfold Inside; decide +kernel, ?_, ?_, ?_, ?_, ?_⟩
  · unfold search searchTrace
    rw [if_neg (by decide +kernel), if_neg (by decide +kernel), if_pos (by decide +kernel), show numKeys exBroken = 3 by decide +kernel]
    rw [searchLoop, if_pos (by omega)]
    dsimp only
    rw [(cmpAt_exact exBroken true [97] _ (by decide)).1 (by unfold Inside; decide +kernel), show keyCompare [97] (keyAt exBroken true (0 + (3 - 0) / 2)) = .eq by decide +kernel]
    rfl
  · unfold search searchTrace
    rw [if_neg (by decide +kernel), if_neg (by decide +kernel), if_pos (by decide +kernel), show numKeys exBroken = 3 by decide +kernel]
    rw [searchLoop, if_pos (by omega)]
    dsimp only
    rw [(cmpAt_exact exBroken true [99] _ (by decide)).1 (by unfold Inside; decide +kernel), show keyCompare [99] (keyAt exBroken true (0 + (3 - 0) / 2)) = .gt by decide +kernel]
    dsimp only
    rw [searchLoop, if_pos (by omega)]
    dsimp only
    rw [(cmpAt_exact exBroken true [99] _ (by decide)).2 (by unfold Inside; decide +kernel)]
    rfl
  · exact ((delete_any exBroken 2).2.2 (by decide +kernel) (Or.inl (by decide +kernel))).2 (by decide +kernel)
  · exact ((delete_any exBroken 0).2.2 (by decide +kernel) (Or.inl (by decide +kernel))).1 (by decide +kernel)
  · exact (((insert_any exBroken 0 (.leaf [100] [1])).2 (by decide +kernel)).2 (by decide +kernel)).1 (by decide +kernel)

/-- A leaf with one node, of six bytes at 100, whose header says that the nodes begin at 4. -/
def exLow (hi : UInt8) : Page := blit (put16 (put16 (put16 (put16 (put16 (blit (fun _ => 0) 4 [hi, hi]) 8 2) 10 1) 12 20) 14 4) 18 100) 100 [1, 0, 1, 0, 97, 1]

/-- Deleting its node moves the page number over the number of keys: this is harmless or undefined, as the page number is. -/
example : (∃ q, delete (exLow 0) 0 = .ok (.ok, q)) ∧ delete (exLow 255) 0 = .ub :=
  ⟨((delete_any (exLow 0) 0).2.2 (by decide +kernel) (Or.inl (by decide +kernel))).1 (by decide +kernel),
    ((delete_any (exLow 255) 0).2.2 (by decide +kernel) (Or.inl (by decide +kernel))).2 (by decide +kernel)⟩

end Verif.Page
