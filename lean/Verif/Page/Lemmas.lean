import Verif.Page.Model

/-!
# Bytes, fields and ranges

Helper lemmas about loads, stores and copies inside one page.
-/

namespace Verif.Page

theorem chk_ok {o n : Nat} (h : o + n ≤ pageSize) : chk o n = .ok () := by
  unfold chk; rw [if_pos h]

theorem chk_eq_ok {o n : Nat} {u : Unit} : chk o n = .ok u ↔ o + n ≤ pageSize := by
  unfold chk; split <;> simp [*]

@[simp] theorem le_length (n v : Nat) : (le n v).length = n := by
  induction n generalizing v with
  | zero => rfl
  | succ n ih => simp [le, ih]

theorem blit_out {p : Page} {o : Nat} {bs : Bytes} {j : Nat} (h : j < o ∨ o + bs.length ≤ j) :
    blit p o bs j = p j := by
  unfold blit; rw [if_neg (by omega)]

theorem blit_in {p : Page} {o : Nat} {bs : Bytes} {j : Nat} (h : o ≤ j) (h' : j < o + bs.length) :
    blit p o bs j = bs.getD (j - o) 0 := by
  unfold blit; rw [if_pos ⟨h, h'⟩]

theorem put16_out {p : Page} {o v j : Nat} (h : j < o ∨ o + 2 ≤ j) : put16 p o v j = p j :=
  blit_out (by simpa using h)

theorem put64_out {p : Page} {o v j : Nat} (h : j < o ∨ o + 8 ≤ j) : put64 p o v j = p j :=
  blit_out (by simpa using h)

theorem u16_lt (p : Page) (o : Nat) : u16 p o < 65536 := by
  have h1 := (p o).toNat_lt
  have h2 := (p (o + 1)).toNat_lt
  unfold u16; omega

theorem u16_congr {p q : Page} {o o' : Nat} (h0 : p o = q o') (h1 : p (o + 1) = q (o' + 1)) :
    u16 p o = u16 q o' := by
  unfold u16; rw [h0, h1]

theorem u16_blit_out {p : Page} {o : Nat} {bs : Bytes} {a : Nat}
    (h : a + 2 ≤ o ∨ o + bs.length ≤ a) : u16 (blit p o bs) a = u16 p a :=
  u16_congr (blit_out (by omega)) (blit_out (by omega))

theorem u16_put16_out {p : Page} {o v a : Nat} (h : a + 2 ≤ o ∨ o + 2 ≤ a) :
    u16 (put16 p o v) a = u16 p a :=
  u16_blit_out (by simpa using h)

theorem u16_put64_out {p : Page} {o v a : Nat} (h : a + 2 ≤ o ∨ o + 8 ≤ a) :
    u16 (put64 p o v) a = u16 p a :=
  u16_blit_out (by simpa using h)

theorem u16_put16 (p : Page) (o v : Nat) : u16 (put16 p o v) o = v % 65536 := by
  unfold u16 put16
  rw [blit_in (by omega) (by simp), blit_in (by omega) (by simp)]
  have h : o + 1 - o = 1 := by omega
  rw [Nat.sub_self, h]
  simp [le]
  omega

theorem ule_congr {p q : Page} {o o' n : Nat} (h : ∀ i < n, p (o + i) = q (o' + i)) :
    ule p o n = ule q o' n := by
  induction n generalizing o o' with
  | zero => rfl
  | succ n ih =>
    unfold ule
    have h0 := h 0 (by omega)
    simp only [Nat.add_zero] at h0
    rw [h0, ih fun i hi => by have := h (i + 1) (by omega); rwa [← Nat.add_assoc, ← Nat.add_assoc, Nat.add_right_comm, Nat.add_right_comm o'] at this]

theorem ule_le (p : Page) (o n v : Nat) : ule (blit p o (le n v)) o n = v % 256 ^ n := by
  induction n generalizing o v p with
  | zero => simp [ule, Nat.mod_one]
  | succ n ih =>
    unfold ule
    have hb : (blit p o (le (n + 1) v) o).toNat = v % 256 := by
      rw [blit_in (by omega) (by simp), Nat.sub_self]
      simp [le]
    have hr : ule (blit p o (le (n + 1) v)) (o + 1) n = ule (blit p (o + 1) (le n (v / 256))) (o + 1) n := by
      apply ule_congr
      intro i hi
      rw [blit_in (by omega) (by simp; omega), blit_in (by omega) (by simp; omega)]
      have h1 : o + 1 + i - o = i + 1 := by omega
      have h2 : o + 1 + i - (o + 1) = i := by omega
      rw [h1, h2]; simp [le]
    rw [hb, hr, ih]
    have hp : 256 ^ (n + 1) = 256 * 256 ^ n := by rw [Nat.pow_succ, Nat.mul_comm]
    rw [hp, Nat.mod_mul]

theorem u64_put64 (p : Page) (o v : Nat) : u64 (put64 p o v) o = v % 2 ^ 64 := by
  unfold u64 put64; rw [ule_le]

theorem u64_congr {p q : Page} {o o' : Nat} (h : ∀ i < 8, p (o + i) = q (o' + i)) : u64 p o = u64 q o' :=
  ule_congr h

@[simp] theorem slice_length (p : Page) (o n : Nat) : (slice p o n).length = n := by simp [slice]

theorem slice_getElem {p : Page} {o n i : Nat} (h : i < (slice p o n).length) :
    (slice p o n)[i] = p (o + i) := by simp [slice]

theorem slice_congr {p q : Page} {o o' n : Nat} (h : ∀ i < n, p (o + i) = q (o' + i)) :
    slice p o n = slice q o' n := by
  unfold slice
  apply List.map_congr_left
  intro i hi
  exact h i (by simpa using hi)

theorem slice_eq {p : Page} {o n : Nat} {bs : Bytes} (hl : bs.length = n)
    (h : ∀ i < n, p (o + i) = bs.getD i 0) : slice p o n = bs := by
  apply List.ext_getElem (by simp [hl])
  intro i h1 h2
  rw [slice_getElem, h i (by simpa using h1)]
  simp [List.getD_eq_getElem?_getD, List.getElem?_eq_getElem h2]

theorem slice_blit (p : Page) (o : Nat) (bs : Bytes) : slice (blit p o bs) o bs.length = bs := by
  apply slice_eq rfl
  intro i hi
  rw [blit_in (by omega) (by omega)]
  congr 1; omega

theorem slice_blit_out {p : Page} {o : Nat} {bs : Bytes} {a n : Nat}
    (h : a + n ≤ o ∨ o + bs.length ≤ a) : slice (blit p o bs) a n = slice p a n :=
  slice_congr fun i hi => blit_out (by omega)

theorem slice_append (p : Page) (o m n : Nat) : slice p o (m + n) = slice p o m ++ slice p (o + m) n := by
  unfold slice
  rw [List.range_add, List.map_append, List.map_map]
  congr 1
  apply List.map_congr_left
  intro i _
  simp [Nat.add_assoc]

theorem slice_drop (p : Page) (o n k : Nat) : (slice p o n).drop k = slice p (o + k) (n - k) := by
  apply List.ext_getElem (by simp)
  intro i h1 h2
  simp [slice, Nat.add_assoc]

theorem slice_take (p : Page) (o n k : Nat) (h : k ≤ n) : (slice p o n).take k = slice p o k := by
  apply List.ext_getElem (by simp; omega)
  intro i h1 h2
  simp [slice]

/-! ### Nodes -/

theorem baseSize_pos (leaf : Bool) : 4 ≤ baseSize leaf := by cases leaf <;> simp [baseSize]

theorem baseSize_le (p : Page) (leaf : Bool) (o : Nat) : baseSize leaf ≤ nodeSize p leaf o := by
  unfold nodeSize; omega

/-- A node whose bytes are found elsewhere has the same size fields there. -/
theorem node_fields_congr {p q : Page} {leaf : Bool} {o o' : Nat}
    (h : ∀ i < baseSize leaf, q (o' + i) = p (o + i)) :
    nodeKs q leaf o' = nodeKs p leaf o ∧ nodeDs q leaf o' = nodeDs p leaf o := by
  cases leaf
  · have h8 := h 8 (by simp [baseSize])
    have h9 := h 9 (by simp [baseSize])
    refine ⟨?_, rfl⟩
    exact u16_congr h8 h9
  · have h0 := h 0 (by simp [baseSize])
    have h1 := h 1 (by simp [baseSize])
    have h2 := h 2 (by simp [baseSize])
    have h3 := h 3 (by simp [baseSize])
    exact ⟨u16_congr h0 h1, u16_congr h2 h3⟩

theorem nodeSize_congr {p q : Page} {leaf : Bool} {o o' : Nat}
    (h : ∀ i < nodeSize p leaf o, q (o' + i) = p (o + i)) : nodeSize q leaf o' = nodeSize p leaf o := by
  have hb := baseSize_le p leaf o
  obtain ⟨h1, h2⟩ := node_fields_congr (p := p) (q := q) (leaf := leaf) (o := o) (o' := o')
    fun i hi => h i (by omega)
  unfold nodeSize; rw [h1, h2]

/-- The bytes of the node at offset `o`. -/
def raw (p : Page) (leaf : Bool) (o : Nat) : Bytes := slice p o (nodeSize p leaf o)

theorem raw_congr {p q : Page} {leaf : Bool} {o o' : Nat}
    (h : ∀ i < nodeSize p leaf o, q (o' + i) = p (o + i)) : raw q leaf o' = raw p leaf o := by
  unfold raw; rw [nodeSize_congr h]; exact slice_congr h

@[simp] theorem raw_length (p : Page) (leaf : Bool) (o : Nat) :
    (raw p leaf o).length = nodeSize p leaf o := by simp [raw]

theorem slot_lt (p : Page) (i : Nat) : slot p i < 65536 := u16_lt _ _

theorem rdSlot_ok {p : Page} {i : Nat} (h : hdrSize + 2 * i + 2 ≤ pageSize) :
    rdSlot p i = .ok (slot p i) := by
  unfold rdSlot; rw [chk_ok h]; rfl

theorem wrSlot_ok {p : Page} {i v : Nat} (h : hdrSize + 2 * i + 2 ≤ pageSize) :
    wrSlot p i v = .ok (put16 p (hdrSize + 2 * i) v) := by
  unfold wrSlot; rw [chk_ok h]; rfl

theorem slot_congr {p q : Page} {i : Nat}
    (h : ∀ j, hdrSize + 2 * i ≤ j → j < hdrSize + 2 * i + 2 → q j = p j) : slot q i = slot p i :=
  u16_congr (h _ (by omega) (by omega)) (h _ (by omega) (by omega))

theorem slot_put_slot {p : Page} {i j v : Nat} (hv : v < 65536) :
    slot (put16 p (hdrSize + 2 * i) v) j = if j = i then v else slot p j := by
  unfold slot
  by_cases h : j = i
  · subst h; rw [u16_put16, if_pos rfl, Nat.mod_eq_of_lt hv]
  · rw [u16_put16_out (by omega), if_neg h]

end Verif.Page
