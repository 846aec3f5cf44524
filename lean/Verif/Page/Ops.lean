import Verif.Page.Lemmas
import Verif.Page.Spec

/-!
# Inserting, deleting and splitting: helper lemmas
-/

namespace Verif.Page

theorem kind_leaf {p : Page} (h : flags p = 2) : isLeaf p = true ∧ isBranch p = false := by
  unfold isLeaf isBranch; rw [h]; decide

theorem kind_branch {p : Page} (h : flags p = 1) : isLeaf p = false ∧ isBranch p = true := by
  unfold isLeaf isBranch; rw [h]; decide

theorem WF.not_leaf {p : Page} (wf : WF p) (h : isLeaf p = false) : isBranch p = true := by
  rcases wf.kind with hk | hk
  · exact (kind_branch hk).2
  · rw [(kind_leaf hk).1] at h; cases h

@[simp] theorem items_length (p : Page) : (items p).length = numKeys p := by simp [items]

theorem items_getElem {p : Page} {i : Nat} (h : i < (items p).length) :
    (items p)[i] = itemAt p (isLeaf p) (slot p i) := by simp [items]

theorem itemAt_size (p : Page) (leaf : Bool) (o : Nat) : (itemAt p leaf o).size = nodeSize p leaf o := by
  cases leaf
  · simp [itemAt, Item.size, nodeSize, baseSize, nodeKs, nodeDs, ksOff]
  · simp [itemAt, Item.size, nodeSize, baseSize, nodeKs, nodeDs, ksOff]

theorem itemAt_hasData (p : Page) (leaf : Bool) (o : Nat) : (itemAt p leaf o).hasData = leaf := by
  cases leaf <;> simp [itemAt, Item.hasData]

theorem itemAt_congr {p q : Page} {leaf : Bool} {o o' : Nat}
    (h : ∀ i < nodeSize p leaf o, q (o' + i) = p (o + i)) : itemAt q leaf o' = itemAt p leaf o := by
  have hb := baseSize_le p leaf o
  obtain ⟨h1, h2⟩ := node_fields_congr (p := p) (q := q) (leaf := leaf) (o := o) (o' := o')
    fun i hi => h i (by omega)
  have hs : nodeSize p leaf o = baseSize leaf + nodeKs p leaf o + nodeDs p leaf o := rfl
  cases leaf
  · simp only [nodeKs, ksOff, nodeDs, baseSize, Bool.false_eq_true, if_false] at h1 hs
    unfold itemAt
    simp only [Bool.false_eq_true, if_false]
    have e1 : slice q (o' + 10) (u16 p (o + 8)) = slice p (o + 10) (u16 p (o + 8)) := by
      apply slice_congr
      intro i hi
      rw [Nat.add_assoc, Nat.add_assoc]
      exact h (10 + i) (by omega)
    have e2 : u64 q o' = u64 p o := u64_congr fun i hi => h i (by omega)
    rw [h1, e1, e2]
  · simp only [nodeKs, ksOff, nodeDs, baseSize, if_true, Nat.add_zero] at h1 h2 hs
    unfold itemAt
    simp only [if_true]
    have e1 : slice q (o' + 4) (u16 p o) = slice p (o + 4) (u16 p o) := by
      apply slice_congr
      intro i hi
      rw [Nat.add_assoc, Nat.add_assoc]
      exact h (4 + i) (by omega)
    have e2 : slice q (o' + 4 + u16 p o) (u16 p (o + 2)) = slice p (o + 4 + u16 p o) (u16 p (o + 2)) := by
      apply slice_congr
      intro i hi
      have := h (4 + u16 p o + i) (by omega)
      rw [← Nat.add_assoc, ← Nat.add_assoc, ← Nat.add_assoc, ← Nat.add_assoc] at this
      exact this
    rw [h1, h2, e1, e2]

theorem isLeaf_congr {p q : Page} (h : flags q = flags p) : isLeaf q = isLeaf p := by
  unfold isLeaf; rw [h]

/-! ### Slot shifting -/

theorem shiftUp_spec (p : Page) (index n : Nat) (hn : hdrSize + 2 * n + 2 ≤ pageSize) (hi : index ≤ n) :
    ∃ q, shiftUp p index n = .ok q ∧
      (∀ i, slot q i = if index < i ∧ i ≤ n then slot p (i - 1) else slot p i) ∧
      (∀ j, j < hdrSize ∨ hdrSize + 2 * n + 2 ≤ j → q j = p j) := by
  induction n generalizing p with
  | zero =>
    refine ⟨p, rfl, ?_, fun _ _ => rfl⟩
    intro i; rw [if_neg (by omega)]
  | succ n ih =>
    unfold shiftUp
    by_cases h : index < n + 1
    · rw [if_pos h, rdSlot_ok (by omega), Res.ok_bind, wrSlot_ok (by omega), Res.ok_bind]
      obtain ⟨q, hq, hs, ho⟩ := ih (put16 p (hdrSize + 2 * (n + 1)) (slot p n)) (by omega) (by omega)
      refine ⟨q, hq, ?_, ?_⟩
      · intro i
        rw [hs i]
        simp only [slot_put_slot (slot_lt p n)]
        by_cases h1 : i = n + 1
        · subst h1
          rw [if_neg (by omega), if_pos rfl, if_pos (by omega)]
          rfl
        · by_cases h2 : index < i ∧ i ≤ n
          · rw [if_pos h2, if_neg (by omega), if_pos (by omega)]
          · rw [if_neg h2, if_neg h1, if_neg (by omega)]
      · intro j hj
        rw [ho j (by omega), put16_out (by omega)]
    · rw [if_neg h]
      refine ⟨p, rfl, ?_, fun _ _ => rfl⟩
      intro i; rw [if_neg (by omega)]

theorem shiftDown_spec (p : Page) (index n : Nat) (hn : hdrSize + 2 * (index + n) + 2 ≤ pageSize) :
    ∃ q, shiftDown p index n = .ok q ∧
      (∀ i, slot q i = if index ≤ i ∧ i < index + n then slot p (i + 1) else slot p i) ∧
      (∀ j, j < hdrSize ∨ hdrSize + 2 * (index + n) + 2 ≤ j → q j = p j) := by
  induction n generalizing p index with
  | zero =>
    refine ⟨p, rfl, ?_, fun _ _ => rfl⟩
    intro i; rw [if_neg (by omega)]
  | succ n ih =>
    unfold shiftDown
    rw [rdSlot_ok (by omega), Res.ok_bind, wrSlot_ok (by omega), Res.ok_bind]
    obtain ⟨q, hq, hs, ho⟩ := ih (put16 p (hdrSize + 2 * index) (slot p (index + 1))) (index + 1) (by omega)
    refine ⟨q, hq, ?_, ?_⟩
    · intro i
      rw [hs i]
      simp only [slot_put_slot (slot_lt p (index + 1))]
      by_cases h1 : i = index
      · subst h1
        rw [if_neg (by omega), if_pos rfl, if_pos (by omega)]
      · by_cases h2 : index + 1 ≤ i ∧ i < index + 1 + n
        · rw [if_pos h2, if_neg (by omega), if_pos (by omega)]
        · rw [if_neg h2, if_neg h1, if_neg (by omega)]
    · intro j hj
      rw [ho j (by omega), put16_out (by omega)]

theorem relocate_spec (p : Page) (off size i n : Nat) (hn : hdrSize + 2 * (i + n) ≤ pageSize)
    (hs : off + size ≤ 65536) :
    ∃ q, relocate p off size i n = .ok q ∧
      (∀ j, slot q j = if i ≤ j ∧ j < i + n ∧ slot p j < off then slot p j + size else slot p j) ∧
      (∀ j, j < hdrSize ∨ hdrSize + 2 * (i + n) ≤ j → q j = p j) := by
  induction n generalizing p i with
  | zero =>
    refine ⟨p, rfl, ?_, fun _ _ => rfl⟩
    intro j; rw [if_neg (by omega)]
  | succ n ih =>
    unfold relocate
    rw [rdSlot_ok (by omega), Res.ok_bind]
    by_cases h : slot p i < off
    · rw [if_pos h, wrSlot_ok (by omega), Res.ok_bind, Nat.mod_eq_of_lt (by omega)]
      obtain ⟨q, hq, hsl, ho⟩ := ih (put16 p (hdrSize + 2 * i) (slot p i + size)) (i + 1) (by omega)
      refine ⟨q, hq, ?_, ?_⟩
      · intro j
        rw [hsl j]
        simp only [slot_put_slot (show slot p i + size < 65536 by omega)]
        by_cases h1 : j = i
        · subst h1
          rw [if_neg (by omega), if_pos rfl, if_pos (by omega)]
        · rw [if_neg h1]
          by_cases h2 : i + 1 ≤ j ∧ j < i + 1 + n ∧ slot p j < off
          · rw [if_pos h2, if_pos (by omega)]
          · rw [if_neg h2, if_neg (by omega)]
      · intro j hj
        rw [ho j (by omega), put16_out (by omega)]
    · rw [if_neg h]
      obtain ⟨q, hq, hsl, ho⟩ := ih p (i + 1) (by omega)
      refine ⟨q, hq, ?_, ?_⟩
      · intro j
        rw [hsl j]
        by_cases h1 : j = i
        · subst h1
          rw [if_neg (by omega), if_neg (by omega)]
        · by_cases h2 : i + 1 ≤ j ∧ j < i + 1 + n ∧ slot p j < off
          · rw [if_pos h2, if_pos (by omega)]
          · rw [if_neg h2, if_neg (by omega)]
      · intro j hj
        exact ho j (by omega)

/-! ### Adding one node -/

/-- What the header and slot updates of an insertion amount to. -/
structure Added (p q : Page) (index u sz : Nat) : Prop where
  fl : flags q = flags p
  no : pgno q = pgno p
  nk : numKeys q = numKeys p + 1
  lo : lower q = lower p + 2
  up : upper q = u
  sl : ∀ i ≤ numKeys p, slot q i =
    if i < index then slot p i else if i = index then u else slot p (i - 1)
  hi : ∀ j, upper p ≤ j → j < pageSize → q j = p j
  us : u + sz = upper p
  ns : nodeSize q (isLeaf p) u = sz
  rm : lower p + 2 ≤ u

theorem Added.items {p q : Page} {index u sz : Nat} (h : Added p q index u sz) (wf : WF p)
    (hi : index ≤ numKeys p) :
    items q = (items p).insertIdx index (itemAt q (isLeaf p) u) := by
  have hl := isLeaf_congr h.fl
  have hlen : index ≤ (Page.items p).length := by simpa using hi
  apply List.ext_getElem
  · rw [List.length_insertIdx_of_le_length hlen]; simp [h.nk]
  intro i h1 h2
  have h1' : i < numKeys p + 1 := by simpa [h.nk] using h1
  rw [items_getElem, hl, h.sl i (by omega), List.getElem_insertIdx]
  have same : ∀ k < numKeys p, itemAt q (isLeaf p) (slot p k) = itemAt p (isLeaf p) (slot p k) := by
    intro k hk
    have := wf.inside k hk
    exact itemAt_congr fun t ht => h.hi _ (by omega) (by omega)
  by_cases c1 : i < index
  · simp only [c1, if_true, dif_pos]
    rw [same i (by omega), items_getElem]
  · by_cases c2 : i = index
    · simp [c2]
    · simp only [c1, c2, if_false, dif_neg, not_false_eq_true]
      rw [same (i - 1) (by omega), items_getElem]

theorem Added.wf {p q : Page} {index u sz : Nat} (h : Added p q index u sz) (wf : WF p)
    (_hi : index ≤ numKeys p) : WF q := by
  have hl := isLeaf_congr h.fl
  have same : ∀ k < numKeys p, nodeSize q (isLeaf p) (slot p k) = nodeSize p (isLeaf p) (slot p k) := by
    intro k hk
    have := wf.inside k hk
    exact nodeSize_congr fun t ht => h.hi _ (by omega) (by omega)
  have hup := h.up
  have hus := h.us
  have hns := h.ns
  have hrm := h.rm
  have htop := wf.top
  refine ⟨by rw [h.fl]; exact wf.kind, by rw [h.lo, h.nk, wf.low]; omega, by rw [h.lo, hup]; omega,
    by rw [hup]; omega, ?_, ?_⟩
  · intro i hi
    rw [h.nk] at hi
    rw [hl, hup, h.sl i (by omega)]
    by_cases c1 : i < index
    · rw [if_pos c1, same i (by omega)]
      have := wf.inside i (by omega); omega
    · rw [if_neg c1]
      by_cases c2 : i = index
      · rw [if_pos c2, hns]; omega
      · rw [if_neg c2, same (i - 1) (by omega)]
        have := wf.inside (i - 1) (by omega); omega
  · intro i j hi hj hne
    rw [h.nk] at hi hj
    rw [hl, h.sl i (by omega), h.sl j (by omega)]
    have old : ∀ k < numKeys p, u + sz ≤ slot p k := by
      intro k hk; have := wf.inside k hk; omega
    have ap : ∀ a b, a < numKeys p → b < numKeys p → a ≠ b →
        slot p a + nodeSize q (isLeaf p) (slot p a) ≤ slot p b ∨
        slot p b + nodeSize q (isLeaf p) (slot p b) ≤ slot p a := by
      intro a b ha hb hab
      rw [same a ha, same b hb]; exact wf.apart a b ha hb hab
    by_cases c1 : i < index
    · rw [if_pos c1]
      by_cases d1 : j < index
      · rw [if_pos d1]; exact ap i j (by omega) (by omega) hne
      · rw [if_neg d1]
        by_cases d2 : j = index
        · rw [if_pos d2, hns]; right; exact old i (by omega)
        · rw [if_neg d2]; exact ap i (j - 1) (by omega) (by omega) (by omega)
    · rw [if_neg c1]
      by_cases c2 : i = index
      · rw [if_pos c2, hns]; left
        by_cases d1 : j < index
        · rw [if_pos d1]; exact old j (by omega)
        · rw [if_neg d1, if_neg (by omega)]; exact old (j - 1) (by omega)
      · rw [if_neg c2]
        by_cases d1 : j < index
        · rw [if_pos d1]; exact ap (i - 1) j (by omega) (by omega) (by omega)
        · rw [if_neg d1]
          by_cases d2 : j = index
          · rw [if_pos d2, hns]; right; exact old (i - 1) (by omega)
          · rw [if_neg d2]; exact ap (i - 1) (j - 1) (by omega) (by omega) (by omega)

/-- The stored form of an entry reads back as the entry. -/
theorem wrNode_spec (p : Page) (o : Nat) (it : Item) (hs : it.size < 65536)
    (hc : it.child < 2 ^ 64) (ho : o + it.size ≤ pageSize) :
    ∃ q, wrNode p it.hasData o it = .ok q ∧ itemAt q it.hasData o = it ∧
      (∀ j, j < o ∨ o + it.size ≤ j → q j = p j) := by
  cases it with
  | leaf k v =>
    simp only [Item.size] at hs ho ⊢
    simp only [wrNode, Item.hasData, Item.key, Item.val, if_true]
    rw [chk_ok (by omega), Res.ok_bind, chk_ok (by omega), Res.ok_bind, chk_ok (by omega), Res.ok_bind]
    refine ⟨_, rfl, ?_, ?_⟩
    · have h1 : u16 (blit (blit (put16 (put16 p o k.length) (o + 2) v.length) (o + 4) k) (o + 4 + k.length) v) o = k.length := by
        rw [u16_blit_out (by omega), u16_blit_out (by omega), u16_put16_out (by omega), u16_put16,
          Nat.mod_eq_of_lt (by omega)]
      have h2 : u16 (blit (blit (put16 (put16 p o k.length) (o + 2) v.length) (o + 4) k) (o + 4 + k.length) v) (o + 2) = v.length := by
        rw [u16_blit_out (by omega), u16_blit_out (by omega), u16_put16, Nat.mod_eq_of_lt (by omega)]
      unfold itemAt
      rw [if_pos rfl, h1, h2, slice_blit, slice_blit_out (by omega), slice_blit]
    · intro j hj
      rw [blit_out (by omega), blit_out (by omega), put16_out (by omega), put16_out (by omega)]
  | branch k c =>
    simp only [Item.size] at hs ho ⊢
    simp only [Item.child] at hc
    simp only [wrNode, Item.hasData, Item.key, Item.child, Bool.false_eq_true, if_false]
    rw [chk_ok (by omega), Res.ok_bind, chk_ok (by omega), Res.ok_bind]
    refine ⟨_, rfl, ?_, ?_⟩
    · have h1 : u16 (blit (put16 (put64 p o c) (o + 8) k.length) (o + 10) k) (o + 8) = k.length := by
        rw [u16_blit_out (by omega), u16_put16, Nat.mod_eq_of_lt (by omega)]
      have h2 : u64 (blit (put16 (put64 p o c) (o + 8) k.length) (o + 10) k) o = c := by
        rw [u64_congr (q := put64 p o c) (o' := o), u64_put64, Nat.mod_eq_of_lt hc]
        intro i hi
        rw [blit_out (by omega), put16_out (by omega)]
      unfold itemAt
      simp only [Bool.false_eq_true, if_false]
      rw [h1, h2, slice_blit]
    · intro j hj
      rw [blit_out (by omega), put16_out (by omega), put64_out (by omega)]

theorem pgno_congr {p q : Page} (h : ∀ j < 8, q j = p j) : pgno q = pgno p :=
  u64_congr fun i hi => by rw [Nat.zero_add]; exact h i hi

theorem insert_added {p : Page} (wf : WF p) {index : Nat} (hi : index ≤ numKeys p) {it : Item}
    (hk : it.hasData = isLeaf p) (hs : it.size < 65536) (hc : it.child < 2 ^ 64)
    (hr : it.size + 2 ≤ room p) :
    ∃ q, insert p index it = .ok (.ok, q) ∧ Added p q index (upper p - it.size) it.size ∧
      itemAt q (isLeaf p) (upper p - it.size) = it := by
  have hlow := wf.low
  have htop := wf.top
  have hgap := wf.gap
  unfold room at hr
  simp only [pageSize, hdrSize] at hlow htop
  have hsize : (baseSize (isLeaf p) + it.key.length + (if isLeaf p = true then it.val.length else 0)) = it.size := by
    cases it with
    | leaf k v => simp only [Item.hasData] at hk; rw [← hk]; simp [baseSize, Item.key, Item.val, Item.size]
    | branch k c => simp only [Item.hasData] at hk; rw [← hk]; simp [baseSize, Item.key, Item.size]
  have hkind : (isLeaf p && !it.hasData) = false ∧ (!isLeaf p && !isBranch p) = false := by
    constructor
    · rw [hk]; cases isLeaf p <;> rfl
    · cases hl : isLeaf p with
      | true => rfl
      | false => rw [wf.not_leaf hl]; rfl
  have hu : (upper p + 65536 - lower p) % 65536 = upper p - lower p := by
    have : upper p + 65536 - lower p = (upper p - lower p) + 65536 := by omega
    rw [this, Nat.add_mod_right, Nat.mod_eq_of_lt (by omega)]
  have hn : (upper p + 65536 - it.size) % 65536 = upper p - it.size := by
    have : upper p + 65536 - it.size = (upper p - it.size) + 65536 := by omega
    rw [this, Nat.add_mod_right, Nat.mod_eq_of_lt (by omega)]
  have hsz4 : 4 ≤ it.size := by cases it <;> simp only [Item.size] <;> omega
  unfold insert
  simp only [hkind.1, hkind.2, Bool.false_eq_true, if_false]
  rw [hsize, Nat.mod_eq_of_lt hs, hu, if_neg (by omega), hn, ← hk]
  obtain ⟨q1, hq1, sl1, out1⟩ := shiftUp_spec p index (numKeys p) (by simp only [hdrSize, pageSize]; omega) hi
  obtain ⟨q2, hq2, it2, out2⟩ := wrNode_spec q1 (upper p - it.size) it hs hc (by simp only [pageSize]; omega)
  rw [hq1, Res.ok_bind, hq2, Res.ok_bind, wrSlot_ok (by simp only [hdrSize, pageSize]; omega), Res.ok_bind]
  have e12 : ∀ j < hdrSize, q2 j = p j := by
    intro j hj
    simp only [hdrSize] at hj
    rw [out2 j (by omega), out1 j (by left; simpa [hdrSize] using hj)]
  -- the header fields along the way
  have f2 : ∀ a, a + 2 ≤ 18 → u16 q2 a = u16 p a := fun a ha =>
    u16_congr (e12 _ (by simp only [hdrSize]; omega)) (e12 _ (by simp only [hdrSize]; omega))
  have g2 : ∀ a, a + 2 ≤ 18 → u16 (put16 q2 (hdrSize + 2 * index) (upper p - it.size)) a = u16 p a := fun a ha => by
    rw [u16_put16_out (by simp only [hdrSize]; omega), f2 a ha]
  have nk3 : numKeys (put16 q2 (hdrSize + 2 * index) (upper p - it.size)) = numKeys p := g2 10 (by omega)
  have lo3 : lower (put16 (put16 q2 (hdrSize + 2 * index) (upper p - it.size)) 10 (numKeys p + 1)) = lower p := by
    unfold lower; rw [u16_put16_out (by omega)]; exact g2 12 (by omega)
  refine ⟨_, rfl, ?_, ?_⟩
  · rw [nk3, lo3]
    refine ⟨?_, ?_, ?_, ?_, ?_, ?_, ?_, by omega, ?_, by omega⟩
    · unfold flags
      rw [u16_put16_out (by omega), u16_put16_out (by omega), u16_put16_out (by omega), g2 8 (by omega)]
    · apply pgno_congr
      intro j hj
      rw [put16_out (by omega), put16_out (by omega), put16_out (by omega), put16_out (by simp only [hdrSize]; omega),
        e12 j (by simp only [hdrSize]; omega)]
    · show u16 _ 10 = _
      rw [u16_put16_out (by omega), u16_put16_out (by omega), u16_put16, Nat.mod_eq_of_lt (by omega)]
    · show u16 _ 12 = _
      rw [u16_put16_out (by omega), u16_put16, Nat.mod_eq_of_lt (by omega)]
    · show u16 _ 14 = _
      rw [u16_put16, Nat.mod_eq_of_lt (by omega)]
    · intro i hile
      have hse : slot (put16 (put16 (put16 (put16 q2 (hdrSize + 2 * index) (upper p - it.size)) 10 (numKeys p + 1)) 12 (lower p + 2)) 14 (upper p - it.size)) i
          = slot (put16 q2 (hdrSize + 2 * index) (upper p - it.size)) i := by
        apply slot_congr
        intro j h1 h2
        simp only [hdrSize] at h1
        rw [put16_out (by omega), put16_out (by omega), put16_out (by omega)]
      rw [hse, slot_put_slot (by omega)]
      have h2 : slot q2 i = slot q1 i := by
        apply slot_congr
        intro j h1 h2
        simp only [hdrSize] at h1 h2
        exact out2 j (by omega)
      rw [h2, sl1 i]
      by_cases c1 : i = index
      · rw [if_pos c1, if_neg (by omega), if_pos c1]
      · rw [if_neg c1, if_neg c1]
        by_cases c2 : i < index
        · rw [if_pos c2, if_neg (by omega)]
        · rw [if_neg c2, if_pos (by omega)]
    · intro j h1 h2
      rw [put16_out (by omega), put16_out (by omega), put16_out (by omega), put16_out (by simp only [hdrSize]; omega),
        out2 j (by omega), out1 j (by right; simp only [hdrSize]; omega)]
    · rw [← itemAt_size]
      have : itemAt (put16 (put16 (put16 (put16 q2 (hdrSize + 2 * index) (upper p - it.size)) 10 (numKeys p + 1)) 12 (lower p + 2)) 14 (upper p - it.size)) (isLeaf p) (upper p - it.size) = it := by
        rw [← hk, itemAt_congr (p := q2) (o := upper p - it.size), it2]
        intro i hi
        rw [← itemAt_size, it2] at hi
        rw [put16_out (by omega), put16_out (by omega), put16_out (by omega), put16_out (by simp only [hdrSize]; omega)]
      rw [this]
  · rw [nk3, lo3, hk, ← hk, itemAt_congr (p := q2) (o := upper p - it.size), it2]
    intro i hi
    rw [← itemAt_size, it2] at hi
    rw [put16_out (by omega), put16_out (by omega), put16_out (by omega), put16_out (by simp only [hdrSize]; omega)]

end Verif.Page
