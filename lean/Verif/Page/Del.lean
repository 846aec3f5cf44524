import Verif.Page.Ops

/-!
# Deleting a node: helper lemmas
-/

namespace Verif.Page

/-- What the updates of a deletion amount to. -/
structure Removed (p q : Page) (index : Nat) : Prop where
  fl : flags q = flags p
  no : pgno q = pgno p
  nk : numKeys q + 1 = numKeys p
  lo : lower q + 2 = lower p
  up : upper q = upper p + nodeSize p (isLeaf p) (slot p index)
  sl : ∀ i < numKeys q, slot q i =
    (if slot p (if i < index then i else i + 1) < slot p index
      then slot p (if i < index then i else i + 1) + nodeSize p (isLeaf p) (slot p index)
      else slot p (if i < index then i else i + 1))
  by1 : ∀ j, upper p ≤ j → j < slot p index → q (j + nodeSize p (isLeaf p) (slot p index)) = p j
  by2 : ∀ j, slot p index + nodeSize p (isLeaf p) (slot p index) ≤ j → j < pageSize → q j = p j

/-- Where the remaining node `k` ends up, and that its bytes are unchanged. -/
theorem Removed.node {p q : Page} {index : Nat} (h : Removed p q index) (wf : WF p)
    (hi : index < numKeys p) {k : Nat} (hk : k < numKeys p) (hne : k ≠ index) :
    (slot p k + nodeSize p (isLeaf p) (slot p k) ≤ slot p index ∨
      slot p index + nodeSize p (isLeaf p) (slot p index) ≤ slot p k) ∧
    ∀ t < nodeSize p (isLeaf p) (slot p k),
      q ((if slot p k < slot p index then slot p k + nodeSize p (isLeaf p) (slot p index) else slot p k) + t)
        = p (slot p k + t) := by
  have hap := wf.apart k index hk hi hne
  have hin := wf.inside k hk
  have hb := baseSize_le p (isLeaf p) (slot p k)
  have hb2 := baseSize_le p (isLeaf p) (slot p index)
  have hb0 := baseSize_pos (isLeaf p)
  refine ⟨hap, ?_⟩
  intro t ht
  by_cases c : slot p k < slot p index
  · rw [if_pos c]
    have := h.by1 (slot p k + t) (by omega) (by omega)
    rw [← this]; congr 1; omega
  · rw [if_neg c]
    exact h.by2 _ (by omega) (by omega)

theorem Removed.items {p q : Page} {index : Nat} (h : Removed p q index) (wf : WF p)
    (hi : index < numKeys p) : items q = (items p).eraseIdx index := by
  have hl := isLeaf_congr h.fl
  have hnk := h.nk
  apply List.ext_getElem
  · rw [List.length_eraseIdx_of_lt (by simpa using hi)]; simp; omega
  intro i h1 h2
  have h1' : i < numKeys q := by simpa using h1
  rw [items_getElem, hl, List.getElem_eraseIdx, h.sl i h1']
  by_cases c : i < index
  · simp only [if_pos c, dif_pos c]
    rw [items_getElem]
    exact itemAt_congr (h.node wf hi (by omega) (by omega)).2
  · simp only [if_neg c, dif_neg c]
    rw [items_getElem]
    exact itemAt_congr (h.node wf hi (by omega) (by omega)).2

theorem Removed.wf {p q : Page} {index : Nat} (h : Removed p q index) (wf : WF p)
    (hi : index < numKeys p) : WF q := by
  have hl := isLeaf_congr h.fl
  have hnk := h.nk
  have hlo := h.lo
  have hup := h.up
  have hgap := wf.gap
  have htop := wf.top
  have hlow := wf.low
  have hix := wf.inside index hi
  refine ⟨by rw [h.fl]; exact wf.kind, by omega, by omega, by omega, ?_, ?_⟩
  · intro i hi2
    rw [hl, hup, h.sl i hi2]
    generalize hk : (if i < index then i else i + 1) = k
    have hkn : k < numKeys p ∧ k ≠ index := by subst hk; split <;> omega
    obtain ⟨hap, hby⟩ := h.node wf hi hkn.1 hkn.2
    rw [nodeSize_congr hby]
    have := wf.inside k hkn.1
    have hb := baseSize_le p (isLeaf p) (slot p k)
    have hb2 := baseSize_le p (isLeaf p) (slot p index)
    have hb0 := baseSize_pos (isLeaf p)
    split <;> omega
  · intro i j hi2 hj2 hne
    rw [hl, h.sl i hi2, h.sl j hj2]
    generalize hk : (if i < index then i else i + 1) = k
    generalize hm : (if j < index then j else j + 1) = m
    have hkn : k < numKeys p ∧ k ≠ index := by subst hk; split <;> omega
    have hmn : m < numKeys p ∧ m ≠ index := by subst hm; split <;> omega
    have hkm : k ≠ m := by subst hk hm; split <;> split <;> omega
    obtain ⟨hap, hby⟩ := h.node wf hi hkn.1 hkn.2
    obtain ⟨hap', hby'⟩ := h.node wf hi hmn.1 hmn.2
    rw [nodeSize_congr hby, nodeSize_congr hby']
    have := wf.apart k m hkn.1 hmn.1 hkm
    have hb := baseSize_le p (isLeaf p) (slot p k)
    have hb1 := baseSize_le p (isLeaf p) (slot p m)
    have hb2 := baseSize_le p (isLeaf p) (slot p index)
    have hb0 := baseSize_pos (isLeaf p)
    split <;> split <;> omega

/-- Effect of the compaction step on a page whose slots already lost the deleted one. -/
theorem compact_spec {p : Page} {off size n : Nat} (hk : numKeys p - 1 = n) (hn : hdrSize + 2 * n ≤ upper p)
    (ho : off + size ≤ pageSize) (hall : upper p ≤ off)
    (hs : ∀ i < n, upper p < off ∨ off ≤ slot p i) :
    ∃ q, compact p off size = .ok q ∧
      (∀ i < n, slot q i = if slot p i < off then slot p i + size else slot p i) ∧
      (∀ j < hdrSize, q j = p j) ∧
      (∀ j, upper p ≤ j → j < off → q (j + size) = p j) ∧
      (∀ j, off + size ≤ j → q j = p j) := by
  unfold compact
  have htop : upper p ≤ pageSize := by omega
  by_cases c : upper p < off
  · rw [if_pos c]
    simp only [hdrSize, pageSize] at *
    rw [chk_ok (by simp only [pageSize]; omega), Res.ok_bind, chk_ok (by simp only [pageSize]; omega), Res.ok_bind]
    have hlen : (slice p (upper p) (off - upper p)).length = off - upper p := slice_length _ _ _
    have hkeys : numKeys (blit p (upper p + size) (slice p (upper p) (off - upper p))) - 1 = n := by
      rw [← hk]
      unfold numKeys
      rw [u16_congr (blit_out (by omega)) (blit_out (by omega))]
    rw [hkeys]
    obtain ⟨q, hq, hsl, hout⟩ := relocate_spec (blit p (upper p + size) (slice p (upper p) (off - upper p))) off size 0 n
      (by simp only [hdrSize, pageSize]; omega) (by omega)
    have hsb : ∀ i < n, slot (blit p (upper p + size) (slice p (upper p) (off - upper p))) i = slot p i := by
      intro i hi
      apply slot_congr
      intro j h1 h2
      simp only [hdrSize] at h2
      exact blit_out (by omega)
    refine ⟨q, hq, ?_, ?_, ?_, ?_⟩
    · intro i hi
      rw [hsl i, hsb i hi]
      by_cases d : slot p i < off
      · rw [if_pos (by omega), if_pos d]
      · rw [if_neg (by omega), if_neg d]
    · intro j hj
      rw [hout j (by simp only [hdrSize]; omega), blit_out (by omega)]
    · intro j h1 h2
      rw [hout (j + size) (by simp only [hdrSize]; omega), blit_in (by omega) (by omega)]
      have e : j + size - (upper p + size) = j - upper p := by omega
      rw [e, List.getD_eq_getElem?_getD, List.getElem?_eq_getElem (by omega), slice_getElem]
      simp only [Option.getD_some]
      congr 1; omega
    · intro j h1
      rw [hout j (by simp only [hdrSize]; omega), blit_out (by omega)]
  · rw [if_neg c]
    refine ⟨p, rfl, ?_, fun _ _ => rfl, ?_, fun _ _ => rfl⟩
    · intro i hi
      have := hs i hi
      rw [if_neg (by omega)]
    · intro j h1 h2; omega

theorem delete_removed {p : Page} (wf : WF p) {index : Nat} (hi : index < numKeys p) :
    ∃ q, delete p index = .ok (.ok, q) ∧ Removed p q index := by
  have hlow := wf.low
  have htop := wf.top
  have hgap := wf.gap
  have hin := wf.inside index hi
  have hbs := baseSize_le p (isLeaf p) (slot p index)
  have hb0 := baseSize_pos (isLeaf p)
  simp only [pageSize, hdrSize] at hlow htop hin
  have hkind : (!isLeaf p && !isBranch p) = false := by
    cases hl : isLeaf p with
    | true => rfl
    | false => rw [wf.not_leaf hl]; rfl
  unfold delete
  rw [if_neg (by omega), rdSlot_ok (by simp only [hdrSize, pageSize]; omega), Res.ok_bind]
  simp only [hkind, Bool.false_eq_true, if_false]
  rw [chk_ok (by simp only [pageSize]; omega), Res.ok_bind, Nat.mod_eq_of_lt (by omega)]
  obtain ⟨q1, hq1, sl1, out1⟩ := shiftDown_spec p index (numKeys p - 1 - index) (by simp only [hdrSize, pageSize]; omega)
  rw [hq1, Res.ok_bind]
  have f1 : ∀ a, a + 2 ≤ 18 → u16 q1 a = u16 p a := fun a ha =>
    u16_congr (out1 _ (by left; simp only [hdrSize]; omega)) (out1 _ (by left; simp only [hdrSize]; omega))
  have up1 : upper q1 = upper p := f1 14 (by omega)
  have sl1' : ∀ i < numKeys p - 1, slot q1 i = slot p (if i < index then i else i + 1) := by
    intro i hi2
    rw [sl1 i]
    by_cases c : i < index
    · rw [if_neg (by omega), if_pos c]
    · rw [if_pos (by omega), if_neg c]
  obtain ⟨q2, hq2, sl2, hd2, by1, by2⟩ := compact_spec (p := q1) (off := slot p index)
    (size := nodeSize p (isLeaf p) (slot p index)) (n := numKeys p - 1)
    (congrArg (· - 1) (f1 10 (by omega))) (by rw [up1]; simp only [hdrSize]; omega) (by simp only [pageSize]; omega) (by rw [up1]; omega)
    (by
      intro i hi2
      rw [up1, sl1' i hi2]
      generalize hk : (if i < index then i else i + 1) = k
      have hkn : k < numKeys p ∧ k ≠ index := by subst hk; split <;> omega
      have := wf.inside k hkn.1
      have := wf.apart k index hkn.1 hi hkn.2
      omega)
  rw [up1] at by1
  rw [hq2, Res.ok_bind]
  have e2 : ∀ j < 18, q2 j = p j := by
    intro j hj
    rw [hd2 j (by simpa only [hdrSize] using hj), out1 j (by left; simpa only [hdrSize] using hj)]
  have f2 : ∀ a, a + 2 ≤ 18 → u16 q2 a = u16 p a := fun a ha =>
    u16_congr (e2 _ (by omega)) (e2 _ (by omega))
  have nk2 : numKeys q2 = numKeys p := f2 10 (by omega)
  have lo2 : lower (put16 q2 10 (numKeys p + 65535)) = lower p := by
    unfold lower; rw [u16_put16_out (by omega)]; exact f2 12 (by omega)
  have up2 : upper (put16 (put16 q2 10 (numKeys p + 65535)) 12 (lower p + 65534)) = upper p := by
    unfold upper; rw [u16_put16_out (by omega), u16_put16_out (by omega)]; exact f2 14 (by omega)
  have hnk3 : (numKeys p + 65535) % 65536 = numKeys p - 1 := by
    have : numKeys p + 65535 = (numKeys p - 1) + 65536 := by omega
    rw [this, Nat.add_mod_right, Nat.mod_eq_of_lt (by omega)]
  have hlo3 : (lower p + 65534) % 65536 = lower p - 2 := by
    have : lower p + 65534 = (lower p - 2) + 65536 := by omega
    rw [this, Nat.add_mod_right, Nat.mod_eq_of_lt (by omega)]
  refine ⟨_, rfl, ?_⟩
  rw [nk2, lo2, up2]
  have nkq : numKeys (put16 (put16 (put16 q2 10 (numKeys p + 65535)) 12 (lower p + 65534)) 14
      (upper p + nodeSize p (isLeaf p) (slot p index))) = numKeys p - 1 := by
    show u16 _ 10 = _
    rw [u16_put16_out (by omega), u16_put16_out (by omega), u16_put16, hnk3]
  refine ⟨?_, ?_, by rw [nkq]; omega, ?_, ?_, ?_, ?_, ?_⟩
  · unfold flags
    rw [u16_put16_out (by omega), u16_put16_out (by omega), u16_put16_out (by omega), f2 8 (by omega)]
  · apply pgno_congr
    intro j hj
    rw [put16_out (by omega), put16_out (by omega), put16_out (by omega), e2 j (by omega)]
  · show u16 _ 12 + 2 = _
    rw [u16_put16_out (by omega), u16_put16, hlo3]; omega
  · show u16 _ 14 = _
    rw [u16_put16, Nat.mod_eq_of_lt (by omega)]
  · intro i hi2
    rw [nkq] at hi2
    rw [slot_congr (p := q2), sl2 i hi2, sl1' i hi2]
    intro j h1 h2
    simp only [hdrSize] at h1
    rw [put16_out (by omega), put16_out (by omega), put16_out (by omega)]
  · intro j h1 h2
    rw [put16_out (by omega), put16_out (by omega), put16_out (by omega), by1 j h1 h2,
      out1 j (by right; simp only [hdrSize]; omega)]
  · intro j h1 h2
    rw [put16_out (by omega), put16_out (by omega), put16_out (by omega), by2 j h1,
      out1 j (by right; simp only [hdrSize]; omega)]

end Verif.Page
