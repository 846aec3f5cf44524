import Verif.Page.Damage
import Verif.Page.Split

/-!
# Splitting a page of any contents (napr_db_tree.c L553-821)
-/

namespace Verif.Page

/-- The offset of node `i` as the page has it. -/
def offAt (p : Page) (i : Nat) : Nat := u16 p (18 + 2 * i)

/-- How many bytes node `i` takes by the sizes written in it. -/
def spanAt (p : Page) (leaf : Bool) (i : Nat) : Nat :=
  if leaf then 4 + u16 p (offAt p i) + u16 p (offAt p i + 2) else 10 + u16 p (offAt p i + 8)

/-- How many bytes the nodes `a`, `a + 1`, …, `a + n - 1` take. -/
def spanSum (p : Page) (leaf : Bool) (a n : Nat) : Nat := ((List.range' a n).map (spanAt p leaf)).sum

theorem spanAt_eq (p : Page) (leaf : Bool) (i : Nat) : nodeSize p leaf (slot p i) = spanAt p leaf i := by
  unfold nodeSize spanAt baseSize nodeKs nodeDs ksOff offAt slot hdrSize
  cases leaf <;> simp

/-- Copying nodes of any page to the right page appends what the nodes hold, as long as they lie inside the page and there is room. -/
theorem moveNodes_any {leaf : Bool} {l : Page} (sp : Nat) (n : Nat) : ∀ (r : Page) (idx : Nat), WF r →
    isLeaf r = leaf → numKeys r = idx - sp → sp ≤ idx → 18 + 2 * (idx + n) ≤ 4096 →
    (∀ i, idx ≤ i → i < idx + n → slot l i + nodeSize l leaf (slot l i) ≤ 4096) →
    lower r + 2 * n + ((List.range' idx n).map fun i => nodeSize l leaf (slot l i)).sum ≤ upper r →
    ∃ q, moveNodes leaf l sp r idx n = .ok q ∧ WF q ∧ flags q = flags r ∧ pgno q = pgno r ∧
      items q = items r ++ (List.range' idx n).map (fun i => itemAt l leaf (slot l i)) ∧
      upper q + ((List.range' idx n).map fun i => nodeSize l leaf (slot l i)).sum = upper r := by
  induction n with
  | zero =>
    intro r idx wfr hf _ _ _ _ _
    exact ⟨r, rfl, wfr, rfl, rfl, by simp, by simp⟩
  | succ n ih =>
    intro r idx wfr hf hnk hsp hidx hins hroom
    rw [List.range'_succ, List.map_cons, List.sum_cons] at hroom
    have hin := hins idx (Nat.le_refl _) (by omega)
    have hb := baseSize_le l leaf (slot l idx)
    have hb0 := baseSize_pos leaf
    have hlowr := wfr.low
    have hgapr := wfr.gap
    have htopr := wfr.top
    have hrl : isLeaf r = leaf := hf
    simp only [pageSize, hdrSize] at hlowr htopr
    unfold moveNodes
    rw [rdSlot_ok (by simp only [hdrSize, pageSize]; omega), Res.ok_bind, chk_ok (by simp only [pageSize]; omega), Res.ok_bind]
    rw [Nat.mod_eq_of_lt (show nodeSize l leaf (slot l idx) < 65536 by omega)]
    have hoff : (upper r + 65536 - nodeSize l leaf (slot l idx)) % 65536 = upper r - nodeSize l leaf (slot l idx) := by
      have : upper r + 65536 - nodeSize l leaf (slot l idx) = (upper r - nodeSize l leaf (slot l idx)) + 65536 := by omega
      rw [this, Nat.add_mod_right, Nat.mod_eq_of_lt (by omega)]
    simp only [hoff]
    generalize hsz : nodeSize l leaf (slot l idx) = sz at *
    generalize hu : upper r - sz = u at *
    rw [chk_ok (by simp only [pageSize]; omega), Res.ok_bind, chk_ok (by simp only [pageSize]; omega), Res.ok_bind,
      wrSlot_ok (by simp only [hdrSize, pageSize]; omega), Res.ok_bind]
    have hlen : (slice l (slot l idx) sz).length = sz := slice_length _ _ _
    -- header along the way
    have g1 : ∀ a, a + 2 ≤ 18 → u16 (put16 (blit r u (slice l (slot l idx) sz)) (hdrSize + 2 * (idx - sp)) u) a = u16 r a := by
      intro a ha
      rw [u16_put16_out (by simp only [hdrSize]; omega), u16_blit_out (by omega)]
    have nk1 : numKeys (put16 (blit r u (slice l (slot l idx) sz)) (hdrSize + 2 * (idx - sp)) u) = numKeys r := g1 10 (by omega)
    have lo1 : lower (put16 (put16 (blit r u (slice l (slot l idx) sz)) (hdrSize + 2 * (idx - sp)) u) 10 (numKeys r + 1)) = lower r := by
      unfold lower; rw [u16_put16_out (by omega)]; exact g1 12 (by omega)
    rw [nk1, lo1]
    generalize hq : put16 (put16 (put16 (put16 (blit r u (slice l (slot l idx) sz)) (hdrSize + 2 * (idx - sp)) u) 10 (numKeys r + 1)) 12 (lower r + 2)) 14 u = q
    have hbytes : ∀ t < sz, q (u + t) = l (slot l idx + t) := by
      intro t ht
      rw [← hq, put16_out (by omega), put16_out (by omega), put16_out (by omega), put16_out (by simp only [hdrSize]; omega),
        blit_in (by omega) (by omega)]
      have e : u + t - u = t := by omega
      rw [e, List.getD_eq_getElem?_getD, List.getElem?_eq_getElem (by omega), slice_getElem]
      rfl
    have hitem : itemAt q leaf u = itemAt l leaf (slot l idx) := by
      apply itemAt_congr; rw [hsz]; exact hbytes
    have hadd : Added r q (numKeys r) u sz := by
      refine ⟨?_, ?_, ?_, ?_, ?_, ?_, ?_, by omega, ?_, by omega⟩
      · rw [← hq]; unfold flags
        rw [u16_put16_out (by omega), u16_put16_out (by omega), u16_put16_out (by omega), g1 8 (by omega)]
      · apply pgno_congr
        intro j hj
        rw [← hq, put16_out (by omega), put16_out (by omega), put16_out (by omega), put16_out (by simp only [hdrSize]; omega),
          blit_out (by omega)]
      · show u16 q 10 = _
        rw [← hq, u16_put16_out (by omega), u16_put16_out (by omega), u16_put16, Nat.mod_eq_of_lt (by omega)]
      · show u16 q 12 = _
        rw [← hq, u16_put16_out (by omega), u16_put16, Nat.mod_eq_of_lt (by omega)]
      · show u16 q 14 = _
        rw [← hq, u16_put16, Nat.mod_eq_of_lt (by omega)]
      · intro i hi
        have hse : slot q i = slot (put16 (blit r u (slice l (slot l idx) sz)) (hdrSize + 2 * (idx - sp)) u) i := by
          apply slot_congr
          intro j h1 h2
          simp only [hdrSize] at h1
          rw [← hq, put16_out (by omega), put16_out (by omega), put16_out (by omega)]
        rw [hse, slot_put_slot (by omega)]
        by_cases c : i = idx - sp
        · rw [if_pos c, if_neg (by omega), if_pos (by omega)]
        · rw [if_neg c, if_pos (by omega)]
          apply slot_congr
          intro j h1 h2
          simp only [hdrSize] at h1 h2
          exact blit_out (by omega)
      · intro j h1 h2
        rw [← hq, put16_out (by omega), put16_out (by omega), put16_out (by omega), put16_out (by simp only [hdrSize]; omega),
          blit_out (by omega)]
      · rw [hrl, ← itemAt_size, hitem, itemAt_size, hsz]
    have hitems := hadd.items wfr (Nat.le_refl _)
    have hwf := hadd.wf wfr (Nat.le_refl _)
    have hfl : isLeaf q = leaf := by rw [← hf]; exact isLeaf_congr hadd.fl
    obtain ⟨q', h1, h2, h3, h4, h5, h6⟩ := ih q (idx + 1) hwf hfl (by rw [hadd.nk, hnk]; omega) (by omega) (by omega)
      (fun i h1 h2 => hins i (by omega) (by omega)) (by rw [hadd.lo, hadd.up]; omega)
    refine ⟨q', h1, h2, by rw [h3, hadd.fl], by rw [h4, hadd.no], ?_, ?_⟩
    · rw [h5, hitems, hrl, hitem]
      have e1 : (items r).insertIdx (numKeys r) (itemAt l leaf (slot l idx)) = items r ++ [itemAt l leaf (slot l idx)] := by
        rw [← items_length r, List.insertIdx_length_self]
      rw [e1, List.range'_succ, List.map_cons, List.append_assoc]; rfl
    · rw [List.range'_succ, List.map_cons, List.sum_cons, hsz]; rw [hadd.up] at h6; omega

/-- If the next node is not inside the page, or is larger than what is left of the new page, copying is undefined. -/
theorem moveNodes_ub {leaf : Bool} {l : Page} (sp : Nat) (n : Nat) (r : Page) (idx : Nat) (hu : upper r ≤ 4096)
    (h : 4096 < 20 + 2 * idx ∨ 4096 < slot l idx + baseSize leaf ∨ 4096 < slot l idx + nodeSize l leaf (slot l idx) % 65536 ∨
      upper r < nodeSize l leaf (slot l idx) % 65536) :
    moveNodes leaf l sp r idx (n + 1) = .ub := by
  unfold moveNodes
  by_cases h0 : 20 + 2 * idx ≤ 4096
  · rw [rdSlot_ok (by simp only [hdrSize, pageSize]; omega), Res.ok_bind]
    by_cases h1 : slot l idx + baseSize leaf ≤ 4096
    · rw [chk_ok (by simpa only [pageSize] using h1), Res.ok_bind]
      dsimp only
      generalize hs : nodeSize l leaf (slot l idx) % 65536 = size at *
      have hsl : size < 65536 := by rw [← hs]; exact Nat.mod_lt _ (by omega)
      by_cases h2 : slot l idx + size ≤ 4096
      · rw [chk_ok (by simpa only [pageSize] using h2), Res.ok_bind]
        have hc : chk ((upper r + 65536 - size) % 65536) size = .ub := by
          unfold chk pageSize
          rw [if_neg]
          rw [Nat.mod_eq_of_lt (by omega)]; omega
        rw [hc]; rfl
      · have hc : chk (slot l idx) size = .ub := by unfold chk pageSize; rw [if_neg h2]
        rw [hc]; rfl
    · have hc : chk (slot l idx) (baseSize leaf) = .ub := by unfold chk pageSize; rw [if_neg h1]
      rw [hc]; rfl
  · rw [(rdSlot_exact l idx).2 (by omega)]; rfl

theorem bind_bind {α β γ : Type} (x : Res α) (f : α → Res β) (g : β → Res γ) : ((x >>= f) >>= g) = (x >>= fun a => f a >>= g) := by
  cases x <;> rfl

theorem moveNodes_append {leaf : Bool} {l : Page} (sp : Nat) (m : Nat) : ∀ (n : Nat) (r : Page) (idx : Nat),
    moveNodes leaf l sp r idx (n + m) = moveNodes leaf l sp r idx n >>= fun q => moveNodes leaf l sp q (idx + n) m := by
  intro n
  induction n with
  | zero => intro r idx; rw [Nat.zero_add]; rfl
  | succ n ih =>
    intro r idx
    rw [show n + 1 + m = (n + m) + 1 by omega]
    rw [moveNodes.eq_2, moveNodes.eq_2]
    simp only [ih, bind_bind, show idx + 1 + n = idx + (n + 1) by omega]

/-- Making the left page smaller, whatever it holds: the number of keys, the end of the slots and the lowest offset left are written, nothing else. -/
theorem shrink_any (p : Page) (sp : Nat) (h : 18 + 2 * sp ≤ 4096) :
    ∃ q m, shrink p sp = .ok q ∧ u16 q 10 = sp ∧ u16 q 12 = 18 + 2 * sp ∧ u16 q 14 = m ∧ (∀ j, j < 10 ∨ 16 ≤ j → q j = p j) ∧
      (∀ i < sp, m ≤ offAt p i) ∧ m ≤ 4096 ∧ (m = 4096 ∨ ∃ i < sp, m = offAt p i) := by
  unfold shrink
  dsimp only
  generalize hq1 : put16 (put16 p 10 sp) 12 (hdrSize + sp * 2) = q1
  obtain ⟨m, hm, hmle, hmall, hmex⟩ := minOffset_spec (p := q1) sp (by simp only [hdrSize, pageSize]; omega)
  have hsl : ∀ i, slot q1 i = offAt p i := by
    intro i
    show u16 q1 _ = u16 p _
    rw [← hq1, u16_put16_out (by simp only [hdrSize]; omega), u16_put16_out (by simp only [hdrSize]; omega)]; rfl
  simp only [hsl, pageSize] at hmle hmall hmex
  rw [hm, Res.ok_bind]
  refine ⟨_, m, rfl, ?_, ?_, ?_, ?_, hmall, hmle, hmex⟩
  · rw [u16_put16_out (by omega), ← hq1, u16_put16_out (by omega), u16_put16, Nat.mod_eq_of_lt (by omega)]
  · rw [u16_put16_out (by omega), ← hq1, u16_put16, Nat.mod_eq_of_lt (by simp only [hdrSize]; omega)]; simp only [hdrSize]; omega
  · rw [u16_put16, Nat.mod_eq_of_lt (by omega)]
  · intro j hj
    rw [put16_out (by omega), ← hq1, put16_out (by omega), put16_out (by omega)]

/-- Copying the upper half of a page of any contents. -/
theorem moveHalf_any (p : Page) (leaf : Bool) (no : Nat) (hno : no < 2 ^ 64) (sp j : Nat) (hj : sp ≤ j)
    (hin : ∀ i, sp ≤ i → i < j → 20 + 2 * i ≤ 4096 ∧ offAt p i + spanAt p leaf i ≤ 4096) (hroom : 18 + 2 * (j - sp) + spanSum p leaf sp (j - sp) ≤ 4096) :
    ∃ r, moveNodes leaf p sp (emptyPage leaf no) sp (j - sp) = .ok r ∧ WF r ∧ isLeaf r = leaf ∧ pgno r = no ∧ numKeys r = j - sp ∧
      items r = (List.range' sp (j - sp)).map (fun i => itemAt p leaf (offAt p i)) ∧ upper r + spanSum p leaf sp (j - sp) = 4096 := by
  have hof : ∀ i, slot p i = offAt p i := fun _ => rfl
  obtain ⟨f1, f2, f3, f4, f5⟩ := emptyPage_fields leaf no hno
  by_cases hz : j = sp
  · subst hz
    rw [Nat.sub_self]
    exact ⟨_, rfl, emptyPage_wf leaf no hno, emptyPage_isLeaf leaf no hno, f5, f2, by rw [emptyPage_items leaf no hno]; rfl, f4⟩
  · have hl := hin (j - 1) (by omega) (by omega)
    obtain ⟨q, h1, h2, h3, h4, h5, h6⟩ := moveNodes_any (leaf := leaf) (l := p) sp (j - sp) (emptyPage leaf no) sp (emptyPage_wf leaf no hno)
      (emptyPage_isLeaf leaf no hno) (by rw [f2]; omega) (Nat.le_refl _) (by omega)
      (fun i a b => by rw [spanAt_eq, hof]; exact (hin i a (by omega)).2)
      (by rw [f3, f4]; simp only [spanAt_eq]; exact hroom)
    simp only [spanAt_eq] at h6
    rw [emptyPage_items leaf no hno, List.nil_append] at h5
    refine ⟨q, h1, h2, by rw [← emptyPage_isLeaf leaf no hno]; exact isLeaf_congr h3, by rw [h4, f5], ?_, h5, by rw [← f4]; exact h6⟩
    rw [← items_length q, h5]; simp

/-- The kind of node a split copies lies inside the page. -/
def Fit (p : Page) (leaf : Bool) (i : Nat) : Prop := 20 + 2 * i ≤ 4096 ∧ offAt p i + spanAt p leaf i ≤ 4096

/-- **C116.**  Splitting a leaf of any contents: `APR_EINVAL` without the leaf flag.  If the nodes of the upper half lie inside the page and together fit into an empty one, the split is defined: the new page is well
formed and holds exactly what those nodes hold, in their order (overlapping or unordered as they may be), and of the old page only the three numbers in the header change. -/
theorem splitLeaf_any (p : Page) (no : Nat) (hno : no < 2 ^ 64) :
    let n := u16 p 10
    let sp := n / 2
    ((u16 p 8).testBit 1 = false → splitLeaf p no = .ok none) ∧
    ((u16 p 8).testBit 1 = true → n ≠ 0 → (∀ i, sp ≤ i → i < n → Fit p true i) → 18 + 2 * (n - sp) + spanSum p true sp (n - sp) ≤ 4096 →
      ∃ s, splitLeaf p no = .ok (some s) ∧ WF s.right ∧ isLeaf s.right = true ∧ pgno s.right = no ∧
        items s.right = (List.range' sp (n - sp)).map (fun i => itemAt p true (offAt p i)) ∧ s.divider = keyAt p true sp ∧
        u16 s.left 10 = sp ∧ u16 s.left 12 = 18 + 2 * sp ∧ (∀ j, j < 10 ∨ 16 ≤ j → s.left j = p j) ∧
        (∀ i < sp, u16 s.left 14 ≤ offAt p i) ∧ (u16 s.left 14 = 4096 ∨ ∃ i < sp, u16 s.left 14 = offAt p i)) ∧
    ((u16 p 8).testBit 1 = true → ∀ j, sp ≤ j → j < n → (∀ i, sp ≤ i → i < j → Fit p true i) → 18 + 2 * (j - sp) + spanSum p true sp (j - sp) ≤ 4096 →
      (4096 < 20 + 2 * j ∨ 4096 < offAt p j + 4 ∨ 4096 < offAt p j + spanAt p true j % 65536 ∨ 4096 < spanSum p true sp (j - sp) + spanAt p true j % 65536) →
      splitLeaf p no = .ub) := by
  obtain ⟨-, hl⟩ := flag_bits p
  intro n sp
  have hnk : numKeys p = n := rfl
  have hof : ∀ i, slot p i = offAt p i := fun _ => rfl
  refine ⟨fun h => ?_, fun h h0 hin hroom => ?_, fun h j h1 h2 hin hroom hbad => ?_⟩
  · unfold splitLeaf; rw [hl, h]; rfl
  · obtain ⟨r, e1, wf, hlf, hpn, hn, hit, -⟩ := moveHalf_any p true no hno sp n (by omega) hin hroom
    obtain ⟨l, m, e2, l1, l2, l3, l4, l5, -, l6⟩ := shrink_any p sp (by have := (hin (n - 1) (by omega) (by omega)).1; omega)
    have hpos : numKeys r ≠ 0 := by omega
    have hfk : firstKey r true = .ok (keyAt p true sp) := by
      have hi := wf.inside 0 (by omega)
      rw [hlf] at hi
      have hi1 : slot r 0 + nodeSize r true (slot r 0) ≤ 4096 := hi.2
      rw [spanAt_eq] at hi1
      have hi2 : u16 r 18 + (4 + u16 r (u16 r 18) + u16 r (u16 r 18 + 2)) ≤ 4096 := hi1
      rw [(firstKey_any r true).1 (by simp only [if_true, Nat.add_zero]; omega)]
      have h00 : (items r)[0]'(by rw [items_length]; omega) = itemAt p true (offAt p sp) := by
        simp only [hit]; rw [List.getElem_map, List.getElem_range']; simp
      rw [items_getElem, hlf] at h00
      exact congrArg Res.ok (congrArg Item.key h00)
    refine ⟨⟨l, r, keyAt p true sp⟩, ?_, wf, hlf, hpn, hit, rfl, l1, l2, l4, by rw [l3]; exact l5, by rw [l3]; exact l6⟩
    unfold splitLeaf
    rw [hl, h]
    simp only [Bool.not_true, Bool.false_eq_true, if_false, hnk]
    show (moveNodes true p sp (emptyPage true no) sp (n - sp) >>= fun r => shrink p sp >>= fun l => dividerOf r >>= fun d => _) = _
    rw [e1, Res.ok_bind, e2, Res.ok_bind, dividerOf_pos hpos, hfk, Res.ok_bind]
  · obtain ⟨r, e1, wf, hlf, hpn, hn, hit, hup⟩ := moveHalf_any p true no hno sp j h1 hin hroom
    unfold splitLeaf
    rw [hl, h]
    simp only [Bool.not_true, Bool.false_eq_true, if_false, hnk]
    show (moveNodes true p sp (emptyPage true no) sp (n - sp) >>= fun r => _) = _
    rw [show n - sp = (j - sp) + (n - j - 1 + 1) by omega, moveNodes_append, e1, Res.ok_bind, show sp + (j - sp) = j by omega,
      moveNodes_ub sp _ r j (by omega) (by rw [spanAt_eq, hof]; show _ ∨ 4096 < offAt p j + 4 ∨ _; omega)]
    rfl

/-- **C116.**  The same for a branch of any contents; an empty one is an error too.  If the nodes of the upper half lie inside the page and together fit into an empty one, the split is defined: the new page is well
formed and holds exactly what those nodes hold, in their order (overlapping or unordered as they may be), and of the old page only the three numbers in the header change. -/
theorem splitBranch_any (p : Page) (no : Nat) (hno : no < 2 ^ 64) :
    let n := u16 p 10
    let sp := n / 2
    ((u16 p 8).testBit 0 = false → splitBranch p no = .ok none) ∧
    ((u16 p 8).testBit 0 = true → n = 0 → splitBranch p no = .ok none) ∧
    ((u16 p 8).testBit 0 = true → n ≠ 0 → (∀ i, sp ≤ i → i < n → Fit p false i) → 18 + 2 * (n - sp) + spanSum p false sp (n - sp) ≤ 4096 →
      ∃ s, splitBranch p no = .ok (some s) ∧ WF s.right ∧ isLeaf s.right = false ∧ pgno s.right = no ∧
        items s.right = (List.range' sp (n - sp)).map (fun i => itemAt p false (offAt p i)) ∧ s.divider = keyAt p false sp ∧
        u16 s.left 10 = sp ∧ u16 s.left 12 = 18 + 2 * sp ∧ (∀ j, j < 10 ∨ 16 ≤ j → s.left j = p j) ∧
        (∀ i < sp, u16 s.left 14 ≤ offAt p i) ∧ (u16 s.left 14 = 4096 ∨ ∃ i < sp, u16 s.left 14 = offAt p i)) ∧
    ((u16 p 8).testBit 0 = true → ∀ j, sp ≤ j → j < n → (∀ i, sp ≤ i → i < j → Fit p false i) → 18 + 2 * (j - sp) + spanSum p false sp (j - sp) ≤ 4096 →
      (4096 < 20 + 2 * j ∨ 4096 < offAt p j + 10 ∨ 4096 < offAt p j + spanAt p false j % 65536 ∨ 4096 < spanSum p false sp (j - sp) + spanAt p false j % 65536) →
      splitBranch p no = .ub) := by
  obtain ⟨hl, -⟩ := flag_bits p
  intro n sp
  have hnk : numKeys p = n := rfl
  have hof : ∀ i, slot p i = offAt p i := fun _ => rfl
  refine ⟨fun h => ?_, fun h h0 => ?_, fun h h0 hin hroom => ?_, fun h j h1 h2 hin hroom hbad => ?_⟩
  · unfold splitBranch; rw [hl, h]; rfl
  · have hsp : sp = 0 := by omega
    obtain ⟨l, m, e2, -⟩ := shrink_any p sp (by omega)
    unfold splitBranch
    rw [hl, h]
    simp only [Bool.not_true, Bool.false_eq_true, if_false, hnk]
    show (moveNodes false p sp (emptyPage false no) sp (n - sp) >>= fun r => shrink p sp >>= fun l => _) = _
    rw [show n - sp = 0 by omega, moveNodes.eq_1, Res.ok_bind, e2, Res.ok_bind, if_pos (emptyPage_fields false no hno).2.1]
  · obtain ⟨r, e1, wf, hlf, hpn, hn, hit, -⟩ := moveHalf_any p false no hno sp n (by omega) hin hroom
    obtain ⟨l, m, e2, l1, l2, l3, l4, l5, -, l6⟩ := shrink_any p sp (by have := (hin (n - 1) (by omega) (by omega)).1; omega)
    have hpos : numKeys r ≠ 0 := by omega
    have hfk : firstKey r false = .ok (keyAt p false sp) := by
      have hi := wf.inside 0 (by omega)
      rw [hlf] at hi
      have hi1 : slot r 0 + nodeSize r false (slot r 0) ≤ 4096 := hi.2
      rw [spanAt_eq] at hi1
      have hi2 : u16 r 18 + (10 + u16 r (u16 r 18 + 8)) ≤ 4096 := hi1
      rw [(firstKey_any r false).1 (by simp only [Bool.false_eq_true, if_false]; omega)]
      have h00 : (items r)[0]'(by rw [items_length]; omega) = itemAt p false (offAt p sp) := by
        simp only [hit]; rw [List.getElem_map, List.getElem_range']; simp
      rw [items_getElem, hlf] at h00
      exact congrArg Res.ok (congrArg Item.key h00)
    refine ⟨⟨l, r, keyAt p false sp⟩, ?_, wf, hlf, hpn, hit, rfl, l1, l2, l4, by rw [l3]; exact l5, by rw [l3]; exact l6⟩
    unfold splitBranch
    rw [hl, h]
    simp only [Bool.not_true, Bool.false_eq_true, if_false, hnk]
    show (moveNodes false p sp (emptyPage false no) sp (n - sp) >>= fun r => shrink p sp >>= fun l => _) = _
    rw [e1, Res.ok_bind, e2, Res.ok_bind, if_neg hpos, hfk, Res.ok_bind]
  · obtain ⟨r, e1, wf, hlf, hpn, hn, hit, hup⟩ := moveHalf_any p false no hno sp j h1 hin hroom
    unfold splitBranch
    rw [hl, h]
    simp only [Bool.not_true, Bool.false_eq_true, if_false, hnk]
    show (moveNodes false p sp (emptyPage false no) sp (n - sp) >>= fun r => _) = _
    rw [show n - sp = (j - sp) + (n - j - 1 + 1) by omega, moveNodes_append, e1, Res.ok_bind, show sp + (j - sp) = j by omega,
      moveNodes_ub sp _ r j (by omega) (by rw [spanAt_eq, hof]; show _ ∨ 4096 < offAt p j + 10 ∨ _; omega)]
    rfl

/-! ## Examples -/

/-- A leaf with two slots for the same node, `k` with the value `1 2`, at 100, although the header says nothing lies below 4000. -/
def exTwice : Page :=
  let p := put16 (put16 (put16 (put16 (fun _ => 0) 8 2) 10 2) 12 22) 14 4000
  blit (put16 (put16 p 18 100) 20 100) 100 [1, 0, 2, 0, 107, 1, 2]

/-- It is split without harm; the second half gets its copy of the entry. -/
example : ∃ s, splitLeaf exTwice 7 = .ok (some s) ∧ items s.right = [.leaf [107] [1, 2]] ∧ s.divider = [107] ∧ u16 s.left 10 = 1 ∧ u16 s.left 14 = 100 := by
  obtain ⟨-, h, -⟩ := splitLeaf_any exTwice 7 (by decide)
  obtain ⟨s, h1, -, -, -, h2, h3, h4, -, -, h5, h6⟩ := h (by decide +kernel) (by decide +kernel)
    (by intro i h1 h2
        have e1 : u16 exTwice 10 / 2 = 1 := by decide +kernel
        have e2 : u16 exTwice 10 = 2 := by decide +kernel
        obtain rfl : i = 1 := by omega
        unfold Fit; decide +kernel) (by decide +kernel)
  refine ⟨s, h1, by rw [h2]; decide +kernel, by rw [h3]; decide +kernel, by rw [h4]; decide +kernel, ?_⟩
  rcases h6 with h | ⟨i, hi, h⟩
  · have := h5 0 (by decide +kernel)
    have e : offAt exTwice 0 = 100 := by decide +kernel
    omega
  · have e1 : u16 exTwice 10 / 2 = 1 := by decide +kernel
    obtain rfl : i = 0 := by omega
    rw [h]; decide +kernel

/-- The page with a slot that points beyond it cannot be split. -/
example : splitLeaf exBroken 7 = .ub := by
  obtain ⟨-, -, h⟩ := splitLeaf_any exBroken 7 (by decide)
  refine h (by decide +kernel) 2 (by decide +kernel) (by decide +kernel) ?_ (by decide +kernel) (.inr (.inl (by decide +kernel)))
  intro i h1 h2
  have e1 : u16 exBroken 10 / 2 = 1 := by decide +kernel
  obtain rfl : i = 1 := by omega
  unfold Fit; decide +kernel

/-- A branch whose only slot points at byte 4090, where there is no room for a node, cannot be split; with the slot at 200 it can. -/
def exBough (o : Nat) : Page := put16 (put16 (put16 (put16 (put16 (fun _ => 0) 8 1) 10 1) 12 20) 14 200) 18 o

example : splitBranch (exBough 4090) 7 = .ub ∧ ∃ s, splitBranch (exBough 200) 7 = .ok (some s) ∧ items s.right = [.branch [] 0] := by
  constructor
  · obtain ⟨-, -, -, h⟩ := splitBranch_any (exBough 4090) 7 (by decide)
    refine h (by decide +kernel) 0 (by decide +kernel) (by decide +kernel) (fun i _ h => by omega) (by decide +kernel) (.inr (.inl (by decide +kernel)))
  · obtain ⟨-, -, h, -⟩ := splitBranch_any (exBough 200) 7 (by decide)
    obtain ⟨s, h1, -, -, -, h2, -⟩ := h (by decide +kernel) (by decide +kernel) (fun i h1 h2 => by
      have e1 : u16 (exBough 200) 10 = 1 := by decide +kernel
      obtain rfl : i = 0 := by omega
      unfold Fit; decide +kernel) (by decide +kernel)
    exact ⟨s, h1, by rw [h2]; decide +kernel⟩

end Verif.Page
