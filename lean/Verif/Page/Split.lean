import Verif.Page.Ops

/-!
# Splitting a page: helper lemmas
-/

namespace Verif.Page

/-- Disjoint intervals inside `[lo, hi)` have total length at most `hi - lo`. -/
theorem packing (n : Nat) : ∀ (l : List (Nat × Nat)) (lo hi : Nat), l.length = n →
    (∀ x ∈ l, lo ≤ x.1 ∧ x.1 + x.2 ≤ hi) →
    l.Pairwise (fun x y => x.1 + x.2 ≤ y.1 ∨ y.1 + y.2 ≤ x.1) → lo ≤ hi →
    lo + (l.map Prod.snd).sum ≤ hi := by
  induction n using Nat.strongRecOn with
  | _ n ih =>
    intro l lo hi hlen hin hpw hle
    cases l with
    | nil => simpa using hle
    | cons a t =>
      obtain ⟨o, s⟩ := a
      obtain ⟨hd, ht⟩ := List.pairwise_cons.1 hpw
      have ha := hin (o, s) (by simp)
      simp only at ha
      have hsum : ∀ (m : List (Nat × Nat)) (f : Nat × Nat → Bool),
          (m.map Prod.snd).sum = ((m.filter f).map Prod.snd).sum + ((m.filter fun x => !f x).map Prod.snd).sum := by
        intro m f
        induction m with
        | nil => rfl
        | cons x m ihm => cases hf : f x <;> simp [hf, ihm] <;> omega
      have hl : t.length < n := by simp at hlen; omega
      let f : Nat × Nat → Bool := fun x => decide (x.1 + x.2 ≤ o)
      have h1 := ih (t.filter f).length (by have := List.length_filter_le f t; omega) (t.filter f) lo o rfl
        (by
          intro x hx
          rw [List.mem_filter] at hx
          have := hin x (List.mem_cons_of_mem _ hx.1)
          exact ⟨this.1, by simpa [f] using hx.2⟩) (ht.filter _) ha.1
      have h2 := ih (t.filter fun x => !f x).length (by have := List.length_filter_le (fun x => !f x) t; omega)
        (t.filter fun x => !f x) (o + s) hi rfl
        (by
          intro x hx
          rw [List.mem_filter] at hx
          have h3 := hin x (List.mem_cons_of_mem _ hx.1)
          have h4 := hd x hx.1
          have h5 : ¬ (x.1 + x.2 ≤ o) := by simpa [f] using hx.2
          simp only at h4
          omega) (ht.filter _) ha.2
      have := hsum t f
      simp only [List.map_cons, List.sum_cons]
      omega

/-- Total size of the `n` nodes from position `a` on. -/
def sizes (p : Page) (a n : Nat) : Nat :=
  ((List.range' a n).map fun i => nodeSize p (isLeaf p) (slot p i)).sum

theorem sizes_zero (p : Page) (a : Nat) : sizes p a 0 = 0 := by simp [sizes]

theorem sizes_succ (p : Page) (a n : Nat) :
    sizes p a (n + 1) = nodeSize p (isLeaf p) (slot p a) + sizes p (a + 1) n := by
  simp [sizes, List.range'_succ]

theorem WF.sizes_le {p : Page} (wf : WF p) {a n : Nat} (h : a + n ≤ numKeys p) :
    upper p + sizes p a n ≤ pageSize := by
  have := packing n ((List.range' a n).map fun i => (slot p i, nodeSize p (isLeaf p) (slot p i))) (upper p)
    pageSize (by simp) (by
      intro x hx
      obtain ⟨i, hi, rfl⟩ := List.mem_map.1 hx
      rw [List.mem_range'_1] at hi
      exact wf.inside i (by omega)) (by
      rw [List.pairwise_map]
      refine List.Pairwise.imp_of_mem ?_ (List.pairwise_lt_range' (s := a) (n := n))
      intro i j hi hj hij
      rw [List.mem_range'_1] at hi hj
      exact wf.apart i j (by omega) (by omega) (by omega)) wf.top
  rw [List.map_map] at this
  exact this

theorem emptyPage_fields (leaf : Bool) (no : Nat) (hno : no < 2 ^ 64) :
    flags (emptyPage leaf no) = (if leaf then 2 else 1) ∧ numKeys (emptyPage leaf no) = 0 ∧
    lower (emptyPage leaf no) = 18 ∧ upper (emptyPage leaf no) = 4096 ∧ pgno (emptyPage leaf no) = no := by
  refine ⟨?_, ?_, ?_, ?_, ?_⟩
  · show u16 _ 8 = _
    unfold emptyPage
    simp only []
    rw [u16_put16_out (by omega), u16_put16_out (by omega), u16_put16_out (by omega), u16_put16_out (by omega), u16_put16]
    cases leaf <;> rfl
  · show u16 _ 10 = _
    unfold emptyPage
    simp only []
    rw [u16_put16_out (by omega), u16_put16_out (by omega), u16_put16_out (by omega), u16_put16]
  · show u16 _ 12 = _
    unfold emptyPage
    simp only []
    rw [u16_put16_out (by omega), u16_put16_out (by omega), u16_put16]
    rfl
  · show u16 _ 14 = _
    unfold emptyPage
    simp only []
    rw [u16_put16_out (by omega), u16_put16]
    rfl
  · show u64 _ 0 = _
    unfold emptyPage
    simp only []
    rw [u64_congr (q := put64 (fun _ => 0) 0 no) (o' := 0), u64_put64, Nat.mod_eq_of_lt hno]
    intro i hi
    rw [put16_out (by omega), put16_out (by omega), put16_out (by omega), put16_out (by omega), put16_out (by omega)]

theorem emptyPage_wf (leaf : Bool) (no : Nat) (hno : no < 2 ^ 64) : WF (emptyPage leaf no) := by
  obtain ⟨h1, h2, h3, h4, _⟩ := emptyPage_fields leaf no hno
  refine ⟨by rw [h1]; cases leaf <;> simp, by rw [h3, h2]; rfl, by rw [h3, h4]; omega,
    by rw [h4]; exact Nat.le_refl _, ?_, ?_⟩
  · intro i hi; rw [h2] at hi; omega
  · intro i j hi; rw [h2] at hi; omega

theorem emptyPage_isLeaf (leaf : Bool) (no : Nat) (hno : no < 2 ^ 64) :
    isLeaf (emptyPage leaf no) = leaf := by
  unfold isLeaf; rw [(emptyPage_fields leaf no hno).1]; cases leaf <;> rfl

theorem emptyPage_items (leaf : Bool) (no : Nat) (hno : no < 2 ^ 64) : items (emptyPage leaf no) = [] := by
  unfold items; rw [(emptyPage_fields leaf no hno).2.1]; rfl

/-- Copying nodes to the right page appends their entries. -/
theorem moveNodes_spec {l : Page} (wfl : WF l) (sp : Nat) (n : Nat) : ∀ (r : Page) (idx : Nat), WF r →
    flags r = flags l → numKeys r = idx - sp → sp ≤ idx → idx + n ≤ numKeys l →
    lower r + 2 * n + sizes l idx n ≤ upper r →
    ∃ q, moveNodes (isLeaf l) l sp r idx n = .ok q ∧ WF q ∧ flags q = flags l ∧ pgno q = pgno r ∧
      items q = items r ++ ((items l).drop idx).take n ∧ upper q + sizes l idx n = upper r := by
  induction n with
  | zero =>
    intro r idx wfr hf _ _ _ _
    exact ⟨r, rfl, wfr, hf, rfl, by simp, by rw [sizes_zero]; rfl⟩
  | succ n ih =>
    intro r idx wfr hf hnk hsp hidx hroom
    rw [sizes_succ] at hroom
    have hin := wfl.inside idx (by omega)
    have hb := baseSize_le l (isLeaf l) (slot l idx)
    have hb0 := baseSize_pos (isLeaf l)
    have hlow := wfl.low
    have hgap := wfl.gap
    have htop := wfl.top
    have hlowr := wfr.low
    have hgapr := wfr.gap
    have htopr := wfr.top
    have hrl : isLeaf r = isLeaf l := isLeaf_congr hf
    simp only [pageSize, hdrSize] at hin hlow htop hlowr htopr
    unfold moveNodes
    rw [rdSlot_ok (by simp only [hdrSize, pageSize]; omega), Res.ok_bind, chk_ok (by simp only [pageSize]; omega), Res.ok_bind]
    rw [Nat.mod_eq_of_lt (show nodeSize l (isLeaf l) (slot l idx) < 65536 by omega)]
    have hoff : (upper r + 65536 - nodeSize l (isLeaf l) (slot l idx)) % 65536 = upper r - nodeSize l (isLeaf l) (slot l idx) := by
      have : upper r + 65536 - nodeSize l (isLeaf l) (slot l idx) = (upper r - nodeSize l (isLeaf l) (slot l idx)) + 65536 := by omega
      rw [this, Nat.add_mod_right, Nat.mod_eq_of_lt (by omega)]
    simp only [hoff]
    generalize hsz : nodeSize l (isLeaf l) (slot l idx) = sz at *
    generalize hu : upper r - sz = u at *
    rw [chk_ok (by simp only [pageSize]; omega), Res.ok_bind, chk_ok (by simp only [pageSize]; omega), Res.ok_bind,
      wrSlot_ok (by simp only [hdrSize, pageSize]; omega), Res.ok_bind]
    have hlen : (slice l (slot l idx) sz).length = sz := slice_length _ _ _
    -- header along the way
    have g1 : ∀ a, a + 2 ≤ 18 → u16 (put16 (blit r u (slice l (slot l idx) sz)) (hdrSize + 2 * (idx - sp)) u) a = u16 r a := by
      intro a ha
      rw [u16_put16_out (by simp only [hdrSize]; omega), u16_blit_out (by omega)]
    have nk1 : numKeys (put16 (blit r u (slice l (slot l idx) sz)) (hdrSize + 2 * (idx - sp)) u) = numKeys r := g1 10 (by omega)
    have lo1 : lower (put16 (put16 (blit r u (slice l (slot l idx) sz)) (hdrSize + 2 * (idx - sp)) u) 10 (numKeys r + 1)) = lower r := by
      unfold lower; rw [u16_put16_out (by omega)]; exact g1 12 (by omega)
    rw [nk1, lo1]
    generalize hq : put16 (put16 (put16 (put16 (blit r u (slice l (slot l idx) sz)) (hdrSize + 2 * (idx - sp)) u) 10 (numKeys r + 1)) 12 (lower r + 2)) 14 u = q
    have hbytes : ∀ t < sz, q (u + t) = l (slot l idx + t) := by
      intro t ht
      rw [← hq, put16_out (by omega), put16_out (by omega), put16_out (by omega), put16_out (by simp only [hdrSize]; omega),
        blit_in (by omega) (by omega)]
      have e : u + t - u = t := by omega
      rw [e, List.getD_eq_getElem?_getD, List.getElem?_eq_getElem (by omega), slice_getElem]
      rfl
    have hitem : itemAt q (isLeaf l) u = itemAt l (isLeaf l) (slot l idx) := by
      apply itemAt_congr; rw [hsz]; exact hbytes
    have hadd : Added r q (numKeys r) u sz := by
      refine ⟨?_, ?_, ?_, ?_, ?_, ?_, ?_, by omega, ?_, by omega⟩
      · rw [← hq]; unfold flags
        rw [u16_put16_out (by omega), u16_put16_out (by omega), u16_put16_out (by omega), g1 8 (by omega)]
      · apply pgno_congr
        intro j hj
        rw [← hq, put16_out (by omega), put16_out (by omega), put16_out (by omega), put16_out (by simp only [hdrSize]; omega),
          blit_out (by omega)]
      · show u16 q 10 = _
        rw [← hq, u16_put16_out (by omega), u16_put16_out (by omega), u16_put16, Nat.mod_eq_of_lt (by omega)]
      · show u16 q 12 = _
        rw [← hq, u16_put16_out (by omega), u16_put16, Nat.mod_eq_of_lt (by omega)]
      · show u16 q 14 = _
        rw [← hq, u16_put16, Nat.mod_eq_of_lt (by omega)]
      · intro i hi
        have hse : slot q i = slot (put16 (blit r u (slice l (slot l idx) sz)) (hdrSize + 2 * (idx - sp)) u) i := by
          apply slot_congr
          intro j h1 h2
          simp only [hdrSize] at h1
          rw [← hq, put16_out (by omega), put16_out (by omega), put16_out (by omega)]
        rw [hse, slot_put_slot (by omega)]
        by_cases c : i = idx - sp
        · rw [if_pos c, if_neg (by omega), if_pos (by omega)]
        · rw [if_neg c, if_pos (by omega)]
          apply slot_congr
          intro j h1 h2
          simp only [hdrSize] at h1 h2
          exact blit_out (by omega)
      · intro j h1 h2
        rw [← hq, put16_out (by omega), put16_out (by omega), put16_out (by omega), put16_out (by simp only [hdrSize]; omega),
          blit_out (by omega)]
      · rw [hrl, ← itemAt_size, hitem, itemAt_size, hsz]
    have hitems := hadd.items wfr (Nat.le_refl _)
    have hwf := hadd.wf wfr (Nat.le_refl _)
    have hfl : flags q = flags l := by rw [hadd.fl, hf]
    obtain ⟨q', h1, h2, h3, h4, h5, h6⟩ := ih q (idx + 1) hwf hfl (by rw [hadd.nk, hnk]; omega) (by omega) (by omega)
      (by rw [hadd.lo, hadd.up]; omega)
    refine ⟨q', h1, h2, h3, by rw [h4, hadd.no], ?_, ?_⟩
    · rw [h5, hitems, hrl, hitem]
      have e1 : (items r).insertIdx (numKeys r) (itemAt l (isLeaf l) (slot l idx)) = items r ++ [itemAt l (isLeaf l) (slot l idx)] := by
        rw [← items_length r, List.insertIdx_length_self]
      have e2 : ((items l).drop idx).take (n + 1) = itemAt l (isLeaf l) (slot l idx) :: ((items l).drop (idx + 1)).take n := by
        rw [List.drop_eq_getElem_cons (by simp; omega), List.take_succ_cons, items_getElem]
      rw [e1, e2, List.append_assoc]; rfl
    · rw [sizes_succ, hsz]; rw [hadd.up] at h6; omega

theorem minOffset_spec {p : Page} (n : Nat) (h : hdrSize + 2 * n ≤ pageSize) :
    ∃ m, minOffset p n = .ok m ∧ m ≤ pageSize ∧ (∀ i < n, m ≤ slot p i) ∧
      (m = pageSize ∨ ∃ i < n, m = slot p i) := by
  induction n with
  | zero => exact ⟨pageSize, rfl, Nat.le_refl _, fun i hi => by omega, .inl rfl⟩
  | succ n ih =>
    obtain ⟨m, hm, hle, hall, hex⟩ := ih (by omega)
    unfold minOffset
    rw [hm, Res.ok_bind, rdSlot_ok (by omega), Res.ok_bind]
    by_cases c : slot p n < m
    · refine ⟨slot p n, by rw [if_pos c], by omega, ?_, .inr ⟨n, by omega, rfl⟩⟩
      intro i hi
      by_cases d : i = n
      · subst d; exact Nat.le_refl _
      · have := hall i (by omega); omega
    · refine ⟨m, by rw [if_neg c], hle, ?_, ?_⟩
      · intro i hi
        by_cases d : i = n
        · subst d; omega
        · exact hall i (by omega)
      · rcases hex with h1 | ⟨i, h1, h2⟩
        · exact .inl h1
        · exact .inr ⟨i, by omega, h2⟩

/-- Shrinking keeps the first entries in place. -/
theorem shrink_spec {p : Page} (wf : WF p) {sp : Nat} (h : sp ≤ numKeys p) :
    ∃ q, shrink p sp = .ok q ∧ WF q ∧ flags q = flags p ∧ pgno q = pgno p ∧
      items q = (items p).take sp ∧ upper p ≤ upper q := by
  have hlow := wf.low
  have hgap := wf.gap
  have htop := wf.top
  simp only [pageSize, hdrSize] at hlow htop
  unfold shrink
  simp only []
  generalize hq1 : put16 (put16 p 10 sp) 12 (hdrSize + sp * 2) = q1
  obtain ⟨m, hm, hmle, hmall, hmex⟩ := minOffset_spec (p := q1) sp (by simp only [hdrSize, pageSize]; omega)
  rw [hm, Res.ok_bind]
  generalize hq : put16 q1 14 m = q
  simp only [pageSize] at hmle hmex
  have hby : ∀ j, 18 ≤ j → q j = p j := by
    intro j hj
    rw [← hq, ← hq1, put16_out (by omega), put16_out (by omega), put16_out (by omega)]
  have hby1 : ∀ j, 18 ≤ j → q1 j = p j := by
    intro j hj
    rw [← hq1, put16_out (by omega), put16_out (by omega)]
  have hsl : ∀ i, slot q i = slot p i := by
    intro i; apply slot_congr; intro j h1 _; exact hby j (by simp only [hdrSize] at h1; omega)
  have hsl1 : ∀ i, slot q1 i = slot p i := by
    intro i; apply slot_congr; intro j h1 _; exact hby1 j (by simp only [hdrSize] at h1; omega)
  have hfl : flags q = flags p := by
    unfold flags
    rw [← hq, ← hq1, u16_put16_out (by omega), u16_put16_out (by omega), u16_put16_out (by omega)]
  have hnk : numKeys q = sp := by
    show u16 q 10 = _
    rw [← hq, ← hq1, u16_put16_out (by omega), u16_put16_out (by omega), u16_put16, Nat.mod_eq_of_lt (by omega)]
  have hlo : lower q = 18 + 2 * sp := by
    show u16 q 12 = _
    rw [← hq, ← hq1, u16_put16_out (by omega), u16_put16, Nat.mod_eq_of_lt (by simp only [hdrSize]; omega)]
    simp only [hdrSize]; omega
  have hup : upper q = m := by
    show u16 q 14 = _
    rw [← hq, u16_put16, Nat.mod_eq_of_lt (by omega)]
  have hll := isLeaf_congr hfl
  have hns : ∀ i < sp, nodeSize q (isLeaf p) (slot p i) = nodeSize p (isLeaf p) (slot p i) := by
    intro i hi
    have := wf.inside i (by omega)
    exact nodeSize_congr fun t _ => hby _ (by omega)
  have hmge : upper p ≤ m := by
    rcases hmex with h1 | ⟨i, hi, h1⟩
    · omega
    · rw [h1, hsl1 i]; exact (wf.inside i (by omega)).1
  refine ⟨q, rfl, ⟨by rw [hfl]; exact wf.kind, by rw [hlo, hnk]; rfl, by rw [hlo, hup]; omega,
    by rw [hup]; exact hmle, ?_, ?_⟩, hfl, ?_, ?_, by rw [hup]; exact hmge⟩
  · intro i hi
    rw [hnk] at hi
    rw [hll, hsl, hup, hns i hi]
    exact ⟨by rw [← hsl1 i]; exact hmall i hi, (wf.inside i (by omega)).2⟩
  · intro i j hi hj hne
    rw [hnk] at hi hj
    rw [hll, hsl, hsl, hns i hi, hns j hj]
    exact wf.apart i j (by omega) (by omega) hne
  · apply pgno_congr
    intro j hj
    rw [← hq, ← hq1, put16_out (by omega), put16_out (by omega), put16_out (by omega)]
  · apply List.ext_getElem
    · rw [List.length_take]; simp; omega
    intro i h1 h2
    have h1' : i < sp := by rw [items_length, hnk] at h1; exact h1
    rw [items_getElem, List.getElem_take, items_getElem, hll, hsl]
    have := wf.inside i (by omega)
    exact itemAt_congr fun t _ => hby _ (by omega)

theorem itemAt_key (p : Page) (leaf : Bool) (o : Nat) :
    (itemAt p leaf o).key = slice p (o + baseSize leaf) (nodeKs p leaf o) := by
  cases leaf <;> simp [itemAt, Item.key, baseSize, nodeKs, ksOff]

theorem firstKey_spec {p : Page} (wf : WF p) (h : 0 < numKeys p) :
    firstKey p (isLeaf p) = .ok ((items p)[0]'(by simpa using h)).key := by
  have hin := wf.inside 0 h
  have hns : nodeSize p (isLeaf p) (slot p 0) =
    baseSize (isLeaf p) + nodeKs p (isLeaf p) (slot p 0) + nodeDs p (isLeaf p) (slot p 0) := rfl
  unfold firstKey
  rw [rdSlot_ok (by decide), Res.ok_bind, chk_ok (by omega), Res.ok_bind, chk_ok (by omega), Res.ok_bind,
    items_getElem, itemAt_key]

end Verif.Page
