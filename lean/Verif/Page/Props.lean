import Verif.Page.Search
import Verif.Page.Del

/-!
# Properties of pages (C35–C40)
-/

namespace Verif.Page

/-! ### C35 -/

/-- C35: the comparison of keys is the lexicographic order of byte strings: it answers "less"
exactly when the first key is lexicographically less, "equal" exactly on equal keys and
"greater" exactly when the second is less. -/
theorem key_compare_is_lexicographic (a b : Bytes) :
    (keyCompare a b = .lt ↔ a < b) ∧ (keyCompare a b = .eq ↔ a = b) ∧ (keyCompare a b = .gt ↔ b < a) :=
  ⟨keyCompare_lt a b, keyCompare_eq a b, keyCompare_gt a b⟩

/-- C35: the comparison is a total order: swapping the arguments swaps the answer, "less" is
transitive, and a proper prefix comes first. -/
theorem key_compare_total_order (a b c : Bytes) :
    keyCompare b a = (keyCompare a b).swap ∧
    (keyCompare a b = .lt → keyCompare b c = .lt → keyCompare a c = .lt) ∧
    (∀ x xs, keyCompare a (a ++ x :: xs) = .lt) := by
  refine ⟨keyCompare_swap a b, ?_, ?_⟩
  · rw [keyCompare_lt, keyCompare_lt, keyCompare_lt]; exact blt_trans
  · intro x xs
    induction a with
    | nil => rfl
    | cons y ys ih =>
      rw [List.cons_append, keyCompare, if_neg (by omega), if_neg (by omega)]; exact ih

/-- Bytes compare unsigned, and the shorter key first. -/
example : keyCompare [1, 200] [1, 3, 9] = .gt ∧ keyCompare [1] [1, 0] = .lt ∧ keyCompare [] [] = .eq := by
  decide

/-! ### C36 -/

/-- C36, for keys shorter than 65536 bytes (see `oversized_key_is_truncated`): on a well-formed
page with ascending keys the search reports the position of the key when present, and otherwise
"not found" with the number of smaller keys; it never leaves the page and probes only existing
slots. -/
theorem search_finds_partial {p : Page} (wf : WF p) (hs : Sorted (keys p)) {key : Bytes}
    (hk : key.length < 65536) :
    ∃ r probes, searchTrace p key = .ok (some (r, probes)) ∧ search p key = .ok (some r) ∧
      (∀ i ∈ probes, i < numKeys p) ∧
      (key ∈ keys p → ∃ i, r = .found i ∧ (keys p)[i]? = some key) ∧
      (key ∉ keys p → r = .notFound ((keys p).countP (· < key))) := by
  by_cases h0 : numKeys p = 0
  · refine ⟨.notFound 0, [], by rw [searchTrace, if_pos h0], by rw [search, searchTrace, if_pos h0]; rfl, by simp, ?_, ?_⟩
    · intro hm
      have : keys p = [] := List.eq_nil_of_length_eq_zero (by simpa using h0)
      rw [this] at hm; cases hm
    · intro _
      have : keys p = [] := List.eq_nil_of_length_eq_zero (by simpa using h0)
      rw [this]; rfl
  · obtain ⟨r, t, h1, h2, h3⟩ := searchLoop_spec wf hs hk 0 (numKeys p) [] (by omega) (by omega)
      (by intro i hi; omega) (by intro i hi h; simp at h; omega)
    rw [List.nil_append] at h1
    have ht : searchTrace p key = .ok (some (r, t)) := by
      rw [searchTrace, if_neg h0]
      rcases wf.kind with hk' | hk'
      · obtain ⟨a, b⟩ := kind_branch hk'
        rw [a] at h1
        rw [if_pos b, h1]; rfl
      · obtain ⟨a, b⟩ := kind_leaf hk'
        rw [a] at h1
        rw [if_neg (by simp [b]), if_pos a, h1]; rfl
    refine ⟨r, t, ht, by rw [search, ht]; rfl, h2, ?_, ?_⟩
    · intro hm
      rcases h3 with ⟨i, hr, hi, he⟩ | ⟨i, hi, hr, ha, hb⟩
      · exact ⟨i, hr, by rw [List.getElem?_eq_getElem hi, he]⟩
      · exfalso
        obtain ⟨j, hj, he⟩ := List.mem_iff_getElem.1 hm
        by_cases c : j < i
        · have := ha j c hj; rw [he] at this; exact blt_irrefl _ this
        · have := hb j (by omega) hj; rw [he] at this; exact blt_irrefl _ this
    · intro hm
      rcases h3 with ⟨i, hr, hi, he⟩ | ⟨i, hi, hr, ha, hb⟩
      · exact absurd (he ▸ List.getElem_mem hi) hm
      · rw [hr, countP_at (by simpa using hi) ha hb]

/-- C36: the search halves what is left at each comparison, so with `n` keys on the page, sorted or not, it makes at most
`log2 n + 1` of them, and at most eleven on any well-formed page. -/
theorem search_few_probes {p : Page} {key : Bytes} {r : Found} {probes : List Nat}
    (h : searchTrace p key = .ok (some (r, probes))) :
    (numKeys p = 0 → probes = []) ∧ probes.length ≤ Nat.log2 (numKeys p) + 1 ∧ (WF p → probes.length ≤ 11) := by
  have key : numKeys p = 0 ∧ probes = [] ∨ numKeys p ≠ 0 ∧ 2 ^ probes.length ≤ 2 * numKeys p := by
    rw [searchTrace] at h
    by_cases h0 : numKeys p = 0
    · rw [if_pos h0] at h; cases h; exact .inl ⟨h0, rfl⟩
    · rw [if_neg h0] at h
      have fin : ∀ leaf, searchLoop p leaf key 0 (numKeys p) [] = .ok (r, probes) → 2 ^ probes.length ≤ 2 * numKeys p := by
        intro leaf e
        have := searchLoop_few p leaf key 0 (numKeys p) [] r probes e
        rw [List.length_nil, Nat.pow_zero, Nat.one_mul] at this
        omega
      refine .inr ⟨h0, ?_⟩
      by_cases hb : isBranch p = true
      · rw [if_pos hb] at h
        obtain ⟨x, hx, e⟩ := Res.bind_eq_ok.1 h
        cases e; exact fin _ hx
      · rw [if_neg hb] at h
        by_cases hl : isLeaf p = true
        · rw [if_pos hl] at h
          obtain ⟨x, hx, e⟩ := Res.bind_eq_ok.1 h
          cases e; exact fin _ hx
        · rw [if_neg hl] at h; cases h
  rcases key with ⟨h0, rfl⟩ | ⟨h0, hp⟩
  · exact ⟨fun _ => rfl, by simp, fun _ => by simp⟩
  · refine ⟨fun c => absurd c h0, ?_, fun wf => ?_⟩
    · rcases hc : probes.length with _ | t
      · omega
      · rw [hc, Nat.pow_succ] at hp
        have := (Nat.le_log2 h0).2 (show 2 ^ t ≤ numKeys p by omega)
        omega
    · have h1 := wf.low
      have h2 := wf.gap
      have h3 := wf.top
      rw [h1] at h2
      have h4 : hdrSize = 18 := rfl
      have h5 : pageSize = 4096 := rfl
      refine Nat.le_of_lt_succ ((Nat.pow_lt_pow_iff_right (a := 2) (by omega)).1 ?_)
      have : 2 ^ Nat.succ 11 = 4096 := rfl
      omega

/-- What C36 does not cover: the size of the searched key is converted to 16 bits, so a key of
65536 + n bytes is looked up as its first n bytes. -/
theorem oversized_key_is_truncated (p : Page) (key : Bytes) :
    search p key = search p (key.take (key.length % 65536)) := by
  have hl : (key.take (key.length % 65536)).length % 65536 = key.length % 65536 := by
    rw [List.length_take, Nat.min_eq_left (Nat.mod_le _ _), Nat.mod_mod]
  have hc : ∀ leaf i, cmpAt p leaf key i = cmpAt p leaf (key.take (key.length % 65536)) i := by
    intro leaf i
    unfold cmpAt
    simp only [hl, List.take_take, Nat.min_self]
  have hloop : ∀ leaf l r t, searchLoop p leaf key l r t = searchLoop p leaf (key.take (key.length % 65536)) l r t := by
    intro leaf l r t
    fun_induction searchLoop p leaf key l r t with
    | case1 l r t h mid hm => rw [searchLoop, if_pos h]; simp only []; rw [← hc, hm]
    | case2 l r t h mid hm => rw [searchLoop, if_pos h]; simp only []; rw [← hc, hm]
    | case3 l r t h mid hm => rw [searchLoop, if_pos h]; simp only []; rw [← hc, hm]
    | case4 l r t h mid hm ih =>
      rw [ih]; conv => rhs; rw [searchLoop, if_pos h]
      simp only []; rw [← hc, hm]
    | case5 l r t h mid hm ih =>
      rw [ih]; conv => rhs; rw [searchLoop, if_pos h]
      simp only []; rw [← hc, hm]
    | case6 l r t h => rw [searchLoop, if_neg h]
  unfold search searchTrace
  simp only [hloop]

/-! ### C37 -/

theorem insert_nospc {p : Page} (wf : WF p) {index : Nat} {it : Item}
    (hk : it.hasData = isLeaf p) (hr : room p < it.size % 65536 + 2) :
    insert p index it = .ok (.nospc, p) := by
  have hgap := wf.gap
  have htop := wf.top
  have hsize : (baseSize (isLeaf p) + it.key.length + (if isLeaf p = true then it.val.length else 0)) = it.size := by
    cases it with
    | leaf k v => simp only [Item.hasData] at hk; rw [← hk]; simp [baseSize, Item.key, Item.val, Item.size]
    | branch k c => simp only [Item.hasData] at hk; rw [← hk]; simp [baseSize, Item.key, Item.size]
  have h1 : (isLeaf p && !it.hasData) = false := by rw [hk]; cases isLeaf p <;> rfl
  have h2 : (!isLeaf p && !isBranch p) = false := by
    cases hl : isLeaf p with
    | true => rfl
    | false => rw [wf.not_leaf hl]; rfl
  simp only [pageSize] at htop
  have hu : (upper p + 65536 - lower p) % 65536 = upper p - lower p := by
    have : upper p + 65536 - lower p = (upper p - lower p) + 65536 := by omega
    rw [this, Nat.add_mod_right, Nat.mod_eq_of_lt (by omega)]
  unfold insert
  simp only [h1, h2, Bool.false_eq_true, if_false]
  rw [hsize, hu, if_pos (by unfold room at hr; exact hr)]

/-- C37, for entries of fewer than 65536 bytes (see `oversized_insert_undefined`): inserting at a
valid position reports "no space" and changes nothing exactly when the gap cannot hold the node
and a slot; otherwise the page then holds the old entries, unchanged and in order, with the new
one at that position, the gap shrinks by exactly node plus slot, the page number and kind stay,
and the page is well-formed.  All accesses stay inside the page. -/
theorem insert_keeps_entries_partial {p : Page} (wf : WF p) {index : Nat} (hi : index ≤ numKeys p)
    {it : Item} (hk : it.hasData = isLeaf p) (hs : it.size < 65536) (hc : it.child < 2 ^ 64) :
    (room p < it.size + 2 → insert p index it = .ok (.nospc, p)) ∧
    (it.size + 2 ≤ room p → ∃ q, insert p index it = .ok (.ok, q) ∧ WF q ∧
      items q = (items p).insertIdx index it ∧ pgno q = pgno p ∧ flags q = flags p ∧
      room q + it.size + 2 = room p) := by
  refine ⟨fun hr => insert_nospc wf hk (by rwa [Nat.mod_eq_of_lt hs]), fun hr => ?_⟩
  obtain ⟨q, hq, hadd, hit⟩ := insert_added wf hi hk hs hc hr
  refine ⟨q, hq, hadd.wf wf hi, ?_, hadd.no, hadd.fl, ?_⟩
  · rw [hadd.items wf hi, hit]
  · have h1 := hadd.up
    have h2 := hadd.lo
    unfold room at hr ⊢
    have := wf.gap
    omega

/-- What C37 does not cover: for an entry of 65536 bytes or more the node size wraps around; if
the wrapped size fits the gap, the code writes outside the page. -/
theorem oversized_insert_undefined {p : Page} (wf : WF p) {index : Nat} (hi : index ≤ numKeys p)
    {it : Item} (hk : it.hasData = isLeaf p) (hs : 65536 ≤ it.size)
    (hr : it.size % 65536 + 2 ≤ room p) : insert p index it = .ub := by
  have hgap := wf.gap
  have htop := wf.top
  have hlow := wf.low
  have hsize : (baseSize (isLeaf p) + it.key.length + (if isLeaf p = true then it.val.length else 0)) = it.size := by
    cases it with
    | leaf k v => simp only [Item.hasData] at hk; rw [← hk]; simp [baseSize, Item.key, Item.val, Item.size]
    | branch k c => simp only [Item.hasData] at hk; rw [← hk]; simp [baseSize, Item.key, Item.size]
  have h1 : (isLeaf p && !it.hasData) = false := by rw [hk]; cases isLeaf p <;> rfl
  have h2 : (!isLeaf p && !isBranch p) = false := by
    cases hl : isLeaf p with
    | true => rfl
    | false => rw [wf.not_leaf hl]; rfl
  simp only [pageSize, hdrSize] at htop hlow
  unfold room at hr
  have hu : (upper p + 65536 - lower p) % 65536 = upper p - lower p := by
    have : upper p + 65536 - lower p = (upper p - lower p) + 65536 := by omega
    rw [this, Nat.add_mod_right, Nat.mod_eq_of_lt (by omega)]
  unfold insert
  simp only [h1, h2, Bool.false_eq_true, if_false]
  rw [hsize, hu, if_neg (by omega)]
  obtain ⟨q1, hq1, -, -⟩ := shiftUp_spec p index (numKeys p) (by simp only [hdrSize, pageSize]; omega) hi
  rw [hq1, Res.ok_bind, ← hk]
  have hub : ∀ (q : Page) o, wrNode q it.hasData o it = .ub := by
    intro q o
    have hcu : ∀ a b, pageSize < a + b → chk a b = .ub := by
      intro a b h; unfold chk; rw [if_neg (by omega)]
    have hcc : ∀ a b, chk a b = .ok () ∨ chk a b = .ub := by
      intro a b; unfold chk; split <;> simp
    cases it with
    | leaf k v =>
      simp only [Item.size] at hs
      simp only [wrNode, Item.hasData, Item.key, Item.val, if_true]
      rcases hcc o 4 with h | h
      · rw [h, Res.ok_bind]
        by_cases c : pageSize < o + 4 + k.length
        · rw [hcu _ _ c]; rfl
        · simp only [pageSize] at c
          rw [chk_ok (by simp only [pageSize]; omega), Res.ok_bind, hcu _ _ (by simp only [pageSize]; omega)]; rfl
      · rw [h]; rfl
    | branch k c =>
      simp only [Item.size] at hs
      simp only [wrNode, Item.hasData, Item.key, Bool.false_eq_true, if_false]
      rcases hcc o 10 with h | h
      · rw [h, Res.ok_bind, hcu _ _ (by simp only [pageSize]; omega)]; rfl
      · rw [h]; rfl
  rw [hub]; rfl

/-- The oversized case is reachable: a value of 65533 bytes under a one-byte key (size 65538, which wraps
to 2) on an empty leaf. -/
theorem oversized_insert_witness :
    insert (emptyPage true 7) 0 (.leaf [1] (List.replicate 65533 0)) = .ub := by
  have wf := emptyPage_wf true 7 (by decide)
  have hf := emptyPage_fields true 7 (by decide)
  have hsz : (Item.leaf [1] (List.replicate 65533 0)).size = 65538 := by
    simp only [Item.size, List.length_replicate, List.length_cons, List.length_nil]
  apply oversized_insert_undefined wf (by omega)
  · rw [emptyPage_isLeaf true 7 (by decide)]; rfl
  · rw [hsz]; decide
  · rw [hsz]; unfold room; rw [hf.2.2.1, hf.2.2.2.1]; decide

/-! ### C38 -/

/-- C38: deleting a valid position removes exactly that entry and gives back exactly its bytes
and one slot; everything else stays, holes or not, and no access leaves the page. -/
theorem delete_removes_exactly_one {p : Page} (wf : WF p) {index : Nat} (hi : index < numKeys p) :
    ∃ q, delete p index = .ok (.ok, q) ∧ WF q ∧ items q = (items p).eraseIdx index ∧
      pgno q = pgno p ∧ flags q = flags p ∧
      room q = room p + ((items p)[index]'(by simpa using hi)).size + 2 := by
  obtain ⟨q, hq, hrem⟩ := delete_removed wf hi
  refine ⟨q, hq, hrem.wf wf hi, hrem.items wf hi, hrem.no, hrem.fl, ?_⟩
  rw [items_getElem, itemAt_size]
  have h1 := hrem.up
  have h2 := hrem.lo
  have := wf.gap
  unfold room; omega

/-- C38: an invalid position is rejected without change, on any page. -/
theorem delete_invalid_position {p : Page} {index : Nat} (hi : numKeys p ≤ index) :
    delete p index = .ok (.inval, p) := by
  unfold delete; rw [if_pos hi]

/-! ### C39, C40 -/

/-- Total size of a list of entries. -/
def total (l : List Item) : Nat := (l.map Item.size).sum

theorem sizes_items {p : Page} {a n : Nat} (h : a + n ≤ numKeys p) :
    sizes p a n = total (((items p).drop a).take n) := by
  induction n generalizing a with
  | zero => simp [sizes_zero, total]
  | succ n ih =>
    rw [sizes_succ, ih (by omega), List.drop_eq_getElem_cons (i := a) (by simp; omega), List.take_succ_cons, items_getElem]
    simp [total, itemAt_size]

theorem split_spec {p : Page} (wf : WF p) (h : 0 < numKeys p) {no : Nat} (hno : no < 2 ^ 64) :
    ∃ r l d, moveNodes (isLeaf p) p (numKeys p / 2) (emptyPage (isLeaf p) no) (numKeys p / 2)
        (numKeys p - numKeys p / 2) = .ok r ∧
      shrink p (numKeys p / 2) = .ok l ∧ firstKey r (isLeaf p) = .ok d ∧
      WF l ∧ WF r ∧ flags l = flags p ∧ flags r = flags p ∧ pgno l = pgno p ∧ pgno r = no ∧
      items l = (items p).take (numKeys p / 2) ∧ items r = (items p).drop (numKeys p / 2) ∧
      some d = (items r)[0]?.map Item.key ∧ 0 < numKeys r ∧
      room p ≤ room l ∧ room r + total (items r) + 2 * numKeys r = 4078 := by
  have hsp : numKeys p / 2 ≤ numKeys p := Nat.div_le_self _ _
  have hf := emptyPage_fields (isLeaf p) no hno
  have hsum := wf.sizes_le (a := numKeys p / 2) (n := numKeys p - numKeys p / 2) (by omega)
  have hlow := wf.low
  have hgap := wf.gap
  have htop := wf.top
  simp only [hdrSize, pageSize] at hlow htop hsum
  have hfl : flags (emptyPage (isLeaf p) no) = flags p := by
    rw [hf.1]
    rcases wf.kind with hk | hk
    · rw [(kind_branch hk).1, hk]; rfl
    · rw [(kind_leaf hk).1, hk]; rfl
  obtain ⟨r, hr, wfr, fr, pr, ir, ur⟩ := moveNodes_spec wf (numKeys p / 2) (numKeys p - numKeys p / 2)
    (emptyPage (isLeaf p) no) (numKeys p / 2) (emptyPage_wf _ _ hno) hfl (by rw [hf.2.1]; omega) (Nat.le_refl _)
    (by omega) (by rw [hf.2.2.1, hf.2.2.2.1]; omega)
  obtain ⟨l, hl, wfl, fl, pl, il, ul⟩ := shrink_spec wf hsp
  rw [emptyPage_items _ _ hno, List.nil_append, List.take_of_length_le (by simp)] at ir
  have hnr : numKeys r = numKeys p - numKeys p / 2 := by
    rw [← items_length r, ir, List.length_drop, items_length]
  have hnl : numKeys l = numKeys p / 2 := by
    rw [← items_length l, il, List.length_take, items_length]; omega
  have hpos : 0 < numKeys r := by omega
  have hlr : isLeaf r = isLeaf p := isLeaf_congr fr
  have hfk := firstKey_spec wfr hpos
  rw [hlr] at hfk
  refine ⟨r, l, _, hr, hl, hfk, wfl, wfr, fl, fr, pl, by rw [pr, hf.2.2.2.2], il, ir, ?_, hpos, ?_, ?_⟩
  · rw [List.getElem?_eq_getElem (by simpa using hpos)]; rfl
  · have h1 := wfl.low
    have h2 := wfl.gap
    simp only [hdrSize] at h1
    unfold room; omega
  · have h1 := wfr.low
    have h2 := wfr.gap
    simp only [hdrSize] at h1
    have h3 := sizes_items (p := p) (a := numKeys p / 2) (n := numKeys p - numKeys p / 2) (by omega)
    rw [List.take_of_length_le (by simp)] at h3
    rw [ir, ← h3]
    rw [hf.2.2.2.1] at ur
    unfold room; omega

/-- C39: splitting a leaf that holds at least one entry keeps the first half on the old page and
moves the rest, in order, to the fresh page; both are well-formed, the divider is the first key of
the fresh page, which is packed without holes; the old page's gap does not shrink. -/
theorem split_leaf_partitions {p : Page} (wf : WF p) (hl : isLeaf p = true) (h : 0 < numKeys p)
    {no : Nat} (hno : no < 2 ^ 64) :
    ∃ s, splitLeaf p no = .ok (some s) ∧ WF s.left ∧ WF s.right ∧ isLeaf s.left = true ∧
      isLeaf s.right = true ∧ pgno s.left = pgno p ∧ pgno s.right = no ∧
      items s.left = (items p).take ((items p).length / 2) ∧
      items s.left ++ items s.right = items p ∧
      some s.divider = (items s.right)[0]?.map Item.key ∧
      room p ≤ room s.left ∧ room s.right + total (items s.right) + 2 * numKeys s.right = 4078 := by
  obtain ⟨r, l, d, hr, hsh, hd, wfl, wfr, fl, fr, pl, pr, il, ir, id, hpos, rl, rr⟩ := split_spec wf h hno
  rw [hl] at hr hd
  refine ⟨⟨l, r, d⟩, ?_, wfl, wfr, by rw [isLeaf_congr fl, hl], by rw [isLeaf_congr fr, hl], pl, pr,
    by rw [items_length]; exact il, ?_, id, rl, rr⟩
  · unfold splitLeaf
    simp only [hl, Bool.not_true, Bool.false_eq_true, if_false]
    rw [hr, Res.ok_bind, hsh, Res.ok_bind, dividerOf_pos (by omega), hd, Res.ok_bind]
  · show items l ++ items r = items p
    rw [il, ir, List.take_append_drop]

/-- C40: the same for branch pages. -/
theorem split_branch_partitions {p : Page} (wf : WF p) (hl : isLeaf p = false) (h : 0 < numKeys p)
    {no : Nat} (hno : no < 2 ^ 64) :
    ∃ s, splitBranch p no = .ok (some s) ∧ WF s.left ∧ WF s.right ∧ isLeaf s.left = false ∧
      isLeaf s.right = false ∧ pgno s.left = pgno p ∧ pgno s.right = no ∧
      items s.left = (items p).take ((items p).length / 2) ∧
      items s.left ++ items s.right = items p ∧
      some s.divider = (items s.right)[0]?.map Item.key ∧
      room p ≤ room s.left ∧ room s.right + total (items s.right) + 2 * numKeys s.right = 4078 := by
  obtain ⟨r, l, d, hr, hsh, hd, wfl, wfr, fl, fr, pl, pr, il, ir, id, hpos, rl, rr⟩ := split_spec wf h hno
  rw [hl] at hr hd
  refine ⟨⟨l, r, d⟩, ?_, wfl, wfr, by rw [isLeaf_congr fl, hl], by rw [isLeaf_congr fr, hl], pl, pr,
    by rw [items_length]; exact il, ?_, id, rl, rr⟩
  · unfold splitBranch
    simp only [wf.not_leaf hl, Bool.not_true, Bool.false_eq_true, if_false]
    rw [hr, Res.ok_bind, hsh, Res.ok_bind, if_neg (by omega), hd, Res.ok_bind]
  · show items l ++ items r = items p
    rw [il, ir, List.take_append_drop]

/-! ### Examples -/

/-- Insert a list of entries one after the other at the given positions. -/
def build (p : Page) : List (Nat × Item) → Res Page
  | [] => .ok p
  | (i, it) :: rest => do
    let (st, q) ← insert p i it
    if st = .ok then build q rest else .ub

/-- Three entries inserted out of order, searched, one deleted, and the page split. -/
def demo : Res Bool := do
  let p ← build (emptyPage true 7) [(0, .leaf [5] [1, 2]), (0, .leaf [3] [9]), (2, .leaf [5, 0] [])]
  let a ← search p [5]
  let b ← search p [4]
  let (_, q) ← delete p 1
  let s ← splitLeaf p 8
  match s with
  | none => .ok false
  | some s => .ok (a == some (.found 1) && b == some (.notFound 1) &&
      items q == [.leaf [3] [9], .leaf [5, 0] []] && items s.left == [.leaf [3] [9]] &&
      items s.right == [.leaf [5] [1, 2], .leaf [5, 0] []] && s.divider == [5])

example : demo = .ok true := by decide +kernel

/-- Seven keys: three comparisons find the first, three tell that one is missing, which is the bound of `search_few_probes`. -/
example : (do
    let p ← build (emptyPage true 7) ((List.range 7).map (fun i => (i, .leaf [UInt8.ofNat (2 * i)] [])))
    let a ← searchTrace p [0]
    let b ← searchTrace p [7]
    .ok (numKeys p, a, b) : Res (Nat × Option (Found × List Nat) × Option (Found × List Nat))) =
    .ok (7, some (.found 0, [3, 1, 0]), some (.notFound 4, [3, 5, 4])) ∧ Nat.log2 7 + 1 = 3 := by decide +kernel

/-- The hypotheses of the theorems are met by pages built this way, for instance: -/
example : ∃ q, insert (emptyPage false 9) 0 (.branch [1, 2] 12) = .ok (.ok, q) ∧ WF q ∧
    items q = [.branch [1, 2] 12] := by
  have h := (insert_keeps_entries_partial (emptyPage_wf false 9 (by decide)) (index := 0) (Nat.zero_le _)
    (it := .branch [1, 2] 12) (by rw [emptyPage_isLeaf false 9 (by decide)]; rfl) (by decide) (by decide)).2
    (by unfold room; rw [(emptyPage_fields false 9 (by decide)).2.2.1, (emptyPage_fields false 9 (by decide)).2.2.2.1]; decide)
  obtain ⟨q, h1, h2, h3, -⟩ := h
  exact ⟨q, h1, h2, by rw [h3, emptyPage_items false 9 (by decide)]; rfl⟩

end Verif.Page
