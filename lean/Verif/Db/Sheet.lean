import Verif.Db.Props

/-!
# Pages as lists

A page described by the list of its entries, the list of their offsets and the lowest offset in use, and the operations on pages described so.
The description is exact: it says which insertions find room, also after splits, which leave holes.
-/

namespace Verif.Db

open Verif.Page

/-- A page without its bytes: its kind, its entries, their offsets, and the lowest offset in use. -/
structure Sheet where
  leaf : Bool
  its : List Item
  offs : List Nat
  top : Nat

/-- The offsets of a page's entries. -/
def offsets (p : Page) : List Nat := (List.range (numKeys p)).map (slot p)

/-- The page is well-formed and as described. -/
structure Rep (p : Page) (a : Sheet) : Prop where
  wf : WF p
  kind : isLeaf p = a.leaf
  its : items p = a.its
  offs : offsets p = a.offs
  top : upper p = a.top

/-- The bytes between the slots and the entries: 18 bytes of header, two for each slot. -/
def Sheet.room (a : Sheet) : Nat := a.top - (18 + 2 * a.its.length)

/-- Insertion at a position: `none` if there is no room. -/
def Sheet.insert (a : Sheet) (i : Nat) (it : Item) : Option Sheet :=
  if a.room < it.size + 2 then none
  else some ⟨a.leaf, a.its.insertIdx i it, a.offs.insertIdx i (a.top - it.size), a.top - it.size⟩

/-- Deletion at a position: the entries below move up. -/
def Sheet.delete (a : Sheet) (i : Nat) : Sheet :=
  let size := (a.its[i]?.map Item.size).getD 0
  let off := a.offs.getD i 0
  ⟨a.leaf, a.its.eraseIdx i, (a.offs.eraseIdx i).map fun o => if o < off then o + size else o, a.top + size⟩

/-- The offsets of entries written one below the other. -/
def pack : Nat → List Item → List Nat
  | _, [] => []
  | u, it :: l => (u - it.size) :: pack (u - it.size) l

/-- The lowest of some offsets, or the size of the page. -/
def lowest (l : List Nat) : Nat := l.foldl (fun m o => if o < m then o else m) 4096

/-- The page after a split: the first half stays where it is. -/
def Sheet.left (a : Sheet) : Sheet :=
  ⟨a.leaf, a.its.take (a.its.length / 2), a.offs.take (a.its.length / 2), lowest (a.offs.take (a.its.length / 2))⟩

/-- The new page of a split: the second half, packed. -/
def Sheet.right (a : Sheet) : Sheet :=
  ⟨a.leaf, a.its.drop (a.its.length / 2), pack 4096 (a.its.drop (a.its.length / 2)), 4096 - total (a.its.drop (a.its.length / 2))⟩

/-- Binary search in a list of keys that need not be sorted. -/
def bsearch (ks : List Bytes) (key : Bytes) : Nat → Nat → Nat → Found
  | 0, l, _ => .notFound l
  | f + 1, l, r =>
    if l < r then
      match keyCompare key (ks.getD (l + (r - l) / 2) []) with
      | .eq => .found (l + (r - l) / 2)
      | .lt => bsearch ks key f l (l + (r - l) / 2)
      | .gt => bsearch ks key f (l + (r - l) / 2 + 1) r
    else .notFound l

/-- Where a search ends. -/
def Sheet.probe (a : Sheet) (key : Bytes) : Found := bsearch (a.its.map Item.key) key a.its.length 0 a.its.length

/-! ### Searching -/

theorem Rep.len {p : Page} {a : Sheet} (h : Rep p a) : numKeys p = a.its.length := by rw [← h.its, items_length]

theorem Rep.offsLen {p : Page} {a : Sheet} (h : Rep p a) : a.offs.length = a.its.length := by
  rw [← h.offs, ← h.len]; simp [offsets]

theorem searchLoop_rep {p : Page} (wf : WF p) {key : Bytes} (hk : key.length < 65536) : ∀ (f l r : Nat) (probes : List Nat), r - l ≤ f → r ≤ numKeys p →
    ∃ t, searchLoop p (isLeaf p) key l r probes = .ok (bsearch (keys p) key f l r, t) := by
  intro f
  induction f with
  | zero =>
    intro l r probes h _
    rw [searchLoop, if_neg (by omega)]
    exact ⟨_, rfl⟩
  | succ f ih =>
    intro l r probes h hr
    rw [searchLoop, bsearch]
    by_cases hlt : l < r
    · have hm : l + (r - l) / 2 < numKeys p := by omega
      rw [if_pos hlt, if_pos hlt]
      dsimp only
      rw [cmpAt_spec wf hk hm]
      have hg : (keys p).getD (l + (r - l) / 2) [] = (keys p)[l + (r - l) / 2]'(by simpa [keys] using hm) := by
        rw [List.getD_eq_getElem?_getD, List.getElem?_eq_getElem (by simpa [keys] using hm)]; rfl
      rw [hg]
      cases keyCompare key ((keys p)[l + (r - l) / 2]'(by simpa [keys] using hm)) with
      | eq => exact ⟨_, rfl⟩
      | lt => exact ih _ _ _ (by omega) (by omega)
      | gt => exact ih _ _ _ (by omega) (by omega)
    · rw [if_neg hlt, if_neg hlt]; exact ⟨_, rfl⟩

theorem probe_rep {p : Page} {a : Sheet} (h : Rep p a) {key : Bytes} (hk : key.length < 65536) : probe p key = .ok (a.probe key) := by
  have hks : keys p = a.its.map Item.key := by unfold keys; rw [h.its]
  obtain ⟨t, ht⟩ := searchLoop_rep h.wf hk (numKeys p) 0 (numKeys p) [] (by omega) (Nat.le_refl _)
  unfold probe search searchTrace Sheet.probe
  rw [← hks, ← h.len]
  by_cases h0 : numKeys p = 0
  · rw [if_pos h0, h0]; rfl
  · rw [if_neg h0]
    cases hl : isLeaf p with
    | true =>
      have hb : isBranch p = false := by
        rcases h.wf.kind with e | e
        · rw [(kind_branch e).1] at hl; cases hl
        · exact (kind_leaf e).2
      rw [hl] at ht
      rw [hb, if_neg (by simp), if_pos rfl, ht]; rfl
    | false =>
      rw [hl] at ht
      rw [h.wf.not_leaf hl, if_pos rfl, ht]; rfl

theorem bsearch_bound (ks : List Bytes) (key : Bytes) : ∀ (f l r : Nat), l ≤ r → l ≤ (bsearch ks key f l r).idx ∧ (bsearch ks key f l r).idx ≤ r ∧
    ((bsearch ks key f l r).hit = true → (bsearch ks key f l r).idx < r) := by
  intro f
  induction f with
  | zero => intro l r h; exact ⟨Nat.le_refl _, h, fun h => by cases h⟩
  | succ f ih =>
    intro l r h
    rw [bsearch]
    by_cases hlt : l < r
    · rw [if_pos hlt]
      cases keyCompare key (ks.getD (l + (r - l) / 2) []) with
      | eq => exact ⟨by show l ≤ l + (r - l) / 2; omega, by show l + (r - l) / 2 ≤ r; omega, fun _ => by show l + (r - l) / 2 < r; omega⟩
      | lt =>
        obtain ⟨a, b, c⟩ := ih l (l + (r - l) / 2) (by omega)
        exact ⟨a, by simp only []; omega, fun hh => by have := c hh; simp only []; omega⟩
      | gt =>
        obtain ⟨a, b, c⟩ := ih (l + (r - l) / 2 + 1) r (by omega)
        exact ⟨by simp only []; omega, b, c⟩
    · rw [if_neg hlt]; exact ⟨Nat.le_refl _, h, fun h => by cases h⟩

theorem Sheet.probe_bound (a : Sheet) (key : Bytes) : (a.probe key).idx ≤ a.its.length ∧ ((a.probe key).hit = true → (a.probe key).idx < a.its.length) :=
  (bsearch_bound _ _ _ 0 _ (Nat.zero_le _)).2

/-! ### Insertion and deletion -/

theorem room_rep {p : Page} {a : Sheet} (h : Rep p a) : Verif.Page.room p = a.room := by
  unfold Verif.Page.room Sheet.room
  rw [h.top, h.wf.low, h.len]; rfl

theorem insert_rep {p : Page} {a : Sheet} (h : Rep p a) {i : Nat} (hi : i ≤ a.its.length) {it : Item} (hk : it.hasData = a.leaf) (hs : it.size < 65536)
    (hc : it.child < 2 ^ 64) :
    (a.insert i it = none → Verif.Page.insert p i it = .ok (.nospc, p)) ∧
    (∀ b, a.insert i it = some b → ∃ q, Verif.Page.insert p i it = .ok (.ok, q) ∧ Rep q b ∧ pgno q = pgno p) := by
  have hi' : i ≤ numKeys p := by rw [h.len]; exact hi
  have hk' : it.hasData = isLeaf p := hk.trans h.kind.symm
  obtain ⟨h1, -⟩ := insert_keeps_entries_partial h.wf hi' hk' hs hc
  unfold Sheet.insert
  rw [← room_rep h]
  by_cases hr : Verif.Page.room p < it.size + 2
  · rw [if_pos hr]
    exact ⟨fun _ => h1 hr, fun b e => by cases e⟩
  · rw [if_neg hr]
    refine ⟨fun e => (by cases e), fun b e => ?_⟩
    cases e
    obtain ⟨q, hq, hadd, hit⟩ := insert_added h.wf hi' hk' hs hc (by omega)
    refine ⟨q, hq, ⟨hadd.wf h.wf hi', (isLeaf_congr hadd.fl).trans h.kind, ?_, ?_, ?_⟩, hadd.no⟩
    · rw [hadd.items h.wf hi', hit, h.its]
    · have hlen : i ≤ (offsets p).length := by simpa [offsets] using hi'
      show offsets q = a.offs.insertIdx i (a.top - it.size)
      rw [← h.offs, ← h.top]
      apply List.ext_getElem
      · rw [List.length_insertIdx_of_le_length hlen]; simp [offsets, hadd.nk]
      intro j h1 h2
      have h1' : j < numKeys p + 1 := by simpa [offsets, hadd.nk] using h1
      rw [List.getElem_insertIdx]
      have e : (offsets q)[j] = slot q j := by simp [offsets]
      rw [e, hadd.sl j (by omega)]
      by_cases c1 : j < i
      · simp [c1, offsets]
      · by_cases c2 : j = i
        · simp [c2]
        · simp [c1, c2, offsets]
    · rw [hadd.up, h.top]

theorem delete_rep {p : Page} {a : Sheet} (h : Rep p a) {i : Nat} (hi : i < a.its.length) :
    ∃ q, Verif.Page.delete p i = .ok (.ok, q) ∧ Rep q (a.delete i) ∧ pgno q = pgno p := by
  have hi' : i < numKeys p := by rw [h.len]; exact hi
  obtain ⟨q, hq, hrem⟩ := delete_removed h.wf hi'
  have hsz : (a.its[i]?.map Item.size).getD 0 = nodeSize p (isLeaf p) (slot p i) := by
    rw [← h.its, List.getElem?_eq_getElem (by simpa using hi'), items_getElem, Option.map_some, itemAt_size]; rfl
  have hoff : a.offs.getD i 0 = slot p i := by
    rw [← h.offs, List.getD_eq_getElem?_getD, List.getElem?_eq_getElem (by simpa [offsets] using hi')]
    simp [offsets]
  have hnk := hrem.nk
  refine ⟨q, hq, ⟨hrem.wf h.wf hi', (isLeaf_congr hrem.fl).trans h.kind, ?_, ?_, ?_⟩, hrem.no⟩
  · rw [hrem.items h.wf hi', h.its]; rfl
  · show offsets q = (a.offs.eraseIdx i).map _
    rw [hsz, hoff, ← h.offs]
    apply List.ext_getElem
    · rw [List.length_map, List.length_eraseIdx]; simp [offsets, hi']; omega
    intro j h1 h2
    have h1' : j < numKeys q := by simpa [offsets] using h1
    have e : (offsets q)[j] = slot q j := by simp [offsets]
    rw [e, hrem.sl j h1', List.getElem_map, List.getElem_eraseIdx]
    by_cases c : j < i
    · simp [c, offsets]
    · simp [c, offsets]
  · show upper q = a.top + _
    rw [hrem.up, hsz, h.top]

/-! ### Splitting -/

theorem minOffset_rep {p : Page} : ∀ (n : Nat), 18 + 2 * n ≤ 4096 → minOffset p n = .ok (lowest ((List.range n).map (slot p)))
  | 0, _ => rfl
  | n + 1, h => by
    unfold minOffset
    rw [minOffset_rep n (by omega), Res.ok_bind, rdSlot_ok (by simp only [hdrSize, pageSize]; omega), Res.ok_bind, List.range_succ, List.map_append]
    unfold lowest
    rw [List.foldl_append]; rfl

theorem shrink_rep {p : Page} {a : Sheet} (h : Rep p a) {sp : Nat} (hs : sp ≤ a.its.length) {q : Page} (hq : shrink p sp = .ok q) :
    Rep q ⟨a.leaf, a.its.take sp, a.offs.take sp, lowest (a.offs.take sp)⟩ := by
  have hs' : sp ≤ numKeys p := by rw [h.len]; exact hs
  have hlow := h.wf.low
  have hgap := h.wf.gap
  have htop := h.wf.top
  simp only [pageSize, hdrSize] at hlow htop
  obtain ⟨q', e, wf, hfl, -, hit, -⟩ := shrink_spec h.wf hs'
  rw [hq] at e; cases e
  have hn : numKeys q = sp := by rw [← items_length, hit, List.length_take, items_length]; omega
  unfold shrink at hq
  simp only [] at hq
  rw [minOffset_rep sp (by omega), Res.ok_bind] at hq
  have hsl : ∀ i, slot (put16 (put16 p 10 sp) 12 (hdrSize + sp * 2)) i = slot p i := by
    intro i
    apply slot_congr
    intro j h1 _
    simp only [hdrSize] at h1
    rw [put16_out (by omega), put16_out (by omega)]
  have hmap : (List.range sp).map (slot (put16 (put16 p 10 sp) 12 (hdrSize + sp * 2))) = a.offs.take sp := by
    rw [← h.offs]
    unfold offsets
    rw [← List.map_take, List.take_range, Nat.min_eq_left hs']
    exact List.map_congr_left fun i _ => hsl i
  rw [hmap] at hq
  have hle : lowest (a.offs.take sp) ≤ 4096 := by
    obtain ⟨m, hm, hm2, -⟩ := minOffset_spec (p := put16 (put16 p 10 sp) 12 (hdrSize + sp * 2)) sp (by simp only [hdrSize, pageSize]; omega)
    rw [minOffset_rep sp (by omega), hmap] at hm
    cases hm; exact hm2
  refine ⟨wf, (isLeaf_congr hfl).trans h.kind, by rw [hit, h.its], ?_, ?_⟩
  · show offsets q = a.offs.take sp
    rw [← hmap]
    unfold offsets
    rw [hn]
    refine List.map_congr_left fun i _ => ?_
    cases hq
    rw [slot_congr]
    intro j h1 _
    simp only [hdrSize] at h1
    rw [put16_out (by omega)]
  · cases hq
    show u16 _ 14 = _
    rw [u16_put16, Nat.mod_eq_of_lt (by omega)]

theorem moveNodes_step (leaf : Bool) (l : Page) (sp : Nat) (r : Page) (idx n : Nat) :
    moveNodes leaf l sp r idx (n + 1) = (moveNodes leaf l sp r idx 1 >>= fun r' => moveNodes leaf l sp r' (idx + 1) n) := by
  rw [moveNodes, moveNodes]
  cases h1 : rdSlot l idx with
  | ok o =>
    simp only [Res.ok_bind]
    cases h2 : chk o (baseSize leaf) with
    | ok u =>
      simp only [Res.ok_bind]
      cases h3 : chk o (nodeSize l leaf o % 65536) with
      | ok u =>
        simp only [Res.ok_bind]
        cases h4 : chk ((upper r + 65536 - nodeSize l leaf o % 65536) % 65536) (nodeSize l leaf o % 65536) with
        | ok u =>
          simp only [Res.ok_bind]
          cases h5 : wrSlot (blit r ((upper r + 65536 - nodeSize l leaf o % 65536) % 65536) (slice l o (nodeSize l leaf o % 65536))) (idx - sp) ((upper r + 65536 - nodeSize l leaf o % 65536) % 65536) with
          | ok u => simp only [Res.ok_bind, moveNodes]
          | ub => rfl
          | div => rfl
        | ub => rfl
        | div => rfl
      | ub => rfl
      | div => rfl
    | ub => rfl
    | div => rfl
  | ub => rfl
  | div => rfl

theorem moveNodes_slot {l r q : Page} {sp idx : Nat} (h : moveNodes (isLeaf l) l sp r idx 1 = .ok q) (wf : WF q) (hn : numKeys q = idx - sp + 1) :
    slot q (idx - sp) = upper q ∧ ∀ j < idx - sp, slot q j = slot r j := by
  have hlow := wf.low
  have hgap := wf.gap
  have htop := wf.top
  simp only [pageSize, hdrSize] at hlow htop
  rw [moveNodes] at h
  obtain ⟨o, -, h⟩ := Res.bind_eq_ok.1 h
  obtain ⟨-, -, h⟩ := Res.bind_eq_ok.1 h
  obtain ⟨-, -, h⟩ := Res.bind_eq_ok.1 h
  obtain ⟨-, -, h⟩ := Res.bind_eq_ok.1 h
  obtain ⟨r1, h1, h⟩ := Res.bind_eq_ok.1 h
  rw [moveNodes] at h
  simp only [Res.ok.injEq] at h
  generalize hu : (upper r + 65536 - nodeSize l (isLeaf l) o % 65536) % 65536 = u at *
  have hu' : u < 65536 := by rw [← hu]; exact Nat.mod_lt _ (by decide)
  unfold wrSlot at h1
  obtain ⟨-, -, h1⟩ := Res.bind_eq_ok.1 h1
  simp only [Res.ok.injEq] at h1
  have hup : upper q = u := by
    rw [← h]; show u16 _ 14 = _
    rw [u16_put16, Nat.mod_eq_of_lt hu']
  have hs : ∀ j, slot q j = slot r1 j := by
    intro j
    apply slot_congr
    intro k h1 _
    simp only [hdrSize] at h1
    rw [← h, put16_out (by omega), put16_out (by omega), put16_out (by omega)]
  constructor
  · rw [hs, ← h1, slot_put_slot hu', if_pos rfl, hup]
  · intro j hj
    rw [hs, ← h1, slot_put_slot hu', if_neg (by omega)]
    apply slot_congr
    intro k h2 h3
    simp only [hdrSize] at h3
    exact blit_out (by omega)

theorem moveNodes_rep {l : Page} (wfl : WF l) (sp : Nat) : ∀ (n : Nat) (r : Page) (idx : Nat) {q : Page}, WF r →
    flags r = flags l → numKeys r = idx - sp → sp ≤ idx → idx + n ≤ numKeys l → lower r + 2 * n + sizes l idx n ≤ upper r →
    moveNodes (isLeaf l) l sp r idx n = .ok q → offsets q = offsets r ++ pack (upper r) (((items l).drop idx).take n) := by
  intro n
  induction n with
  | zero =>
    intro r idx q _ _ _ _ _ _ h
    cases h; simp [pack]
  | succ n ih =>
    intro r idx q wfr hf hnk hsp hidx hroom h
    rw [sizes_succ] at hroom
    have hone : sizes l idx 1 = nodeSize l (isLeaf l) (slot l idx) := by rw [sizes_succ, sizes_zero]; rfl
    obtain ⟨r1, e1, w1, f1, -, i1, u1⟩ := moveNodes_spec wfl sp 1 r idx wfr hf hnk hsp (by omega) (by rw [hone]; omega)
    rw [hone] at u1
    rw [moveNodes_step, e1, Res.ok_bind] at h
    have hd : (items l).drop idx = itemAt l (isLeaf l) (slot l idx) :: (items l).drop (idx + 1) := by
      rw [List.drop_eq_getElem_cons (by simp; omega), items_getElem]
    have hn1 : numKeys r1 = idx - sp + 1 := by
      rw [← items_length, i1, hd, List.length_append, items_length, hnk]; rfl
    have hlow1 := w1.low
    have hlowr := wfr.low
    rw [hn1] at hlow1
    rw [hnk] at hlowr
    have e2 := ih r1 (idx + 1) w1 f1 (by omega) (by omega) (by omega) (by omega) h
    obtain ⟨s1, s2⟩ := moveNodes_slot e1 w1 hn1
    have hoff : offsets r1 = offsets r ++ [upper r1] := by
      unfold offsets
      rw [hn1, hnk, List.range_succ, List.map_append]
      congr 1
      · exact List.map_congr_left fun j hj => s2 j (List.mem_range.1 hj)
      · simp [s1]
    rw [e2, hoff, hd, List.take_succ_cons, pack, itemAt_size, List.append_assoc]
    rw [show upper r - nodeSize l (isLeaf l) (slot l idx) = upper r1 by omega]; rfl

/-- A split, described. -/
theorem split_rep {p : Page} {a : Sheet} (h : Rep p a) (h0 : a.its ≠ []) {no : Nat} (hno : no < 2 ^ 64) :
    ∃ s, (if a.leaf then splitLeaf p no else splitBranch p no) = .ok (some s) ∧ Rep s.left a.left ∧ Rep s.right a.right ∧ pgno s.left = pgno p ∧ pgno s.right = no ∧
      some s.divider = a.right.its[0]?.map Item.key := by
  have hpos : 0 < numKeys p := by rw [h.len]; exact List.length_pos_iff.2 h0
  obtain ⟨s, e, w1, w2, l1, l2, n1, n2, i1, i2, hd, -, hr2⟩ := split_any h.wf hpos hno
  obtain ⟨r, l, d, e1, e2, e3, -, -, -, -, -, -, -, -, -, hr0, -⟩ := split_spec h.wf hpos hno
  rw [h.kind] at e
  have hlr : s.left = l ∧ s.right = r := by
    cases hl : a.leaf with
    | true =>
      rw [hl, if_pos rfl] at e
      have hlp : isLeaf p = true := h.kind.trans hl
      unfold splitLeaf at e
      rw [hlp] at e e1 e3
      simp only [Bool.not_true, Bool.false_eq_true, if_false] at e
      rw [e1, Res.ok_bind, e2, Res.ok_bind, dividerOf_pos (by omega), e3, Res.ok_bind] at e
      cases e; exact ⟨rfl, rfl⟩
    | false =>
      rw [hl, if_neg (by simp)] at e
      have hlp : isLeaf p = false := h.kind.trans hl
      unfold splitBranch at e
      rw [hlp] at e1 e3
      simp only [h.wf.not_leaf hlp, Bool.not_true, Bool.false_eq_true, if_false] at e
      rw [e1, Res.ok_bind, e2, Res.ok_bind] at e
      split at e
      · cases e
      · rw [e3, Res.ok_bind] at e
        cases e; exact ⟨rfl, rfl⟩
  have hf := emptyPage_fields (isLeaf p) no hno
  have hsum := h.wf.sizes_le (a := numKeys p / 2) (n := numKeys p - numKeys p / 2) (by omega)
  have hlow := h.wf.low
  have hgap := h.wf.gap
  have htop := h.wf.top
  simp only [hdrSize, pageSize] at hlow htop hsum
  have hfl : flags (emptyPage (isLeaf p) no) = flags p := by
    rw [hf.1]
    rcases h.wf.kind with hk | hk
    · rw [(kind_branch hk).1, hk]; rfl
    · rw [(kind_leaf hk).1, hk]; rfl
  have hoff := moveNodes_rep h.wf (numKeys p / 2) (numKeys p - numKeys p / 2) (emptyPage (isLeaf p) no) (numKeys p / 2) (emptyPage_wf _ _ hno) hfl (by rw [hf.2.1]; omega) (Nat.le_refl _)
    (by omega) (by rw [hf.2.2.1, hf.2.2.2.1]; omega) e1
  have hemp : offsets (emptyPage (isLeaf p) no) = [] := by unfold offsets; rw [hf.2.1]; rfl
  rw [hemp, List.nil_append, hf.2.2.2.1, List.take_of_length_le (by simp), h.its, h.len] at hoff
  rw [h.len] at i1 i2
  refine ⟨s, e, ?_, ⟨w2, l2.trans h.kind, by rw [i2, h.its]; rfl, by rw [hlr.2]; exact hoff, ?_⟩, n1, n2, ?_⟩
  · rw [hlr.1]
    exact shrink_rep h (Nat.div_le_self _ _) (by rw [← h.len]; exact e2)
  · have hl2 := w2.low
    have hg2 := w2.gap
    rw [i2, h.its] at hr2
    unfold Verif.Page.room at hr2
    simp only [hdrSize] at hl2
    show upper s.right = 4096 - total (a.its.drop (a.its.length / 2))
    omega
  · rw [hd, i2, h.its]; rfl

theorem firstKey_rep {p : Page} {a : Sheet} (h : Rep p a) {it : Item} {l : List Item} (hi : a.its = it :: l) : firstKey p (!isBranch p) = .ok it.key := by
  have hpos : 0 < numKeys p := by rw [h.len, hi]; simp
  have hb : (!isBranch p) = isLeaf p := by
    rcases h.wf.kind with hk | hk
    · rw [(kind_branch hk).1, (kind_branch hk).2]; rfl
    · rw [(kind_leaf hk).1, (kind_leaf hk).2]; rfl
  rw [hb, firstKey_spec h.wf hpos]
  have he := h.its
  rw [hi] at he
  simp only [he, List.getElem_cons_zero]

/-- A new page. -/
def Sheet.empty (leaf : Bool) : Sheet := ⟨leaf, [], [], 4096⟩

theorem empty_rep (leaf : Bool) {no : Nat} (hno : no < 2 ^ 64) : Rep (emptyPage leaf no) (.empty leaf) := by
  have hf := emptyPage_fields leaf no hno
  exact ⟨emptyPage_wf _ _ hno, emptyPage_isLeaf _ _ hno, emptyPage_items _ _ hno, by unfold offsets; rw [hf.2.1]; rfl, hf.2.2.2.1⟩

end Verif.Db
