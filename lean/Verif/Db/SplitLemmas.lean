import Verif.Db.Ops

/-!
# Helper lemmas: splitting a page inside a transaction
-/

namespace Verif.Db

open Verif.Page

/-! ## Inserting at the place where a key belongs -/

theorem insertIdx_mid {α : Type} (A B : List α) (x : α) : (A ++ B).insertIdx A.length x = A ++ x :: B := by
  induction A with
  | nil => simp
  | cons a A ih => simp [List.insertIdx_succ_cons, ih]

theorem countP_mid {A B : List Bytes} {key : Bytes} (hA : ∀ a ∈ A, a < key) (hB : ∀ b ∈ B, key < b) :
    (A ++ B).countP (· < key) = A.length := by
  rw [List.countP_append, List.countP_eq_length.2 (by intro a ha; simpa using hA a ha),
    List.countP_eq_zero.2 (by intro b hb; simpa using blt_asymm (hB b hb))]
  rfl

/-- The search for a key that is not in the page ends where the key belongs. -/
theorem probe_at {p : Page} (wf : WF p) (hs : Sorted (keys p)) {key : Bytes} (hk : key.length < 65536)
    {A B : List Item} (h : items p = A ++ B) (hA : ∀ a ∈ A, a.key < key) (hB : ∀ b ∈ B, key < b.key) :
    probe p key = .ok (.notFound A.length) := by
  obtain ⟨r, -, -, hr, -, -, h2⟩ := search_finds_partial wf hs hk
  have hkeys : keys p = A.map Item.key ++ B.map Item.key := by unfold keys; rw [h, List.map_append]
  have hA' : ∀ a ∈ A.map Item.key, a < key := by
    intro a ha; obtain ⟨i, hi, rfl⟩ := List.mem_map.1 ha; exact hA i hi
  have hB' : ∀ a ∈ B.map Item.key, key < a := by
    intro a ha; obtain ⟨i, hi, rfl⟩ := List.mem_map.1 ha; exact hB i hi
  have hm : key ∉ keys p := by
    rw [hkeys, List.mem_append]
    rintro (hm | hm)
    · exact blt_irrefl _ (hA' _ hm)
    · exact blt_irrefl _ (hB' _ hm)
  have := h2 hm
  rw [hkeys, countP_mid hA' hB', List.length_map] at this
  unfold probe; rw [hr, this]; rfl

theorem insert_at {p : Page} (wf : WF p) {A B : List Item} (h : items p = A ++ B) {it : Item}
    (hk : it.hasData = isLeaf p) (hs : it.size < 65536) (hc : it.child < 2 ^ 64) :
    (room p < it.size + 2 ∧ insert p A.length it = .ok (.nospc, p)) ∨
    (it.size + 2 ≤ room p ∧ ∃ q, insert p A.length it = .ok (.ok, q) ∧ WF q ∧ items q = A ++ it :: B ∧
      pgno q = pgno p ∧ isLeaf q = isLeaf p ∧ room q + it.size + 2 = room p) := by
  have hn : A.length ≤ numKeys p := by rw [← items_length, h]; simp
  obtain ⟨h1, h2⟩ := insert_keeps_entries_partial wf hn hk hs hc
  by_cases hr : room p < it.size + 2
  · exact .inl ⟨hr, h1 hr⟩
  · obtain ⟨q, g1, g2, g3, g4, g5, g6⟩ := h2 (by omega)
    exact .inr ⟨by omega, q, g1, g2, by rw [g3, h, insertIdx_mid], g4, isLeaf_congr g5, g6⟩

theorem sorted_mid {p : Page} (hs : Sorted (keys p)) {A B : List Item} (h : items p = A ++ B) {it : Item}
    (hA : ∀ a ∈ A, a.key < it.key) (hB : ∀ b ∈ B, it.key < b.key) :
    Sorted ((A ++ it :: B).map Item.key) := by
  unfold keys at hs
  rw [h, List.map_append, sorted_append] at hs
  rw [List.map_append, List.map_cons, sorted_append, sorted_cons]
  refine ⟨hs.1, ⟨?_, hs.2.1⟩, ?_⟩
  · intro y hy; obtain ⟨i, hi, rfl⟩ := List.mem_map.1 hy; exact hB i hi
  · intro x hx y hy
    rcases List.mem_cons.1 hy with rfl | hy
    · obtain ⟨i, hi, rfl⟩ := List.mem_map.1 hx; exact hA i hi
    · exact hs.2.2 x hx y hy

/-! ## Allocators that extend the file -/

/-- On the states in `I` the allocator takes the page after the last one; `I` does not depend on
pages outside `F` (as long as they carry their own number), on the root, or on the freed list. -/
structure Ext (al : Alloc) (F : List Nat) (I : Txn → Prop) : Prop where
  ext : ∀ t, I t → al t = .ok (extend t)
  set : ∀ t n p, I t → n ∉ F → pgno p = n → WF p → n ≤ t.newLast → I (t.setDirty n p)
  grow : ∀ t, I t → I (extend t).2
  last : ∀ t, I t → ∀ x ∈ F, x ≤ t.newLast
  freed : ∀ t f, I t → I { t with freed := f }
  root : ∀ t r, I t → t.dirty ≠ [] → I { t with root := r }

/-- From `t` to `t'` only the pages `P` and new pages changed. -/
structure Evo (I : Txn → Prop) (P : List Nat) (t t' : Txn) : Prop where
  rdonly : t'.rdonly = t.rdonly
  txnid : t'.txnid = t.txnid
  root : t'.root = t.root
  freeRoot : t'.freeRoot = t.freeRoot
  freed : t'.freed = t.freed
  last : t.newLast ≤ t'.newLast
  inv : I t'
  same : ∀ x ≤ t.newLast, x ∉ P → t'.getDirty x = t.getDirty x

theorem Evo.view {I : Txn → Prop} {P : List Nat} {t t' : Txn} (h : Evo I P t t') (env : Env) {x : Nat}
    (hx : x ≤ t.newLast) (hp : x ∉ P) : getPage env t' x = getPage env t x := by
  unfold getPage; rw [h.rdonly, h.same x hx hp]

theorem Evo.trans {I : Txn → Prop} {P Q R : List Nat} {a b c : Txn} (h : Evo I P a b) (h' : Evo I Q b c)
    (hP : ∀ x ∈ P, x ∈ R) (hQ : ∀ x ∈ Q, x ∈ R) : Evo I R a c :=
  ⟨h'.rdonly.trans h.rdonly, h'.txnid.trans h.txnid, h'.root.trans h.root, h'.freeRoot.trans h.freeRoot, h'.freed.trans h.freed,
   Nat.le_trans h.last h'.last, h'.inv, fun x hx hr => by
     rw [h'.same x (Nat.le_trans hx h.last) (fun hq => hr (hQ x hq)), h.same x hx (fun hp => hr (hP x hp))]⟩

theorem Evo.refl {I : Txn → Prop} {P : List Nat} {t : Txn} (h : I t) : Evo I P t t :=
  ⟨rfl, rfl, rfl, rfl, rfl, Nat.le_refl _, h, fun _ _ _ => rfl⟩

theorem Evo.set {al : Alloc} {F : List Nat} {I : Txn → Prop} (hE : Ext al F I) {t : Txn} (h : I t) {n : Nat}
    (hn : n ∉ F) (hl : n ≤ t.newLast) {p : Page} (hp : pgno p = n) (hwf : WF p) : Evo I [n] t (t.setDirty n p) :=
  ⟨rfl, rfl, rfl, rfl, rfl, Nat.le_refl _, hE.set t n p h hn hp hwf hl, fun x _ hx => by
    rw [getDirty_set, if_neg (by simpa using hx)]⟩

theorem Evo.mono {I : Txn → Prop} {P Q : List Nat} {t t' : Txn} (h : Evo I P t t') (hs : ∀ x ∈ P, x ∈ Q) : Evo I Q t t' :=
  ⟨h.rdonly, h.txnid, h.root, h.freeRoot, h.freed, h.last, h.inv, fun x hx hq => h.same x hx (fun hp => hq (hs x hp))⟩

/-! ## Splitting a page and inserting into a half -/

theorem sorted_sub {l l' : List Bytes} (h : Sorted l) (hs : l'.Sublist l) : Sorted l' := List.Pairwise.sublist hs h

/-- The page split without the transaction. -/
theorem split_any {p : Page} (wf : WF p) (h : 0 < numKeys p) {no : Nat} (hno : no < 2 ^ 64) :
    ∃ s, (if isLeaf p then splitLeaf p no else splitBranch p no) = .ok (some s) ∧ WF s.left ∧ WF s.right ∧
      isLeaf s.left = isLeaf p ∧ isLeaf s.right = isLeaf p ∧ pgno s.left = pgno p ∧ pgno s.right = no ∧
      items s.left = (items p).take (numKeys p / 2) ∧ items s.right = (items p).drop (numKeys p / 2) ∧
      some s.divider = (items s.right)[0]?.map Item.key ∧
      room p ≤ room s.left ∧ room s.right + total (items s.right) + 2 * numKeys s.right = 4078 := by
  cases hl : isLeaf p with
  | true =>
    obtain ⟨s, h1, h2, h3, h4, h5, h6, h7, h8, h9, h10, h11, h12⟩ := split_leaf_partitions wf hl h hno
    rw [items_length] at h8
    refine ⟨s, by simpa using h1, h2, h3, h4, h5, h6, h7, h8, ?_, h10, h11, h12⟩
    rw [h8] at h9
    exact List.append_cancel_left (h9.trans (List.take_append_drop (numKeys p / 2) (items p)).symm)
  | false =>
    obtain ⟨s, h1, h2, h3, h4, h5, h6, h7, h8, h9, h10, h11, h12⟩ := split_branch_partitions wf hl h hno
    rw [items_length] at h8
    refine ⟨s, by simpa using h1, h2, h3, h4, h5, h6, h7, h8, ?_, h10, h11, h12⟩
    rw [h8] at h9
    exact List.append_cancel_left (h9.trans (List.take_append_drop (numKeys p / 2) (items p)).symm)

/-- The split of a leaf page, which may be empty. -/
theorem split_leaf_any {p : Page} (wf : WF p) (hl : isLeaf p = true) {no : Nat} (hno : no < 2 ^ 64) :
    ∃ s, splitLeaf p no = .ok (some s) ∧ WF s.left ∧ WF s.right ∧
      isLeaf s.left = isLeaf p ∧ isLeaf s.right = isLeaf p ∧ pgno s.left = pgno p ∧ pgno s.right = no ∧
      items s.left = (items p).take (numKeys p / 2) ∧ items s.right = (items p).drop (numKeys p / 2) ∧
      room s.right + total (items s.right) + 2 * numKeys s.right = 4078 := by
  by_cases h0 : 0 < numKeys p
  · obtain ⟨s, a1, a2, a3, a4, a5, a6, a7, a8, a9, -, -, a12⟩ := split_any wf h0 hno
    rw [hl, if_pos rfl] at a1
    exact ⟨s, a1, a2, a3, a4, a5, a6, a7, a8, a9, a12⟩
  · have hz : numKeys p = 0 := by omega
    have hit : items p = [] := List.eq_nil_of_length_eq_zero (by rw [items_length, hz])
    obtain ⟨l, e4, w, hfl, hn, hil, -⟩ := shrink_spec wf (sp := 0) (Nat.zero_le _)
    have hf := emptyPage_fields true no hno
    have h2 : numKeys (emptyPage true no) = 0 := by rw [← items_length, emptyPage_items _ _ hno]; rfl
    refine ⟨⟨l, emptyPage true no, slice (emptyPage true no) 4 (u16 (emptyPage true no) 0)⟩, ?_, w, emptyPage_wf _ _ hno, isLeaf_congr hfl, ?_, hn, hf.2.2.2.2, ?_, ?_, ?_⟩
    · unfold splitLeaf
      simp only [hl, Bool.not_true, Bool.false_eq_true, if_false, hz]
      show (Res.ok (emptyPage true no) >>= _) = _
      rw [Res.ok_bind, show (0 / 2 : Nat) = 0 from rfl, e4, Res.ok_bind]
      unfold dividerOf
      rw [if_pos h2, Res.ok_bind]
    · rw [hl]; exact (kind_leaf hf.1).1
    · rw [hz, hit]; rw [hit] at hil; exact hil
    · rw [hz, hit]; exact emptyPage_items _ _ hno
    · show room (emptyPage true no) + total (items (emptyPage true no)) + 2 * numKeys (emptyPage true no) = 4078
      rw [h2, emptyPage_items _ _ hno]
      unfold room; rw [hf.2.2.1, hf.2.2.2.1]; rfl

/-- The right half of a leaf that holds an entry is not empty. -/
theorem splitTxn_pos {al : Alloc} {F : List Nat} {I : Txn → Prop} (hE : Ext al F I) {t : Txn} (hI : I t) {lk : Nat} {p : Page}
    (hp : t.getDirty lk = some p) (wf : WF p) (hl : isLeaf p = true) (hpos : 0 < numKeys p) (h64 : t.newLast + 1 < 2 ^ 64) {t1 : Txn} {s : SplitTxn}
    (e : splitTxn al true t lk = .ok (t1, .ok s)) : numKeys s.right ≠ 0 := by
  obtain ⟨q, a1, -, -, -, -, -, -, -, a9, -⟩ := split_any wf hpos h64
  rw [hl, if_pos rfl] at a1
  have hp' : (extend t).2.getDirty lk = some p := hp
  have hn : numKeys q.right ≠ 0 := by
    rw [← items_length, a9, List.length_drop, items_length]; omega
  unfold splitTxn at e
  rw [hp, Res.ofOption_some, Res.ok_bind, hl] at e
  simp only [if_true, Bool.not_true, Bool.false_eq_true, if_false] at e
  rw [hE.ext t hI, Res.ok_bind, hp', Res.ofOption_some, Res.ok_bind] at e
  simp only [extend] at a1 e
  rw [a1, Res.ok_bind] at e
  have e := Except.ok.inj (Prod.mk.inj (Res.ok.inj e)).2
  rw [← e]; exact hn

theorem ite_kind {p : Page} (wf : WF p) : (if isLeaf p then isLeaf p else isBranch p) = true := by
  cases h : isLeaf p with
  | true => rfl
  | false => simpa using wf.not_leaf h

/-- Split the page under `lk` and insert an entry: the result if the entry does not belong
exactly in the middle. -/
theorem splitInsert_spec {al : Alloc} {F : List Nat} {I : Txn → Prop} (hE : Ext al F I) {t : Txn} (hI : I t)
    {lk : Nat} (hlk : lk ≤ t.newLast) (hF : lk ∉ F) {p : Page} (hp : t.getDirty lk = some p) (hpn : pgno p = lk) (wf : WF p)
    (hs : Sorted (keys p)) (h64 : t.newLast + 1 < 2 ^ 64)
    {A B : List Item} (h : items p = A ++ B) {it : Item} (hA : ∀ a ∈ A, a.key < it.key)
    (hB : ∀ b ∈ B, it.key < b.key) (hk : it.hasData = isLeaf p) (hsz : it.size < 65536) (hc : it.child < 2 ^ 64)
    (hkl : it.key.length < 65536) (h2 : 2 ≤ numKeys p) (hmid : A.length ≠ numKeys p / 2) :
    ∃ s t1 st t2, splitTxn al (isLeaf p) t lk = .ok (t1, .ok s) ∧ insertHalf t1 lk s it = .ok (st, t2) ∧
      s.no = t.newLast + 1 ∧ t2.newLast = t.newLast + 1 ∧ Evo I [lk] t t2 ∧
      (keys p)[numKeys p / 2]? = some s.divider ∧ (st = .success ∨ st = .nospc) ∧
      (numKeys p / 2 < A.length → total ((items p).drop (numKeys p / 2)) + 2 * (numKeys p - numKeys p / 2) + it.size + 2 ≤ 4078 →
        st = .success) ∧
      (st = .success → ∃ L R D R', t2.getDirty lk = some L ∧ t2.getDirty s.no = some R ∧ WF L ∧ WF R ∧
        isLeaf L = isLeaf p ∧ isLeaf R = isLeaf p ∧ pgno L = pgno p ∧ pgno R = s.no ∧
        items L ++ items R = A ++ it :: B ∧ items L ≠ [] ∧ items R = D :: R' ∧ D.key = s.divider ∧
        (numKeys p / 2 < A.length → 2 ≤ numKeys R ∧ room R + total (items R) + 2 * numKeys R = 4078 ∧
          items L = (items p).take (numKeys p / 2))) := by
  obtain ⟨s, a1, a2, a3, a4, a5, a6, a7, a8, a9, a10, a11, a12⟩ := split_any wf (by omega) h64
  have hne : t.newLast + 1 ≠ lk := by omega
  have hnF : t.newLast + 1 ∉ F := fun hx => by have := hE.last t hI _ hx; omega
  have hp' : (extend t).2.getDirty lk = some p := hp
  let t1 := ((extend t).2.setDirty lk s.left).setDirty (t.newLast + 1) s.right
  have hI1 : I t1 := hE.set _ _ _ (hE.set _ _ _ (hE.grow t hI) hF (a6.trans hpn) a2 (Nat.le_succ_of_le hlk)) hnF a7 a3 (Nat.le_refl _)
  have hl1 : lk ≤ t1.newLast := Nat.le_succ_of_le hlk
  have hsp : splitTxn al (isLeaf p) t lk = .ok (t1, .ok ⟨t.newLast + 1, s.left, s.right, s.divider⟩) := by
    unfold splitTxn
    rw [hp, Res.ofOption_some, Res.ok_bind, ite_kind wf]
    simp only [Bool.not_true, Bool.false_eq_true, if_false]
    rw [hE.ext t hI, Res.ok_bind, hp', Res.ofOption_some, Res.ok_bind]
    simp only [extend] at a1 ⊢
    rw [a1, Res.ok_bind]; rfl
  have hlen : (items p).length = numKeys p := items_length p
  have hnl : numKeys s.left = numKeys p / 2 := by
    rw [← items_length, a8, List.length_take, hlen]; omega
  have hnr : numKeys s.right = numKeys p - numKeys p / 2 := by
    rw [← items_length, a9, List.length_drop, hlen]
  have hlen2 : A.length + B.length = numKeys p := by rw [← hlen, h, List.length_append]
  have hsl : Sorted (keys s.left) := by
    refine sorted_sub hs ?_
    unfold keys; rw [a8]; exact (List.take_sublist _ _).map _
  have hsr : Sorted (keys s.right) := by
    refine sorted_sub hs ?_
    unfold keys; rw [a9]; exact (List.drop_sublist _ _).map _
  have hdiv : (keys p)[numKeys p / 2]? = some s.divider := by
    rw [a10, a9, List.getElem?_drop]; unfold keys; rw [List.getElem?_map]; rfl
  obtain ⟨D, R', hR⟩ : ∃ D R', items s.right = D :: R' := by
    cases hi : items s.right with
    | nil => rw [← items_length, hi] at hnr; simp at hnr; omega
    | cons D R' => exact ⟨D, R', rfl⟩
  have hD : D.key = s.divider := by rw [hR] at a10; simpa using a10.symm
  have hev : Evo I [lk] t t1 := by
    refine ⟨rfl, rfl, rfl, rfl, rfl, ?_, hI1, ?_⟩
    · show t.newLast ≤ t.newLast + 1; omega
    · intro x hx hxl
      rw [getDirty_set, if_neg (by omega), getDirty_set, if_neg (by simpa using hxl)]; rfl
  refine ⟨⟨t.newLast + 1, s.left, s.right, s.divider⟩, t1, ?_⟩
  rcases Nat.lt_or_gt_of_ne hmid with hlt | hgt
  · -- into the left half
    have hl : items s.left = A ++ B.take (numKeys p / 2 - A.length) := by
      rw [a8, h, List.take_append, List.take_of_length_le (by omega)]
    have hr : items s.right = B.drop (numKeys p / 2 - A.length) := by
      rw [a9, h, List.drop_append, List.drop_eq_nil_of_le (by omega), List.nil_append]
    have hB' : ∀ b ∈ B.take (numKeys p / 2 - A.length), it.key < b.key := fun b hb => hB b (List.mem_of_mem_take hb)
    have hpr := probe_at a2 hsl hkl hl hA hB'
    have hcond : (!(Found.notFound A.length).hit && decide (numKeys s.left ≤ (Found.notFound A.length).idx)) = false := by
      have hx : ¬ numKeys s.left ≤ (Found.notFound A.length).idx := by show ¬ numKeys s.left ≤ A.length; omega
      rw [decide_eq_false hx]; rfl
    rcases insert_at a2 hl (it := it) (by rw [hk, a4]) hsz hc with ⟨b1, b2⟩ | ⟨b1, q, b2, b3, b4, b5, b6, b7⟩
    · refine ⟨.nospc, t1.setDirty lk s.left, hsp, ?_, rfl, rfl, hev.trans (.set hE hI1 hF hl1 (a6.trans hpn) a2) (by simp) (by simp), hdiv, .inr rfl, ?_, ?_⟩
      · unfold insertHalf
        rw [hpr, Res.ok_bind]
        simp only [hcond, Bool.false_eq_true, if_false]
        simp only [Found.idx]
        rw [b2, Res.ok_bind]; simp only [if_neg hne]; rfl
      · intro hh; omega
      · intro hh; cases hh
    · refine ⟨.success, t1.setDirty lk q, hsp, ?_, rfl, rfl, hev.trans (.set hE hI1 hF hl1 (b5.trans (a6.trans hpn)) b3) (by simp) (by simp), hdiv, .inl rfl, fun _ _ => rfl, ?_⟩
      · unfold insertHalf
        rw [hpr, Res.ok_bind]
        simp only [hcond, Bool.false_eq_true, if_false]
        simp only [Found.idx]
        rw [b2, Res.ok_bind]; simp only [if_neg hne]; rfl
      · intro _
        refine ⟨q, s.right, D, R', by rw [getDirty_set, if_pos rfl], ?_, b3, a3, b6.trans a4, a5, b5.trans a6, a7, ?_, ?_, hR, hD, ?_⟩
        · show (t1.setDirty lk q).getDirty (t.newLast + 1) = _
          rw [getDirty_set, if_neg hne, getDirty_set, if_pos rfl]
        · rw [b4, hr, List.append_assoc, List.cons_append, List.take_append_drop]
        · rw [b4]; simp
        · intro hh; omega
  · -- into the right half
    have hl : items s.left = A.take (numKeys p / 2) := by
      rw [a8, h, List.take_append, show numKeys p / 2 - A.length = 0 by omega, List.take_zero, List.append_nil]
    have hr : items s.right = A.drop (numKeys p / 2) ++ B := by
      rw [a9, h, List.drop_append, show numKeys p / 2 - A.length = 0 by omega, List.drop_zero]
    have hAl : ∀ a ∈ A.take (numKeys p / 2), a.key < it.key := fun a ha => hA a (List.mem_of_mem_take ha)
    have hAr : ∀ a ∈ A.drop (numKeys p / 2), a.key < it.key := fun a ha => hA a (List.mem_of_mem_drop ha)
    have hpl := probe_at a2 hsl hkl (B := []) (by rw [hl, List.append_nil]) hAl (by simp)
    have hpr := probe_at a3 hsr hkl hr hAr hB
    have hcond : (!(Found.notFound (A.take (numKeys p / 2)).length).hit &&
        decide (numKeys s.left ≤ (Found.notFound (A.take (numKeys p / 2)).length).idx)) = true := by
      simp only [Found.hit, Found.idx, Bool.not_false, Bool.true_and, decide_eq_true_eq, List.length_take]; omega
    rcases insert_at a3 hr (it := it) (by rw [hk, a5]) hsz hc with ⟨b1, b2⟩ | ⟨b1, q, b2, b3, b4, b5, b6, b7⟩
    · refine ⟨.nospc, t1.setDirty (t.newLast + 1) s.right, hsp, ?_, rfl, rfl, ?_, hdiv, .inr rfl, ?_, ?_⟩
      · unfold insertHalf
        rw [hpl, Res.ok_bind]
        simp only [hcond, if_true]
        rw [hpr, Res.ok_bind]
        simp only [Found.idx]
        rw [b2, Res.ok_bind]; rfl
      · refine ⟨rfl, rfl, rfl, rfl, rfl, hev.last, hE.set _ _ _ hI1 hnF a7 a3 (Nat.le_refl _), ?_⟩
        intro x hx hxl
        rw [getDirty_set, if_neg (by omega), hev.same x hx hxl]
      · intro _ hh
        exfalso
        rw [a9, hnr] at a12
        omega
      · intro hh; cases hh
    · refine ⟨.success, t1.setDirty (t.newLast + 1) q, hsp, ?_, rfl, rfl, ?_, hdiv, .inl rfl, fun _ _ => rfl, ?_⟩
      · unfold insertHalf
        rw [hpl, Res.ok_bind]
        simp only [hcond, if_true]
        rw [hpr, Res.ok_bind]
        simp only [Found.idx]
        rw [b2, Res.ok_bind]; rfl
      · refine ⟨rfl, rfl, rfl, rfl, rfl, hev.last, hE.set _ _ _ hI1 hnF (b5.trans a7) b3 (Nat.le_refl _), ?_⟩
        intro x hx hxl
        rw [getDirty_set, if_neg (by omega), hev.same x hx hxl]
      · intro _
        obtain ⟨a, A', hA'⟩ : ∃ a A', A.drop (numKeys p / 2) = a :: A' := by
          cases hi : A.drop (numKeys p / 2) with
          | nil => have := congrArg List.length hi; rw [List.length_drop] at this; simp at this; omega
          | cons a A' => exact ⟨a, A', rfl⟩
        have haD : a = D := by rw [hr, hA'] at hR; simp at hR; exact hR.1
        refine ⟨s.left, q, D, A' ++ it :: B, ?_, by rw [getDirty_set, if_pos rfl], a2, b3, a4, b6.trans a5, a6, b5.trans a7, ?_, ?_, ?_, hD, ?_⟩
        · rw [getDirty_set, if_neg (by omega), getDirty_set, if_neg (by omega), getDirty_set, if_pos rfl]
        · rw [b4, hl, ← List.append_assoc, List.take_append_drop]
        · intro hh
          have := congrArg List.length hh
          rw [items_length, hnl] at this; simp at this; omega
        · rw [b4, hA', haD]; rfl
        · intro _
          have h1 : total (items q) = total (items s.right) + it.size := by
            rw [b4, hr]; unfold total; simp; omega
          have h2 : numKeys q = numKeys s.right + 1 := by
            rw [← items_length, b4, ← items_length s.right, hr]; simp; omega
          exact ⟨by omega, by omega, a8⟩

end Verif.Db
