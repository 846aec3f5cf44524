import Verif.Db.Props

/-!
# Helper lemmas: keys in descending order on one leaf page
-/

namespace Verif.Db

open Verif.Page

/-- The bytes that pairs take on a leaf page: header and slot of 6 bytes each, key and value. -/
def cost (l : List (Bytes × Bytes)) : Nat := (l.map fun e => 6 + e.1.length + e.2.length).sum

/-- The entries of a leaf page holding the pairs `l`. -/
def asItems (l : List (Bytes × Bytes)) : List Item := l.map fun e => .leaf e.1 e.2

theorem cost_snoc (l : List (Bytes × Bytes)) (k v : Bytes) : cost (l ++ [(k, v)]) = cost l + (6 + k.length + v.length) := by
  simp [cost]

theorem asItems_keys (l : List (Bytes × Bytes)) : (asItems l).map Item.key = l.map Prod.fst := by
  simp [asItems, Item.key]

theorem dirty_self (t : Txn) (n : Nat) (p : Page) : (t.setDirty n p).getDirty n = some p := by
  rw [getDirty_set, if_pos rfl]

theorem shrink_slot {p q : Page} {sp : Nat} (h : shrink p sp = .ok q) (i : Nat) : slot q i = slot p i := by
  unfold shrink at h
  simp only [] at h
  obtain ⟨m, -, h⟩ := Res.bind_eq_ok.1 h
  cases h
  apply slot_congr
  intro j h1 _
  simp only [hdrSize] at h1
  rw [put16_out (by omega), put16_out (by omega), put16_out (by omega)]

/-- When the first entry of a page is also its lowest, halving the page frees nothing but the slots. -/
theorem shrink_room {p q : Page} (wf : WF p) {sp : Nat} (h : shrink p sp = .ok q) (hs : sp ≤ numKeys p) (h0 : 0 < sp)
    (hf : slot p 0 = upper p) : room q = room p + 2 * (numKeys p - sp) := by
  obtain ⟨q', h1, wfq, -, -, hi, hu⟩ := shrink_spec wf hs
  rw [h] at h1; cases h1
  have hn : numKeys q = sp := by rw [← items_length, hi, List.length_take, items_length]; omega
  have h2 := (wfq.inside 0 (by omega)).1
  rw [shrink_slot h, hf] at h2
  have h3 := wfq.low
  have h4 := wf.low
  have h5 := wfq.gap
  have h6 := wf.gap
  unfold room
  omega

/-- Inserting in front puts the new entry lowest. -/
theorem insert_front {p : Page} (wf : WF p) {it : Item} (hk : it.hasData = isLeaf p) (hs : it.size < 65536)
    (hc : it.child < 2 ^ 64) (hr : it.size + 2 ≤ room p) :
    ∃ q, insert p 0 it = .ok (.ok, q) ∧ WF q ∧ items q = it :: items p ∧ pgno q = pgno p ∧ isLeaf q = isLeaf p ∧
      room q + it.size + 2 = room p ∧ slot q 0 = upper q := by
  obtain ⟨q, hq, hadd, -⟩ := insert_added wf (Nat.zero_le _) hk hs hc hr
  obtain ⟨q', e1, e2, e3, e4, e5, e6⟩ := (insert_keeps_entries_partial wf (Nat.zero_le _) hk hs hc).2 hr
  rw [hq] at e1; cases e1
  refine ⟨q, hq, e2, by rw [e3]; rfl, e4, isLeaf_congr e5, e6, ?_⟩
  rw [hadd.sl 0 (Nat.zero_le _), hadd.up]; rfl

/-- A write transaction whose database is one changed leaf page, filled from the largest key down:
`l` are the pairs in key order. -/
structure OneLeaf (t : Txn) (n : Nat) (p : Page) (l : List (Bytes × Bytes)) : Prop where
  rdonly : t.rdonly = false
  free : t.freeRoot = 0
  root : t.root = n
  pos : 0 < n
  dirty : t.getDirty n = some p
  last : n ≤ t.newLast
  no : pgno p = n
  wf : WF p
  leaf : isLeaf p = true
  its : items p = asItems l
  sorted : Ascending l
  front : slot p 0 = upper p
  room : room p + cost l = 4078

theorem OneLeaf.tree {env : Env} {t : Txn} {n : Nat} {p : Page} {l : List (Bytes × Bytes)} (hr : t.rdonly = false) (hroot : t.root = n)
    (hn : 0 < n) (hl : n ≤ t.newLast) (hd : t.getDirty n = some p) (hno : pgno p = n) (wf : WF p) (hp : isLeaf p = true)
    (hi : items p = asItems l) (hs : Ascending l) : Holds env t 0 l := by
  have hg : getPage env t n = .ok p := getPage_dirty hr hd
  refine .inr ⟨by omega, ⟨?_, ?_, ?_⟩, ?_⟩
  · rw [hroot]
    refine ⟨p, hg, hno, wf, hp, ?_, fun _ _ => inRange_none _⟩
    unfold keys; rw [hi, asItems_keys]; exact hs
  · simp [pagesOf]
  · rw [hroot]; simp [pagesOf]; omega
  · rw [hroot, contents_zero hg]
    unfold kvs; rw [hi, asItems, List.map_map]; exact List.map_id' l

theorem probe_front {p : Page} (wf : WF p) {l : List (Bytes × Bytes)} (hi : items p = asItems l) (hs : Ascending l) {key : Bytes}
    (hk : key.length < 65536) (hlt : ∀ e ∈ l, key < e.1) : probe p key = .ok (.notFound 0) := by
  have hks : keys p = l.map Prod.fst := by unfold keys; rw [hi, asItems_keys]
  obtain ⟨f, hf, A, B, hA, hB, h⟩ := probe_spec wf (by rw [hks]; exact hs) hk
  have hlt' : ∀ it ∈ items p, key < it.key := by
    intro it hit
    have : it.key ∈ keys p := List.mem_map_of_mem hit
    rw [hks, List.mem_map] at this
    obtain ⟨e, he, h⟩ := this
    rw [← h]; exact hlt e he
  have hA' : A = [] := by
    cases A with
    | nil => rfl
    | cons a A =>
      exfalso
      have h1 := hA a List.mem_cons_self
      have h2 := hlt' a (by rcases h with ⟨it, h, -, -⟩ | ⟨h, -⟩ <;> rw [h] <;> simp)
      exact blt_irrefl _ (blt_trans h1 h2)
  subst hA'
  rcases h with ⟨it, h, h', -⟩ | ⟨-, rfl⟩
  · exfalso
    have := hlt' it (by rw [h]; simp)
    rw [h'] at this
    exact blt_irrefl _ this
  · exact hf

theorem OneLeaf.putEq {env : Env} {t : Txn} {n fuel : Nat} {p : Page} {l : List (Bytes × Bytes)} (h : OneLeaf t n p l) {key val : Bytes}
    (hk : key.length < 65536) (hlt : ∀ e ∈ l, key < e.1) :
    put env fuel t key val = (insert p 0 (.leaf key val) >>= fun r =>
        match r.1 with
        | .ok => .ok (.success, (t.setDirty n p).setDirty n r.2)
        | .inval => .ok (.inval, t.setDirty n p)
        | .nospc => (pageSplit (alloc env fuel) (t.setDirty n p) n [n] key val >>= fun r => .ok (withRoot r))) := by
  have hn := h.pos
  have hg : getPage env t n = .ok p := getPage_dirty h.rdonly h.dirty
  have hf := probe_front h.wf h.its h.sorted hk hlt
  have hpath : findPath env t key maxDepth t.root = .ok (.ok [n]) := by
    rw [h.root]
    show findPath env t key (31 + 1) n = _
    rw [findPath, if_neg (by unfold maxPgno; simp only [h.rdonly, Bool.false_eq_true, if_false]; have := h.last; omega), hg, Res.ok_bind,
      if_pos h.leaf]
  have hcow : cowPath env t [n].reverse = .ok (n, t) := by
    have := cowPath_dirty (env := env) (t := t) (path := [n]) (by simp) (by
      intro x hx; rw [List.mem_singleton] at hx; subst hx; exact ⟨p, h.dirty⟩)
    simpa using this
  unfold put putWith
  rw [if_neg (by simp [h.rdonly]), if_neg (by rw [h.root]; omega), hpath, Res.ok_bind]
  simp only [List.getLastD_cons, List.getLastD_nil]
  rw [hg, Res.ok_bind, hf, Res.ok_bind]
  simp only [Found.hit, Bool.false_and, Bool.false_eq_true, if_false]
  rw [hcow, Res.ok_bind]
  simp only [h.dirty, Res.ofOption_some, Res.ok_bind, if_true, Found.idx]
  rfl

/-- The pair fits: it is stored in front. -/
theorem OneLeaf.step {env : Env} {t : Txn} {n fuel : Nat} {p : Page} {l : List (Bytes × Bytes)} (h : OneLeaf t n p l) {key val : Bytes}
    (hlt : ∀ e ∈ l, key < e.1) (hc : cost l + (6 + key.length + val.length) ≤ 4078) :
    ∃ t' p', put env fuel t key val = .ok (.success, t') ∧ OneLeaf t' n p' ((key, val) :: l) ∧ t'.newLast = t.newLast := by
  have hroom := h.room
  obtain ⟨q, b1, b2, b3, b4, b5, b6, b7⟩ := insert_front h.wf (it := .leaf key val) (by rw [h.leaf]; rfl) (by simp only [Item.size]; omega)
    (by simp [Item.child]) (by simp only [Item.size]; omega)
  rw [h.putEq (by omega) hlt, b1, Res.ok_bind]
  refine ⟨_, q, rfl, ⟨h.rdonly, h.free, h.root, h.pos, dirty_self _ _ _, h.last, by rw [b4, h.no], b2, by rw [b5, h.leaf],
    by rw [b3, h.its]; rfl, ?_, b7, ?_⟩, rfl⟩
  · unfold Ascending
    rw [List.map_cons, sorted_cons]
    refine ⟨?_, h.sorted⟩
    intro y hy
    rw [List.mem_map] at hy
    obtain ⟨e, he, rfl⟩ := hy
    exact hlt e he
  · simp only [Item.size] at b6
    simp only [cost, List.map_cons, List.sum_cons] at hroom ⊢
    omega

/-- The pair does not fit, and neither after the upper half has moved: no space, and the upper half is no longer reachable. -/
theorem OneLeaf.refuse {env : Env} {t : Txn} {n fuel : Nat} {p : Page} {l : List (Bytes × Bytes)} (h : OneLeaf t n p l) {key val : Bytes}
    (h2 : 2 ≤ l.length) (hlt : ∀ e ∈ l, key < e.1) (hsz : 4 + key.length + val.length < 65536) (hl64 : t.newLast + 1 < 2 ^ 64)
    (hc : 4078 + 2 * (l.length - l.length / 2) < cost l + (6 + key.length + val.length)) :
    ∃ t', put env (fuel + 1) t key val = .ok (.nospc, t') ∧ Holds env t' 0 (l.take (l.length / 2)) := by
  have hroom := h.room
  have hn := h.pos
  have hnl := h.last
  have hins : insert p 0 (.leaf key val) = .ok (.nospc, p) :=
    (insert_keeps_entries_partial h.wf (Nat.zero_le _) (by rw [h.leaf]; rfl) (by simp only [Item.size]; omega) (by simp [Item.child])).1
      (by simp only [Item.size]; omega)
  have hnk : numKeys p = l.length := by rw [← items_length, h.its]; simp [asItems]
  obtain ⟨r, q, d, s1, s2, s3, s4, s5, s6, s7, s8, s9, s10, s11, s12, s13, s14, s15⟩ := split_spec h.wf (by omega) hl64
  rw [hnk] at s1 s2 s10
  have hqr := shrink_room h.wf s2 (by omega) (by omega) h.front
  have hqi : items q = asItems (l.take (l.length / 2)) := by rw [s10, h.its]; simp [asItems, List.map_take]
  have hql : isLeaf q = true := by rw [isLeaf_congr s6, h.leaf]
  have hqn : numKeys q = l.length / 2 := by rw [← items_length, hqi]; simp [asItems]; omega
  have hsp : splitLeaf p (t.newLast + 1) = .ok (some ⟨q, r, d⟩) := by
    unfold splitLeaf
    simp only [h.leaf, Bool.not_true, Bool.false_eq_true, if_false]
    rw [h.leaf] at s1 s3
    rw [hnk, s1, Res.ok_bind, s2, Res.ok_bind, dividerOf_pos (by omega), s3, Res.ok_bind]
  have hasc : Ascending (l.take (l.length / 2)) := by
    unfold Ascending; rw [List.map_take]; exact List.Pairwise.sublist (List.take_sublist _ _) h.sorted
  have hpq : probe q key = .ok (.notFound 0) :=
    probe_front s4 hqi hasc (by omega) (fun e he => hlt e (List.mem_of_mem_take he))
  have hinsq : insert q 0 (.leaf key val) = .ok (.nospc, q) :=
    (insert_keeps_entries_partial s4 (Nat.zero_le _) (by rw [hql]; rfl) (by simp only [Item.size]; omega) (by simp [Item.child])).1
      (by simp only [Item.size]; rw [hqr, hnk]; omega)
  let t1 : Txn := (((extend (t.setDirty n p)).2.setDirty n q).setDirty (t.newLast + 1) r)
  have hst : splitTxn (alloc env (fuel + 1)) true (t.setDirty n p) n = .ok (t1, .ok ⟨t.newLast + 1, q, r, d⟩) := by
    unfold splitTxn
    rw [dirty_self, Res.ofOption_some, Res.ok_bind]
    simp only [h.leaf, if_true, Bool.not_true, Bool.false_eq_true, if_false]
    rw [(ext_noFree env fuel).ext (t.setDirty n p) h.free, Res.ok_bind]
    have hd : (extend (t.setDirty n p)).2.getDirty n = some p := dirty_self _ _ _
    rw [hd, Res.ofOption_some, Res.ok_bind]
    show (splitLeaf p (t.newLast + 1) >>= _) = _
    rw [hsp, Res.ok_bind]
    rfl
  have hih : insertHalf t1 n ⟨t.newLast + 1, q, r, d⟩ (.leaf key val) = .ok (.nospc, t1.setDirty n q) := by
    unfold insertHalf
    simp only [Item.key]
    rw [hpq, Res.ok_bind]
    simp only [Found.hit, Found.idx, Bool.not_false, Bool.true_and]
    rw [if_neg (by simp; omega), hinsq, Res.ok_bind]
    simp only [ofSt]
    rw [if_neg (by omega)]
  have hps : pageSplit (alloc env (fuel + 1)) (t.setDirty n p) n [n] key val = .ok (t1.setDirty n q, .error .nospc) := by
    unfold pageSplit
    rw [hst, Res.ok_bind]
    simp only []
    rw [hih, Res.ok_bind]
    simp only [reduceCtorEq, if_false]
  rw [h.putEq (by omega) hlt, hins, Res.ok_bind]
  simp only []
  rw [hps, Res.ok_bind]
  refine ⟨_, rfl, OneLeaf.tree (t := t1.setDirty n q) (n := n) (p := q) h.rdonly h.root hn ?_ (dirty_self _ _ _) (by rw [s8, h.no]) s4 hql hqi hasc⟩
  show n ≤ t.newLast + 1
  omega

/-- The first pair. -/
theorem OneLeaf.start {env : Env} {t : Txn} {fuel : Nat} {key val : Bytes} (hw : t.rdonly = false) (h0 : t.root = 0) (hf : t.freeRoot = 0)
    (h64 : t.newLast + 1 < 2 ^ 64) (hc : 6 + key.length + val.length ≤ 4078) :
    ∃ t' p', put env (fuel + 1) t key val = .ok (.success, t') ∧ OneLeaf t' (t.newLast + 1) p' [(key, val)] ∧ t'.newLast = t.newLast + 1 := by
  have wf := emptyPage_wf true (t.newLast + 1) h64
  obtain ⟨-, e2, e3, e4, e5⟩ := emptyPage_fields true (t.newLast + 1) h64
  have hroom : Page.room (emptyPage true (t.newLast + 1)) = 4078 := by unfold Page.room; rw [e3, e4]
  have hl := emptyPage_isLeaf true (t.newLast + 1) h64
  obtain ⟨q, b1, b2, b3, b4, b5, b6, b7⟩ := insert_front wf (it := .leaf key val) (by rw [hl]; rfl) (by simp only [Item.size]; omega)
    (by simp [Item.child]) (by simp only [Item.size]; omega)
  unfold put putWith
  rw [if_neg (by simp [hw]), if_pos h0]
  unfold newTree
  rw [(ext_noFree env fuel).ext _ hf, Res.ok_bind]
  simp only [extend]
  rw [b1]
  refine ⟨_, q, rfl, ⟨hw, hf, rfl, by omega, dirty_self _ _ _, Nat.le_refl _, by rw [b4, e5], b2, by rw [b5, hl],
    by rw [b3, emptyPage_items _ _ h64]; rfl, List.pairwise_singleton _ _, b7, ?_⟩, rfl⟩
  simp only [Item.size] at b6
  simp only [cost, List.map_cons, List.map_nil, List.sum_cons, List.sum_nil]
  omega

end Verif.Db
