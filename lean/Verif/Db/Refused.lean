import Verif.Db.ExactPut
import Verif.Db.Desc
import Verif.Db.Reclaim

/-!
# Helper lemmas: a `put` whose half of the split leaf has no room

`BelongsTo`, `lowestOf`, `HalfTight` are the specification: the leaf a key belongs to, the lowest
byte of the first entries of a page, and the condition under which neither the leaf nor the half
that the pair goes to has room.
-/

namespace Verif.Db

open Verif.Page

/-- Page `p` is the leaf that `key` belongs to, in the tree of height `h` at page `n`. -/
def BelongsTo (g : View) (key : Bytes) : Nat → Nat → Page → Prop
  | 0, n, p => g n = .ok p
  | h + 1, n, p => ∃ q A k c B, g n = .ok q ∧ Routes q key A k c B ∧ BelongsTo g key h c p

/-- The lowest byte that one of the first `m` entries occupies. -/
def lowestOf (p : Page) : Nat → Nat
  | 0 => 4096
  | m + 1 => min (slot p m) (lowestOf p m)

/-- The leaf `p` has no room for an entry of `size` bytes (and two for its slot), and neither has
the half it goes to when the entries from the middle on have left: in the lower half the room
between the slots and the lowest entry that stays, in the upper half, written to a new page, what
its entries leave of 4078 bytes. -/
def HalfTight (p : Page) (key : Bytes) (size : Nat) : Prop :=
  room p < size + 2 ∧
    if (keys p).countP (· < key) < numKeys p / 2 then lowestOf p (numKeys p / 2) < 18 + 2 * (numKeys p / 2) + (size + 2)
    else 4078 < (((items p).drop (numKeys p / 2)).map fun it => it.size + 2).sum + (size + 2)

/-! ## Lemmas -/

theorem lowest_unique {p : Page} : ∀ (m x : Nat), x ≤ 4096 → (∀ i < m, x ≤ slot p i) → (x = 4096 ∨ ∃ i < m, x = slot p i) →
    lowestOf p m = x := by
  intro m
  induction m with
  | zero => intro x _ _ h; rcases h with h | ⟨i, hi, -⟩
            · exact h.symm
            · omega
  | succ m ih =>
    intro x h1 h2 h3
    unfold lowestOf
    have hm := h2 m (by omega)
    have hlow : ∀ k, lowestOf p k ≤ 4096 ∧ ∀ i < k, lowestOf p k ≤ slot p i := by
      intro k
      induction k with
      | zero => exact ⟨Nat.le_refl _, fun i hi => by omega⟩
      | succ k ihk =>
        unfold lowestOf
        refine ⟨by have := ihk.1; omega, fun i hi => ?_⟩
        by_cases he : i = k
        · subst he; omega
        · have := ihk.2 i (by omega); omega
    have hge : ∀ k, k ≤ m → x ≤ lowestOf p k := by
      intro k hk
      induction k with
      | zero => exact h1
      | succ k ihk => unfold lowestOf; have := ihk (by omega); have := h2 k (by omega); omega
    have := hge m (Nat.le_refl _)
    rcases h3 with rfl | ⟨i, hi, rfl⟩
    · have := (hlow m).1; omega
    · by_cases he : i = m
      · subst he; omega
      · have := (hlow m).2 i (by omega); omega

theorem shrink_upper {p q : Page} {m : Nat} (hm : hdrSize + 2 * m ≤ pageSize) (h : shrink p m = .ok q) : upper q = lowestOf p m := by
  have hsl := fun i => shrink_slot h i
  unfold shrink at h
  simp only [] at h
  obtain ⟨x, h1, h2⟩ := Res.bind_eq_ok.1 h
  obtain ⟨y, e1, e2, e3, e4⟩ := minOffset_spec (p := put16 (put16 p 10 m) 12 (hdrSize + m * 2)) m hm
  rw [h1] at e1
  cases e1
  have hs : ∀ i, slot (put16 (put16 p 10 m) 12 (hdrSize + m * 2)) i = slot p i := by
    intro i
    apply slot_congr
    intro j g1 _
    simp only [hdrSize] at g1
    rw [put16_out (by omega), put16_out (by omega)]
  simp only [hs, pageSize] at e2 e3 e4
  rw [lowest_unique m x e2 e3 e4]
  cases h2
  show u16 _ 14 = x
  rw [u16_put16, Nat.mod_eq_of_lt (by omega)]

theorem total_cost (l : List Item) : (l.map fun it => it.size + 2).sum = total l + 2 * l.length := by
  induction l with
  | nil => rfl
  | cons a l ih =>
    simp only [total, List.map_cons, List.sum_cons, List.length_cons] at ih ⊢
    omega

/-- The split and the failed insertion into the half. -/
theorem split_refused {al : Alloc} {F : List Nat} {I : Txn → Prop} (hE : Ext al F I) {t : Txn} (hI : I t)
    {lk : Nat} (hlk : lk ≤ t.newLast) (hF : lk ∉ F) {p : Page} (hp : t.getDirty lk = some p) (hpn : pgno p = lk) (wf : WF p)
    (hl : isLeaf p = true) (hs : Sorted (keys p)) (h64 : t.newLast + 1 < 2 ^ 64)
    {A B : List Item} (h : items p = A ++ B) {key val : Bytes} (hA : ∀ a ∈ A, a.key < key)
    (hB : ∀ b ∈ B, key < b.key) (hsz : 4 + key.length + val.length < 65536) (ht : HalfTight p key (4 + key.length + val.length)) :
    ∃ s t1 t2 L, splitTxn al true t lk = .ok (t1, .ok s) ∧ insertHalf t1 lk s (.leaf key val) = .ok (.nospc, t2) ∧
      t2.newLast = t.newLast + 1 ∧ Evo I [lk] t t2 ∧ t2.getDirty lk = some L ∧ WF L ∧ isLeaf L = true ∧ pgno L = pgno p ∧
      items L = (items p).take (numKeys p / 2) := by
  obtain ⟨hroom, htight⟩ := ht
  obtain ⟨s, a1, a2, a3, a4, a5, a6, a7, a8, a9, a12⟩ := split_leaf_any wf hl h64
  have hne : t.newLast + 1 ≠ lk := by omega
  have hnF : t.newLast + 1 ∉ F := fun hx => by have := hE.last t hI _ hx; omega
  have hp' : (extend t).2.getDirty lk = some p := hp
  let t1 := ((extend t).2.setDirty lk s.left).setDirty (t.newLast + 1) s.right
  have hI1 : I t1 := hE.set _ _ _ (hE.set _ _ _ (hE.grow t hI) hF (a6.trans hpn) a2 (Nat.le_succ_of_le hlk)) hnF a7 a3 (Nat.le_refl _)
  have hl1 : lk ≤ t1.newLast := Nat.le_succ_of_le hlk
  have hsp : splitTxn al true t lk = .ok (t1, .ok ⟨t.newLast + 1, s.left, s.right, s.divider⟩) := by
    unfold splitTxn
    rw [hp, Res.ofOption_some, Res.ok_bind, hl]
    simp only [if_true, Bool.not_true, Bool.false_eq_true, if_false]
    rw [hE.ext t hI, Res.ok_bind, hp', Res.ofOption_some, Res.ok_bind]
    simp only [extend] at a1 ⊢
    rw [a1, Res.ok_bind]; rfl
  have hlen : (items p).length = numKeys p := items_length p
  have hnl : numKeys s.left = numKeys p / 2 := by
    rw [← items_length, a8, List.length_take, hlen]; omega
  have hlow := wf.low
  have hgap := wf.gap
  have htop := wf.top
  simp only [pageSize, hdrSize] at hlow htop
  have hshr : shrink p (numKeys p / 2) = .ok s.left := by
    unfold splitLeaf at a1
    simp only [hl, Bool.not_true, Bool.false_eq_true, if_false] at a1
    obtain ⟨r, -, a1⟩ := Res.bind_eq_ok.1 a1
    obtain ⟨l, b1, a1⟩ := Res.bind_eq_ok.1 a1
    obtain ⟨d, -, a1⟩ := Res.bind_eq_ok.1 a1
    cases a1
    exact b1
  have hup := shrink_upper (by simp only [hdrSize, pageSize]; omega) hshr
  have hlow2 := a2.low
  simp only [hdrSize] at hlow2
  have hsl : Sorted (keys s.left) := by
    refine sorted_sub hs ?_
    unfold keys; rw [a8]; exact (List.take_sublist _ _).map _
  have hsr : Sorted (keys s.right) := by
    refine sorted_sub hs ?_
    unfold keys; rw [a9]; exact (List.drop_sublist _ _).map _
  have hlen2 : A.length + B.length = numKeys p := by rw [← hlen, h, List.length_append]
  have hcnt : (keys p).countP (· < key) = A.length := by
    unfold keys; rw [h, List.map_append, countP_mid, List.length_map]
    · intro a ha; obtain ⟨i, hi, rfl⟩ := List.mem_map.1 ha; exact hA i hi
    · intro a ha; obtain ⟨i, hi, rfl⟩ := List.mem_map.1 ha; exact hB i hi
  have hev : Evo I [lk] t t1 := by
    refine ⟨rfl, rfl, rfl, rfl, rfl, ?_, hI1, ?_⟩
    · show t.newLast ≤ t.newLast + 1; omega
    · intro x hx hxl
      rw [getDirty_set, if_neg (by omega), getDirty_set, if_neg (by simpa using hxl)]; rfl
  have hkl : key.length < 65536 := by omega
  rw [hcnt] at htight
  have hkk : (Item.leaf key val).key = key := rfl
  have hss : (Item.leaf key val).size = 4 + key.length + val.length := rfl
  refine ⟨⟨t.newLast + 1, s.left, s.right, s.divider⟩, t1, ?_⟩
  by_cases hlt : A.length < numKeys p / 2
  · rw [if_pos hlt] at htight
    have hi : items s.left = A ++ B.take (numKeys p / 2 - A.length) := by
      rw [a8, h, List.take_append, List.take_of_length_le (by omega)]
    have hpr := probe_at a2 hsl hkl hi hA fun b hb => hB b (List.mem_of_mem_take hb)
    have hcond : (!(Found.notFound A.length).hit && decide (numKeys s.left ≤ (Found.notFound A.length).idx)) = false := by
      have hx : ¬ numKeys s.left ≤ (Found.notFound A.length).idx := by show ¬ numKeys s.left ≤ A.length; omega
      rw [decide_eq_false hx]; rfl
    rcases insert_at a2 hi (it := .leaf key val) (by rw [a4, hl]; rfl) (by rw [hss]; exact hsz) (by simp [Item.child]) with ⟨b1, b2⟩ | ⟨b1, -⟩
    · refine ⟨t1.setDirty lk s.left, s.left, hsp, ?_, rfl, hev.trans (.set hE hI1 hF hl1 (a6.trans hpn) a2) (by simp) (by simp),
        by rw [getDirty_set, if_pos rfl], a2, a4.trans hl, a6, a8⟩
      unfold insertHalf
      rw [hkk, hpr, Res.ok_bind]
      simp only [hcond, Bool.false_eq_true, if_false]
      simp only [Found.idx]
      rw [b2, Res.ok_bind]; simp only [if_neg hne]; rfl
    · exfalso
      rw [hss] at b1
      unfold room at b1
      omega
  · rw [if_neg hlt, total_cost] at htight
    have hi : items s.left = A.take (numKeys p / 2) := by
      rw [a8, h, List.take_append, show numKeys p / 2 - A.length = 0 by omega, List.take_zero, List.append_nil]
    have hir : items s.right = A.drop (numKeys p / 2) ++ B := by
      rw [a9, h, List.drop_append, show numKeys p / 2 - A.length = 0 by omega, List.drop_zero]
    have hpl := probe_at a2 hsl hkl (B := []) (by rw [hi, List.append_nil]) (fun a ha => hA a (List.mem_of_mem_take ha)) (by simp)
    have hpr := probe_at a3 hsr hkl hir (fun a ha => hA a (List.mem_of_mem_drop ha)) hB
    have hcond : (!(Found.notFound (A.take (numKeys p / 2)).length).hit &&
        decide (numKeys s.left ≤ (Found.notFound (A.take (numKeys p / 2)).length).idx)) = true := by
      simp only [Found.hit, Found.idx, Bool.not_false, Bool.true_and, decide_eq_true_eq, List.length_take]; omega
    rcases insert_at a3 hir (it := .leaf key val) (by rw [a5, hl]; rfl) (by rw [hss]; exact hsz) (by simp [Item.child]) with ⟨b1, b2⟩ | ⟨b1, -⟩
    · refine ⟨t1.setDirty (t.newLast + 1) s.right, s.left, hsp, ?_, rfl, ?_, ?_, a2, a4.trans hl, a6, a8⟩
      · unfold insertHalf
        rw [hkk, hpl, Res.ok_bind]
        simp only [hcond, if_true]
        rw [hpr, Res.ok_bind]
        simp only [Found.idx]
        rw [b2, Res.ok_bind]; rfl
      · refine ⟨rfl, rfl, rfl, rfl, rfl, hev.last, hE.set _ _ _ hI1 hnF a7 a3 (Nat.le_refl _), ?_⟩
        intro x hx hxl
        rw [getDirty_set, if_neg (by omega), hev.same x hx hxl]
      · rw [getDirty_set, if_neg (by omega), getDirty_set, if_neg (by omega), getDirty_set, if_pos rfl]
    · exfalso
      rw [hss] at b1
      rw [← items_length, a9] at a12
      omega

theorem belongs_path {g : View} {key : Bytes} (h : Nat) : ∀ {n : Nat} {path : List Nat} {p q : Page}, IsPath g key h n path →
    g (path.getLastD 0) = .ok p → BelongsTo g key h n q → q = p := by
  induction h with
  | zero =>
    intro n path p q hp hg hb
    rw [show path = [n] from hp] at hg
    have hb' : g n = .ok q := hb
    have hg' : g n = .ok p := hg
    rw [hb'] at hg'; exact Res.ok.inj hg'
  | succ h ih =>
    rintro n path p q ⟨r, A, k, c, B, path', h1, h2, h3, rfl⟩ hg ⟨r', A', k', c', B', g1, g2, g3⟩
    rw [h1] at g1; cases g1
    cases routes_unique h2 g2
    have hne : path' ≠ [] := by obtain ⟨rest, hr, -⟩ := isPath_cons h3; rw [hr]; simp
    rw [getLastD_cons hne] at hg
    exact ih h3 hg g3

/-- A new key whose leaf and half have no room: the put is refused, and of the leaf the lower half remains. -/
theorem put_half_tight {al : Alloc} {F : List Nat} {I : Txn → Prop} (hE : Ext al F I) {env : Env} {t : Txn} {h : Nat}
    {l : List (Bytes × Bytes)} {key val : Bytes} (hsz : 4 + key.length + val.length < 65536)
    (hr : t.rdonly = false) (hI : I t) (h0 : t.root ≠ 0) (hh : Holds env t h l) (hkey : key ∉ l.map Prod.fst)
    (hF : ∀ x ∈ pagesOf (getPage env t) h t.root, x ∉ F) (hd : h < maxDepth) (h64 : t.newLast + 1 < 2 ^ 64) {p : Page}
    (hb : BelongsTo (getPage env t) key h t.root p) (htight : HalfTight p key (4 + key.length + val.length)) :
    ∃ t' X Y, putWith al env t key val = .ok (.nospc, t') ∧ I t' ∧ t'.rdonly = false ∧ t'.root = t.root ∧ t'.freeRoot = t.freeRoot ∧
      l = X ++ kvs p ++ Y ∧ Holds env t' h (X ++ (kvs p).take (numKeys p / 2) ++ Y) := by
  have hk : key.length < 65536 := by omega
  rcases hh with ⟨h0', -⟩ | ⟨-, ht, rfl⟩
  · exact absurd h0' h0
  obtain ⟨path, p1, p2⟩ := findPath_spec hk h ht.wft hd (by
    intro x hx; unfold maxPgno; simpa [hr] using (ht.bound x hx).2)
  obtain ⟨lo', hi', p', X, Y, i1, i2, i3, i4, i5, i6, i7⟩ := leaf_focus h ht.wft p1 (inRange_none key)
  have hpp := belongs_path h p1 i1 hb
  subst hpp
  obtain ⟨q, j1, j2, j3, j4, j5, j6⟩ := i2
  rw [i1] at j1; cases j1
  have hne : path ≠ [] := by
    obtain ⟨rest, hr, -⟩ := isPath_cons p1; rw [hr]; simp
  have hlm : path.getLastD 0 ∈ pagesOf (getPage env t) h t.root := isPath_mem p1 _ (getLastD_mem hne)
  have hkp : key ∉ keys p := by
    intro hm; apply hkey; rw [i4, List.map_append, List.map_append, ← keys_eq_kvs]
    exact List.mem_append_left _ (List.mem_append_right _ hm)
  obtain ⟨f, hf, A', B', hA, hB, hsp⟩ := probe_spec j3 j5 hk
  have hsp' : items p = A' ++ B' ∧ f = .notFound A'.length := by
    rcases hsp with ⟨it, e1, e2, -⟩ | hx
    · exfalso; apply hkp; unfold keys; rw [e1]; simp [e2]
    · exact hx
  obtain ⟨hit, rfl⟩ := hsp'
  obtain ⟨t1, c1, c2, c3, c4⟩ := cowPath_spec (env := env) hr hne (by
    intro n hn
    exact wft_pages h ht.wft n (isPath_mem p1 n hn))
  have hI1 : I t1 := c4 F I hE.set (fun t x _ h => hE.freed t _ h) (fun x hx => ⟨hF x (isPath_mem p1 x hx), (ht.bound x (isPath_mem p1 x hx)).2⟩) hI
  have hr1 : t1.rdonly = false := by rw [c2.rdonly, hr]
  have hd1 : t1.getDirty (path.getLastD 0) = some p := by
    obtain ⟨p', hp'⟩ := c3 _ (getLastD_mem hne)
    have : getPage env t1 (path.getLastD 0) = .ok p' := getPage_dirty hr1 hp'
    rw [c2.view, i1] at this; cases this; exact hp'
  let t2 := t1.setDirty (path.getLastD 0) p
  have hr2 : t2.rdonly = false := hr1
  have hI2 : I t2 := hE.set _ _ _ hI1 (hF _ hlm) j2 j3 (by rw [c2.newLast]; exact (ht.bound _ hlm).2)
  have hd2 : ∀ x, t2.getDirty x = t1.getDirty x := by
    intro x
    show (t1.setDirty (path.getLastD 0) p).getDirty x = _
    rw [getDirty_set]; split
    · rename_i hx; rw [hx, hd1]
    · rfl
  have hv2 : getPage env t2 = getPage env t := by
    funext x
    rw [← c2.view x]
    unfold getPage; rw [hd2 x]; rfl
  have hput : putWith al env t key val = (insert p A'.length (.leaf key val) >>= fun r =>
      match r.1 with
      | .ok => .ok (.success, t2.setDirty (path.getLastD 0) r.2)
      | .inval => .ok (.inval, t2)
      | .nospc => (pageSplit al t2 (path.getLastD 0) path key val >>= fun r => .ok (withRoot r))) := by
    unfold putWith
    rw [if_neg (by simp [hr]), if_neg h0, p2, Res.ok_bind]
    simp only []
    rw [i1, Res.ok_bind, hf, Res.ok_bind]
    simp only [Found.hit, Bool.false_and, Bool.false_eq_true, if_false]
    rw [c1, Res.ok_bind]
    simp only [hd1, Res.ofOption_some, Res.ok_bind, if_true, Found.idx]
    rfl
  rw [hput]
  have hroot2 : t2.root = t.root := c2.root
  have hlast2 : t2.newLast = t.newLast := c2.newLast
  have hfree2 : t2.freeRoot = t.freeRoot := c2.freeRoot
  rcases insert_at j3 hit (it := .leaf key val) (by rw [j4]; rfl) (by simpa [Item.size] using hsz) (by simp [Item.child]) with
    ⟨b1, b2⟩ | ⟨b1, -⟩
  rotate_left
  · exfalso
    have := htight.1
    simp only [Item.size] at b1
    omega
  obtain ⟨s, t3, t4, L, e1, e2, e3, e4, e5, e6, e7, e8, e9⟩ := split_refused hE (t := t2) hI2 (lk := path.getLastD 0)
    (by rw [hlast2]; exact (ht.bound _ hlm).2) (hF _ hlm) (by rw [hd2, hd1]) j2 j3 j4 j5 (by rw [hlast2]; exact h64) hit (val := val) hA hB hsz htight
  rw [b2, Res.ok_bind]
  simp only []
  have hps : pageSplit al t2 (path.getLastD 0) path key val = .ok (t4, .error .nospc) := by
    unfold pageSplit
    rw [e1, Res.ok_bind]
    simp only []
    rw [e2, Res.ok_bind]
    simp only [reduceCtorEq, if_false]
  rw [hps, Res.ok_bind]
  have hr4 : t4.rdonly = false := by rw [e4.rdonly, hr2]
  have hgL : getPage env t4 (path.getLastD 0) = .ok L := getPage_dirty hr4 e5
  have hag : ∀ x ∈ pagesOf (getPage env t) h t.root, x ≠ path.getLastD 0 → getPage env t4 x = getPage env t x := by
    intro x hx hxl
    rw [e4.view env (by rw [hlast2]; exact (ht.bound x hx).2) (by simpa using hxl), hv2]
  have hwL : WFT (getPage env t4) 0 lo' hi' (path.getLastD 0) := by
    refine ⟨L, hgL, e8.trans j2, e6, e7, ?_, ?_⟩
    · refine sorted_sub j5 ?_
      unfold keys; rw [e9]; exact (List.take_sublist _ _).map _
    · intro k hk
      apply j6
      unfold keys at hk ⊢
      rw [e9, List.map_take] at hk
      exact List.mem_of_mem_take hk
  obtain ⟨k1, k2, k3⟩ := i7 (getPage env t4) ht.nodup hag L hgL hwL
  have hkvL : kvs L = (kvs p).take (numKeys p / 2) := by unfold kvs; rw [e9, List.map_take]
  have hroot4 : t4.root = t.root := e4.root.trans hroot2
  refine ⟨t4, X, Y, rfl, e4.inv, hr4, hroot4, e4.freeRoot.trans hfree2, i4, .inr ⟨by rw [hroot4]; exact h0, ⟨?_, ?_, ?_⟩, ?_⟩⟩
  · rw [hroot4]; exact k1
  · rw [hroot4, k3]; exact ht.nodup
  · rw [hroot4, k3]
    intro x hx
    have := ht.bound x hx
    rw [e3, hlast2]; omega
  · rw [hroot4, k2, hkvL]

end Verif.Db
