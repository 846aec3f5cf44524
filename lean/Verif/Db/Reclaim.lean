import Verif.Db.TxnLemmas

/-!
# Helper lemmas: shortening a stored value, taking a page from the Free DB
-/

namespace Verif.Db

open Verif.Page

theorem routes_unique {p : Page} {key : Bytes} {A A' : List (Bytes × Nat)} {k k' : Bytes} {c c' : Nat} {B B' : List (Bytes × Nat)}
    (h : Routes p key A k c B) (h' : Routes p key A' k' c' B') : c = c' := by
  obtain ⟨h1, h2, h3⟩ := h
  obtain ⟨g1, g2, g3⟩ := h'
  rw [h1] at g1
  rcases List.append_eq_append_iff.1 g1 with ⟨as, e1, e2⟩ | ⟨as, e1, e2⟩
  · cases as with
    | nil => simp only [List.nil_append, List.cons.injEq, Prod.mk.injEq] at e2; exact e2.1.2
    | cons a as =>
      exfalso
      simp only [List.cons_append, List.cons.injEq] at e2
      rcases g2 with g2 | g2
      · rw [g2] at e1; simp at e1
      · exact g2 (h3 (k', c') (by rw [e2.2]; simp))
  · cases as with
    | nil => simp only [List.nil_append, List.cons.injEq, Prod.mk.injEq] at e2; exact e2.1.2.symm
    | cons a as =>
      exfalso
      simp only [List.cons_append, List.cons.injEq] at e2
      rcases h2 with h2 | h2
      · rw [h2] at e1; simp at e1
      · exact h2 (g3 (k, c) (by rw [e2.2]; simp))

theorem cut_unique {A A' B B' : List (Bytes × Bytes)} {key : Bytes} (h : A ++ B = A' ++ B') (hA : ∀ a ∈ A, a.1 < key)
    (hB : ∀ b ∈ B, ¬ b.1 < key) (hA' : ∀ a ∈ A', a.1 < key) (hB' : ∀ b ∈ B', ¬ b.1 < key) : A = A' ∧ B = B' := by
  rcases List.append_eq_append_iff.1 h with ⟨as, e1, e2⟩ | ⟨as, e1, e2⟩
  · cases as with
    | nil => simp at e1 e2; exact ⟨e1.symm, e2⟩
    | cons a as => exact absurd (hA' a (by rw [e1]; simp)) (hB a (by rw [e2]; simp))
  · cases as with
    | nil => simp at e1 e2; exact ⟨e1, e2.symm⟩
    | cons a as => exact absurd (hA a (by rw [e1]; simp)) (hB' a (by rw [e2]; simp))

theorem blt_asymm {a b : Bytes} (h : a < b) : ¬ b < a := fun h' => blt_irrefl _ (blt_trans h h')

theorem ascending_cut {A B : List (Bytes × Bytes)} {kv : Bytes × Bytes} (hs : Ascending (A ++ kv :: B)) :
    (∀ a ∈ A, a.1 < kv.1) ∧ ∀ b ∈ B, kv.1 < b.1 := by
  unfold Ascending at hs
  rw [List.map_append, List.map_cons, sorted_append, sorted_cons] at hs
  exact ⟨fun a ha => hs.2.2 _ (List.mem_map_of_mem ha) _ List.mem_cons_self, fun b hb => hs.2.1.1 _ (List.mem_map_of_mem hb)⟩

theorem isPath_unique {g : View} {key : Bytes} (h : Nat) : ∀ {n : Nat} {path path' : List Nat}, IsPath g key h n path →
    IsPath g key h n path' → path = path' := by
  induction h with
  | zero => intro n path path' h1 h2; rw [show path = [n] from h1, show path' = [n] from h2]
  | succ h ih =>
    rintro n path path' ⟨p, A, k, c, B, r, h1, h2, h3, rfl⟩ ⟨p', A', k', c', B', r', g1, g2, g3, rfl⟩
    rw [h1] at g1; cases g1
    cases routes_unique h2 g2
    rw [ih h3 g3]

theorem fits_of_path {g : View} {key : Bytes} {size : Nat} (h : Nat) : ∀ {n : Nat} {path : List Nat}, IsPath g key h n path →
    (∀ p, g (path.getLastD 0) = .ok p → size + 2 ≤ room p) → Fits g key size h n := by
  induction h with
  | zero => intro n path hp hr; rw [show path = [n] from hp] at hr; exact hr
  | succ h ih =>
    rintro n path ⟨p, A, k, c, B, r, h1, h2, h3, rfl⟩ hr p' A' k' c' B' g1 g2
    rw [h1] at g1; cases g1
    cases routes_unique h2 g2
    refine ih h3 ?_
    rwa [getLastD_cons (by intro e; subst e; cases h <;> simp [IsPath] at h3)] at hr

theorem isPath_congr {g g' : View} {key : Bytes} (h : Nat) : ∀ {n : Nat} {path : List Nat}, IsPath g key h n path → path.Nodup →
    (∀ x ∈ path, x ≠ path.getLastD 0 → g' x = g x) → IsPath g' key h n path := by
  induction h with
  | zero => intro n path hp _ _; exact hp
  | succ h ih =>
    rintro n path ⟨p, A, k, c, B, r, h1, h2, h3, rfl⟩ hnd hag
    have hne : r ≠ [] := by intro e; subst e; cases h <;> simp [IsPath] at h3
    rw [getLastD_cons hne] at hag
    have hn : n ≠ r.getLastD 0 := by rintro rfl; exact (List.nodup_cons.1 hnd).1 (getLastD_mem hne)
    exact ⟨p, A, k, c, B, r, by rw [hag n List.mem_cons_self hn, h1], h2,
      ih h3 (List.nodup_cons.1 hnd).2 (fun x hx hxn => hag x (List.mem_cons_of_mem _ hx) hxn), rfl⟩

theorem leaf_item {p : Page} (hl : isLeaf p = true) {it : Item} (hi : it ∈ items p) : it = .leaf it.key it.val := by
  unfold items at hi
  obtain ⟨i, -, rfl⟩ := List.mem_map.1 hi
  rw [hl]; rfl

/-- Deleting a pair leaves room for it in its leaf, and changes no other page. -/
theorem del_room {env : Env} {t : Txn} {h : Nat} {key v : Bytes} (hk : key.length < 65536) (hr : t.rdonly = false) (h0 : t.root ≠ 0)
    (ht : Tree env t h) (hd : h < maxDepth) (hl : (contents (getPage env t) h t.root).lookup key = some v) :
    ∃ path q t1, IsPath (getPage env t) key h t.root path ∧ del env t key = .ok (.success, t1) ∧
      (∀ x, getPage env t1 x = if x = path.getLastD 0 then .ok q else getPage env t x) ∧
      4 + key.length + v.length + 2 ≤ room q := by
  obtain ⟨path, p1, p2⟩ := findPath_spec hk h ht.wft hd (by
    intro x hx; unfold maxPgno; simpa [hr] using (ht.bound x hx).2)
  obtain ⟨lo', hi', p, A, B, i1, i2, i3, i4, i5, i6, -⟩ := leaf_focus h ht.wft p1 (inRange_none key)
  obtain ⟨q, j1, j2, j3, j4, j5, j6⟩ := i2
  rw [i1] at j1; cases j1
  have hne : path ≠ [] := by
    obtain ⟨rest, hr, -⟩ := isPath_cons p1; rw [hr]; simp
  obtain ⟨f, hf, A', B', hA, hB, hsp⟩ := probe_spec j3 j5 hk
  have hsrt : ∀ a ∈ A, a.1 ≠ key := fun a ha e => blt_irrefl _ (e ▸ i5 a ha)
  have hkv : (kvs p).lookup key = some v := by
    rw [i4, List.append_assoc, lookup_append_right i5, List.lookup_append] at hl
    rw [lookup_gt i6] at hl
    simpa using hl
  obtain ⟨it, hit, hik, rfl⟩ : ∃ it, items p = A' ++ it :: B' ∧ it.key = key ∧ f = .found A'.length := by
    rcases hsp with hx | ⟨e1, -⟩
    · exact hx
    · exfalso
      unfold kvs at hkv
      rw [e1, List.map_append, lookup_append_right (by
        intro a ha; obtain ⟨i, hi, rfl⟩ := List.mem_map.1 ha; exact hA i hi), lookup_gt (by
        intro a ha; obtain ⟨i, hi, rfl⟩ := List.mem_map.1 ha; exact hB i hi)] at hkv
      cases hkv
  have hv : it.val = v := by
    unfold kvs at hkv
    rw [hit, List.map_append, lookup_append_right (by
        intro a ha; obtain ⟨i, hi, rfl⟩ := List.mem_map.1 ha; exact hA i hi), List.map_cons, List.lookup_cons, hik] at hkv
    simpa using hkv
  have hitl : it = .leaf key v := by
    rw [leaf_item j4 (it := it) (by rw [hit]; simp), hik, hv]
  subst hitl
  obtain ⟨t1, c1, c2, c3, -⟩ := cowPath_spec (env := env) hr hne (by
    intro n hn
    exact wft_pages h ht.wft n (isPath_mem p1 n hn))
  have hr1 : t1.rdonly = false := by rw [c2.rdonly, hr]
  have hd1 : t1.getDirty (path.getLastD 0) = some p := by
    obtain ⟨p', hp'⟩ := c3 _ (getLastD_mem hne)
    have : getPage env t1 (path.getLastD 0) = .ok p' := getPage_dirty hr1 hp'
    rw [c2.view, i1] at this; cases this; exact hp'
  have hlen : A'.length < numKeys p := by rw [← items_length, hit]; simp
  obtain ⟨q, d1, d2, d3, d4, d5, d6⟩ := delete_removes_exactly_one j3 hlen
  refine ⟨path, q, t1.setDirty (path.getLastD 0) q, p1, ?_, fun x => by rw [getPage_set hr1, c2.view], ?_⟩
  · unfold del
    rw [if_neg (by simp [hr]), if_neg h0, p2, Res.ok_bind]
    simp only []
    rw [i1, Res.ok_bind, hf, Res.ok_bind]
    simp only [Found.hit, if_true, Found.idx]
    rw [c1, Res.ok_bind]
    simp only [hd1]
    rw [d1]; rfl
  · have : (items p)[A'.length]'(by rw [items_length]; exact hlen) = .leaf key v := by
      simp [hit]
    rw [this] at d6
    simp only [Item.size] at d6
    omega

theorem room_lt (q : Page) : room q < 65536 := by
  have : upper q < 65536 := by
    unfold upper u16
    have := (q 14).toNat_lt
    have := (q (14 + 1)).toNat_lt
    omega
  unfold room; omega

/-- Putting a value that is not longer than the stored one into an untouched leaf. -/
theorem put_shorter {al : Alloc} {env : Env} {t : Txn} {h : Nat} {A B : List (Bytes × Bytes)} {key v val : Bytes}
    (hk : key.length < 65536) (hr : t.rdonly = false)
    (hh : Holds env t h (A ++ (key, v) :: B)) (hd : h < maxDepth) (hclean : LeafClean env t h key) (hle : val.length ≤ v.length) :
    ∃ t1 t', del env t key = .ok (.success, t1) ∧ putWith al env t1 key val = .ok (.success, t') ∧
      putWith al env t key val = .ok (.success, t') ∧ Holds env t' h (A ++ (key, val) :: B) ∧
      t'.rdonly = false ∧ t'.root = t.root ∧ t'.freeRoot = t.freeRoot ∧ t'.newLast = t.newLast ∧ t'.txnid = t.txnid ∧
      (∀ x, x ∉ pagesOf (getPage env t) h t.root → getPage env t' x = getPage env t x) ∧
      pagesOf (getPage env t') h t'.root = pagesOf (getPage env t) h t.root ∧
      (Full (getPage env t) h t.root → Full (getPage env t') h t'.root) ∧
      ∀ F, Keeps (pagesOf (getPage env t) h t.root) F t t' := by
  obtain ⟨t1, d1, d2⟩ := put_replace (al := al) (val := val) hk hr hh (by simp) hd hclean
  have hsrt := holds_sorted hh
  rcases hh with ⟨-, hx⟩ | ⟨h0, ht, hcon⟩
  · simp at hx
  have hlk : (contents (getPage env t) h t.root).lookup key = some v := by
    rw [hcon]
    rw [lookup_mid hsrt, if_pos rfl]
  obtain ⟨path, q, t1', r1, r2, r3, r4⟩ := del_room hk hr h0 ht hd hlk
  rw [d1] at r2; cases r2
  rcases del_spec hr (.inr ⟨h0, ht, hcon⟩) hk hd with ⟨hn, -⟩ | ⟨A', v', B', t1', a1, a2, a3, a4, a5, a6, a7, a8, a9, a10, a11, a12, a13⟩
  · rw [← hcon, hlk] at hn; cases hn
  rw [d1] at a4; cases a4
  have hcut := ascending_cut hsrt
  obtain ⟨rfl, e⟩ := cut_unique (key := key) a1 hcut.1 (by
    intro b hb
    rcases List.mem_cons.1 hb with rfl | hb
    · exact blt_irrefl _
    · exact blt_asymm (hcut.2 b hb)) a2 (by
    intro b hb
    rcases List.mem_cons.1 hb with rfl | hb
    · exact blt_irrefl _
    · exact blt_asymm (a3 b hb))
  simp only [List.cons.injEq, Prod.mk.injEq, true_and] at e
  obtain ⟨rfl, rfl⟩ := e
  rcases a5 with ⟨hx, -⟩ | ⟨h01, ht1, hcon1⟩
  · exact absurd (a7 ▸ hx) h0
  have hnd := isPath_nodup r1 ht.nodup
  have hp1 : IsPath (getPage env t1) key h t1.root path := by
    rw [a7]; exact isPath_congr h r1 hnd fun x _ hx => by rw [r3, if_neg hx]
  have hfit : Fits (getPage env t1) key (4 + key.length + val.length) h t1.root := by
    refine fits_of_path h hp1 ?_
    intro p hp
    rw [r3, if_pos rfl] at hp; cases hp
    omega
  have hsz : 4 + key.length + val.length < 65536 := by
    have := room_lt q; omega
  have hnk : key ∉ (contents (getPage env t1) h t1.root).map Prod.fst := by
    rw [hcon1, List.map_append, List.mem_append]
    rintro (hm | hm)
    · obtain ⟨a, ha, e⟩ := List.mem_map.1 hm; exact blt_irrefl _ (e ▸ a2 a ha)
    · obtain ⟨a, ha, e⟩ := List.mem_map.1 hm; exact blt_irrefl _ (e ▸ a3 a ha)
  obtain ⟨path', t2, p, f, q', b1, b2, b3, b4, b5, b6, b7, b8, b9, b10, b11, b12, b13, b14, b15⟩ :=
    insert_fits (val := val) hk hsz a6 ht1.wft (fun x hx => (ht1.bound x hx).2) hnk hd hfit
  cases isPath_unique h hp1 b3
  obtain ⟨w1, w2, ⟨X, Y, w3, w4⟩, -⟩ := b15 ht1.nodup
  have hput := putWith_fits (al := al) a6 h01 b1 b4 b5 b6 b7 b8 b9
  have hroot : (t2.setDirty (path.getLastD 0) q').root = t1.root := b11.root
  have hlast : (t2.setDirty (path.getLastD 0) q').newLast = t1.newLast := b11.newLast
  have hview : ∀ x, getPage env (t2.setDirty (path.getLastD 0) q') x = if x = path.getLastD 0 then .ok q' else getPage env t x := by
    intro x
    rw [b14, r3]
    split <;> rfl
  have hXY : X = A ∧ Y = B := by
    have hs2 : Ascending (X ++ (key, val) :: Y) := by rw [← w4]; exact (wft_range h w1).1
    have hc2 := ascending_cut hs2
    rw [hcon1] at w3
    exact cut_unique (key := key) w3.symm hc2.1 (fun b hb => blt_asymm (hc2.2 b hb)) a2 (fun b hb => blt_asymm (a3 b hb))
  obtain ⟨rfl, rfl⟩ := hXY
  have hmem : path.getLastD 0 ∈ pagesOf (getPage env t) h t.root :=
    isPath_mem r1 _ (getLastD_mem (by obtain ⟨rest, hr, -⟩ := isPath_cons r1; rw [hr]; simp))
  refine ⟨t1, _, d1, hput, d2.trans hput, .inr ⟨by rw [hroot]; exact h01, ⟨by rw [hroot]; exact w1, by rw [hroot, w2]; exact ht1.nodup, ?_⟩,
    by rw [hroot]; exact w4⟩, ?_, hroot.trans a7, (show t2.freeRoot = _ from b11.freeRoot.trans a8), hlast.trans a9,
    (show t2.txnid = _ from b11.txnid.trans a10), ?_, ?_, ?_, ?_⟩
  · intro x hx
    rw [hroot, w2] at hx
    rw [hlast]; exact ht1.bound x hx
  · exact b11.rdonly.trans a6
  · intro x hx
    rw [hview, if_neg]
    rintro rfl
    exact hx hmem
  · rw [hroot, w2, a12]
  · intro hf
    rw [hroot, a7]
    refine full_leaf h r1 ht.nodup (fun x _ hx => by rw [hview, if_neg hx]) ?_ hf
    intro q'' hq''
    have hp3 : IsPath (getPage env (t2.setDirty (path.getLastD 0) q')) key h t1.root path := by
      rw [a7]; exact isPath_congr h r1 hnd fun x _ hx => by rw [hview, if_neg hx]
    obtain ⟨-, -, q3, A3, B3, k1, -, -, k4, k5, k6, -⟩ := leaf_focus h w1 hp3 (inRange_none key)
    rw [hq''] at k1; cases k1
    intro he
    have : kvs q'' = [] := by unfold kvs; rw [he]; rfl
    rw [this, w4] at k4
    have hm : (key, val) ∈ A3 ++ [] ++ B3 := by rw [← k4]; simp
    simp only [List.append_nil, List.mem_append] at hm
    rcases hm with hm | hm
    · exact blt_irrefl _ (k5 _ hm)
    · exact blt_irrefl _ (k6 _ hm)
  · intro F I i1 i2 hL hI
    have hI1 := a13 F I i1 i2 hL hI
    have hI2 := b12 F I i1 (fun t x hx => i2 t x (isPath_mem r1 x hx)) (by
      intro x hx
      rw [a9]
      exact hL x (isPath_mem r1 x hx)) hI1
    refine i1 _ _ _ hI2 (hL _ hmem).1 b10 b13 ?_
    rw [b11.newLast, a9]; exact (hL _ hmem).2

theorem findEntry_some {env : Env} {t : Txn} {H fuel o : Nat} (hH : H < maxDepth) (hf : H < fuel) {kv : Bytes × Bytes} {B : List (Bytes × Bytes)}
    (hkv : reclaimable o kv = true) (X : List (Bytes × Bytes)) :
    ∀ {n : Nat} {st : List (Page × Nat)} {A T : List (Bytes × Bytes)} {kv0 : Bytes × Bytes}, At (getPage env t) True H t.root st A kv0 T →
    kv0 :: T = X ++ kv :: B → (∀ e ∈ X, reclaimable o e = false) → X.length < n →
    ∃ st', findEntry env t fuel o n (⟨st, false⟩, .ok kv0) = .ok (some (⟨st', false⟩, kv)) ∧ At (getPage env t) True H t.root st' (A ++ X) kv B := by
  induction X with
  | nil =>
    intro n st A T kv0 hat he _ hn
    obtain ⟨n, rfl⟩ : ∃ m, n = m + 1 := ⟨n - 1, by omega⟩
    simp only [List.nil_append, List.cons.injEq] at he
    obtain ⟨rfl, rfl⟩ := he
    refine ⟨st, ?_, by simpa using hat⟩
    rw [findEntry]
    simp only [hkv, if_true]
  | cons x X ih =>
    intro n st A T kv0 hat he hX hn
    obtain ⟨n, rfl⟩ : ∃ m, n = m + 1 := ⟨n - 1, by omega⟩
    simp only [List.cons_append, List.cons.injEq] at he
    obtain ⟨rfl, rfl⟩ := he
    obtain ⟨b, T', hT⟩ := List.exists_cons_of_ne_nil (l := X ++ kv :: B) (by simp)
    rw [hT] at hat
    obtain ⟨st', e1, e2⟩ := (next_spec hH hf hat).2 b T' rfl
    obtain ⟨st'', f1, f2⟩ := ih (n := n) e2 hT.symm (fun e he => hX e (List.mem_cons_of_mem _ he)) (by simp at hn; omega)
    refine ⟨st'', ?_, by simpa using f2⟩
    rw [findEntry]
    simp only [hX kv0 List.mem_cons_self, Bool.false_eq_true, if_false]
    rw [cursorGet_move (op := .next) e1 e2, Res.ok_bind]
    exact f1

theorem up_mem {g : View} {ne : Prop} {H root : Nat} (st : List (Page × Nat)) : ∀ {h n : Nat} {L R : List (Bytes × Bytes)},
    Up g ne H root h n st L R → ∀ x ∈ pagesOf g h n, x ∈ pagesOf g H root := by
  induction st with
  | nil => rintro h n L R ⟨rfl, rfl, -, -⟩ x hx; exact hx
  | cons a st ih =>
    rintro h n L R ⟨n', A, k, B, L', R', h1, -, -, h4, -, -, h8, -, -⟩ x hx
    refine ih h8 x ?_
    rw [pagesOf_succ h1, h4, List.flatMap_append, List.flatMap_cons]
    simp [hx]

theorem keyHome_spec {g : View} {ne : Prop} {H root : Nat} {lo hi : Option Bytes} (hw : WFT g H lo hi root) {st : List (Page × Nat)}
    {A B : List (Bytes × Bytes)} {kv : Bytes × Bytes} (h : At g ne H root st A kv B) :
    ∃ p o, keyHome ⟨st, false⟩ = .ok (p, o) ∧ pgno p ∈ pagesOf g H root := by
  obtain ⟨p, i, rest, n, L, R, X, Y, rfl, h1, h2, h3, h4, h5, rfl, -, -⟩ := h
  have hn := up_mem _ h4 n (self_mem_pagesOf _ _ _)
  obtain ⟨p', g1, g2, -⟩ := wft_pages H hw n hn
  rw [h1] at g1; cases g1
  have hi : X.length < numKeys p := by rw [← kvs_len, h5]; simp
  refine ⟨p, slot p X.length + 4, ?_, by rw [g2]; exact hn⟩
  unfold keyHome
  simp only []
  rw [rdSlot_ok (by have := h2.low; have := h2.gap; have := h2.top; omega)]
  rfl

/-- What remains of an entry of the Free DB when its first page is taken. -/
def restOf (kv : Bytes × Bytes) : List (Bytes × Bytes) :=
  if kv.2.length = 8 then [] else [(kv.1, kv.2.drop 8)]

theorem reroot {t : Txn} {r : Nat} (h : t.freeRoot = t.root) :
    ({ ({ t with root := r } : Txn) with root := ({ t with root := r } : Txn).freeRoot } : Txn) = t := by
  cases t; simp only at h; subst h; rfl

theorem reclaim_some {al : Alloc} {env : Env} {t : Txn} {hf fuel : Nat} {A B : List (Bytes × Bytes)} {kv : Bytes × Bytes}
    (hw : t.rdonly = false) (h0 : t.freeRoot ≠ 0) (ht : Tree env { t with root := t.freeRoot } hf)
    (hcon : contents (getPage env t) hf t.freeRoot = A ++ kv :: B)
    (hfull : Full (getPage env t) hf t.freeRoot) (hd : hf < maxDepth) (hfuel : hf < fuel) (hfuel2 : A.length < fuel)
    (hA : ∀ e ∈ A, reclaimable (if oldestReader env.readers = 0 then t.txnid else oldestReader env.readers) e = false)
    (hkv : reclaimable (if oldestReader env.readers = 0 then t.txnid else oldestReader env.readers) kv = true)
    (hclean : 8 < kv.2.length → ∀ x ∈ pagesOf (getPage env t) hf t.freeRoot, t.getDirty x = none) :
    ∃ t', reclaim al env fuel t = .ok (some (leVal (kv.2.take 8)), t') ∧
      Holds env { t' with root := t'.freeRoot } hf (A ++ restOf kv ++ B) ∧
      t'.rdonly = false ∧ t'.root = t.root ∧ t'.freeRoot = t.freeRoot ∧ t'.newLast = t.newLast ∧ t'.txnid = t.txnid ∧
      (∀ x, x ∉ pagesOf (getPage env t) hf t.freeRoot → getPage env t' x = getPage env t x) ∧
      pagesOf (getPage env t') hf t.freeRoot = pagesOf (getPage env t) hf t.freeRoot ∧
      (8 < kv.2.length → Full (getPage env t') hf t.freeRoot) := by
  have hgv : getPage env { t with root := t.freeRoot } = getPage env t := by
    funext x; rfl
  obtain ⟨st, kv0, T, a1, a2⟩ := seek_first (t := { t with root := t.freeRoot }) (H := hf) (fuel := fuel) hd hfuel h0
    ((shape_of_wft hf ht.wft).2 hfull)
  have hc := at_contents a2
  rw [hgv] at hc
  have hc' := hc.symm.trans hcon
  simp only [List.nil_append] at hc'
  obtain ⟨st', f1, f2⟩ := findEntry_some hd hfuel hkv A a2 hc' hA hfuel2
  have hk8 : kv.1.length = 8 := by
    unfold reclaimable at hkv; simp only [Bool.and_eq_true, beq_iff_eq] at hkv; exact hkv.1.1.1
  have hm8 : kv.2.length % 8 = 0 ∧ 0 < kv.2.length := by
    unfold reclaimable at hkv; simp only [Bool.and_eq_true, beq_iff_eq, decide_eq_true_eq] at hkv; exact ⟨hkv.1.2, hkv.2⟩
  have hhold : Holds env { t with root := t.freeRoot } hf (A ++ (kv.1, kv.2) :: B) := .inr ⟨h0, ht, hcon⟩
  have hrec : reclaim al env fuel t = (updateEntry al env { t with root := t.freeRoot } ⟨st', false⟩ kv >>= fun u =>
      if u.1 = .success then .ok (some (leVal (kv.2.take 8)), { u.2 with root := t.root }) else .ok (none, { u.2 with root := t.root })) := by
    unfold reclaim
    rw [if_neg h0]
    simp only []
    rw [cursorGet_seek a1 a2, Res.ok_bind, f1, Res.ok_bind]
  rw [hrec]
  unfold updateEntry restOf
  by_cases h1 : kv.2.length = 8
  · rw [if_pos (by omega), if_pos h1]
    rcases del_spec (t := { t with root := t.freeRoot }) (key := kv.1) hw hhold (by omega) hd with ⟨hn, -⟩ | ⟨A', v', B', t1, b1, b2, b3, b4, b5, b6, b7, b8, b9, b10, b11, b12, b13⟩
    · rw [lookup_mid (holds_sorted hhold), if_pos rfl] at hn; cases hn
    · have hcut := ascending_cut (holds_sorted hhold)
      obtain ⟨rfl, e⟩ := cut_unique (key := kv.1) b1 hcut.1 (by
        intro b hb
        rcases List.mem_cons.1 hb with rfl | hb
        · exact blt_irrefl _
        · exact blt_asymm (hcut.2 b hb)) b2 (by
        intro b hb
        rcases List.mem_cons.1 hb with rfl | hb
        · exact blt_irrefl _
        · exact blt_asymm (b3 b hb))
      simp only [List.cons.injEq, Prod.mk.injEq, true_and] at e
      obtain ⟨-, rfl⟩ := e
      rw [b4, Res.ok_bind, if_pos rfl]
      refine ⟨_, rfl, ?_, b6, rfl, b8, b9, b10, b11, ?_, fun h => by omega⟩
      · rw [List.append_nil]
        rw [reroot (b8.trans b7.symm)]; exact b5
      · rw [b7] at b12; exact b12
  · rw [if_neg (by omega), if_neg h1]
    have hcl := hclean (by omega)
    obtain ⟨t1, t2, b1, b2, -, b4, b5, b6, b7, b8, b9, b10, b11, b12, b13⟩ := put_shorter (al := al) (t := { t with root := t.freeRoot }) (key := kv.1)
      (val := kv.2.drop 8) (by omega) hw hhold hd (by
        intro path hp
        exact hcl _ (isPath_mem hp _ (getLastD_mem (by obtain ⟨rest, hr, -⟩ := isPath_cons hp; rw [hr]; simp)))) (by rw [List.length_drop]; omega)
    obtain ⟨p, o, k1, k2⟩ := keyHome_spec ht.wft f2
    rw [b1, Res.ok_bind, if_pos rfl]
    unfold putRest
    rw [k1, Res.ok_bind]
    have : ({ t with root := t.freeRoot } : Txn).getDirty (pgno p) = none := hcl _ k2
    simp only [this]
    rw [b2, Res.ok_bind, if_pos rfl]
    refine ⟨_, rfl, ?_, b5, rfl, b7, b8, b9, b10, ?_, fun _ => ?_⟩
    · rw [reroot (b7.trans b6.symm)]
      simpa using b4
    · rw [b6] at b11; exact b11
    · have := b12 hfull
      rw [b6] at this; exact this

end Verif.Db
