import Verif.Db.Props

/-!
# What happens to a key that falls exactly on the middle of a split

Theorems for C41: the general form of `stored_value_lost`.
-/

namespace Verif.Db

open Verif.Page

/-- What the search in one leaf page and the read of the entry give. -/
def leafGet (p : Page) (key : Bytes) : Res (Except Status Bytes) := do
  match ← probe p key with
  | .notFound _ => .ok (.error .notfound)
  | .found i => do
    let kv ← leafNode p i
    .ok (.ok kv.2)

theorem leafGet_spec {p : Page} (wf : WF p) (hl : isLeaf p = true) (hs : Sorted (keys p)) {key : Bytes}
    (hk : key.length < 65536) : leafGet p key = .ok (answer (kvs p) key) := by
  obtain ⟨f, hf1, hf2⟩ := probe_spec wf hs hk
  unfold leafGet
  rw [hf1, Res.ok_bind]
  unfold answer
  obtain ⟨A', B', hA', hB', hs⟩ := leaf_splits hl hf2
  rcases hs with ⟨v, e1, e2⟩ | ⟨e1, e2⟩
  · rw [e2]
    simp only []
    rw [leafNode_spec wf hl (i := A'.length) (kv := (key, v)) (by rw [e1]; simp), Res.ok_bind, e1,
      lookup_append_right hA', List.lookup_cons, beq_self_eq_true]
  · rw [e2]
    simp only []
    rw [e1, lookup_append_right hA', lookup_gt hB']

/-- Splitting the page under `lk` and inserting an entry that belongs exactly in the middle: the
entry goes in front of the right half, and the divider is the key after it. -/
theorem splitMiddle_spec {al : Alloc} {F : List Nat} {I : Txn → Prop} (hE : Ext al F I) {t : Txn} (hI : I t)
    {lk : Nat} (hlk : lk ≤ t.newLast) (hF : lk ∉ F) {p : Page} (hp : t.getDirty lk = some p) (hpn : pgno p = lk) (wf : WF p)
    (hs : Sorted (keys p)) (h64 : t.newLast + 1 < 2 ^ 64)
    {A : List Item} {b : Item} {B : List Item} (h : items p = A ++ b :: B) {it : Item} (hA : ∀ a ∈ A, a.key < it.key)
    (hB : ∀ x ∈ b :: B, it.key < x.key) (hk : it.hasData = isLeaf p) (hsz : it.size < 65536) (hc : it.child < 2 ^ 64)
    (hkl : it.key.length < 65536) (hmid : A.length = numKeys p / 2) :
    ∃ s t1 st t2, splitTxn al (isLeaf p) t lk = .ok (t1, .ok s) ∧ insertHalf t1 lk s it = .ok (st, t2) ∧
      s.no = t.newLast + 1 ∧ t2.newLast = t.newLast + 1 ∧ Evo I [lk] t t2 ∧ s.divider = b.key ∧
      (st = .success ∨ st = .nospc) ∧
      (total (b :: B) + 2 * (B.length + 1) + it.size + 2 ≤ 4078 → st = .success) ∧
      (st = .success → ∃ L R, t2.getDirty lk = some L ∧ t2.getDirty s.no = some R ∧ WF L ∧ WF R ∧
        isLeaf L = isLeaf p ∧ isLeaf R = isLeaf p ∧ items L = A ∧ items R = it :: b :: B) := by
  have hlen : (items p).length = numKeys p := items_length p
  have hlen2 : A.length + (B.length + 1) = numKeys p := by rw [← hlen, h, List.length_append, List.length_cons]
  obtain ⟨s, a1, a2, a3, a4, a5, a6, a7, a8, a9, a10, a11, a12⟩ := split_any wf (by omega) h64
  have hne : t.newLast + 1 ≠ lk := by omega
  have hnF : t.newLast + 1 ∉ F := fun hx => by have := hE.last t hI _ hx; omega
  have hp' : (extend t).2.getDirty lk = some p := hp
  let t1 := ((extend t).2.setDirty lk s.left).setDirty (t.newLast + 1) s.right
  have hI1 : I t1 := hE.set _ _ _ (hE.set _ _ _ (hE.grow t hI) hF (a6.trans hpn) a2 (Nat.le_succ_of_le hlk)) hnF a7 a3 (Nat.le_refl _)
  have hsp : splitTxn al (isLeaf p) t lk = .ok (t1, .ok ⟨t.newLast + 1, s.left, s.right, s.divider⟩) := by
    unfold splitTxn
    rw [hp, Res.ofOption_some, Res.ok_bind, ite_kind wf]
    simp only [Bool.not_true, Bool.false_eq_true, if_false]
    rw [hE.ext t hI, Res.ok_bind, hp', Res.ofOption_some, Res.ok_bind]
    simp only [extend] at a1 ⊢
    rw [a1, Res.ok_bind]; rfl
  have hl : items s.left = A := by rw [a8, h, ← hmid, List.take_left]
  have hr : items s.right = b :: B := by rw [a9, h, ← hmid, List.drop_left]
  have hnl : numKeys s.left = A.length := by rw [← items_length, hl]
  have hnr : numKeys s.right = B.length + 1 := by rw [← items_length, hr]; rfl
  have hsl : Sorted (keys s.left) := by
    refine sorted_sub hs ?_
    unfold keys; rw [a8]; exact (List.take_sublist _ _).map _
  have hsr : Sorted (keys s.right) := by
    refine sorted_sub hs ?_
    unfold keys; rw [a9]; exact (List.drop_sublist _ _).map _
  have hdiv : s.divider = b.key := by rw [hr] at a10; simpa using a10
  have hev : Evo I [lk] t t1 := by
    refine ⟨rfl, rfl, rfl, rfl, rfl, ?_, hI1, ?_⟩
    · show t.newLast ≤ t.newLast + 1; omega
    · intro x hx hxl
      rw [getDirty_set, if_neg (by omega), getDirty_set, if_neg (by simpa using hxl)]; rfl
  have hpl := probe_at a2 hsl hkl (A := A) (B := []) (by rw [hl, List.append_nil]) hA (by simp)
  have hpr := probe_at a3 hsr hkl (A := []) (B := b :: B) hr (by simp) hB
  have hcond : (!(Found.notFound A.length).hit && decide (numKeys s.left ≤ (Found.notFound A.length).idx)) = true := by
    have hx : numKeys s.left ≤ (Found.notFound A.length).idx := by show numKeys s.left ≤ A.length; omega
    rw [decide_eq_true hx]; rfl
  refine ⟨⟨t.newLast + 1, s.left, s.right, s.divider⟩, t1, ?_⟩
  rcases insert_at a3 (A := []) hr (it := it) (by rw [hk, a5]) hsz hc with ⟨b1, b2⟩ | ⟨b1, q, b2, b3, b4, b5, b6, b7⟩
  · refine ⟨.nospc, t1.setDirty (t.newLast + 1) s.right, hsp, ?_, rfl, rfl, ?_, hdiv, .inr rfl, ?_, ?_⟩
    · unfold insertHalf
      rw [hpl, Res.ok_bind]
      simp only [hcond, if_true]
      rw [hpr, Res.ok_bind]
      simp only [Found.idx]
      rw [b2, Res.ok_bind]; rfl
    · refine ⟨rfl, rfl, rfl, rfl, rfl, hev.last, hE.set _ _ _ hI1 hnF a7 a3 (Nat.le_refl _), ?_⟩
      intro x hx hxl
      rw [getDirty_set, if_neg (by omega), hev.same x hx hxl]
    · intro hh
      exfalso
      rw [hr, hnr] at a12
      omega
    · intro hh; cases hh
  · refine ⟨.success, t1.setDirty (t.newLast + 1) q, hsp, ?_, rfl, rfl, ?_, hdiv, .inl rfl, fun _ => rfl, ?_⟩
    · unfold insertHalf
      rw [hpl, Res.ok_bind]
      simp only [hcond, if_true]
      rw [hpr, Res.ok_bind]
      simp only [Found.idx]
      rw [b2, Res.ok_bind]; rfl
    · refine ⟨rfl, rfl, rfl, rfl, rfl, hev.last, hE.set _ _ _ hI1 hnF (b5.trans a7) b3 (Nat.le_refl _), ?_⟩
      intro x hx hxl
      rw [getDirty_set, if_neg (by omega), hev.same x hx hxl]
    · intro _
      refine ⟨s.left, q, ?_, by rw [getDirty_set, if_pos rfl], a2, b3, a4, b6.trans a5, hl, b4⟩
      rw [getDirty_set, if_neg (by omega), getDirty_set, if_neg (by omega), getDirty_set, if_pos rfl]

/-- A new root above two pages, the left one not empty. -/
theorem rootSplit_pages {al : Alloc} {F : List Nat} {I : Txn → Prop} (hE : Ext al F I) {t : Txn} (hI : I t) {d : Bytes} {n c : Nat}
    (hn : n ≤ t.newLast) (hc : c ≤ t.newLast) {p : Page} (hp : t.getDirty n = some p) (wf : WF p) {a : Item} {A : List Item}
    (hi : items p = a :: A) (h64 : t.newLast + 1 < 2 ^ 64) (hdl : d.length ≤ 4078) :
    (4078 < a.key.length + d.length + 24 ∧ ∃ t', rootSplit al t n c d = .ok (t', .error .nospc)) ∨
    (a.key.length + d.length + 24 ≤ 4078 ∧ ∃ q, rootSplit al t n c d = .ok ((extend t).2.setDirty (t.newLast + 1) q, .ok (t.newLast + 1)) ∧
      WF q ∧ isLeaf q = false ∧ items q = [.branch a.key n, .branch d c]) := by
  have hpos : 0 < numKeys p := by rw [← items_length, hi]; simp
  have hml : a.key.length ≤ 4078 := key_small wf (by unfold keys; rw [hi]; simp)
  have hemp := emptyPage_wf false (t.newLast + 1) h64
  have hroom : room (emptyPage false (t.newLast + 1)) = 4078 := by
    obtain ⟨-, -, h1, h2, -⟩ := emptyPage_fields false (t.newLast + 1) h64
    unfold room; rw [h1, h2]
  have hl := emptyPage_isLeaf false (t.newLast + 1) h64
  have hm : ((items p)[0]'(by simpa using hpos)).key = a.key := by simp [hi]
  unfold rootSplit
  rw [hE.ext t hI, Res.ok_bind]
  simp only [extend]
  have hp' : ({ t with newLast := t.newLast + 1 } : Txn).getDirty n = some p := hp
  rw [hp']
  simp only []
  rw [not_isBranch wf, firstKey_spec wf hpos, hm, Res.ok_bind]
  rcases insert_at hemp (A := []) (B := []) (by rw [emptyPage_items _ _ h64]; rfl) (it := .branch a.key n) (by rw [hl]; rfl)
      (by simp only [Item.size]; omega) (by simp only [Item.child]; omega) with ⟨b1, b2⟩ | ⟨b1, q1, b2, b3, b4, b5, b6, b7⟩
  · rw [List.length_nil] at b2
    rw [b2]
    refine .inl ⟨?_, _, rfl⟩
    rw [hroom] at b1; simp only [Item.size] at b1; omega
  · rw [List.length_nil] at b2
    rw [b2, Res.ok_bind]
    simp only [if_true]
    rcases insert_at b3 (A := [.branch a.key n]) (B := []) (by rw [b4]; rfl) (it := .branch d c) (by rw [b6, hl]; rfl)
      (by simp only [Item.size]; omega) (by simp only [Item.child]; omega) with ⟨e1, e2⟩ | ⟨e1, q2, e2, e3, e4, e5, e6, e7⟩
    · rw [List.length_singleton] at e2
      rw [e2]
      refine .inl ⟨?_, _, rfl⟩
      rw [hroom] at b7; simp only [Item.size] at b7 e1; omega
    · rw [List.length_singleton] at e2
      rw [e2]
      refine .inr ⟨?_, q2, rfl, e3, by rw [e6, b6, hl], by rw [e4]; rfl⟩
      rw [hroom] at b7; simp only [Item.size] at b7 e1; omega

/-- The bytes a leaf page needs for a pair. -/
def pairSize (e : Bytes × Bytes) : Nat := e.1.length + e.2.length + 6

theorem leaf_total {p : Page} (hl : isLeaf p = true) {B : List Item} (hB : ∀ b ∈ B, b ∈ items p) :
    total B + 2 * B.length = ((B.map fun i => (i.key, i.val)).map pairSize).sum := by
  induction B with
  | nil => rfl
  | cons b B ih =>
    have hb := hB b List.mem_cons_self
    have ih := ih fun x hx => hB x (List.mem_cons_of_mem _ hx)
    have hsz : b.size = 4 + b.key.length + b.val.length := by
      obtain ⟨i, hi, rfl⟩ := List.getElem_of_mem hb
      have := itemAt_hasData p (isLeaf p) (slot p i)
      rw [← items_getElem hi, hl] at this
      revert this
      cases (items p)[i] with
      | leaf k v => exact fun _ => rfl
      | branch k c => exact fun h => (by cases h)
    simp only [total, List.map_cons, List.sum_cons, List.length_cons, pairSize] at ih ⊢
    omega

/-- One leaf, the pair does not fit, and the key falls on the middle: if `put` succeeds, nothing
can be looked up that could not be looked up before. -/
theorem put_middle {al : Alloc} {F : List Nat} {I : Txn → Prop} (hE : Ext al F I) {env : Env} {t : Txn}
    {l : List (Bytes × Bytes)} {key val : Bytes} (hsz : 4 + key.length + val.length < 65536)
    (hr : t.rdonly = false) (hI : I t) (hh : Holds env t 0 l) (hkey : key ∉ l.map Prod.fst) (hF : t.root ∉ F)
    (h2 : 2 ≤ l.length) (hmid : (l.map Prod.fst).countP (· < key) = l.length / 2)
    (hfull : ∀ p, getPage env t t.root = .ok p → room p < 4 + key.length + val.length + 2)
    (h64 : t.newLast + 2 < 2 ^ 64) :
    ∃ st t', putWith al env t key val = .ok (st, t') ∧ (st = .success ∨ st = .nospc) ∧
      (((l.drop (l.length / 2)).map pairSize).sum + pairSize (key, val) ≤ 4078 → (∀ e ∈ l, e.1.length ≤ 2027) → st = .success) ∧
      (st = .success → ∀ fuel k, k.length < 65536 → get env t' (fuel + 2) k = .ok (answer l k)) := by
  have hk : key.length < 65536 := by omega
  rcases hh with ⟨-, rfl⟩ | ⟨h0, ht, hct⟩
  · simp at h2
  have hpath : IsPath (getPage env t) key 0 t.root [t.root] := rfl
  obtain ⟨path, p1, p2⟩ := findPath_spec (d := maxDepth) hk 0 ht.wft (by decide) (by
    intro x hx; unfold maxPgno; simpa [hr] using (ht.bound x hx).2)
  have p1' : path = [t.root] := p1
  subst p1'
  obtain ⟨p, i1, j2, j3, j4, j5, -⟩ := ht.wft
  have hbd := ht.bound t.root (self_mem_pagesOf _ 0 _)
  rw [contents_zero i1] at hct
  have hkeys : keys p = l.map Prod.fst := by rw [keys_eq_kvs, hct]
  have hnum : numKeys p = l.length := by rw [← items_length, ← hct]; simp [kvs]
  obtain ⟨f, hf, A, B0, hA, hB, hsp⟩ := probe_spec j3 j5 hk
  have hsp' : items p = A ++ B0 ∧ f = .notFound A.length := by
    rcases hsp with ⟨it, e1, e2, -⟩ | hx
    · exfalso; apply hkey; rw [← hkeys]; unfold keys; rw [e1]; simp [e2]
    · exact hx
  obtain ⟨hit, rfl⟩ := hsp'
  have hcnt : A.length = numKeys p / 2 := by
    rw [hnum, ← hmid, ← hkeys]
    unfold keys; rw [hit, List.map_append, countP_mid, List.length_map]
    · intro a ha; obtain ⟨i, hi, rfl⟩ := List.mem_map.1 ha; exact hA i hi
    · intro a ha; obtain ⟨i, hi, rfl⟩ := List.mem_map.1 ha; exact hB i hi
  have hlen2 : A.length + B0.length = numKeys p := by rw [← items_length, hit, List.length_append]
  obtain ⟨b, B, rfl⟩ : ∃ b B, B0 = b :: B := by
    cases B0 with
    | nil => simp at hlen2; omega
    | cons b B => exact ⟨b, B, rfl⟩
  obtain ⟨a, A', rfl⟩ : ∃ a A', A = a :: A' := by
    cases A with
    | nil => simp at hcnt; omega
    | cons a A' => exact ⟨a, A', rfl⟩
  obtain ⟨t1, c1, c2, c3, c4⟩ := cowPath_spec (env := env) (path := [t.root]) hr (by simp) (by
    intro n hn
    rw [List.mem_singleton] at hn; subst hn
    exact ⟨p, i1, j2, j3⟩)
  have hI1 : I t1 := c4 F I hE.set (fun t x _ h => hE.freed t _ h) (fun x hx => by
    rw [List.mem_singleton] at hx; subst hx; exact ⟨hF, hbd.2⟩) hI
  have hr1 : t1.rdonly = false := by rw [c2.rdonly, hr]
  have hd1 : t1.getDirty t.root = some p := by
    obtain ⟨p', hp'⟩ := c3 t.root (by simp)
    have : getPage env t1 t.root = .ok p' := getPage_dirty hr1 hp'
    rw [c2.view, i1] at this; cases this; exact hp'
  let t2 := t1.setDirty t.root p
  have hr2 : t2.rdonly = false := hr1
  have hl2 : t2.newLast = t.newLast := c2.newLast
  have hI2 : I t2 := hE.set _ _ _ hI1 hF j2 j3 (by rw [c2.newLast]; exact hbd.2)
  have hd2 : t2.getDirty t.root = some p := by
    show (t1.setDirty t.root p).getDirty t.root = _
    rw [getDirty_set, if_pos rfl]
  have hput : putWith al env t key val = (insert p (a :: A').length (.leaf key val) >>= fun r =>
      match r.1 with
      | .ok => .ok (.success, t2.setDirty t.root r.2)
      | .inval => .ok (.inval, t2)
      | .nospc => (pageSplit al t2 t.root [t.root] key val >>= fun r => .ok (withRoot r))) := by
    unfold putWith
    rw [if_neg (by simp [hr]), if_neg h0, p2, Res.ok_bind]
    simp only [List.getLastD_cons, List.getLastD_nil]
    rw [i1, Res.ok_bind, hf, Res.ok_bind]
    simp only [Found.hit, Bool.false_and, Bool.false_eq_true, if_false]
    rw [c1, Res.ok_bind]
    simp only [List.getLastD_cons, List.getLastD_nil, hd1, Res.ofOption_some, Res.ok_bind, if_true, Found.idx]
    rfl
  rw [hput]
  have hroom := hfull p i1
  rcases insert_at j3 hit (it := .leaf key val) (by rw [j4]; rfl) (by simpa [Item.size] using hsz) (by simp [Item.child]) with
    ⟨-, b2⟩ | ⟨b1, -⟩
  rotate_left
  · exfalso; simp only [Item.size] at b1; omega
  rw [b2, Res.ok_bind]
  simp only []
  obtain ⟨s, t3, st, t4, e1, e2, e3, e4, e5, e6, e7, e8, e9⟩ := splitMiddle_spec hE hI2 (by omega) hF hd2 j2 j3 j5 (by omega) hit
    (it := .leaf key val) hA hB (by rw [j4]; rfl) (by simpa [Item.size] using hsz) (by simp [Item.child]) hk hcnt
  rw [j4] at e1
  have hcl : climb al t2 t.root [t.root].dropLast.reverse key val = .ok (t4, st, s.divider, s.no) := by
    show climb al t2 t.root [] key val = _
    exact climb_nil e1 e2 (splitTxn_pos hE hI2 hd2 j3 j4 (by rw [← items_length, hit, List.length_append]; simp; omega) (by omega) e1) e7
  have hps := pageSplit_climb hcl
  have hhead : [t.root].headD 0 = t.root := rfl
  rw [hhead] at hps
  rw [hps]
  have hkvl : l = (a :: A').map (fun i => (i.key, i.val)) ++ (b :: B).map (fun i => (i.key, i.val)) := by
    rw [← hct]; unfold kvs; rw [hit, List.map_append]
  have hfit : ((l.drop (l.length / 2)).map pairSize).sum + pairSize (key, val) ≤ 4078 → st = .success := by
    intro hle
    apply e8
    have hdr : l.drop (l.length / 2) = (b :: B).map (fun i => (i.key, i.val)) := by
      rw [← hnum, ← hcnt, hkvl]
      conv => lhs; rw [← List.length_map (f := fun i : Item => (i.key, i.val)) (as := a :: A')]
      exact List.drop_left
    rw [hdr, ← leaf_total j4 (fun x hx => by rw [hit]; exact List.mem_append_right _ hx)] at hle
    simp only [List.length_cons, pairSize, Item.size] at hle ⊢
    omega
  rcases e7 with rfl | rfl
  rotate_left
  · exact ⟨.nospc, t4, rfl, .inr rfl, fun hle _ => (by cases hfit hle), by intro hh; cases hh⟩
  simp only [if_true]
  rw [if_neg (by decide)]
  obtain ⟨L, R, f1, f2, f3, f4, f5, f6, f7, f8⟩ := e9 rfl
  have hr4 : t4.rdonly = false := by rw [e5.rdonly, hr2]
  have hdl : s.divider.length ≤ 4078 := by
    rw [e6]; exact key_small j3 (by unfold keys; rw [hit]; simp)
  rcases rootSplit_pages hE e5.inv (d := s.divider) (n := t.root) (c := s.no) (by omega) (by omega) f1 f3 f7 (by omega) hdl with
    ⟨g1, t5, g2⟩ | ⟨g1, q, g2, g3, g4, g5⟩
  · rw [g2, Res.ok_bind]
    refine ⟨.nospc, t5, rfl, .inr rfl, fun _ hkl => ?_, by intro hh; cases hh⟩
    exfalso
    have q1 := hkl (a.key, a.val) (by rw [hkvl]; simp)
    have q2 := hkl (b.key, b.val) (by rw [hkvl]; simp)
    rw [e6] at g1
    simp only at q1 q2
    omega
  · rw [g2, Res.ok_bind]
    refine ⟨.success, _, rfl, .inl rfl, fun _ _ => rfl, fun _ fuel k hkl => ?_⟩
    let t5 : Txn := { (extend t4).2.setDirty (t4.newLast + 1) q with root := t4.newLast + 1 }
    have hv5 : ∀ x, getPage env t5 x = if x = t4.newLast + 1 then .ok q else getPage env t4 x := by
      intro x
      have : getPage env t5 x = getPage env ((extend t4).2.setDirty (t4.newLast + 1) q) x := rfl
      rw [this, getPage_set (t := (extend t4).2) hr4]; rfl
    have hgq : getPage env t5 (t4.newLast + 1) = .ok q := by rw [hv5, if_pos rfl]
    have hgL : getPage env t5 t.root = .ok L := by rw [hv5, if_neg (by omega), getPage_dirty hr4 f1]
    have hgR : getPage env t5 s.no = .ok R := by rw [hv5, if_neg (by omega), getPage_dirty hr4 f2]
    have heq : entries q = [(a.key, t.root), (s.divider, s.no)] := by unfold entries; rw [g5]; rfl
    have hsort := j5
    unfold keys at hsort
    rw [hit, List.map_append, sorted_append] at hsort
    obtain ⟨sA, sB, sAB⟩ := hsort
    have hab : a.key < b.key := sAB _ (by simp) _ (by simp)
    have hqs : Sorted (keys q) := by
      rw [keys_eq_entries, heq]
      show Sorted [a.key, s.divider]
      rw [sorted_cons, e6]
      exact ⟨by simpa using hab, List.pairwise_singleton _ _⟩
    obtain ⟨X, k', c, Y, hr', hci, hch⟩ := childIdx_spec g3 g4 hqs (by rw [heq]; simp) hkl
    have hgo : ∀ P, getPage env t5 c = .ok P → isLeaf P = true → get env t5 (fuel + 2) k = leafGet P k := by
      intro P hP hPl
      unfold get
      rw [if_neg (show ¬ t5.root = 0 by show ¬ t4.newLast + 1 = 0; omega)]
      show (findLeaf env t5 k (fuel + 1 + 1) (t4.newLast + 1) >>= _) = _
      rw [findLeaf, hgq, Res.ok_bind, g4]
      rw [if_neg (by simp), show isBranch q = true by rw [← Bool.not_inj_iff]; rw [not_isBranch g3, g4]; rfl]
      simp only [Bool.not_true, Bool.false_eq_true, if_false]
      rw [hci, Res.ok_bind, hch, Res.ok_bind, findLeaf, hP, Res.ok_bind, if_pos hPl]
      rfl
    show get env t5 (fuel + 2) k = _
    have hkvL : kvs L = (a :: A').map (fun i => (i.key, i.val)) := by unfold kvs; rw [f7]
    have hkvR : kvs R = (key, val) :: (b :: B).map (fun i => (i.key, i.val)) := by unfold kvs; rw [f8]; rfl
    have hR := hr'.1
    rw [heq] at hR
    by_cases hkd : k < b.key
    · -- to the left page
      have hX : X = [] := by
        rcases hr'.2.1 with hx | hx
        · exact hx
        · cases X with
          | nil => rfl
          | cons x X =>
            exfalso
            cases X with
            | nil =>
              simp only [List.cons_append, List.nil_append, List.cons.injEq, Prod.mk.injEq] at hR
              obtain ⟨-, ⟨e, -⟩, -⟩ := hR
              rw [← e, e6] at hx; exact hx hkd
            | cons y X => simp at hR
      subst hX
      simp only [List.nil_append, List.cons.injEq, Prod.mk.injEq] at hR
      obtain ⟨⟨-, rfl⟩, -⟩ := hR
      rw [hgo L hgL (by rw [f5, j4]), leafGet_spec f3 (by rw [f5, j4]) (by unfold keys; rw [f7]; exact sA) hkl, hkvL, hkvl]
      unfold answer
      rw [List.lookup_append]
      have : ((b :: B).map (fun i => (i.key, i.val))).lookup k = none := by
        rw [lookup_gt]
        intro e he
        obtain ⟨i, hi, rfl⟩ := List.mem_map.1 he
        rcases List.mem_cons.1 hi with rfl | hi
        · exact hkd
        · rw [List.map_cons, sorted_cons] at sB
          exact blt_trans hkd (sB.1 _ (List.mem_map_of_mem hi))
      rw [this, Option.or_none]
    · -- to the right page
      have hY : Y = [] ∧ c = s.no := by
        cases X with
        | nil =>
          exfalso
          simp only [List.nil_append, List.cons.injEq, Prod.mk.injEq] at hR
          obtain ⟨-, hY⟩ := hR
          have := hr'.2.2 (s.divider, s.no) (by rw [← hY]; simp)
          rw [e6] at this; exact hkd this
        | cons x X =>
          cases X with
          | nil =>
            simp only [List.cons_append, List.nil_append, List.cons.injEq, Prod.mk.injEq] at hR
            exact ⟨hR.2.2.symm, hR.2.1.2.symm⟩
          | cons y X => simp at hR
      obtain ⟨-, rfl⟩ := hY
      have hsR : Sorted (keys R) := by
        unfold keys; rw [f8, List.map_cons, sorted_cons]
        refine ⟨fun y hy => ?_, sB⟩
        obtain ⟨i, hi, rfl⟩ := List.mem_map.1 hy
        exact hB i hi
      rw [hgo R hgR (by rw [f6, j4]), leafGet_spec f4 (by rw [f6, j4]) hsR hkl, hkvR, hkvl]
      unfold answer
      have hne : (k == key) = false := by
        simp only [beq_eq_false_iff_ne, ne_eq]
        rintro rfl
        exact hkd (hB b List.mem_cons_self)
      rw [List.lookup_cons, hne, lookup_append_right]
      intro e he
      obtain ⟨i, hi, rfl⟩ := List.mem_map.1 he
      have h3 := sAB i.key (List.mem_map_of_mem hi) b.key (by simp)
      rcases blt_total b.key k with hx | hx | hx
      · exact blt_trans h3 hx
      · exact hx ▸ h3
      · exact absurd hx hkd

/-! ### C41 -/

/-- C41 is false of the code, in general: whenever the database is one leaf of two or more pairs
without room for the new one, and exactly the lower half of the keys is smaller than the new key, a
`put` that reports success changes the answer of no `get` at all, so the key it stored is not found.
(The new entry goes in front of the right half, but the separator of the right half is the key after
it, so the search for the new key goes left.)  It does succeed if the entries of the right half and
the new one fit a page and the keys are not very long. -/
theorem middle_key_lost {env : Env} {t : Txn} {l : List (Bytes × Bytes)} {key val : Bytes} (fuel : Nat)
    (hfree : t.freeRoot = 0) (hw : t.rdonly = false) (hh : Holds env t 0 l) (hkey : key ∉ l.map Prod.fst)
    (hsz : 4 + key.length + val.length < 65536) (h2 : 2 ≤ l.length)
    (hmid : (l.map Prod.fst).countP (· < key) = l.length / 2)
    (hfull : ∀ p, getPage env t t.root = .ok p → room p < 4 + key.length + val.length + 2)
    (h64 : t.newLast + 2 < 2 ^ 64) :
    ∃ st t', put env (fuel + 1) t key val = .ok (st, t') ∧ (st = .success ∨ st = .nospc) ∧
      (((l.drop (l.length / 2)).map pairSize).sum + pairSize (key, val) ≤ 4078 → (∀ e ∈ l, e.1.length ≤ 2027) → st = .success) ∧
      (st = .success →
        (∀ fuel', get env t' (fuel' + 2) key = .ok (.error .notfound)) ∧
        ∀ fuel' k, k.length < 65536 → get env t' (fuel' + 2) k = get env t (fuel' + 1) k) := by
  obtain ⟨st, t', a1, a2, a3, a4⟩ := put_middle (ext_noFree env fuel) hsz hw hfree hh hkey (by simp) h2 hmid hfull h64
  refine ⟨st, t', a1, a2, a3, fun hs => ⟨fun fuel' => ?_, fun fuel' k hk => ?_⟩⟩
  · rw [a4 hs fuel' key (by omega)]
    unfold answer
    rw [lookup_none_iff.2 hkey]
  · rw [a4 hs fuel' k hk, get_spec hh hk (by omega)]

/-- For a database of one full leaf the condition is exact: a key whose `put` succeeds is found
afterwards if and only if it does not fall on the middle. -/
theorem full_leaf_found_iff {env : Env} {t t' : Txn} {l : List (Bytes × Bytes)} {key val : Bytes} {fuel fuel' : Nat}
    (hfree : t.freeRoot = 0) (hw : t.rdonly = false) (hh : Holds env t 0 l) (hkey : key ∉ l.map Prod.fst)
    (hsz : 4 + key.length + val.length < 65536) (h2 : 2 ≤ l.length)
    (hfull : ∀ p, getPage env t t.root = .ok p → room p < 4 + key.length + val.length + 2)
    (h64 : t.newLast + 2 < 2 ^ 64) (hput : put env (fuel + 1) t key val = .ok (.success, t')) :
    get env t' (fuel' + 2) key = .ok (.ok val) ↔ (l.map Prod.fst).countP (· < key) ≠ l.length / 2 := by
  constructor
  · intro hg hmid
    obtain ⟨st, t'', a1, -, -, a4⟩ := middle_key_lost fuel hfree hw hh hkey hsz h2 hmid hfull h64
    rw [hput] at a1; cases a1
    rw [(a4 rfl).1 fuel'] at hg
    cases hg
  · intro hmid
    have hm : IsMap env t 0 (fun k => l.lookup k) := ⟨l, hh, fun _ => rfl⟩
    have hroot : t.root ≠ 0 ∧ contents (getPage env t) 0 t.root = l := by
      rcases hh with ⟨-, rfl⟩ | ⟨a, -, c⟩
      · simp at h2
      · exact ⟨a, c⟩
    refine put_then_get_partial (m := fun k => l.lookup k) hfree hw hm ⟨hsz, by decide, by omega, fun _ _ => ?_, fun hc => ?_⟩ hput (by omega)
    · intro p hp _
      have hc := hroot.2
      rw [contents_zero hp] at hc
      have hn : numKeys p = l.length := by rw [← items_length, ← hc]; simp [kvs]
      rw [keys_eq_kvs, hc, hn]
      exact ⟨h2, hmid⟩
    · exact absurd (lookup_none_iff.2 hkey) hc

/-- The hypotheses can be met: "a" and "c" with values of 1900 bytes fill a leaf, "b" belongs between
them, and all three `put`s succeed. -/
theorem exMiddle : ∃ t : Txn, t.freeRoot = 0 ∧ t.rdonly = false ∧ Holds env0 t 0 [([97], val2), ([99], val2)] ∧
    (∀ p, getPage env0 t t.root = .ok p → room p < 4 + ([98] : Bytes).length + val2.length + 2) ∧
    t.newLast + 2 < 2 ^ 64 ∧
    ((([([97], val2), ([99], val2)] : List (Bytes × Bytes)).drop 1).map pairSize).sum + pairSize ([98], val2) ≤ 4078 := by
  obtain ⟨t1, t2, h1, h2, h3, h4, ⟨l, hl, hlk⟩, -⟩ := exTwo
  have hst : (puts env0 3 txn0 [([97], val2), ([99], val2)] >>= fun r => getPage env0 r.2 r.2.root >>= fun p =>
      .ok (keys p, room p, r.2.newLast, r.2.root)) = .ok ([[97], [99]], 264, 2, 2) := by decide +kernel
  unfold puts puts puts at hst
  rw [h1, Res.ok_bind, h2, Res.ok_bind, Res.ok_bind, Res.ok_bind, Res.ok_bind] at hst
  obtain ⟨p, hp1, hp2⟩ := Res.bind_eq_ok.1 hst
  have hp2 := Res.ok.inj hp2
  simp only [Prod.mk.injEq] at hp2
  obtain ⟨e1, e2, e3, e4⟩ := hp2
  refine ⟨t2, h4, h3, ?_, ?_, by rw [e3]; decide, by simp [pairSize, val2_length]⟩
  · rcases hl with ⟨h0, -⟩ | ⟨h0, ht, hc⟩
    · omega
    · refine .inr ⟨h0, ht, hc.trans ?_⟩
      rw [contents_zero hp1] at hc
      rw [keys_eq_kvs, hc] at e1
      obtain ⟨⟨x1, x2⟩, l1, rfl, rfl, e5⟩ := List.map_eq_cons_iff.1 e1
      obtain ⟨⟨y1, y2⟩, l2, rfl, rfl, e6⟩ := List.map_eq_cons_iff.1 e5
      obtain rfl := List.map_eq_nil_iff.1 e6
      have q1 := hlk [97]
      have q2 := hlk [99]
      rw [List.lookup_cons_self] at q1
      rw [List.lookup_cons, show (([99] : Bytes) == [97]) = false by decide, List.lookup_cons_self] at q2
      have r1 : x2 = val2 := Option.some.inj q1
      have r2 : y2 = val2 := Option.some.inj q2
      rw [r1, r2]
  · intro q hq
    rw [hp1] at hq; cases hq
    rw [e2, val2_length]; decide

end Verif.Db
