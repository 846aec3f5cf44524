import Verif.Db.Replace

/-!
# Helper lemmas: keys in ascending order

The pages on the way to the last leaf (the spine) have all their free space in one piece and
entries of similar size, so each split leaves enough room.
-/

namespace Verif.Db

open Verif.Page

/-- Limits on entries: the space of a leaf entry (with its slot) and the length of a key. -/
structure Limits where
  m : Nat
  M : Nat
  kl : Nat
  kh : Nat

/-- The limits under which the upper half of a full page has room for one more entry: half of the
largest possible number of entries, at maximal size, plus one. -/
structure Limits.Good (L : Limits) : Prop where
  pos : 0 < L.m
  two : 2 * L.M ≤ 4078
  half : ((4078 / L.m + 1) / 2 + 1) * L.M ≤ 4078
  two' : 2 * (L.kh + 12) ≤ 4078
  half' : ((4078 / (L.kl + 12) + 1) / 2 + 1) * (L.kh + 12) ≤ 4078

/-- An entry within the limits. -/
def Limits.Fits (L : Limits) (it : Item) : Prop :=
  L.kl ≤ it.key.length ∧ it.key.length ≤ L.kh ∧ (it.hasData = true → L.m ≤ it.size + 2 ∧ it.size + 2 ≤ L.M)

/-- All free space of the page is in one piece, and the entries are within the limits. -/
def Compact (L : Limits) (p : Page) : Prop :=
  (∀ it ∈ items p, L.Fits it) ∧ room p + total (items p) + 2 * numKeys p = 4078

/-- How many children a branch page keeps at least when it is split. -/
def Limits.fan (L : Limits) : Nat := 4078 / (L.kh + 12) / 2

/-- The way to the last leaf.  The other subtrees hold a number of pairs that grows with the power
of their height. -/
def Spine (L : Limits) (g : View) : Nat → Nat → Prop
  | 0, n => ∃ p, g n = .ok p ∧ items p ≠ [] ∧ Compact L p ∧ isLeaf p = true
  | h + 1, n => ∃ p A k c, g n = .ok p ∧ A ≠ [] ∧ entries p = A ++ [(k, c)] ∧ Compact L p ∧ Spine L g h c ∧
      (∀ e ∈ A, L.fan ^ h ≤ (contents g h e.2).length) ∧ isLeaf p = false

theorem total_bounds {l : List Item} {lo hi : Nat} (h : ∀ it ∈ l, lo ≤ it.size + 2 ∧ it.size + 2 ≤ hi) :
    l.length * lo ≤ total l + 2 * l.length ∧ total l + 2 * l.length ≤ l.length * hi := by
  induction l with
  | nil => simp [total]
  | cons a l ih =>
    obtain ⟨i1, i2⟩ := ih fun it hit => h it (List.mem_cons_of_mem _ hit)
    have := h a List.mem_cons_self
    have ht : total (a :: l) = a.size + total l := by simp [total]
    have e1 := Nat.succ_mul l.length lo
    have e2 := Nat.succ_mul l.length hi
    rw [ht, List.length_cons]
    simp only [Nat.succ_eq_add_one] at e1 e2
    omega

/-- The arithmetic behind the limits. -/
theorem half_fits {l : List Item} {lo hi s : Nat} (hlo : 0 < lo) (h2 : 2 * hi ≤ 4078) (hh : ((4078 / lo + 1) / 2 + 1) * hi ≤ 4078)
    (h : ∀ it ∈ l, lo ≤ it.size + 2 ∧ it.size + 2 ≤ hi) {r : Nat} (hr : r + total l + 2 * l.length = 4078)
    (hfull : r < s + 2) (hs : s + 2 ≤ hi) (hne : l ≠ []) :
    2 ≤ l.length ∧ total (l.drop (l.length / 2)) + 2 * (l.length - l.length / 2) + s + 2 ≤ 4078 := by
  obtain ⟨b1, b2⟩ := total_bounds h
  obtain ⟨d1, d2⟩ := total_bounds (l := l.drop (l.length / 2)) fun it hit => h it (List.mem_of_mem_drop hit)
  rw [List.length_drop] at d1 d2
  have hn1 : 1 ≤ l.length := List.length_pos_iff.2 hne
  constructor
  · apply Classical.byContradiction
    intro hc
    have : l.length = 1 := by omega
    rw [this] at b2; omega
  · have hn : l.length ≤ 4078 / lo := (Nat.le_div_iff_mul_le hlo).2 (by omega)
    have hm : l.length - l.length / 2 + 1 ≤ (4078 / lo + 1) / 2 + 1 := by omega
    have := Nat.mul_le_mul_right hi hm
    rw [Nat.succ_mul] at this
    omega

theorem spine_nonempty {L : Limits} {g : View} {h : Nat} : ∀ {n : Nat}, Spine L g h n → contents g h n ≠ [] := by
  induction h with
  | zero =>
    rintro n ⟨p, h1, h2, -⟩
    rw [contents_zero h1]; unfold kvs; simpa using h2
  | succ h ih =>
    rintro n ⟨p, A, k, c, h1, -, h2, -, h3, -⟩
    rw [contents_succ h1, h2, List.flatMap_append]
    simp [ih h3]

theorem spine_frame {L : Limits} {g g' : View} (h : Nat) : ∀ {n : Nat}, Spine L g h n → (∀ x ∈ pagesOf g h n, g' x = g x) →
    Spine L g' h n := by
  induction h with
  | zero =>
    rintro n ⟨p, h1, h2⟩ ha
    exact ⟨p, by rw [ha n (self_mem_pagesOf g 0 n)]; exact h1, h2⟩
  | succ h ih =>
    rintro n ⟨p, A, k, c, h1, h2, h3, h4, h5, h6, h7⟩ ha
    refine ⟨p, A, k, c, by rw [ha n (self_mem_pagesOf g _ n)]; exact h1, h2, h3, h4, ih h5 fun x hx => ha x ?_, fun e he => ?_, h7⟩
    · rw [pagesOf_succ h1, h3]
      exact List.mem_cons_of_mem _ (List.mem_flatMap.2 ⟨(k, c), by simp, hx⟩)
    · rw [(frame h fun x hx => ha x ?_).1]
      · exact h6 e he
      · rw [pagesOf_succ h1, h3]
        exact List.mem_cons_of_mem _ (List.mem_flatMap.2 ⟨e, by simp [he], hx⟩)

theorem append_singleton_mid {α : Type} {A B A' : List α} {x y : α} (h : A ++ [x] = A' ++ y :: B) :
    (B = [] ∧ A = A' ∧ x = y) ∨ ∃ B', B = B' ++ [x] ∧ A = A' ++ y :: B' := by
  rcases List.eq_nil_or_concat B with rfl | ⟨B', b, rfl⟩
  · have := List.append_inj' h rfl
    simp at this
    exact .inl ⟨rfl, this⟩
  · rw [List.concat_eq_append] at h ⊢
    have h' : A ++ [x] = (A' ++ y :: B') ++ [b] := by rw [h]; simp
    have := List.append_inj' h' rfl
    simp at this
    exact .inr ⟨B', by rw [this.2], this.1⟩

/-- A key greater than all leads to the last child. -/
theorem routes_last {L : Limits} {g : View} {h : Nat} {lo hi : Option Bytes} {p : Page} {A : List (Bytes × Nat)} {k : Bytes} {c : Nat}
    {key : Bytes} (hk : Kids (WFT g h) lo hi (entries p)) (he : entries p = A ++ [(k, c)]) (hA : A ≠ [])
    (hsp : Spine L g h c) (hgt : ∀ x ∈ (contents g h c).map Prod.fst, x < key)
    {A' : List (Bytes × Nat)} {k' : Bytes} {c' : Nat} {B' : List (Bytes × Nat)} (hr : Routes p key A' k' c' B') :
    A' = A ∧ k' = k ∧ c' = c ∧ B' = [] := by
  have h1 := hr.1
  rw [he] at h1
  rcases append_singleton_mid h1 with ⟨rfl, rfl, e⟩ | ⟨B'', rfl, e⟩
  · cases e; exact ⟨rfl, rfl, rfl, rfl⟩
  · exfalso
    have hlt : key < k := hr.2.2 (k, c) (by simp)
    rw [he] at hk
    have hw := (kids_focus hk).1
    unfold loOf at hw; rw [if_neg hA] at hw
    obtain ⟨x, hx⟩ := List.exists_mem_of_ne_nil _ (spine_nonempty hsp)
    have hx' := List.mem_map_of_mem (f := Prod.fst) hx
    have := ((wft_range h hw).2 x.1 hx').1 k rfl
    exact this (blt_trans (hgt x.1 hx') hlt)

theorem child_contents {g : View} {h n : Nat} {p : Page} (h1 : g n = .ok p) {A : List (Bytes × Nat)} {k : Bytes} {c : Nat}
    (he : entries p = A ++ [(k, c)]) {key : Bytes} (hgt : ∀ x ∈ (contents g (h + 1) n).map Prod.fst, x < key) :
    ∀ x ∈ (contents g h c).map Prod.fst, x < key := by
  intro x hx
  apply hgt
  rw [contents_succ h1, he, List.flatMap_append, List.map_append, List.mem_append]
  right; simpa using hx

theorem fits_branch {L : Limits} {k : Bytes} {c : Nat} (h1 : L.kl ≤ k.length) (h2 : k.length ≤ L.kh) : L.Fits (.branch k c) :=
  ⟨h1, h2, by intro h; cases h⟩

theorem compact_leaf_bounds {L : Limits} {p : Page} (hl : isLeaf p = true) (hc : Compact L p) :
    ∀ it ∈ items p, L.m ≤ it.size + 2 ∧ it.size + 2 ≤ L.M := by
  intro it hit
  refine (hc.1 it hit).2.2 ?_
  rw [items_leaf hl] at hit
  obtain ⟨e, -, rfl⟩ := List.mem_map.1 hit; rfl

theorem compact_branch_bounds {L : Limits} {p : Page} (hl : isLeaf p = false) (hc : Compact L p) :
    ∀ it ∈ items p, L.kl + 12 ≤ it.size + 2 ∧ it.size + 2 ≤ L.kh + 12 := by
  intro it hit
  have := hc.1 it hit
  rw [items_branch hl] at hit
  obtain ⟨e, -, rfl⟩ := List.mem_map.1 hit
  have h1 := this.1; have h2 := this.2.1
  simp only [Item.size, Item.key] at *
  omega

theorem overflow_key_fits {L : Limits} {g : View} {key : Bytes} {size h n : Nat} {d : Bytes} (hsp : Spine L g h n)
    (ho : Overflows g key size h n d) : L.kl ≤ d.length ∧ d.length ≤ L.kh := by
  have key_fits : ∀ p, Compact L p → ∀ k ∈ keys p, L.kl ≤ k.length ∧ k.length ≤ L.kh := by
    intro p hc k hk
    unfold keys at hk
    obtain ⟨it, hi, rfl⟩ := List.mem_map.1 hk
    exact ⟨(hc.1 it hi).1, (hc.1 it hi).2.1⟩
  cases h with
  | zero =>
    obtain ⟨p, h1, -, h3, -⟩ := hsp
    obtain ⟨q, g1, -, g3⟩ := ho
    rw [h1] at g1; cases g1
    exact key_fits p h3 d (List.mem_of_getElem? g3)
  | succ h =>
    obtain ⟨p, A, k, c, h1, -, -, h3, -, -⟩ := hsp
    obtain ⟨q, A, k, c, B, d', g1, -, -, -, g3⟩ := ho
    rw [h1] at g1; cases g1
    exact key_fits p h3 d (List.mem_of_getElem? g3)

/-- Appending at the end is safe. -/
theorem splitSafe_asc {L : Limits} (hL : L.Good) {g : View} {key : Bytes} {size : Nat} (hsM : size + 2 ≤ L.M) (h : Nat) :
    ∀ {lo hi : Option Bytes} {n : Nat}, WFT g h lo hi n → Spine L g h n → (∀ x ∈ (contents g h n).map Prod.fst, x < key) →
    SplitSafe g key size h n := by
  induction h with
  | zero =>
    rintro lo hi n ⟨p, h1, h2, h3, h4, h5, h6⟩ ⟨p', g1, g2, g3, -⟩ hgt q hq hroom
    rw [h1] at g1 hq; cases g1; cases hq
    have hr := g3.2
    rw [← items_length] at hr
    obtain ⟨a1, -⟩ := half_fits hL.pos hL.two hL.half (compact_leaf_bounds h4 g3) hr hroom hsM g2
    rw [items_length] at a1
    refine ⟨a1, ?_⟩
    rw [contents_zero h1, ← keys_eq_kvs] at hgt
    rw [List.countP_eq_length.2 (by simpa using hgt), keys_length]
    omega
  | succ h ih =>
    rintro lo hi n ⟨p, h1, h2, h3, h4, h5, h6⟩ ⟨p', A, k, c, g1, g2, g3, g4, g5, -⟩ hgt q A' k' c' B' hq hr
    rw [h1] at g1 hq; cases g1; cases hq
    have hgt' := child_contents h1 g3 hgt
    obtain ⟨rfl, rfl, rfl, rfl⟩ := routes_last h6 g3 g2 g5 hgt' hr
    have h6' := h6
    rw [g3] at h6'
    refine ⟨ih (kids_focus h6').1 g5 hgt', fun d hd => ⟨fun hh => absurd hh g2, fun hroom => ?_⟩⟩
    have hlen := congrArg List.length g3
    rw [entries_length, List.length_append, List.length_singleton] at hlen
    have := List.length_pos_iff.2 g2
    omega

/-- The page that takes one more entry at its end stays compact. -/
theorem compact_insert {L : Limits} {p q : Page} {it : Item} (hc : Compact L p) (hi : items q = items p ++ [it]) (hf : L.Fits it)
    (hr : room q + it.size + 2 = room p) : Compact L q := by
  refine ⟨?_, ?_⟩
  · intro x hx
    rw [hi] at hx
    rcases List.mem_append.1 hx with hx | hx
    · exact hc.1 x hx
    · rw [List.mem_singleton.1 hx]; exact hf
  · have h1 : total (items q) = total (items p) + it.size := by rw [hi]; unfold total; simp
    have h2 : numKeys q = numKeys p + 1 := by rw [← items_length, hi, ← items_length p]; simp
    have := hc.2
    omega

theorem snoc_of_append {α : Type} {X Y A : List α} {x : α} (h : X ++ Y = A ++ [x]) (hY : Y ≠ []) :
    ∃ Y', Y = Y' ++ [x] ∧ X ++ Y' = A := by
  rcases List.eq_nil_or_concat Y with rfl | ⟨Y', y, rfl⟩
  · exact absurd rfl hY
  · rw [List.concat_eq_append] at h ⊢
    rw [← List.append_assoc] at h
    have := List.append_inj' h rfl
    simp at this
    exact ⟨Y', by rw [this.2], this.1⟩

theorem flatMap_length_ge {α β : Type} {l : List α} {f : α → List β} {b : Nat} (h : ∀ a ∈ l, b ≤ (f a).length) :
    l.length * b ≤ (l.flatMap f).length := by
  induction l with
  | nil => simp
  | cons a l ih =>
    have := ih fun x hx => h x (List.mem_cons_of_mem _ hx)
    have := h a List.mem_cons_self
    rw [List.flatMap_cons, List.length_append, List.length_cons, Nat.add_mul]
    omega

/-- The way up for a key greater than all: it succeeds, and the new spine is compact. -/
theorem climb_asc {al : Alloc} {F : List Nat} {I : Txn → Prop} (hE : Ext al F I) {L : Limits} (hL : L.Good) {env : Env} {key val : Bytes}
    (hk : key.length < 65536) (hsz : 4 + key.length + val.length < 65536) (hfit : L.Fits (.leaf key val)) (h : Nat) :
    ∀ {lo hi : Option Bytes} {n : Nat} {path : List Nat} {t : Txn},
    t.rdonly = false → I t → WFT (getPage env t) h lo hi n → IsPath (getPage env t) key h n path →
    InRange lo hi key → (pagesOf (getPage env t) h n).Nodup →
    (∀ x ∈ pagesOf (getPage env t) h n, x ≤ t.newLast ∧ x ∉ F) →
    (∀ x ∈ path, ∃ p, t.getDirty x = some p) → (∀ x ∈ (contents (getPage env t) h n).map Prod.fst, x < key) →
    (∀ p, getPage env t (path.getLastD 0) = .ok p → room p < 4 + key.length + val.length + 2) →
    Spine L (getPage env t) h n → t.newLast + h + 1 < 2 ^ 64 →
    ∃ t' st d c, climb al t (path.getLastD 0) path.dropLast.reverse key val = .ok (t', st, d, c) ∧
      (st = .success → Spine L (getPage env t') h c ∧ L.kl ≤ d.length ∧ d.length ≤ L.kh ∧
        L.fan ^ h ≤ (contents (getPage env t') h n).length ∧
        ∃ p, getPage env t' n = .ok p ∧ ∀ k ∈ keys p, L.kl ≤ k.length ∧ k.length ≤ L.kh) ∧
      (st = .incomplete → Spine L (getPage env t') h n) ∧
      (st = .success ∨ st = .incomplete) := by
  have hfit' := hfit.2.2 rfl
  simp only [Item.size] at hfit'
  induction h with
  | zero =>
    intro lo hi n path t hr hI hw hp hin hnd hb hd hgt hroom hsp h64
    have hp' : path = [n] := hp
    subst hp'
    have hself := hb n (self_mem_pagesOf _ 0 n)
    have hsafe := splitSafe_asc hL hfit'.2 0 hw hsp hgt
    obtain ⟨p, h1, h2, h3, h4, h5, h6⟩ := hw
    obtain ⟨p', g1, g2, g3, -⟩ := hsp
    rw [h1] at g1; cases g1
    obtain ⟨q, hq⟩ := hd n (by simp)
    have : getPage env t n = .ok q := getPage_dirty hr hq
    rw [h1] at this; cases this
    have hroom := hroom p h1
    obtain ⟨s1, s2⟩ := hsafe p h1 hroom
    rw [contents_zero h1, ← keys_eq_kvs] at hgt
    rw [List.countP_eq_length.2 (by simpa using hgt), keys_length] at s2
    have hA : ∀ a ∈ items p, a.key < (Item.leaf key val).key := fun a ha => hgt a.key (by unfold keys; exact List.mem_map_of_mem ha)
    obtain ⟨s, t1, st, t2, a1, a2, a3, a4, a5, a6, a7, a8, a9⟩ := splitInsert_spec hE hI hself.1 hself.2 hq h2 h3 h5 (by omega)
      (A := items p) (B := []) (by simp) (it := .leaf key val) hA (by simp) (by rw [h4]; rfl)
      (by simpa [Item.size] using hsz) (by simp [Item.child]) hk s1 (by rw [items_length]; exact s2)
    have hr' := g3.2
    rw [← items_length] at hr'
    obtain ⟨-, f2⟩ := half_fits hL.pos hL.two hL.half (compact_leaf_bounds h4 g3) hr' hroom hfit'.2 g2
    rw [items_length] at f2
    have hlt : numKeys p / 2 < (items p).length := by rw [items_length]; omega
    have hst := a8 hlt (by simp only [Item.size]; omega)
    subst hst
    rw [h4] at a1
    refine ⟨t2, .success, s.divider, s.no, ?_, fun _ => ?_, (by intro hh; cases hh), .inl rfl⟩
    · show climb al t n [] key val = _
      exact climb_nil a1 a2 (splitTxn_pos hE hI hq h3 h4 (by omega) (by omega) a1) (.inl rfl)
    · obtain ⟨PL, PR, D, R', b1, b2, b3, b4, b5, b6, b7, b8, b9, b10, b11, b12, b13⟩ := a9 rfl
      have hr2 : t2.rdonly = false := by rw [a5.rdonly, hr]
      have gL := getPage_dirty (env := env) hr2 b1
      have gR := getPage_dirty (env := env) hr2 b2
      have hall : ∀ it ∈ items PL ++ items PR, L.Fits it := by
        intro it hit
        rw [b9] at hit
        rcases List.mem_append.1 hit with hm | hm
        · exact g3.1 it hm
        · rw [List.mem_singleton.1 hm]; exact hfit
      have hD := hall D (List.mem_append_right _ (by rw [b11]; exact List.mem_cons_self))
      rw [← b12]
      refine ⟨⟨PR, gR, by rw [b11]; simp, ⟨fun it hit => hall it (List.mem_append_right _ hit), (b13 hlt).2.1⟩, b6.trans h4⟩, hD.1, hD.2.1, ?_, PL, gL, ?_⟩
      · rw [contents_zero gL]; unfold kvs; rw [List.length_map]; exact List.length_pos_iff.2 b10
      intro k hkk
      unfold keys at hkk
      obtain ⟨it, hi, rfl⟩ := List.mem_map.1 hkk
      exact ⟨(hall it (List.mem_append_left _ hi)).1, (hall it (List.mem_append_left _ hi)).2.1⟩
  | succ h ih =>
    rintro lo hi n path t hr hI ⟨p, h1, h2, h3, h4, h5, h6⟩ ⟨p', A, k, c, B, path', g1, g2, g3, rfl⟩ hin hnd hb hd hgt hroom
      ⟨p', A', k', c', e1, e2, e3, e4, e5, e6, -⟩ h64
    rw [h1] at g1 e1; cases g1; cases e1
    have hgt' := child_contents h1 e3 hgt
    obtain ⟨rfl, rfl, rfl, rfl⟩ := routes_last h6 e3 e2 e5 hgt' g2
    have h6' := h6
    rw [e3] at h6'
    have hfoc := kids_focus h6'
    obtain ⟨rest, hrest, -⟩ := isPath_cons g3
    have hne : path' ≠ [] := by rw [hrest]; simp
    rw [getLastD_cons hne] at hroom ⊢
    rw [dropLast_cons_reverse hne, climb_snoc]
    have hpg : pagesOf (getPage env t) (h + 1) n = n :: ((A.flatMap fun e => pagesOf (getPage env t) h e.2) ++
        pagesOf (getPage env t) h c) := by
      rw [pagesOf_succ h1, e3, List.flatMap_append, List.flatMap_cons]; simp
    have hsub : ∀ x ∈ pagesOf (getPage env t) h c, x ∈ pagesOf (getPage env t) (h + 1) n := by
      intro x hx; rw [hpg]; simp only [List.mem_cons, List.mem_append]; exact .inr (.inr hx)
    have hnd' := hnd
    rw [hpg] at hnd'
    have hndc : (pagesOf (getPage env t) h c).Nodup := by
      simp only [List.nodup_cons, List.nodup_append] at hnd'
      exact hnd'.2.2.1
    have hinc := inRange_child hin g2.2.1 g2.2.2
    have hbc := fun x hx => hb x (hsub x hx)
    have hdc := fun x hx => hd x (List.mem_cons_of_mem _ hx)
    have hsafe := splitSafe_asc hL hfit'.2 h hfoc.1 e5 hgt'
    obtain ⟨t1, st, d, c', a1, a2, a3, a4, a5, a6⟩ := climb_spec hE hk hsz h hr hI hfoc.1 g3 hinc hndc hbc hdc
      (fun hm => blt_irrefl _ (hgt' _ hm)) hroom hsafe (by omega)
    obtain ⟨t1', st', d', c'', b1, b2, b3, b4⟩ := ih hr hI hfoc.1 g3 hinc hndc hbc hdc hgt' hroom e5 (by omega)
    rw [a1] at b1; cases b1
    rw [a1, Res.ok_bind]
    have hnb := hb n (self_mem_pagesOf _ _ n)
    have hnc : n ∉ pagesOf (getPage env t) h c := by
      simp only [List.nodup_cons, List.mem_append, not_or] at hnd'
      exact hnd'.1.2
    have hnp : n ∉ path' := fun hx => hnc (isPath_mem g3 n hx)
    have hr1 : t1.rdonly = false := by rw [a2.rdonly, hr]
    have hn1 : getPage env t1 n = .ok p := by rw [a2.view env hnb.1 hnp, h1]
    have hd1 : t1.getDirty n = some p := by
      rw [a2.same n hnb.1 hnp]
      obtain ⟨q, hq⟩ := hd n List.mem_cons_self
      have := getPage_dirty (env := env) hr hq
      rw [h1] at this; cases this; exact hq
    have hAag : ∀ e ∈ A, ∀ x ∈ pagesOf (getPage env t) h e.2, getPage env t1 x = getPage env t x := by
      intro e he x hx
      have hxm : x ∈ A.flatMap fun e => pagesOf (getPage env t) h e.2 := List.mem_flatMap.2 ⟨e, he, hx⟩
      refine a2.view env (hb x ?_).1 fun hxp => ?_
      · rw [hpg]; exact List.mem_cons_of_mem _ (List.mem_append_left _ hxm)
      · simp only [List.nodup_cons, List.nodup_append] at hnd'
        exact hnd'.2.2.2 x hxm x (isPath_mem g3 x hxp) rfl
    rcases b4 with rfl | rfl
    · -- the child was split
      simp only [if_true]
      obtain ⟨c1, c2, c3, c4, -⟩ := b2 rfl
      obtain ⟨⟨w1, w2, w3, w4, -, w7, w8, -, w9⟩, -⟩ := a4 rfl
      have hitems : items p = (A ++ [(k, c)]).map (fun e => Item.branch e.1 e.2) ++ [] := by
        rw [items_branch h4, e3]; simp
      have hkeys : keys p = A.map Prod.fst ++ [k] := by
        rw [keys_eq_entries, e3]; simp
      have hs5 := h5
      rw [hkeys, sorted_append] at hs5
      obtain ⟨s1, -, s4⟩ := hs5
      have hkd : k < d := by
        unfold loOf at w3; rw [if_neg e2] at w3; exact gtLo_some.1 w3
      have hAd : ∀ a ∈ (A ++ [(k, c)]).map (fun e => Item.branch e.1 e.2), a.key < d := by
        intro a ha
        obtain ⟨e, he, rfl⟩ := List.mem_map.1 ha
        rcases List.mem_append.1 he with he | he
        · exact blt_trans (s4 e.1 (List.mem_map_of_mem he) k List.mem_cons_self) hkd
        · simp only [List.mem_singleton] at he; subst he; exact hkd
      have hkh : L.kh + 12 ≤ 4078 := by have := hL.two'; omega
      have hc64 : c' < 2 ^ 64 := by
        rcases w8 c' (List.mem_append_right _ (self_mem_pagesOf _ h c')) with hx | hx
        · have := (hb c' (hsub c' hx)).1; omega
        · omega
      have hcn : c' ≠ n := by
        rintro rfl
        rcases w8 c' (List.mem_append_right _ (self_mem_pagesOf _ h c')) with hx | hx
        · exact hnc hx
        · omega
      have hprobe := probe_at h3 h5 (key := d) (by omega) hitems hAd (by simp)
      have hspine : ∀ t2 : Txn, t2.rdonly = false → (∀ x ≤ t1.newLast, x ≠ n → t2.getDirty x = t1.getDirty x) →
          Spine L (getPage env t2) h c' := by
        intro t2 hr2 hsame
        have hag : ∀ x ∈ pagesOf (getPage env t1) h c', getPage env t2 x = getPage env t1 x := by
          intro x hx
          unfold getPage
          rw [hr2, hr1]
          rcases w8 x (List.mem_append_right _ hx) with hx | hx
          · have hxl := (hb x (hsub x hx)).1
            rw [hsame x (by have := a2.last; omega) (fun hxn => hnc (hxn ▸ hx))]
          · rw [hsame x hx.2 (by omega)]
        exact spine_frame h c1 hag
      have hfill : ∀ t2 : Txn, t2.rdonly = false → (∀ x ≤ t1.newLast, x ≠ n → t2.getDirty x = t1.getDirty x) →
          ∀ e ∈ A ++ [(k, c)], L.fan ^ h ≤ (contents (getPage env t2) h e.2).length := by
        intro t2 hr2 hsame e he
        have hview : ∀ x ≤ t1.newLast, x ≠ n → getPage env t2 x = getPage env t1 x := by
          intro x hx hxn
          unfold getPage
          rw [hr2, hr1, hsame x hx hxn]
        rcases List.mem_append.1 he with he | he
        · rw [(frame (g := getPage env t) h fun x hx => ?_).1]
          · exact e6 e he
          · have hxm : x ∈ A.flatMap fun e => pagesOf (getPage env t) h e.2 := List.mem_flatMap.2 ⟨e, he, hx⟩
            have hxl := (hb x (by rw [hpg]; exact List.mem_cons_of_mem _ (List.mem_append_left _ hxm))).1
            rw [hview x (by have := a2.last; omega), hAag e he x hx]
            rintro rfl
            simp only [List.nodup_cons, List.mem_append, not_or] at hnd'
            exact hnd'.1.1 hxm
        · simp only [List.mem_singleton] at he; subst he
          rw [(frame (g := getPage env t1) h fun x hx => ?_).1]
          · exact c4
          · rcases w8 x (List.mem_append_left _ hx) with hx | hx
            · have hxl := (hb x (hsub x hx)).1
              exact hview x (by have := a2.last; omega) (fun hxn => hnc (hxn ▸ hx))
            · exact hview x hx.2 (by omega)
      rcases insert_at h3 hitems (it := .branch d c') (by rw [h4]; rfl) (by simp only [Item.size]; omega) (by simpa [Item.child] using hc64) with
        ⟨b1, b2⟩ | ⟨b1, q, b2, b3, b4, b5, b6, b7⟩
      · -- this page is split too
        have hlenA : ((A ++ [(k, c)]).map (fun e => Item.branch e.1 e.2)).length = numKeys p := by
          rw [← items_length, hitems]; simp
        have hAl : 1 ≤ A.length := List.length_pos_iff.2 e2
        have hn2 : 2 ≤ numKeys p := by rw [← hlenA]; simp; omega
        obtain ⟨s, t2, st2, t3, q1, q2, q3, q4, q5, q6, q7, q8, q9⟩ := splitInsert_spec hE a2.inv (by have := a2.last; omega) hnb.2 hd1 h2 h3 h5 (by omega)
          hitems (it := .branch d c') hAd (by simp) (by rw [h4]; rfl) (by simp only [Item.size]; omega) (by simpa [Item.child] using hc64)
          (by show d.length < 65536; omega) hn2 (by rw [hlenA]; omega)
        rw [h4] at q1
        have hr' := e4.2
        rw [← items_length] at hr'
        obtain ⟨-, f2⟩ := half_fits (by omega) hL.two' hL.half' (compact_branch_bounds h4 e4) hr' b1
          (by simp only [Item.size]; omega) (by intro hh; rw [← items_length, hh] at hn2; simp at hn2)
        rw [items_length] at f2
        have hlt : numKeys p / 2 < ((A ++ [(k, c)]).map (fun e => Item.branch e.1 e.2)).length := by rw [hlenA]; omega
        have hst := q8 hlt f2
        subst hst
        have hprop : propagate al [n] t1 d c' = .ok (t3, .success, s.divider, s.no) := by
          rw [propagate]
          simp only [hd1]
          rw [hprobe, Res.ok_bind]
          simp only [Found.idx]
          rw [b2, Res.ok_bind]
          simp only
          rw [q1, Res.ok_bind]
          simp only
          rw [q2, Res.ok_bind]
          rfl
        refine ⟨t3, .success, s.divider, s.no, hprop, fun _ => ?_, (by intro hh; cases hh), .inl rfl⟩
        obtain ⟨PL, PR, D, R', d1, d2, d3, d4, d5, d6, d7, d8, d9, d10, d11, d12, d13⟩ := q9 rfl
        have hr3 : t3.rdonly = false := by rw [q5.rdonly, hr1]
        have gL := getPage_dirty (env := env) hr3 d1
        have gR := getPage_dirty (env := env) hr3 d2
        have hall : ∀ it ∈ items PL ++ items PR, L.Fits it := by
          intro it hit
          rw [d9] at hit
          rcases List.mem_append.1 hit with hm | hm
          · exact e4.1 it (by rw [hitems]; simpa using hm)
          · rw [List.mem_singleton.1 hm]; exact fits_branch c2 c3
        have hD := hall D (List.mem_append_right _ (by rw [d11]; exact List.mem_cons_self))
        obtain ⟨Y', y1, y2⟩ := snoc_of_append d9 (by rw [d11]; simp)
        have hER : entries PR = Y'.map (fun i => (i.key, i.child)) ++ [(d, c')] := by
          unfold entries; rw [y1]; simp [Item.key, Item.child]
        rw [← d12]
        refine ⟨⟨PR, _, d, c', gR, ?_, hER, ⟨fun it hit => hall it (List.mem_append_right _ hit), (d13 hlt).2.1⟩, ?_, ?_, d6.trans h4⟩, hD.1, hD.2.1, ?_, PL, gL, ?_⟩
        · intro hh
          have hlen := congrArg List.length y1
          have h2 := (d13 hlt).1
          rw [List.map_eq_nil_iff.1 hh, items_length] at hlen
          simp at hlen; omega
        · exact hspine t3 hr3 fun x hx hxn => q5.same x hx (by simpa using hxn)
        · intro e he
          refine hfill t3 hr3 (fun x hx hxn => q5.same x hx (by simpa using hxn)) e ?_
          have : e ∈ entries PL ++ Y'.map (fun i => (i.key, i.child)) := List.mem_append_right _ he
          unfold entries at this
          rw [← List.map_append, y2] at this
          obtain ⟨i, hi, rfl⟩ := List.mem_map.1 this
          obtain ⟨e, he', rfl⟩ := List.mem_map.1 hi
          exact he'
        · rw [contents_succ gL]
          have hPL := (d13 hlt).2.2
          have hfan : L.fan ≤ (entries PL).length := by
            unfold entries; rw [hPL, List.length_map, List.length_take, items_length]
            have hbd := (total_bounds (compact_branch_bounds h4 e4)).2
            rw [items_length] at hbd
            have hfull : 4078 < (numKeys p + 1) * (L.kh + 12) := by
              have h1 := e4.2
              have h2 : room p < d.length + 12 := by simp only [Item.size] at b1; omega
              have h3 := Nat.succ_mul (numKeys p) (L.kh + 12)
              simp only [Nat.succ_eq_add_one] at h3
              omega
            have := Nat.div_lt_iff_lt_mul (by omega : 0 < L.kh + 12) |>.2 hfull
            unfold Limits.fan
            omega
          refine Nat.le_trans ?_ (flatMap_length_ge (b := L.fan ^ h) fun e he => hfill t3 hr3
            (fun x hx hxn => q5.same x hx (by simpa using hxn)) e ?_)
          · rw [Nat.pow_succ, Nat.mul_comm]; exact Nat.mul_le_mul_right _ hfan
          · have : e ∈ entries PL ++ Y'.map (fun i => (i.key, i.child)) := List.mem_append_left _ he
            unfold entries at this
            rw [← List.map_append, y2] at this
            obtain ⟨i, hi, rfl⟩ := List.mem_map.1 this
            obtain ⟨e, he', rfl⟩ := List.mem_map.1 hi
            exact he'
        · intro k hkk
          unfold keys at hkk
          obtain ⟨it, hi, rfl⟩ := List.mem_map.1 hkk
          exact ⟨(hall it (List.mem_append_left _ hi)).1, (hall it (List.mem_append_left _ hi)).2.1⟩
      · -- the page takes the separator
        have hprop : propagate al [n] t1 d c' = .ok (t1.setDirty n q, .incomplete, d, c') := by
          rw [propagate]
          simp only [hd1]
          rw [hprobe, Res.ok_bind]
          simp only [Found.idx]
          rw [b2, Res.ok_bind]
        have hr2 : (t1.setDirty n q).rdonly = false := hr1
        refine ⟨t1.setDirty n q, .incomplete, d, c', hprop, (by intro hh; cases hh), fun _ => ?_, .inr rfl⟩
        have gq : getPage env (t1.setDirty n q) n = .ok q := by rw [getPage_set hr1, if_pos rfl]
        have hiq : items q = items p ++ [.branch d c'] := by rw [b4, hitems]; simp
        have heq : entries q = (A ++ [(k, c)]) ++ [(d, c')] := by
          unfold entries; rw [hiq, List.map_append]
          show entries p ++ _ = _
          rw [e3]; rfl
        refine ⟨q, A ++ [(k, c)], d, c', gq, by simp, heq, compact_insert e4 hiq (fits_branch c2 c3) b7, ?_, ?_, b6.trans h4⟩
        · exact hspine _ hr2 fun x _ hxn => by rw [getDirty_set, if_neg hxn]
        · exact hfill _ hr2 fun x _ hxn => by rw [getDirty_set, if_neg hxn]
    · refine ⟨t1, .incomplete, d, c', rfl, (by intro hh; cases hh), fun _ => ?_, .inr rfl⟩
      refine ⟨p, A, k, c, hn1, e2, e3, e4, b3 rfl, fun e he => ?_, h4⟩
      rw [(frame h fun x hx => hAag e he x hx).1]
      exact e6 e he

/-- Replacing the last leaf. -/
theorem spine_leaf {L : Limits} {g g' : View} {key : Bytes} (h : Nat) : ∀ {lo hi : Option Bytes} {n : Nat} {path : List Nat},
    WFT g h lo hi n → IsPath g key h n path → Spine L g h n → (∀ x ∈ (contents g h n).map Prod.fst, x < key) →
    (pagesOf g h n).Nodup → (∀ x ∈ pagesOf g h n, x ≠ path.getLastD 0 → g' x = g x) →
    (∃ p, g (path.getLastD 0) = .ok p ∧ items p ≠ [] ∧ Compact L p ∧ isLeaf p = true) ∧
    (∀ q, g' (path.getLastD 0) = .ok q → items q ≠ [] → Compact L q → isLeaf q = true → Spine L g' h n) := by
  induction h with
  | zero =>
    intro lo hi n path hw hp hs hgt hnd ha
    have hp' : path = [n] := hp
    subst hp'
    exact ⟨hs, fun q h1 h2 h3 h4 => ⟨q, h1, h2, h3, h4⟩⟩
  | succ h ih =>
    rintro lo hi n path ⟨p, h1, h2, h3, h4, h5, h6⟩ ⟨p', A, k, c, B, path', g1, g2, g3, rfl⟩
      ⟨p', A', k', c', e1, e2, e3, e4, e5, e6, -⟩ hgt hnd ha
    rw [h1] at g1 e1; cases g1; cases e1
    have hgt' := child_contents h1 e3 hgt
    obtain ⟨rfl, rfl, rfl, rfl⟩ := routes_last h6 e3 e2 e5 hgt' g2
    have h6' := h6
    rw [e3] at h6'
    obtain ⟨rest, hrest, -⟩ := isPath_cons g3
    have hne : path' ≠ [] := by rw [hrest]; simp
    rw [getLastD_cons hne] at ha ⊢
    have hpg : pagesOf g (h + 1) n = n :: ((A.flatMap fun e => pagesOf g h e.2) ++ pagesOf g h c) := by
      rw [pagesOf_succ h1, e3, List.flatMap_append, List.flatMap_cons]; simp
    have hnd' := hnd
    rw [hpg] at hnd'
    simp only [List.nodup_cons, List.nodup_append, List.mem_append, not_or] at hnd'
    have hlast := isPath_mem g3 _ (getLastD_mem hne)
    obtain ⟨i1, i2⟩ := ih (kids_focus h6').1 g3 e5 hgt' hnd'.2.2.1 fun x hx hxn => ha x (by
      rw [hpg]; exact List.mem_cons_of_mem _ (List.mem_append_right _ hx)) hxn
    refine ⟨i1, fun q a1 a2 a3 a4 => ⟨p, A, k, c, ?_, e2, e3, e4, i2 q a1 a2 a3 a4, fun e he => ?_, h4⟩⟩
    · rw [ha n (self_mem_pagesOf _ _ n), h1]
      rintro hn
      exact hnd'.1.2 (hn ▸ hlast)
    · rw [(frame (g := g) h fun x hx => ?_).1]
      · exact e6 e he
      · have hxm : x ∈ A.flatMap fun e => pagesOf g h e.2 := List.mem_flatMap.2 ⟨e, he, hx⟩
        exact ha x (by rw [hpg]; exact List.mem_cons_of_mem _ (List.mem_append_left _ hxm))
          fun hn => hnd'.2.2.2 x hxm _ hlast hn

/-- The number of pairs bounds the height. -/
theorem spine_height {L : Limits} {g : View} {h n : Nat} (hs : Spine L g (h + 1) n) : L.fan ^ h ≤ (contents g (h + 1) n).length := by
  obtain ⟨p, A, k, c, h1, h2, h3, -, -, h4, -⟩ := hs
  obtain ⟨e, he⟩ := List.exists_mem_of_ne_nil _ h2
  rw [contents_succ h1, h3, List.flatMap_append, List.length_append]
  have := flatMap_length_ge h4
  have hl : 1 ≤ A.length := List.length_pos_iff.2 h2
  have := Nat.mul_le_mul_right (L.fan ^ h) hl
  omega

/-- The height of a tree is determined by its pages. -/
theorem spine_unique {L : Limits} {g : View} (h : Nat) : ∀ {h' : Nat} {lo hi : Option Bytes} {n : Nat}, WFT g h lo hi n → Spine L g h' n →
    h = h' := by
  induction h with
  | zero =>
    rintro (_ | h') lo hi n ⟨p, h1, -, -, h4, -⟩ hs
    · rfl
    · obtain ⟨p', A, k, c, g1, -, -, -, -, -, g2⟩ := hs
      rw [h1] at g1; cases g1
      rw [h4] at g2; cases g2
  | succ h ih =>
    rintro (_ | h') lo hi n ⟨p, h1, -, -, h4, -, h6⟩ hs
    · obtain ⟨p', g1, -, -, g2⟩ := hs
      rw [h1] at g1; cases g1
      rw [h4] at g2; cases g2
    · obtain ⟨p', A, k, c, g1, -, g2, -, g3, -⟩ := hs
      rw [h1] at g1; cases g1
      rw [g2] at h6
      rw [ih (kids_focus h6).1 g3]

/-- Storing a key greater than all. -/
theorem put_asc {al : Alloc} {F : List Nat} {I : Txn → Prop} (hE : Ext al F I) {L : Limits} (hL : L.Good) {env : Env} {t : Txn} {h : Nat}
    {l : List (Bytes × Bytes)} {key val : Bytes} (hfit : L.Fits (.leaf key val))
    (hr : t.rdonly = false) (hI : I t) (hh : Holds env t h l) (hgt : ∀ x ∈ l.map Prod.fst, x < key)
    (hF : t.root ≠ 0 → ∀ x ∈ pagesOf (getPage env t) h t.root, x ∉ F) (hd : h < maxDepth)
    (hsp : t.root ≠ 0 → Spine L (getPage env t) h t.root) (h64 : t.newLast + h + 2 < 2 ^ 64) :
    ∃ t' h', putWith al env t key val = .ok (.success, t') ∧ Inserted I env t t' h h' l key val ∧
      Spine L (getPage env t') h' t'.root := by
  have hfit' := hfit.2.2 rfl
  simp only [Item.size] at hfit'
  have h2M := hL.two
  have hsz : 4 + key.length + val.length < 65536 := by omega
  have hk : key.length < 65536 := by omega
  have hkey : key ∉ l.map Prod.fst := fun hm => blt_irrefl _ (hgt _ hm)
  have hsafe : t.root ≠ 0 → SplitSafe (getPage env t) key (4 + key.length + val.length) h t.root := by
    intro h0
    rcases hh with ⟨h0', -⟩ | ⟨-, ht, rfl⟩
    · exact absurd h0' h0
    · exact splitSafe_asc hL hfit'.2 h ht.wft (hsp h0) hgt
  obtain ⟨st0, t0, z1, -, z3⟩ := put_absent hE hk hsz hr hI hh hkey hF hd hsafe h64
  suffices hsuff : ∃ t' h', putWith al env t key val = .ok (.success, t') ∧ Spine L (getPage env t') h' t'.root by
    obtain ⟨t', h', q1, q2⟩ := hsuff
    rw [z1] at q1; cases q1
    obtain ⟨h'', hins⟩ := z3 rfl
    have := spine_unique _ hins.tree.wft q2
    subst this
    exact ⟨t0, h'', z1, hins, q2⟩
  clear z1 z3
  rcases hh with ⟨h0, rfl⟩ | ⟨h0, ht, rfl⟩
  · have hput : putWith al env t key val = (newTree al t key val >>= fun r => .ok (withRoot r)) := by
      unfold putWith; rw [if_neg (by simp [hr]), if_pos h0]
    have h64' : t.newLast + 1 < 2 ^ 64 := by omega
    have wf := emptyPage_wf true (t.newLast + 1) h64'
    have hroom : room (emptyPage true (t.newLast + 1)) = 4078 := by
      obtain ⟨-, -, h1, h2, -⟩ := emptyPage_fields true (t.newLast + 1) h64'
      unfold room; rw [h1, h2]
    have hl := emptyPage_isLeaf true (t.newLast + 1) h64'
    rw [hput]
    unfold newTree
    rw [hE.ext t hI, Res.ok_bind]
    simp only [extend]
    rcases insert_at wf (A := []) (B := []) (by rw [emptyPage_items _ _ h64']; rfl) (it := .leaf key val) (by rw [hl]; rfl)
        (by simpa [Item.size] using hsz) (by simp [Item.child]) with ⟨b1, b2⟩ | ⟨b1, q, b2, b3, b4, b5, b6, b7⟩
    · exfalso; rw [hroom] at b1; simp only [Item.size] at b1; omega
    · rw [List.length_nil] at b2
      rw [b2]
      refine ⟨_, 0, rfl, q, ?_, by rw [b4]; simp, ⟨?_, ?_⟩, b6.trans hl⟩
      · show getPage env ((extend t).2.setDirty (t.newLast + 1) q) (t.newLast + 1) = _
        rw [getPage_set (t := (extend t).2) hr, if_pos rfl]
      · rw [b4]; intro it hit
        simp only [List.nil_append, List.mem_singleton] at hit
        rw [hit]; exact hfit
      · rw [← items_length, b4]
        rw [hroom] at b7
        simp only [total, List.nil_append, List.map_cons, List.map_nil, List.sum_cons, List.sum_nil, List.length_singleton]
        omega
  · have hF := hF h0
    have hsafe := hsafe h0
    have hsp := hsp h0
    obtain ⟨path, p1, p2⟩ := findPath_spec hk h ht.wft hd (by
      intro x hx; unfold maxPgno; simpa [hr] using (ht.bound x hx).2)
    obtain ⟨lo', hi', p, A, B, i1, i2, i3, i4, i5, i6, i7⟩ := leaf_focus h ht.wft p1 (inRange_none key)
    obtain ⟨q, j1, j2, j3, j4, j5, j6⟩ := i2
    rw [i1] at j1; cases j1
    have hne : path ≠ [] := by
      obtain ⟨rest, hr, -⟩ := isPath_cons p1; rw [hr]; simp
    have hlm : path.getLastD 0 ∈ pagesOf (getPage env t) h t.root := isPath_mem p1 _ (getLastD_mem hne)
    have hgtp : ∀ k ∈ keys p, k < key := by
      intro k hm; apply hgt; rw [i4, List.map_append, List.map_append, ← keys_eq_kvs]
      exact List.mem_append_left _ (List.mem_append_right _ hm)
    obtain ⟨f, hf, A', B', hA, hB, hsp'⟩ := probe_spec j3 j5 hk
    have hsp' : items p = A' ++ B' ∧ f = .notFound A'.length := by
      rcases hsp' with ⟨it, e1, e2, -⟩ | hx
      · exfalso; apply blt_irrefl key; apply hgtp; unfold keys; rw [e1]; simp [e2]
      · exact hx
    obtain ⟨hit, rfl⟩ := hsp'
    have hBn : B' = [] := by
      cases B' with
      | nil => rfl
      | cons b B' =>
        exfalso
        refine blt_irrefl key (blt_trans (hB b List.mem_cons_self) (hgtp b.key ?_))
        unfold keys; rw [hit]; simp
    subst hBn
    rw [List.append_nil] at hit
    obtain ⟨t1, c1, c2, c3, c4⟩ := cowPath_spec (env := env) hr hne (by
      intro n hn
      exact wft_pages h ht.wft n (isPath_mem p1 n hn))
    have hI1 : I t1 := c4 F I hE.set (fun t x _ h => hE.freed t _ h) (fun x hx => ⟨hF x (isPath_mem p1 x hx), (ht.bound x (isPath_mem p1 x hx)).2⟩) hI
    have hr1 : t1.rdonly = false := by rw [c2.rdonly, hr]
    have hd1 : t1.getDirty (path.getLastD 0) = some p := by
      obtain ⟨p', hp'⟩ := c3 _ (getLastD_mem hne)
      have : getPage env t1 (path.getLastD 0) = .ok p' := getPage_dirty hr1 hp'
      rw [c2.view, i1] at this; cases this; exact hp'
    let t2 := t1.setDirty (path.getLastD 0) p
    have hr2 : t2.rdonly = false := hr1
    have hI2 : I t2 := hE.set _ _ _ hI1 (hF _ hlm) j2 j3 (by rw [c2.newLast]; exact (ht.bound _ hlm).2)
    have hd2 : ∀ x, t2.getDirty x = t1.getDirty x := by
      intro x
      show (t1.setDirty (path.getLastD 0) p).getDirty x = _
      rw [getDirty_set]; split
      · rename_i hx; rw [hx, hd1]
      · rfl
    have hv2 : getPage env t2 = getPage env t := by
      funext x
      rw [← c2.view x]
      unfold getPage; rw [hd2 x]; rfl
    have hput : putWith al env t key val = (insert p A'.length (.leaf key val) >>= fun r =>
        match r.1 with
        | .ok => .ok (.success, t2.setDirty (path.getLastD 0) r.2)
        | .inval => .ok (.inval, t2)
        | .nospc => (pageSplit al t2 (path.getLastD 0) path key val >>= fun r => .ok (withRoot r))) := by
      unfold putWith
      rw [if_neg (by simp [hr]), if_neg h0, p2, Res.ok_bind]
      simp only []
      rw [i1, Res.ok_bind, hf, Res.ok_bind]
      simp only [Found.hit, Bool.false_and, Bool.false_eq_true, if_false]
      rw [c1, Res.ok_bind]
      simp only [hd1, Res.ofOption_some, Res.ok_bind, if_true, Found.idx]
      rfl
    rw [hput]
    have hroot2 : t2.root = t.root := c2.root
    have hlast2 : t2.newLast = t.newLast := c2.newLast
    rcases insert_at j3 (A := A') (B := []) (by simpa using hit) (it := .leaf key val) (by rw [j4]; rfl) (by simpa [Item.size] using hsz) (by simp [Item.child]) with
      ⟨b1, b2⟩ | ⟨b1, q, b2, b3, b4, b5, b6, b7⟩
    · -- the leaf is split
      have hhead : path.headD 0 = t.root := by
        obtain ⟨rest, hr, -⟩ := isPath_cons p1; rw [hr]; rfl
      obtain ⟨t3, st, d, c, e1, e2, e3, e4, e5, e6⟩ := climb_spec hE (env := env) hk hsz h (t := t2) (n := t.root) (path := path)
        (lo := none) (hi := none) hr2 hI2 (by rw [hv2]; exact ht.wft) (by rw [hv2]; exact p1) (inRange_none key)
        (by rw [hv2]; exact ht.nodup)
        (by rw [hv2, hlast2]; intro x hx; exact ⟨(ht.bound x hx).2, hF x hx⟩)
        (by intro x hx; rw [hd2]; exact c3 x hx) (by rw [hv2]; exact hkey)
        (by rw [hv2, i1]; intro p' hp'; cases hp'; simpa [Item.size] using b1)
        (by rw [hv2]; exact hsafe) (by omega)
      obtain ⟨t3', st', d', c', u1, u2, u3, u4⟩ := climb_asc hE hL (env := env) hk hsz hfit h (t := t2) (n := t.root) (path := path)
        (lo := none) (hi := none) hr2 hI2 (by rw [hv2]; exact ht.wft) (by rw [hv2]; exact p1) (inRange_none key)
        (by rw [hv2]; exact ht.nodup)
        (by rw [hv2, hlast2]; intro x hx; exact ⟨(ht.bound x hx).2, hF x hx⟩)
        (by intro x hx; rw [hd2]; exact c3 x hx) (by rw [hv2]; exact hgt)
        (by rw [hv2, i1]; intro p' hp'; cases hp'; simpa [Item.size] using b1)
        (by rw [hv2]; exact hsp) (by omega)
      rw [e1] at u1; cases u1
      have hps := pageSplit_climb e1
      rw [hhead] at hps
      rw [b2, Res.ok_bind]
      simp only []
      rw [hps]
      rw [hv2, hlast2] at e4
      have hr3 : t3.rdonly = false := by rw [e2.rdonly, hr2]
      rcases u4 with rfl | rfl
      · simp only [if_true]
        rw [if_neg (by decide)]
        obtain ⟨htwo, hdir⟩ := e4 rfl
        obtain ⟨v1, v2, v3, v4, v5⟩ := u2 rfl
        have hdl := overflow_key_small ht.wft htwo.over
        have hrb := ht.bound t.root (self_mem_pagesOf _ h _)
        have hl3 := e2.last
        rw [hlast2] at hl3
        obtain ⟨t4, r, f1, f2, f3, f4⟩ := rootSplit_spec hE (t0 := t) hr3 e2.inv (by omega) hrb.1 htwo hdir (by omega) hl3 hdl
          (fun x hx => (ht.bound x hx).2)
        obtain ⟨pr, y1, y2⟩ := v5
        have hr4 := f4 pr y1 (fun k hkk => by have := y2 k hkk; have := hL.two'; omega)
        subst hr4
        rw [f1, Res.ok_bind]
        obtain ⟨q, mk, pr', rfl, x1, x2, g4, g5, g6, g7, g8, g9⟩ := f3 rfl
        rw [y1] at x1; cases x1
        have hmk := y2 mk (List.mem_of_getElem? x2)
        let t5 : Txn := { (extend t3).2.setDirty (t3.newLast + 1) q with root := t3.newLast + 1 }
        have hv5 : ∀ x, getPage env t5 x = if x = t3.newLast + 1 then .ok q else getPage env t3 x := by
          intro x
          have : getPage env t5 x = getPage env ((extend t3).2.setDirty (t3.newLast + 1) q) x := rfl
          rw [this, getPage_set (t := (extend t3).2) hr3]; rfl
        have hle : ∀ x ∈ pagesOf (getPage env t3) h t.root ++ pagesOf (getPage env t3) h c, getPage env t5 x = getPage env t3 x := by
          intro x hx
          rw [hv5, if_neg]
          rcases htwo.pages x hx with hx | hx
          · have := ht.bound x hx; omega
          · omega
        refine ⟨t5, h + 1, rfl, q, [(mk, t.root)], d, c, ?_, by simp, ?_, ⟨?_, ?_⟩, ?_, ?_, g5⟩
        · show getPage env t5 (t3.newLast + 1) = _
          rw [hv5, if_pos rfl]
        · unfold entries; rw [g7]; rfl
        · rw [g7]; intro it hit
          simp only [List.mem_cons, List.not_mem_nil, or_false] at hit
          rcases hit with rfl | rfl
          · exact fits_branch hmk.1 hmk.2
          · exact fits_branch v2 v3
        · rw [← items_length, g7]
          simp only [total, List.map_cons, List.map_nil, List.sum_cons, List.sum_nil, List.length_cons, List.length_nil, Item.size]
          omega
        · exact spine_frame h v1 fun x hx => hle x (List.mem_append_right _ hx)
        · intro e he
          simp only [List.mem_singleton] at he; subst he
          rw [(frame (g := getPage env t3) h fun x hx => hle x (List.mem_append_left _ hx)).1]
          exact v4
      · simp only [if_true, Res.ok_bind]
        exact ⟨{ t3 with root := t.root }, h, rfl, u3 rfl⟩
    · -- the pair fits the leaf
      rw [b2, Res.ok_bind]
      simp only []
      let t3 := t2.setDirty (path.getLastD 0) q
      have hv3 : ∀ x, getPage env t3 x = if x = path.getLastD 0 then .ok q else getPage env t x := by
        intro x
        show getPage env (t2.setDirty (path.getLastD 0) q) x = _
        rw [getPage_set hr2, hv2]
      have hq3 : getPage env t3 (path.getLastD 0) = .ok q := by rw [hv3, if_pos rfl]
      obtain ⟨⟨p', k1, k2, k3, -⟩, k4⟩ := spine_leaf (g' := getPage env t3) h ht.wft p1 hsp hgt ht.nodup (fun x _ hx => by rw [hv3, if_neg hx])
      rw [i1] at k1; cases k1
      refine ⟨t3, h, rfl, ?_⟩
      have hroot3 : t3.root = t.root := c2.root
      rw [hroot3]
      exact k4 q hq3 (by rw [b4]; simp) (compact_insert k3 (by rw [b4, hit]) hfit b7) (b6.trans j4)

end Verif.Db
