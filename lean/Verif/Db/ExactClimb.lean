import Verif.Db.ExactNode

/-!
# Helper lemmas: splits travelling up the tree, with all that goes wrong
-/

namespace Verif.Db

open Verif.Page

/-! ## The specification on a given page -/

theorem overflow_unique {g : View} {key : Bytes} {size : Nat} (h : Nat) {n : Nat} {d d' : Bytes}
    (h1 : Overflows g key size h n d) (h2 : Overflows g key size h n d') : d = d' := by
  cases h with
  | zero =>
    obtain ⟨p, a1, -, a3⟩ := h1
    obtain ⟨q, b1, -, b3⟩ := h2
    rw [a1] at b1; cases b1
    rw [a3] at b3; cases b3; rfl
  | succ h =>
    obtain ⟨p, _, _, _, _, _, a1, -, -, -, a3⟩ := h1
    obtain ⟨q, _, _, _, _, _, b1, -, -, -, b3⟩ := h2
    rw [a1] at b1; cases b1
    rw [a3] at b3; cases b3; rfl

theorem stray_overflows {g : View} {key : Bytes} {size : Nat} (h : Nat) {n : Nat} {x : Bytes} {p : Page} (hp : g n = .ok p)
    (h2 : 1 ≤ numKeys p) (hs : Stray g key size h n x) : ∃ d, Overflows g key size h n d := by
  have hm : ∃ d, (keys p)[numKeys p / 2]? = some d := by
    have : numKeys p / 2 < (keys p).length := by unfold keys; rw [List.length_map, items_length]; omega
    exact ⟨_, List.getElem?_eq_getElem this⟩
  obtain ⟨d, hd⟩ := hm
  cases h with
  | zero =>
    obtain ⟨-, q, a1, a2, -⟩ := hs
    rw [hp] at a1; cases a1
    exact ⟨d, p, hp, a2, hd⟩
  | succ h =>
    obtain ⟨q, A, k, c, B, d', a1, a2, a3, a4, a5, a6, a7⟩ := hs
    rw [hp] at a1; cases a1
    exact ⟨d, p, A, k, c, B, d', hp, a2, a4, a6.1, hd⟩

theorem routes_all {p : Page} {key : Bytes} {A A' : List (Bytes × Nat)} {k k' : Bytes} {c c' : Nat} {B B' : List (Bytes × Nat)}
    (h : Routes p key A k c B) (h' : Routes p key A' k' c' B') : A = A' ∧ k = k' ∧ c = c' ∧ B = B' := by
  obtain ⟨h1, h2, h3⟩ := h
  obtain ⟨g1, g2, g3⟩ := h'
  rw [h1] at g1
  rcases List.append_eq_append_iff.1 g1 with ⟨as, e1, e2⟩ | ⟨as, e1, e2⟩
  · cases as with
    | nil =>
      simp only [List.nil_append, List.cons.injEq, Prod.mk.injEq] at e2
      rw [List.append_nil] at e1
      exact ⟨e1.symm, e2.1.1, e2.1.2, e2.2⟩
    | cons a as =>
      exfalso
      simp only [List.cons_append, List.cons.injEq] at e2
      rcases g2 with g2 | g2
      · rw [g2] at e1; simp at e1
      · exact g2 (h3 (k', c') (by rw [e2.2]; simp))
  · cases as with
    | nil =>
      simp only [List.nil_append, List.cons.injEq, Prod.mk.injEq] at e2
      rw [List.append_nil] at e1
      exact ⟨e1, e2.1.1.symm, e2.1.2.symm, e2.2.symm⟩
    | cons a as =>
      exfalso
      simp only [List.cons_append, List.cons.injEq] at e2
      rcases h2 with h2 | h2
      · rw [h2] at e1; simp at e1
      · exact h2 (g3 (k, c) (by rw [e2.2]; simp))

theorem joins_of_routes {p : Page} {x : Bytes} {A : List (Bytes × Nat)} {k : Bytes} {c : Nat} {B : List (Bytes × Nat)}
    (he : entries p = A ++ (k, c) :: B) : Routes p x A k c B ↔ Joins A k B x :=
  ⟨fun h => h.2, fun h => ⟨he, h⟩⟩

theorem unreached_succ {g : View} {key : Bytes} {size h n : Nat} {p : Page} (hp : g n = .ok p) {A : List (Bytes × Nat)} {k : Bytes}
    {c : Nat} {B : List (Bytes × Nat)} (hr : Routes p key A k c B) (x : Bytes) :
    Unreached g key size (h + 1) n x ↔ Joins A k B x ∧ (Unreached g key size h c x ∨ ∃ d, Overflows g key size h c d ∧
        ((A = [] ∧ d < k ∧ (¬ x < k ∨ (x < d ∧ ¬ Stray g key size h c x))) ∨
         ((A = [] → k < d) ∧ ¬ OnMiddle p A d ∧ Stray g key size h c x))) := by
  constructor
  · rintro ⟨q, A', k', c', B', h1, h2, h3, h4⟩
    rw [hp] at h1; cases h1
    obtain ⟨rfl, rfl, rfl, rfl⟩ := routes_all hr h2
    exact ⟨h3.2, h4⟩
  · rintro ⟨h3, h4⟩
    exact ⟨p, A, k, c, B, hp, hr, ⟨hr.1, h3⟩, h4⟩

theorem stray_succ {g : View} {key : Bytes} {size h n : Nat} {p : Page} (hp : g n = .ok p) {A : List (Bytes × Nat)} {k : Bytes}
    {c : Nat} {B : List (Bytes × Nat)} (hr : Routes p key A k c B) {d : Bytes} (hd : Overflows g key size h c d) (x : Bytes) :
    Stray g key size (h + 1) n x ↔ Joins A k B x ∧ (A = [] → k < d) ∧ OnMiddle p A d ∧ (x < d → Stray g key size h c x) := by
  constructor
  · rintro ⟨q, A', k', c', B', d', h1, h2, h3, h4, h5, h6, h7⟩
    rw [hp] at h1; cases h1
    obtain ⟨rfl, rfl, rfl, rfl⟩ := routes_all hr h2
    have := overflow_unique h hd h4; subst this
    exact ⟨h3.2, h5, h6, h7⟩
  · rintro ⟨h3, h5, h6, h7⟩
    exact ⟨p, A, k, c, B, d, hp, hr, ⟨hr.1, h3⟩, hd, h5, h6, h7⟩

theorem sight_succ {g : View} {h n : Nat} {p : Page} (hp : g n = .ok p) : sight g (h + 1) n = node (sight g h) (entries p) := by
  funext x; rw [sight, hp]; rfl

theorem sight_zero {g : View} {n : Nat} {p : Page} (hp : g n = .ok p) : sight g 0 n = fun x => (kvs p).lookup x := by
  funext x; rw [sight, hp]

theorem Whole.congr {f g : Bytes → Option Bytes} {P Q : Bytes → Prop} (h : Whole f g P) (hpq : ∀ x, P x ↔ Q x) : Whole f g Q :=
  fun x => ⟨fun hq => (h x).1 ((hpq x).2 hq), fun hq => (h x).2 fun hh => hq ((hpq x).1 hh)⟩

theorem Halves.congr {a b f : Bytes → Option Bytes} {d : Bytes} {P Q P' Q' : Bytes → Prop} (h : Halves a b f d P Q)
    (hp : ∀ x, P x ↔ P' x) (hq : ∀ x, Q x ↔ Q' x) : Halves a b f d P' Q' := by
  have e1 : P = P' := funext fun x => propext (hp x)
  have e2 : Q = Q' := funext fun x => propext (hq x)
  subst e1 e2; exact h

theorem node_congr {F F' : Nat → Bytes → Option Bytes} {E : List (Bytes × Nat)} (hE : E ≠ []) (h : ∀ e ∈ E, F e.2 = F' e.2) :
    node F E = node F' E := by
  funext x
  unfold node
  obtain ⟨e, he, hr⟩ := route_mem hE x
  rw [hr, h e he]

/-! ## Lookups in a sorted listing -/

theorem lookup_none {l : List (Bytes × Bytes)} {x : Bytes} (h : ∀ a ∈ l, a.1 ≠ x) : l.lookup x = none := by
  cases hl : l.lookup x with
  | none => rfl
  | some v =>
    obtain ⟨a, ha, he⟩ := List.mem_map.1 (lookup_mem hl)
    exact absurd he (h a ha)

theorem lookup_insert {A B : List (Bytes × Bytes)} {key val : Bytes} (h : ∀ a ∈ A, a.1 ≠ key) (x : Bytes) :
    (A ++ (key, val) :: B).lookup x = upd (fun x => (A ++ B).lookup x) key val x := by
  unfold upd
  simp only [List.lookup_append, List.lookup_cons]
  by_cases hx : x = key
  · subst hx
    rw [if_pos rfl, lookup_none h, beq_self_eq_true]; rfl
  · rw [if_neg hx]
    have : (x == key) = false := by simpa using hx
    rw [this]

/-- The two halves of a listing, cut at `d`. -/
theorem lookup_cut {L R : List (Bytes × Bytes)} {d : Bytes} (hL : ∀ a ∈ L, a.1 < d) (hR : ∀ a ∈ R, ¬ a.1 < d) :
    Halves (fun x => L.lookup x) (fun x => R.lookup x) (fun x => (L ++ R).lookup x) d (fun _ => False) (fun _ => False) := by
  have h1 : ∀ x, ¬ x < d → L.lookup x = none := fun x hx => lookup_none fun a ha he => hx (he ▸ hL a ha)
  have h2 : ∀ x, x < d → R.lookup x = none := fun x hx => lookup_none fun a ha he => hR a ha (he ▸ hx)
  refine ⟨fun x h => h.elim, fun x hx => ⟨?_, fun _ => ?_⟩, fun x hx => ⟨fun h => h.1.elim, fun _ => h2 x hx⟩,
    fun x hx => ⟨fun h => h.elim, fun _ => ?_⟩, h1⟩
  · rintro (h | h) <;> exact h.elim
  · show L.lookup x = (L ++ R).lookup x
    rw [List.lookup_append, h2 x hx, Option.or_none]
  · show R.lookup x = (L ++ R).lookup x
    rw [List.lookup_append, h1 x hx, Option.none_or]

/-- The pair in front of the right half. -/
theorem lookup_middle {L R : List (Bytes × Bytes)} {d key val : Bytes} (hL : ∀ a ∈ L, a.1 < key) (hR : ∀ a ∈ R, ¬ a.1 < d) (hk : key < d) :
    Halves (fun x => L.lookup x) (fun x => ((key, val) :: R).lookup x) (upd (fun x => (L ++ R).lookup x) key val) d
      (fun _ => False) (fun x => x = key) := by
  have hLd : ∀ a ∈ L, a.1 < d := fun a ha => blt_trans (hL a ha) hk
  have hc := lookup_cut hLd hR
  have hLk : L.lookup key = none := lookup_none fun a ha he => blt_irrefl _ (he ▸ hL a ha)
  have hcons : ∀ x, ((key, val) :: R).lookup x = if x = key then some val else R.lookup x := by
    intro x
    rw [List.lookup_cons]
    by_cases hx : x = key
    · subst hx; simp
    · have : (x == key) = false := by simpa using hx
      rw [this, if_neg hx]
  refine ⟨fun x hx => hx ▸ hk, fun x hx => ⟨?_, fun hn => ?_⟩, fun x hx => ⟨fun h => ?_, fun h => ?_⟩, fun x hx => ⟨fun h => h.elim, fun _ => ?_⟩, hc.left'⟩
  · rintro (h | h)
    · exact h.elim
    · subst h; exact hLk
  · have hne : x ≠ key := fun h => hn (.inr h)
    unfold upd; rw [if_neg hne]
    exact (hc.left x hx).2 (by simp)
  · have := h.1; subst this
    show ((x, val) :: R).lookup x = _
    unfold upd; rw [hcons, if_pos rfl, if_pos rfl]
  · have hne : x ≠ key := fun hh => h ⟨hh, id⟩
    show ((key, val) :: R).lookup x = none
    rw [hcons, if_neg hne]
    exact (hc.right' x hx).2 (by simp)
  · have hne : x ≠ key := fun hh => hx (hh ▸ hk)
    show ((key, val) :: R).lookup x = _
    unfold upd; rw [hcons, if_neg hne, if_neg hne]
    exact (hc.right x hx).2 (by simp)

/-! ## Splitting a page and inserting into a half, with no condition on the place -/

theorem splitAll_spec {al : Alloc} {F : List Nat} {I : Txn → Prop} (hE : Ext al F I) {t : Txn} (hI : I t)
    {lk : Nat} (hlk : lk ≤ t.newLast) (hF : lk ∉ F) {p : Page} (hp : t.getDirty lk = some p) (hpn : pgno p = lk) (wf : WF p)
    (hs : Sorted (keys p)) (h64 : t.newLast + 1 < 2 ^ 64)
    {A B : List Item} (h : items p = A ++ B) {it : Item} (hA : ∀ a ∈ A, a.key < it.key)
    (hB : ∀ b ∈ B, it.key < b.key) (hk : it.hasData = isLeaf p) (hsz : it.size < 65536) (hc : it.child < 2 ^ 64)
    (hkl : it.key.length < 65536) (h2 : 2 ≤ numKeys p) :
    ∃ s t1 st t2, splitTxn al (isLeaf p) t lk = .ok (t1, .ok s) ∧ insertHalf t1 lk s it = .ok (st, t2) ∧
      s.no = t.newLast + 1 ∧ t2.newLast = t.newLast + 1 ∧ Evo I [lk] t t2 ∧
      (keys p)[numKeys p / 2]? = some s.divider ∧ (st = .success ∨ st = .nospc) ∧
      (st = .success → ∃ L R D, t2.getDirty lk = some L ∧ t2.getDirty s.no = some R ∧ WF L ∧ WF R ∧
        isLeaf L = isLeaf p ∧ isLeaf R = isLeaf p ∧ items L ≠ [] ∧ D.key = s.divider ∧
        ((A.length ≠ numKeys p / 2 ∧ ∃ B1 B2, B = B1 ++ D :: B2 ∧ items L = A ++ it :: B1 ∧ items R = D :: B2) ∨
         (A.length ≠ numKeys p / 2 ∧ ∃ A1 A2, A = A1 ++ D :: A2 ∧ items L = A1 ∧ items R = D :: (A2 ++ it :: B)) ∨
         (A.length = numKeys p / 2 ∧ ∃ B2, B = D :: B2 ∧ items L = A ∧ items R = it :: B))) := by
  by_cases hmid : A.length = numKeys p / 2
  · have hlen2 : A.length + B.length = numKeys p := by rw [← items_length, h, List.length_append]
    obtain ⟨b, B', rfl⟩ : ∃ b B', B = b :: B' := by
      cases B with
      | nil => simp at hlen2; omega
      | cons b B' => exact ⟨b, B', rfl⟩
    obtain ⟨s, t1, st, t2, e1, e2, e3, e4, e5, e6, e7, -, e9⟩ := splitMiddle_spec hE hI hlk hF hp hpn wf hs h64 h hA hB hk hsz hc hkl hmid
    refine ⟨s, t1, st, t2, e1, e2, e3, e4, e5, ?_, e7, fun hh => ?_⟩
    · unfold keys; rw [h, List.getElem?_map, ← hmid]; simp [e6]
    · obtain ⟨L, R, f1, f2, f3, f4, f5, f6, f7, f8⟩ := e9 hh
      refine ⟨L, R, b, f1, f2, f3, f4, f5, f6, ?_, e6.symm, .inr (.inr ⟨hmid, B', rfl, f7, f8⟩)⟩
      rw [f7]; rintro rfl; simp at hmid; omega
  · obtain ⟨s, t1, st, t2, e1, e2, e3, e4, e5, e6, e7, -, e9⟩ := splitInsert_spec hE hI hlk hF hp hpn wf hs h64 h hA hB hk hsz hc hkl h2 hmid
    refine ⟨s, t1, st, t2, e1, e2, e3, e4, e5, e6, e7, fun hh => ?_⟩
    obtain ⟨L, R, D, R', f1, f2, f3, f4, f5, f6, -, -, f9, f10, f11, f12, -⟩ := e9 hh
    refine ⟨L, R, D, f1, f2, f3, f4, f5, f6, f10, f12, ?_⟩
    have hD : D ≠ it := by
      rintro rfl
      have hm : D.key ∈ keys p := by rw [f12]; exact List.mem_of_getElem? e6
      unfold keys at hm
      rw [h, List.map_append, List.mem_append] at hm
      rcases hm with hm | hm
      · obtain ⟨i, hi, he⟩ := List.mem_map.1 hm
        exact blt_irrefl _ (he ▸ hA i hi)
      · obtain ⟨i, hi, he⟩ := List.mem_map.1 hm
        exact blt_irrefl _ (he ▸ hB i hi)
    rw [f11] at f9
    rcases List.append_eq_append_iff.1 f9 with ⟨a', x1, x2⟩ | ⟨c', x1, x2⟩
    · cases a' with
      | nil => simp only [List.nil_append, List.cons.injEq] at x2; exact absurd x2.1 hD
      | cons a A2 =>
        simp only [List.cons_append, List.cons.injEq] at x2
        obtain ⟨rfl, x2⟩ := x2
        exact .inr (.inl ⟨hmid, items L, A2, x1, rfl, by rw [f11, x2]⟩)
    · cases c' with
      | nil => simp only [List.nil_append, List.cons.injEq] at x2; exact absurd x2.1.symm hD
      | cons a B1 =>
        simp only [List.cons_append, List.cons.injEq] at x2
        obtain ⟨rfl, x2⟩ := x2
        exact .inl ⟨hmid, B1, R', x2, x1, f11⟩

/-! ## What the way up leaves behind -/

/-- The subtree took the pair. -/
structure OneX (g g' : View) (last last' h : Nat) (n : Nat) (key val : Bytes) : Prop where
  sound : Sound g' h n
  whole : Whole (sight g' h n) (upd (sight g h n) key val) (Unreached g key (4 + key.length + val.length) h n)
  nodup : (pagesOf g' h n).Nodup
  pages : ∀ x ∈ pagesOf g' h n, x ∈ pagesOf g h n ∨ (last < x ∧ x ≤ last')
  keep : ∀ d, ¬ Overflows g key (4 + key.length + val.length) h n d

/-- The subtree took the pair and is now two subtrees. -/
structure TwoX (g g' : View) (last last' h : Nat) (lo hi : Option Bytes) (n : Nat) (key val d : Bytes) (c : Nat) : Prop where
  left : Sound g' h n
  right : Sound g' h c
  gt : GtLo lo d
  lt : LtHi hi d
  halves : Halves (sight g' h n) (sight g' h c) (upd (sight g h n) key val) d
    (Unreached g key (4 + key.length + val.length) h n) (Stray g key (4 + key.length + val.length) h n)
  nodup : (pagesOf g' h n ++ pagesOf g' h c).Nodup
  pages : ∀ x ∈ pagesOf g' h n ++ pagesOf g' h c, x ∈ pagesOf g h n ∨ (last < x ∧ x ≤ last')
  top : ∃ p, g' n = .ok p ∧ items p ≠ [] ∧ ∀ k ∈ keys p, k < d
  over : Overflows g key (4 + key.length + val.length) h n d

/-- The leaf at the bottom. -/
theorem climbX_leaf {al : Alloc} {F : List Nat} {I : Txn → Prop} (hE : Ext al F I) {env : Env} {key val : Bytes}
    (hk : key.length < 65536) (hsz : 4 + key.length + val.length < 65536) {lo hi : Option Bytes} {n : Nat} {t : Txn}
    (hr : t.rdonly = false) (hI : I t) (hw : WFT (getPage env t) 0 lo hi n)
    (hb : n ≤ t.newLast) (hF : n ∉ F) (hd : ∃ p, t.getDirty n = some p)
    (hkey : key ∉ (contents (getPage env t) 0 n).map Prod.fst)
    (hroom : ∀ p, getPage env t n = .ok p → room p < 4 + key.length + val.length + 2)
    (hdiv : Divisible (getPage env t) key (4 + key.length + val.length) 0 n) (h64 : t.newLast + 1 < 2 ^ 64) :
    ∃ t' st d c, climb al t n [] key val = .ok (t', st, d, c) ∧ Evo I [n] t t' ∧ t'.newLast ≤ t.newLast + 1 ∧
      (st = .success → TwoX (getPage env t) (getPage env t') t.newLast t'.newLast 0 lo hi n key val d c ∧
        ∃ p, t'.getDirty n = some p) ∧
      (st = .success ∨ st = .nospc) := by
  obtain ⟨p, hp⟩ := hd
  have hg : getPage env t n = .ok p := getPage_dirty hr hp
  obtain ⟨p', h1, h2, h3, h4, h5, h6⟩ := hw
  rw [hg] at h1; cases h1
  rw [contents_zero hg, ← keys_eq_kvs] at hkey
  obtain ⟨f, hf, A, B, hA, hB, hsp⟩ := probe_spec h3 h5 hk
  have hit : items p = A ++ B := by
    rcases hsp with ⟨it, e1, e2, -⟩ | ⟨e1, -⟩
    · exfalso; apply hkey; unfold keys; rw [e1]; simp [e2]
    · exact e1
  have hcnt : (keys p).countP (· < key) = A.length := by
    unfold keys; rw [hit, List.map_append, countP_mid, List.length_map]
    · intro a ha; obtain ⟨i, hi, rfl⟩ := List.mem_map.1 ha; exact hA i hi
    · intro a ha; obtain ⟨i, hi, rfl⟩ := List.mem_map.1 ha; exact hB i hi
  have h2k := hdiv p hg (hroom p hg)
  obtain ⟨s, t1, st, t2, a1, a2, a3, a4, a5, a6, a7, a8⟩ := splitAll_spec hE hI hb hF hp h2 h3 h5 h64 hit (it := .leaf key val)
    hA hB (by rw [h4]; rfl) (by simpa [Item.size] using hsz) (by simp [Item.child]) hk h2k
  rw [h4] at a1
  refine ⟨t2, st, s.divider, s.no, ?_, a5, by omega, ?_, a7⟩
  · exact climb_nil a1 a2 (splitTxn_pos hE hI hp h3 h4 (by omega) h64 a1) a7
  · rintro rfl
    obtain ⟨L, R, D, b1, b2, b3, b4, b5, b6, b7, b8, b9⟩ := a8 rfl
    have hr2 : t2.rdonly = false := by rw [a5.rdonly, hr]
    have gL := getPage_dirty (env := env) hr2 b1
    have gR := getPage_dirty (env := env) hr2 b2
    have hsort := sorted_mid h5 hit (it := .leaf key val) hA hB
    have hstray : ∀ x, Stray (getPage env t) key (4 + key.length + val.length) 0 n x ↔ (x = key ∧ A.length = numKeys p / 2) := by
      intro x
      constructor
      · rintro ⟨h1, q, h2, -, h4⟩
        rw [hg] at h2; cases h2
        exact ⟨h1, by rw [← hcnt]; exact h4⟩
      · rintro ⟨h1, h2⟩
        exact ⟨h1, p, hg, hroom p hg, by rw [hcnt]; exact h2⟩
    have hkvp : kvs p = A.map (fun i => (i.key, i.val)) ++ B.map (fun i => (i.key, i.val)) := by
      unfold kvs; rw [hit, List.map_append]
    have hAne : ∀ a ∈ A.map (fun i => (i.key, i.val)), a.1 < key := by
      intro a ha; obtain ⟨i, hi, rfl⟩ := List.mem_map.1 ha; exact hA i hi
    have hsortp := h5
    have hDp : ∀ k ∈ keys p, InRange lo hi k := h6
    have hdivm : s.divider ∈ keys p := List.mem_of_getElem? a6
    have hgt : GtLo lo s.divider := by
      intro l hl
      have h0 : (keys p)[0]? = some ((keys p)[0]'(by unfold keys; rw [List.length_map, items_length]; omega)) :=
        List.getElem?_eq_getElem _
      have hlt := List.pairwise_iff_getElem.1 h5 0 (numKeys p / 2)
        (by unfold keys; rw [List.length_map, items_length]; omega) (by unfold keys; rw [List.length_map, items_length]; omega) (by omega)
      have hmid : (keys p)[numKeys p / 2]'(by unfold keys; rw [List.length_map, items_length]; omega) = s.divider := by
        have := List.getElem?_eq_getElem (l := keys p) (i := numKeys p / 2) (by unfold keys; rw [List.length_map, items_length]; omega)
        rw [this] at a6; exact Option.some.inj a6
      rw [hmid] at hlt
      exact gtLo_of_ge (h6 _ (List.getElem_mem _)).1 hlt l hl
    have hparts : Sorted (keys L) ∧ Sorted (keys R) ∧ (∀ k ∈ keys L, k < s.divider) ∧
        Halves (fun x => (kvs L).lookup x) (fun x => (kvs R).lookup x) (upd (fun x => (kvs p).lookup x) key val) s.divider
          (Unreached (getPage env t) key (4 + key.length + val.length) 0 n) (Stray (getPage env t) key (4 + key.length + val.length) 0 n) := by
      rcases b9 with ⟨hne, B1, B2, x1, x2, x3⟩ | ⟨hne, A1, A2, x1, x2, x3⟩ | ⟨heq, B2, x1, x2, x3⟩
      rotate_left 2
      · have hs5 := h5
        unfold keys at hs5
        rw [hit, List.map_append, sorted_append] at hs5
        obtain ⟨sA, sB, sAB⟩ := hs5
        have hRs : Sorted (keys R) := by
          unfold keys; rw [x3, List.map_cons, sorted_cons]
          exact ⟨fun y hy => by obtain ⟨i, hi, rfl⟩ := List.mem_map.1 hy; exact hB i hi, sB⟩
        refine ⟨by unfold keys; rw [x2]; exact sA, hRs, ?_, ?_⟩
        · intro y hy
          unfold keys at hy; rw [x2] at hy
          rw [← b8]
          exact sAB y hy _ (by rw [x1]; simp)
        · have hm := lookup_middle (val := val) (L := A.map fun i => (i.key, i.val)) (R := B.map fun i => (i.key, i.val)) (d := s.divider) hAne (by
              intro a ha
              obtain ⟨i, hi, rfl⟩ := List.mem_map.1 ha
              rw [x1, List.map_cons, sorted_cons] at sB
              rw [x1] at hi
              rw [← b8]
              rcases List.mem_cons.1 hi with rfl | hi
              · exact blt_irrefl _
              · exact blt_asymm (sB.1 _ (List.mem_map_of_mem hi))) (by rw [← b8]; exact hB D (by rw [x1]; simp))
          have e1 : kvs L = A.map fun i => (i.key, i.val) := by unfold kvs; rw [x2]
          have e2 : kvs R = (key, val) :: B.map fun i => (i.key, i.val) := by unfold kvs; rw [x3]; rfl
          rw [e1, e2, hkvp]
          exact hm.congr (fun x => by simp [Unreached]) (fun x => by rw [hstray]; simp [heq])
      all_goals
        have hLR : items L ++ items R = A ++ .leaf key val :: B := by rw [x2, x3, x1]; simp
        rw [← hLR, List.map_append, sorted_append] at hsort
        obtain ⟨sL, sR, sLR⟩ := hsort
        have hDm : s.divider ∈ keys R := by unfold keys; rw [x3, List.map_cons, b8]; exact List.mem_cons_self
        have hLd : ∀ k ∈ keys L, k < s.divider := fun k hk => sLR k hk _ hDm
        have hRd : ∀ k ∈ keys R, ¬ k < s.divider := by
          intro k hk
          unfold keys at hk
          rw [x3, List.map_cons, sorted_cons] at sR
          rw [x3, List.map_cons] at hk
          rcases List.mem_cons.1 hk with rfl | hk
          · rw [b8]; exact blt_irrefl _
          · rw [← b8]; exact blt_asymm (sR.1 k hk)
        refine ⟨sL, sR, hLd, ?_⟩
        have hm := lookup_cut (L := kvs L) (R := kvs R) (d := s.divider)
          (fun a ha => hLd _ (by rw [keys_eq_kvs]; exact List.mem_map_of_mem ha))
          (fun a ha => hRd _ (by rw [keys_eq_kvs]; exact List.mem_map_of_mem ha))
        rw [kvs_eq_of_items hLR] at hm
        have e1 : (fun x => (A.map (fun i => (i.key, i.val)) ++ ((Item.leaf key val).key, (Item.leaf key val).val) :: B.map fun i => (i.key, i.val)).lookup x) =
            upd (fun x => (kvs p).lookup x) key val := by
          funext x
          rw [hkvp]
          exact lookup_insert (fun a ha he => blt_irrefl _ (he ▸ hAne a ha)) x
        rw [e1] at hm
        exact hm.congr (fun x => by simp [Unreached]) (fun x => by rw [hstray]; simp [hne])
    obtain ⟨q1, q2, q3, q4⟩ := hparts
    refine ⟨⟨⟨L, gL, b3, by rw [b5, h4], q1⟩, ⟨R, gR, b4, by rw [b6, h4], q2⟩, hgt, (h6 _ hdivm).2, ?_, ?_, ?_, ⟨L, gL, b7, q3⟩, ⟨p, hg, hroom p hg, a6⟩⟩, L, b1⟩
    · rw [sight_zero gL, sight_zero gR, sight_zero hg]; exact q4
    · simp only [pagesOf, List.singleton_append, List.nodup_cons, List.mem_singleton]
      refine ⟨by omega, by simp⟩
    · intro y hy
      simp only [pagesOf, List.singleton_append, List.mem_cons, List.not_mem_nil, or_false] at hy
      rcases hy with rfl | rfl
      · left; simp [pagesOf]
      · right; omega

end Verif.Db
