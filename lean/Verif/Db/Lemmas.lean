import Verif.Db.Spec
import Verif.Page.Props

/-!
# Helper lemmas: order, pages, chains of children
-/

namespace Verif.Db

open Verif.Page

/-! ## Pages -/

theorem sorted_nil : Sorted [] := List.Pairwise.nil

theorem sorted_append {a b : List Bytes} :
    Sorted (a ++ b) ↔ Sorted a ∧ Sorted b ∧ ∀ x ∈ a, ∀ y ∈ b, x < y := List.pairwise_append

theorem sorted_cons {x : Bytes} {b : List Bytes} :
    Sorted (x :: b) ↔ (∀ y ∈ b, x < y) ∧ Sorted b := List.pairwise_cons

theorem ble_trans {a b c : Bytes} (h : ¬ b < a) (h' : ¬ c < b) : ¬ c < a := by
  rcases blt_total a b with x | x | x
  · rcases blt_total b c with y | y | y
    · exact blt_asymm (blt_trans x y)
    · subst y; exact blt_asymm x
    · exact absurd y h'
  · subst x; exact h'
  · exact absurd x h

theorem lt_of_le_lt {a b c : Bytes} (h : ¬ b < a) (h' : b < c) : a < c := by
  rcases blt_total a b with x | x | x
  · exact blt_trans x h'
  · exact x ▸ h'
  · exact absurd x h

theorem lt_of_lt_le {a b c : Bytes} (h : a < b) (h' : ¬ c < b) : a < c := by
  rcases blt_total b c with x | x | x
  · exact blt_trans h x
  · exact x ▸ h
  · exact absurd x h'

theorem keys_eq_kvs (p : Page) : keys p = (kvs p).map Prod.fst := by simp [keys, kvs]
theorem keys_eq_entries (p : Page) : keys p = (entries p).map Prod.fst := by simp [keys, entries]

@[simp] theorem kvs_length (p : Page) : (kvs p).length = numKeys p := by simp [kvs]
@[simp] theorem entries_length (p : Page) : (entries p).length = numKeys p := by simp [entries]

theorem take_count {key : Bytes} {l : List Bytes} (hs : Sorted l) :
    ∀ x ∈ l.take (l.countP (· < key)), x < key := by
  induction l with
  | nil => simp
  | cons a l ih =>
    intro x hx
    rw [sorted_cons] at hs
    by_cases c : a < key
    · rw [List.countP_cons_of_pos (by simpa using c), List.take_succ_cons, List.mem_cons] at hx
      rcases hx with rfl | hx
      · exact c
      · exact ih hs.2 x hx
    · exfalso
      have h0 : l.countP (· < key) = 0 := by
        rw [List.countP_eq_zero]
        intro y hy; simp only [decide_eq_true_eq]
        intro hlt; exact c (blt_trans (hs.1 y hy) hlt)
      rw [List.countP_cons_of_neg (by simpa using c), h0] at hx
      simp at hx

theorem drop_count {key : Bytes} {l : List Bytes} (hs : Sorted l) (hn : key ∉ l) :
    ∀ x ∈ l.drop (l.countP (· < key)), key < x := by
  induction l with
  | nil => simp
  | cons a l ih =>
    intro x hx
    rw [sorted_cons] at hs
    by_cases c : a < key
    · rw [List.countP_cons_of_pos (by simpa using c), List.drop_succ_cons] at hx
      exact ih hs.2 (fun h => hn (List.mem_cons_of_mem _ h)) x hx
    · have hlt : key < a := by
        rcases blt_total a key with y | y | y
        · exact absurd y c
        · exact absurd (y ▸ List.mem_cons_self) hn
        · exact y
      have h0 : l.countP (· < key) = 0 := by
        rw [List.countP_eq_zero]
        intro y hy; simp only [decide_eq_true_eq]
        intro hlt; exact c (blt_trans (hs.1 y hy) hlt)
      rw [List.countP_cons_of_neg (by simpa using c), h0, List.drop_zero, List.mem_cons] at hx
      rcases hx with rfl | hx
      · exact hlt
      · exact blt_trans hlt (hs.1 x hx)

/-- Where a key belongs in a page: `f` splits the items. -/
def Splits (p : Page) (key : Bytes) (f : Found) : Prop :=
  ∃ A B, (∀ a ∈ A, a.key < key) ∧ (∀ b ∈ B, key < b.key) ∧
    ((∃ it, items p = A ++ it :: B ∧ it.key = key ∧ f = .found A.length) ∨
     (items p = A ++ B ∧ f = .notFound A.length))

theorem probe_spec {p : Page} (wf : WF p) (hs : Sorted (keys p)) {key : Bytes} (hk : key.length < 65536) :
    ∃ f, probe p key = .ok f ∧ Splits p key f := by
  obtain ⟨r, -, -, hr, -, h1, h2⟩ := search_finds_partial wf hs hk
  have hp : probe p key = .ok r := by unfold probe; rw [hr]; rfl
  refine ⟨r, hp, ?_⟩
  by_cases hm : key ∈ keys p
  · obtain ⟨i, rfl, hi⟩ := h1 hm
    obtain ⟨hi', he⟩ := List.getElem?_eq_some_iff.1 hi
    have hil : i < (items p).length := by simpa using hi'
    have hd : items p = (items p).take i ++ (items p)[i] :: (items p).drop (i + 1) := by
      rw [List.getElem_cons_drop, List.take_append_drop]
    have hke : ((items p)[i]).key = key := by rw [← he]; simp [keys]
    rw [keys, hd, List.map_append, List.map_cons, sorted_append, sorted_cons] at hs
    obtain ⟨-, ⟨hb, -⟩, ha⟩ := hs
    refine ⟨_, _, ?_, ?_, .inl ⟨_, hd, hke, ?_⟩⟩
    · intro a h; rw [← hke]; exact ha _ (List.mem_map_of_mem h) _ List.mem_cons_self
    · intro b h; rw [← hke]; exact hb _ (List.mem_map_of_mem h)
    · rw [List.length_take, Nat.min_eq_left (by omega)]
  · obtain rfl := h2 hm
    have h1 := take_count (key := key) hs
    have h2 := drop_count hs hm
    have hle : (keys p).countP (· < key) ≤ (items p).length := by
      have := List.countP_le_length (p := (· < key)) (l := keys p); simpa using this
    generalize (keys p).countP (· < key) = n at h1 h2 hle
    refine ⟨(items p).take n, (items p).drop n, ?_, ?_, .inr ⟨?_, ?_⟩⟩
    · intro a ha
      apply h1
      rw [keys, ← List.map_take]
      exact List.mem_map_of_mem ha
    · intro a ha
      apply h2
      rw [keys, ← List.map_drop]
      exact List.mem_map_of_mem ha
    · rw [List.take_append_drop]
    · rw [List.length_take, Nat.min_eq_left hle]

theorem items_branch {p : Page} (h : isLeaf p = false) :
    items p = (entries p).map fun e => .branch e.1 e.2 := by
  unfold entries items
  rw [List.map_map, List.map_map]
  apply List.map_congr_left
  intro i _
  simp only [Function.comp, itemAt, h, Bool.false_eq_true, if_false, Item.key, Item.child]

theorem items_leaf {p : Page} (h : isLeaf p = true) :
    items p = (kvs p).map fun e => .leaf e.1 e.2 := by
  unfold kvs items
  rw [List.map_map, List.map_map]
  apply List.map_congr_left
  intro i _
  simp only [Function.comp, itemAt, h, if_true, Item.key, Item.val]

theorem entries_of_items {p : Page} {l : List (Bytes × Nat)}
    (h : items p = l.map fun e => .branch e.1 e.2) : entries p = l := by
  unfold entries
  rw [h, List.map_map]
  conv => rhs; rw [← List.map_id l]
  apply List.map_congr_left
  intro e _; rfl

theorem kvs_of_items {p : Page} {l : List (Bytes × Bytes)}
    (h : items p = l.map fun e => .leaf e.1 e.2) : kvs p = l := by
  unfold kvs
  rw [h, List.map_map]
  conv => rhs; rw [← List.map_id l]
  apply List.map_congr_left
  intro e _; rfl

/-- The child page number of entry `i`. -/
theorem child_spec {p : Page} (wf : WF p) (hl : isLeaf p = false) {A : List (Bytes × Nat)} {k : Bytes} {c : Nat}
    {B : List (Bytes × Nat)} (h : entries p = A ++ (k, c) :: B) : child p A.length = .ok c := by
  have hn : A.length < numKeys p := by
    rw [← entries_length, h]; simp
  have hin := wf.inside _ hn
  have hlow := wf.low
  have hgap := wf.gap
  have htop := wf.top
  have hb := baseSize_le p (isLeaf p) (slot p A.length)
  rw [hl] at hb hin
  simp only [hdrSize, pageSize, baseSize, Bool.false_eq_true, if_false] at *
  unfold child
  rw [rdSlot_ok (by simp only [hdrSize, pageSize]; omega), Res.ok_bind, chk_ok (by simp only [pageSize]; omega), Res.ok_bind]
  have he : (entries p)[A.length]? = some (k, c) := by rw [h]; simp
  unfold entries items at he
  rw [List.getElem?_map, List.getElem?_map, List.getElem?_range hn] at he
  simp only [Option.map_some, Option.some.injEq, Prod.mk.injEq, itemAt, hl, Bool.false_eq_true, if_false, Item.child] at he
  rw [he.2]

/-- Key and value of leaf entry `i`. -/
theorem leafNode_spec {p : Page} (wf : WF p) (hl : isLeaf p = true) {i : Nat} {kv : Bytes × Bytes}
    (h : (kvs p)[i]? = some kv) : leafNode p i = .ok kv := by
  have hn : i < numKeys p := by
    have := (List.getElem?_eq_some_iff.1 h).1; simpa using this
  have hin := wf.inside _ hn
  have hlow := wf.low
  have hgap := wf.gap
  have htop := wf.top
  rw [hl] at hin
  simp only [nodeSize, hdrSize, pageSize, baseSize, if_true] at *
  unfold leafNode
  rw [rdSlot_ok (by simp only [hdrSize, pageSize]; omega), Res.ok_bind, chk_ok (by simp only [pageSize]; omega), Res.ok_bind]
  simp only []
  rw [chk_ok (by simp only [pageSize]; omega), Res.ok_bind]
  unfold kvs items at h
  rw [List.getElem?_map, List.getElem?_map, List.getElem?_range hn] at h
  simp only [Option.map_some, Option.some.injEq, itemAt, hl, if_true, Item.key, Item.val] at h
  rw [← h]
  simp only [nodeKs, nodeDs, ksOff, if_true, Nat.add_zero]

theorem childIdx_spec {p : Page} (wf : WF p) (hl : isLeaf p = false) (hs : Sorted (keys p)) (h0 : entries p ≠ [])
    {key : Bytes} (hk : key.length < 65536) :
    ∃ A k c B, Routes p key A k c B ∧ childIdx p key = .ok A.length ∧ child p A.length = .ok c := by
  obtain ⟨f, hf, A, B, hA, hB, hsp⟩ := probe_spec wf hs hk
  have hit := items_branch hl
  have hnk : numKeys p = (items p).length := by simp
  suffices h : ∃ A k c B, Routes p key A k c B ∧ childIdx p key = .ok A.length by
    obtain ⟨A, k, c, B, h1, h2⟩ := h
    exact ⟨A, k, c, B, h1, h2, child_spec wf hl h1.1⟩
  unfold childIdx
  rw [hf, Res.ok_bind]
  have hmap : ∀ {A it B}, items p = A ++ it :: B → entries p = A.map (fun it => (it.key, it.child)) ++ (it.key, it.child) :: B.map (fun it => (it.key, it.child)) := by
    intro A it B h; unfold entries; rw [h]; simp
  rcases hsp with ⟨it, he, hkey, rfl⟩ | ⟨he, rfl⟩
  · refine ⟨_, _, _, _, ⟨hmap he, .inr ?_, ?_⟩, ?_⟩
    · rw [hkey]; exact blt_irrefl _
    · intro e hm
      obtain ⟨b, hb, rfl⟩ := List.mem_map.1 hm
      exact hB b hb
    · simp only []
      rw [hnk, he, if_neg (by simp), List.length_map]
  · simp only []
    rcases List.eq_nil_or_concat A with rfl | ⟨A', a, rfl⟩
    · cases B with
      | nil => exfalso; apply h0; unfold entries; rw [he]; rfl
      | cons b B' =>
        refine ⟨[], b.key, b.child, B'.map fun it => (it.key, it.child), ⟨?_, .inl rfl, ?_⟩, ?_⟩
        · have := hmap (A := []) he; simpa using this
        · intro e hm
          obtain ⟨b', hb, rfl⟩ := List.mem_map.1 hm
          exact hB b' (List.mem_cons_of_mem _ hb)
        · rw [hnk, he, if_neg (by simp)]; rfl
    · rw [List.concat_eq_append] at he hA
      have he' : items p = A' ++ a :: B := by rw [he]; simp
      refine ⟨_, _, _, _, ⟨hmap he', .inr ?_, ?_⟩, ?_⟩
      · exact blt_asymm (hA a (by simp))
      · intro e hm
        obtain ⟨b, hb, rfl⟩ := List.mem_map.1 hm
        exact hB b hb
      · have hc : (A'.concat a).length = A'.length + 1 := by simp
        have hlen : (A' ++ a :: B).length = A'.length + B.length + 1 := by simp; omega
        have hi : (if 0 < A'.length + 1 then A'.length + 1 - 1 else A'.length + 1) = A'.length := by
          rw [if_pos (by omega)]; rfl
        rw [hnk, he', hc, hi, hlen, if_neg (by omega), List.length_map]

/-! ## Chains of children -/

theorem GtLo.ge {lo : Option Bytes} {k : Bytes} (h : GtLo lo k) : GeLo lo k :=
  fun l hl => blt_asymm (h l hl)

theorem gtLo_trans {lo : Option Bytes} {a b : Bytes} (h : GtLo lo a) (h' : a < b) : GtLo lo b :=
  fun l hl => blt_trans (h l hl) h'

theorem gtLo_of_ge {lo : Option Bytes} {a b : Bytes} (h : GeLo lo a) (h' : a < b) : GtLo lo b :=
  fun l hl => lt_of_le_lt (h l hl) h'

theorem ltHi_trans {hi : Option Bytes} {a b : Bytes} (h : LtHi hi b) (h' : a < b) : LtHi hi a :=
  fun u hu => blt_trans h' (h u hu)

theorem ltHi_of_le {hi : Option Bytes} {a b : Bytes} (h : LtHi hi b) (h' : ¬ b < a) : LtHi hi a :=
  fun u hu => lt_of_le_lt h' (h u hu)

theorem gtLo_some {a b : Bytes} : GtLo (some a) b ↔ a < b :=
  ⟨fun h => h a rfl, fun h l e => by cases e; exact h⟩

theorem geLo_some {a b : Bytes} : GeLo (some a) b ↔ ¬ b < a :=
  ⟨fun h => h a rfl, fun h l e => by cases e; exact h⟩

theorem ltHi_some {a b : Bytes} : LtHi (some a) b ↔ b < a :=
  ⟨fun h => h a rfl, fun h l e => by cases e; exact h⟩

theorem chain_append {R : Option Bytes → Option Bytes → Nat → Prop} {lo hi : Option Bytes} {c : Nat}
    {A : List (Bytes × Nat)} {k : Bytes} {c' : Nat} {B : List (Bytes × Nat)} :
    Chain R lo hi c (A ++ (k, c') :: B) ↔
      Chain R lo (some k) c A ∧ GtLo lo k ∧ LtHi hi k ∧ Chain R (some k) hi c' B := by
  induction A generalizing lo c with
  | nil => simp [Chain]
  | cons e A ih =>
    obtain ⟨a, ca⟩ := e
    simp only [List.cons_append, Chain, ih, gtLo_some, ltHi_some]
    constructor
    · rintro ⟨h1, h2, h3, h4, h5, h6, h7⟩
      exact ⟨⟨h1, h2, h5, h4⟩, gtLo_trans h2 h5, h6, h7⟩
    · rintro ⟨⟨h1, h2, h5, h4⟩, -, h6, h7⟩
      exact ⟨h1, h2, ltHi_trans h6 h5, h4, h5, h6, h7⟩

theorem chain_mono {R R' : Option Bytes → Option Bytes → Nat → Prop} {lo hi : Option Bytes} {c : Nat}
    {A : List (Bytes × Nat)} (h : Chain R lo hi c A)
    (hm : ∀ l u x, x = c ∨ x ∈ A.map Prod.snd → R l u x → R' l u x) : Chain R' lo hi c A := by
  induction A generalizing lo c with
  | nil => exact hm _ _ _ (.inl rfl) h
  | cons e A ih =>
    obtain ⟨a, ca⟩ := e
    obtain ⟨h1, h2, h3, h4⟩ := h
    refine ⟨hm _ _ _ (.inl rfl) h1, h2, h3, ih h4 ?_⟩
    intro l u x hx
    apply hm
    rcases hx with rfl | hx
    · exact .inr (by simp)
    · exact .inr (by simp only [List.map_cons, List.mem_cons]; exact .inr hx)

theorem kids_mono {R R' : Option Bytes → Option Bytes → Nat → Prop} {lo hi : Option Bytes}
    {A : List (Bytes × Nat)} (h : Kids R lo hi A)
    (hm : ∀ l u x, x ∈ A.map Prod.snd → R l u x → R' l u x) : Kids R' lo hi A := by
  match A, h with
  | (k, c) :: A, h =>
    exact chain_mono h fun l u x hx => hm l u x (by simpa using hx)

/-- Lower bound of the child after the entries `A`. -/
def loOf (lo : Option Bytes) (A : List (Bytes × Nat)) (k : Bytes) : Option Bytes :=
  if A = [] then lo else some k

/-- Upper bound of the child before the entries `B`. -/
def hiOf (hi : Option Bytes) : List (Bytes × Nat) → Option Bytes
  | [] => hi
  | (k, _) :: _ => some k

theorem chain_head {R : Option Bytes → Option Bytes → Nat → Prop} {lo hi : Option Bytes} {c : Nat}
    {B : List (Bytes × Nat)} (h : Chain R lo hi c B) : R lo (hiOf hi B) c := by
  cases B with
  | nil => exact h
  | cons e B => exact h.1

theorem chain_set {R : Option Bytes → Option Bytes → Nat → Prop} {lo hi : Option Bytes} {c c' : Nat}
    {B : List (Bytes × Nat)} (h : Chain R lo hi c B) (h' : R lo (hiOf hi B) c') : Chain R lo hi c' B := by
  cases B with
  | nil => exact h'
  | cons e B => exact ⟨h', h.2⟩

theorem chain_add {R : Option Bytes → Option Bytes → Nat → Prop} {lo hi : Option Bytes} {c c' : Nat} {d : Bytes}
    {B : List (Bytes × Nat)} (h : Chain R lo hi c B) (hc : R lo (some d) c) (hc' : R (some d) (hiOf hi B) c')
    (h1 : GtLo lo d) (h2 : LtHi (hiOf hi B) d) : Chain R lo hi c ((d, c') :: B) := by
  cases B with
  | nil => exact ⟨hc, h1, h2, hc'⟩
  | cons e B =>
    obtain ⟨k, x⟩ := e
    obtain ⟨-, h4, h5, h6⟩ := h
    have h2' : d < k := h2 k rfl
    exact ⟨hc, h1, ltHi_trans h5 h2', hc', gtLo_some.2 h2', h5, h6⟩

/-- Looking at one child: its range, and what is needed to put the children back together after
changing that child (or after splitting it in two). -/
theorem kids_focus {R : Option Bytes → Option Bytes → Nat → Prop} {lo hi : Option Bytes}
    {A : List (Bytes × Nat)} {k : Bytes} {c : Nat} {B : List (Bytes × Nat)}
    (h : Kids R lo hi (A ++ (k, c) :: B)) :
    R (loOf lo A k) (hiOf hi B) c ∧
    (∀ R' : Option Bytes → Option Bytes → Nat → Prop,
      (∀ l u x, x ∈ A.map Prod.snd ∨ x ∈ B.map Prod.snd → R l u x → R' l u x) →
      (R' (loOf lo A k) (hiOf hi B) c → Kids R' lo hi (A ++ (k, c) :: B)) ∧
      (∀ d c', R' (loOf lo A k) (some d) c → R' (some d) (hiOf hi B) c' →
        GtLo (loOf lo A k) d → LtHi (hiOf hi B) d → Kids R' lo hi (A ++ (k, c) :: (d, c') :: B))) := by
  cases A with
  | nil =>
    refine ⟨chain_head h, fun R' hm => ⟨fun h' => ?_, fun d c' h1 h2 h3 h4 => ?_⟩⟩
    · cases B with
      | nil => exact h'
      | cons e B =>
        obtain ⟨k', x⟩ := e
        exact ⟨h', h.2.1, h.2.2.1, chain_mono h.2.2.2 fun l u y hy => hm l u y (.inr (by simpa using hy))⟩
    · show Chain R' lo hi c ((d, c') :: B)
      cases B with
      | nil => exact ⟨h1, h3, h4, h2⟩
      | cons e B =>
        obtain ⟨k', x⟩ := e
        have h4' : d < k' := h4 k' rfl
        exact ⟨h1, h3, ltHi_trans h.2.2.1 h4', h2, gtLo_some.2 h4', h.2.2.1,
          chain_mono h.2.2.2 fun l u y hy => hm l u y (.inr (by simpa using hy))⟩
  | cons e A =>
    obtain ⟨a, ca⟩ := e
    have h0 : Chain R lo hi ca (A ++ (k, c) :: B) := h
    rw [chain_append] at h0
    obtain ⟨h1, h2, h3, h4⟩ := h0
    have hl : loOf lo ((a, ca) :: A) k = some k := rfl
    rw [hl]
    refine ⟨chain_head h4, fun R' hm => ⟨fun h' => ?_, fun d c' h5 h6 h7 h8 => ?_⟩⟩
    · show Chain R' lo hi ca (A ++ (k, c) :: B)
      rw [chain_append]
      refine ⟨chain_mono h1 fun l u y hy => hm l u y (.inl (by simpa using hy)), h2, h3, ?_⟩
      cases B with
      | nil => exact h'
      | cons e B =>
        obtain ⟨k', x⟩ := e
        exact ⟨h', h4.2.1, h4.2.2.1, chain_mono h4.2.2.2 fun l u y hy => hm l u y (.inr (by simpa using hy))⟩
    · show Chain R' lo hi ca (A ++ (k, c) :: (d, c') :: B)
      rw [chain_append]
      refine ⟨chain_mono h1 fun l u y hy => hm l u y (.inl (by simpa using hy)), h2, h3, ?_⟩
      cases B with
      | nil => exact ⟨h5, h7, h8, h6⟩
      | cons e B =>
        obtain ⟨k', x⟩ := e
        have h4' : d < k' := h8 k' rfl
        exact ⟨h5, h7, ltHi_trans h4.2.2.1 h4', h6, gtLo_some.2 h4', h4.2.2.1,
          chain_mono h4.2.2.2 fun l u y hy => hm l u y (.inr (by simpa using hy))⟩

/-- Cutting the children in two. -/
theorem kids_split {R : Option Bytes → Option Bytes → Nat → Prop} {lo hi : Option Bytes}
    {A : List (Bytes × Nat)} {d : Bytes} {c : Nat} {B : List (Bytes × Nat)} (hA : A ≠ [])
    (h : Kids R lo hi (A ++ (d, c) :: B)) :
    Kids R lo (some d) A ∧ Kids R (some d) hi ((d, c) :: B) ∧ GtLo lo d ∧ LtHi hi d := by
  match A, hA with
  | (a, ca) :: A, _ =>
    have h0 : Chain R lo hi ca (A ++ (d, c) :: B) := h
    rw [chain_append] at h0
    exact ⟨h0.1, h0.2.2.2, h0.2.1, h0.2.2.1⟩

theorem inRange_child {lo hi : Option Bytes} {key : Bytes} (h : InRange lo hi key) {A : List (Bytes × Nat)}
    {k : Bytes} {B : List (Bytes × Nat)} (hA : A = [] ∨ ¬ key < k) (hB : ∀ e ∈ B, key < e.1) :
    InRange (loOf lo A k) (hiOf hi B) key := by
  constructor
  · unfold loOf
    split
    · exact h.1
    · rcases hA with hA | hA
      · contradiction
      · exact geLo_some.2 hA
  · cases B with
    | nil => exact h.2
    | cons e B => exact ltHi_some.2 (hB e List.mem_cons_self)

/-- The range of a child lies inside the range of the page. -/
theorem kids_widen {R : Option Bytes → Option Bytes → Nat → Prop} {lo hi : Option Bytes}
    {A : List (Bytes × Nat)} {k : Bytes} {c : Nat} {B : List (Bytes × Nat)}
    (h : Kids R lo hi (A ++ (k, c) :: B)) {x : Bytes} :
    (GeLo (loOf lo A k) x → GeLo lo x) ∧ (GtLo (loOf lo A k) x → GtLo lo x) ∧ (LtHi (hiOf hi B) x → LtHi hi x) := by
  have hhi : LtHi (hiOf hi B) x → LtHi hi x := by
    intro hx
    cases B with
    | nil => exact hx
    | cons e B =>
      obtain ⟨k', y⟩ := e
      have hx' : x < k' := hx k' rfl
      cases A with
      | nil => exact ltHi_trans h.2.2.1 hx'
      | cons a A =>
        have h0 : Chain R lo hi a.2 (A ++ (k, c) :: (k', y) :: B) := h
        rw [chain_append] at h0
        exact ltHi_trans h0.2.2.2.2.2.1 hx'
  cases A with
  | nil => exact ⟨id, id, hhi⟩
  | cons a A =>
    have h0 : Chain R lo hi a.2 (A ++ (k, c) :: B) := h
    rw [chain_append] at h0
    refine ⟨fun hx => ?_, fun hx => ?_, hhi⟩
    · have : ¬ x < k := geLo_some.1 hx
      intro l hl
      exact fun hlt => this (blt_trans hlt (h0.2.1 l hl))
    · have : k < x := gtLo_some.1 hx
      exact gtLo_trans h0.2.1 this

end Verif.Db
