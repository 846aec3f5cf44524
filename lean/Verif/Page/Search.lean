import Verif.Page.Split

/-!
# Key order and binary search: helper lemmas
-/

namespace Verif.Page

theorem u8_lt {a b : UInt8} : a < b ↔ a.toNat < b.toNat := UInt8.lt_iff_toNat_lt

theorem keyCompare_lt (a b : Bytes) : keyCompare a b = .lt ↔ a < b := by
  induction a generalizing b with
  | nil => cases b <;> simp [keyCompare]
  | cons x xs ih =>
    cases b with
    | nil => simp [keyCompare]
    | cons y ys =>
      rw [keyCompare, List.cons_lt_cons_iff, u8_lt]
      by_cases h1 : x.toNat < y.toNat
      · simp [h1]
      · by_cases h2 : y.toNat < x.toNat
        · have : x ≠ y := by intro h; subst h; omega
          simp [h1, h2, this]
        · have : x = y := UInt8.toNat_inj.1 (by omega)
          simp [this, ih]

theorem keyCompare_swap (a b : Bytes) : keyCompare b a = (keyCompare a b).swap := by
  induction a generalizing b with
  | nil => cases b <;> simp [keyCompare]
  | cons x xs ih =>
    cases b with
    | nil => simp [keyCompare]
    | cons y ys =>
      rw [keyCompare, keyCompare]
      by_cases h1 : x.toNat < y.toNat
      · rw [if_neg (by omega), if_pos h1, if_pos h1]; rfl
      · by_cases h2 : y.toNat < x.toNat
        · rw [if_pos h2, if_neg h1, if_pos h2]; rfl
        · rw [if_neg h2, if_neg h1, if_neg h1, if_neg h2, ih]

theorem keyCompare_gt (a b : Bytes) : keyCompare a b = .gt ↔ b < a := by
  rw [← keyCompare_lt b a, keyCompare_swap a b]
  cases keyCompare a b <;> simp [Ordering.swap]

theorem keyCompare_eq (a b : Bytes) : keyCompare a b = .eq ↔ a = b := by
  induction a generalizing b with
  | nil => cases b <;> simp [keyCompare]
  | cons x xs ih =>
    cases b with
    | nil => simp [keyCompare]
    | cons y ys =>
      rw [keyCompare]
      by_cases h1 : x.toNat < y.toNat
      · have : x ≠ y := by intro h; subst h; omega
        simp [h1, this]
      · by_cases h2 : y.toNat < x.toNat
        · have : x ≠ y := by intro h; subst h; omega
          simp [h1, h2, this]
        · have : x = y := UInt8.toNat_inj.1 (by omega)
          simp [this, ih]

theorem blt_trans {a b c : Bytes} (h : a < b) (h' : b < c) : a < c := List.lt_trans h h'

theorem blt_irrefl (a : Bytes) : ¬ a < a := List.lt_irrefl a

theorem blt_total (a b : Bytes) : a < b ∨ a = b ∨ b < a := by
  cases h : keyCompare a b with
  | lt => exact .inl ((keyCompare_lt a b).1 h)
  | eq => exact .inr (.inl ((keyCompare_eq a b).1 h))
  | gt => exact .inr (.inr ((keyCompare_gt a b).1 h))

theorem blt_asymm {a b : Bytes} (h : a < b) : ¬ b < a := fun h' => blt_irrefl a (blt_trans h h')

@[simp] theorem keys_length (p : Page) : (keys p).length = numKeys p := by simp [keys]

theorem keys_getElem {p : Page} {i : Nat} (h : i < (keys p).length) :
    (keys p)[i] = (itemAt p (isLeaf p) (slot p i)).key := by
  simp [keys, items_getElem]

theorem cmpAt_spec {p : Page} (wf : WF p) {key : Bytes} (hk : key.length < 65536) {i : Nat}
    (hi : i < numKeys p) : cmpAt p (isLeaf p) key i = .ok (keyCompare key ((keys p)[i]'(by simpa using hi))) := by
  have hin := wf.inside i hi
  have hlow := wf.low
  have hgap := wf.gap
  have htop := wf.top
  have hns : nodeSize p (isLeaf p) (slot p i) =
    baseSize (isLeaf p) + nodeKs p (isLeaf p) (slot p i) + nodeDs p (isLeaf p) (slot p i) := rfl
  unfold cmpAt
  have ht : key.take (key.length % 65536) = key := by
    rw [Nat.mod_eq_of_lt hk, List.take_length]
  simp only [ht]
  rw [rdSlot_ok (by omega), Res.ok_bind, chk_ok (by omega), Res.ok_bind, chk_ok (by omega), Res.ok_bind,
    keys_getElem, itemAt_key]

theorem sorted_lt {ks : List Bytes} (h : Sorted ks) {i j : Nat} (hij : i < j) (hj : j < ks.length) :
    ks[i]'(by omega) < ks[j] := List.pairwise_iff_getElem.1 h i j (by omega) hj hij

theorem searchLoop_spec {p : Page} (wf : WF p) (hs : Sorted (keys p)) {key : Bytes}
    (hk : key.length < 65536) (left right : Nat) (probes : List Nat) :
    left ≤ right → right ≤ numKeys p →
    (∀ i, i < left → (h : i < (keys p).length) → (keys p)[i] < key) →
    (∀ i, right ≤ i → (h : i < (keys p).length) → key < (keys p)[i]) →
    ∃ r t, searchLoop p (isLeaf p) key left right probes = .ok (r, probes ++ t) ∧
      (∀ i ∈ t, i < numKeys p) ∧
      ((∃ i, r = .found i ∧ ∃ h : i < (keys p).length, (keys p)[i] = key) ∨
       (∃ i, i ≤ numKeys p ∧ r = .notFound i ∧
        (∀ j, j < i → (h : j < (keys p).length) → (keys p)[j] < key) ∧
        (∀ j, i ≤ j → (h : j < (keys p).length) → key < (keys p)[j]))) := by
  fun_induction searchLoop p (isLeaf p) key left right probes with
  | case1 left right probes h mid hm =>
    intro _ hr _ _
    rw [cmpAt_spec wf hk (show mid < numKeys p by omega)] at hm
    cases hm
  | case2 left right probes h mid hm =>
    intro _ hr _ _
    rw [cmpAt_spec wf hk (show mid < numKeys p by omega)] at hm
    cases hm
  | case3 left right probes h mid hm =>
    intro _ hr _ _
    have hmid : mid < numKeys p := by omega
    rw [cmpAt_spec wf hk hmid] at hm
    injection hm with hm
    refine ⟨.found mid, [mid], rfl, by simpa using hmid, .inl ⟨mid, rfl, by simpa using hmid, ?_⟩⟩
    exact ((keyCompare_eq _ _).1 hm).symm
  | case4 left right probes h mid hm ih =>
    intro hlr hr hl hg
    have hmid : mid < numKeys p := by omega
    rw [cmpAt_spec wf hk hmid] at hm
    injection hm with hm
    have hlt := (keyCompare_lt _ _).1 hm
    obtain ⟨r, t, h1, h2, h3⟩ := ih (by omega) (by omega) hl (by
      intro i hi hi2
      by_cases c : i = mid
      · subst c; exact hlt
      · exact blt_trans hlt (sorted_lt hs (by omega) hi2))
    refine ⟨r, mid :: t, by rw [h1, List.append_assoc]; rfl, ?_, h3⟩
    intro i hi
    rcases List.mem_cons.1 hi with rfl | hi
    · exact hmid
    · exact h2 i hi
  | case5 left right probes h mid hm ih =>
    intro hlr hr hl hg
    have hmid : mid < numKeys p := by omega
    rw [cmpAt_spec wf hk hmid] at hm
    injection hm with hm
    have hlt := (keyCompare_gt _ _).1 hm
    obtain ⟨r, t, h1, h2, h3⟩ := ih (by omega) (by omega) (by
      intro i hi hi2
      by_cases c : i = mid
      · subst c; exact hlt
      · exact blt_trans (sorted_lt hs (show i < mid by omega) (by simpa using hmid)) hlt) hg
    refine ⟨r, mid :: t, by rw [h1, List.append_assoc]; rfl, ?_, h3⟩
    intro i hi
    rcases List.mem_cons.1 hi with rfl | hi
    · exact hmid
    · exact h2 i hi
  | case6 left right probes h =>
    intro hlr hr hl hg
    refine ⟨.notFound left, [], by simp, by simp, .inr ⟨left, by omega, rfl, hl, ?_⟩⟩
    intro j hj hj2
    exact hg j (by omega) hj2

/-- Each probe at least halves what is left. -/
theorem searchLoop_few (p : Page) (leaf : Bool) (key : Bytes) (left right : Nat) (probes : List Nat) :
    ∀ r t, searchLoop p leaf key left right probes = .ok (r, t) →
      2 ^ t.length ≤ 2 ^ probes.length * max 1 (2 * (right - left)) := by
  fun_induction searchLoop p leaf key left right probes with
  | case1 | case2 => intro r t e; cases e
  | case3 left right probes h mid hm =>
    intro r t e
    cases e
    rw [List.length_append, List.length_singleton, Nat.pow_succ]
    exact Nat.mul_le_mul_left _ (by omega)
  | case4 left right probes h mid hm ih =>
    intro r t e
    refine Nat.le_trans (ih r t e) ?_
    rw [List.length_append, List.length_singleton, Nat.pow_succ, Nat.mul_assoc]
    exact Nat.mul_le_mul_left _ (by omega)
  | case5 left right probes h mid hm ih =>
    intro r t e
    refine Nat.le_trans (ih r t e) ?_
    rw [List.length_append, List.length_singleton, Nat.pow_succ, Nat.mul_assoc]
    exact Nat.mul_le_mul_left _ (by omega)
  | case6 left right probes h =>
    intro r t e
    cases e
    exact Nat.le_mul_of_pos_right _ (by omega)

theorem countP_at {ks : List Bytes} {key : Bytes} {i : Nat} (hi : i ≤ ks.length)
    (h1 : ∀ j, j < i → (h : j < ks.length) → ks[j] < key)
    (h2 : ∀ j, i ≤ j → (h : j < ks.length) → key < ks[j]) :
    ks.countP (· < key) = i := by
  rw [← List.take_append_drop i ks, List.countP_append]
  have a : (ks.take i).countP (· < key) = i := by
    have hl : (ks.take i).length = i := by rw [List.length_take]; omega
    conv => rhs; rw [← hl]
    rw [List.countP_eq_length]
    intro x hx
    obtain ⟨j, hj, rfl⟩ := List.mem_iff_getElem.1 hx
    rw [List.getElem_take]
    rw [hl] at hj
    simpa using h1 j hj (by omega)
  have b : (ks.drop i).countP (· < key) = 0 := by
    rw [List.countP_eq_zero]
    intro x hx
    obtain ⟨j, hj, rfl⟩ := List.mem_iff_getElem.1 hx
    rw [List.getElem_drop]
    rw [List.length_drop] at hj
    simpa using blt_asymm (h2 (i + j) (by omega) (by omega))
  omega

end Verif.Page
