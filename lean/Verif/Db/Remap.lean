import Verif.Db.Commit
import Verif.Page.Props

/-!
# The children of the pages written by a commit (C50)

In the transactions of the model pages keep their numbers, so that the map is the identity.  Here it is arbitrary.
-/

namespace Verif.Db

open Verif.Page

/-- The entry with another child. -/
def withChild (m : Nat → Nat) : Item → Item
  | .leaf k v => .leaf k v
  | .branch k c => .branch k (m c)

/-- One pointer is replaced. -/
theorem put_child {p : Page} (wf : WF p) (hl : isLeaf p = false) {i : Nat} (hi : i < numKeys p) {v : Nat} (hv : v < 2 ^ 64) :
    let q := put64 p (slot p i) v
    WF q ∧ isLeaf q = false ∧ numKeys q = numKeys p ∧ pgno q = pgno p ∧ (∀ j, j < numKeys p → slot q j = slot p j) ∧
    (∀ j, j < numKeys p → j ≠ i → itemAt q false (slot p j) = itemAt p false (slot p j)) ∧
    itemAt q false (slot p i) = withChild (fun _ => v) (itemAt p false (slot p i)) := by
  intro q
  have hin := wf.inside
  rw [hl] at hin
  have hap := wf.apart
  rw [hl] at hap
  have low := wf.low
  have gap := wf.gap
  unfold hdrSize at low
  have hns : ∀ j, nodeSize p false (slot p j) = 10 + u16 p (slot p j + 8) := fun j => by simp [nodeSize, baseSize, nodeKs, nodeDs, ksOff]
  have hi1 := hin i hi
  have hh : ∀ o, o + 2 ≤ 18 + 2 * numKeys p → u16 q o = u16 p o := fun o ho => u16_put64_out (Or.inl (by omega))
  have hfl : flags q = flags p := hh 8 (by omega)
  have hnk : numKeys q = numKeys p := hh 10 (by omega)
  have hlo : lower q = lower p := hh 12 (by omega)
  have hup : upper q = upper p := hh 14 (by omega)
  have hleaf : isLeaf q = false := by rw [isLeaf_congr hfl]; exact hl
  have hsl : ∀ j, j < numKeys p → slot q j = slot p j := fun j hj => hh _ (by unfold hdrSize; omega)
  have hks : ∀ j, j < numKeys p → u16 q (slot p j + 8) = u16 p (slot p j + 8) := by
    intro j hj
    by_cases e : j = i
    · subst e; exact u16_put64_out (Or.inr (by omega))
    · have := hap i j hi hj (Ne.symm e)
      rw [hns, hns] at this
      exact u16_put64_out (by omega)
  have hnsq : ∀ j, j < numKeys p → nodeSize q false (slot p j) = nodeSize p false (slot p j) := by
    intro j hj
    rw [hns]
    simp [nodeSize, baseSize, nodeKs, nodeDs, ksOff, hks j hj]
  refine ⟨⟨by rw [hfl]; exact wf.kind, by rw [hlo, hnk]; exact wf.low, by rw [hlo, hup]; exact gap, by rw [hup]; exact wf.top, ?_, ?_⟩,
    hleaf, hnk, pgno_congr fun j hj => put64_out (Or.inl (by omega)), hsl, ?_, ?_⟩
  · intro j hj
    rw [hnk] at hj
    rw [hleaf, hsl j hj, hup, hnsq j hj]
    exact hin j hj
  · intro j k hj hk hjk
    rw [hnk] at hj hk
    rw [hleaf, hsl j hj, hsl k hk, hnsq j hj, hnsq k hk]
    exact hap j k hj hk hjk
  · intro j hj e
    have := hap i j hi hj (Ne.symm e)
    rw [hns, hns] at this
    refine itemAt_congr fun a ha => ?_
    rw [hns] at ha
    exact put64_out (by omega)
  · have e1 : u64 q (slot p i) = v := by
      have e := u64_put64 p (slot p i) v
      rw [Nat.mod_eq_of_lt hv] at e
      exact e
    have e2 : slice q (slot p i + 10) (u16 p (slot p i + 8)) = slice p (slot p i + 10) (u16 p (slot p i + 8)) :=
      slice_congr fun a _ => put64_out (by omega)
    unfold itemAt
    rw [if_neg (by simp), if_neg (by simp), hks i hi, e1, e2]
    rfl

theorem remapFrom_spec {m : Nat → Nat} (hm : ∀ n, m n < 2 ^ 64) (k : Nat) : ∀ {p : Page} {i : Nat}, WF p → isLeaf p = false → i + k ≤ numKeys p →
    ∃ q, remapFrom m p i k = .ok q ∧ WF q ∧ isLeaf q = false ∧ numKeys q = numKeys p ∧ pgno q = pgno p ∧
      ∀ j, j < numKeys p → itemAt q false (slot q j) = if i ≤ j ∧ j < i + k then withChild m (itemAt p false (slot p j)) else itemAt p false (slot p j) := by
  induction k with
  | zero =>
    intro p i wf hl _
    exact ⟨p, rfl, wf, hl, rfl, rfl, fun j _ => by rw [if_neg (by omega)]⟩
  | succ k ih =>
    intro p i wf hl hik
    have hin := wf.inside i (by omega)
    have low := wf.low
    have gap := wf.gap
    have top := wf.top
    unfold hdrSize at low
    unfold pageSize at top
    have h8 : 8 ≤ nodeSize p (isLeaf p) (slot p i) := by rw [hl]; unfold nodeSize baseSize; simp only [Bool.false_eq_true, if_false]; omega
    rw [remapFrom, rdSlot_ok (by unfold hdrSize pageSize; omega), Res.ok_bind, chk_ok (by omega), Res.ok_bind]
    obtain ⟨a1, a2, a3, a4, a5, a6, a7⟩ := put_child wf hl (show i < numKeys p by omega) (hm (u64 p (slot p i)))
    obtain ⟨q, b1, b2, b3, b4, b5, b6⟩ := ih a1 a2 (i := i + 1) (by rw [a3]; omega)
    refine ⟨q, b1, b2, b3, by rw [b4, a3], by rw [b5, a4], ?_⟩
    intro j hj
    rw [b6 j (by rw [a3]; exact hj), a5 j hj]
    by_cases e : j = i
    · subst e
      rw [if_neg (by omega), if_pos (by omega), a7]
      simp [itemAt, withChild]
    · rw [a6 j hj e]
      by_cases h : i + 1 ≤ j ∧ j < i + 1 + k
      · rw [if_pos h, if_pos (by omega)]
      · rw [if_neg h, if_neg (by omega)]

/-- **C50, part.**  What a commit does to a changed branch page before writing it: each child is replaced by its new number, and nothing else changes; a leaf is written as it is. -/
theorem remap_children {m : Nat → Nat} (hm : ∀ n, m n < 2 ^ 64) {p : Page} (wf : WF p) :
    ∃ q, remap m p = .ok q ∧ WF q ∧ pgno q = pgno p ∧ items q = (items p).map (withChild m) := by
  unfold remap
  cases hl : isLeaf p with
  | true =>
    have hb : isBranch p = false := by rcases wf.kind with h | h <;> simp [isLeaf, isBranch, h] at hl ⊢
    rw [if_neg (by simp [hb])]
    refine ⟨p, rfl, wf, rfl, ?_⟩
    unfold items
    rw [hl, List.map_map]
    exact List.map_congr_left fun i _ => by simp [itemAt, withChild]
  | false =>
    rw [if_pos (wf.not_leaf hl)]
    obtain ⟨q, b1, b2, b3, b4, b5, b6⟩ := remapFrom_spec hm (numKeys p) wf hl (i := 0) (by omega)
    refine ⟨q, b1, b2, b5, ?_⟩
    unfold items
    rw [b3, b4, hl, List.map_map]
    refine List.map_congr_left fun i hi => ?_
    have hi := List.mem_range.mp hi
    rw [b6 i hi, if_pos (by omega)]
    rfl

/-- A branch page with two children whose numbers are exchanged. -/
example : (do
    let p ← build (emptyPage false 9) [(0, .branch [1] 12), (1, .branch [2] 13)]
    let q ← remap (fun n => if n = 12 then 13 else if n = 13 then 12 else 0) p
    .ok (items q) : Res (List Item)) = .ok [.branch [1] 13, .branch [2] 12] := by decide +kernel

end Verif.Db
