import Verif.Db.Props

/-!
# Deciding whether a concrete tree is well-formed

Only used to show that hypotheses can be met.
-/

namespace Verif.Db

open Verif.Page

instance decExOk {α : Type} (r : Res α) (P : α → Prop) [DecidablePred P] : Decidable (∃ p, r = .ok p ∧ P p) :=
  match r with
  | .ok p => decidable_of_iff (P p) ⟨fun h => ⟨p, rfl, h⟩, fun ⟨_, h1, h2⟩ => by cases h1; exact h2⟩
  | .ub => .isFalse (by rintro ⟨_, h, _⟩; cases h)
  | .div => .isFalse (by rintro ⟨_, h, _⟩; cases h)

instance (lo : Option Bytes) (k : Bytes) : Decidable (GeLo lo k) :=
  match lo with
  | none => .isTrue (by intro l h; cases h)
  | some l => decidable_of_iff (¬ k < l) geLo_some.symm

instance (lo : Option Bytes) (k : Bytes) : Decidable (GtLo lo k) :=
  match lo with
  | none => .isTrue (by intro l h; cases h)
  | some l => decidable_of_iff (l < k) gtLo_some.symm

instance (hi : Option Bytes) (k : Bytes) : Decidable (LtHi hi k) :=
  match hi with
  | none => .isTrue (by intro l h; cases h)
  | some l => decidable_of_iff (k < l) ltHi_some.symm

instance (lo hi : Option Bytes) (k : Bytes) : Decidable (InRange lo hi k) := by unfold InRange; infer_instance

instance (p : Page) : Decidable (WF p) :=
  decidable_of_iff ((flags p = 1 ∨ flags p = 2) ∧ lower p = hdrSize + 2 * numKeys p ∧ lower p ≤ upper p ∧ upper p ≤ pageSize ∧
    (∀ i < numKeys p, upper p ≤ slot p i ∧ slot p i + nodeSize p (isLeaf p) (slot p i) ≤ pageSize) ∧
    (∀ i < numKeys p, ∀ j < numKeys p, i ≠ j → slot p i + nodeSize p (isLeaf p) (slot p i) ≤ slot p j ∨
      slot p j + nodeSize p (isLeaf p) (slot p j) ≤ slot p i))
    ⟨fun ⟨a, b, c, d, e, f⟩ => ⟨a, b, c, d, e, fun i j hi hj => f i hi j hj⟩, fun h => ⟨h.kind, h.low, h.gap, h.top, h.inside, fun i hi j hj => h.apart i j hi hj⟩⟩

instance (l : List Bytes) : Decidable (Sorted l) := by unfold Sorted; infer_instance

instance decChain (R : Option Bytes → Option Bytes → Nat → Prop) [∀ a b c, Decidable (R a b c)] :
    (lo hi : Option Bytes) → (c : Nat) → (l : List (Bytes × Nat)) → Decidable (Chain R lo hi c l)
  | lo, hi, c, [] => by unfold Chain; infer_instance
  | lo, hi, c, (k, c') :: l => by
    have := decChain R (some k) hi c' l
    unfold Chain; infer_instance

instance decKids (R : Option Bytes → Option Bytes → Nat → Prop) [∀ a b c, Decidable (R a b c)] (lo hi : Option Bytes)
    (l : List (Bytes × Nat)) : Decidable (Kids R lo hi l) := by
  cases l with
  | nil => unfold Kids; infer_instance
  | cons e l => obtain ⟨k, c'⟩ := e; unfold Kids; infer_instance

instance decWFT (g : View) : (h : Nat) → (lo hi : Option Bytes) → (n : Nat) → Decidable (WFT g h lo hi n)
  | 0, lo, hi, n => by unfold WFT; infer_instance
  | h + 1, lo, hi, n => by
    have := decWFT g h
    unfold WFT; infer_instance

instance (env : Env) (t : Txn) (h : Nat) : Decidable (Tree env t h) :=
  decidable_of_iff (WFT (getPage env t) h none none t.root ∧ (pagesOf (getPage env t) h t.root).Nodup ∧
    ∀ n ∈ pagesOf (getPage env t) h t.root, 0 < n ∧ n ≤ t.newLast) ⟨fun ⟨a, b, c⟩ => ⟨a, b, c⟩, fun h => ⟨h.wft, h.nodup, h.bound⟩⟩

/-- The transaction after a series of `put`s. -/
def afterPuts (l : List (Bytes × Bytes)) : Txn := match puts env0 3 txn0 l with | .ok r => r.2 | _ => txn0

/-- "m", "n", "o", "p", "b", "c", with values of 1300 bytes: two leaves below the root, the left one full. -/
def six : Txn := afterPuts [([109], val3), ([110], val3), ([111], val3), ([112], val3), ([98], val3), ([99], val3)]

theorem six_tree : Tree env0 six 1 := by decide +kernel

theorem six_fields : six.root = 4 ∧ six.freeRoot = 0 ∧ six.rdonly = false ∧ six.newLast = 4 := by decide +kernel

theorem six_keys : (contents (getPage env0 six) 1 six.root).map Prod.fst = [[98], [99], [109], [110], [111], [112]] := by decide +kernel

theorem six_holds : Holds env0 six 1 (contents (getPage env0 six) 1 six.root) :=
  .inr ⟨by rw [six_fields.1]; decide, six_tree, rfl⟩

end Verif.Db
