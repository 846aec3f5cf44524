import Verif.Db.Spec

/-!
# What one insertion leaves reachable

The specification side of the exact description of `put`.  `sight` says what a search from the
root finds, without asking whether the tree is in order.  `Stray` and `Unreached` name the keys
that a search no longer finds after the pages on the way have been split, in terms of the tree
before the insertion.
-/

namespace Verif.Db

open Verif.Page

/-- Going through the separators from left to right with `c` the child to take so far: the
search stops before the first separator that is greater. -/
def routeFrom {α : Type} (c : α) : List (Bytes × α) → Bytes → α
  | [], _ => c
  | (s, c') :: rest, x => if x < s then c else routeFrom c' rest x

/-- The child a key leads to: the last one whose separator is not greater, or the first one. -/
def route : List (Bytes × Nat) → Bytes → Nat
  | [], _ => 0
  | (_, c) :: rest, x => routeFrom c rest x

/-- What a search for `x` finds below page `n`, `h` levels above the leaves. -/
def sight (g : View) : Nat → Nat → Bytes → Option Bytes
  | 0, n, x => match g n with
    | .ok p => (kvs p).lookup x
    | _ => none
  | h + 1, n, x => match g n with
    | .ok p => sight g h (route (entries p) x) x
    | _ => none

/-- The pages below `n` can be read and searched: right kind, right layout, ascending keys, no
branch page without children.  Nothing is said about which keys are below which child. -/
def Sound (g : View) : Nat → Nat → Prop
  | 0, n => ∃ p, g n = .ok p ∧ WF p ∧ isLeaf p = true ∧ Sorted (keys p)
  | h + 1, n => ∃ p, g n = .ok p ∧ WF p ∧ isLeaf p = false ∧ Sorted (keys p) ∧ entries p ≠ [] ∧
      ∀ e ∈ entries p, Sound g h e.2

/-- Page `p` splits to take the separator `d` next to the child `k`, and the separator falls
exactly on the middle of the page. -/
def OnMiddle (p : Page) (A : List (Bytes × Nat)) (d : Bytes) : Prop :=
  room p < d.length + 12 ∧ A.length + 1 = numKeys p / 2

/-- The keys that a split of page `n` puts in front of the right half although they are smaller
than the divider.  In a leaf this is the inserted key if it falls on the middle.  In a branch
page it is the right half of the child that was split, if its separator falls on the middle. -/
def Stray (g : View) (key : Bytes) (size : Nat) : Nat → Nat → Bytes → Prop
  | 0, n, x => x = key ∧ ∃ p, g n = .ok p ∧ room p < size + 2 ∧ (keys p).countP (· < key) = numKeys p / 2
  | h + 1, n, x => ∃ p A k c B d, g n = .ok p ∧ Routes p key A k c B ∧ Routes p x A k c B ∧
      Overflows g key size h c d ∧ (A = [] → k < d) ∧ OnMiddle p A d ∧ (x < d → Stray g key size h c x)

/-- The keys below page `n` that are not found any more after the insertion, not counting the
stray keys of `n` itself.  Let `c` be the child on the way, with separator `k`.  If `c` was split
at `d` and `c` is the first child with `d < k`, the new separator goes in front of `k` and the two
halves are exchanged: keys from `k` on lead to the left half, keys below `d` to the right half.
Otherwise the stray keys of `c` are lost (unless they become stray keys of `n`). -/
def Unreached (g : View) (key : Bytes) (size : Nat) : Nat → Nat → Bytes → Prop
  | 0, _, _ => False
  | h + 1, n, x => ∃ p A k c B, g n = .ok p ∧ Routes p key A k c B ∧ Routes p x A k c B ∧
      (Unreached g key size h c x ∨ ∃ d, Overflows g key size h c d ∧
        ((A = [] ∧ d < k ∧ (¬ x < k ∨ (x < d ∧ ¬ Stray g key size h c x))) ∨
         ((A = [] → k < d) ∧ ¬ OnMiddle p A d ∧ Stray g key size h c x)))

/-- Each page that splits has at least two entries, and a new separator that goes next to a first
child is not equal to the separator of that child. -/
def Divisible (g : View) (key : Bytes) (size : Nat) : Nat → Nat → Prop
  | 0, n => ∀ p, g n = .ok p → room p < size + 2 → 2 ≤ numKeys p
  | h + 1, n => ∀ p A k c B, g n = .ok p → Routes p key A k c B → Divisible g key size h c ∧
      ∀ d, Overflows g key size h c d → (A = [] → d ≠ k) ∧ (room p < d.length + 12 → 2 ≤ numKeys p)

end Verif.Db
