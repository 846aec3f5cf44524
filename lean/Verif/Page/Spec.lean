import Verif.Page.Model

/-!
# What a page holds, and when a page is well-formed

The specification side of the page properties: the list of entries a page holds, read through
its slots, and well-formedness of the layout.
-/

namespace Verif.Page

/-- The entry stored at offset `o`, as the packed structures lay it out
(napr_db_internal.h L232-264). -/
def itemAt (p : Page) (leaf : Bool) (o : Nat) : Item :=
  if leaf then .leaf (slice p (o + 4) (u16 p o)) (slice p (o + 4 + u16 p o) (u16 p (o + 2)))
  else .branch (slice p (o + 10) (u16 p (o + 8))) (u64 p o)

/-- The entries of a page in slot order. -/
def items (p : Page) : List Item :=
  (List.range (numKeys p)).map fun i => itemAt p (isLeaf p) (slot p i)

/-- Bytes an entry occupies: node header, key and value. -/
def Item.size : Item → Nat
  | .leaf k v => 4 + k.length + v.length
  | .branch k _ => 10 + k.length

/-- Well-formed page: a leaf or a branch; the slot array ends at `lower`; `lower` is not above
`upper`; every node lies between `upper` and the end of the page; nodes do not overlap.  Holes
between nodes are allowed. -/
structure WF (p : Page) : Prop where
  kind : flags p = 1 ∨ flags p = 2
  low : lower p = hdrSize + 2 * numKeys p
  gap : lower p ≤ upper p
  top : upper p ≤ pageSize
  inside : ∀ i < numKeys p, upper p ≤ slot p i ∧
    slot p i + nodeSize p (isLeaf p) (slot p i) ≤ pageSize
  apart : ∀ i j, i < numKeys p → j < numKeys p → i ≠ j →
    slot p i + nodeSize p (isLeaf p) (slot p i) ≤ slot p j ∨
    slot p j + nodeSize p (isLeaf p) (slot p j) ≤ slot p i

/-- The free gap of a page. -/
def room (p : Page) : Nat := upper p - lower p

/-- Keys of a page in slot order. -/
def keys (p : Page) : List Bytes := (items p).map Item.key

/-- Strictly ascending keys, in the lexicographic order of byte strings (the order of the Lean
library on `List UInt8`, independent of `keyCompare`). -/
def Sorted (ks : List Bytes) : Prop := ks.Pairwise (· < ·)

end Verif.Page
