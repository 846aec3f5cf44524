import Verif.Db.Model
import Verif.Page.Spec

/-!
# What a tree of pages holds

The specification side of the tree properties.  A tree is read from a view (page number to
page) by its height: `contents` is the list of pairs in tree order, `pagesOf` the pages the
tree occupies.  `WFT` says that pages and order are right: every leaf at the same depth, keys
ascending, the keys of child `i` between the separators `i` and `i + 1`.  The first separator of
a branch page is not a lower bound (a key smaller than all separators goes to the first child).
-/

namespace Verif.Db

open Verif.Page

/-- How a transaction sees the pages. -/
abbrev View := Nat → Res Page

/-- The pairs of a leaf page. -/
def kvs (p : Page) : List (Bytes × Bytes) := (items p).map fun it => (it.key, it.val)

/-- The separators and children of a branch page. -/
def entries (p : Page) : List (Bytes × Nat) := (items p).map fun it => (it.key, it.child)

/-- The pairs of the tree of height `h` rooted at page `n`, in tree order. -/
def contents (g : View) : Nat → Nat → List (Bytes × Bytes)
  | 0, n => match g n with
    | .ok p => kvs p
    | _ => []
  | h + 1, n => match g n with
    | .ok p => (entries p).flatMap fun e => contents g h e.2
    | _ => []

/-- The pages of the tree of height `h` rooted at page `n`. -/
def pagesOf (g : View) : Nat → Nat → List Nat
  | 0, n => [n]
  | h + 1, n => n :: match g n with
    | .ok p => (entries p).flatMap fun e => pagesOf g h e.2
    | _ => []

/-- Lower bound, inclusive. -/
def GeLo (lo : Option Bytes) (k : Bytes) : Prop := ∀ l, lo = some l → ¬ k < l
/-- Lower bound, exclusive. -/
def GtLo (lo : Option Bytes) (k : Bytes) : Prop := ∀ l, lo = some l → l < k
/-- Upper bound, exclusive. -/
def LtHi (hi : Option Bytes) (k : Bytes) : Prop := ∀ u, hi = some u → k < u

/-- Key range of a subtree. -/
def InRange (lo hi : Option Bytes) (k : Bytes) : Prop := GeLo lo k ∧ LtHi hi k

/-- A chain of children: the first child `c` starts at `lo`, each further one at its
separator, and ends at the next separator or `hi`. -/
def Chain (R : Option Bytes → Option Bytes → Nat → Prop) (lo hi : Option Bytes) (c : Nat) :
    List (Bytes × Nat) → Prop
  | [] => R lo hi c
  | (k', c') :: rest => R lo (some k') c ∧ GtLo lo k' ∧ LtHi hi k' ∧ Chain R (some k') hi c' rest

/-- The children of a branch page. -/
def Kids (R : Option Bytes → Option Bytes → Nat → Prop) (lo hi : Option Bytes) :
    List (Bytes × Nat) → Prop
  | [] => False
  | (_, c) :: rest => Chain R lo hi c rest

/-- Well-formed tree of height `h` rooted at page `n` for keys in a range. -/
def WFT (g : View) : Nat → Option Bytes → Option Bytes → Nat → Prop
  | 0, lo, hi, n => ∃ p, g n = .ok p ∧ pgno p = n ∧ WF p ∧ isLeaf p = true ∧ Sorted (keys p) ∧
      ∀ k ∈ keys p, InRange lo hi k
  | h + 1, lo, hi, n => ∃ p, g n = .ok p ∧ pgno p = n ∧ WF p ∧ isLeaf p = false ∧ Sorted (keys p) ∧
      Kids (WFT g h) lo hi (entries p)

/-- No leaf of the tree is empty. -/
def Full (g : View) : Nat → Nat → Prop
  | 0, n => ∀ p, g n = .ok p → items p ≠ []
  | h + 1, n => ∀ p, g n = .ok p → ∀ e ∈ entries p, Full g h e.2

/-- A well-formed main tree of height `h` in a transaction: the pages are pairwise different and
none is beyond the last allocated page. -/
structure Tree (env : Env) (t : Txn) (h : Nat) : Prop where
  wft : WFT (getPage env t) h none none t.root
  nodup : (pagesOf (getPage env t) h t.root).Nodup
  bound : ∀ n ∈ pagesOf (getPage env t) h t.root, 0 < n ∧ n ≤ t.newLast

/-- In transaction `t` the database holds exactly the pairs `l`, in a tree of height `h`. -/
def Holds (env : Env) (t : Txn) (h : Nat) (l : List (Bytes × Bytes)) : Prop :=
  (t.root = 0 ∧ l = []) ∨
  (t.root ≠ 0 ∧ Tree env t h ∧ contents (getPage env t) h t.root = l)

/-- Keys of a listing are strictly ascending. -/
def Ascending (l : List (Bytes × Bytes)) : Prop := Sorted (l.map Prod.fst)

/-- Which child of a branch page a key leads to: the last one whose separator is not greater,
or the first one. -/
def Routes (p : Page) (key : Bytes) (A : List (Bytes × Nat)) (k : Bytes) (c : Nat) (B : List (Bytes × Nat)) : Prop :=
  entries p = A ++ (k, c) :: B ∧ (A = [] ∨ ¬ key < k) ∧ ∀ e ∈ B, key < e.1

/-- Inserting an entry of `size` bytes for `key` makes the subtree of height `h` at page `n` split
in two at `d`: each page on the way lacks the room, and `d` is the middle key of page `n`. -/
def Overflows (g : View) (key : Bytes) (size : Nat) : Nat → Nat → Bytes → Prop
  | 0, n, d => ∃ p, g n = .ok p ∧ room p < size + 2 ∧ (keys p)[numKeys p / 2]? = some d
  | h + 1, n, d => ∃ p A k c B d', g n = .ok p ∧ Routes p key A k c B ∧ Overflows g key size h c d' ∧
      room p < d'.length + 12 ∧ (keys p)[numKeys p / 2]? = some d

/-- The splits an insertion causes, if any, are of the kind the code gets right: each page that
splits has at least two entries, the new entry does not fall exactly on the middle, and a new
separator that goes next to a first child is greater than the separator of that child. -/
def SplitSafe (g : View) (key : Bytes) (size : Nat) : Nat → Nat → Prop
  | 0, n => ∀ p, g n = .ok p → room p < size + 2 →
      2 ≤ numKeys p ∧ (keys p).countP (· < key) ≠ numKeys p / 2
  | h + 1, n => ∀ p A k c B, g n = .ok p → Routes p key A k c B → SplitSafe g key size h c ∧
      ∀ d, Overflows g key size h c d → (A = [] → k < d) ∧
        (room p < d.length + 12 → 2 ≤ numKeys p ∧ A.length + 1 ≠ numKeys p / 2)

end Verif.Db
