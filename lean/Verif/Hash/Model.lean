import Verif.Basic

/-!
# Model of `src/napr_hash.c`

A table is an array of buckets; each bucket is an array of `ffactor` cells of which the first
`filling_table[b]` are used.  The model keeps the used part of each bucket as a list; writing
at or beyond `ffactor` in a bucket, or reading a bucket outside the table, is undefined
behaviour.  Key extraction (`get_key`, `get_key_len`, `key_cmp`) is one function `key` into a
type with decidable equality; the hash function is a parameter producing 32-bit values.

`napr_hash_set` may recurse forever (through `napr_hash_rebuild`), so it takes fuel.

Simplification: pool allocation does not fail (the `return NULL` / `APR_EGENERAL` branches at
L136-139, L155-173, L227-230 are not modelled here but in `Hash/Limit.lean`); `power` is not limited to `unsigned char`
and the shift `1 << power` not to 64 bits (both need a table of more than 2^63 buckets).
-/

namespace Verif.Hash

/-- The callbacks stored in a table, napr_hash.c L79-86. -/
structure Fns (α κ : Type) where
  key : α → κ
  hash : κ → UInt32

/-- napr_hash.c L69-99 `struct napr_hash_t`: `buckets[b]` is the used part of `table[b]`, so
`filling_table[b]` is its length; `size` is the number of buckets. -/
structure Table (α : Type) where
  buckets : List (List α)
  nel : Nat
  ffactor : Nat
  power : Nat

/-- L34 `hashsize`. -/
def hashsize (n : Nat) : Nat := 2 ^ n

/-- L35 `hashmask` stored in the 32-bit field `mask` (L96, L146). -/
def mask (power : Nat) : Nat := (hashsize power - 1) % 2 ^ 32

/-- L192, L267, L303: `hash & mask`. -/
def bucketOf (power : Nat) (h : UInt32) : Nat := h.toNat &&& mask power

/-- L141-143: `while (hashsize(power) < nel) power++`. The fuel `nel` is always enough. -/
def powerLoop : Nat → Nat → Nat → Nat
  | 0, p, _ => p
  | fuel + 1, p, nel => if hashsize p < nel then powerLoop fuel (p + 1) nel else p

/-- L130-176 `napr_hash_make_ex`. -/
def makeEx (α : Type) (nel ffactor : Nat) : Table α :=
  let power := powerLoop nel 0 nel
  { buckets := List.replicate (hashsize power) [], nel := 0, ffactor := ffactor, power := power }

/-- L178-206 `napr_hash_search`: scan the bucket from the start. -/
def search [DecidableEq κ] (f : Fns α κ) (t : Table α) (k : κ) : Res (Option α) :=
  match t.buckets[bucketOf t.power (f.hash k)]? with
  | none => .ub
  | some b => .ok (b.find? (fun x => k = f.key x))

/-- L303-312: store in the bucket, before the growth test; also returns the new
`filling_table[bucket]`. -/
def store (t : Table α) (x : α) (hv : UInt32) : Res (Table α × Nat) :=
  match t.buckets[bucketOf t.power hv]? with
  | none => .ub
  | some b =>
    if b.length < t.ffactor then
      .ok ({ t with buckets := t.buckets.set (bucketOf t.power hv) (b ++ [x]), nel := t.nel + 1 }, b.length + 1)
    else .ub

/-- All elements in table order (the double loop of `napr_hash_rebuild`, L232-233). -/
def elems (t : Table α) : List α := t.buckets.flatten

/-- L296-331 `napr_hash_set` with L208-256 `napr_hash_rebuild` inlined: a rebuild creates a
table for `hashsize(power + 1)` elements and sets every element of the old table into it. -/
def set (f : Fns α κ) : Nat → Table α → α → UInt32 → Res (Table α)
  | 0, _, _, _ => .div
  | fuel + 1, t, x, hv => do
    let (t', filled) ← store t x hv
    if t'.ffactor ≤ filled then
      (elems t').foldlM (fun tmp y => set f fuel tmp y (f.hash (f.key y)))
        (makeEx α (hashsize (t'.power + 1)) t'.ffactor)
    else .ok t'

/-- L277-283: remove position `i` of a bucket by moving the last element there. -/
def removeAt (b : List α) (i : Nat) : List α :=
  match b.getLast? with
  | none => b
  | some l => if i ≠ b.length - 1 then (b.set i l).dropLast else b.dropLast

/-- L258-294 `napr_hash_remove`: remove the first element with the key of `x`. -/
def remove [DecidableEq κ] (f : Fns α κ) (t : Table α) (x : α) (hv : UInt32) : Res (Table α) :=
  match t.buckets[bucketOf t.power hv]? with
  | none => .ub
  | some b =>
    match b.findIdx? (fun y => f.key x = f.key y) with
    | none => .ok t
    | some i => .ok { t with buckets := t.buckets.set (bucketOf t.power hv) (removeAt b i), nel := t.nel - 1 }

/-- Number of elements of bucket `b`: `filling_table[b]` (only ever used with `b` in the table:
bucket 0 exists because the size is a power of two, the others are bounds-checked). -/
def filling (t : Table α) (b : Nat) : Nat := (t.buckets[b]?.getD []).length

/-- L361-365: advance to the next non-empty bucket; `n` counts the buckets left. -/
def skip (t : Table α) : Nat → Nat → Nat
  | 0, b => b
  | n + 1, b => if b < t.buckets.length then (if filling t b ≠ 0 then b else skip t n (b + 1)) else b

/-- L353-371 `napr_hash_next`. -/
def next (t : Table α) (b e : Nat) : Option (Nat × Nat) :=
  if filling t b ≠ 0 ∧ e < filling t b - 1 then some (b, e + 1)
  else
    let b' := skip t (t.buckets.length - b) (b + 1)
    if b' < t.buckets.length then some (b', 0) else none

/-- L338-351 `napr_hash_first`. -/
def first (t : Table α) : Option (Nat × Nat) :=
  if filling t 0 > 0 then some (0, 0) else next t 0 0

/-- L373-384 `napr_hash_this`: the element under the index. -/
def this (t : Table α) (b e : Nat) : Res α := Res.ofOption ((t.buckets[b]?.bind (·[e]?)))

/-- The client loop `for (i = first; i; i = next(i)) this(i)`. -/
def iterate (t : Table α) : Nat → Option (Nat × Nat) → Res (List α)
  | _, none => .ok []
  | 0, some _ => .div
  | fuel + 1, some (b, e) => do
    let x ← this t b e
    let xs ← iterate t fuel (next t b e)
    .ok (x :: xs)

end Verif.Hash
