import Verif.Basic

/-!
# Model of `src/napr_heap.c`

The C structure (lines 48-57) holds an array `tree` of `max` pointers, the number `count` of
live elements and a comparator.  `cells` is the allocated array (a NULL cell is `none`).
Reading or writing outside `cells`, and passing a NULL cell to the comparator, is undefined
behaviour.  Indices are 32-bit unsigned integers, with wrap-around.  A NULL `tree`, which L109 leaves
behind, is the empty array (a `tree` that is not NULL has at least 256 cells).

Simplification: pool allocation (`apr_palloc`) never fails, so the `return -1` path at
lines 108-112 and the mutex variants (lines 212-251) are modelled apart, in `Heap/Shared.lean`.
-/

namespace Verif.Heap

/-- `unsigned int` wrap-around. -/
def u32 (n : Nat) : Nat := n % 2 ^ 32

/-- napr_heap.c L33-36 `napr_heap_parent`. For `position = 0` C computes `(2^32-1) >> 1`. -/
def parent (p : Nat) : Nat := if p = 0 then (2 ^ 32 - 1) / 2 else (p - 1) / 2

/-- napr_heap.c L38-41 `napr_heap_left`. -/
def left (p : Nat) : Nat := u32 (u32 (p * 2) + 1)

/-- napr_heap.c L43-46 `napr_heap_right`. -/
def right (p : Nat) : Nat := u32 (u32 (p + 1) * 2)

/-- napr_heap.c L48-57 `struct napr_heap_t` (without pool and mutex). -/
structure Heap (α : Type) where
  cells : List (Option α)
  count : Nat
  max : Nat

/-- Read a cell and dereference it: out of bounds or NULL is undefined behaviour. -/
def rd (cells : List (Option α)) (i : Nat) : Res α := Res.ofOption (cells[i]?.join)

/-- Write a cell: out of bounds is undefined behaviour. -/
def wr (cells : List (Option α)) (i : Nat) (v : Option α) : Res (List (Option α)) :=
  if i < cells.length then .ok (cells.set i v) else .ub

/-- `INITIAL_MAX`, napr_heap.c L28-31. -/
def initialMax : Nat := 256

/-- napr_heap.c L63-83 `napr_heap_make`. -/
def make (α : Type) : Heap α :=
  { cells := List.replicate initialMax none, count := 0, max := initialMax }

/-- napr_heap.c L97-99: `for (new_max = 1; new_max <= heap->max; new_max *= 2)`, on 32-bit
unsigned integers; out of fuel means the loop has not ended. -/
def growLoop : Nat → Nat → Nat → Res Nat
  | 0, _, _ => .div
  | fuel + 1, newMax, max => if newMax ≤ max then growLoop fuel (u32 (newMax * 2)) max else .ok newMax

/-- napr_heap.c L90-113: reallocate when full. The new array gets the `count` old cells
(L103) and NULLs (L104; the very last cell is left uninitialised by the C code, which the
model shows as NULL; it is never read before being written). -/
def grow (fuel : Nat) (h : Heap α) : Res (Heap α) :=
  if h.max ≤ h.count then do
    let newMax ← growLoop fuel 1 h.max
    if h.count ≤ newMax ∧ h.count ≤ h.cells.length then
      .ok { h with cells := h.cells.take h.count ++ List.replicate (newMax - h.count) none, max := newMax }
    else .ub
  else .ok h

/-- napr_heap.c L123-133: the sift-up loop. `fuel` bounds the number of iterations. -/
def siftUp (cmp : α → α → Int) : Nat → List (Option α) → Nat → Res (List (Option α))
  | 0, _, _ => .div
  | fuel + 1, cells, ipos =>
    if 0 < ipos then do
      let ppos := parent ipos
      let a ← rd cells ppos
      let b ← rd cells ipos
      if cmp a b < 0 then do
        let cells ← wr cells ppos (some b)
        let cells ← wr cells ipos (some a)
        siftUp cmp fuel cells ppos
      else .ok cells
    else .ok cells

/-- napr_heap.c L85-138 `napr_heap_insert`. -/
def insert (cmp : α → α → Int) (fuel : Nat) (h : Heap α) (datum : α) : Res (Heap α) := do
  let h ← grow fuel h
  let cells ← wr h.cells h.count (some datum)
  let cells ← siftUp cmp fuel cells h.count
  .ok { h with cells := cells, count := u32 (h.count + 1) }

/-- napr_heap.c L163-179: choose the position to swap with. -/
def pick (cmp : α → α → Int) (cells : List (Option α)) (count ipos : Nat) : Res Nat :=
  if left ipos < count then do
    let l ← rd cells (left ipos)
    let x ← rd cells ipos
    let mpos := if cmp l x > 0 then left ipos else ipos
    if right ipos < count then do
      let r ← rd cells (right ipos)
      let m ← rd cells mpos
      .ok (if cmp r m > 0 then right ipos else mpos)
    else .ok mpos
  else .ok ipos

/-- napr_heap.c L162-193: the sift-down loop. -/
def siftDown (cmp : α → α → Int) (count : Nat) : Nat → List (Option α) → Nat → Res (List (Option α))
  | 0, _, _ => .div
  | fuel + 1, cells, ipos => do
    let mpos ← pick cmp cells count ipos
    if mpos ≠ ipos then do
      let m ← rd cells mpos
      let x ← rd cells ipos
      let cells ← wr cells mpos (some x)
      let cells ← wr cells ipos (some m)
      siftDown cmp count fuel cells mpos
    else .ok cells

/-- napr_heap.c L140-197 `napr_heap_extract`; without elements or without an array it gives NULL (L153). -/
def extract (cmp : α → α → Int) (fuel : Nat) (h : Heap α) : Res (Option α × Heap α) :=
  if h.count ≠ 0 ∧ h.cells.isEmpty = false then do
    let ret ← rd h.cells 0
    let last ← rd h.cells (h.count - 1)
    let cells ← wr h.cells 0 (some last)
    let cells ← wr cells (h.count - 1) none
    let cells ← siftDown cmp (h.count - 1) fuel cells 0
    .ok (some ret, { h with cells := cells, count := h.count - 1 })
  else .ok (none, h)

/-- napr_heap.c L199-205 `napr_heap_get_nth`. -/
def getNth (h : Heap α) (n : Nat) : Res (Option α) :=
  if n < h.count ∧ h.cells.isEmpty = false then (match h.cells[n]? with | some c => .ok c | none => .ub) else .ok none

/-- napr_heap.c L207-210 `napr_heap_size`. -/
def size (h : Heap α) : Nat := h.count

end Verif.Heap
