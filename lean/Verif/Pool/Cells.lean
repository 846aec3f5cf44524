import Verif.Basic

/-!
# Model of the linked list of `napr_threadpool.c` (L33-155), and its refinement to a queue (C89)

Cells have addresses; `apr_palloc` gives an address not used before and does not fail.  Dereferencing NULL or an address that holds no cell is undefined
behaviour.  A cell that has been taken off the list stays in the memory until the pool is destroyed.  `nb_cells` is an `unsigned long` of 64 bits.
-/

namespace Verif.Pool.Cells

/-- L36-40 `struct napr_cell_t`.  `data` is a pointer; `none` is NULL. -/
structure Cell (τ : Type) where
  next : Option Nat
  data : Option τ

/-- L44-50 `struct napr_list_t` with the memory: the cells, and the next free address. -/
structure Lst (τ : Type) where
  mem : Nat → Option (Cell τ)
  brk : Nat
  head : Option Nat
  tail : Option Nat
  nb : Nat

/-- L52-68 `napr_list_make`, after `apr_pool_create`: a memory without cells. -/
def make : Lst τ := ⟨fun _ => none, 0, none, none, 0⟩

/-- Store a cell. -/
def Lst.write (l : Lst τ) (a : Nat) (c : Cell τ) : Lst τ := { l with mem := fun x => if x = a then some c else l.mem x }

/-- L76-96 `napr_list_cons`. -/
def cons (l : Lst τ) (d : Option τ) : Lst τ :=
  let l' : Lst τ := { l.write l.brk ⟨l.head, d⟩ with brk := l.brk + 1, head := some l.brk, nb := (l.nb + 1) % 2 ^ 64 }
  if l'.nb = 1 then { l' with tail := l'.head } else l'

/-- L98-105 `napr_list_cdr`. -/
def cdr (l : Lst τ) : Res (Lst τ) :=
  match l.head with
  | none => .ub
  | some a =>
    match l.mem a with
    | none => .ub
    | some c => .ok { l with head := c.next, nb := (l.nb + (2 ^ 64 - 1)) % 2 ^ 64 }

/-- L107-114 `napr_list_delete`, the loop; then the memory is given back and L309 makes a new list.  The first argument bounds the number of rounds. -/
def delete : Nat → Lst τ → Res (Lst τ)
  | 0, _ => .div
  | n + 1, l =>
    match l.head with
    | none => .ok make
    | some _ => do
      let l ← cdr l
      delete n l

/-- L116-139 `napr_list_enqueue`. -/
def enqueue (l : Lst τ) (d : Option τ) : Res (Lst τ) :=
  if l.nb ≠ 0 then
    match l.tail with
    | none => .ub
    | some t =>
      match l.mem t with
      | none => .ub
      | some c => .ok { (l.write l.brk ⟨none, d⟩).write t ⟨some l.brk, c.data⟩ with brk := l.brk + 1, nb := (l.nb + 1) % 2 ^ 64, tail := some l.brk }
  else .ok (cons l d)

/-- L320-328 of `process_task`: `napr_list_first`, `napr_list_get`, `napr_list_cdr`. -/
def take (l : Lst τ) : Res (Option τ × Lst τ) :=
  match l.head with
  | none => .ub
  | some a =>
    match l.mem a with
    | none => .ub
    | some c => do
      let l ← cdr l
      .ok (c.data, l)

/-- The operations of the thread pool on its list. -/
inductive Op (τ : Type) where
  | put (d : Option τ)
  | take
  | drop

/-- An operation: the list afterwards and what has been taken. -/
def run (fuel : Nat) (l : Lst τ) : Op τ → Res (List (Option τ) × Lst τ)
  | .put d => do
    let l ← enqueue l d
    .ok ([], l)
  | .take => do
    let (d, l) ← take l
    .ok ([d], l)
  | .drop => do
    let l ← delete fuel l
    .ok ([], l)

/-- Operations one after the other: what has been taken, in order. -/
def runs (fuel : Nat) : Lst τ → List (Op τ) → Res (List (Option τ) × Lst τ)
  | l, [] => .ok ([], l)
  | l, o :: os => do
    let (x, l) ← run fuel l o
    let (y, l) ← runs fuel l os
    .ok (x ++ y, l)

/-! ## Specification -/

/-- What the operations should do to a queue: what is taken and what is left; `none` if something is taken from an empty queue. -/
def spec : List (Option τ) → List (Op τ) → Option (List (Option τ) × List (Option τ))
  | q, [] => some ([], q)
  | q, .put d :: os => spec (q ++ [d]) os
  | [], .take :: _ => none
  | d :: q, .take :: os => (spec q os).map (fun r => (d :: r.1, r.2))
  | _, .drop :: os => spec [] os

end Verif.Pool.Cells
