import Verif.Report.Model
import Verif.Pool.Lemmas

/-!
# Model of `ft_image.c`: the comparison of images (`-I`)

The heap holds pointers to `ft_file_t` records; a pointer is the number of the record in the order in which the traversal found the
files.  The vectors of the images (`cvec`, set if `cvec_ok`) are kept apart from the records, in a function of that number.  libpuzzle is a
parameter: what it makes of a file, the distance of two vectors, and the comparison of distances (a `double` may be a NaN, so nothing
is assumed of it here).

The tasks of the thread pool touch one record each, so the effect of a task is taken to happen when it ends.  Progress messages go to the
standard error and are left out, so is the counter they show.  Failing mutex operations and failing creation of threads are not modelled.
-/

namespace Verif.Image

open Verif.Report (FileEnt)

/-- libpuzzle. -/
structure Puzzle (ν δ : Type) where
  /-- `puzzle_fill_cvec_from_file`: `none` is a failure. -/
  load : String → Option ν
  /-- `puzzle_vector_normalized_distance`. -/
  dist : ν → ν → δ
  /-- `<` on distances. -/
  lt : δ → δ → Bool

/-- A record by its number. -/
def ent (fs : List FileEnt) (i : Nat) : FileEnt := fs.getD i ⟨"", 0, 0, false⟩

/-- ft_config.c L45-58 `ft_file_cmp` on pointers. -/
def ptrCmp (fs : List FileEnt) (a b : Nat) : Int := Report.fileCmp (ent fs a) (ent fs b)

/-- ft_traverse.c L67-75: the records in the heap, inserted in the order in which they are found. -/
def fill (fuel : Nat) (fs : List FileEnt) : Res (Heap.Heap Nat) :=
  (List.range fs.length).foldlM (fun h i => Heap.insert (ptrCmp fs) fuel h i) (Heap.make Nat)

/-- The vectors; `none` means that `cvec_ok` is not set. -/
abbrev Vecs (ν : Type) := Nat → Option ν

/-- ft_traverse.c L74: `cvec_ok = 0`. -/
def noVecs : Vecs ν := fun _ => none

/-- ft_image.c L57-75 `compute_vector`: `cvec_ok |= 0x1` if the file can be read as an image. -/
def computeVector (z : Puzzle ν δ) (fs : List FileEnt) (vs : Vecs ν) (i : Nat) : Vecs ν :=
  fun k => if k = i then
    match z.load (ent fs i).path with
    | some v => some v
    | none => vs k
  else vs k

/-- ft_image.c L157-160: the files of the tasks; a NULL would be dereferenced by the task. -/
def taskFiles (h : Heap.Heap Nat) : List Nat → Res (List Nat)
  | [] => .ok []
  | i :: is => do
    let o ← Heap.getNth h i
    match o with
    | none => .ub
    | some f => do
      let l ← taskFiles h is
      .ok (f :: l)

/-- ft_image.c L131-187 `compute_image_vectors`: the calls made on the pool. -/
def vectorProgram (l : List Nat) : List (Pool.Op Nat) := l.map (fun t => .add (some t)) ++ [.wait, .shutdown]

/-- The vectors after the tasks that have ended in a trace. -/
def vectorsAfter (z : Puzzle ν δ) (fs : List FileEnt) (evs : List (Pool.Ev Nat)) : Vecs ν :=
  (Pool.fins evs).foldl (computeVector z fs) noVecs

/-- ft_image.c L202-224: the loop over the rest of the heap for the file `f` with vector `v`; what is printed, and `already_printed`. -/
def scan (z : Puzzle ν δ) (fs : List FileEnt) (sep : Char) (thr : δ) (vs : Vecs ν) (h : Heap.Heap Nat) (f : Nat) (v : ν) :
    List Nat → Bool → Res (List Char × Bool)
  | [], already => .ok ([], already)
  | i :: is, already => do
    let o ← Heap.getNth h i
    match o with
    | none => .ub
    | some g =>
      match vs g with
      | none => scan z fs sep thr vs h f v is already
      | some u =>
        if z.lt (z.dist v u) thr then do
          let (t, a) ← scan z fs sep thr vs h f v is true
          .ok ((if already then [sep] else (ent fs f).path.toList ++ [sep]) ++ (ent fs g).path.toList ++ t, a)
        else scan z fs sep thr vs h f v is already

/-- ft_image.c L189-239 `compare_image_vectors`: what is printed.  The first argument bounds the number of rounds. -/
def compareVectors (z : Puzzle ν δ) (fs : List FileEnt) (sep : Char) (thr : δ) (vs : Vecs ν) (fuel : Nat) : Nat → Heap.Heap Nat → Res (List Char)
  | 0, _ => .div
  | n + 1, h => do
    let (o, h) ← Heap.extract (ptrCmp fs) fuel h
    match o with
    | none => .ok []
    | some f =>
      match vs f with
      | none => compareVectors z fs sep thr vs fuel n h
      | some v => do
        let (t, already) ← scan z fs sep thr vs h f v (List.range (Heap.size h)) false
        let r ← compareVectors z fs sep thr vs fuel n h
        .ok (t ++ (if already then ['\n', '\n'] else []) ++ r)

/-- ft_image.c L103-121 `ft_image_twin_report` on the files found, with `evs` the trace of the thread pool: the standard output. -/
def imageReport (z : Puzzle ν δ) (fs : List FileEnt) (sep : Char) (thr : δ) (fuel : Nat) (evs : List (Pool.Ev Nat)) : Res (List Char) := do
  let h ← fill fuel fs
  compareVectors z fs sep thr (vectorsAfter z fs evs) fuel (fs.length + 1) h

end Verif.Image
