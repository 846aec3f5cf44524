import Verif.Image.Model

/-!
# What an image report should say (specification for C81)

Files are named by their position in the list of files found.  Nothing here refers to the heap or to the loop of the program.
-/

namespace Verif.Image

open Verif.Report (FileEnt)

/-- Two files are similar images: both can be read as images and their distance is below the threshold. -/
def Similar (z : Puzzle ν δ) (fs : List FileEnt) (thr : δ) (i j : Nat) : Prop :=
  ∃ v u, z.load (ent fs i).path = some v ∧ z.load (ent fs j).path = some u ∧ z.lt (z.dist v u) thr = true

/-- The pairs a list of groups tells: the first file of a group with each of the others. -/
def links (gs : List (Nat × List Nat)) : List (Nat × Nat) := gs.flatMap (fun g => g.2.map (fun j => (g.1, j)))

/-- The groups tell exactly which of the files are similar. -/
structure Exact (z : Puzzle ν δ) (fs : List FileEnt) (thr : δ) (gs : List (Nat × List Nat)) : Prop where
  /-- Each pair of similar images is told once. -/
  similar : ∀ i j, i < fs.length → j < fs.length → i ≠ j → Similar z fs thr i j → (links gs).count (i, j) + (links gs).count (j, i) = 1
  /-- Nothing else is. -/
  others : ∀ i j, (i, j) ∈ links gs → i < fs.length ∧ j < fs.length ∧ i ≠ j ∧ Similar z fs thr i j
  /-- The first file of a group is one of the largest. -/
  largest : ∀ i j, (i, j) ∈ links gs → (ent fs j).size ≤ (ent fs i).size
  /-- A file is the first of at most one group, and groups have at least two files. -/
  once : (gs.map (·.1)).Nodup ∧ ∀ g ∈ gs, g.2 ≠ []

end Verif.Image
