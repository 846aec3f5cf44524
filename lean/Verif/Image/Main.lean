import Verif.Image.Props
import Verif.Output.Model
import Verif.Output.JsonProps
import Verif.Config.Values

/-!
# Which report a run gives (C81, C86)

Model of the second half of `run_ftwin_processing`, ftwin.c L104-131, with the models of the three reports.
-/

namespace Verif.Image

open Verif.Report (FileEnt)
open Verif.Output (Json Digest Exp readReport)
open Verif.Config (isOptionSet bPUZZL bJSON bUNTAR chars Tok parseArgs create)

/-- What a run leaves on the standard output, and whether it succeeds. -/
inductive Out where
  | failed
  | text (t : List Char)
  | json (d : Json)

/-- The world outside the program: libpuzzle, the thresholds of the five levels, the files, the clock, whether the output is a terminal, what the
worker threads do, and the iteration budget of the heap. -/
structure Outside (ν δ : Type) where
  puzzle : Puzzle ν δ
  level : Nat → δ
  files : Report.World Digest
  gmt : Int → Option Exp
  tty : Bool
  evs : List (Pool.Ev Nat)
  fuel : Nat

/-- ftwin.c L104-131, for the files the traversal has put into the heap.  Compiled with JSON support.  If the report fails, what it may have printed
before is not shown. -/
def processing (w : Outside ν δ) (c : Config.Conf) (fs : List FileEnt) : Res Out :=
  if 0 < fs.length then
    if isOptionSet c.mask bPUZZL then do
      let t ← imageReport w.puzzle fs c.sep (w.level c.threshold) w.fuel w.evs
      .ok (.text t)
    else do
      let out ← Report.ftwin w.files (isOptionSet c.mask bJSON) fs
      match out.groups with
      | none => .ok .failed
      | some gs =>
        if isOptionSet c.mask bJSON then .ok (.json (Output.jsonReport w.gmt (isOptionSet c.mask bUNTAR) gs))
        else .ok (.text (Output.textReport (Output.styleOf c w.tty) gs))
  else .ok .failed

/-- A JSON value begins with a letter of `true`, `false` or `null`, a digit, a sign, a quotation mark, a bracket or a brace, perhaps after blanks. -/
def jsonStart (c : Char) : Bool := c ∈ ['t', 'f', 'n', '-', '"', '[', '{', ' ', '\t', '\n', '\r'] || c.isDigit

/-- **C86, part.**  If the report of a run that is not for images is asked for in JSON, the run leaves a JSON document or fails; if it is not, it leaves no JSON document.
Missing: runs for images. -/
theorem json_iff_asked_partial (w : Outside ν δ) (h : List Char → UInt32) (fuel cores : Nat) (cw : Config.World) (ig : Hash.Table (List Char))
    (ts : List Tok) (c : Config.Conf) (e : parseArgs h fuel cw ts (create cores ig) = .ok (some c)) (fs : List FileEnt) (out : Out)
    (hr : processing w c fs = .ok out) :
    ('J' ∉ chars ts → ∀ d, out ≠ .json d) ∧ ('J' ∈ chars ts → 'I' ∉ chars ts → ∀ t, out ≠ .text t) := by
  have hJ := (Config.json_verbose_exclusive h fuel cores cw ig ts c e).1
  have hI := (Config.flags_exact h fuel cores cw ig ts c e).2.2.2.2.2.2.1
  unfold processing at hr
  by_cases hl : 0 < fs.length
  · rw [if_pos hl] at hr
    cases hp : isOptionSet c.mask bPUZZL with
    | true =>
      rw [hp, if_pos rfl, Res.bind_eq_ok] at hr
      obtain ⟨t, _, hr⟩ := hr
      injection hr with hr; subst hr
      exact ⟨fun _ d => by simp, fun _ h2 => absurd (hI.mp hp) h2⟩
    | false =>
      rw [hp, if_neg (by simp), Res.bind_eq_ok] at hr
      obtain ⟨o, _, hr⟩ := hr
      split at hr
      · injection hr with hr; subst hr; exact ⟨fun _ d => by simp, fun _ _ t => by simp⟩
      · split at hr
        · rename_i hj
          injection hr with hr; subst hr
          exact ⟨fun h1 => absurd (hJ.mp hj) h1, fun _ _ t => by simp⟩
        · rename_i hj
          injection hr with hr; subst hr
          exact ⟨fun _ d => by simp, fun h1 => absurd (hJ.mpr h1) hj⟩
  · rw [if_neg hl] at hr
    injection hr with hr; subst hr
    exact ⟨fun _ d => by simp, fun _ _ t => by simp⟩

/-- With images, what a run leaves does not depend on whether JSON was asked for. -/
theorem images_ignore_json (w : Outside ν δ) (c c' : Config.Conf) (fs : List FileEnt) (hp : isOptionSet c.mask bPUZZL = true)
    (hp' : isOptionSet c'.mask bPUZZL = true) (hs : c.sep = c'.sep) (ht : c.threshold = c'.threshold) : processing w c fs = processing w c' fs := by
  unfold processing
  rw [hp, hp', hs, ht, if_pos rfl, if_pos rfl]

/-! ## Runs -/

/-- A libpuzzle for which the vector of an image is a number. -/
def numPuzzle : Puzzle Nat Nat where
  load := fun p => if p = "/a.png" then some 0 else if p = "/b.png" then some 2 else if p = "/c.png" then some 4 else none
  dist := fun v u => max v u - min v u
  lt := fun a b => decide (a < b)

/-- Three images and a file that is none. -/
def pictures : List FileEnt := [⟨"/a.png", 9, 0, false⟩, ⟨"/b.png", 7, 0, false⟩, ⟨"/c.png", 5, 0, false⟩, ⟨"/d.png", 5, 0, false⟩]

/-- The tasks end in this order. -/
def someTrace : List (Pool.Ev Nat) := [.fin 2, .fin 0, .fin 3, .fin 1]

def isText (x : Res (List Char)) (t : List Char) : Bool :=
  match x with
  | .ok y => y == t
  | _ => false

theorem isText_ok {x : Res (List Char)} {t : List Char} (h : isText x t = true) : x = .ok t := by
  unfold isText at h
  split at h
  · exact congrArg Res.ok (eq_of_beq h)
  · cases h

/-- Similarity is not transitive, so a file can be in two groups: `b` is near `a` and near `c`. -/
theorem groups_overlap : imageReport numPuzzle pictures '\n' 3 40 someTrace =
    .ok (("/a.png\n/b.png\n\n/b.png\n/c.png\n\n" : String).toList) := isText_ok (by decide +kernel)

/-- The hypotheses of `image_report_exact` hold of these files. -/
example : (∀ v u, numPuzzle.dist v u = numPuzzle.dist u v) ∧ pictures.length ≤ 2 ^ 31 ∧ pictures.length + 32 ≤ 40 ∧
    (∀ f ∈ pictures, Output.Plain '\n' f.path.toList) ∧ Similar numPuzzle pictures 3 0 1 ∧ Similar numPuzzle pictures 3 1 2 ∧ ¬ Similar numPuzzle pictures 3 0 2 := by
  refine ⟨?_, by decide, by decide, ?_, ⟨0, 2, by decide, by decide, by decide⟩, ⟨2, 4, by decide, by decide, by decide⟩, ?_⟩
  · intro v u; simp only [numPuzzle]; rw [Nat.max_comm, Nat.min_comm]
  · intro f hf
    simp only [pictures, List.mem_cons, List.not_mem_nil, or_false] at hf
    rcases hf with rfl | rfl | rfl | rfl <;> exact ⟨by simp, by simp, by simp⟩
  · rintro ⟨v, u, h1, h2, h3⟩
    have e1 : numPuzzle.load (ent pictures 0).path = some 0 := by decide
    have e2 : numPuzzle.load (ent pictures 2).path = some 4 := by decide
    rw [e1] at h1; rw [e2] at h2
    injection h1 with h1; injection h2 with h2
    subst h1; subst h2
    revert h3; decide

/-- The world of the run below. -/
def pictureWorld : Outside Nat Nat where
  puzzle := numPuzzle
  level := fun n => n + 2
  files := Output.jsonWorld
  gmt := Output.leapGmt
  tty := false
  evs := someTrace
  fuel := 40

/-- The command line `-I -J`. -/
def imageJson : List Tok := [.opt 'I' [], .opt 'J' []]

/-- **C86 is false.**  `ftwin -I -J` on three images ends with success, and what it prints is no JSON document. -/
theorem image_json_is_text : ∃ c t, parseArgs (fun _ => 0) 40 ⟨1, true, fun _ _ => true⟩ imageJson (create 4 (Hash.makeEx (List Char) 32 8)) = .ok (some c) ∧
    'J' ∈ chars imageJson ∧ processing pictureWorld c pictures = .ok (.text t) ∧ t.head?.map jsonStart = some false := by
  refine ⟨_, ("/a.png\n/b.png\n\n/b.png\n/c.png\n\n" : String).toList, rfl, by decide, ?_, ?_⟩
  · unfold processing
    rw [if_pos (by decide), if_pos (by decide)]
    have : imageReport pictureWorld.puzzle pictures '\n' (pictureWorld.level 1) pictureWorld.fuel pictureWorld.evs = _ := groups_overlap
    exact congrArg (fun x => Res.bind x (fun t => Res.ok (Out.text t))) this
  · decide +kernel

end Verif.Image
