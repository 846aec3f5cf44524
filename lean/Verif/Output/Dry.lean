import Verif.Report.Messages
import Verif.Output.Color

/-!
# Dry runs (C115)
-/

namespace Verif.Output

open Verif.Report (FileEnt Group World Outcome Limits ftwin Message messages announced)

/-- ft_report.c L253: the text of the message about a pair. -/
def dryText : Message → List Char
  | .wouldReport a b => "Dry run: would report ".toList ++ a.path.toList ++ " and ".toList ++ b.path.toList ++ " as duplicates.\n".toList
  | .skipping _ _ => []

/-- The line for a pair of names. -/
def dryLine (p : List Char × List Char) : List Char := "Dry run: would report ".toList ++ p.1 ++ " and ".toList ++ p.2 ++ " as duplicates.\n".toList

/-- The first name of a group with each of the others. -/
def withFirst : List (List Char) → List (List Char × List Char)
  | [] => []
  | p :: ps => ps.map (p, ·)

/-- **C115, part.**  With `-n` and a text report the lines on the standard error output are those for the groups a reader finds in the report, the first name with each of the others, in order. -/
theorem dry_run_partial [DecidableEq η] (w : World η) (cands : List FileEnt) (out : Outcome η) (gs : List (Group η)) (sep : Char)
    (hl : Limits w cands) (hq : ∀ l, (w.qs l).Perm l) (h : ftwin w false cands = .ok out) (hg : out.groups = some gs)
    (hplain : ∀ f ∈ cands, Plain sep f.path.toList) :
    (messages w false true out).flatMap dryText = ((readReport sep (textReport ⟨sep, false, colors false⟩ gs)).flatMap withFirst).flatMap dryLine := by
  rw [text_report_read_back_partial w cands out gs sep hl hq h hg hplain, Report.dry_run_announces_partial w cands out gs hl h hg]
  simp only [List.flatMap_assoc, List.flatMap_map]
  rw [List.flatMap_def, List.flatMap_def]
  congr 1
  apply List.map_congr_left
  intro g _
  cases g.files with
  | nil => rfl
  | cons f ds =>
    simp only [announced, withFirst, List.map_cons, List.flatMap_map]
    rfl

/-- Three identical files: two lines. -/
example : ∃ out gs, ftwin sameWorld false threeFiles = .ok out ∧ out.groups = some gs ∧
    messages sameWorld false true out = [.wouldReport ⟨"a", 3, 0, false⟩ ⟨"c", 3, 0, false⟩, .wouldReport ⟨"a", 3, 0, false⟩ ⟨"b", 3, 0, false⟩] := by
  obtain ⟨out, h1, h2⟩ := three_identical
  exact ⟨out, _, h1, h2, Report.dry_run_announces_partial _ _ _ _ three_limits h1 h2⟩

end Verif.Output
