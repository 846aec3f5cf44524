import Verif.Output.Lemmas
import Verif.Report.Disk

/-!
# The text report can be read back (C80)

`readReport` and `readSized` (`Output/Spec.lean`) are what a consumer of the report does.
-/

namespace Verif.Output

open Verif.Report (FileEnt Group World Outcome Limits ftwin)

theorem two_files {g : Group η} (h : 2 ≤ g.files.length) : ∃ f f2 fs, g.files = f :: f2 :: fs := by
  cases hf : g.files with
  | nil => rw [hf] at h; simp at h
  | cons f l =>
    cases l with
    | nil => rw [hf] at h; simp at h
    | cons f2 fs => exact ⟨f, f2, fs, rfl⟩

theorem printFile_plain (sep : Char) (sized : Bool) : printFile ⟨sep, sized, colors false⟩ = fun f => f.path.toList := by
  funext f; simp [printFile, colors]

/-- The listed files are candidates. -/
theorem listed_mem [DecidableEq η] (w : World η) (json : Bool) (cands : List FileEnt) (out : Outcome η) (gs : List (Group η))
    (hl : Limits w cands) (hq : ∀ l, (w.qs l).Perm l) (h : ftwin w json cands = .ok out) (hg : out.groups = some gs) :
    ∀ g ∈ gs, 2 ≤ g.files.length ∧ ∀ f ∈ g.files, f ∈ cands := by
  obtain ⟨h1, rest, h2⟩ := Report.report_disjoint w json cands out gs hl hq h hg
  intro g hgm
  refine ⟨h1 g hgm, ?_⟩
  intro f hf
  exact h2.subset (List.mem_append_left _ (List.mem_flatMap.mpr ⟨g, hgm, hf⟩))

/-- **C80, part.**  Written to a file or a pipe, the report of a completed run tells a reader who knows the separator exactly which files were
listed together, in the order of the report, if no candidate's name contains the separator or a line break.
Missing: names that do (`text_report_ambiguous`). -/
theorem text_report_read_back_partial [DecidableEq η] (w : World η) (cands : List FileEnt) (out : Outcome η) (gs : List (Group η)) (sep : Char)
    (hl : Limits w cands) (hq : ∀ l, (w.qs l).Perm l) (h : ftwin w false cands = .ok out) (hg : out.groups = some gs)
    (hplain : ∀ f ∈ cands, Plain sep f.path.toList) :
    readReport sep (textReport ⟨sep, false, colors false⟩ gs) = gs.map (fun g => g.files.map (·.path.toList)) := by
  have hm := listed_mem w false cands out gs hl hq h hg
  have ht : textReport ⟨sep, false, colors false⟩ gs = (gs.map (fun g => g.files.map (·.path.toList))).flatMap (blockText sep) := by
    unfold textReport
    rw [List.flatMap_map]
    rw [List.flatMap_def, List.flatMap_def]
    congr 1
    apply List.map_congr_left
    intro g hgm
    obtain ⟨f, f2, fs, hf⟩ := two_files (hm g hgm).1
    rw [printGroup_eq _ g f f2 fs hf, printFile_plain]
    simp [sizeLine]
  rw [ht]
  apply readReport_blocks
  intro g' hg'
  obtain ⟨g, hgm, rfl⟩ := List.mem_map.mp hg'
  obtain ⟨f, f2, fs, hf⟩ := two_files (hm g hgm).1
  refine ⟨by rw [hf]; simp, ?_⟩
  intro p hp
  obtain ⟨x, hx, rfl⟩ := List.mem_map.mp hp
  exact hplain x ((hm g hgm).2 x hx)

/-- The first line of a block with sizes. -/
def sizeName (size : Nat) : List Char := ['S', 'i', 'z', 'e', ':', ' '] ++ sizeText (HumanSize.format size)

theorem sizeName_oneLine (size : Nat) : '\n' ∉ sizeName size := by
  unfold sizeName
  generalize hz : HumanSize.format size = z
  rw [List.mem_append, not_or]
  exact ⟨by decide, sizeText_oneLine z⟩

theorem sizeLine_plain (sep : Char) (size : Nat) : sizeLine ⟨sep, true, colors false⟩ size = sizeName size ++ ['\n'] := by
  have h : ∀ (s : Style) (z : List Char), s.sized = true → s.colors = colors false →
      (if s.sized then s.colors.size ++ ['S', 'i', 'z', 'e', ':', ' '] ++ z ++ s.colors.reset ++ ['\n'] else []) =
        (['S', 'i', 'z', 'e', ':', ' '] ++ z) ++ ['\n'] := by
    intro s z h1 h2
    rw [if_pos h1, h2]
    simp [colors]
  exact h ⟨sep, true, colors false⟩ _ rfl rfl

theorem sized_blocks (sep : Char) (name : Nat → List Char) (gs : List (Group η)) (hname : ∀ n, '\n' ∉ name n)
    (hgs : ∀ g ∈ gs, 2 ≤ g.files.length ∧ ∀ f ∈ g.files, Plain sep f.path.toList) :
    readSized sep (gs.flatMap fun g => (name g.size ++ ['\n']) ++ blockText sep (g.files.map (·.path.toList))) =
      gs.map (fun g => (name g.size, g.files.map (·.path.toList))) := by
  have ht : (gs.flatMap fun g => (name g.size ++ ['\n']) ++ blockText sep (g.files.map (·.path.toList))) =
      (gs.map (fun g => (name g.size, g.files.map (·.path.toList)))).flatMap (sizedText sep) := by
    rw [List.flatMap_map]
    simp [sizedText]
  rw [ht]
  apply readSized_blocks
  intro g' hg'
  obtain ⟨g, hgm, rfl⟩ := List.mem_map.mp hg'
  refine ⟨hname _, ?_, ?_⟩
  · intro h0
    have := (hgs g hgm).1
    have h1 : g.files = [] := List.map_eq_nil_iff.mp h0
    rw [h1] at this
    simp at this
  · intro p hp
    obtain ⟨x, hx, rfl⟩ := List.mem_map.mp hp
    exact (hgs g hgm).2 x hx

/-- **C80, part.**  With sizes displayed, the same, and the first line of each block is the size of its files in readable form (C24 says what that is). -/
theorem sized_report_read_back_partial [DecidableEq η] (w : World η) (cands : List FileEnt) (out : Outcome η) (gs : List (Group η)) (sep : Char)
    (hl : Limits w cands) (hq : ∀ l, (w.qs l).Perm l) (h : ftwin w false cands = .ok out) (hg : out.groups = some gs)
    (hplain : ∀ f ∈ cands, Plain sep f.path.toList) :
    readSized sep (textReport ⟨sep, true, colors false⟩ gs) = gs.map (fun g => (sizeName g.size, g.files.map (·.path.toList))) := by
  have hm := listed_mem w false cands out gs hl hq h hg
  have ht : textReport ⟨sep, true, colors false⟩ gs =
      gs.flatMap (fun g => (sizeName g.size ++ ['\n']) ++ blockText sep (g.files.map (·.path.toList))) := by
    unfold textReport
    rw [List.flatMap_def, List.flatMap_def]
    congr 1
    apply List.map_congr_left
    intro g hgm
    obtain ⟨f, f2, fs, hf⟩ := two_files (hm g hgm).1
    rw [printGroup_eq _ g f f2 fs hf, sizeLine_plain, printFile_plain]
  rw [ht]
  exact sized_blocks sep sizeName gs sizeName_oneLine (fun g hgm => ⟨(hm g hgm).1, fun f hf => hplain f ((hm g hgm).2 f hf)⟩)

/-- A way to evaluate a run on few files: the order in which the heap gives them, the sizes, the groups. -/
def groupsAre [BEq η] (x : Res (List (Group η) × List (FileEnt × FileEnt))) (gs : List (Nat × η × List FileEnt)) : Bool :=
  match x with
  | .ok z => z.1.map (fun g => (g.size, g.hash, g.files)) == gs
  | _ => false

theorem run_eval [DecidableEq η] {w : World η} {json : Bool} {cands : List FileEnt} (l : List FileEnt) (ks : List Nat) {gs : List (Nat × η × List FileEnt)}
    (hl : Limits w cands) (ho : Report.ordEq (Report.orderOf w.fuel cands) l = true) (hd : ks.Pairwise (fun a b => b < a))
    (h1 : ∀ f ∈ cands, 2 ≤ Report.cnt cands f.size → f.size ∈ ks) (h2 : ∀ k ∈ ks, 2 ≤ Report.cnt cands k)
    (hc : groupsAre (Report.classes w json (fun k => (Report.cls l k).map (Report.mark w json cands)) ks) gs = true) :
    ∃ out, ftwin w json cands = .ok out ∧ out.groups = some (gs.map (fun g => ⟨g.1, g.2.1, g.2.2⟩)) := by
  have ho' : Report.orderOf w.fuel cands = .ok l := by
    unfold Report.ordEq at ho
    split at ho
    · rename_i e; rw [e, eq_of_beq ho]
    · cases ho
  obtain ⟨hashed, e⟩ := Report.ftwin_eval w json cands l ks hl ho' hd h1 h2
  rw [e]
  unfold groupsAre at hc
  cases hcl : Report.classes w json (fun k => (Report.cls l k).map (Report.mark w json cands)) ks with
  | ub => rw [hcl] at hc; simp at hc
  | div => rw [hcl] at hc; simp at hc
  | ok x =>
    rw [hcl] at hc
    simp only [beq_iff_eq] at hc
    refine ⟨_, rfl, ?_⟩
    simp only
    rw [← hc, List.map_map]
    exact congrArg some (List.map_id _).symm

/-- Three identical files. -/
def threeFiles : List FileEnt := [⟨"a", 3, 0, false⟩, ⟨"b", 3, 0, false⟩, ⟨"c", 3, 0, false⟩]

/-- Two identical files, one with a line break in its name. -/
def twoFiles : List FileEnt := [⟨"a", 3, 0, false⟩, ⟨"c\nb", 3, 0, false⟩]

/-- A world in which all files are identical. -/
def sameWorld : World Nat := Report.natWorld (fun _ => some 5) (fun _ _ _ => .ok (true, 0))

/-- The group of the three files, in the order in which it is found. -/
def threeGroup : Group Nat := ⟨3, 5, [⟨"a", 3, 0, false⟩, ⟨"c", 3, 0, false⟩, ⟨"b", 3, 0, false⟩]⟩

theorem three_limits : Limits sameWorld threeFiles := Report.natWorld_limits _ _ _ [3] (by decide) (by decide) (by decide)

theorem three_identical : ∃ out, ftwin sameWorld false threeFiles = .ok out ∧ out.groups = some [threeGroup] :=
  run_eval (gs := [(3, 5, threeGroup.files)]) threeGroup.files [3] three_limits (by decide +kernel) (by decide) (by decide) (by decide) (by decide +kernel)

theorem two_identical : ∃ out, ftwin sameWorld false twoFiles = .ok out ∧ out.groups = some [⟨3, 0, twoFiles⟩] :=
  run_eval (gs := [(3, 0, twoFiles)]) twoFiles [3] (Report.natWorld_limits _ _ _ [3] (by decide) (by decide) (by decide))
    (by decide +kernel) (by decide) (by decide) (by decide) (by decide +kernel)

/-- **C80 is false.**  With the default separator, three identical files `a`, `c`, `b` and two identical files `a` and
`c⟨line break⟩b` give the same report. -/
theorem text_report_ambiguous : ∃ out gs out' gs', ftwin sameWorld false threeFiles = .ok out ∧ out.groups = some gs ∧
    ftwin sameWorld false twoFiles = .ok out' ∧ out'.groups = some gs' ∧
    gs.map (fun g => g.files.map (·.path)) = [["a", "c", "b"]] ∧ gs'.map (fun g => g.files.map (·.path)) = [["a", "c\nb"]] ∧
    textReport ⟨'\n', false, colors false⟩ gs = textReport ⟨'\n', false, colors false⟩ gs' := by
  obtain ⟨out, h1, h2⟩ := three_identical
  obtain ⟨out', h1', h2'⟩ := two_identical
  refine ⟨out, _, out', _, h1, h2, h1', h2', ?_, ?_, ?_⟩
  · simp [threeGroup]
  · simp [twoFiles]
  · simp [textReport, printGroup, threeGroup, twoFiles, printPairs, printPair, printHead, printFile, colors]

/-- The theorems apply to the run on the three files, whose report has `a`, `c`, `b` on lines of their own and a blank line. -/
example : (∀ f ∈ threeFiles, Plain '\n' f.path.toList) ∧ Limits sameWorld threeFiles ∧ ∃ out gs, ftwin sameWorld false threeFiles = .ok out ∧
    out.groups = some gs ∧ textReport ⟨'\n', false, colors false⟩ gs = ['a', '\n', 'c', '\n', 'b', '\n', '\n'] := by
  obtain ⟨out, h1, h2⟩ := three_identical
  refine ⟨?_, three_limits, out, _, h1, h2, ?_⟩
  · intro f hf
    simp only [threeFiles, List.mem_cons, List.not_mem_nil, or_false] at hf
    rcases hf with rfl | rfl | rfl <;> exact ⟨by simp, by simp, by simp⟩
  · simp [textReport, printGroup, threeGroup, printPairs, printPair, printHead, printFile, colors]

end Verif.Output
