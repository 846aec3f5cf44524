import Verif.Output.Props

/-!
# Colours on a terminal (C99)

What a terminal shows: `render` interprets the sequences ESC `[` code `m` as a terminal does (code 0 resets,
any other is added) and gives every visible character with the codes in force.
-/

namespace Verif.Output

open Verif.Report (FileEnt Group World Outcome Limits ftwin)

/-! ## Specification -/

/-- Where the terminal is in its input. -/
inductive Mode where
  | text
  | escape
  | code (acc : List Char)

/-- The visible characters of a text, each with the codes in force. -/
def render : Mode → List (List Char) → List Char → List (Char × List (List Char))
  | _, _, [] => []
  | .text, a, c :: r => if c = '\x1b' then render .escape a r else (c, a) :: render .text a r
  | .escape, a, c :: r => if c = '[' then render (.code []) a r else (c, a) :: render .text a r
  | .code acc, a, c :: r => if c = 'm' then render .text (if acc = ['0'] then [] else a ++ [acc]) r else render (.code (acc ++ [c])) a r

/-- A text shown with these codes. -/
def shown (a : List (List Char)) (t : List Char) : List (Char × List (List Char)) := t.map (·, a)

/-- Bold blue, for names; bold cyan, for sizes; no colour. -/
def nameColor : List (List Char) := [['3', '4'], ['1']]
def sizeColor : List (List Char) := [['3', '6'], ['1']]

/-- Names with separators between them. -/
def shownNames (sep : Char) : List (List Char) → List (Char × List (List Char))
  | [] => []
  | [p] => shown nameColor p
  | p :: q :: ps => shown nameColor p ++ (sep, []) :: shownNames sep (q :: ps)

/-- What a terminal is to show for a group: the size and the names in colour, everything else not. -/
def shownGroup (sep : Char) (sized : Bool) (size : Nat) (names : List (List Char)) : List (Char × List (List Char)) :=
  (if sized then shown sizeColor (sizeName size) ++ [('\n', [])] else []) ++ shownNames sep names ++ [('\n', []), ('\n', [])]

/-! ## Proofs -/

theorem render_plain (a : List (List Char)) (p x : List Char) (h : '\x1b' ∉ p) :
    render .text a (p ++ x) = shown a p ++ render .text a x := by
  induction p with
  | nil => rfl
  | cons c p ih =>
    simp only [List.mem_cons, not_or] at h
    rw [List.cons_append, render, if_neg (fun e => h.1 e.symm), ih h.2]
    rfl

theorem render_name (x : List Char) : render .text [] ((colors true).path ++ x) = render .text nameColor x := rfl

theorem render_size (x : List Char) : render .text [] ((colors true).size ++ x) = render .text sizeColor x := rfl

theorem render_reset (a : List (List Char)) (x : List Char) : render .text a ((colors true).reset ++ x) = render .text [] x := rfl

theorem render_char (a : List (List Char)) (c : Char) (x : List Char) (h : c ≠ '\x1b') : render .text a (c :: x) = (c, a) :: render .text a x := by
  rw [render, if_neg h]

theorem render_file (sep : Char) (sized : Bool) (f : FileEnt) (x : List Char) (h : '\x1b' ∉ f.path.toList) :
    render .text [] (printFile ⟨sep, sized, colors true⟩ f ++ x) = shown nameColor f.path.toList ++ render .text [] x := by
  unfold printFile
  simp only [List.append_assoc]
  rw [render_name, render_plain _ _ _ h, render_reset]

theorem render_join (sep : Char) (sized : Bool) (x : List Char) (hs : sep ≠ '\x1b') : ∀ (fs : List FileEnt), (∀ f ∈ fs, '\x1b' ∉ f.path.toList) →
    render .text [] (joinWith sep (fs.map (printFile ⟨sep, sized, colors true⟩)) ++ x) =
      shownNames sep (fs.map (·.path.toList)) ++ render .text [] x := by
  intro fs
  induction fs with
  | nil => intro _; rfl
  | cons f fs ih =>
    intro h
    cases fs with
    | nil => exact render_file sep sized f x (h f (by simp))
    | cons g fs =>
      simp only [List.map_cons, joinWith, shownNames, List.append_assoc]
      rw [render_file sep sized f _ (h f (by simp)), List.cons_append, render_char _ _ _ hs]
      have := ih (fun y hy => h y (by simp [hy]))
      simp only [List.map_cons] at this
      rw [this]
      simp

theorem digits_noEscape (n : Nat) : '\x1b' ∉ Nat.toDigits 10 n := by
  intro h
  have := Nat.isDigit_of_mem_toDigits (by decide) (by decide) h
  revert this; decide

theorem sizeName_noEscape (size : Nat) : '\x1b' ∉ sizeName size := by
  unfold sizeName
  generalize HumanSize.format size = z
  rw [List.mem_append, not_or]
  refine ⟨by decide, ?_⟩
  have hu : ∀ u, '\x1b' ∉ unitName u := by
    intro u
    match u with
    | 0 | 1 | 2 | 3 | 4 | 5 => decide
    | _ + 6 => simp [unitName]
  have hb := hu 0
  cases z with
  | bytes n => simp only [sizeText, List.mem_append, List.mem_cons, not_or]; exact ⟨digits_noEscape _, by decide, hb⟩
  | tenths t u =>
    simp only [sizeText, List.mem_append, List.mem_cons, not_or]
    exact ⟨digits_noEscape _, by decide, digits_noEscape _, by decide, hu u⟩

theorem render_sizeLine (sep : Char) (sized : Bool) (size : Nat) (x : List Char) :
    render .text [] (sizeLine ⟨sep, sized, colors true⟩ size ++ x) =
      (if sized then shown sizeColor (sizeName size) ++ [('\n', [])] else []) ++ render .text [] x := by
  cases sized with
  | false => rfl
  | true =>
    have h := sizeName_noEscape size
    have e : sizeLine ⟨sep, true, colors true⟩ size ++ x = (colors true).size ++ (sizeName size ++ ((colors true).reset ++ '\n' :: x)) := by
      unfold sizeLine sizeName
      rw [if_pos rfl]
      simp only [List.append_assoc, List.singleton_append]
    rw [e, render_size, render_plain _ _ _ h, render_reset, render_char _ _ _ (by decide)]
    simp

/-- **C99.** On a terminal, the report of a completed run shows the sizes and the names in their
colours and the punctuation without, whatever the groups are: no colour leaks out of a name.  Missing:
names that contain an escape character are sent to the terminal as they are (`escape_in_name`). -/
theorem colors_end_with_names_partial [DecidableEq η] (w : World η) (cands : List FileEnt) (out : Outcome η) (gs : List (Group η)) (sep : Char) (sized : Bool)
    (hl : Limits w cands) (hq : ∀ l, (w.qs l).Perm l) (h : ftwin w false cands = .ok out) (hg : out.groups = some gs)
    (hesc : ∀ f ∈ cands, '\x1b' ∉ f.path.toList) (hsep : sep ≠ '\x1b') :
    render .text [] (textReport ⟨sep, sized, colors true⟩ gs) =
      gs.flatMap (fun g => shownGroup sep sized g.size (g.files.map (·.path.toList))) := by
  have hm := listed_mem w false cands out gs hl hq h hg
  clear hg h hq hl
  unfold textReport
  induction gs with
  | nil => rfl
  | cons g gs ih =>
    obtain ⟨f, f2, fs, hf⟩ := two_files (hm g (by simp)).1
    rw [List.flatMap_cons, List.flatMap_cons, printGroup_eq _ g f f2 fs hf, List.append_assoc, render_sizeLine, blockText, List.append_assoc,
      render_join sep sized _ hsep g.files (fun y hy => hesc y ((hm g (by simp)).2 y hy))]
    simp only [List.cons_append, List.nil_append]
    rw [render_char _ _ _ (by decide), render_char _ _ _ (by decide), ih (fun y hy => hm y (by simp [hy]))]
    simp [shownGroup]

/-- On a terminal the visible characters are those written to a pipe. -/
theorem colors_do_not_change_text_partial [DecidableEq η] (w : World η) (cands : List FileEnt) (out : Outcome η) (gs : List (Group η)) (sep : Char) (sized : Bool)
    (hl : Limits w cands) (hq : ∀ l, (w.qs l).Perm l) (h : ftwin w false cands = .ok out) (hg : out.groups = some gs)
    (hesc : ∀ f ∈ cands, '\x1b' ∉ f.path.toList) (hsep : sep ≠ '\x1b') :
    (render .text [] (textReport ⟨sep, sized, colors true⟩ gs)).map (·.1) = textReport ⟨sep, sized, colors false⟩ gs := by
  rw [colors_end_with_names_partial w cands out gs sep sized hl hq h hg hesc hsep]
  have hm := listed_mem w false cands out gs hl hq h hg
  have hshown : ∀ a t, (shown a t).map (·.1) = t := by
    intro a t
    unfold shown
    rw [List.map_map]
    exact List.map_id _
  have hnames : ∀ ps, (shownNames sep ps).map (·.1) = joinWith sep ps := by
    intro ps
    induction ps with
    | nil => rfl
    | cons p ps ih =>
      cases ps with
      | nil => exact hshown _ _
      | cons q ps => simp only [shownNames, joinWith, List.map_append, List.map_cons, hshown, ih]
  unfold textReport
  rw [List.map_flatMap]
  rw [List.flatMap_def, List.flatMap_def]
  congr 1
  apply List.map_congr_left
  intro g hgm
  obtain ⟨f, f2, fs, hf⟩ := two_files (hm g hgm).1
  rw [printGroup_eq _ g f f2 fs hf, printFile_plain, shownGroup]
  simp only [List.map_append, hnames, blockText, List.map_cons, List.map_nil, List.append_assoc]
  congr 1
  cases sized with
  | false => rfl
  | true =>
    rw [sizeLine_plain]
    simp [hshown]

/-- Two identical files, one with an escape sequence in its name. -/
def escFiles : List FileEnt := [⟨"a", 3, 0, false⟩, ⟨"\x1b[8mb", 3, 0, false⟩]

/-- **C99 is false** for names with escape characters: the sequence in the name takes effect.  The file whose name
begins with ESC`[8m` is shown as `b`, and with the code for concealed characters. -/
theorem escape_in_name : ∃ out gs, ftwin sameWorld false escFiles = .ok out ∧ out.groups = some gs ∧
    gs.map (fun g => g.files) = [escFiles] ∧
    render .text [] (textReport ⟨'\n', false, colors true⟩ gs) =
      [('a', nameColor), ('\n', []), ('b', nameColor ++ [['8']]), ('\n', []), ('\n', [])] := by
  obtain ⟨out, h1, h2⟩ := run_eval (w := sameWorld) (json := false) (cands := escFiles) (gs := [(3, 0, escFiles)]) escFiles [3]
    (Report.natWorld_limits _ _ _ [3] (by decide) (by decide) (by decide)) (by decide +kernel) (by decide) (by decide) (by decide) (by decide +kernel)
  refine ⟨out, _, h1, h2, rfl, ?_⟩
  simp [textReport, printGroup, escFiles, printPairs, printPair, printHead, printFile, colors, render, nameColor]

/-- The theorems apply to the run on three files. -/
example : (∀ f ∈ threeFiles, '\x1b' ∉ f.path.toList) ∧ Limits sameWorld threeFiles ∧ ∃ out gs, ftwin sameWorld false threeFiles = .ok out ∧
    out.groups = some gs ∧ gs.flatMap (fun g => shownGroup ',' false g.size (g.files.map (·.path.toList))) =
      [('a', nameColor), (',', []), ('c', nameColor), (',', []), ('b', nameColor), ('\n', []), ('\n', [])] := by
  obtain ⟨out, h1, h2⟩ := three_identical
  refine ⟨?_, three_limits, out, _, h1, h2, ?_⟩
  · intro f hf
    simp only [threeFiles, List.mem_cons, List.not_mem_nil, or_false] at hf
    rcases hf with rfl | rfl | rfl <;> simp
  · simp [threeGroup, shownGroup, shownNames, shown]

end Verif.Output
