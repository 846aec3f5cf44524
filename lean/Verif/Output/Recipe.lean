import Verif.Output.Props

/-!
# The clean-up recipe of the README (specification and lemmas for C117)

README.md L125-131 (and EXAMPLES) tells the user to write the report with `-s ","` to a file `log` and then to run

    cut -d"," -f1 -s < log | grep "tmppix" | while read FILE; do rm -f "${FILE}" ; done

The three commands are modelled here as functions of text.  The word given to `grep` is taken to have no special characters.  `read` takes
blanks at both ends away and interprets backslashes (a backslash at the end of a line, which would join it with the next one, is only dropped here).
-/

namespace Verif.Output

open Verif.Report (FileEnt Group)

/-! ## Specification -/

/-- `cut -d"," -f1 -s`: of the lines that contain a comma what precedes the first one. -/
def cutFirst (log : List Char) : List (List Char) := ((cutAt '\n' log []).filter (fun l => decide (',' ∈ l))).map (fun l => l.takeWhile (fun c => decide (c ≠ ',')))

/-- The word occurs in the line. -/
def hasWord (w : List Char) : List Char → Bool
  | [] => w.isPrefixOf []
  | c :: r => w.isPrefixOf (c :: r) || hasWord w r

/-- A backslash quotes the character behind it. -/
def unquote : List Char → List Char
  | [] => []
  | ['\\'] => []
  | '\\' :: c :: r => c :: unquote r
  | c :: r => c :: unquote r

/-- A space or a tabulator. -/
def blank (c : Char) : Bool := c = ' ' || c = '\t'

/-- `read FILE`: blanks at both ends are dropped, and backslashes. -/
def readLine (l : List Char) : List Char := unquote (((l.dropWhile blank).reverse.dropWhile blank).reverse)

/-- The names given to `rm`. -/
def recipe (word log : List Char) : List (List Char) := ((cutFirst log).filter (hasWord word)).map readLine

/-- A name that goes through the recipe unchanged. -/
structure Survives (name : List Char) : Prop where
  plain : Plain ',' name
  quote : '\\' ∉ name
  front : ∀ c, name.head? = some c → blank c = false
  back : ∀ c, name.getLast? = some c → blank c = false

/-! ## Lemmas -/

theorem unquote_id : ∀ {l : List Char}, '\\' ∉ l → unquote l = l := by
  intro l
  induction l with
  | nil => intro _; rfl
  | cons c r ih =>
    intro h
    simp only [List.mem_cons, not_or] at h
    cases r with
    | nil => rw [unquote]; · rfl
             · rintro rfl; exact absurd rfl h.1
             · intro _ _ e; exact absurd e.symm h.1
    | cons d r => rw [unquote, ih h.2]
                  · intro e; exact absurd e.symm h.1
                  · intro _ _ e; exact absurd e.symm h.1

theorem readLine_id {l : List Char} (h : Survives l) : readLine l = l := by
  unfold readLine
  have h1 : l.dropWhile blank = l := by
    cases l with
    | nil => rfl
    | cons c r => rw [List.dropWhile_cons, if_neg (by rw [h.front c rfl]; simp)]
  have h2 : l.reverse.dropWhile blank = l.reverse := by
    have hb := h.back
    rw [← List.head?_reverse] at hb
    cases hr : l.reverse with
    | nil => rfl
    | cons c r => rw [List.dropWhile_cons, if_neg (by rw [hb c (by rw [hr]; rfl)]; simp)]
  rw [h1, h2, List.reverse_reverse, unquote_id h.quote]

theorem takeWhile_first {p x : List Char} (h : ',' ∉ p) : (p ++ ',' :: x).takeWhile (fun c => decide (c ≠ ',')) = p := by
  induction p with
  | nil => simp
  | cons c p ih =>
    simp only [List.mem_cons, not_or] at h
    rw [List.cons_append, List.takeWhile_cons, if_pos (by simpa using fun e => h.1 e.symm), ih h.2]

theorem joinWith_oneLine (sep : Char) (hs : sep ≠ '\n') : ∀ {ps : List (List Char)}, (∀ p ∈ ps, '\n' ∉ p) → '\n' ∉ joinWith sep ps := by
  intro ps
  induction ps with
  | nil => intro _; simp [joinWith]
  | cons p ps ih =>
    intro h
    cases ps with
    | nil => simpa [joinWith] using h p (by simp)
    | cons q ps =>
      simp only [joinWith, List.mem_append, List.mem_cons, not_or]
      exact ⟨h p (by simp), fun e => hs e.symm, ih fun r hr => h r (by simp [hr])⟩

/-- The first names of blocks with at least two names. -/
theorem cutFirst_blocks : ∀ {gs : List (List (List Char))}, (∀ g ∈ gs, 2 ≤ g.length ∧ ∀ p ∈ g, Plain ',' p) →
    cutFirst (gs.flatMap (blockText ',')) = gs.filterMap List.head? := by
  intro gs
  unfold cutFirst
  induction gs with
  | nil => intro _; decide
  | cons g gs ih =>
    intro h
    obtain ⟨h2, hp⟩ := h g (by simp)
    match g, h2, hp with
    | p :: q :: ps, _, hp =>
      have hline : '\n' ∉ joinWith ',' (p :: q :: ps) := joinWith_oneLine ',' (by decide) fun r hr => (hp r hr).oneLine
      rw [List.flatMap_cons, blockText, List.append_assoc]
      simp only [List.cons_append, List.nil_append]
      rw [cutAt_name '\n' _ _ [] hline, cutAt, if_pos rfl, cutAt, if_pos rfl, List.append_nil, List.reverse_reverse, List.filter_cons, if_pos (by simp [joinWith]), List.filter_cons,
        if_neg (by simp), List.map_cons, ih fun g' hg' => h g' (by simp [hg']), List.filterMap_cons]
      simp only [List.head?_cons]
      rw [show joinWith ',' (p :: q :: ps) = p ++ ',' :: joinWith ',' (q :: ps) from rfl, takeWhile_first (hp p (by simp)).noSep]

/-- **C117, part.**  On the report of a completed run the recipe names exactly the first file of each group, as far as its name has the word in it. -/
theorem recipe_names [DecidableEq η] (w : Report.World η) (cands : List FileEnt) (out : Report.Outcome η) (gs : List (Group η))
    (hl : Report.Limits w cands) (hq : ∀ l, (w.qs l).Perm l) (h : Report.ftwin w false cands = .ok out) (hg : out.groups = some gs)
    (hname : ∀ f ∈ cands, Survives f.path.toList) (word : List Char) :
    recipe word (textReport ⟨',', false, colors false⟩ gs) = ((gs.filterMap (·.files.head?)).map (·.path.toList)).filter (hasWord word) := by
  have hm := listed_mem w false cands out gs hl hq h hg
  have ht : textReport ⟨',', false, colors false⟩ gs = (gs.map (fun g => g.files.map (·.path.toList))).flatMap (blockText ',') := by
    unfold textReport
    rw [List.flatMap_map, List.flatMap_def, List.flatMap_def]
    congr 1
    apply List.map_congr_left
    intro g hgm
    obtain ⟨f, f2, fs, hf⟩ := two_files (hm g hgm).1
    rw [printGroup_eq _ g f f2 fs hf, printFile_plain]
    simp [sizeLine]
  have hc : cutFirst (textReport ⟨',', false, colors false⟩ gs) = (gs.filterMap (·.files.head?)).map (·.path.toList) := by
    rw [ht, cutFirst_blocks]
    · rw [List.filterMap_map, List.map_filterMap]
      congr 1
      funext g
      simp [Function.comp]
    · intro g' hg'
      obtain ⟨g, hgm, rfl⟩ := List.mem_map.mp hg'
      refine ⟨by simpa using (hm g hgm).1, ?_⟩
      intro p hp
      obtain ⟨x, hx, rfl⟩ := List.mem_map.mp hp
      exact (hname x ((hm g hgm).2 x hx)).plain
  unfold recipe
  rw [hc]
  conv => rhs; rw [← List.map_id (List.filter _ _)]
  apply List.map_congr_left
  intro p hp
  obtain ⟨x, hx, rfl⟩ := List.mem_map.mp (List.mem_filter.mp hp).1
  obtain ⟨g, hgm, hx⟩ := List.mem_filterMap.mp hx
  exact readLine_id (hname x ((hm g hgm).2 x (List.mem_of_mem_head? hx)))

example : recipe "tmppix".toList "/h/tmppix/a.jpg,/h/b.jpg\n\n/h/c.jpg,/h/d.jpg,/h/e.jpg\n\n".toList = ["/h/tmppix/a.jpg".toList] := by decide +kernel
example : recipe "tmp".toList "/h/tmp/a ,b\n\n/h/tmp/c\\d,e\n\n".toList = ["/h/tmp/a".toList, "/h/tmp/cd".toList] := by decide +kernel

end Verif.Output
