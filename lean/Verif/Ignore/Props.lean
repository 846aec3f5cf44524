import Verif.Ignore.Lemmas

/-! # Properties C25-C29: ignore files -/

namespace Verif.Ignore

/-! ## An engine that conforms -/

theorem run_append (v : List Char) : ∀ (u : List Char) (p q : PS), p.run u = some q → p.run (u ++ v) = none ∨ p.run (u ++ v) = q.run v := by
  intro u
  induction u with
  | nil => intro p q h; injection h with h; subst h; exact Or.inr rfl
  | cons c u ih =>
    intro p q h
    rw [PS.run] at h
    rw [List.cons_append, PS.run]
    cases hs : p.step c u with
    | none => rw [hs] at h; cases h
    | some p' =>
      rw [hs] at h
      have : p.step c (u ++ v) = none ∨ p.step c (u ++ v) = some p' := by
        unfold PS.step at hs ⊢
        split at hs
        all_goals first | exact Or.inr hs | skip
        split at hs
        · rename_i h1; rw [if_pos h1]; exact Or.inr hs
        · rename_i h1
          rw [if_neg h1]
          split at hs
          · cases hs
          · split
            · exact Or.inl rfl
            · exact Or.inr hs
      rcases this with e | e
      · rw [e]; exact Or.inl rfl
      · rw [e]; exact ih p' q h

theorem parse_alone {text : List Char} (h : Alone text) : parse text = none := by
  obtain ⟨u, x, t, p, rfl, hp, hm, hx⟩ := h
  have hx' : x ≠ '^' := by rintro rfl; simp [posixAlone] at hx
  have h2 : p.run ('[' :: x :: t) = none := by
    rw [PS.run]
    have : p.step '[' (x :: t) = some { p with mode := .clsStart } := by simp [PS.step, hm]
    rw [this]
    simp [PS.run, PS.step, hx', hx]
  unfold parse
  rcases run_append ('[' :: x :: t) u _ _ hp with e | e
  · rw [e]
  · rw [e, h2]

open Classical in
/-- A conforming engine exists. -/
noncomputable def refEngine : Engine := fun text => (parse text).map (fun r s => decide (r.Search s))

theorem refEngine_conforms : refEngine.Conforms := by
  refine ⟨fun text r h => ?_, fun text h => ?_, fun text h => by simp [refEngine, parse_alone h]⟩
  · classical exact ⟨fun s => decide (r.Search s), by simp [refEngine, h], fun s => by simp⟩
  · obtain ⟨p, hp, hm⟩ := h
    have : parse text = none := by
      unfold parse
      rw [hp]
      split
      · rename_i h
        injection h with h
        subst h
        rcases hm with h | h | ⟨_, _, _, h⟩ <;> cases h
      · rfl
    simp [refEngine, this]

/-! ## C25: what a pattern matches -/

/-- The text of a pattern with its marks. -/
def render (neg anch : Bool) (core : List Char) (dir : Bool) : List Char :=
  (if neg then ['!'] else []) ++ (if anch then ['/'] else []) ++ core ++ (if dir then ['/'] else [])

/-- `core` can stand between the marks without being taken for one. -/
structure CoreOkX (sl neg anch dir : Bool) (core : List Char) : Prop where
  frag : fragX sl core = true
  last : ∃ c, core.getLast? = some c ∧ c ≠ '/' ∧ isSpace c = false
  first : anch = false → ∃ c, core.head? = some c ∧ c ≠ '/' ∧ isSpace c = false ∧ (neg = false → c ≠ '!' ∧ c ≠ '#')

/-- The same without classes that contain the slash. -/
abbrev CoreOk := CoreOkX false

/-- The last character that is not blank is no slash. -/
def NoSlashLast (core : List Char) : Prop := ∃ c, (core.reverse.dropWhile isSpace).head? = some c ∧ c ≠ '/'

theorem noSlashLast_of {core : List Char} (h : ∃ c, core.getLast? = some c ∧ c ≠ '/' ∧ isSpace c = false) : NoSlashLast core := by
  obtain ⟨l, hl, hl1, hl2⟩ := h
  obtain ⟨q, rfl⟩ : ∃ q, core = q ++ [l] := by
    rw [List.getLast?_eq_some_iff] at hl; exact hl
  exact ⟨l, by simp [hl2], hl1⟩

theorem handleMarks_blank {neg anch dir : Bool} {core : List Char} (hlast : ∃ c, core.getLast? = some c ∧ c ≠ '/') (hns : dir = false → NoSlashLast core)
    (hf : anch = false → ∃ c, core.head? = some c ∧ c ≠ '/' ∧ isSpace c = false ∧ (neg = false → c ≠ '!' ∧ c ≠ '#')) :
    handleMarks (render neg anch core dir) = (⟨neg, dir, anch⟩, core ++ if dir then ['/'] else []) := by
  obtain ⟨l, hl, hl1⟩ := hlast
  obtain ⟨q, rfl⟩ : ∃ q, core = q ++ [l] := by
    rw [List.getLast?_eq_some_iff] at hl; exact hl
  have hdir : endsSlash (render neg anch (q ++ [l]) dir) (q ++ [l] ++ if dir then ['/'] else []) = dir := by
    cases dir
    · obtain ⟨c, hc, hc1⟩ := hns rfl
      simp only [endsSlash, Bool.false_eq_true, if_false, List.append_nil]
      cases hd : (q ++ [l]).reverse.dropWhile isSpace with
      | nil => rw [hd] at hc; simp at hc
      | cons d r => rw [hd] at hc; simp at hc; subst hc; simp [hc1]
    · simp [endsSlash, show isSpace '/' = false from by decide]
  have h1 : takeNegation (render neg anch (q ++ [l]) dir) = (neg, (if anch then ['/'] else []) ++ (q ++ [l]) ++ (if dir then ['/'] else [])) := by
    cases neg
    · cases anch
      · obtain ⟨c, hc, _, _, h3⟩ := hf rfl
        have h3 := (h3 rfl).1
        generalize q ++ [l] = core at *
        cases core with
        | nil => simp at hc
        | cons d r => simp at hc; subst hc; simp [takeNegation, render, h3]
      · simp [takeNegation, render]
    · cases anch
      · obtain ⟨c, hc, _, h2, _⟩ := hf rfl
        generalize q ++ [l] = core at *
        cases core with
        | nil => simp at hc
        | cons d r => simp at hc; subst hc; simp [takeNegation, render, h2]
      · simp [takeNegation, render, show isSpace '/' = false from by decide]
  have h2 : takeAnchor ((if anch then ['/'] else []) ++ (q ++ [l]) ++ (if dir then ['/'] else [])) = (anch, q ++ [l] ++ (if dir then ['/'] else [])) := by
    cases anch
    · obtain ⟨c, hc, h1, _⟩ := hf rfl
      generalize q ++ [l] = core at *
      cases core with
      | nil => simp at hc
      | cons d r => simp at hc; subst hc; simp [takeAnchor, h1]
    · simp [takeAnchor]
  unfold handleMarks
  dsimp only
  rw [h1]
  dsimp only
  rw [h2]
  dsimp only
  rw [hdir]

theorem handleMarks_core {neg anch dir : Bool} {core : List Char} (hlast : ∃ c, core.getLast? = some c ∧ c ≠ '/' ∧ isSpace c = false)
    (hf : anch = false → ∃ c, core.head? = some c ∧ c ≠ '/' ∧ isSpace c = false ∧ (neg = false → c ≠ '!' ∧ c ≠ '#')) :
    handleMarks (render neg anch core dir) = (⟨neg, dir, anch⟩, core ++ if dir then ['/'] else []) := by
  obtain ⟨l, hl, hl1, hl2⟩ := hlast
  exact handleMarks_blank ⟨l, hl, hl1⟩ (fun _ => noSlashLast_of ⟨l, hl, hl1, hl2⟩) hf

theorem handleMarks_render {sl neg anch dir : Bool} {core : List Char} (h : CoreOkX sl neg anch dir core) :
    handleMarks (render neg anch core dir) = (⟨neg, dir, anch⟩, core ++ if dir then ['/'] else []) :=
  handleMarks_core h.last h.first

theorem text_length (p : List Char) (h : p.length ≤ 908) : (pcreText p).length + 1 ≤ maxLen := by
  have hb : (handleMarks p).2.length ≤ p.length := by
    have h1 : ∀ p : List Char, (takeNegation p).2.length ≤ p.length := by
      intro p
      unfold takeNegation
      split
      · rename_i r
        have := (List.dropWhile_sublist (l := r) isSpace).length_le
        simp only [List.length_cons]; omega
      · exact Nat.le_refl _
    have h2 : ∀ p : List Char, (takeAnchor p).2.length ≤ p.length := by
      intro p
      unfold takeAnchor
      split
      · simp
      · exact Nat.le_refl _
    exact Nat.le_trans (h2 _) (h1 _)
  have hc := (convert_length (handleMarks p).1.dirOnly false (handleMarks p).2).1
  have hs : (startAnchor (handleMarks p).1).length ≤ 5 := by unfold startAnchor; split <;> simp
  show (startAnchor (handleMarks p).1 ++ convert (handleMarks p).1.dirOnly false (handleMarks p).2 ++ endAnchor (handleMarks p).1).length + 1 ≤ 4096
  simp only [List.length_append]
  cases hd : (handleMarks p).1.dirOnly with
  | false =>
    have he : (endAnchor (handleMarks p).1).length = 1 := by unfold endAnchor; rw [if_neg (by simp [hd])]; rfl
    rw [hd] at hc
    omega
  | true =>
    have he : (endAnchor (handleMarks p).1).length = 5 := by unfold endAnchor; rw [if_pos hd]; rfl
    rw [hd] at hc
    have hm : endsSlash p (handleMarks p).2 = true := hd
    unfold endsSlash at hm
    split at hm
    · rename_i c r hr
      have hc' : c = '/' := by simpa using hm
      have h1 : '/' ∈ (handleMarks p).2.reverse.dropWhile isSpace := by rw [hr, hc']; simp
      have h2 : '/' ∈ (handleMarks p).2 := List.mem_reverse.mp ((List.dropWhile_sublist _).subset h1)
      have := (convert_length_slash true false _ h2).1
      omega
    · have h3 : (handleMarks p).2 = [] := by
        simp only [Bool.and_eq_true, List.isEmpty_iff] at hm
        exact hm.1
      rw [h3] at hc ⊢
      have : (convert true false []).length = 0 := rfl
      omega

theorem render_start_core {neg anch dir : Bool} {core : List Char}
    (hf : anch = false → ∃ c, core.head? = some c ∧ c ≠ '/' ∧ isSpace c = false ∧ (neg = false → c ≠ '!' ∧ c ≠ '#')) :
    ∃ c r, render neg anch core dir = c :: r ∧ isSpace c = false ∧ c ≠ '#' := by
  cases neg
  · cases anch
    · obtain ⟨c, hc, _, h2, h3⟩ := hf rfl
      cases core with
      | nil => simp at hc
      | cons d r => simp at hc; subst hc; exact ⟨d, _, rfl, h2, (h3 rfl).2⟩
    · exact ⟨'/', _, rfl, by decide, by decide⟩
  · exact ⟨'!', _, rfl, by decide, by decide⟩

theorem render_start {sl neg anch dir : Bool} {core : List Char} (h : CoreOkX sl neg anch dir core) :
    ∃ c r, render neg anch core dir = c :: r ∧ isSpace c = false ∧ c ≠ '#' :=
  render_start_core h.first

theorem addPattern_ok (E : Engine) (ps : List Pattern) (c : Char) (r : List Char) (h1 : isSpace c = false) (h2 : c ≠ '#')
    (hlen : (c :: r).length ≤ 908) (f : List Char → Bool) (hf : E (pcreText (c :: r)) = some f) :
    addPattern E ps (c :: r) = .ok (ps ++ [⟨(handleMarks (c :: r)).1.negate, (handleMarks (c :: r)).1.dirOnly, f⟩]) := by
  unfold addPattern
  rw [List.dropWhile_cons_of_neg (by simp [h1])]
  split
  · rename_i h; cases h
  · rename_i h; injection h with h; exact absurd h h2
  · rw [globToPcre, if_pos (text_length _ hlen), Res.ok_bind, hf]

/-- What the code makes of a pattern of the fragment: classes may match a slash, and blanks at the end stand for themselves. -/
theorem pattern_matches_blank (E : Engine) (hE : E.Conforms) (sl neg anch dir : Bool) (core : List Char)
    (hfrag : fragX sl core = true) (hlast : ∃ c, core.getLast? = some c ∧ c ≠ '/') (hns : dir = false → NoSlashLast core)
    (hfirst : anch = false → ∃ c, core.head? = some c ∧ c ≠ '/' ∧ isSpace c = false ∧ (neg = false → c ≠ '!' ∧ c ≠ '#'))
    (hd : dir = true → ∀ q, core ≠ q ++ ['*', '*'])
    (hlen : (render neg anch core dir).length ≤ 908) (ps : List Pattern) :
    ∃ f, addPattern E ps (render neg anch core dir) = .ok (ps ++ [⟨neg, dir, f⟩]) ∧
      ∀ rel, '\n' ∉ rel → (f rel = true ↔ PathMatchX true anch dir core rel) := by
  have v := view_of_frag _ core hfrag
  have hm := handleMarks_blank (neg := neg) hlast hns hfirst
  have hconv : convert dir false (core ++ if dir then ['/'] else []) = convert false false core := by
    cases dir
    · simp
    · obtain ⟨c, hl, hl1⟩ := hlast
      exact convert_dir v (hd rfl) (by rw [hl]; simpa using hl1)
  have ht : pcreText (render neg anch core dir) = startAnchor ⟨neg, dir, anch⟩ ++ convert false false core ++ endAnchor ⟨neg, dir, anch⟩ := by
    unfold pcreText
    rw [hm]
    dsimp only
    rw [hconv]
  obtain ⟨l, hl, hparse⟩ := parse_text v anch dir neg
  obtain ⟨f, hf, hfs⟩ := hE.runs _ _ hparse
  refine ⟨f, ?_, fun rel hn => (hfs rel).trans (search_iff hl anch dir rel hn)⟩
  obtain ⟨c, r, he, h1, h2⟩ := render_start_core (dir := dir) hfirst
  rw [← ht] at hf
  rw [he] at hlen hf hm ⊢
  rw [addPattern_ok E ps c r h1 h2 hlen f hf, hm]

/-- The same for patterns that do not end in a blank. -/
theorem pattern_matches_loose (E : Engine) (hE : E.Conforms) (sl neg anch dir : Bool) (core : List Char)
    (hc : CoreOkX sl neg anch dir core) (hd : dir = true → ∀ q, core ≠ q ++ ['*', '*'])
    (hlen : (render neg anch core dir).length ≤ 908) (ps : List Pattern) :
    ∃ f, addPattern E ps (render neg anch core dir) = .ok (ps ++ [⟨neg, dir, f⟩]) ∧
      ∀ rel, '\n' ∉ rel → (f rel = true ↔ PathMatchX true anch dir core rel) := by
  obtain ⟨c, h1, h2, h3⟩ := hc.last
  exact pattern_matches_blank E hE sl neg anch dir core hc.frag ⟨c, h1, h2⟩ (fun _ => noSlashLast_of ⟨c, h1, h2, h3⟩) hc.first hd hlen ps

/-- C25 (what is missing, where the claim fails: classes that contain the slash, see `class_matches_slash`; classes with a star or
a question mark after a closing bracket that is an element or ends a named class, see `bracket_first_class` and
`named_then_star`; classes that look like a POSIX element, see `posix_class_dropped`; escaped letters and digits, see
`escaped_letter`; directory patterns ending in `**`, see `trailing_double_star_slash`.  And, where nothing is said: unknown names of
classes, hyphens after a named class, ranges that begin with the first closing bracket): a pattern of the fragment is loaded, and
it matches exactly the paths the glob semantics says. -/
theorem pattern_matches_glob_partial (E : Engine) (hE : E.Conforms) (neg anch dir : Bool) (core : List Char)
    (hc : CoreOk neg anch dir core) (hd : dir = true → ∀ q, core ≠ q ++ ['*', '*'])
    (hlen : (render neg anch core dir).length ≤ 908) (ps : List Pattern) :
    ∃ f, addPattern E ps (render neg anch core dir) = .ok (ps ++ [⟨neg, dir, f⟩]) ∧
      ∀ rel, '\n' ∉ rel → (f rel = true ↔ PathMatch anch dir core rel) := by
  obtain ⟨f, h1, h2⟩ := pattern_matches_loose E hE false neg anch dir core hc hd hlen ps
  have v := view_of_frag _ core hc.frag
  refine ⟨f, h1, fun rel hn => (h2 rel hn).trans ?_⟩
  constructor
  · rintro ⟨pre, mid, post, h3, h4, h5, h6⟩; exact ⟨pre, mid, post, h3, h4, (globX_strict v mid).mp h5, h6⟩
  · rintro ⟨pre, mid, post, h3, h4, h5, h6⟩; exact ⟨pre, mid, post, h3, h4, (globX_strict v mid).mpr h5, h6⟩

/-- C25 for classes that contain the slash, as `[!a]` does (what is missing: paths with slashes that only match because of that):
the paths the glob semantics says do match, and of the paths without slashes no others. -/
theorem class_pattern_partial (E : Engine) (hE : E.Conforms) (neg anch dir : Bool) (core : List Char)
    (hc : CoreOkX true neg anch dir core) (hd : dir = true → ∀ q, core ≠ q ++ ['*', '*'])
    (hlen : (render neg anch core dir).length ≤ 908) (ps : List Pattern) :
    ∃ f, addPattern E ps (render neg anch core dir) = .ok (ps ++ [⟨neg, dir, f⟩]) ∧
      ∀ rel, '\n' ∉ rel → (PathMatch anch dir core rel → f rel = true) ∧
        ('/' ∉ rel → f rel = true → PathMatch anch dir core rel) := by
  obtain ⟨f, h1, h2⟩ := pattern_matches_loose E hE true neg anch dir core hc hd hlen ps
  refine ⟨f, h1, fun rel hn => ⟨fun h => (h2 rel hn).mpr ?_, fun hs h => ?_⟩⟩
  · obtain ⟨pre, mid, post, h3, h4, h5, h6⟩ := h
    exact ⟨pre, mid, post, h3, h4, globX_strict.globX_mono h5, h6⟩
  · obtain ⟨pre, mid, post, rfl, h4, h5, h6⟩ := (h2 rel hn).mp h
    refine ⟨pre, mid, post, rfl, h4, (globX_noslash ?_).mp h5, h6⟩
    intro hm; simp [hm] at hs

/-- C25 is false for classes that contain the slash: `a[!b]c` matches `a/c`. -/
theorem class_matches_slash (E : Engine) (hE : E.Conforms) : ∃ ps, addPattern E [] "a[!b]c".toList = .ok ps ∧
    ignoreMatch [⟨['r'], ps⟩] "r/a/c".toList false = .ignored ∧ ¬ PathMatch false false "a[!b]c".toList "a/c".toList := by
  have hok : CoreOkX true false false false ['a', '[', '!', 'b', ']', 'c'] :=
    ⟨by decide, ⟨'c', by decide, by decide, by decide⟩, fun _ => ⟨'a', by decide, by decide, by decide, fun _ => by decide⟩⟩
  obtain ⟨f, h1, h2⟩ := pattern_matches_loose E hE true false false false _ hok (by simp) (by decide) []
  refine ⟨_, h1, ?_, ?_⟩
  · have : f ['a', '/', 'c'] = true := by
      refine (h2 _ (by decide)).mpr ⟨[], ['a', '/', 'c'], [], rfl, Or.inl rfl, ?_, Or.inl rfl⟩
      exact .lit (by decide) (.cls (neg := true) (rs := [('b', 'b')]) (p' := ['c']) (by decide) (by decide) (Or.inl rfl) (.lit (by decide) .nil))
    show ignoreMatch _ ['r', '/', 'a', '/', 'c'] false = _
    simp [ignoreMatch, matchChain, relative, List.isPrefixOf, scan, this]
  · rintro ⟨pre, mid, post, h3, h4, h5, h6⟩
    change GlobX false ['a', '[', '!', 'b', ']', 'c'] mid at h5
    change ['a', '/', 'c'] = _ at h3
    have hpost : post = [] := by rcases h6 with h | ⟨h, _⟩
                                 · exact h
                                 · cases h
    subst hpost
    cases h5 with
    | lit _ h5 =>
      cases h5 with
      | cls h7 h8 h9 h5 =>
        simp at h9
        have h7 : some (true, [('b', 'b')], ['c']) = some _ := h7
        injection h7 with h7; injection h7 with h10 h11; injection h11 with h11 h12; subst h10; subst h11; subst h12
        cases h5 with
        | lit _ h5 =>
          cases h5
          have hl := congrArg List.length h3
          simp at hl
          obtain rfl : pre = [] := by simpa using hl
          simp at h3
          exact h9 h3.symm
      | lit h => simp at h

/-- C25 is false for escaped letters: `\d` stands for the name `d`, and matches `7` instead. -/
theorem escaped_letter (E : Engine) (hE : E.Conforms) : ∃ ps, addPattern E [] "\\d".toList = .ok ps ∧
    ignoreMatch [⟨['r'], ps⟩] "r/7".toList false = .ignored ∧ ignoreMatch [⟨['r'], ps⟩] "r/d".toList false = .none ∧
    PathMatch false false "\\d".toList ['d'] ∧ ¬ PathMatch false false "\\d".toList ['7'] := by
  have hp : parse (pcreText ['\\', 'd']) = some (.seq (startRe false) (.seq (.set false [('0', '9')]) (.seq (endRe false) .eps))) := rfl
  obtain ⟨f, hf, hfs⟩ := hE.runs _ _ hp
  have h7 : f ['7'] = true := by
    refine (hfs _).mpr ⟨[], ['7'], [], rfl, m_seq.mpr ⟨[], ['7'], rfl, m_start.mpr (Or.inl ⟨rfl, rfl⟩), ?_⟩⟩
    exact m_seq.mpr ⟨['7'], [], rfl, m_set.mpr ⟨'7', rfl, by decide⟩, (m_end (by simp)).mpr (Or.inl ⟨rfl, rfl⟩)⟩
  have hd : f ['d'] = false := by
    rw [← Bool.not_eq_true, hfs]
    rintro ⟨b, m, a, he, h⟩
    obtain ⟨u, v, rfl, _, h⟩ := m_seq.mp h
    obtain ⟨x, y, rfl, h, _⟩ := m_seq.mp h
    obtain ⟨c, rfl, hc⟩ := m_set.mp h
    have : c ∈ ['d'] := by rw [he]; simp
    simp at this; subst this
    exact absurd hc (by decide)
  refine ⟨_, addPattern_ok E [] '\\' ['d'] (by decide) (by decide) (by decide) f hf, ?_, ?_, ?_, ?_⟩
  · show ignoreMatch _ ['r', '/', '7'] false = _
    simp [ignoreMatch, matchChain, relative, List.isPrefixOf, scan, h7, show (handleMarks ['\\', 'd']).1 = ⟨false, false, false⟩ from rfl]
  · show ignoreMatch _ ['r', '/', 'd'] false = _
    simp [ignoreMatch, matchChain, relative, List.isPrefixOf, scan, hd, show (handleMarks ['\\', 'd']).1 = ⟨false, false, false⟩ from rfl]
  · exact ⟨[], ['d'], [], rfl, Or.inl rfl, .esc .nil, Or.inl rfl⟩
  · rintro ⟨pre, mid, post, h3, _, h5, _⟩
    change GlobX false ['\\', 'd'] mid at h5
    cases h5 with
    | esc h =>
      have : 'd' ∈ ['7'] := by rw [h3]; simp
      simp at this
    | lit h => simp at h

/-- A class stands for one character. -/
theorem one_class {p : List Char} {rs : List (Char × Char)} {s : List Char} (h : readClass p = some (false, rs, [])) (hs : '/' ∉ s ∧ s.length ≠ 1) :
    ¬ PathMatch false false ('[' :: p) s := by
  rintro ⟨pre, mid, post, rfl, h4, h5, h6⟩
  have hpost : post = [] := by
    rcases h6 with h | ⟨h, _⟩
    · exact h
    · cases h
  have hpre : pre = [] := by
    rcases h4 with h | ⟨_, q, rfl⟩
    · exact h
    · exact absurd (by simp) hs.1
  subst hpost; subst hpre
  change GlobX false ('[' :: p) mid at h5
  cases h5 with
  | cls h7 _ _ h8 =>
    rw [h] at h7
    injection h7 with h7; injection h7 with _ h7; injection h7 with _ h7; subst h7
    cases h8
    simp at hs
  | lit h => simp at h

/-- C25 is false for a star after a closing bracket that is an element of a class: `[]*]` stands for the names `]` and `*`; it does
not match `*`, but matches `^]`. -/
theorem bracket_first_class (E : Engine) (hE : E.Conforms) : ∃ ps, addPattern E [] "[]*]".toList = .ok ps ∧
    ignoreMatch [⟨['r'], ps⟩] "r/]".toList false = .ignored ∧ ignoreMatch [⟨['r'], ps⟩] "r/*".toList false = .none ∧
    ignoreMatch [⟨['r'], ps⟩] "r/^]".toList false = .ignored ∧
    PathMatch false false "[]*]".toList ['*'] ∧ ¬ PathMatch false false "[]*]".toList ['^', ']'] := by
  have hp : parse (pcreText ['[', ']', '*', ']']) = some (.seq (startRe false)
      (.seq (.star (.set false [('/', '/'), ('^', '^'), ('[', '['), (']', ']')])) (.seq (lit ']') (.seq (endRe false) .eps)))) := rfl
  obtain ⟨f, hf, hfs⟩ := hE.runs _ _ hp
  have h1 : f [']'] = true := by
    refine (hfs _).mpr ⟨[], [']'], [], rfl, m_seq.mpr ⟨[], [']'], rfl, m_start.mpr (Or.inl ⟨rfl, rfl⟩), ?_⟩⟩
    refine m_seq.mpr ⟨[], [']'], rfl, .starNil, m_seq.mpr ⟨[']'], [], rfl, m_lit.mpr rfl, (m_end (by simp)).mpr (Or.inl ⟨rfl, rfl⟩)⟩⟩
  have h2 : f ['^', ']'] = true := by
    refine (hfs _).mpr ⟨[], ['^', ']'], [], rfl, m_seq.mpr ⟨[], ['^', ']'], rfl, m_start.mpr (Or.inl ⟨rfl, rfl⟩), ?_⟩⟩
    refine m_seq.mpr ⟨['^'], [']'], rfl, .starCons (m := ['^']) (m_set.mpr ⟨'^', rfl, by decide⟩) .starNil,
      m_seq.mpr ⟨[']'], [], rfl, m_lit.mpr rfl, (m_end (by simp)).mpr (Or.inl ⟨rfl, rfl⟩)⟩⟩
  have h3 : f ['*'] = false := by
    rw [← Bool.not_eq_true, hfs]
    rintro ⟨b, m, a, he, h⟩
    obtain ⟨u, v, rfl, _, h⟩ := m_seq.mp h
    obtain ⟨x, y, rfl, _, h⟩ := m_seq.mp h
    obtain ⟨x', y', rfl, h, _⟩ := m_seq.mp h
    rw [m_lit] at h; subst h
    have : ']' ∈ ['*'] := by rw [he]; simp
    simp at this
  have hm : (handleMarks ['[', ']', '*', ']']).1 = ⟨false, false, false⟩ := rfl
  refine ⟨_, addPattern_ok E [] '[' [']', '*', ']'] (by decide) (by decide) (by decide) f hf, ?_, ?_, ?_, ?_, ?_⟩
  · show ignoreMatch _ ['r', '/', ']'] false = _
    simp [ignoreMatch, matchChain, relative, List.isPrefixOf, scan, h1, hm]
  · show ignoreMatch _ ['r', '/', '*'] false = _
    simp [ignoreMatch, matchChain, relative, List.isPrefixOf, scan, h3, hm]
  · show ignoreMatch _ ['r', '/', '^', ']'] false = _
    simp [ignoreMatch, matchChain, relative, List.isPrefixOf, scan, h2, hm]
  · exact ⟨[], ['*'], [], rfl, Or.inl rfl, .cls (neg := false) (rs := [(']', ']'), ('*', '*')]) (p' := []) (by decide) (by decide) (Or.inr (by decide)) .nil, Or.inl rfl⟩
  · exact one_class (rs := [(']', ']'), ('*', '*')]) (by decide) (by decide)

/-- C25 is false for a star after a named class: `[[:digit:]*]` stands for the names of one digit and `*`; it does not match `*`, but
matches `^]`. -/
theorem named_then_star (E : Engine) (hE : E.Conforms) : ∃ ps, addPattern E [] "[[:digit:]*]".toList = .ok ps ∧
    ignoreMatch [⟨['r'], ps⟩] "r/*".toList false = .none ∧ ignoreMatch [⟨['r'], ps⟩] "r/^]".toList false = .ignored ∧
    PathMatch false false "[[:digit:]*]".toList ['*'] ∧ ¬ PathMatch false false "[[:digit:]*]".toList ['^', ']'] := by
  have hp : parse (pcreText ['[', '[', ':', 'd', 'i', 'g', 'i', 't', ':', ']', '*', ']']) = some (.seq (startRe false)
      (.seq (.star (.set false [('/', '/'), ('^', '^'), ('[', '['), ('0', '9')])) (.seq (lit ']') (.seq (endRe false) .eps)))) := by decide
  obtain ⟨f, hf, hfs⟩ := hE.runs _ _ hp
  have h2 : f ['^', ']'] = true := by
    refine (hfs _).mpr ⟨[], ['^', ']'], [], rfl, m_seq.mpr ⟨[], ['^', ']'], rfl, m_start.mpr (Or.inl ⟨rfl, rfl⟩), ?_⟩⟩
    refine m_seq.mpr ⟨['^'], [']'], rfl, .starCons (m := ['^']) (m_set.mpr ⟨'^', rfl, by decide⟩) .starNil,
      m_seq.mpr ⟨[']'], [], rfl, m_lit.mpr rfl, (m_end (by simp)).mpr (Or.inl ⟨rfl, rfl⟩)⟩⟩
  have h3 : f ['*'] = false := by
    rw [← Bool.not_eq_true, hfs]
    rintro ⟨b, m, a, he, h⟩
    obtain ⟨u, v, rfl, _, h⟩ := m_seq.mp h
    obtain ⟨x, y, rfl, _, h⟩ := m_seq.mp h
    obtain ⟨x', y', rfl, h, _⟩ := m_seq.mp h
    rw [m_lit] at h; subst h
    have : ']' ∈ ['*'] := by rw [he]; simp
    simp at this
  have hm : (handleMarks ['[', '[', ':', 'd', 'i', 'g', 'i', 't', ':', ']', '*', ']']).1 = ⟨false, false, false⟩ := by decide
  refine ⟨_, addPattern_ok E [] '[' ['[', ':', 'd', 'i', 'g', 'i', 't', ':', ']', '*', ']'] (by decide) (by decide) (by decide) f hf, ?_, ?_, ?_, ?_⟩
  · show ignoreMatch _ ['r', '/', '*'] false = _
    simp [ignoreMatch, matchChain, relative, List.isPrefixOf, scan, h3, hm]
  · show ignoreMatch _ ['r', '/', '^', ']'] false = _
    simp [ignoreMatch, matchChain, relative, List.isPrefixOf, scan, h2, hm]
  · exact ⟨[], ['*'], [], rfl, Or.inl rfl, .cls (neg := false) (rs := [('0', '9'), ('*', '*')]) (p' := []) (by decide) (by decide) (Or.inr (by decide)) .nil, Or.inl rfl⟩
  · exact one_class (rs := [('0', '9'), ('*', '*')]) (by decide) (by decide)

/-- C25 is false for classes that look like a POSIX element: `[:a:]` stands for the names `:` and `a`, but PCRE does not compile
it, and the pattern is dropped. -/
theorem posix_class_dropped (E : Engine) (hE : E.Conforms) (ps : List Pattern) : addPattern E ps "[:a:]".toList = .ok ps ∧
    PathMatch false false "[:a:]".toList ['a'] := by
  refine ⟨?_, [], ['a'], [], rfl, Or.inl rfl,
    .cls (neg := false) (rs := [(':', ':'), ('a', 'a'), (':', ':')]) (p' := []) (by decide) (by decide) (Or.inr (by decide)) .nil, Or.inl rfl⟩
  have h : E (pcreText ['[', ':', 'a', ':', ']']) = none :=
    hE.posix _ ⟨['(', '^', '|', '/', ')'], ':', ['a', ':', ']', '$'], _, by decide, rfl, rfl, by decide⟩
  show addPattern E ps ['[', ':', 'a', ':', ']'] = _
  unfold addPattern
  rw [List.dropWhile_cons_of_neg (by decide)]
  split
  · rename_i h; cases h
  · rename_i h; injection h with h; exact absurd h (by decide)
  · rw [globToPcre, if_pos (text_length _ (by decide)), Res.ok_bind, h]

/-- Literal characters before a class. -/
theorem convert_plain {dir : Bool} {q r : List Char} (hq : ∀ c ∈ q, c ∉ ['\\', '*', '?', '[']) (hr : r ≠ []) :
    ∃ w, convert dir false (q ++ r) = w ++ convert dir false r ∧
      ∀ items k alts st rest, ∃ items' k', PS.run ⟨.normal, items, k, alts, st⟩ (w ++ rest) = PS.run ⟨.normal, items', k', alts, st⟩ rest := by
  induction q with
  | nil => exact ⟨[], rfl, fun items k alts st rest => ⟨items, k, rfl⟩⟩
  | cons c q ih =>
    obtain ⟨w, h1, h2⟩ := ih (fun d hd => hq d (by simp [hd]))
    have hc := hq c (by simp)
    rw [List.cons_append, convert_lit hc (by simp [hr]), h1]
    refine ⟨if c ∈ metaChars then '\\' :: c :: w else c :: w, by split <;> rfl, fun items k alts st rest => ?_⟩
    obtain ⟨i', k', h3⟩ := h2 (lit c :: items) true alts st rest
    refine ⟨i', k', ?_⟩
    rw [← h3, ← run_lit c hc items k]
    split <;> rfl

/-- Ordinary characters leave a class open. -/
theorem run_open (neg : Bool) (t : List Char) (ht : ∀ c ∈ t, c ∉ ['\\', '[', ']', '-']) : ∀ acc m items k alts st, (m = .idle ∨ ∃ a, m = .one a) →
    ∃ acc' m', PS.run ⟨.cls neg acc m, items, k, alts, st⟩ t = some ⟨.cls neg acc' m', items, k, alts, st⟩ := by
  induction t with
  | nil => intro acc m items k alts st _; exact ⟨acc, m, rfl⟩
  | cons c t ih =>
    intro acc m items k alts st hm
    have hc := ht c (by simp)
    simp at hc
    have ih := ih (fun d hd => ht d (by simp [hd]))
    rcases hm with rfl | ⟨a, rfl⟩
    · obtain ⟨acc', m', h⟩ := ih acc (.one c) items k alts st (Or.inr ⟨c, rfl⟩)
      exact ⟨acc', m', by rw [← h]; simp [PS.run, PS.step, PS.clsStep, PS.clsIdle, hc]⟩
    · obtain ⟨acc', m', h⟩ := ih ((a, a) :: acc) (.one c) items k alts st (Or.inr ⟨c, rfl⟩)
      exact ⟨acc', m', by rw [← h]; simp [PS.run, PS.step, PS.clsStep, PS.clsIdle, PS.clsOne, hc]⟩

theorem convert_open {dir : Bool} (t : List Char) (ht : ∀ c ∈ t, c ∉ ['\\', '[', ']', '-']) : convert dir true t = t := by
  induction t with
  | nil => rw [convert]
  | cons c t ih =>
    have hc := ht c (by simp)
    simp at hc
    rw [convert_cls_cons hc.1 hc.2.2.1, ih (fun d hd => ht d (by simp [hd]))]

theorem posix_open {x : Char} : ∀ {t : List Char}, ']' ∉ t → posixEnd x t = false
  | [], _ => rfl
  | [_], _ => rfl
  | a :: b :: r, h => by
    have hb : b ≠ ']' := by rintro rfl; simp at h
    rw [posixEnd]
    split
    · exact posix_open (fun hm => h (by simp [hm]))
    · split
      · rfl
      · rw [if_neg (by simp [hb])]
        exact posix_open (fun hm => h (List.mem_cons_of_mem _ hm))

/-- A text that opens a class after some other characters, and then has ordinary characters only. -/
theorem unclosed_run (t : List Char) (ht : ∀ c ∈ t, c ∉ ['\\', '[', ']', '-']) (items : List Re) (k : Bool) (alts : List Re) (st : List (List Re × List Re)) :
    ∃ p, PS.run ⟨.normal, items, k, alts, st⟩ ('[' :: t) = some p ∧ (p.mode = .clsStart ∨ p.mode = .clsNeg ∨ ∃ neg acc m, p.mode = .cls neg acc m) := by
  have first : ∀ neg c t, (∀ d ∈ c :: t, d ∉ ['\\', '[', ']', '-']) →
      ∃ acc' m', PS.run (PS.clsFirst ⟨if neg then .clsNeg else .clsStart, items, k, alts, st⟩ neg c) t = some ⟨.cls neg acc' m', items, k, alts, st⟩ := by
    intro neg c t ht
    have hc := ht c (by simp)
    simp at hc
    obtain ⟨acc', m', h⟩ := run_open neg t (fun d hd => ht d (by simp [hd])) [] (.one c) items k alts st (Or.inr ⟨c, rfl⟩)
    exact ⟨acc', m', by rw [← h]; simp [PS.clsFirst, PS.clsIdle, hc]⟩
  cases t with
  | nil => exact ⟨_, rfl, Or.inl rfl⟩
  | cons c t =>
    by_cases hc : c = '^'
    · subst hc
      cases t with
      | nil => exact ⟨_, rfl, Or.inr (Or.inl rfl)⟩
      | cons d t =>
        obtain ⟨acc', m', h⟩ := first true d t (fun x hx => ht x (List.mem_cons_of_mem _ hx))
        exact ⟨_, h, Or.inr (Or.inr ⟨_, _, _, rfl⟩)⟩
    · obtain ⟨acc', m', h⟩ := first false c t ht
      refine ⟨⟨.cls false acc' m', items, k, alts, st⟩, ?_, Or.inr (Or.inr ⟨_, _, _, rfl⟩)⟩
      rw [← h]
      have hp : posixAlone c t = false := by
        unfold posixAlone
        rw [posix_open (fun hm => by have := ht ']' (List.mem_cons_of_mem _ hm); simp at this)]
        simp
      simp [PS.run, PS.step, hc, hp]

/-- C25 for classes that are not closed (what is missing: such patterns with other special characters before the class or inside
it): the pattern is dropped, and by the glob semantics it matches nothing. -/
theorem unclosed_class_partial (E : Engine) (hE : E.Conforms) (neg anch dir : Bool) (q body : List Char)
    (hq : ∀ c ∈ q, c ∉ ['\\', '*', '?', '[']) (hb : ∀ c ∈ body, c ∉ ['\\', '[', ']', '-'])
    (hlast : ∃ c, ('[' :: body).getLast? = some c ∧ c ≠ '/' ∧ isSpace c = false)
    (hfirst : anch = false → ∃ c, (q ++ '[' :: body).head? = some c ∧ c ≠ '/' ∧ isSpace c = false ∧ (neg = false → c ≠ '!' ∧ c ≠ '#'))
    (hlen : (render neg anch (q ++ '[' :: body) dir).length ≤ 908) (ps : List Pattern) :
    addPattern E ps (render neg anch (q ++ '[' :: body) dir) = .ok ps ∧ ∀ rel, ¬ PathMatch anch dir (q ++ '[' :: body) rel := by
  have hlast' : ∃ c, (q ++ '[' :: body).getLast? = some c ∧ c ≠ '/' ∧ isSpace c = false := by
    obtain ⟨c, h1, h2⟩ := hlast
    exact ⟨c, by rw [List.getLast?_append, h1]; rfl, h2⟩
  constructor
  · have hm : handleMarks (render neg anch (q ++ '[' :: body) dir) = (⟨neg, dir, anch⟩, (q ++ '[' :: body) ++ if dir then ['/'] else []) :=
      handleMarks_core hlast' hfirst
    have hun : Unclosed (pcreText (render neg anch (q ++ '[' :: body) dir)) := by
      unfold pcreText
      rw [hm]
      dsimp only
      obtain ⟨w, h1, h2⟩ := convert_plain (dir := dir) (q := q) (r := '[' :: (body ++ if dir then ['/'] else [])) hq (by simp)
      obtain ⟨x, hx, hcv⟩ : ∃ x, (∀ c ∈ x, c ∉ ['\\', '[', ']', '-']) ∧ convert dir false ('[' :: (body ++ if dir then ['/'] else [])) = '[' :: x := by
        have hbody : ∀ c ∈ (body ++ if dir then ['/'] else []), c ∉ ['\\', '[', ']', '-'] := by
          intro c hc
          rcases List.mem_append.mp hc with h | h
          · exact hb c h
          · cases dir
            · simp at h
            · simp at h; subst h; decide
        generalize (body ++ if dir then ['/'] else []) = y at hbody
        cases y with
        | nil => exact ⟨[], by simp, rfl⟩
        | cons c y =>
          have hy := fun d hd => hbody d (List.mem_cons_of_mem c hd)
          by_cases h1 : c = '!'
          · subst h1
            exact ⟨'^' :: y, by intro d hd; rcases List.mem_cons.mp hd with rfl | h
                                · decide
                                · exact hy d h, by rw [convert, convert_open y hy]; rfl⟩
          · by_cases h2 : c = '^'
            · subst h2
              exact ⟨'^' :: y, hbody, by rw [convert, convert_open y hy]; rfl⟩
            · refine ⟨c :: y, hbody, ?_⟩
              rw [convert, convert_open _ hbody]
              · intro _ h; injection h with h; exact absurd h h1
              · intro _ h; injection h with h; exact absurd h h2
      have hend : ∀ c ∈ x ++ endAnchor ⟨neg, dir, anch⟩, c ∉ ['\\', '[', ']', '-'] := by
        intro c hc
        rcases List.mem_append.mp hc with h | h
        · exact hx c h
        · cases dir
          · simp [endAnchor] at h; subst h; decide
          · simp [endAnchor] at h; rcases h with rfl | rfl | rfl | rfl | rfl <;> decide
      have hstart : ∀ rest, ∃ items k, PS.run PS.init (startAnchor ⟨neg, dir, anch⟩ ++ rest) = PS.run ⟨.normal, items, k, [], []⟩ rest := by
        intro rest
        cases anch
        · exact ⟨_, _, by simp [startAnchor, PS.run, PS.step, PS.init, PS.push, altOf, seqOf]; rfl⟩
        · exact ⟨_, _, by simp [startAnchor, PS.run, PS.step, PS.init]; rfl⟩
      rw [List.append_assoc q, List.cons_append, h1, hcv, List.append_assoc, List.append_assoc]
      obtain ⟨i1, k1, e1⟩ := hstart (w ++ ('[' :: x ++ endAnchor ⟨neg, dir, anch⟩))
      obtain ⟨i2, k2, e2⟩ := h2 i1 k1 [] [] ('[' :: x ++ endAnchor ⟨neg, dir, anch⟩)
      obtain ⟨p, e3, hp⟩ := unclosed_run (x ++ endAnchor ⟨neg, dir, anch⟩) hend i2 k2 [] []
      exact ⟨p, by rw [e1, e2]; exact e3, hp⟩
    have hE := hE.rejects _ hun
    obtain ⟨c, r, he, h1, h2⟩ := render_start_core (dir := dir) hfirst
    rw [he] at hlen hE ⊢
    unfold addPattern
    rw [List.dropWhile_cons_of_neg (by simp [h1])]
    split
    · rename_i h; cases h
    · rename_i h; injection h with h; exact absurd h h2
    · rw [globToPcre, if_pos (text_length _ hlen), Res.ok_bind, hE]
  · rintro rel ⟨pre, mid, post, -, -, hg, -⟩
    clear hlen hfirst hlast' hlast
    have hnone : readClass body = none := by
      cases h : readClass body with
      | none => rfl
      | some y =>
        obtain ⟨ng, rs, r⟩ := y
        have := readClass_bracket h
        exact absurd (hb ']' this) (by simp)
    induction q generalizing mid with
    | nil =>
      cases hg with
      | cls h => rw [hnone] at h; cases h
      | lit h => simp at h
    | cons c q ih =>
      have hc := hq c (by simp)
      simp only [List.cons_append] at hg
      have ih := ih (fun d hd => hq d (by simp [hd]))
      generalize q ++ '[' :: body = y at hg ih
      cases hg with
      | lit _ h => exact ih _ h
      | esc => simp at hc
      | one => simp at hc
      | cls => simp at hc
      | star => simp at hc
      | dirs0 => simp at hc
      | dirs => simp at hc
      | all => simp at hc

example : ∃ ps, addPattern refEngine [] (render false false "a[b".toList true) = .ok ps ∧ ps = [] :=
  ⟨_, (unclosed_class_partial refEngine refEngine_conforms false false true ['a'] ['b'] (by decide) (by decide)
    ⟨'b', by decide, by decide, by decide⟩ (fun _ => ⟨'a', by decide, by decide, by decide, fun _ => by decide⟩) (by decide) []).1, rfl⟩

/-! ## C26: last match wins -/

/-- A pattern says something about a path. -/
def Pattern.applies (isDir : Bool) (rel : List Char) (p : Pattern) : Bool := (isDir || !p.dirOnly) && p.exec rel

/-- What the deciding pattern says. -/
def verdictOf : Option Pattern → Verdict
  | none => .none
  | some p => if p.negate then .whitelisted else .ignored

theorem scan_eq (isDir : Bool) (rel : List Char) (ps : List Pattern) (v : Verdict) :
    scan isDir rel ps v = match (ps.filter (·.applies isDir rel)).getLast? with
      | none => v
      | some p => verdictOf (some p) := by
  induction ps generalizing v with
  | nil => rfl
  | cons p ps ih =>
    rw [scan, List.filter_cons]
    by_cases hd : (p.dirOnly && !isDir) = true
    · have ha : p.applies isDir rel = false := by
        simp only [Bool.and_eq_true, Bool.not_eq_true'] at hd
        simp [Pattern.applies, hd.1, hd.2]
      rw [if_pos hd, ih, if_neg (by simp [ha])]
    · rw [if_neg hd]
      have ha : p.applies isDir rel = p.exec rel := by
        cases hx : isDir <;> cases hy : p.dirOnly <;> simp_all [Pattern.applies]
      rw [ha]
      by_cases hx : p.exec rel = true
      · rw [if_pos hx, if_pos hx, ih]
        cases hl : (ps.filter (·.applies isDir rel)).getLast? with
        | none => rw [List.getLast?_cons, hl]; rfl
        | some q => rw [List.getLast?_cons, hl]; rfl
      · rw [if_neg hx, if_neg hx, ih]

theorem relative_eq {base sl rel : List Char} (hs : ∀ c ∈ sl, c = '/') (hr : rel.head? ≠ some '/') :
    relative base (base ++ sl ++ rel) = some rel := by
  have h1 : base.isPrefixOf (base ++ sl ++ rel) = true := by
    rw [List.isPrefixOf_iff_prefix, List.append_assoc]; exact List.prefix_append _ _
  rw [relative, if_pos h1, List.append_assoc, List.drop_left]
  congr 1
  induction sl with
  | nil =>
    cases rel with
    | nil => rfl
    | cons c r => simp at hr; simp [hr]
  | cons c sl ih =>
    have := hs c (by simp); subst this
    rw [List.cons_append, List.dropWhile_cons_of_pos (by decide)]
    exact ih (fun d hd => hs d (by simp [hd]))
      (by rw [List.isPrefixOf_iff_prefix, List.append_assoc]; exact List.prefix_append _ _)

/-- C26: within one ignore file the last pattern that applies decides; directory patterns never apply to files. -/
theorem last_match_wins (ps : List Pattern) (base sl rel : List Char) (isDir : Bool) (hs : ∀ c ∈ sl, c = '/')
    (hr : rel.head? ≠ some '/') :
    ignoreMatch [⟨base, ps⟩] (base ++ sl ++ rel) isDir = verdictOf (ps.filter (·.applies isDir rel)).getLast? := by
  rw [ignoreMatch, matchChain, relative_eq hs hr]
  show matchChain _ _ [] (scan isDir rel ps .none) = _
  rw [matchChain, scan_eq]
  cases (ps.filter (·.applies isDir rel)).getLast? <;> rfl

theorem dir_pattern_skips_files (p : Pattern) (rel : List Char) (h : p.dirOnly = true) : p.applies false rel = false := by
  simp [Pattern.applies, h]

/-- C25 and C26 together, as a verdict: an ignore file with one pattern of the fragment. -/
theorem single_pattern_verdict_partial (E : Engine) (hE : E.Conforms) (neg anch dir : Bool) (core : List Char)
    (hc : CoreOk neg anch dir core) (hd : dir = true → ∀ q, core ≠ q ++ ['*', '*'])
    (hlen : (render neg anch core dir).length ≤ 908) :
    ∃ ps, addPattern E [] (render neg anch core dir) = .ok ps ∧
      ∀ (base sl rel : List Char) (isDir : Bool), (∀ c ∈ sl, c = '/') → rel.head? ≠ some '/' → '\n' ∉ rel →
        (ignoreMatch [⟨base, ps⟩] (base ++ sl ++ rel) isDir = .ignored ↔ neg = false ∧ (dir = true → isDir = true) ∧ PathMatch anch dir core rel) ∧
        (ignoreMatch [⟨base, ps⟩] (base ++ sl ++ rel) isDir = .whitelisted ↔ neg = true ∧ (dir = true → isDir = true) ∧ PathMatch anch dir core rel) := by
  obtain ⟨f, ha, hf⟩ := pattern_matches_glob_partial E hE neg anch dir core hc hd hlen []
  refine ⟨_, ha, fun base sl rel isDir hs hr hn => ?_⟩
  rw [last_match_wins _ base sl rel isDir hs hr, ← hf rel hn]
  cases hx : f rel <;> cases neg <;> cases dir <;> cases isDir <;> simp [Pattern.applies, hx, verdictOf]

/-! ## C27: nested ignore files -/

/-- The pattern of a context that decides a path, if any. -/
def Ctx.decides (isDir : Bool) (path : List Char) (c : Ctx) : Option Pattern :=
  match relative c.base path with
  | none => none
  | some rel => (c.patterns.filter (·.applies isDir rel)).getLast?

/-- What the code does: of the contexts that say something, the outermost decides. -/
theorem outermost_match_wins (chain : List Ctx) (path : List Char) (isDir : Bool) :
    ignoreMatch chain path isDir = verdictOf (chain.filterMap (·.decides isDir path)).getLast? := by
  have h : ∀ (chain : List Ctx) (v : Verdict), matchChain path isDir chain v =
      match (chain.filterMap (·.decides isDir path)).getLast? with
      | none => v
      | some p => verdictOf (some p) := by
    intro chain
    induction chain with
    | nil => intro v; rfl
    | cons c cs ih =>
      intro v
      rw [matchChain, List.filterMap_cons]
      cases hr : relative c.base path with
      | none =>
        have : c.decides isDir path = none := by simp [Ctx.decides, hr]
        rw [this]; exact ih v
      | some rel =>
        have hd : c.decides isDir path = (c.patterns.filter (·.applies isDir rel)).getLast? := by simp [Ctx.decides, hr]
        dsimp only
        rw [ih, scan_eq, hd]
        cases hl : (c.patterns.filter (·.applies isDir rel)).getLast? with
        | none => rfl
        | some p =>
          dsimp only
          rw [List.getLast?_cons]
          cases (cs.filterMap (·.decides isDir path)).getLast? <;> rfl
  rw [ignoreMatch, h]
  cases (chain.filterMap (·.decides isDir path)).getLast? <;> rfl

/-- C27 (what is missing: the case where an enclosing ignore file says something too, where it fails): a directory's own ignore
file decides. -/
theorem nested_file_decides_partial (c : Ctx) (cs : List Ctx) (path : List Char) (isDir : Bool)
    (h : ∀ d ∈ cs, d.decides isDir path = none) : ignoreMatch (c :: cs) path isDir = verdictOf (c.decides isDir path) := by
  rw [outermost_match_wins, List.filterMap_cons]
  have : cs.filterMap (·.decides isDir path) = [] := by
    rw [List.filterMap_eq_nil_iff]; exact h
  rw [this]
  cases c.decides isDir path <;> rfl

/-- C27 is false: `!a` in the ignore file of `d` and `a` in the one above: `d/a` is ignored. -/
theorem nested_file_overridden (E : Engine) (hE : E.Conforms) : ∃ inner outer,
    addPattern E [] ['!', 'a'] = .ok inner ∧ addPattern E [] ['a'] = .ok outer ∧
    ignoreMatch [⟨['r', '/', 'd'], inner⟩] ['r', '/', 'd', '/', 'a'] false = .whitelisted ∧
    ignoreMatch [⟨['r', '/', 'd'], inner⟩, ⟨['r'], outer⟩] ['r', '/', 'd', '/', 'a'] false = .ignored := by
  have ga : Glob ['a'] ['a'] := .lit (by decide) .nil
  have okc : ∀ neg, CoreOk neg false false ['a'] := fun neg =>
    ⟨by decide, ⟨'a', rfl, by decide, by decide⟩, fun _ => ⟨'a', rfl, by decide, by decide, fun _ => by decide⟩⟩
  obtain ⟨f, hf, hfm⟩ := pattern_matches_glob_partial E hE true false false ['a'] (okc _) (by simp) (by decide) []
  obtain ⟨g, hg, hgm⟩ := pattern_matches_glob_partial E hE false false false ['a'] (okc _) (by simp) (by decide) []
  have h1 : f ['a'] = true := (hfm _ (by decide)).mpr ⟨[], ['a'], [], rfl, Or.inl rfl, ga, Or.inl rfl⟩
  have h2 : g ['d', '/', 'a'] = true :=
    (hgm _ (by decide)).mpr ⟨['d', '/'], ['a'], [], rfl, Or.inr ⟨rfl, ['d'], rfl⟩, ga, Or.inl rfl⟩
  refine ⟨_, _, hf, hg, ?_, ?_⟩
  · simp [ignoreMatch, matchChain, relative, List.isPrefixOf, scan, h1]
  · simp [ignoreMatch, matchChain, relative, List.isPrefixOf, scan, h1, h2]

/-- A corner of C25: the pattern `a/**/` does not match the directory `a/x`. -/
theorem trailing_double_star_slash (E : Engine) (hE : E.Conforms) : ∃ ps, addPattern E [] "a/**/".toList = .ok ps ∧
    ignoreMatch [⟨['r'], ps⟩] "r/a/x".toList true = .none ∧
    PathMatch false true "a/**".toList "a/x".toList := by
  have v : View false ['a', '/', '*', '*', '/'] := view_of_frag 5 _ (by decide)
  obtain ⟨l, hl, hparse⟩ := parse_text v false true false
  obtain ⟨f, hf, hfs⟩ := hE.runs _ _ hparse
  have hn : f ['a', '/', 'x'] = false := by
    rw [← Bool.not_eq_true, hfs, search_iff hl _ _ _ (by decide)]
    rintro ⟨pre, mid, post, he, hpre, hg, hpost⟩
    cases hg with
    | lit _ hg => cases hg with
      | lit _ hg =>
        have : pre.length + post.length + 2 ≤ 3 := by
          have := congrArg List.length he
          simp at this; omega
        have hp : pre = [] := by
          rcases hpre with h | ⟨_, q, rfl⟩
          · exact h
          · exfalso
            cases q with
            | nil => simp at he
            | cons c q => simp at this; omega
        subst hp
        simp at he
        cases hg with
        | dirs0 hg =>
          cases hg
          rcases hpost with rfl | ⟨_, q, rfl⟩ <;> simp at he
        | @dirs u _ s hg =>
          cases hg
          cases u with
          | nil => simp at he
          | cons c u => cases u <;> simp at he
        | star h => simp at h
        | all h => simp at h
        | lit h => simp at h
  have hadd := addPattern_ok E [] 'a' ['/', '*', '*', '/'] (by decide) (by decide) (by decide) f hf
  refine ⟨_, hadd, ?_, ?_⟩
  · show ignoreMatch _ ['r', '/', 'a', '/', 'x'] true = _
    simp [ignoreMatch, matchChain, relative, List.isPrefixOf, scan, hn]
  · refine ⟨[], ['a', '/', 'x'], [], rfl, Or.inl rfl, ?_, Or.inl rfl⟩
    exact .lit (by decide) (.lit (by decide) (.all (u := ['x']) (by decide) .nil))

/-! ## C28: comments and blank lines -/

/-- A file made of lines (the last one without newline). -/
def joinLines : List (List Char) → List Char
  | [] => []
  | [l] => l
  | l :: l' :: ls => l ++ '\n' :: joinLines (l' :: ls)

/-- The blanks of the C locale: the space and the characters 9 to 13 of ASCII. -/
def Blank (c : Char) : Prop := c.toNat = 32 ∨ 9 ≤ c.toNat ∧ c.toNat ≤ 13

instance (c : Char) : Decidable (Blank c) := inferInstanceAs (Decidable (_ ∨ _))

/-- An empty or blank line, or a comment. -/
def Inert (l : List Char) : Prop := (∀ c ∈ l, Blank c) ∨ ∃ sp r, l = sp ++ '#' :: r ∧ ∀ c ∈ sp, Blank c

theorem isSpace_iff (c : Char) : isSpace c = true ↔ Blank c := by
  have key : ∀ n, n < 55296 → (c = Char.ofNat n ↔ c.toNat = n) := by
    intro n hn
    constructor
    · rintro rfl
      simp [Char.ofNat, Nat.isValidChar, hn, Char.toNat, Char.ofNatAux]
    · rintro rfl; simp
  unfold isSpace Blank
  simp only [Bool.or_eq_true, beq_iff_eq]
  rw [show ' ' = Char.ofNat 32 from rfl, show '\t' = Char.ofNat 9 from rfl, show '\n' = Char.ofNat 10 from rfl, show '\x0b' = Char.ofNat 11 from rfl,
    show '\x0c' = Char.ofNat 12 from rfl, show '\r' = Char.ofNat 13 from rfl, key _ (by omega), key _ (by omega), key _ (by omega), key _ (by omega),
    key _ (by omega), key _ (by omega)]
  omega

theorem inert_iff (l : List Char) : Inert l ↔ (∀ c ∈ l, isSpace c = true) ∨ ∃ sp r, l = sp ++ '#' :: r ∧ ∀ c ∈ sp, isSpace c = true := by
  simp only [Inert, isSpace_iff]

/-- The lines one by one. -/
def loadLines (E : Engine) : List (List Char) → List Pattern → Res (List Pattern)
  | [], ps => .ok ps
  | l :: ls, ps => do
    let ps ← addPattern E ps (chomp l)
    loadLines E ls ps

theorem gets_line (n : Nat) (l s : List Char) (h : '\n' ∉ l) (hn : l.length < n) : gets n (l ++ '\n' :: s) = (l ++ ['\n'], s) := by
  induction l generalizing n with
  | nil =>
    cases n with
    | zero => simp at hn
    | succ n => simp [gets]
  | cons c l ih =>
    simp at h
    cases n with
    | zero => simp at hn
    | succ n =>
      simp only [List.length_cons] at hn
      rw [List.cons_append, gets, if_neg (Ne.symm h.1), ih n h.2 (by omega)]
      rfl

theorem gets_last (n : Nat) (l : List Char) (h : '\n' ∉ l) (hn : l.length ≤ n) : gets n l = (l, []) := by
  induction l generalizing n with
  | nil => cases n <;> rfl
  | cons c l ih =>
    simp at h
    cases n with
    | zero => simp at hn
    | succ n =>
      simp only [List.length_cons] at hn
      rw [gets, if_neg (Ne.symm h.1), ih n h.2 (by omega)]

theorem chomp_newline (l : List Char) (h : '\n' ∉ l) : chomp (l ++ ['\n']) = chomp l := by
  have h1 : l.getLast? ≠ some '\n' := fun hl => h (List.mem_of_getLast? hl)
  simp [chomp, h1]

theorem load_eq (E : Engine) (lines : List (List Char)) (hl : ∀ l ∈ lines, '\n' ∉ l ∧ l.length < 4095) (fuel : Nat)
    (hf : lines.length < fuel) (ps : List Pattern) : loadContent E fuel (joinLines lines) ps = loadLines E lines ps := by
  induction lines generalizing fuel ps with
  | nil =>
    cases fuel with
    | zero => simp at hf
    | succ n => rfl
  | cons l ls ih =>
    cases fuel with
    | zero => simp at hf
    | succ n =>
      simp only [List.length_cons] at hf
      have hl' := hl l (by simp)
      cases ls with
      | nil =>
        cases n with
        | zero => simp at hf
        | succ n =>
        cases l with
        | nil => simp [joinLines, loadContent, loadLines, chomp, addPattern, Res.ok_bind]
        | cons c l =>
          rw [joinLines, loadContent, gets_last _ _ hl'.1 (by show _ ≤ 4095; omega)]
          · rfl
          · simp
      | cons l' ls =>
        rw [joinLines, loadContent, gets_line _ _ _ hl'.1 (by show _ < 4095; omega), chomp_newline _ hl'.1]
        · show (addPattern E ps (chomp l) >>= fun ps => loadContent E n (joinLines (l' :: ls)) ps) = _
          rw [loadLines]
          congr 1
          funext ps
          exact ih (fun x hx => hl x (by simp [hx])) n (by omega) ps
        · simp

theorem inert_chomp {l : List Char} (h : Inert l) : ∀ E ps, addPattern E ps (chomp l) = .ok ps := by
  let InertM : List Char → Prop := fun l => (∀ c ∈ l, isSpace c = true) ∨ ∃ sp r, l = sp ++ '#' :: r ∧ ∀ c ∈ sp, isSpace c = true
  replace h : InertM l := (inert_iff l).mp h
  have key : ∀ l, InertM l → ∀ E ps, addPattern E ps l = .ok ps := by
    intro l h E ps
    rcases h with h | ⟨sp, r, rfl, h⟩
    · have : l.dropWhile isSpace = [] := by
        induction l with
        | nil => rfl
        | cons c l ih => rw [List.dropWhile_cons_of_pos (h c (by simp))]; exact ih (fun d hd => h d (by simp [hd]))
      rw [addPattern, this]
    · have : (sp ++ '#' :: r).dropWhile isSpace = '#' :: r := by
        induction sp with
        | nil => exact List.dropWhile_cons_of_neg (by decide)
        | cons c sp ih =>
          rw [List.cons_append, List.dropWhile_cons_of_pos (h c (by simp))]
          exact ih (fun d hd => h d (by simp [hd]))
      unfold addPattern
      rw [this]
      split
      · rename_i hx; cases hx
      · rfl
      · rename_i _ hx; exact absurd rfl (hx r)
  have hdrop : ∀ l : List Char, InertM l → (∃ c, l.getLast? = some c ∧ isSpace c = true) → InertM l.dropLast := by
    rintro l h ⟨c, hc, hs⟩
    obtain ⟨q, rfl⟩ := List.getLast?_eq_some_iff.mp hc
    rw [List.dropLast_concat]
    rcases h with h | ⟨sp, r, he, h⟩
    · exact Or.inl (fun d hd => h d (by simp [hd]))
    · rcases List.eq_nil_or_concat r with rfl | ⟨r', d, rfl⟩
      · have : c = '#' := by
          have := congrArg List.getLast? he
          simpa using this
        subst this; exact absurd hs (by decide)
      · refine Or.inr ⟨sp, r', ?_, h⟩
        have := congrArg List.dropLast he
        rw [List.dropLast_concat] at this
        rw [this, List.concat_eq_append, show sp ++ '#' :: (r' ++ [d]) = (sp ++ '#' :: r') ++ [d] by simp, List.dropLast_concat]
  intro E ps
  apply key
  unfold chomp
  dsimp only
  have h1 : InertM (if l.getLast? = some '\n' then l.dropLast else l) := by
    split
    · rename_i hl; exact hdrop l h ⟨_, hl, by decide⟩
    · exact h
  generalize (if l.getLast? = some '\n' then l.dropLast else l) = l' at h1
  split
  · rename_i hl; exact hdrop _ h1 ⟨_, hl, by decide⟩
  · exact h1

/-- C28 (what is missing: lines of 4096 characters or more, where it fails): removing the comments and blank lines from an ignore
file leaves the patterns, hence all verdicts, as they are. -/
theorem comments_inert_partial (E : Engine) (keep : List Char → Bool) (hk : ∀ l, keep l = false → Inert l) (lines : List (List Char))
    (hl : ∀ l ∈ lines, '\n' ∉ l ∧ l.length < 4095) (fuel : Nat) (hf : lines.length < fuel) (ps : List Pattern) :
    loadContent E fuel (joinLines lines) ps = loadContent E fuel (joinLines (lines.filter keep)) ps := by
  rw [load_eq E lines hl fuel hf, load_eq E _ (fun l h => hl l (List.mem_filter.mp h).1) fuel (Nat.lt_of_le_of_lt (List.length_filter_le _ _) hf)]
  clear hf hl
  induction lines generalizing ps with
  | nil => rfl
  | cons l ls ih =>
    rw [List.filter_cons]
    split
    · rw [loadLines, loadLines]; congr 1; funext ps; exact ih ps
    · rename_i h
      rw [loadLines, inert_chomp (hk l (by simpa using h)), Res.ok_bind]; exact ih ps

theorem gets_split (n : Nat) (s : List Char) (h : '\n' ∉ s.take n) : gets n s = (s.take n, s.drop n) := by
  induction n generalizing s with
  | zero => rfl
  | succ n ih =>
    cases s with
    | nil => rfl
    | cons c s =>
      simp at h
      rw [gets, if_neg (Ne.symm h.1), ih s (by simpa using h.2)]
      rfl

theorem inert_take {l : List Char} (h : Inert l) (n : Nat) : Inert (l.take n) := by
  rcases h with h | ⟨sp, r, rfl, h⟩
  · exact Or.inl (fun c hc => h c (List.mem_of_mem_take hc))
  · by_cases hn : n ≤ sp.length
    · left
      rw [List.take_append_of_le_length hn]
      exact fun c hc => h c (List.mem_of_mem_take hc)
    · right
      obtain ⟨k, rfl⟩ : ∃ k, n = sp.length + (k + 1) := ⟨n - sp.length - 1, by omega⟩
      exact ⟨sp, r.take k, by rw [List.take_length_add_append, List.take_succ_cons], h⟩

/-- C28, long lines: a comment or blank line of 4095 characters or more is read as if its first 4095 characters were not there: what is left
of it counts as a line of its own.  (Below that length see `comments_inert_partial`.) -/
theorem long_comment_read (E : Engine) (l s : List Char) (hi : Inert l) (hn : '\n' ∉ l) (hl : 4095 ≤ l.length) (fuel : Nat) (ps : List Pattern) :
    loadContent E (fuel + 1) (l ++ s) ps = loadContent E fuel (l.drop 4095 ++ s) ps := by
  obtain ⟨c, r, rfl⟩ : ∃ c r, l = c :: r := by
    cases l with
    | nil => simp at hl
    | cons c r => exact ⟨c, r, rfl⟩
  have ht : ((c :: r) ++ s).take 4095 = (c :: r).take 4095 := List.take_append_of_le_length hl
  have hg : gets (maxLen - 1) ((c :: r) ++ s) = ((c :: r).take 4095, (c :: r).drop 4095 ++ s) := by
    rw [show maxLen - 1 = 4095 from rfl, gets_split _ _ (by rw [ht]; exact fun h => hn (List.mem_of_mem_take h)), ht, List.drop_append_of_le_length hl]
  show (do
    let ps ← addPattern E ps (chomp (gets (maxLen - 1) ((c :: r) ++ s)).1)
    loadContent E fuel (gets (maxLen - 1) ((c :: r) ++ s)).2 ps) = _
  rw [hg, inert_chomp (inert_take hi _), Res.ok_bind]

example : ∃ l, Inert l ∧ '\n' ∉ l ∧ 4095 ≤ l.length := by
  have h : ∀ n, Inert ('#' :: List.replicate n 'x') ∧ '\n' ∉ '#' :: List.replicate n 'x' ∧ n + 1 ≤ ('#' :: List.replicate n 'x').length :=
    fun n => ⟨Or.inr ⟨[], _, rfl, by simp⟩, by simp [List.mem_replicate], by simp⟩
  exact ⟨_, h 4094⟩

/-- C28 is false for long comments: what follows the first 4095 characters of a comment line is taken as a pattern. -/
theorem long_comment_tail_is_pattern (E : Engine) (hE : E.Conforms) : ∃ (line : List Char) (ps : List Pattern),
    Inert line ∧ line.length = 4096 ∧ '\n' ∉ line ∧ loadContent E 3 line [] = .ok ps ∧
    ignoreMatch [⟨['r'], ps⟩] ['r', '/', 'a'] false = .ignored ∧
    loadContent E 3 [] [] = .ok [] ∧ ignoreMatch [⟨['r'], []⟩] ['r', '/', 'a'] false = .none := by
  obtain ⟨ps, hps, hv⟩ := single_pattern_verdict_partial E hE false false false ['a']
    ⟨by decide, ⟨'a', rfl, by decide, by decide⟩, fun _ => ⟨'a', rfl, by decide, by decide, fun _ => by decide⟩⟩ (by simp) (by decide)
  obtain ⟨n, hn⟩ : ∃ n, n = 4094 := ⟨_, rfl⟩
  have hin : Inert ('#' :: List.replicate n 'x') := Or.inr ⟨[], List.replicate n 'x', rfl, by simp⟩
  have hlen : ('#' :: List.replicate n 'x').length = maxLen - 1 := by
    rw [List.length_cons, List.length_replicate, hn]; rfl
  have htake : (('#' :: List.replicate n 'x') ++ ['a']).take (maxLen - 1) = '#' :: List.replicate n 'x' := by
    rw [← hlen, List.take_left]
  have hdrop : (('#' :: List.replicate n 'x') ++ ['a']).drop (maxLen - 1) = ['a'] := by
    rw [← hlen, List.drop_left]
  have hg := gets_split (maxLen - 1) (('#' :: List.replicate n 'x') ++ ['a']) (by rw [htake]; simp)
  rw [htake, hdrop] at hg
  have hg2 := gets_last (maxLen - 1) ['a'] (by decide) (by decide)
  refine ⟨('#' :: List.replicate n 'x') ++ ['a'], ps, Or.inr ⟨[], List.replicate n 'x' ++ ['a'], rfl, by simp⟩,
    by rw [List.length_append, hlen]; rfl, by simp, ?_, ?_, rfl, rfl⟩
  · generalize hX : ('#' :: List.replicate n 'x') ++ ['a'] = X at hg ⊢
    have hne : X = [] → False := by rw [← hX]; simp
    rw [loadContent]
    · rw [hg, inert_chomp hin, Res.ok_bind]
      rw [loadContent]
      · rw [hg2]
        show (addPattern E [] ['a'] >>= fun ps => loadContent E 1 [] ps) = _
        rw [show addPattern E [] ['a'] = .ok ps from hps]
        rfl
      · simp
    · exact hne
  · exact ((hv ['r'] ['/'] ['a'] false (by simp) (by decide) (by decide)).1).mpr
      ⟨rfl, by simp, [], ['a'], [], rfl, Or.inl rfl, .lit (by decide) .nil, Or.inl rfl⟩

/-! ## C29: the translation buffer -/

/-- C29 (what is missing: longer patterns, where it fails): patterns of up to 908 characters fit. -/
theorem translation_fits_partial (p : List Char) (h : p.length ≤ 908) : ∃ text, globToPcre p = .ok text ∧ text.length < 4096 := by
  have := text_length p h
  refine ⟨pcreText p, by rw [globToPcre, if_pos this], ?_⟩
  have : (pcreText p).length + 1 ≤ 4096 := this
  omega

theorem convert_star_qs (n : Nat) : (convert false false ((List.replicate n ['*', '?']).flatten ++ ['*'])).length = 9 * n + 5 := by
  induction n with
  | zero => rfl
  | succ n ih =>
    rw [List.replicate_succ, List.flatten_cons]
    show (['[', '^', '/', ']', '*'] ++ (['[', '^', '/', ']'] ++ convert false false ((List.replicate n ['*', '?']).flatten ++ ['*']))).length = _
    simp only [List.length_append, ih, List.length_cons, List.length_nil]
    omega

theorem star_qs (n : Nat) : globToPcre ((List.replicate (n + 1) ['*', '?']).flatten ++ ['*']) = if 9 * n + 21 ≤ 4096 then
    .ok (pcreText ((List.replicate (n + 1) ['*', '?']).flatten ++ ['*'])) else .ub := by
  have h3 : ∀ y x : List Char, endsSlash y (x ++ ['*']) = false := by intro y x; simp [endsSlash, isSpace]
  have hm : handleMarks ((List.replicate (n + 1) ['*', '?']).flatten ++ ['*']) = (⟨false, false, false⟩, (List.replicate (n + 1) ['*', '?']).flatten ++ ['*']) := by
    show ((⟨false, endsSlash _ ((List.replicate (n + 1) ['*', '?']).flatten ++ ['*']), false⟩ : Marks), _) = _
    rw [h3]
    rfl
  have hlen : (pcreText ((List.replicate (n + 1) ['*', '?']).flatten ++ ['*'])).length = 9 * n + 20 := by
    unfold pcreText
    rw [hm]
    dsimp only
    rw [List.length_append, List.length_append, convert_star_qs]
    simp [startAnchor, endAnchor]
    omega
  rw [globToPcre, hlen, maxLen]

/-- C29: 908 is the exact bound: a pattern of 909 characters, stars and question marks in turn, writes past the buffer. -/
theorem translation_bound_sharp : ∃ p : List Char, p.length = 909 ∧ globToPcre p = .ub := by
  refine ⟨(List.replicate (453 + 1) ['*', '?']).flatten ++ ['*'], ?_, ?_⟩
  · have : ∀ n : Nat, ((List.replicate n ['*', '?']).flatten ++ ['*']).length = 2 * n + 1 := by
      intro n; simp; omega
    exact this _
  · rw [star_qs, if_neg (by omega)]

theorem convert_qs (n : Nat) : (convert false false (List.replicate n '?')).length = 4 * n := by
  induction n with
  | zero => rfl
  | succ n ih =>
    rw [List.replicate_succ]
    show (['[', '^', '/', ']'] ++ convert false false (List.replicate n '?')).length = _
    simp only [List.length_append, ih, List.length_cons, List.length_nil]
    omega

/-- C29 is false: a line of 1023 question marks (or more) writes past the buffer. -/
theorem translation_overflows (E : Engine) (n : Nat) (h : 1023 ≤ n) (ps : List Pattern) : addPattern E ps (List.replicate n '?') = .ub := by
  obtain ⟨m, rfl⟩ : ∃ m, n = m + 1 := ⟨n - 1, by omega⟩
  have hm : handleMarks (List.replicate (m + 1) '?') = (⟨false, false, false⟩, List.replicate (m + 1) '?') := by
    have h1 : (List.replicate (m + 1) '?').reverse.dropWhile isSpace = '?' :: List.replicate m '?' := by
      rw [List.reverse_replicate, List.replicate_succ, List.dropWhile_cons_of_neg (by decide)]
    have h2 : endsSlash (List.replicate (m + 1) '?') (List.replicate (m + 1) '?') = false := by
      rw [endsSlash, h1]; rfl
    show ((⟨false, endsSlash (List.replicate (m + 1) '?') (List.replicate (m + 1) '?'), false⟩ : Marks), List.replicate (m + 1) '?') = _
    rw [h2]
  have hlen : (pcreText (List.replicate (m + 1) '?')).length = 4 * (m + 1) + 6 := by
    unfold pcreText
    rw [hm]
    dsimp only
    rw [List.length_append, List.length_append, convert_qs]
    simp [startAnchor, endAnchor]
    omega
  have : globToPcre (List.replicate (m + 1) '?') = .ub := by
    rw [globToPcre, if_neg (by rw [hlen, maxLen]; omega)]
  unfold addPattern
  have hd : (List.replicate (m + 1) '?').dropWhile isSpace = List.replicate (m + 1) '?' := by
    rw [List.replicate_succ, List.dropWhile_cons_of_neg (by decide)]
  rw [hd]
  generalize hX : List.replicate (m + 1) '?' = X at this
  rw [List.replicate_succ] at hX
  split
  · cases hX
  · injection hX with hx; exact absurd hx (by decide)
  · rw [this]; rfl

/-- Examples. -/
example : CoreOk true true true "a*/?b".toList :=
  ⟨by decide, ⟨'b', by decide, by decide, by decide⟩, by simp⟩

example : PathMatch false true "a*/?b".toList "x/ay/cb/z".toList := by
  refine ⟨"x/".toList, "ay/cb".toList, "/z".toList, rfl, Or.inr ⟨rfl, ['x'], rfl⟩, ?_, Or.inr ⟨rfl, ['z'], rfl⟩⟩
  exact .lit (by decide) (.star (u := ['y']) (by decide) (by decide) (.lit (by decide) (.one (by decide) (.lit (by decide) .nil))))

example : ¬ Glob ['a', '?'] ['a', '/'] := by
  intro h
  cases h with
  | lit _ h => cases h with
    | one h => simp at h

example : CoreOk true true true "x[a-z_.-]*/[^\\]/]?b".toList :=
  ⟨by decide, ⟨'b', by decide, by decide, by decide⟩, by simp⟩

example : CoreOkX true false false false "*.[!oa]".toList :=
  ⟨by decide, ⟨']', by decide, by decide, by decide⟩, fun _ => ⟨'*', by decide, by decide, by decide, fun _ => by decide⟩⟩

example : PathMatch false false "[a-c]x".toList "d/bx".toList :=
  ⟨['d', '/'], ['b', 'x'], [], rfl, Or.inr ⟨rfl, ['d'], rfl⟩,
    .cls (neg := false) (rs := [('a', 'c')]) (p' := ['x']) (by decide) (by decide) (Or.inr (by decide)) (.lit (by decide) .nil), Or.inl rfl⟩

example : CoreOk false false false "[[:alpha:]_][[:alnum:]_-]*.[ch]".toList :=
  ⟨by decide +kernel, ⟨']', by decide, by decide, by decide⟩, fun _ => ⟨'[', by decide, by decide, by decide, fun _ => by decide⟩⟩

example : CoreOk false false false "[].(a-]x[.]?[:a]".toList :=
  ⟨by decide +kernel, ⟨']', by decide, by decide, by decide⟩, fun _ => ⟨'[', by decide, by decide, by decide, fun _ => by decide⟩⟩

example : Inert "  # x".toList := Or.inr ⟨[' ', ' '], [' ', 'x'], rfl, by decide⟩

end Verif.Ignore
