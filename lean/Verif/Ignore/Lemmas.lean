import Verif.Ignore.Regex

/-! Helper lemmas: the translated text parses to the intended expression, and what that matches. -/

namespace Verif.Ignore

/-! ## Glob patterns (specification) -/

/-- A character of a class and what follows it; a backslash takes the meaning away from the next character.  Letters and digits
after a backslash and named classes are outside the fragment. -/
def readChar : List Char → Option (Char × List Char)
  | '\\' :: c :: r => if isAlnum c then none else some (c, r)
  | c :: r => if c = '\\' ∨ c = '[' ∨ c = ']' then none else some (c, r)
  | [] => none

/-- The name of a named class, up to its `:]`. -/
def readName : List Char → Option (List Char × List Char)
  | ':' :: ']' :: r => some ([], r)
  | c :: r => if 'a' ≤ c ∧ c ≤ 'z' then (readName r).map (fun x => (c :: x.1, x.2)) else none
  | [] => none

/-- An element of a class: a named class not followed by a hyphen, a character or a range; a hyphen before the closing bracket is
ordinary.  The element is given by its ranges. -/
def readItem (t : List Char) : Option (List (Char × Char) × List Char) :=
  match t with
  | '[' :: ':' :: r =>
    match readName r with
    | none => none
    | some (n, r') =>
      match named n with
      | none => none
      | some rs => if r'.head? = some '-' then none else some (rs, r')
  | t =>
    match readChar t with
    | none => none
    | some (c, r) =>
      match r with
      | '-' :: ']' :: _ => some ([(c, c)], r)
      | '-' :: r' =>
        match readChar r' with
        | none => none
        | some (d, r'') => if c ≤ d then some ([(c, d)], r'') else none
      | _ => some ([(c, c)], r)

/-- The elements up to the closing bracket, at least one, and what follows the bracket. -/
def readItems : Nat → List Char → Option (List (Char × Char) × List Char)
  | 0, _ => none
  | n + 1, t =>
    match readItem t with
    | none => none
    | some (x, ']' :: r) => some (x, r)
    | some (x, r) =>
      match readItems n r with
      | none => none
      | some (xs, r') => some (x ++ xs, r')

/-- A range does not begin here: there is no hyphen, or it is the last character of the class. -/
def noRange : List Char → Bool
  | '-' :: ']' :: _ => true
  | '-' :: _ => false
  | _ => true

/-- A class after its opening bracket and its mark of negation; a closing bracket that comes first is an element (not the
beginning of a range here). -/
def readBody : List Char → Option (List (Char × Char) × List Char)
  | ']' :: ']' :: r => some ([(']', ']')], r)
  | ']' :: r => if noRange r then (readItems r.length r).map (fun x => ((']', ']') :: x.1, x.2)) else none
  | t => readItems t.length t

/-- A class after its opening bracket: whether it is negated, its ranges, and what follows it. -/
def readClass : List Char → Option (Bool × List (Char × Char) × List Char)
  | '!' :: r => (readBody r).map (fun x => (true, x.1, x.2))
  | '^' :: r => (readBody r).map (fun x => (true, x.1, x.2))
  | r => (readBody r).map (fun x => (false, x.1, x.2))

/-- What a glob pattern matches, character by character.  A backslash takes the meaning away from the next character.  The flag
tells whether a class may match a slash; in the glob semantics it may not. -/
inductive GlobX (sl : Bool) : List Char → List Char → Prop
  | nil : GlobX sl [] []
  | lit {c p s} : c ∉ ['\\', '*', '?', '['] → GlobX sl p s → GlobX sl (c :: p) (c :: s)
  | esc {c p s} : GlobX sl p s → GlobX sl ('\\' :: c :: p) (c :: s)
  | one {c p s} : c ≠ '/' → GlobX sl p s → GlobX sl ('?' :: p) (c :: s)
  | cls {p neg rs p' c s} : readClass p = some (neg, rs, p') → inSet rs c = !neg → (sl = true ∨ c ≠ '/') → GlobX sl p' s →
      GlobX sl ('[' :: p) (c :: s)
  | star {u p s} : p.head? ≠ some '*' → (∀ c ∈ u, c ≠ '/') → GlobX sl p s → GlobX sl ('*' :: p) (u ++ s)
  | dirs0 {p s} : GlobX sl p s → GlobX sl ('*' :: '*' :: '/' :: p) s
  | dirs {u p s} : GlobX sl p s → GlobX sl ('*' :: '*' :: '/' :: p) (u ++ '/' :: s)
  | all {u p s} : p.head? ≠ some '/' → GlobX sl p s → GlobX sl ('*' :: '*' :: p) (u ++ s)

/-- The glob semantics. -/
abbrev Glob := GlobX false

/-- A closing bracket inside a class, not escaped, must not be followed by a star or a question mark, not escaped, in that class
(unless a named class begins in between); the flag tells that there has been none. -/
def cleanText : Bool → List Char → Bool
  | _, [] => true
  | s, '\\' :: _ :: r => cleanText s r
  | true, c :: r => cleanText (c != ']') r
  | false, '[' :: r => cleanText true r
  | false, c :: r => c != '*' && c != '?' && cleanText false r

/-- The text of a class has no such star or question mark, and is not taken for a POSIX element: if its first character is one
of those that mark such elements, it does not occur in the class again. -/
def clean (v : List Char) : Bool :=
  cleanText true v && !(v.head?.any (fun c => (c == ':' || c == '.' || c == '=') && v.tail.contains c))

/-- The fragment: backslashes only before characters that are neither letters nor digits, classes as above; the flag tells
whether there may be classes that contain the slash. -/
def fragN (sl : Bool) : Nat → List Char → Bool
  | 0, p => p.isEmpty
  | _ + 1, [] => true
  | n + 1, c :: r =>
    if c = '\\' then
      match r with
      | d :: r' => !isAlnum d && fragN sl n r'
      | [] => false
    else if c = '[' then
      match readClass r with
      | some (neg, rs, r') => (sl || inSet rs '/' == neg) && clean (r.take (r.length - r'.length)) && fragN sl n r'
      | none => false
    else fragN sl n r

def fragX (sl : Bool) (p : List Char) : Bool := fragN sl p.length p

/-- The ways a pattern of the fragment can begin. -/
inductive View (sl : Bool) : List Char → Prop
  | nil : View sl []
  | esc {c r} : isAlnum c = false → View sl r → View sl ('\\' :: c :: r)
  | cls {p neg rs r} : readClass p = some (neg, rs, r) → clean (p.take (p.length - r.length)) = true → (sl = true ∨ inSet rs '/' = neg) →
      View sl r → View sl ('[' :: p)
  | dirs {r} : View sl r → View sl ('*' :: '*' :: '/' :: r)
  | all {r} : r.head? ≠ some '/' → View sl r → View sl ('*' :: '*' :: r)
  | star {r} : r.head? ≠ some '*' → View sl r → View sl ('*' :: r)
  | one {r} : View sl r → View sl ('?' :: r)
  | lit {c r} : c ∉ ['\\', '*', '?', '['] → View sl r → View sl (c :: r)

theorem fragN_cons {sl : Bool} {n : Nat} {c : Char} {r : List Char} (h : c ≠ '\\') (h' : c ≠ '[') : fragN sl (n + 1) (c :: r) = fragN sl n r := by
  rw [fragN.eq_def]
  dsimp only
  rw [if_neg h, if_neg h']

/-! ## Reading classes -/

theorem readChar_eq {t r : List Char} {c : Char} (h : readChar t = some (c, r)) :
    t = c :: r ∧ c ≠ '\\' ∧ c ≠ '[' ∧ c ≠ ']' ∨ t = '\\' :: c :: r ∧ isAlnum c = false := by
  unfold readChar at h
  split at h
  · split at h
    · cases h
    · rename_i _ _ ha
      injection h with h; injection h with h1 h2; subst h1; subst h2
      exact Or.inr ⟨rfl, by simpa using ha⟩
  · split at h
    · cases h
    · rename_i hn
      injection h with h; injection h with h1 h2; subst h1; subst h2
      simp only [not_or] at hn
      exact Or.inl ⟨rfl, hn⟩
  · cases h

/-- An element, its text, and what follows. -/
inductive ItemText : List (Char × Char) → List Char → List Char → Prop
  | one {c r} : c ≠ '\\' → c ≠ '[' → c ≠ ']' → noRange r = true → ItemText [(c, c)] [c] r
  | esc {c r} : isAlnum c = false → noRange r = true → ItemText [(c, c)] ['\\', c] r
  | range {c d w r} : (w = [c] ∧ c ≠ '\\' ∧ c ≠ '[' ∧ c ≠ ']' ∨ w = ['\\', c] ∧ isAlnum c = false) →
      d ≠ '\\' → d ≠ '[' → d ≠ ']' → c ≤ d → ItemText [(c, d)] (w ++ ['-', d]) r
  | rangeEsc {c d w r} : (w = [c] ∧ c ≠ '\\' ∧ c ≠ '[' ∧ c ≠ ']' ∨ w = ['\\', c] ∧ isAlnum c = false) →
      isAlnum d = false → c ≤ d → ItemText [(c, d)] (w ++ ['-', '\\', d]) r
  | name {n rs r} : named n = some rs → (∀ c ∈ n, 'a' ≤ c ∧ c ≤ 'z') → r.head? ≠ some '-' → ItemText rs ('[' :: ':' :: (n ++ [':', ']'])) r

theorem readName_eq : ∀ {t n r : List Char}, readName t = some (n, r) → t = n ++ ':' :: ']' :: r ∧ ∀ c ∈ n, 'a' ≤ c ∧ c ≤ 'z' := by
  intro t
  induction t with
  | nil => intro n r h; rw [readName] at h; cases h
  | cons a t ih =>
    intro n r h
    unfold readName at h
    split at h
    · rename_i q he
      injection he with h1 h2; subst h1; subst h2
      injection h with h; injection h with h1 h2; subst h1; subst h2
      exact ⟨rfl, by simp⟩
    · rename_i c q _ he
      injection he with h1 h2; subst h1; subst h2
      split at h
      · rename_i hc
        rw [Option.map_eq_some_iff] at h
        obtain ⟨⟨m, q⟩, hy, e⟩ := h
        injection e with e1 e2; dsimp only at e1 e2; subst e1; subst e2
        obtain ⟨rfl, h2⟩ := ih hy
        refine ⟨rfl, fun d hd => ?_⟩
        rcases List.mem_cons.mp hd with rfl | hd
        · exact hc
        · exact h2 d hd
      · cases h
    · rename_i he; cases he

theorem noRange_of {r : List Char} (h : ∀ q, r ≠ '-' :: q) : noRange r = true := by
  unfold noRange
  split
  · rfl
  · exact absurd rfl (h _)
  · rfl

theorem readItem_eq {t r : List Char} {x : List (Char × Char)} (h : readItem t = some (x, r)) : ∃ w, t = w ++ r ∧ ItemText x w r := by
  unfold readItem at h
  split at h
  · rename_i q
    split at h
    · cases h
    · rename_i n r' hn
      split at h
      · cases h
      · rename_i rs hrs
        split at h
        · cases h
        · rename_i hh
          injection h with h; injection h with h1 h2; subst h1; subst h2
          obtain ⟨rfl, hl⟩ := readName_eq hn
          exact ⟨'[' :: ':' :: (n ++ [':', ']']), by simp, .name hrs hl hh⟩
  cases hc : readChar t with
  | none => rw [hc] at h; cases h
  | some y =>
    obtain ⟨c, r1⟩ := y
    rw [hc] at h
    dsimp only at h
    have hw := readChar_eq hc
    split at h
    · rename_i q
      injection h with h; injection h with h1 h2; subst h1; subst h2
      rcases hw with ⟨rfl, h1, h2, h3⟩ | ⟨rfl, h1⟩
      · exact ⟨[c], rfl, .one h1 h2 h3 rfl⟩
      · exact ⟨['\\', c], rfl, .esc h1 rfl⟩
    · rename_i r2 _
      cases hd : readChar r2 with
      | none => rw [hd] at h; cases h
      | some z =>
        obtain ⟨d, r3⟩ := z
        rw [hd] at h
        dsimp only at h
        split at h
        · rename_i hle
          injection h with h; injection h with h1 h2; subst h1; subst h2
          rcases hw with ⟨rfl, hw⟩ | ⟨rfl, hw⟩ <;> rcases readChar_eq hd with ⟨rfl, h1, h2, h3⟩ | ⟨rfl, h1⟩
          · exact ⟨[c] ++ ['-', d], rfl, .range (Or.inl ⟨rfl, hw⟩) h1 h2 h3 hle⟩
          · exact ⟨[c] ++ ['-', '\\', d], rfl, .rangeEsc (Or.inl ⟨rfl, hw⟩) h1 hle⟩
          · exact ⟨['\\', c] ++ ['-', d], rfl, .range (Or.inr ⟨rfl, hw⟩) h1 h2 h3 hle⟩
          · exact ⟨['\\', c] ++ ['-', '\\', d], rfl, .rangeEsc (Or.inr ⟨rfl, hw⟩) h1 hle⟩
        · cases h
    · rename_i hn1 hn2
      injection h with h; injection h with h1 h2; subst h1; subst h2
      have hh : noRange r1 = true := noRange_of fun q e => hn2 q e
      rcases hw with ⟨rfl, h1, h2, h3⟩ | ⟨rfl, h1⟩
      · exact ⟨[c], rfl, .one h1 h2 h3 hh⟩
      · exact ⟨['\\', c], rfl, .esc h1 hh⟩

theorem convert_cls_cons {dir : Bool} {c : Char} {r : List Char} (h1 : c ≠ '\\') (h2 : c ≠ ']') :
    convert dir true (c :: r) = c :: convert dir true r := by
  cases r with
  | nil => rw [convert]; all_goals simp_all [convert]
  | cons a r => rw [convert]; all_goals simp_all

theorem convert_cls_esc {dir : Bool} {c : Char} {r : List Char} : convert dir true ('\\' :: c :: r) = '\\' :: c :: convert dir true r := rfl

theorem convert_lit {c : Char} {r : List Char} (h : c ∉ ['\\', '*', '?', '[']) (hd : ¬ (dir = true ∧ c = '/' ∧ r = [])) :
    convert dir false (c :: r) = if c ∈ metaChars then '\\' :: c :: convert dir false r else c :: convert dir false r := by
  simp at h
  by_cases hs : c = '/' ∧ r = []
  · obtain ⟨rfl, rfl⟩ := hs
    cases dir
    · rfl
    · exact absurd ⟨rfl, rfl, rfl⟩ hd
  · rw [convert]
    all_goals simp_all

theorem alnum_meta {c : Char} (h : c ∈ metaChars) : isAlnum c = false := by
  simp [metaChars] at h
  rcases h with rfl | rfl | rfl | rfl | rfl | rfl | rfl | rfl | rfl <;> decide

theorem cleanText_cons {s : Bool} {c : Char} {r : List Char} (h : c ≠ '\\') (h2 : c ≠ '[') (h3 : c ≠ ']') :
    cleanText s (c :: r) = if s then cleanText true r else c != '*' && c != '?' && cleanText false r := by
  cases s
  · rw [cleanText.eq_def]; simp_all
  · rw [cleanText.eq_def]; simp_all
    rw [show (c != ']') = true from by simp [h3]]

theorem cleanText_esc {s : Bool} {c : Char} {r : List Char} : cleanText s ('\\' :: c :: r) = cleanText s r := by
  cases s <;> rfl

/-- A character of a class that is not escaped, in either state. -/
theorem convert_chr {s : Bool} {c : Char} (h1 : c ≠ '\\') (h2 : c ≠ '[') (h3 : c ≠ ']') {v : List Char} (hc : cleanText s (c :: v) = true) :
    ∃ w', (w' = [c] ∨ w' = ['\\', c] ∧ isAlnum c = false ∧ s = false ∧ c ∈ metaChars) ∧ cleanText s v = true ∧
      ∀ dir q, q ≠ [] → convert dir s (c :: q) = w' ++ convert dir s q := by
  rw [cleanText_cons h1 h2 h3] at hc
  cases s
  · simp at hc
    have hl : c ∉ ['\\', '*', '?', '['] := by simp [h1, h2, hc]
    by_cases hm : c ∈ metaChars
    · exact ⟨['\\', c], Or.inr ⟨rfl, alnum_meta hm, rfl, hm⟩, hc.2, fun dir q hq => by rw [convert_lit hl (by simp [hq]), if_pos hm]; rfl⟩
    · exact ⟨[c], Or.inl rfl, hc.2, fun dir q hq => by rw [convert_lit hl (by simp [hq]), if_neg hm]; rfl⟩
  · exact ⟨[c], Or.inl rfl, hc, fun dir q _ => convert_cls_cons h1 h3⟩

theorem convert_esc {s dir : Bool} {c : Char} {q : List Char} : convert dir s ('\\' :: c :: q) = '\\' :: c :: convert dir s q := by
  cases s <;> rfl

theorem convert_name {dir : Bool} {n q : List Char} (hn : ∀ c ∈ n, 'a' ≤ c ∧ c ≤ 'z') :
    convert dir true (n ++ ':' :: ']' :: q) = n ++ ':' :: ']' :: convert dir false q := by
  induction n with
  | nil => rfl
  | cons c n ih =>
    have hc := hn c (by simp)
    rw [List.cons_append, convert_cls_cons, ih (fun d hd => hn d (by simp [hd])), List.cons_append]
    · rintro rfl; revert hc; decide
    · rintro rfl; revert hc; decide

theorem cleanText_name {n q : List Char} (hn : ∀ c ∈ n, 'a' ≤ c ∧ c ≤ 'z') : cleanText true (n ++ ':' :: ']' :: q) = cleanText false q := by
  induction n with
  | nil => rfl
  | cons c n ih =>
    have hc := hn c (by simp)
    rw [List.cons_append, cleanText_cons, if_pos rfl, ih (fun d hd => hn d (by simp [hd]))]
    · rintro rfl; revert hc; decide
    · rintro rfl; revert hc; decide
    · rintro rfl; revert hc; decide

/-- An element in the text: what the translation makes of it, in either state. -/
theorem item_convert {x : List (Char × Char)} {w r : List Char} (h : ItemText x w r) (s : Bool) (v : List Char)
    (hc : cleanText s (w ++ v) = true) : ∃ s' w', cleanText s' v = true ∧ ItemText x w' r ∧
      (∀ dir q, q ≠ [] → convert dir s (w ++ q) = w' ++ convert dir s' q) ∧
      (∀ t t', noRange (w ++ t) = true → (t.head? = some ']' → t'.head? = some ']') → noRange (w' ++ t') = true) ∧
      (s = true → w' = w) ∧ (s = true → s' = false → w.head? = some '[') := by
  have start : ∀ (w0 : List Char) (c : Char) (y : List Char), (w0 = [c] ∧ c ≠ '\\' ∧ c ≠ '[' ∧ c ≠ ']' ∨ w0 = ['\\', c] ∧ isAlnum c = false) →
      cleanText s (w0 ++ y) = true → ∃ w', (w' = [c] ∧ c ≠ '\\' ∧ c ≠ '[' ∧ c ≠ ']' ∨ w' = ['\\', c] ∧ isAlnum c = false) ∧
        cleanText s y = true ∧ (∀ dir q, q ≠ [] → convert dir s (w0 ++ q) = w' ++ convert dir s q) ∧ (s = true → w' = w0) ∧
        (w'.head? = some '-' → w0 = ['-'] ∧ w' = ['-']) := by
    rintro w0 c y (⟨rfl, h1, h2, h3⟩ | ⟨rfl, h1⟩) hy
    · obtain ⟨w', hw', hv, hq⟩ := convert_chr h1 h2 h3 hy
      rcases hw' with rfl | ⟨rfl, ha, rfl, hm⟩
      · exact ⟨_, Or.inl ⟨rfl, h1, h2, h3⟩, hv, hq, fun _ => rfl, fun e => by simp at e; subst e; exact ⟨rfl, rfl⟩⟩
      · exact ⟨_, Or.inr ⟨rfl, ha⟩, hv, hq, (fun e => nomatch e), (fun e => by simp at e)⟩
    · exact ⟨['\\', c], Or.inr ⟨rfl, h1⟩, by rw [← hy]; exact (cleanText_esc (s := s) (c := c)).symm, fun dir q _ => convert_esc, fun _ => rfl, fun e => by simp at e⟩
  have head : ∀ (y : List Char), y.head? ≠ some '-' → noRange y = true := fun y hy => noRange_of fun q e => hy (by rw [e]; rfl)
  cases h with
  | @one c _ h1 h2 h3 h4 =>
    obtain ⟨w', hw', hv, hq, hs, hd⟩ := start [c] c v (Or.inl ⟨rfl, h1, h2, h3⟩) hc
    refine ⟨s, w', hv, ?_, hq, fun t t' ht htt => ?_, hs, fun e1 e2 => by rw [e1] at e2; cases e2⟩
    · rcases hw' with ⟨rfl, h⟩ | ⟨rfl, h⟩
      · exact .one h1 h2 h3 h4
      · exact .esc h h4
    · by_cases hh : w'.head? = some '-'
      · obtain ⟨e1, rfl⟩ := hd hh
        injection e1 with e1; subst e1
        cases t with
        | nil => cases ht
        | cons a t =>
          have : a = ']' := by
            by_cases ha : a = ']'
            · exact ha
            · exfalso; revert ht; simp [noRange, ha]
          subst this
          cases t' with
          | nil => simp at htt
          | cons b t' => simp at htt; subst htt; rfl
      · refine head _ fun e => hh ?_
        rcases hw' with ⟨rfl, _⟩ | ⟨rfl, _⟩ <;> simpa using e
  | @esc c _ h1 h4 =>
    obtain ⟨w', hw', hv, hq, hs, hd⟩ := start ['\\', c] c v (Or.inr ⟨rfl, h1⟩) hc
    refine ⟨s, w', hv, ?_, hq, fun t t' ht htt => ?_, hs, fun e1 e2 => by rw [e1] at e2; cases e2⟩
    · rcases hw' with ⟨rfl, h⟩ | ⟨rfl, h⟩
      · exact .one h.1 h.2.1 h.2.2 h4
      · exact .esc h h4
    · by_cases hh : w'.head? = some '-'
      · obtain ⟨e1, rfl⟩ := hd hh
        simp at e1
      · refine head _ fun e => hh ?_
        rcases hw' with ⟨rfl, _⟩ | ⟨rfl, _⟩ <;> simpa using e
  | @range c d w0 _ hw h1 h2 h3 h4 =>
    rw [List.append_assoc] at hc
    obtain ⟨w', hw', hv, hq, hs, hd⟩ := start w0 c (['-', d] ++ v) hw hc
    have hv1 : cleanText s (d :: v) = true := by
      have := hv
      rw [List.cons_append, cleanText_cons (by decide) (by decide) (by decide)] at this
      cases s <;> simpa using this
    obtain ⟨wd, hwd, hv2, hq2⟩ := convert_chr h1 h2 h3 hv1
    obtain ⟨_, _, hdash⟩ : ∃ _ : Unit, True ∧ ∀ dir q, q ≠ [] → convert dir s ('-' :: q) = '-' :: convert dir s q := by
      refine ⟨(), trivial, fun dir q hq => ?_⟩
      cases s
      · rw [convert_lit (by decide) (by simp), if_neg (by decide)]
      · exact convert_cls_cons (by decide) (by decide)
    refine ⟨s, w' ++ '-' :: wd, hv2, ?_, fun dir q hne => ?_, fun t t' ht htt => ?_, fun e => ?_, fun e1 e2 => by rw [e1] at e2; cases e2⟩
    · rcases hwd with rfl | ⟨rfl, ha, _⟩
      · exact .range hw' h1 h2 h3 h4
      · exact .rangeEsc hw' ha h4
    · rw [List.append_assoc, hq _ _ (by simp), List.cons_append, hdash _ _ (by simp), List.cons_append, List.nil_append, hq2 _ _ hne]
      simp
    · refine head _ fun e => ?_
      have hh : w'.head? = some '-' := by rcases hw' with ⟨rfl, _⟩ | ⟨rfl, _⟩ <;> simpa using e
      obtain ⟨rfl, rfl⟩ := hd hh
      revert ht
      simp [noRange]
    · rw [hs e]
      rcases hwd with rfl | ⟨rfl, _, e', _⟩
      · rfl
      · rw [e] at e'; cases e'
  | @rangeEsc c d w0 _ hw h1 h4 =>
    rw [List.append_assoc] at hc
    obtain ⟨w', hw', hv, hq, hs, hd⟩ := start w0 c (['-', '\\', d] ++ v) hw hc
    have hv1 : cleanText s v = true := by
      have := hv
      rw [List.cons_append, cleanText_cons (by decide) (by decide) (by decide)] at this
      have h5 : cleanText s ('\\' :: d :: v) = true := by cases s <;> simpa using this
      rwa [cleanText_esc] at h5
    have hdash : ∀ dir q, q ≠ [] → convert dir s ('-' :: q) = '-' :: convert dir s q := by
      intro dir q hq
      cases s
      · rw [convert_lit (by decide) (by simp), if_neg (by decide)]
      · exact convert_cls_cons (by decide) (by decide)
    refine ⟨s, w' ++ ['-', '\\', d], hv1, .rangeEsc hw' h1 h4, fun dir q hne => ?_, fun t t' ht htt => ?_, fun e => by rw [hs e], fun e1 e2 => by rw [e1] at e2; cases e2⟩
    · rw [List.append_assoc, hq _ _ (by simp), List.cons_append, hdash _ _ (by simp), List.cons_append, List.cons_append, List.nil_append, convert_esc]
      simp
    · refine head _ fun e => ?_
      have hh : w'.head? = some '-' := by rcases hw' with ⟨rfl, _⟩ | ⟨rfl, _⟩ <;> simpa using e
      obtain ⟨rfl, rfl⟩ := hd hh
      revert ht
      simp [noRange]
  | @name n _ _ h1 h2 h3 =>
    have hconv : ∀ dir q, convert dir true ('[' :: ':' :: (n ++ ':' :: ']' :: q)) = '[' :: ':' :: (n ++ ':' :: ']' :: convert dir false q) := by
      intro dir q
      rw [convert_cls_cons (by decide) (by decide), convert_cls_cons (by decide) (by decide), convert_name h2]
    refine ⟨false, '[' :: ':' :: (n ++ [':', ']']), ?_, .name h1 h2 h3, fun dir q _ => ?_, fun t t' _ _ => head _ (by simp), fun _ => rfl, fun _ _ => rfl⟩
    · rw [← cleanText_name (n := n) h2 (q := v)]
      have h5 : cleanText s ('[' :: ':' :: (n ++ ':' :: ']' :: v)) = true := by simpa using hc
      cases s
      · rw [cleanText, cleanText_cons (by decide) (by decide) (by decide), if_pos rfl] at h5
        exact h5
      · rw [cleanText] at h5
        · rw [show ('[' != ']') = true from rfl, cleanText_cons (by decide) (by decide) (by decide), if_pos rfl] at h5
          exact h5
        · intro _ _ e; cases e
    · cases s
      · have : convert dir false ('[' :: (':' :: (n ++ ':' :: ']' :: q))) = '[' :: convert dir true (':' :: (n ++ ':' :: ']' :: q)) := by
          rfl
        simp only [List.cons_append, List.append_assoc, List.nil_append]
        rw [this, convert_cls_cons (by decide) (by decide), convert_name h2]
      · have := hconv dir q
        simp only [List.cons_append, List.append_assoc, List.nil_append]
        rw [this]

/-- After a character the next one may be looked at as if the character had been added already, unless they form a range. -/
theorem one_idle (neg : Bool) (acc : List (Char × Char)) (c : Char) (items : List Re) (k : Bool) (alts : List Re)
    (st : List (List Re × List Re)) (r : List Char) (hne : r ≠ []) (h : noRange r = true) :
    PS.run ⟨.cls neg acc (.one c), items, k, alts, st⟩ r = PS.run ⟨.cls neg ((c, c) :: acc) .idle, items, k, alts, st⟩ r := by
  unfold noRange at h
  split at h
  · simp [PS.run, PS.step, PS.clsStep, PS.clsOne, PS.clsIdle, PS.push]
  · cases h
  · rename_i hn
    cases r with
    | nil => exact absurd rfl hne
    | cons a r =>
      have h : a ≠ '-' := by rintro rfl; exact hn r rfl
      simp only [PS.run, PS.step, PS.clsStep, PS.clsOne, if_neg h]
      simp only [PS.clsIdle, PS.push]

theorem named_idle (neg : Bool) (acc : List (Char × Char)) (items : List Re) (k : Bool) (alts : List Re)
    (st : List (List Re × List Re)) (r : List Char) (hne : r ≠ []) (h : r.head? ≠ some '-') :
    PS.run ⟨.cls neg acc .named, items, k, alts, st⟩ r = PS.run ⟨.cls neg acc .idle, items, k, alts, st⟩ r := by
  cases r with
  | nil => exact absurd rfl hne
  | cons a r =>
    simp at h
    simp only [PS.run, PS.step, PS.clsStep, if_neg h]
    simp only [PS.clsIdle, PS.push]

theorem name_run (neg : Bool) (acc : List (Char × Char)) (items : List Re) (k : Bool) (alts : List Re) (st : List (List Re × List Re)) (q : List Char) :
    ∀ (n m : List Char), (∀ c ∈ n, 'a' ≤ c ∧ c ≤ 'z') → PS.run ⟨.cls neg acc (.name m), items, k, alts, st⟩ (n ++ q) =
      PS.run ⟨.cls neg acc (.name (m ++ n)), items, k, alts, st⟩ q := by
  intro n
  induction n with
  | nil => intro m _; simp
  | cons c n ih =>
    intro m hn
    have hc := hn c (by simp)
    have hcol : c ≠ ':' := by rintro rfl; revert hc; decide
    rw [List.cons_append, PS.run]
    simp only [PS.step, PS.clsStep, if_neg hcol, if_pos hc]
    rw [ih _ (fun d hd => hn d (by simp [hd]))]
    simp

theorem noRange_head {r : List Char} (h : r.head? ≠ some '-') : noRange r = true := noRange_of fun q e => h (by rw [e]; rfl)

theorem item_run {x : List (Char × Char)} {w r : List Char} (h : ItemText x w r) (neg : Bool) (acc : List (Char × Char)) (items : List Re)
    (k : Bool) (alts : List Re) (st : List (List Re × List Re)) (q : List Char) (hq : q ≠ [])
    (hr : noRange r = true → noRange q = true) (hr' : r.head? ≠ some '-' → q.head? ≠ some '-') :
    PS.run ⟨.cls neg acc .idle, items, k, alts, st⟩ (w ++ q) = PS.run ⟨.cls neg (x.reverse ++ acc) .idle, items, k, alts, st⟩ q := by
  cases h with
  | one h1 h2 h3 h4 =>
    show _ = PS.run ⟨.cls neg ((_, _) :: acc) .idle, items, k, alts, st⟩ q
    rw [← one_idle _ _ _ _ _ _ _ _ hq (hr h4)]
    simp [PS.run, PS.step, PS.clsStep, PS.clsIdle, h1, h2, h3]
  | esc h1 h4 =>
    show _ = PS.run ⟨.cls neg ((_, _) :: acc) .idle, items, k, alts, st⟩ q
    rw [← one_idle _ _ _ _ _ _ _ _ hq (hr h4)]
    simp [PS.run, PS.step, PS.clsStep, PS.clsIdle, h1]
  | range hw h1 h2 h3 h4 =>
    rcases hw with ⟨rfl, h5, h6, h7⟩ | ⟨rfl, h5⟩ <;>
      simp [PS.run, PS.step, PS.clsStep, PS.clsOne, PS.clsRange, PS.clsIdle, *]
  | rangeEsc hw h1 h4 =>
    rcases hw with ⟨rfl, h5, h6, h7⟩ | ⟨rfl, h5⟩ <;>
      simp [PS.run, PS.step, PS.clsStep, PS.clsOne, PS.clsRange, PS.clsIdle, *]
  | @name n _ _ h1 h2 h3 =>
    rw [← named_idle _ _ _ _ _ _ _ hq (hr' h3)]
    simp only [List.cons_append, List.append_assoc, List.nil_append]
    have h5 := name_run neg acc items k alts st (':' :: ']' :: q) n [] h2
    rw [List.nil_append] at h5
    have h6 : PS.run ⟨.cls neg acc .idle, items, k, alts, st⟩ ('[' :: ':' :: (n ++ ':' :: ']' :: q)) =
        PS.run ⟨.cls neg acc (.name []), items, k, alts, st⟩ (n ++ ':' :: ']' :: q) := by
      simp [PS.run, PS.step, PS.clsStep, PS.clsIdle]
    rw [h6, h5]
    simp [PS.run, PS.step, PS.clsStep, h1]

theorem item_head {x : List (Char × Char)} {w r : List Char} (h : ItemText x w r) : ∃ c q, w = c :: q ∧ c ≠ ']' := by
  cases h with
  | one _ _ h => exact ⟨_, _, rfl, h⟩
  | esc => exact ⟨_, _, rfl, by decide⟩
  | range hw =>
    rcases hw with ⟨rfl, _, _, h⟩ | ⟨rfl, _⟩
    · exact ⟨_, _, rfl, h⟩
    · exact ⟨_, _, rfl, by decide⟩
  | rangeEsc hw =>
    rcases hw with ⟨rfl, _, _, h⟩ | ⟨rfl, _⟩
    · exact ⟨_, _, rfl, h⟩
    · exact ⟨_, _, rfl, by decide⟩
  | name => exact ⟨_, _, rfl, by decide⟩

/-! ### Texts that are no POSIX elements -/

/-- The characters that mark POSIX elements. -/
def Mark (x : Char) : Prop := x = ':' ∨ x = '.' ∨ x = '='

theorem posix_cons {x c : Char} {t : List Char} (h1 : c ≠ '\\') (h2 : c ≠ x) (h : posixEnd x (c :: t) = true) : posixEnd x t = true := by
  cases t with
  | nil => cases h
  | cons b t =>
    rw [posixEnd, if_neg (by simp [h1])] at h
    split at h
    · cases h
    · rw [if_neg (by simp [h2])] at h; exact h

theorem posix_esc {x c : Char} {t : List Char} (hx : Mark x) (h2 : c ≠ x) (h : posixEnd x ('\\' :: c :: t) = true) : posixEnd x t = true := by
  rw [posixEnd] at h
  split at h
  · exact h
  · rename_i hn
    rw [if_neg (by simp), if_neg (by rcases hx with rfl | rfl | rfl <;> simp)] at h
    exact posix_cons (by rintro rfl; exact hn ⟨rfl, Or.inr rfl⟩) h2 h

theorem posix_chr {x c : Char} {w t : List Char} (hx : Mark x) (hw : w = [c] ∧ c ≠ '\\' ∧ c ≠ '[' ∧ c ≠ ']' ∨ w = ['\\', c] ∧ isAlnum c = false)
    (hn : x ∉ w) (h : posixEnd x (w ++ t) = true) : posixEnd x t = true := by
  rcases hw with ⟨rfl, h1, _⟩ | ⟨rfl, _⟩
  · simp at hn; exact posix_cons h1 (Ne.symm hn) h
  · simp at hn; exact posix_esc hx (Ne.symm hn.2) h

theorem posix_name {x : Char} {n t : List Char} (hx : Mark x) (hc : x ≠ ':') (hn : ∀ c ∈ n, 'a' ≤ c ∧ c ≤ 'z') :
    posixEnd x (n ++ ':' :: ']' :: t) = false := by
  induction n with
  | nil =>
    rw [List.nil_append, posixEnd, if_neg (by simp), if_neg (by simp), if_neg (by simp [Ne.symm hc])]
    cases t with
    | nil => rfl
    | cons a t => rw [posixEnd, if_neg (by simp), if_pos (Or.inl rfl)]
  | cons c n ih =>
    cases h : posixEnd x (c :: n ++ ':' :: ']' :: t) with
    | false => rfl
    | true =>
      have hcc := hn c (by simp)
      have := posix_cons (x := x) (c := c) (by rintro rfl; revert hcc; decide)
        (by rintro rfl; rcases hx with rfl | rfl | rfl <;> revert hcc <;> decide) h
      change posixEnd x (n ++ ':' :: ']' :: t) = true at this
      rw [ih (fun d hd => hn d (by simp [hd]))] at this
      cases this

/-- An element without the character says nothing, a named one speaks against it. -/
theorem posix_item {x : Char} {rs : List (Char × Char)} {w r t : List Char} (hx : Mark x) (h : ItemText rs w r) (hn : x ∉ w)
    (hp : posixEnd x (w ++ t) = true) : posixEnd x t = true ∧ w.head? ≠ some '[' := by
  cases h with
  | one h1 h2 h3 => exact ⟨posix_chr hx (Or.inl ⟨rfl, h1, h2, h3⟩) hn hp, by simpa using h2⟩
  | esc h1 => exact ⟨posix_chr hx (Or.inr ⟨rfl, h1⟩) hn hp, by simp⟩
  | @range c d w0 _ hw h1 h2 h3 =>
    rw [List.append_assoc] at hp
    simp at hn
    refine ⟨?_, by rcases hw with ⟨rfl, _, h, _⟩ | ⟨rfl, _⟩ <;> simp [*]⟩
    exact posix_chr (w := [d]) hx (Or.inl ⟨rfl, h1, h2, h3⟩) (by simp [hn]) (posix_cons (by decide) (Ne.symm hn.2.1) (posix_chr hx hw hn.1 hp))
  | @rangeEsc c d w0 _ hw h1 =>
    rw [List.append_assoc] at hp
    simp at hn
    refine ⟨?_, by rcases hw with ⟨rfl, _, h, _⟩ | ⟨rfl, _⟩ <;> simp [*]⟩
    exact posix_chr (w := ['\\', d]) hx (Or.inr ⟨rfl, h1⟩) (by simp [hn]) (posix_cons (by decide) (Ne.symm hn.2.1) (posix_chr hx hw hn.1 hp))
  | @name n _ _ h1 h2 =>
    simp at hn
    simp only [List.cons_append, List.append_assoc, List.nil_append] at hp
    have := posix_cons (by decide) (Ne.symm hn.2.1) (posix_cons (by decide) (Ne.symm hn.1) hp)
    rw [posix_name hx hn.2.1 h2] at this
    cases this

/-- The rest of an element that begins with the character. -/
theorem posix_rest {x : Char} {rs : List (Char × Char)} {u r t : List Char} (hx : Mark x) (h : ItemText rs (x :: u) r) (hn : x ∉ u)
    (hp : posixEnd x (u ++ t) = true) : posixEnd x t = true := by
  generalize hw' : x :: u = w at h
  cases h with
  | one => injection hw' with _ e; subst e; exact hp
  | esc => injection hw' with e; subst e; rcases hx with h | h | h <;> cases h
  | @range c d w0 _ hw h1 h2 h3 =>
    rcases hw with ⟨rfl, _⟩ | ⟨rfl, _⟩
    · injection hw' with e1 e2; subst e1; subst e2
      simp at hn
      exact posix_chr (w := [d]) hx (Or.inl ⟨rfl, h1, h2, h3⟩) (by simp [hn]) (posix_cons (by decide) (Ne.symm hn.1) hp)
    · injection hw' with e; subst e; rcases hx with h | h | h <;> cases h
  | @rangeEsc c d w0 _ hw h1 =>
    rcases hw with ⟨rfl, _⟩ | ⟨rfl, _⟩
    · injection hw' with e1 e2; subst e1; subst e2
      simp at hn
      exact posix_chr (w := ['\\', d]) hx (Or.inr ⟨rfl, h1⟩) (by simp [hn]) (posix_cons (by decide) (Ne.symm hn.1) hp)
    · injection hw' with e; subst e; rcases hx with h | h | h <;> cases h
  | name => injection hw' with e; subst e; rcases hx with h | h | h <;> cases h

/-! ### Classes -/

/-- The closing bracket is copied in either state. -/
theorem convert_close (dir s : Bool) (q : List Char) : convert dir s (']' :: q) = ']' :: convert dir false q := by
  cases s
  · rw [convert_lit (by decide) (by simp), if_neg (by decide)]
  · rfl

theorem posix_close {x : Char} {q : List Char} : posixEnd x (']' :: q) = false := by
  cases q with
  | nil => rfl
  | cons a q => rw [posixEnd, if_neg (by simp), if_pos (Or.inl rfl)]

/-- The elements of a class: what the translation makes of their text, and that the parser reads the same ranges in that. -/
theorem items_class : ∀ (n : Nat) (t : List Char) (xs : List (Char × Char)) (r : List Char), readItems n t = some (xs, r) →
    ∃ w, t = w ++ ']' :: r ∧ (∃ c q, w = c :: q ∧ c ≠ ']') ∧
      ∀ s, cleanText s (w ++ [']']) = true → ∃ w', (∃ c q, w' = c :: q ∧ c ≠ ']') ∧
        (∀ dir q, convert dir s (w ++ ']' :: q) = w' ++ ']' :: convert dir false q) ∧
        (∀ t t', noRange (w ++ ']' :: t) = true → noRange (w' ++ ']' :: t') = true) ∧
        (w.head? ≠ some '-' → w'.head? ≠ some '-') ∧
        (s = true → w'.head? = w.head? ∧ (∀ x q, Mark x → x ∉ w → posixEnd x (w' ++ ']' :: q) = false) ∧
          ∀ x u, w = x :: u → Mark x → x ∉ u → ∃ u', w' = x :: u' ∧ ∀ q, posixEnd x (u' ++ ']' :: q) = false) ∧
        ∀ neg acc items k alts st q, PS.run ⟨.cls neg acc .idle, items, k, alts, st⟩ (w' ++ ']' :: q) =
          PS.run ⟨.normal, .set neg (xs.reverse ++ acc) :: items, true, alts, st⟩ q := by
  intro n
  induction n with
  | zero => intro t xs r h; cases h
  | succ n ih =>
    intro t xs r h
    rw [readItems] at h
    split at h
    · cases h
    · rename_i x r' hx
      injection h with h; injection h with h1 h2; subst h1; subst h2
      obtain ⟨w, rfl, hw⟩ := readItem_eq hx
      refine ⟨w, rfl, item_head hw, fun s hs => ?_⟩
      obtain ⟨s', w', _, hw', hconv, hfol, hid, _⟩ := item_convert hw s _ hs
      refine ⟨w', item_head hw', fun dir q => ?_, fun t t' ht => hfol _ _ ht (by simp), fun hh => ?_, fun e => ?_, fun neg acc items k alts st q => ?_⟩
      · rw [hconv dir _ (by simp), convert_close]
      · intro e
        have h5 : noRange (w' ++ ['x']) = true := by
          obtain ⟨c, u, rfl, _⟩ := item_head hw
          exact hfol ['x'] ['x'] (noRange_head (by simpa using hh)) (by simp)
        obtain ⟨c, u, rfl, hcu⟩ := item_head hw'
        simp at e; subst e
        cases u with
        | nil => revert h5; decide
        | cons a u =>
          have := hfol ['x'] ['x']
          by_cases ha : a = ']'
          · subst ha
            generalize hz : '-' :: ']' :: u = z at hw'
            cases hw' with
            | one => cases hz
            | esc => cases hz
            | range hw'' => rcases hw'' with ⟨rfl, _⟩ | ⟨rfl, _⟩ <;> simp at hz
            | rangeEsc hw'' => rcases hw'' with ⟨rfl, _⟩ | ⟨rfl, _⟩ <;> simp at hz
            | name => cases hz
          · revert h5; simp [noRange, ha]
      · obtain rfl := hid e
        refine ⟨rfl, fun x q hx hn => ?_, fun x u he hm hn => ?_⟩
        · cases h : posixEnd x (w' ++ ']' :: q) with
          | false => rfl
          | true => have := (posix_item hx hw hn h).1; rw [posix_close] at this; cases this
        · subst he
          refine ⟨u, rfl, fun q => ?_⟩
          cases h : posixEnd x (u ++ ']' :: q) with
          | false => rfl
          | true => have := posix_rest hm hw hn h; rw [posix_close] at this; cases this
      · rw [item_run hw' _ _ _ _ _ _ _ (by simp) (fun _ => noRange_head (by simp)) (fun _ => by simp)]
        simp [PS.run, PS.step, PS.clsStep, PS.clsIdle, PS.push]
    · rename_i x r' hn hx
      split at h
      · cases h
      · rename_i ys r'' hy
        injection h with h; injection h with h1 h2; subst h1; subst h2
        obtain ⟨w, rfl, hw⟩ := readItem_eq hx
        obtain ⟨v, rfl, ⟨c, u, rfl, hcu⟩, hrest⟩ := ih _ _ _ hy
        obtain ⟨a, b, rfl, ha⟩ := item_head hw
        refine ⟨a :: b ++ c :: u, by simp, ⟨a, b ++ c :: u, by simp, ha⟩, fun s hs => ?_⟩
        rw [List.append_assoc] at hs
        obtain ⟨s', w', hs', hw', hconv, hfol, hid, hst⟩ := item_convert hw s _ hs
        obtain ⟨v', ⟨c', u', rfl, hcu'⟩, hconv', hfol', hhd', hpos', hrun'⟩ := hrest s' hs'
        obtain ⟨a', b', rfl, ha'⟩ := item_head hw'
        have hstep : ∀ t t', noRange (a :: b ++ (c :: u ++ ']' :: t)) = true → noRange (a' :: b' ++ (c' :: u' ++ ']' :: t')) = true :=
          fun t t' ht => hfol _ _ ht (fun e => by simp at e; exact absurd e hcu)
        refine ⟨a' :: b' ++ c' :: u', ⟨a', b' ++ c' :: u', by simp, ha'⟩, fun dir q => ?_, fun t t' ht => ?_, fun hh e => ?_, fun e => ?_,
          fun neg acc items k alts st q => ?_⟩
        · rw [List.append_assoc, hconv dir _ (by simp), hconv', List.append_assoc]
        · have := hstep t t' (by simpa using ht)
          simpa using this
        · have h5 := hfol ['x'] ['x'] (noRange_head (by simpa using hh)) (by simp)
          simp at e; subst e
          cases b' with
          | nil => revert h5; decide
          | cons d b' =>
            by_cases hd : d = ']'
            · subst hd
              generalize hz : '-' :: ']' :: b' = z at hw'
              cases hw' with
              | one => cases hz
              | esc => cases hz
              | range hw'' => rcases hw'' with ⟨rfl, _⟩ | ⟨rfl, _⟩ <;> simp at hz
              | rangeEsc hw'' => rcases hw'' with ⟨rfl, _⟩ | ⟨rfl, _⟩ <;> simp at hz
              | name => cases hz
            · revert h5; simp [noRange, hd]
        · obtain ⟨rfl, rfl⟩ : a' = a ∧ b' = b := by have := hid e; injection this with h1 h2; exact ⟨h1, h2⟩
          refine ⟨by simp, fun x q hx hn => ?_, fun x y he hx hn => ?_⟩
          · cases h : posixEnd x (a' :: b' ++ c' :: u' ++ ']' :: q) with
            | false => rfl
            | true =>
              rw [List.append_assoc] at h
              obtain ⟨h1, h2⟩ := posix_item hx hw (fun hm => hn (List.mem_append_left _ hm)) h
              cases s' with
              | false => exact absurd (hst e rfl) h2
              | true => rw [(hpos' rfl).2.1 x q hx (fun hm => hn (List.mem_append_right _ hm))] at h1; cases h1
          · simp only [List.cons_append] at he
            injection he with e1 e2; subst e1; subst e2
            refine ⟨b' ++ c' :: u', by simp, fun q => ?_⟩
            cases h : posixEnd a' (b' ++ c' :: u' ++ ']' :: q) with
            | false => rfl
            | true =>
              rw [List.append_assoc] at h
              have h1 := posix_rest hx hw (fun hm => hn (List.mem_append_left _ hm)) h
              cases s' with
              | false =>
                have := hst e rfl
                simp at this; subst this
                rcases hx with h | h | h <;> cases h
              | true => rw [(hpos' rfl).2.1 a' q hx (fun hm => hn (List.mem_append_right _ hm))] at h1; cases h1
        · rw [List.append_assoc, item_run hw' _ _ _ _ _ _ _ (by simp), hrun']
          · simp
          · intro h; exact hfol' _ _ h
          · intro h; simpa using hhd' (by simpa using h)

theorem first_idle (neg : Bool) (c : Char) (hc : c ≠ ']') (hn : neg = false → c ≠ '^') (items : List Re) (k : Bool) (alts : List Re)
    (st : List (List Re × List Re)) (r : List Char) (hp : neg = false → posixAlone c r = false) :
    PS.run ⟨.normal, items, k, alts, st⟩ ('[' :: (if neg then ['^'] else []) ++ c :: r) = PS.run ⟨.cls neg [] .idle, items, k, alts, st⟩ (c :: r) := by
  cases neg
  · simp [PS.run, PS.step, PS.clsFirst, PS.clsStep, hc, hn rfl, hp rfl, PS.clsIdle]
  · simp [PS.run, PS.step, PS.clsFirst, PS.clsStep, hc, PS.clsIdle]

/-- A closing bracket that comes first. -/
theorem first_bracket (neg : Bool) (items : List Re) (k : Bool) (alts : List Re) (st : List (List Re × List Re)) (r : List Char) (hne : r ≠ [])
    (hr : noRange r = true) : PS.run ⟨.normal, items, k, alts, st⟩ ('[' :: (if neg then ['^'] else []) ++ ']' :: r) =
      PS.run ⟨.cls neg [(']', ']')] .idle, items, k, alts, st⟩ r := by
  rw [← one_idle _ _ _ _ _ _ _ _ hne hr]
  cases neg
  · simp [PS.run, PS.step, PS.clsFirst, posixAlone]
  · simp [PS.run, PS.step, PS.clsFirst]

/-- A class without its mark of negation. -/
theorem body_text {t : List Char} {rs : List (Char × Char)} {r : List Char} (h : readBody t = some (rs, r)) :
    ∃ v, t = v ++ r ∧ v ≠ [] ∧ ']' ∈ v ∧ (cleanText true v = true → ∃ w, (∀ dir q, convert dir true (v ++ q) = w ++ convert dir false q) ∧
      w.head? = v.head? ∧
      ∀ neg, (neg = false → clean v = true ∧ v.head? ≠ some '^') → ∀ items k alts st q,
        PS.run ⟨.normal, items, k, alts, st⟩ ('[' :: (if neg then ['^'] else []) ++ (w ++ q)) =
          PS.run ⟨.normal, .set neg rs.reverse :: items, true, alts, st⟩ q) := by
  unfold readBody at h
  split at h
  · injection h with h; injection h with h1 h2; subst h1; subst h2
    refine ⟨[']', ']'], rfl, by simp, by simp, fun _ => ⟨[']', ']'], fun dir q => ?_, rfl, fun neg _ items k alts st q => ?_⟩⟩
    · show convert dir true (']' :: (']' :: q)) = _
      rw [convert_close, convert_close]; rfl
    · show PS.run _ ('[' :: (if neg then ['^'] else []) ++ ']' :: (']' :: q)) = _
      rw [first_bracket _ _ _ _ _ _ (by simp) (noRange_head (by simp))]
      simp [PS.run, PS.step, PS.clsStep, PS.clsIdle, PS.push]
  · rename_i t _
    split at h
    · rename_i hno
      rw [Option.map_eq_some_iff] at h
      obtain ⟨⟨ys, r'⟩, hy, e⟩ := h
      injection e with e1 e2; dsimp only at e1 e2; subst e1; subst e2
      obtain ⟨w, rfl, _, hrest⟩ := items_class _ _ _ _ hy
      refine ⟨']' :: (w ++ [']']), by simp, by simp, by simp, fun hc => ?_⟩
      obtain ⟨w', _, hconv, hfol, _, _, hrun⟩ := hrest false hc
      refine ⟨']' :: (w' ++ [']']), fun dir q => ?_, rfl, fun neg _ items k alts st q => ?_⟩
      · have := hconv dir q
        simp only [List.cons_append, List.append_assoc, List.nil_append] at this ⊢
        rw [convert_close, this]
      · have h1 := first_bracket neg items k alts st (w' ++ ']' :: q) (by simp) (hfol _ _ hno)
        simp only [List.cons_append, List.append_assoc, List.nil_append] at h1 ⊢
        rw [h1, hrun]
        simp
    · cases h
  · obtain ⟨w, rfl, ⟨c, u, rfl, hcu⟩, hrest⟩ := items_class _ _ _ _ h
    refine ⟨c :: u ++ [']'], by simp, by simp, by simp, fun hc => ?_⟩
    obtain ⟨w', ⟨c', u', rfl, hcu'⟩, hconv, hfol, _, hpos, hrun⟩ := hrest true hc
    obtain ⟨hh, hp1, hp2⟩ := hpos rfl
    simp at hh; subst hh
    refine ⟨c' :: u' ++ [']'], fun dir q => ?_, rfl, fun neg hneg items k alts st q => ?_⟩
    · have := hconv dir q
      simp only [List.cons_append, List.append_assoc, List.nil_append] at this ⊢
      rw [this]
    · have h1 := first_idle neg c' hcu' (fun e => by have := (hneg e).2; simpa using this) items k alts st (u' ++ ']' :: q) (fun e => ?_)
      · simp only [List.cons_append, List.append_assoc, List.nil_append] at h1 ⊢
        rw [h1]
        have := hrun neg [] items k alts st q
        simpa using this
      · unfold posixAlone
        by_cases hm : Mark c'
        · have hcl := (hneg e).1
          have hnot : c' ∉ u := by
            intro hmem
            unfold clean at hcl
            have : (c' == ':' || c' == '.' || c' == '=') = true := by rcases hm with rfl | rfl | rfl <;> rfl
            simp [this, hmem] at hcl
          obtain ⟨u'', he, hq⟩ := hp2 c' u rfl hm hnot
          injection he with _ he; subst he
          rw [hq]; simp
        · simp only [Mark, not_or] at hm
          simp [hm]

/-- A class: what the translation makes of it, and what the parser makes of that. -/
theorem class_text {p : List Char} {neg : Bool} {rs : List (Char × Char)} {r : List Char} (h : readClass p = some (neg, rs, r))
    (hcl : clean (p.take (p.length - r.length)) = true) :
    ∃ v w, p = v ++ r ∧ v ≠ [] ∧ (∀ dir q, convert dir false ('[' :: (v ++ q)) = w ++ convert dir false q) ∧
      ∀ items k alts st q, PS.run ⟨.normal, items, k, alts, st⟩ (w ++ q) = PS.run ⟨.normal, .set neg rs.reverse :: items, true, alts, st⟩ q := by
  have pos : ∀ t x, (x = '!' ∨ x = '^') → readBody t = some (rs, r) → neg = true → p = x :: t → ∃ v w, p = v ++ r ∧ v ≠ [] ∧
      (∀ dir q, convert dir false ('[' :: (v ++ q)) = w ++ convert dir false q) ∧
      ∀ items k alts st q, PS.run ⟨.normal, items, k, alts, st⟩ (w ++ q) = PS.run ⟨.normal, .set neg rs.reverse :: items, true, alts, st⟩ q := by
    intro t x hx ht hneg hp
    obtain ⟨v, rfl, hv, _, hrest⟩ := body_text ht
    subst hp
    have hct : cleanText true v = true := by
      have e : (x :: (v ++ r)).take ((x :: (v ++ r)).length - r.length) = x :: v := by
        rw [← List.cons_append, List.take_left' (by simp only [List.length_append, List.length_cons]; omega)]
      rw [e] at hcl
      unfold clean at hcl
      simp only [Bool.and_eq_true] at hcl
      have := hcl.1
      rw [cleanText_cons (by rcases hx with rfl | rfl <;> decide) (by rcases hx with rfl | rfl <;> decide) (by rcases hx with rfl | rfl <;> decide), if_pos rfl] at this
      exact this
    obtain ⟨w, hconv, _, hrun⟩ := hrest hct
    refine ⟨x :: v, '[' :: '^' :: w, by simp, by simp, fun dir q => ?_, fun items k alts st q => ?_⟩
    · have := hconv dir q
      simp only [List.cons_append]
      rcases hx with rfl | rfl
      · rw [convert, this]; rfl
      · rw [convert, this]; rfl
    · have := hrun true (by simp) items k alts st q
      simp only [if_true, List.cons_append, List.nil_append] at this ⊢
      rw [this, hneg]
  unfold readClass at h
  split at h
  · rename_i t
    rw [Option.map_eq_some_iff] at h
    obtain ⟨⟨ys, r'⟩, hy, e⟩ := h
    injection e with e1 e; injection e with e2 e3; dsimp only at e2 e3; subst e2; subst e3
    exact pos t '!' (Or.inl rfl) hy e1.symm rfl
  · rename_i t
    rw [Option.map_eq_some_iff] at h
    obtain ⟨⟨ys, r'⟩, hy, e⟩ := h
    injection e with e1 e; injection e with e2 e3; dsimp only at e2 e3; subst e2; subst e3
    exact pos t '^' (Or.inr rfl) hy e1.symm rfl
  · rename_i hn1 hn2
    rw [Option.map_eq_some_iff] at h
    obtain ⟨⟨ys, r'⟩, hy, e⟩ := h
    injection e with e1 e; injection e with e2 e3; dsimp only at e2 e3; subst e2; subst e3
    obtain ⟨v, rfl, hv, _, hrest⟩ := body_text hy
    have e : (v ++ r').take ((v ++ r').length - r'.length) = v := List.take_left' (by simp)
    rw [e] at hcl
    have hct : cleanText true v = true := by
      have := hcl
      unfold clean at this
      simp only [Bool.and_eq_true] at this
      exact this.1
    obtain ⟨w, hconv, hh, hrun⟩ := hrest hct
    cases v with
    | nil => exact absurd rfl hv
    | cons c u =>
      have hc1 : c ≠ '!' := by rintro rfl; exact hn1 _ rfl
      have hc2 : c ≠ '^' := by rintro rfl; exact hn2 _ rfl
      refine ⟨c :: u, '[' :: w, by simp, by simp, fun dir q => ?_, fun items k alts st q => ?_⟩
      · have := hconv dir q
        simp only [List.cons_append] at this ⊢
        rw [convert, this]
        · intro _ h; injection h with h; exact absurd h hc1
        · intro _ h; injection h with h; exact absurd h hc2
      · have := hrun false (fun _ => ⟨hcl, by simp [hc2]⟩) items k alts st q
        simp only [Bool.false_eq_true, if_false, List.cons_append, List.nil_append] at this ⊢
        rw [this, ← e1]

theorem readClass_bracket {p : List Char} {neg : Bool} {rs : List (Char × Char)} {r : List Char} (h : readClass p = some (neg, rs, r)) : ']' ∈ p := by
  have key : ∀ t : List Char, (∃ y, readBody t = some y) → ']' ∈ t := by
    rintro t ⟨⟨a, b⟩, ht⟩
    obtain ⟨w, rfl, _, hm, _⟩ := body_text ht
    simp [hm]
  unfold readClass at h
  split at h
  all_goals
    rw [Option.map_eq_some_iff] at h
    obtain ⟨y, hy, _⟩ := h
    have := key _ ⟨y, hy⟩
    simp [this]

theorem view_of_frag {sl : Bool} : ∀ (n : Nat) (p : List Char), fragN sl n p = true → View sl p := by
  suffices h : ∀ (m n : Nat) (p : List Char), n ≤ m → fragN sl n p = true → View sl p from fun n p => h n n p (Nat.le_refl _)
  intro m
  induction m with
  | zero =>
    intro n p hn hf
    obtain rfl : n = 0 := by omega
    simp [fragN] at hf; subst hf; exact .nil
  | succ m ih =>
    intro n p hn hf
    cases n with
    | zero => simp [fragN] at hf; subst hf; exact .nil
    | succ n =>
    cases p with
    | nil => exact .nil
    | cons c r =>
      by_cases hb : c = '\\'
      · subst hb
        cases r with
        | nil => simp [fragN] at hf
        | cons d r =>
          simp only [fragN, if_true, Bool.and_eq_true, Bool.not_eq_true'] at hf
          exact .esc hf.1 (ih n r (by omega) hf.2)
      · by_cases hl : c = '['
        · subst hl
          rw [fragN.eq_def] at hf
          dsimp only at hf
          rw [if_neg hb, if_pos rfl] at hf
          split at hf
          · rename_i neg rs r' hr
            simp only [Bool.and_eq_true, Bool.or_eq_true, beq_iff_eq] at hf
            exact .cls hr hf.1.2 hf.1.1 (ih n r' (by omega) hf.2)
          · cases hf
        · rw [fragN_cons hb hl] at hf
          by_cases hq : c = '?'
          · subst hq; exact .one (ih n r (by omega) hf)
          · by_cases hs : c = '*'
            · subst hs
              cases r with
              | nil => exact .star (by simp) .nil
              | cons d r =>
                by_cases hd : d = '*'
                · subst hd
                  cases n with
                  | zero => simp [fragN] at hf
                  | succ n =>
                  rw [fragN_cons (by decide) (by decide)] at hf
                  cases r with
                  | nil => exact .all (by simp) .nil
                  | cons e r =>
                    by_cases he : e = '/'
                    · subst he
                      cases n with
                      | zero => simp [fragN] at hf
                      | succ n =>
                      rw [fragN_cons (by decide) (by decide)] at hf
                      exact .dirs (ih n r (by omega) hf)
                    · exact .all (by simp [he]) (ih n (e :: r) (by omega) hf)
                · exact .star (by simp [hd]) (ih n (d :: r) (by omega) hf)
            · exact .lit (by simp [hb, hl, hq, hs]) (ih n r (by omega) hf)

/-! ## The text -/

theorem convert_all {r : List Char} (h : r.head? ≠ some '/') : convert dir false ('*' :: '*' :: r) = ['.', '*'] ++ convert dir false r := by
  rw [convert]
  intro r' h1; subst h1; simp at h

theorem convert_star {r : List Char} (h : r.head? ≠ some '*') : convert dir false ('*' :: r) = ['[', '^', '/', ']', '*'] ++ convert dir false r := by
  cases r with
  | nil => rfl
  | cons c r =>
    rw [convert]
    · intro r' h1; injection h1 with h1; subst h1; simp at h
    · intro r' h1; injection h1 with h1; subst h1; simp at h

/-- A trailing slash of a directory pattern is left out. -/
theorem convert_dir {sl : Bool} {p : List Char} (v : View sl p) (hl : ∀ q, p ≠ q ++ ['*', '*']) (hs : p.getLast? ≠ some '/') :
    convert true false (p ++ ['/']) = convert false false p := by
  induction v with
  | nil => rfl
  | @esc c r h v ih =>
    show '\\' :: c :: convert true false (r ++ ['/']) = '\\' :: c :: convert false false r
    cases r with
    | nil => rfl
    | cons d r => rw [ih (fun q hq => hl ('\\' :: c :: q) (by rw [hq]; rfl)) (by simpa using hs)]
  | @cls p neg rs r hr hcl _ v ih =>
    obtain ⟨u, w, rfl, hu, hconv, _⟩ := class_text hr hcl
    rw [hconv false r, List.cons_append, List.append_assoc, hconv true]
    cases r with
    | nil => rfl
    | cons d r =>
      rw [ih (fun q hq => hl ('[' :: u ++ q) (by simp [hq])) (fun h => hs ?_)]
      rw [List.getLast?_cons, List.getLast?_append, h]; rfl
  | @dirs r v ih =>
    show ['(', '.', '*', '/', ')', '?'] ++ convert true false (r ++ ['/']) = ['(', '.', '*', '/', ')', '?'] ++ convert false false r
    cases r with
    | nil => rfl
    | cons d r => rw [ih (fun q hq => hl ('*' :: '*' :: '/' :: q) (by rw [hq]; rfl)) (by simpa using hs)]
  | @all r h v ih =>
    cases r with
    | nil => exact absurd rfl (hl [])
    | cons d r =>
      rw [convert_all h]
      show convert true false ('*' :: '*' :: (d :: r ++ ['/'])) = _
      rw [convert_all (by simpa using h), ih (fun q hq => hl ('*' :: '*' :: q) (by rw [hq]; rfl)) (by simpa using hs)]
  | @star r h v ih =>
    rw [convert_star h]
    show convert true false ('*' :: (r ++ ['/'])) = _
    cases r with
    | nil => rfl
    | cons d r =>
      rw [convert_star (by simpa using h), ih (fun q hq => hl ('*' :: q) (by rw [hq]; rfl)) (by simpa using hs)]
  | @one r v ih =>
    show ['[', '^', '/', ']'] ++ convert true false (r ++ ['/']) = ['[', '^', '/', ']'] ++ convert false false r
    cases r with
    | nil => rfl
    | cons d r => rw [ih (fun q hq => hl ('?' :: q) (by rw [hq]; rfl)) (by simpa using hs)]
  | @lit c r h v ih =>
    rw [convert_lit h (by simp), List.cons_append, convert_lit h (by simp)]
    cases r with
    | nil => rfl
    | cons d r => rw [ih (fun q hq => hl (c :: q) (by rw [hq]; rfl)) (by simpa using hs)]

/-! ## Parsing it -/

/-- The expression for a literal. -/
def lit (c : Char) : Re := .set false [(c, c)]

/-- The items a pattern of the fragment stands for. -/
inductive Items : List Char → List Re → Prop
  | nil : Items [] []
  | esc {c r l} : isAlnum c = false → Items r l → Items ('\\' :: c :: r) (lit c :: l)
  | cls {p neg rs r l} : readClass p = some (neg, rs, r) → Items r l → Items ('[' :: p) (.set neg rs.reverse :: l)
  | dirs {r l} : Items r l → Items ('*' :: '*' :: '/' :: r) (.opt (.seq (.star .any) (.seq (lit '/') .eps)) :: l)
  | all {r l} : r.head? ≠ some '/' → Items r l → Items ('*' :: '*' :: r) (.star .any :: l)
  | star {r l} : r.head? ≠ some '*' → Items r l → Items ('*' :: r) (.star (.set true [('/', '/')]) :: l)
  | one {r l} : Items r l → Items ('?' :: r) (.set true [('/', '/')] :: l)
  | lit {c r l} : c ∉ ['\\', '*', '?', '['] → Items r l → Items (c :: r) (lit c :: l)

theorem run_lit (c : Char) (h : c ∉ ['\\', '*', '?', '[']) (items : List Re) (q : Bool) (alts : List Re) (st : List (List Re × List Re)) (rest : List Char) :
    PS.run ⟨.normal, items, q, alts, st⟩ ((if c ∈ metaChars then '\\' :: c :: rest else c :: rest)) =
      PS.run ⟨.normal, lit c :: items, true, alts, st⟩ rest := by
  by_cases hm : c ∈ metaChars
  · rw [if_pos hm]
    have ha : isAlnum c = false := by
      simp [metaChars] at hm
      rcases hm with rfl | rfl | rfl | rfl | rfl | rfl | rfl | rfl | rfl <;> decide
    have hd : c ≠ 'd' := by rintro rfl; exact absurd ha (by decide)
    simp [PS.run, PS.step, ha, hd, PS.push, lit]
  · rw [if_neg hm]
    simp [metaChars] at hm
    simp at h
    simp [PS.run, PS.step, hm, h, PS.push, lit]

theorem run_convert {sl : Bool} {p : List Char} (v : View sl p) : ∃ l, Items p l ∧
    ∀ items q alts st rest, ∃ q', PS.run ⟨.normal, items, q, alts, st⟩ (convert false false p ++ rest) =
      PS.run ⟨.normal, l.reverse ++ items, q', alts, st⟩ rest := by
  induction v with
  | nil => exact ⟨[], .nil, fun items q alts st rest => ⟨q, rfl⟩⟩
  | @esc c r h v ih =>
    obtain ⟨l, hl, ih⟩ := ih
    refine ⟨_, .esc h hl, fun items q alts st rest => ?_⟩
    obtain ⟨q', e⟩ := ih (lit c :: items) true alts st rest
    refine ⟨q', ?_⟩
    rw [List.reverse_cons, List.append_assoc]
    show PS.run _ ('\\' :: c :: (convert false false r ++ rest)) = _
    rw [show [lit c] ++ items = lit c :: items from rfl, ← e]
    have hd : c ≠ 'd' := by rintro rfl; exact absurd h (by decide)
    simp [PS.run, PS.step, h, hd, PS.push, lit]
  | @cls p neg rs r hr hcl _ v ih =>
    obtain ⟨l, hl, ih⟩ := ih
    obtain ⟨u, w, rfl, _, hconv, hrun⟩ := class_text hr hcl
    refine ⟨_, .cls hr hl, fun items q alts st rest => ?_⟩
    obtain ⟨q', e⟩ := ih (.set neg rs.reverse :: items) true alts st rest
    refine ⟨q', ?_⟩
    rw [List.reverse_cons, List.append_assoc, hconv, List.append_assoc, hrun, e]
    rfl
  | @dirs r v ih =>
    obtain ⟨l, hl, ih⟩ := ih
    refine ⟨_, .dirs hl, fun items q alts st rest => ?_⟩
    obtain ⟨q', e⟩ := ih (.opt (.seq (.star .any) (.seq (lit '/') .eps)) :: items) false alts st rest
    refine ⟨q', ?_⟩
    rw [List.reverse_cons, List.append_assoc]
    show PS.run _ ('(' :: '.' :: '*' :: '/' :: ')' :: '?' :: (convert false false r ++ rest)) = _
    rw [show ∀ x : Re, [x] ++ items = x :: items from fun _ => rfl, ← e]
    simp [PS.run, PS.step, PS.push, lit, altOf, seqOf]
  | @all r h v ih =>
    obtain ⟨l, hl, ih⟩ := ih
    refine ⟨_, .all h hl, fun items q alts st rest => ?_⟩
    obtain ⟨q', e⟩ := ih (.star .any :: items) false alts st rest
    refine ⟨q', ?_⟩
    rw [List.reverse_cons, List.append_assoc, convert_all h]
    show PS.run _ ('.' :: '*' :: (convert false false r ++ rest)) = _
    rw [show ∀ x : Re, [x] ++ items = x :: items from fun _ => rfl, ← e]
    simp [PS.run, PS.step, PS.push]
  | @star r h v ih =>
    obtain ⟨l, hl, ih⟩ := ih
    refine ⟨_, .star h hl, fun items q alts st rest => ?_⟩
    obtain ⟨q', e⟩ := ih (.star (.set true [('/', '/')]) :: items) false alts st rest
    refine ⟨q', ?_⟩
    rw [List.reverse_cons, List.append_assoc, convert_star h]
    show PS.run _ ('[' :: '^' :: '/' :: ']' :: '*' :: (convert false false r ++ rest)) = _
    rw [show ∀ x : Re, [x] ++ items = x :: items from fun _ => rfl, ← e]
    simp [PS.run, PS.step, PS.push, PS.clsFirst, PS.clsIdle, PS.clsStep, PS.clsOne]
  | @one r v ih =>
    obtain ⟨l, hl, ih⟩ := ih
    refine ⟨_, .one hl, fun items q alts st rest => ?_⟩
    obtain ⟨q', e⟩ := ih (.set true [('/', '/')] :: items) true alts st rest
    refine ⟨q', ?_⟩
    rw [List.reverse_cons, List.append_assoc]
    show PS.run _ ('[' :: '^' :: '/' :: ']' :: (convert false false r ++ rest)) = _
    rw [show ∀ x : Re, [x] ++ items = x :: items from fun _ => rfl, ← e]
    simp [PS.run, PS.step, PS.push, PS.clsFirst, PS.clsIdle, PS.clsStep, PS.clsOne]
  | @lit c r h v ih =>
    obtain ⟨l, hl, ih⟩ := ih
    refine ⟨_, .lit h hl, fun items q alts st rest => ?_⟩
    obtain ⟨q', e⟩ := ih (lit c :: items) true alts st rest
    refine ⟨q', ?_⟩
    rw [List.reverse_cons, List.append_assoc, convert_lit h (by simp)]
    rw [show [lit c] ++ items = lit c :: items from rfl, ← e, ← run_lit c h items q]
    split <;> rfl

theorem seqOf_reverse : ∀ (l : List Re) (acc : Re), seqOf l.reverse acc = l.foldr .seq acc := by
  have h : ∀ (a b : List Re) (acc : Re), seqOf (a ++ b) acc = seqOf b (seqOf a acc) := by
    intro a
    induction a with
    | nil => intro b acc; rfl
    | cons x a ih => intro b acc; exact ih b _
  intro l
  induction l with
  | nil => intro acc; rfl
  | cons x l ih => intro acc; rw [List.reverse_cons, h, ih]; rfl

/-! ## Matching it -/

theorem inSet_single (x c : Char) : inSet [(x, x)] c = decide (c = x) := by
  have : (x ≤ c ∧ c ≤ x) ↔ c = x := ⟨fun h => Char.le_antisymm h.2 h.1, fun h => by subst h; exact ⟨Char.le_refl _, Char.le_refl _⟩⟩
  simp only [inSet, List.any_cons, List.any_nil, Bool.or_false, ← Bool.decide_and, this]

theorem inSet_reverse (rs : List (Char × Char)) (c : Char) : inSet rs.reverse c = inSet rs c := by
  simp [inSet]

theorem m_set {neg : Bool} {rs : List (Char × Char)} {b m a : List Char} : M (.set neg rs) b m a ↔ ∃ c, m = [c] ∧ inSet rs c = !neg := by
  constructor
  · intro h; cases h with | set h => exact ⟨_, rfl, h⟩
  · rintro ⟨c, rfl, h⟩; exact .set h

theorem m_lit {x : Char} {b m a : List Char} : M (lit x) b m a ↔ m = [x] := by
  rw [lit, m_set]
  constructor
  · rintro ⟨c, rfl, h⟩; simp [inSet_single] at h; rw [h]
  · rintro rfl; exact ⟨x, rfl, by simp [inSet_single]⟩

theorem m_eps {b m a : List Char} : M .eps b m a ↔ m = [] := by
  constructor
  · intro h; cases h; rfl
  · rintro rfl; exact .eps

theorem m_seq {r s : Re} {b m a : List Char} : M (.seq r s) b m a ↔ ∃ u v, m = u ++ v ∧ M r b u (v ++ a) ∧ M s (b ++ u) v a := by
  constructor
  · intro h; cases h with | seq h1 h2 => exact ⟨_, _, rfl, h1, h2⟩
  · rintro ⟨u, v, rfl, h1, h2⟩; exact .seq h1 h2

theorem m_opt {r : Re} {b m a : List Char} : M (.opt r) b m a ↔ m = [] ∨ M r b m a := by
  constructor
  · intro h; cases h with
    | optNil => exact Or.inl rfl
    | optSome h => exact Or.inr h
  · rintro (rfl | h)
    · exact .optNil
    · exact .optSome h

theorem m_alt {r s : Re} {b m a : List Char} : M (.alt r s) b m a ↔ M r b m a ∨ M s b m a := by
  constructor
  · intro h; cases h with
    | altL h => exact Or.inl h
    | altR h => exact Or.inr h
  · rintro (h | h)
    · exact .altL h
    · exact .altR h

/-- Repeating an expression that matches single characters. -/
theorem m_star {r : Re} {P : Char → Prop} (hr : ∀ b m a, M r b m a ↔ ∃ c, m = [c] ∧ P c) {b m a : List Char} : M (.star r) b m a ↔ ∀ c ∈ m, P c := by
  constructor
  · intro h
    generalize hs : Re.star r = x at h
    induction h with
    | starNil => simp
    | starCons h1 h2 _ ih =>
      injection hs with hs; subst hs
      obtain ⟨c, rfl, hc⟩ := (hr _ _ _).mp h1
      intro d hd
      simp at hd
      rcases hd with rfl | hd
      · exact hc
      · exact ih rfl d hd
    | eps => cases hs
    | bol => cases hs
    | eol => cases hs
    | eolNl => cases hs
    | any => cases hs
    | set => cases hs
    | seq => cases hs
    | altL => cases hs
    | altR => cases hs
    | optNil => cases hs
    | optSome => cases hs
  · intro h
    induction m generalizing b with
    | nil => exact .starNil
    | cons c m ih =>
      have h1 : M r b [c] (m ++ a) := (hr _ _ _).mpr ⟨c, rfl, h c (by simp)⟩
      exact .starCons (m := [c]) h1 (ih (fun d hd => h d (by simp [hd])))

theorem m_any {b m a : List Char} : M .any b m a ↔ ∃ c, m = [c] ∧ c ≠ '\n' := by
  constructor
  · intro h; cases h with | any h => exact ⟨_, rfl, h⟩
  · rintro ⟨c, rfl, h⟩; exact .any h

theorem m_noslash {b m a : List Char} : M (.set true [('/', '/')]) b m a ↔ ∃ c, m = [c] ∧ c ≠ '/' := by
  rw [m_set]; simp [inSet_single]

/-- The items match exactly what the pattern matches, followed by what the rest matches. -/
theorem items_match {p : List Char} {l : List Re} (h : Items p l) (e : Re) : ∀ (b m a : List Char), '\n' ∉ m →
    (M (l.foldr .seq e) b m a ↔ ∃ u v, m = u ++ v ∧ GlobX true p u ∧ M e (b ++ u) v a) := by
  induction h with
  | nil =>
    intro b m a _
    constructor
    · intro h; exact ⟨[], m, rfl, .nil, by simpa using h⟩
    · rintro ⟨u, v, rfl, hg, h⟩; cases hg; simpa using h
  | @esc c r l hc _ ih =>
    intro b m a hn
    rw [List.foldr_cons, m_seq]
    constructor
    · rintro ⟨u, v, rfl, h1, h2⟩
      rw [m_lit] at h1; subst h1
      simp at hn
      obtain ⟨u', v', rfl, hg, h3⟩ := (ih _ _ _ (by simpa using hn.2)).mp h2
      exact ⟨c :: u', v', by simp, .esc hg, by simpa using h3⟩
    · rintro ⟨u, v, rfl, hg, h⟩
      cases hg with
      | @esc _ _ s hg =>
        refine ⟨[c], s ++ v, by simp, m_lit.mpr rfl, ?_⟩
        refine (ih _ _ _ (by simp at hn ⊢; exact hn.2)).mpr ⟨s, v, rfl, hg, by simpa using h⟩
      | lit hne => simp at hne
  | @cls p neg rs r l hr _ ih =>
    intro b m a hn
    rw [List.foldr_cons, m_seq]
    constructor
    · rintro ⟨u, v, rfl, h1, h2⟩
      rw [m_set] at h1
      obtain ⟨c, rfl, hc⟩ := h1
      rw [inSet_reverse] at hc
      simp at hn
      obtain ⟨u', v', rfl, hg, h3⟩ := (ih _ _ _ (by simpa using hn.2)).mp h2
      exact ⟨c :: u', v', by simp, .cls hr hc (Or.inl rfl) hg, by simpa using h3⟩
    · rintro ⟨u, v, rfl, hg, h⟩
      cases hg with
      | @cls _ neg' rs' p' c s hr' hc _ hg =>
        rw [hr] at hr'
        injection hr' with hr'; injection hr' with h1 h2; injection h2 with h2 h3; subst h1; subst h2; subst h3
        simp at hn
        exact ⟨[c], s ++ v, by simp, m_set.mpr ⟨c, rfl, by rw [inSet_reverse]; exact hc⟩,
          (ih _ _ _ (by simp; exact hn.2)).mpr ⟨s, v, rfl, hg, by simpa using h⟩⟩
      | lit hne => simp at hne
  | @dirs r l _ ih =>
    intro b m a hn
    rw [List.foldr_cons, m_seq]
    constructor
    · rintro ⟨u, v, rfl, h1, h2⟩
      simp at hn
      obtain ⟨u', v', rfl, hg, h3⟩ := (ih _ _ _ hn.2).mp h2
      rw [m_opt] at h1
      rcases h1 with rfl | h1
      · exact ⟨u', v', by simp, .dirs0 hg, by simpa using h3⟩
      · rw [m_seq] at h1
        obtain ⟨x, y, rfl, h4, h5⟩ := h1
        rw [m_seq] at h5
        obtain ⟨y1, y2, rfl, h6, h7⟩ := h5
        rw [m_lit] at h6; rw [m_eps] at h7
        subst h6; subst h7
        exact ⟨x ++ '/' :: u', v', by simp, .dirs hg, by simpa using h3⟩
    · rintro ⟨u, v, rfl, hg, h⟩
      cases hg with
      | dirs0 hg =>
        exact ⟨[], u ++ v, by simp, m_opt.mpr (Or.inl rfl), (ih _ _ _ hn).mpr ⟨u, v, rfl, hg, by simpa using h⟩⟩
      | @dirs x _ s hg =>
        refine ⟨x ++ ['/'], s ++ v, by simp, m_opt.mpr (Or.inr ?_), ?_⟩
        · refine m_seq.mpr ⟨x, ['/'], rfl, ?_, m_seq.mpr ⟨['/'], [], rfl, m_lit.mpr rfl, m_eps.mpr rfl⟩⟩
          refine (m_star (fun _ _ _ => m_any)).mpr ?_
          rintro c hc rfl; simp [hc] at hn
        · refine (ih _ _ _ ?_).mpr ⟨s, v, rfl, hg, by simpa using h⟩
          simp at hn ⊢; exact hn.2
      | star hp => simp at hp
      | all hp => simp at hp
      | lit hne => simp at hne
  | @all r l hr _ ih =>
    intro b m a hn
    rw [List.foldr_cons, m_seq]
    constructor
    · rintro ⟨u, v, rfl, h1, h2⟩
      simp at hn
      obtain ⟨u', v', rfl, hg, h3⟩ := (ih _ _ _ hn.2).mp h2
      exact ⟨u ++ u', v', by simp, .all hr hg, by simpa using h3⟩
    · rintro ⟨u, v, rfl, hg, h⟩
      cases hg with
      | dirs0 => simp at hr
      | dirs => simp at hr
      | @all x _ s _ hg =>
        simp at hn
        refine ⟨x, s ++ v, by simp, (m_star (fun _ _ _ => m_any)).mpr ?_, (ih _ _ _ (by simp; exact ⟨hn.2.1, hn.2.2⟩)).mpr ⟨s, v, rfl, hg, by simpa using h⟩⟩
        rintro c hc rfl; exact hn.1 hc
      | star hp => simp at hp
      | lit hne => simp at hne
  | @star r l hr _ ih =>
    intro b m a hn
    rw [List.foldr_cons, m_seq]
    constructor
    · rintro ⟨u, v, rfl, h1, h2⟩
      simp at hn
      obtain ⟨u', v', rfl, hg, h3⟩ := (ih _ _ _ hn.2).mp h2
      exact ⟨u ++ u', v', by simp, .star hr ((m_star (fun _ _ _ => m_noslash)).mp h1) hg, by simpa using h3⟩
    · rintro ⟨u, v, rfl, hg, h⟩
      cases hg with
      | dirs0 => simp at hr
      | dirs => simp at hr
      | all => simp at hr
      | @star x _ s _ hx hg =>
        simp at hn
        exact ⟨x, s ++ v, by simp, (m_star (fun _ _ _ => m_noslash)).mpr hx, (ih _ _ _ (by simp; exact ⟨hn.2.1, hn.2.2⟩)).mpr ⟨s, v, rfl, hg, by simpa using h⟩⟩
      | lit hne => simp at hne
  | @one r l _ ih =>
    intro b m a hn
    rw [List.foldr_cons, m_seq]
    constructor
    · rintro ⟨u, v, rfl, h1, h2⟩
      rw [m_noslash] at h1
      obtain ⟨c, rfl, hc⟩ := h1
      simp at hn
      obtain ⟨u', v', rfl, hg, h3⟩ := (ih _ _ _ (by simpa using hn.2)).mp h2
      exact ⟨c :: u', v', by simp, .one hc hg, by simpa using h3⟩
    · rintro ⟨u, v, rfl, hg, h⟩
      cases hg with
      | @one c _ s hc hg =>
        simp at hn
        exact ⟨[c], s ++ v, by simp, m_noslash.mpr ⟨c, rfl, hc⟩, (ih _ _ _ (by simp; exact hn.2)).mpr ⟨s, v, rfl, hg, by simpa using h⟩⟩
      | lit hne => simp at hne
  | @lit c r l hc _ ih =>
    intro b m a hn
    rw [List.foldr_cons, m_seq]
    constructor
    · rintro ⟨u, v, rfl, h1, h2⟩
      rw [m_lit] at h1; subst h1
      simp at hn
      obtain ⟨u', v', rfl, hg, h3⟩ := (ih _ _ _ (by simpa using hn.2)).mp h2
      exact ⟨c :: u', v', by simp, .lit hc hg, by simpa using h3⟩
    · rintro ⟨u, v, rfl, hg, h⟩
      cases hg with
      | @lit _ _ s _ hg =>
        simp at hn
        exact ⟨[c], s ++ v, by simp, m_lit.mpr rfl, (ih _ _ _ (by simp; exact hn.2)).mpr ⟨s, v, rfl, hg, by simpa using h⟩⟩
      | esc => simp at hc
      | one => simp at hc
      | cls => simp at hc
      | star => simp at hc
      | dirs0 => simp at hc
      | dirs => simp at hc
      | all => simp at hc

/-! ## The whole expression -/

/-- Where classes without the slash are concerned the flag makes no difference. -/
theorem globX_strict {p : List Char} (v : View false p) (s : List Char) : GlobX true p s ↔ Glob p s := by
  constructor
  · intro h
    induction v generalizing s with
    | nil => cases h; exact .nil
    | esc _ _ ih =>
      cases h with
      | esc h => exact .esc (ih _ h)
      | lit hne => simp at hne
    | cls hr _ hs _ ih =>
      cases h with
      | cls hr' hc _ hg =>
        rw [hr] at hr'
        injection hr' with hr'; injection hr' with h1 h2; injection h2 with h2 h3; subst h1; subst h2; subst h3
        refine .cls hr hc (Or.inr ?_) (ih _ hg)
        rintro rfl
        rcases hs with hs | hs
        · cases hs
        · rw [hs] at hc; simp at hc
      | lit hne => simp at hne
    | dirs _ ih =>
      cases h with
      | dirs0 h => exact .dirs0 (ih _ h)
      | dirs h => exact .dirs (ih _ h)
      | star hp => simp at hp
      | all hp => simp at hp
      | lit hne => simp at hne
    | all hr _ ih =>
      cases h with
      | dirs0 => simp at hr
      | dirs => simp at hr
      | all h1 h => exact .all h1 (ih _ h)
      | star hp => simp at hp
      | lit hne => simp at hne
    | star hr _ ih =>
      cases h with
      | dirs0 => simp at hr
      | dirs => simp at hr
      | all => simp at hr
      | star h1 h2 h => exact .star h1 h2 (ih _ h)
      | lit hne => simp at hne
    | one _ ih =>
      cases h with
      | one h1 h => exact .one h1 (ih _ h)
      | lit hne => simp at hne
    | lit hc _ ih =>
      cases h with
      | lit h1 h => exact .lit h1 (ih _ h)
      | esc => simp at hc
      | one => simp at hc
      | cls => simp at hc
      | star => simp at hc
      | dirs0 => simp at hc
      | dirs => simp at hc
      | all => simp at hc
  · intro h
    exact globX_mono h
where
  globX_mono {p s : List Char} (h : Glob p s) : GlobX true p s := by
    induction h with
    | nil => exact .nil
    | lit h _ ih => exact .lit h ih
    | esc _ ih => exact .esc ih
    | one h _ ih => exact .one h ih
    | cls h1 h2 _ _ ih => exact .cls h1 h2 (Or.inl rfl) ih
    | star h1 h2 _ ih => exact .star h1 h2 ih
    | dirs0 _ ih => exact .dirs0 ih
    | dirs _ ih => exact .dirs ih
    | all h _ ih => exact .all h ih

/-- In a text without slashes the flag makes no difference. -/
theorem globX_noslash {p s : List Char} (hs : '/' ∉ s) : GlobX true p s ↔ Glob p s := by
  constructor
  · intro h
    induction h with
    | nil => exact .nil
    | lit h _ ih => simp at hs; exact .lit h (ih hs.2)
    | esc _ ih => simp at hs; exact .esc (ih hs.2)
    | one h _ ih => simp at hs; exact .one h (ih hs.2)
    | cls h1 h2 _ _ ih => simp at hs; exact .cls h1 h2 (Or.inr (Ne.symm hs.1)) (ih hs.2)
    | star h1 h2 _ ih => simp at hs; exact .star h1 h2 (ih hs.2)
    | dirs0 _ ih => exact .dirs0 (ih hs)
    | dirs _ ih => simp at hs
    | all h _ ih => simp at hs; exact .all h (ih hs.2)
  · exact globX_strict.globX_mono

/-- Where a pattern may match in a path relative to the directory of the ignore file: at the beginning, or (unanchored) after
a slash; up to the end, or (directory pattern) up to a slash. -/
def PathMatchX (sl anch dir : Bool) (core rel : List Char) : Prop :=
  ∃ pre mid post, rel = pre ++ mid ++ post ∧ (pre = [] ∨ anch = false ∧ ∃ q, pre = q ++ ['/']) ∧ GlobX sl core mid ∧
    (post = [] ∨ dir = true ∧ ∃ q, post = '/' :: q)

/-- The same with the glob semantics. -/
abbrev PathMatch := PathMatchX false

def startRe (anch : Bool) : Re := if anch then .bol else .alt (.seq .bol .eps) (.seq (lit '/') .eps)
def endRe (dir : Bool) : Re := if dir then .alt (.seq (lit '/') .eps) (.seq .eol .eps) else .eol

theorem m_bol {b m a : List Char} : M .bol b m a ↔ b = [] ∧ m = [] := by
  constructor
  · intro h; cases h; exact ⟨rfl, rfl⟩
  · rintro ⟨rfl, rfl⟩; exact .bol

theorem m_eol {b m a : List Char} : M .eol b m a ↔ m = [] ∧ (a = [] ∨ a = ['\n']) := by
  constructor
  · intro h; cases h with
    | eol => exact ⟨rfl, Or.inl rfl⟩
    | eolNl => exact ⟨rfl, Or.inr rfl⟩
  · rintro ⟨rfl, rfl | rfl⟩
    · exact .eol
    · exact .eolNl

theorem parse_text {sl : Bool} {core : List Char} (v : View sl core) (anch dir neg : Bool) : ∃ l, Items core l ∧
    parse (startAnchor ⟨neg, dir, anch⟩ ++ convert false false core ++ endAnchor ⟨neg, dir, anch⟩) =
      some (.seq (startRe anch) (l.foldr .seq (.seq (endRe dir) .eps))) := by
  obtain ⟨l, hl, h⟩ := run_convert v
  refine ⟨l, hl, ?_⟩
  have hstart : ∀ rest, ∃ q, PS.run PS.init (startAnchor ⟨neg, dir, anch⟩ ++ rest) = PS.run ⟨.normal, [startRe anch], q, [], []⟩ rest := by
    intro rest
    cases anch
    · exact ⟨true, by simp [startAnchor, startRe, PS.run, PS.step, PS.init, PS.push, altOf, seqOf, lit]⟩
    · exact ⟨false, by simp [startAnchor, startRe, PS.run, PS.step, PS.init]⟩
  have hend : ∀ items q, ∃ q', PS.run ⟨.normal, items, q, [], []⟩ (endAnchor ⟨neg, dir, anch⟩) = some ⟨.normal, endRe dir :: items, q', [], []⟩ := by
    intro items q
    cases dir
    · exact ⟨false, by simp [endAnchor, endRe, PS.run, PS.step]⟩
    · exact ⟨true, by simp [endAnchor, endRe, PS.run, PS.step, PS.push, altOf, seqOf, lit]⟩
  obtain ⟨q1, e1⟩ := hstart (convert false false core ++ endAnchor ⟨neg, dir, anch⟩)
  obtain ⟨q2, e2⟩ := h [startRe anch] q1 [] [] (endAnchor ⟨neg, dir, anch⟩)
  obtain ⟨q3, e3⟩ := hend (l.reverse ++ [startRe anch]) q2
  rw [parse, List.append_assoc, e1, e2, e3]
  show some (seqOf (endRe dir :: (l.reverse ++ [startRe anch])) .eps) = _
  have : endRe dir :: (l.reverse ++ [startRe anch]) = (startRe anch :: (l ++ [endRe dir])).reverse := by simp
  rw [this, seqOf_reverse]
  simp

theorem m_end {dir : Bool} {b m a : List Char} (hn : '\n' ∉ a) : M (.seq (endRe dir) .eps) b m a ↔ (m = [] ∧ a = []) ∨ (dir = true ∧ m = ['/']) := by
  have ha : a ≠ ['\n'] := by rintro rfl; simp at hn
  rw [m_seq]
  cases dir
  · simp only [endRe, m_eol, m_eps, Bool.false_eq_true, if_false]
    constructor
    · rintro ⟨u, v, rfl, ⟨rfl, h⟩, rfl⟩
      rcases h with h | h
      · exact Or.inl ⟨rfl, by simpa using h⟩
      · exact absurd (by simpa using h) ha
    · rintro (⟨rfl, rfl⟩ | ⟨h, _⟩)
      · exact ⟨[], [], rfl, ⟨rfl, Or.inl rfl⟩, rfl⟩
      · exact absurd h (by simp)
  · simp only [endRe, m_alt, m_seq, m_lit, m_eol, m_eps, if_true]
    constructor
    · rintro ⟨u, v, rfl, h, rfl⟩
      rcases h with ⟨x, y, rfl, rfl, rfl⟩ | ⟨x, y, rfl, ⟨rfl, h⟩, rfl⟩
      · exact Or.inr ⟨trivial, by simp⟩
      · rcases h with h | h
        · exact Or.inl ⟨rfl, by simpa using h⟩
        · exact absurd (by simpa using h) ha
    · rintro (⟨rfl, rfl⟩ | ⟨_, rfl⟩)
      · exact ⟨[], [], rfl, Or.inr ⟨[], [], rfl, ⟨rfl, Or.inl rfl⟩, rfl⟩, rfl⟩
      · exact ⟨['/'], [], rfl, Or.inl ⟨['/'], [], rfl, rfl, rfl⟩, rfl⟩

theorem m_start {anch : Bool} {b m a : List Char} : M (startRe anch) b m a ↔ (b = [] ∧ m = []) ∨ (anch = false ∧ m = ['/']) := by
  cases anch
  · simp only [startRe, m_alt, m_seq, m_lit, m_bol, m_eps, Bool.false_eq_true, if_false]
    constructor
    · rintro (⟨x, y, rfl, ⟨rfl, rfl⟩, rfl⟩ | ⟨x, y, rfl, rfl, rfl⟩)
      · exact Or.inl ⟨rfl, rfl⟩
      · exact Or.inr ⟨trivial, rfl⟩
    · rintro (⟨rfl, rfl⟩ | ⟨_, rfl⟩)
      · exact Or.inl ⟨[], [], rfl, ⟨rfl, rfl⟩, rfl⟩
      · exact Or.inr ⟨['/'], [], rfl, rfl, rfl⟩
  · simp [startRe, m_bol]

/-- Searching for the expression of a pattern. -/
theorem search_iff {core : List Char} {l : List Re} (hl : Items core l) (anch dir : Bool) (rel : List Char) (hn : '\n' ∉ rel) :
    Re.Search (.seq (startRe anch) (l.foldr .seq (.seq (endRe dir) .eps))) rel ↔ PathMatchX true anch dir core rel := by
  constructor
  · rintro ⟨b, m, a, rfl, h⟩
    simp at hn
    obtain ⟨u, v, rfl, h1, h2⟩ := m_seq.mp h
    simp at hn
    obtain ⟨x, y, rfl, hg, h3⟩ := (items_match hl _ _ _ _ hn.2.1.2).mp h2
    rw [m_end hn.2.2] at h3
    rw [m_start] at h1
    refine ⟨b ++ u, x, y ++ a, by simp, ?_, hg, ?_⟩
    · rcases h1 with ⟨rfl, rfl⟩ | ⟨ha, rfl⟩
      · exact Or.inl rfl
      · exact Or.inr ⟨ha, b, rfl⟩
    · rcases h3 with ⟨rfl, rfl⟩ | ⟨hd, rfl⟩
      · exact Or.inl rfl
      · exact Or.inr ⟨hd, a, rfl⟩
  · rintro ⟨pre, mid, post, rfl, hpre, hg, hpost⟩
    simp at hn
    have hp : ∃ b u, pre = b ++ u ∧ ((b = [] ∧ u = []) ∨ (anch = false ∧ u = ['/'])) := by
      rcases hpre with rfl | ⟨ha, q, rfl⟩
      · exact ⟨[], [], rfl, Or.inl ⟨rfl, rfl⟩⟩
      · exact ⟨q, ['/'], rfl, Or.inr ⟨ha, rfl⟩⟩
    have hq : ∃ y a, post = y ++ a ∧ ((y = [] ∧ a = []) ∨ (dir = true ∧ y = ['/'])) := by
      rcases hpost with rfl | ⟨hd, q, rfl⟩
      · exact ⟨[], [], rfl, Or.inl ⟨rfl, rfl⟩⟩
      · exact ⟨['/'], q, rfl, Or.inr ⟨hd, rfl⟩⟩
    obtain ⟨b, u, rfl, h1⟩ := hp
    obtain ⟨y, a, rfl, h2⟩ := hq
    simp at hn
    refine ⟨b, u ++ (mid ++ y), a, by simp, m_seq.mpr ⟨u, mid ++ y, rfl, m_start.mpr h1, ?_⟩⟩
    exact (items_match hl _ _ _ _ (by simp; exact ⟨hn.2.1, hn.2.2.1⟩)).mpr ⟨mid, y, rfl, hg, (m_end hn.2.2.2).mpr h2⟩

/-! ## Length of the text -/

theorem convert_length (dir cls : Bool) (p : List Char) :
    2 * (convert dir cls p).length ≤ 9 * p.length + 1 ∧ (cls = true ∨ p.head? ≠ some '*' → 2 * (convert dir cls p).length ≤ 9 * p.length) := by
  fun_induction convert dir cls p
  all_goals simp only [List.length_cons, List.length_append, List.length_nil, List.head?_cons] at *
  case case11 r _ hr ih =>
    have hh : r.head? ≠ some '*' := by
      intro h
      cases r with
      | nil => simp at h
      | cons c r => simp at h; subst h; exact hr r rfl
    have := ih.2 (Or.inr hh)
    exact ⟨by omega, fun h => by simp at h⟩
  all_goals grind

theorem convert_len (dir cls : Bool) (p : List Char) : 2 * (convert dir cls p).length ≤ 9 * p.length + 1 := (convert_length dir cls p).1

grind_pattern convert_len => convert dir cls p

theorem convert_length_slash (dir cls : Bool) (p : List Char) (h : '/' ∈ p) :
    2 * (convert dir cls p).length + 5 ≤ 9 * p.length ∧ (cls = true ∨ p.head? ≠ some '*' → 2 * (convert dir cls p).length + 6 ≤ 9 * p.length) := by
  have hmeta : '/' ∉ metaChars := by decide
  fun_induction convert dir cls p
  all_goals simp only [List.length_cons, List.length_append, List.length_nil, List.mem_cons, List.head?_cons] at *
  case case11 r _ hr ih =>
    have hh : r.head? ≠ some '*' := by
      intro h
      cases r with
      | nil => simp at h
      | cons c r => simp at h; subst h; exact hr r rfl
    have := (ih (h.resolve_left (by decide))).2 (Or.inr hh)
    exact ⟨by omega, fun h => by simp at h⟩
  all_goals grind

end Verif.Ignore
