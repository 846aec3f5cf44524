import Verif.Output.JsonText

/-! # Reading what was written: lemmas -/

namespace Verif.Output

/-! ## Code points -/

/-- Code points that UTF-8 can encode. -/
def IsCode (n : Nat) : Prop := n < 0x110000 ∧ ¬ (0xD800 ≤ n ∧ n ≤ 0xDFFF)

theorem nextCode_spec {a : Nat} {s : List Nat} (h : utf8 (a :: s) = true) :
    ∃ n r, nextCode (a :: s) = some (n, r) ∧ utf8 r = true ∧ r.length ≤ s.length ∧ IsCode n ∧ utf8Encode n ++ r = a :: s := by
  unfold utf8 at h
  unfold nextCode
  dsimp only
  by_cases h1 : a < 0x80
  · rw [if_pos h1] at h ⊢
    refine ⟨a, s, rfl, h, Nat.le_refl _, ⟨by omega, by omega⟩, ?_⟩
    unfold utf8Encode; rw [if_pos h1]; rfl
  rw [if_neg h1] at h ⊢
  by_cases h2 : 0xC2 ≤ a ∧ a ≤ 0xDF
  · rw [if_pos h2] at h ⊢
    match s, h with
    | b :: r, h =>
      simp only [Bool.and_eq_true, decide_eq_true_eq] at h
      dsimp only
      rw [if_pos h.1]
      refine ⟨_, r, rfl, h.2, by simp, ⟨by omega, by omega⟩, ?_⟩
      unfold utf8Encode
      rw [if_neg (by omega), if_pos (by omega)]
      simp only [List.cons_append, List.nil_append, List.cons.injEq, and_true]
      omega
  rw [if_neg h2] at h ⊢
  by_cases h3 : 0xE0 ≤ a ∧ a ≤ 0xEF
  · rw [if_pos h3] at h ⊢
    match s, h with
    | [_], h => cases h
    | b :: c :: r, h =>
      simp only [Bool.and_eq_true, decide_eq_true_eq] at h
      obtain ⟨⟨g1, g2, g3, g4, g5, g6⟩, h⟩ := h
      have gx : a ≠ 0xE0 ∨ 0xA0 ≤ b := by
        by_cases e : a = 0xE0
        · exact .inr (g5 e)
        · exact .inl e
      have gy : a ≠ 0xED ∨ b ≤ 0x9F := by
        by_cases e : a = 0xED
        · exact .inr (g6 e)
        · exact .inl e
      clear g5 g6
      dsimp only
      rw [if_pos (by omega)]
      refine ⟨_, r, rfl, h, by simp; omega, ⟨by omega, by omega⟩, ?_⟩
      unfold utf8Encode
      rw [if_neg (by omega), if_neg (by omega), if_pos (by omega)]
      simp only [List.cons_append, List.nil_append, List.cons.injEq, and_true]
      omega
  rw [if_neg h3] at h ⊢
  by_cases h4 : 0xF0 ≤ a ∧ a ≤ 0xF4
  · rw [if_pos h4] at h ⊢
    match s, h with
    | [_], h => cases h
    | [_, _], h => cases h
    | b :: c :: d :: r, h =>
      simp only [Bool.and_eq_true, decide_eq_true_eq] at h
      obtain ⟨⟨g1, g2, g3, g4, g7, g8, g5, g6⟩, h⟩ := h
      have gx : a ≠ 0xF0 ∨ 0x90 ≤ b := by
        by_cases e : a = 0xF0
        · exact .inr (g5 e)
        · exact .inl e
      have gy : a ≠ 0xF4 ∨ b ≤ 0x8F := by
        by_cases e : a = 0xF4
        · exact .inr (g6 e)
        · exact .inl e
      clear g5 g6
      dsimp only
      rw [if_pos (by omega)]
      refine ⟨_, r, rfl, h, by simp; omega, ⟨by omega, by omega⟩, ?_⟩
      unfold utf8Encode
      rw [if_neg (by omega), if_neg (by omega), if_neg (by omega)]
      simp only [List.cons_append, List.nil_append, List.cons.injEq, and_true]
      omega
  rw [if_neg h4] at h; cases h

/-! ## Strings -/

theorem hexVal_upperHex : ∀ d < 16, hexVal (upperHex d) = some d := by decide

theorem hex4_unicode {n : Nat} (h : n < 0x10000) :
    hex4 (upperHex (n / 4096 % 16)) (upperHex (n / 256 % 16)) (upperHex (n / 16 % 16)) (upperHex (n % 16)) = some n := by
  unfold hex4
  rw [hexVal_upperHex _ (Nat.mod_lt _ (by decide)), hexVal_upperHex _ (Nat.mod_lt _ (by decide)), hexVal_upperHex _ (Nat.mod_lt _ (by decide)),
    hexVal_upperHex _ (Nat.mod_lt _ (by decide))]
  simp only [Option.bind_eq_bind, Option.bind_some, Option.some.injEq]
  omega

theorem read_unicode {n : Nat} (h : n < 0x10000) (hs : ¬ (0xD800 ≤ n ∧ n ≤ 0xDFFF)) (t : List Char) :
    readString (unicodeEscape n ++ t) = withBytes (bytesOf n) (readString t) := by
  unfold unicodeEscape
  simp only [List.cons_append, List.nil_append, readString, hex4_unicode h]
  rw [if_neg (by omega), if_neg (by omega)]

theorem read_pair {n : Nat} (h : n < 0x110000) (h' : 0x10000 ≤ n) (t : List Char) :
    readString (unicodeEscape (0xD800 + (n - 0x10000) / 1024) ++ unicodeEscape (0xDC00 + (n - 0x10000) % 1024) ++ t) =
      withBytes (bytesOf n) (readString t) := by
  have e1 : 0xD800 + (n - 0x10000) / 1024 < 0x10000 := by omega
  have e2 : 0xDC00 + (n - 0x10000) % 1024 < 0x10000 := by omega
  have g1 := hex4_unicode e1
  have g2 := hex4_unicode e2
  have e5 : 0x10000 + (0xD800 + (n - 0x10000) / 1024 - 0xD800) * 1024 + (0xDC00 + (n - 0x10000) % 1024 - 0xDC00) = n := by omega
  have e3 : 0xD800 ≤ 0xD800 + (n - 0x10000) / 1024 ∧ 0xD800 + (n - 0x10000) / 1024 ≤ 0xDBFF := by omega
  have e4 : 0xDC00 ≤ 0xDC00 + (n - 0x10000) % 1024 ∧ 0xDC00 + (n - 0x10000) % 1024 ≤ 0xDFFF := by omega
  generalize 0xD800 + (n - 0x10000) / 1024 = u at *
  generalize 0xDC00 + (n - 0x10000) % 1024 = v at *
  unfold unicodeEscape
  simp only [List.cons_append, List.nil_append, readString, g1, g2, if_pos e3, if_pos e4, e5]

theorem read_plain {c : Char} (h1 : c ≠ '"') (h2 : c ≠ '\\') (h3 : ¬ c.toNat < 0x20) (t : List Char) :
    readString (c :: t) = withBytes [c] (readString t) := by
  rw [readString, if_neg h3]
  · exact h1
  · intro _ _ _ _ _ h; exact absurd h h2
  · intro _ _ h; exact absurd h h2

theorem toNat_ofNat {n : Nat} (h : n < 0xD800) : (Char.ofNat n).toNat = n := by
  have hv : n.isValidChar := .inl h
  unfold Char.ofNat
  rw [dif_pos hv]; rfl

theorem read_code {n : Nat} (h : IsCode n) (t : List Char) : readString (dumpCode n ++ t) = withBytes (bytesOf n) (readString t) := by
  obtain ⟨h1, h2⟩ := h
  unfold dumpCode
  by_cases e : n = 0x5C
  · subst e; rfl
  rw [if_neg e]
  by_cases e' : n = 0x22
  · subst e'; rfl
  rw [if_neg e']
  by_cases e1 : n = 0x08
  · subst e1; rfl
  rw [if_neg e1]
  by_cases e1 : n = 0x0C
  · subst e1; rfl
  rw [if_neg e1]
  by_cases e1 : n = 0x0A
  · subst e1; rfl
  rw [if_neg e1]
  by_cases e1 : n = 0x0D
  · subst e1; rfl
  rw [if_neg e1]
  by_cases e1 : n = 0x09
  · subst e1; rfl
  rw [if_neg e1]
  by_cases e1 : 0x20 ≤ n ∧ n ≤ 0x7F
  · rw [if_pos e1]
    have hn : (Char.ofNat n).toNat = n := toNat_ofNat (by omega)
    have hb : bytesOf n = [Char.ofNat n] := by
      unfold bytesOf utf8Encode; rw [if_pos (by omega)]; rfl
    rw [hb, List.singleton_append]
    apply read_plain
    · intro hh; rw [hh] at hn; exact e' hn.symm
    · intro hh; rw [hh] at hn; exact e hn.symm
    · omega
  rw [if_neg e1]
  by_cases e2 : n < 0x10000
  · rw [if_pos e2]; exact read_unicode e2 h2 t
  · rw [if_neg e2]; exact read_pair h1 (by omega) t

theorem read_codes (rest : List Char) : ∀ (k : Nat) (s : List Nat), utf8 s = true → s.length ≤ k →
    ∃ t, dumpCodes k s = some t ∧ readString (t ++ rest) = some (s.map Char.ofNat, rest) := by
  intro k
  induction k with
  | zero =>
    intro s _ hl
    have : s = [] := List.eq_nil_of_length_eq_zero (by omega)
    subst this; exact ⟨_, by rw [dumpCodes], rfl⟩
  | succ k ih =>
    intro s hu hl
    cases s with
    | nil => exact ⟨_, by rw [dumpCodes], rfl⟩
    | cons a s =>
      obtain ⟨n, r, h1, h2, h3, h4, h5⟩ := nextCode_spec hu
      obtain ⟨t, g1, g2⟩ := ih r h2 (by simp only [List.length_cons] at hl; omega)
      refine ⟨dumpCode n ++ t, ?_, ?_⟩
      · rw [dumpCodes, h1]
        · simp only [Option.bind_eq_bind, Option.bind_some, g1]
        · simp
      · rw [List.append_assoc, read_code h4, g2, ← h5]
        simp [withBytes, bytesOf]

theorem ofNat_toNat (c : Char) : Char.ofNat c.toNat = c := Char.ofNat_toNat c

/-- A string that is UTF-8 is written, and read back. -/
theorem read_string {s : List Char} (h : utf8 (s.map Char.toNat) = true) :
    ∃ t, dumpString s = some ('"' :: t) ∧ ∀ rest, readString (t ++ rest) = some (s, rest) := by
  obtain ⟨t, h1, h2⟩ := read_codes [] s.length (s.map Char.toNat) h (by simp)
  refine ⟨t, by unfold dumpString; rw [h1]; rfl, fun rest => ?_⟩
  obtain ⟨t', h3, h4⟩ := read_codes rest s.length (s.map Char.toNat) h (by simp)
  rw [h1] at h3; cases h3
  rw [h4, List.map_map]
  congr 2
  conv => rhs; rw [← List.map_id s]
  apply List.map_congr_left
  intro c _; exact ofNat_toNat c

/-! ## Numbers -/

theorem digitChar_isDigit : ∀ d < 10, (Nat.digitChar d).isDigit = true ∧ digitVal (Nat.digitChar d) = d ∧ (Nat.digitChar d = '0' → d = 0) := by decide

/-- The digits of a number: all digits, and no zero in front unless it is zero. -/
theorem toDigits_spec (n : Nat) : ∃ c r, Nat.toDigits 10 n = c :: r ∧ (∀ x ∈ c :: r, Char.isDigit x = true) ∧ (c = '0' → r = []) ∧ readNat 10 (c :: r) = n := by
  induction n using Nat.strongRecOn with
  | ind n ih =>
    by_cases h : n < 10
    · rw [Nat.toDigits_of_lt_base h]
      obtain ⟨h1, h2, -⟩ := digitChar_isDigit n h
      refine ⟨_, [], rfl, ?_, fun _ => rfl, ?_⟩
      · simpa using h1
      · simp [readNat, h2]
    · obtain ⟨c, r, g1, g2, g3, g4⟩ := ih (n / 10) (by omega)
      obtain ⟨h1, h2, -⟩ := digitChar_isDigit (n % 10) (by omega)
      have e : Nat.toDigits 10 n = Nat.toDigits 10 (n / 10) ++ [Nat.digitChar (n % 10)] := by
        rw [← Nat.toDigits_of_base_le (b := 10) (n := n)] <;> omega
      refine ⟨c, r ++ [Nat.digitChar (n % 10)], by rw [e, g1]; rfl, ?_, ?_, ?_⟩
      · intro x hx
        rw [← List.cons_append, List.mem_append, List.mem_singleton] at hx
        rcases hx with hx | rfl
        · exact g2 x hx
        · exact h1
      · intro hc
        have hr := g3 hc
        subst hr; subst hc
        exfalso
        have : n / 10 = 0 := by rw [← g4]; rfl
        omega
      · rw [← List.cons_append]
        have : readNat 10 ((c :: r) ++ [Nat.digitChar (n % 10)]) = readNat 10 (c :: r) * 10 + digitVal (Nat.digitChar (n % 10)) := by simp [readNat]
        rw [this, g4, h2]; omega

/-- What follows a number: something that does not continue it. -/
def Ends (rest : List Char) : Prop := ∀ c ∈ rest.head?, c.isDigit = false ∧ c ≠ '.' ∧ c ≠ 'e' ∧ c ≠ 'E'

theorem takeWhile_number {a rest : List Char} (ha : ∀ x ∈ a, Char.isDigit x = true) (hr : Ends rest) :
    (a ++ rest).takeWhile Char.isDigit = a ∧ (a ++ rest).dropWhile Char.isDigit = rest := by
  rw [List.takeWhile_append_of_pos ha, List.dropWhile_append_of_pos ha]
  cases rest with
  | nil => simp
  | cons c r =>
    have := (hr c (by simp)).1
    simp [this]

theorem read_digits (n : Nat) {rest : List Char} (hr : Ends rest) : readDigits (Nat.toDigits 10 n ++ rest) = some (n, rest) := by
  obtain ⟨c, r, h1, h2, h3, h4⟩ := toDigits_spec n
  rw [h1]
  obtain ⟨g1, g2⟩ := takeWhile_number h2 hr
  unfold readDigits
  rw [g1, g2]
  split
  · rename_i h; cases h
  · rename_i h
    cases h
    exact absurd (h3 rfl) (by simp)
  · rw [h4]

theorem read_int (n : Int) {rest : List Char} (hr : Ends rest) : readInt (dumpInt n ++ rest) = some (n, rest) := by
  have hs : readSigned (dumpInt n ++ rest) = some (n, rest) := by
    unfold dumpInt
    by_cases h : 0 ≤ n
    · rw [if_pos h]
      have hd := read_digits n.toNat hr
      obtain ⟨c, r, h1, h2, -, -⟩ := toDigits_spec n.toNat
      have hc : c ≠ '-' := by
        intro hh; have := h2 c (by simp); rw [hh] at this; exact absurd this (by decide)
      rw [h1, List.cons_append] at hd ⊢
      rw [readSigned, hd]
      · simp only [Option.map_some, Int.toNat_of_nonneg h]
      · intro s hh; exact hc (List.cons.inj hh).1
    · rw [if_neg h, List.cons_append, readSigned, read_digits _ hr]
      simp only [Option.map_some, Option.some.injEq, Prod.mk.injEq, and_true]
      omega
  unfold readInt
  rw [hs]
  dsimp only
  split
  · exact absurd rfl (hr '.' (by simp)).2.1
  · exact absurd rfl (hr 'e' (by simp)).2.2.1
  · exact absurd rfl (hr 'E' (by simp)).2.2.2
  · rfl

theorem dumpInt_head (n : Int) : ∃ c r, dumpInt n = c :: r ∧ (c.isDigit = true ∨ c = '-') := by
  unfold dumpInt
  split
  · obtain ⟨c, r, h1, h2, -⟩ := toDigits_spec n.toNat
    exact ⟨c, r, h1, .inl (h2 c (by simp))⟩
  · exact ⟨_, _, rfl, .inr rfl⟩

/-! ## Values -/

/-- All strings and keys are UTF-8. -/
inductive Utf8Json : Json → Prop
  | null : Utf8Json .null
  | bool (b : Bool) : Utf8Json (.bool b)
  | int (n : Int) : Utf8Json (.int n)
  | str {s : List Char} (h : utf8 (s.map Char.toNat) = true) : Utf8Json (.str s)
  | arr {l : List Json} (h : ∀ x ∈ l, Utf8Json x) : Utf8Json (.arr l)
  | obj {m : List (String × Json)} (hk : ∀ x ∈ m, utf8 (x.1.toList.map Char.toNat) = true) (h : ∀ x ∈ m, Utf8Json x.2) : Utf8Json (.obj m)

theorem skip_indent (d : Nat) (s : List Char) : skipBlanks (dumpIndent d ++ s) = skipBlanks s := by
  unfold skipBlanks dumpIndent
  apply List.dropWhile_append_of_pos
  intro x hx
  rcases List.mem_cons.1 hx with rfl | hx
  · rfl
  · rw [List.eq_of_mem_replicate hx]; rfl

theorem skip_cons {c : Char} (h : isBlank c = false) (s : List Char) : skipBlanks (c :: s) = c :: s := by
  unfold skipBlanks; rw [List.dropWhile_cons_of_neg (by simp [h])]

theorem readValue_skip (k : Nat) {s s' : List Char} (h : skipBlanks s = skipBlanks s') : readValue k s = readValue k s' := by
  cases k with
  | zero => simp only [readValue]
  | succ k => simp only [readValue, h]

theorem readElements_skip (k : Nat) {s s' : List Char} (h : skipBlanks s = skipBlanks s') : readElements k s = readElements k s' := by
  cases k with
  | zero => simp only [readElements]
  | succ k => simp only [readElements, readValue_skip k h]

theorem readMembers_skip (k : Nat) {s s' : List Char} (h : skipBlanks s = skipBlanks s') : readMembers k s = readMembers k s' := by
  cases k with
  | zero => simp only [readMembers]
  | succ k => simp only [readMembers, h]

theorem elements_comma {k : Nat} {s r r' : List Char} {v : Json} (h : readValue k s = some (v, r)) (hr : skipBlanks r = ',' :: r') :
    readElements (k + 1) s = (readElements k r').map fun x => (v :: x.1, x.2) := by
  rw [readElements, h]
  simp only [Option.bind_eq_bind, Option.bind_some]
  rw [hr]; rfl

theorem members_step {k : Nat} {s r r' r'' key : List Char} {v : Json} (h0 : skipBlanks s = '"' :: r'') (h : readString r'' = some (key, r))
    (hr : skipBlanks r = ':' :: r') {r3 : List Char} (hv : readValue k r' = some (v, r3)) :
    readMembers (k + 1) s = (match skipBlanks r3 with
        | ',' :: r => (readMembers k r).map fun x => ((String.ofList key, v) :: x.1, x.2)
        | '}' :: r => some ([(String.ofList key, v)], r)
        | _ => none) := by
  rw [readMembers, h0]
  change (readString r'').bind _ = _
  rw [h, Option.bind_some]
  dsimp only
  rw [hr]
  change (readValue k r').bind _ = _
  rw [hv]; rfl

theorem value_quote (k : Nat) (r : List Char) : readValue (k + 1) ('"' :: r) = (readString r).map fun x => (.str x.1, x.2) := by
  simp only [readValue]; rfl

theorem value_array (k : Nat) {r r' : List Char} {c : Char} (h : skipBlanks r = c :: r') (hc : c ≠ ']') :
    readValue (k + 1) ('[' :: r) = (readElements k r).map fun x => (.arr x.1, x.2) := by
  rw [readValue, skip_cons (by decide)]
  change (match skipBlanks r with
    | ']' :: r => some (Json.arr [], r)
    | _ => (readElements k r).map fun (x : List Json × List Char) => (Json.arr x.1, x.2)) = _
  rw [h]
  split
  · rename_i heq; exact absurd (List.cons.inj heq).1 hc
  · rfl

theorem value_object (k : Nat) {r r' : List Char} {c : Char} (h : skipBlanks r = c :: r') (hc : c ≠ '}') :
    readValue (k + 1) ('{' :: r) = (readMembers k r).map fun x => (.obj x.1, x.2) := by
  rw [readValue, skip_cons (by decide)]
  change (match skipBlanks r with
    | '}' :: r => some (Json.obj [], r)
    | _ => (readMembers k r).map fun (x : List (String × Json) × List Char) => (Json.obj x.1, x.2)) = _
  rw [h]
  split
  · rename_i heq; exact absurd (List.cons.inj heq).1 hc
  · rfl

/-- A written value is read back. -/
def Back (j : Json) : Prop := ∀ d, ∃ t, dump d j = some t ∧ (∃ c r, t = c :: r ∧ isBlank c = false ∧ c ≠ ']' ∧ c ≠ '}') ∧
  ∀ k rest, t.length ≤ k → Ends rest → readValue k (t ++ rest) = some (j, rest)

theorem ends_indent (d : Nat) (s : List Char) : Ends (dumpIndent d ++ s) := by
  intro c hc
  have : c = '\n' := by simpa [dumpIndent] using hc.symm
  subst this; decide

theorem ends_comma (s : List Char) : Ends (',' :: s) := by
  intro c hc
  have : c = ',' := by simpa using hc.symm
  subst this; decide

theorem elements_back (d : Nat) : ∀ l : List Json, (∀ x ∈ l, Back x) → ∃ t, dumpElements d l = some t ∧ Ends t ∧ (∀ rest, Ends (t ++ rest)) ∧
    ∀ k x v rest, Back x → dump (d + 1) x = some v → v.length + t.length ≤ k → readElements k (v ++ (t ++ rest)) = some (x :: l, rest) := by
  intro l
  induction l with
  | nil =>
    intro _
    refine ⟨_, by rw [dumpElements], ends_indent _ _, fun rest => by rw [List.append_assoc]; exact ends_indent _ _, ?_⟩
    intro k x v rest hx hv hk
    obtain ⟨v', e, ⟨c, r, -⟩, hr⟩ := hx (d + 1)
    rw [hv] at e; cases e
    obtain ⟨k, rfl⟩ : ∃ k', k = k' + 1 := ⟨k - 1, by simp [dumpIndent] at hk; omega⟩
    rw [readElements, hr k _ (by simp [dumpIndent] at hk; omega) (by rw [List.append_assoc]; exact ends_indent _ _)]
    simp only [Option.bind_eq_bind, Option.bind_some]
    rw [List.append_assoc, skip_indent, List.singleton_append, skip_cons (by decide)]
    rfl
  | cons y l ih =>
    intro h
    obtain ⟨t, h1, h2, h2', h3⟩ := ih (fun x hx => h x (by simp [hx]))
    obtain ⟨w, g1, ⟨c, r, -⟩, g3⟩ := h y (by simp) (d + 1)
    refine ⟨_, by rw [dumpElements]; simp only [Option.bind_eq_bind, Option.bind_some, g1, h1]; rfl, ends_comma _, fun rest => ends_comma _, ?_⟩
    intro k x v rest hx hv hk
    obtain ⟨v', e, ⟨c, r, -⟩, hr⟩ := hx (d + 1)
    rw [hv] at e; cases e
    obtain ⟨k, rfl⟩ : ∃ k', k = k' + 1 := ⟨k - 1, by simp [dumpIndent] at hk; omega⟩
    rw [List.cons_append, elements_comma (hr k _ (by simp [dumpIndent] at hk; omega) (ends_comma _)) (skip_cons (by decide) _)]
    have hs : skipBlanks ((dumpIndent (d + 1) ++ (w ++ t)) ++ rest) = skipBlanks (w ++ (t ++ rest)) := by
      rw [List.append_assoc, skip_indent, List.append_assoc]
    rw [readElements_skip k hs, h3 k y w rest (h y (by simp)) g1 (by simp [dumpIndent] at hk; omega)]
    rfl

theorem members_back (d : Nat) : ∀ l : List (String × Json), (∀ x ∈ l, utf8 (x.1.toList.map Char.toNat) = true ∧ Back x.2) →
    ∃ t, dumpMembers d l = some t ∧ (∀ rest, Ends (t ++ rest)) ∧
    ∀ k (key : String) x a v rest, utf8 (key.toList.map Char.toNat) = true → Back x → dumpString key.toList = some a → dump (d + 1) x = some v →
      a.length + v.length + t.length ≤ k → readMembers k (a ++ ':' :: ' ' :: (v ++ (t ++ rest))) = some ((key, x) :: l, rest) := by
  intro l
  have step : ∀ (k : Nat) (key : String) (x : Json) (a v s : List Char), utf8 (key.toList.map Char.toNat) = true → Back x →
      dumpString key.toList = some a → dump (d + 1) x = some v → a.length + v.length ≤ k → Ends s →
      readMembers (k + 1) (a ++ ':' :: ' ' :: (v ++ s)) = (match skipBlanks s with
        | ',' :: r => (readMembers k r).map fun y => ((key, x) :: y.1, y.2)
        | '}' :: r => some ([(key, x)], r)
        | _ => none) := by
    intro k key x a v s hu hx ha hv hk hs
    obtain ⟨a', e, ha'⟩ := read_string hu
    rw [ha] at e; cases e
    obtain ⟨v', e, ⟨c, r, e1, e2, -⟩, hr⟩ := hx (d + 1)
    rw [hv] at e; cases e
    have hk' : skipBlanks (' ' :: (v ++ s)) = skipBlanks (v ++ s) := by
      unfold skipBlanks; rw [List.dropWhile_cons_of_pos (by decide)]
    rw [List.cons_append, members_step (skip_cons (by decide) _) (ha' _) (skip_cons (by decide) _) ((readValue_skip k hk').trans (hr k s (by omega) hs)), String.ofList_toList]
  induction l with
  | nil =>
    intro _
    refine ⟨_, by rw [dumpMembers], fun rest => by rw [List.append_assoc]; exact ends_indent _ _, ?_⟩
    intro k key x a v rest hu hx ha hv hk
    obtain ⟨k, rfl⟩ : ∃ k', k = k' + 1 := ⟨k - 1, by simp [dumpIndent] at hk; omega⟩
    rw [step k key x a v _ hu hx ha hv (by simp [dumpIndent] at hk; omega) (by rw [List.append_assoc]; exact ends_indent _ _)]
    rw [List.append_assoc, skip_indent, List.singleton_append, skip_cons (by decide)]
    rfl
  | cons y l ih =>
    intro h
    obtain ⟨yk, y⟩ := y
    obtain ⟨t, h1, h2, h3⟩ := ih (fun x hx => h x (by simp [hx]))
    obtain ⟨yu, yb⟩ := h (yk, y) (by simp)
    obtain ⟨b, b1, -⟩ := read_string yu
    obtain ⟨w, g1, ⟨c, r, -⟩, g3⟩ := yb (d + 1)
    refine ⟨_, by rw [dumpMembers]; simp only [Option.bind_eq_bind, Option.bind_some, b1, g1, h1]; rfl, fun rest => ends_comma _, ?_⟩
    intro k key x a v rest hu hx ha hv hk
    obtain ⟨k, rfl⟩ : ∃ k', k = k' + 1 := ⟨k - 1, by simp [dumpIndent] at hk; omega⟩
    rw [List.cons_append, step k key x a v _ hu hx ha hv (by simp [dumpIndent] at hk; omega) (ends_comma _)]
    rw [skip_cons (by decide)]
    change (readMembers k _).map _ = _
    have hs : skipBlanks ((dumpIndent (d + 1) ++ ('"' :: b ++ ':' :: ' ' :: (w ++ t))) ++ rest) = skipBlanks ('"' :: b ++ ':' :: ' ' :: (w ++ (t ++ rest))) := by
      rw [List.append_assoc, skip_indent]; simp
    rw [readMembers_skip k hs, h3 k yk y _ w rest yu yb b1 g1 (by simp [dumpIndent] at hk ⊢; omega)]
    rfl

theorem back {j : Json} (h : Utf8Json j) : Back j := by
  induction h with
  | null =>
    intro d
    refine ⟨"null".toList, by rw [dump], ⟨'n', _, rfl, by decide⟩, fun k rest hk _ => ?_⟩
    obtain ⟨k, rfl⟩ : ∃ k', k = k' + 1 := ⟨k - 1, by simp at hk; omega⟩
    simp only [readValue]; rfl
  | bool b =>
    intro d
    cases b
    · refine ⟨"false".toList, by rw [dump], ⟨'f', _, rfl, by decide⟩, fun k rest hk _ => ?_⟩
      obtain ⟨k, rfl⟩ : ∃ k', k = k' + 1 := ⟨k - 1, by simp at hk; omega⟩
      simp only [readValue]; rfl
    · refine ⟨"true".toList, by rw [dump], ⟨'t', _, rfl, by decide⟩, fun k rest hk _ => ?_⟩
      obtain ⟨k, rfl⟩ : ∃ k', k = k' + 1 := ⟨k - 1, by simp at hk; omega⟩
      simp only [readValue]; rfl
  | int n =>
    intro d
    obtain ⟨c, r, e, hc⟩ := dumpInt_head n
    have hb : isBlank c = false ∧ c ≠ ']' ∧ c ≠ '}' := by
      refine ⟨?_, ?_, ?_⟩
      · cases hh : isBlank c with
        | false => rfl
        | true =>
          simp only [isBlank, Bool.or_eq_true, beq_iff_eq] at hh
          rcases hh with ((rfl | rfl) | rfl) | rfl <;> exact absurd hc (by decide)
      · rintro rfl; exact absurd hc (by decide)
      · rintro rfl; exact absurd hc (by decide)
    refine ⟨_, by rw [dump], ⟨c, r, e, hb⟩, fun k rest hk hr => ?_⟩
    obtain ⟨k, rfl⟩ : ∃ k', k = k' + 1 := ⟨k - 1, by rw [e] at hk; simp at hk; omega⟩
    have hi := read_int n hr
    rw [readValue]
    rw [e, List.cons_append] at hi ⊢
    rw [skip_cons hb.1]
    split
    case h_7 => rw [hi]; rfl
    all_goals
      rename_i heq
      have := (List.cons.inj heq).1
      rw [this] at hc
      exact absurd hc (by decide)
  | str hs =>
    intro d
    obtain ⟨t, h1, h2⟩ := read_string hs
    refine ⟨_, by rw [dump, h1], ⟨'"', _, rfl, by decide⟩, fun k rest hk _ => ?_⟩
    obtain ⟨k, rfl⟩ : ∃ k', k = k' + 1 := ⟨k - 1, by simp at hk; omega⟩
    rw [List.cons_append, value_quote, h2]; rfl
  | @arr l _ ih =>
    intro d
    cases l with
    | nil =>
      refine ⟨_, by rw [dump], ⟨'[', _, rfl, by decide⟩, fun k rest hk _ => ?_⟩
      obtain ⟨k, rfl⟩ : ∃ k', k = k' + 1 := ⟨k - 1, by simp at hk; omega⟩
      simp only [readValue]; rfl
    | cons x l =>
      obtain ⟨t, h1, -, h2, h3⟩ := elements_back d l (fun x hx => ih x (by simp [hx]))
      obtain ⟨v, g1, ⟨c, r, e1, e2, e3, e4⟩, g3⟩ := ih x (by simp) (d + 1)
      refine ⟨_, by rw [dump]; simp only [Option.bind_eq_bind, Option.bind_some, g1, h1]; rfl, ⟨'[', _, rfl, by decide⟩, fun k rest hk _ => ?_⟩
      obtain ⟨k, rfl⟩ : ∃ k', k = k' + 1 := ⟨k - 1, by simp at hk; omega⟩
      have hs : skipBlanks ((dumpIndent (d + 1) ++ (v ++ t)) ++ rest) = skipBlanks (v ++ (t ++ rest)) := by
        rw [List.append_assoc, skip_indent, List.append_assoc]
      have hs2 : skipBlanks (v ++ (t ++ rest)) = c :: (r ++ (t ++ rest)) := by rw [e1, List.cons_append, skip_cons e2]
      rw [List.cons_append, value_array k (hs.trans hs2) e3]
      · rw [readElements_skip k hs, h3 k x v rest (ih x (by simp)) g1 (by simp [dumpIndent] at hk; omega)]; rfl
  | @obj l hu _ ih =>
    intro d
    cases l with
    | nil =>
      refine ⟨_, by rw [dump], ⟨'{', _, rfl, by decide⟩, fun k rest hk _ => ?_⟩
      obtain ⟨k, rfl⟩ : ∃ k', k = k' + 1 := ⟨k - 1, by simp at hk; omega⟩
      simp only [readValue]; rfl
    | cons x l =>
      obtain ⟨xk, x⟩ := x
      obtain ⟨t, h1, h2, h3⟩ := members_back d l (fun x hx => ⟨hu x (by simp [hx]), ih x (by simp [hx])⟩)
      have xu := hu (xk, x) (by simp)
      have xb := ih (xk, x) (by simp)
      obtain ⟨v, g1, -, g3⟩ := xb (d + 1)
      obtain ⟨b, b1, -⟩ := read_string xu
      refine ⟨_, by rw [dump]; simp only [Option.bind_eq_bind, Option.bind_some, b1, g1, h1]; rfl, ⟨'{', _, rfl, by decide⟩, fun k rest hk _ => ?_⟩
      obtain ⟨k, rfl⟩ : ∃ k', k = k' + 1 := ⟨k - 1, by simp at hk; omega⟩
      have hs : skipBlanks ((dumpIndent (d + 1) ++ ('"' :: b ++ ':' :: ' ' :: (v ++ t))) ++ rest) = skipBlanks ('"' :: b ++ ':' :: ' ' :: (v ++ (t ++ rest))) := by
        rw [List.append_assoc, skip_indent]; simp
      have hs2 : skipBlanks ('"' :: b ++ ':' :: ' ' :: (v ++ (t ++ rest))) = '"' :: (b ++ ':' :: ' ' :: (v ++ (t ++ rest))) := by
        rw [List.cons_append, skip_cons (by decide)]
      rw [List.cons_append, value_object k (hs.trans hs2) (by decide)]
      rw [readMembers_skip k hs, h3 k xk x _ v rest xu xb b1 g1 (by simp [dumpIndent] at hk ⊢; omega)]; rfl

end Verif.Output
