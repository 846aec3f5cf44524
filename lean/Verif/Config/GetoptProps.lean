import Verif.Config.GetoptLemmas
import Verif.Config.Props

/-!
# Properties of how options are written (C62, C113, C114)
-/

namespace Verif.Config

/-- The ways to write a sequence of options, as users know them: a long name behind two dashes, with an argument in the next word or behind an equals sign; or one dash and
several characters, the last of which may have an argument, behind it in the same word or in the next one. -/
inductive Spelled (tbl : List OptDef) : List Word → List Tok → Prop
  | nil : Spelled tbl [] []
  | long (d : OptDef) (ws : List Word) (ts : List Tok) : Flag tbl d → Spelled tbl ws ts → Spelled tbl (('-' :: '-' :: d.name) :: ws) (.opt d.ch [] :: ts)
  | longEq (d : OptDef) (a : Word) (ws : List Word) (ts : List Tok) : Takes tbl d → Spelled tbl ws ts →
      Spelled tbl (('-' :: '-' :: (d.name ++ '=' :: a)) :: ws) (.opt d.ch a :: ts)
  | longNext (d : OptDef) (a : Word) (ws : List Word) (ts : List Tok) : Takes tbl d → Spelled tbl ws ts →
      Spelled tbl (('-' :: '-' :: d.name) :: a :: ws) (.opt d.ch a :: ts)
  | run (fs : List OptDef) (ws : List Word) (ts : List Tok) : (∀ d ∈ fs, Flag tbl d) → fs ≠ [] → Spelled tbl ws ts →
      Spelled tbl (('-' :: chs fs) :: ws) (flagToks fs ++ ts)
  | runIn (fs : List OptDef) (d : OptDef) (a : Word) (ws : List Word) (ts : List Tok) : (∀ d ∈ fs, Flag tbl d) → Takes tbl d → a ≠ [] → Spelled tbl ws ts →
      Spelled tbl (('-' :: (chs fs ++ d.ch :: a)) :: ws) (flagToks fs ++ .opt d.ch a :: ts)
  | runNext (fs : List OptDef) (d : OptDef) (a : Word) (ws : List Word) (ts : List Tok) : (∀ d ∈ fs, Flag tbl d) → Takes tbl d → Spelled tbl ws ts →
      Spelled tbl (('-' :: (chs fs ++ [d.ch])) :: a :: ws) (flagToks fs ++ .opt d.ch a :: ts)

/-- Words that are not mistaken for options: there are none, or the first does not begin with a dash. -/
def Plain : List Word → Prop
  | [] => True
  | w :: _ => w.head? ≠ some '-'

/-- A word that is not an option, behind its flags: a lone dash; an unknown character; a character whose argument is missing; an unknown name; a name whose argument is missing; or a
flag's name with an argument. -/
inductive Wrong (tbl : List OptDef) : List OptDef → Word → List Word → Prop
  | dash (rest : List Word) : Wrong tbl [] [] rest
  | char (fs : List OptDef) (c : Char) (p : Word) (rest : List Word) : (fs = [] → c ≠ '-') → (∀ d ∈ tbl, d.ch ≠ c) → Wrong tbl fs (c :: p) rest
  | missing (fs : List OptDef) (d : OptDef) : Takes tbl d → Wrong tbl fs [d.ch] []
  | name (c : Char) (p : Word) (rest : List Word) : (∀ d ∈ tbl, c :: p ≠ d.name ∧ ∀ a, c :: p ≠ d.name ++ '=' :: a) → Wrong tbl [] ('-' :: c :: p) rest
  | nameMissing (d : OptDef) : Takes tbl d → Wrong tbl [] ('-' :: d.name) []
  | nameArg (d : OptDef) (a : Word) (rest : List Word) : Flag tbl d → Wrong tbl [] ('-' :: (d.name ++ '=' :: a)) rest

/-- What can be on a command line: options written in any way, and then words that are no options, or a double dash and any words, or a word that is not an option and any words. -/
inductive Line (tbl : List OptDef) : List Word → List Tok → List Word → Prop
  | plain (pre rest : List Word) (ts : List Tok) : Spelled tbl pre ts → Plain rest → Line tbl (pre ++ rest) ts rest
  | dashes (pre rest : List Word) (ts : List Tok) : Spelled tbl pre ts → Line tbl (pre ++ ['-', '-'] :: rest) ts rest
  | wrong (pre rest : List Word) (ts : List Tok) (fs : List OptDef) (p : Word) : Spelled tbl pre ts → (∀ d ∈ fs, Flag tbl d) → Wrong tbl fs p rest →
      Line tbl (pre ++ ('-' :: (chs fs ++ p)) :: rest) (ts ++ flagToks fs ++ [.bad]) rest

theorem reads_spelled {tbl : List OptDef} (hs : Sane tbl) {pre : List Word} {ts : List Tok} (h : Spelled tbl pre ts) {ws : List Word} {r : List Tok × List Word}
    (hr : Reads tbl [] ws r) : Reads tbl [] (pre ++ ws) (ts ++ r.1, r.2) := by
  induction h with
  | nil => exact hr
  | long d ws' ts hd _ ih =>
    refine reads_long (hs.name_ne d hd.1) ?_ ih
    rw [longOpt, find_named hs hd.1 ((named_iff d d.name).mpr (Or.inl rfl))]
    dsimp only
    rw [hd.2, List.drop_length]
    rfl
  | longEq d a ws' ts hd _ ih =>
    refine reads_long (by simp) ?_ ih
    rw [longOpt, find_named hs hd.1 ((named_iff d _).mpr (Or.inr ⟨a, rfl⟩))]
    dsimp only
    rw [hd.2, List.drop_left]
    rfl
  | longNext d a ws' ts hd _ ih =>
    refine reads_long (hs.name_ne d hd.1) ?_ ih
    rw [longOpt, find_named hs hd.1 ((named_iff d d.name).mpr (Or.inl rfl))]
    dsimp only
    rw [hd.2, List.drop_length]
    rfl
  | run fs ws' ts hf hne _ ih =>
    have h1 := reads_flags hs fs hf ih
    rw [← List.append_assoc] at h1
    have h2 := run_start hs fs hf (by simpa [chs] using hne) (by simp) h1
    rwa [List.append_nil] at h2
  | runIn fs d a ws' ts hf hd ha _ ih =>
    have h0 : Reads tbl (d.ch :: a) (ws' ++ ws) (.opt d.ch a :: (ts ++ r.1), r.2) := by
      refine reads_short (r := (ts ++ r.1, r.2)) ?_ ih
      rw [shortOpt, find_ch hs hd.1]
      dsimp only
      rw [hd.2]
      cases a with
      | nil => exact absurd rfl ha
      | cons c a => rfl
    have h1 := reads_flags hs fs hf h0
    have h2 := run_start hs fs hf (by simp) (by simpa using hs.ch_ne d hd.1) h1
    simpa [List.append_assoc] using h2
  | runNext fs d a ws' ts hf hd _ ih =>
    have h0 : Reads tbl [d.ch] (a :: (ws' ++ ws)) (.opt d.ch a :: (ts ++ r.1), r.2) := by
      refine reads_short (r := (ts ++ r.1, r.2)) ?_ ih
      rw [shortOpt, find_ch hs hd.1]
      dsimp only
      rw [hd.2]
    have h1 := reads_flags hs fs hf h0
    have h2 := run_start hs fs hf (by simp) (by simpa using hs.ch_ne d hd.1) h1
    simpa [List.append_assoc] using h2

theorem reads_plain (tbl : List OptDef) {rest : List Word} (h : Plain rest) : Reads tbl [] rest ([], rest) := by
  refine ⟨1, ?_⟩
  cases rest with
  | nil => rfl
  | cons w ws =>
    cases w with
    | nil => rfl
    | cons c w =>
      have hc : c ≠ '-' := by simpa [Plain] using h
      rw [getopt.eq_def]
      dsimp only
      split
      · rename_i h; simp at h; exact absurd h.1 hc
      · rename_i h; simp at h; exact absurd h.1 hc
      · rename_i h; simp at h; exact absurd h.1 hc
      · rename_i h; simp at h; exact absurd h.1 hc
      · rfl

theorem reads_wrong {tbl : List OptDef} (hs : Sane tbl) {fs : List OptDef} {p : Word} {rest : List Word} (hf : ∀ d ∈ fs, Flag tbl d) (h : Wrong tbl fs p rest) :
    Reads tbl [] (('-' :: (chs fs ++ p)) :: rest) (flagToks fs ++ [.bad], rest) := by
  have hlong : ∀ (q : Word) (rest : List Word), q ≠ [] → longOpt tbl q rest = (.bad, rest) → Reads tbl [] (('-' :: '-' :: q) :: rest) ([.bad], rest) := by
    intro q rest hq hl
    cases q with
    | nil => exact absurd rfl hq
    | cons c q =>
      refine ⟨1, ?_⟩
      have : getopt tbl (0 + 1) [] (('-' :: '-' :: c :: q) :: rest) = (match longOpt tbl (c :: q) rest with
        | (.bad, ws) => .ok ([.bad], ws)
        | (t, ws) => do
          let r ← getopt tbl 0 [] ws
          .ok (t :: r.1, r.2)) := rfl
      rw [this, hl]
  cases h with
  | dash => exact ⟨1, rfl⟩
  | char _ c p _ h1 h2 =>
    have h0 : Reads tbl (c :: p) rest ([.bad], rest) := by
      refine ⟨1, ?_⟩
      rw [getopt, shortOpt, List.find?_eq_none.mpr (by intro d hd; simpa using h2 d hd)]
    have h3 := reads_flags hs fs hf h0
    cases fs with
    | nil => exact run_start hs [] hf (by simp) (by simpa using h1 rfl) h3
    | cons d fs => exact reads_run (hs.ch_ne d (hf d List.mem_cons_self).1) h3
  | missing _ d hd =>
    have h0 : Reads tbl [d.ch] [] ([.bad], []) := by
      refine ⟨1, ?_⟩
      rw [getopt, shortOpt, find_ch hs hd.1]
      dsimp only
      rw [hd.2]
    exact run_start hs fs hf (by simp) (by simpa using hs.ch_ne d hd.1) (reads_flags hs fs hf h0)
  | name c p _ h =>
    refine hlong (c :: p) rest (by simp) ?_
    rw [longOpt, List.find?_eq_none.mpr]
    intro d hd hn
    rcases (named_iff d _).mp hn with h1 | ⟨a, h1⟩
    · exact (h d hd).1 h1
    · exact (h d hd).2 a h1
  | nameMissing d hd =>
    refine hlong d.name [] (hs.name_ne d hd.1) ?_
    rw [longOpt, find_named hs hd.1 ((named_iff d d.name).mpr (Or.inl rfl))]
    dsimp only
    rw [hd.2, List.drop_length]
  | nameArg d a _ hd =>
    refine hlong (d.name ++ '=' :: a) rest (by simp) ?_
    rw [longOpt, find_named hs hd.1 ((named_iff d _).mpr (Or.inr ⟨a, rfl⟩))]
    dsimp only
    rw [hd.2, List.drop_left]

/-- **C113.** However options are written, the scanner reads those options and leaves the words behind them; and if a word is not an option, it reads the options before it and leaves the
words behind it. -/
theorem line_read {tbl : List OptDef} (hs : Sane tbl) {ws : List Word} {ts : List Tok} {rest : List Word} (h : Line tbl ws ts rest) :
    getopt tbl (calls ws) [] ws = .ok (ts, rest) := by
  apply Reads.calls
  cases h with
  | plain pre _ _ h1 h2 => simpa using reads_spelled hs h1 (reads_plain tbl h2)
  | dashes pre _ _ h1 =>
    have : Reads tbl [] (['-', '-'] :: rest) ([], rest) := ⟨1, rfl⟩
    simpa using reads_spelled hs h1 this
  | wrong pre _ ts' fs p h1 h2 h3 => simpa [List.append_assoc] using reads_spelled hs h1 (reads_wrong hs h2 h3)

theorem Spelled.append {tbl : List OptDef} {a b : List Word} {s t : List Tok} (h : Spelled tbl a s) (h' : Spelled tbl b t) : Spelled tbl (a ++ b) (s ++ t) := by
  induction h with
  | nil => exact h'
  | long d ws ts hd _ ih => exact .long d _ _ hd ih
  | longEq d x ws ts hd _ ih => exact .longEq d x _ _ hd ih
  | longNext d x ws ts hd _ ih => exact .longNext d x _ _ hd ih
  | run fs ws ts hf hne _ ih => rw [List.append_assoc]; exact .run fs _ _ hf hne ih
  | runIn fs d x ws ts hf hd hx _ ih => rw [List.append_assoc]; exact .runIn fs d x _ _ hf hd hx ih
  | runNext fs d x ws ts hf hd _ ih => rw [List.append_assoc]; exact .runNext fs d x _ _ hf hd ih

theorem Line.prepend {tbl : List OptDef} {a ws : List Word} {s ts : List Tok} {rest : List Word} (h : Spelled tbl a s) (h' : Line tbl ws ts rest) :
    Line tbl (a ++ ws) (s ++ ts) rest := by
  cases h' with
  | plain pre _ _ h1 h2 => rw [← List.append_assoc]; exact .plain _ _ _ (h.append h1) h2
  | dashes pre _ _ h1 => rw [← List.append_assoc]; exact .dashes _ _ _ (h.append h1)
  | wrong pre _ t fs p h1 h2 h3 =>
    rw [← List.append_assoc, ← List.append_assoc, ← List.append_assoc]
    exact .wrong _ _ _ fs p (h.append h1) h2 h3

theorem longOpt_cases (tbl : List OptDef) (c : Char) (p : Word) (ws : List Word) :
    (∃ d, Flag tbl d ∧ c :: p = d.name ∧ longOpt tbl (c :: p) ws = (.opt d.ch [], ws)) ∨
    (∃ d a, Takes tbl d ∧ c :: p = d.name ++ '=' :: a ∧ longOpt tbl (c :: p) ws = (.opt d.ch a, ws)) ∨
    (∃ d a ws', Takes tbl d ∧ c :: p = d.name ∧ ws = a :: ws' ∧ longOpt tbl (c :: p) ws = (.opt d.ch a, ws')) ∨
    (∃ rest, longOpt tbl (c :: p) ws = (.bad, rest) ∧ rest = ws ∧ Wrong tbl [] ('-' :: c :: p) rest) := by
  cases hf : tbl.find? (·.named (c :: p)) with
  | none =>
    refine Or.inr (Or.inr (Or.inr ⟨ws, by rw [longOpt, hf], rfl, .name c p ws ?_⟩))
    intro d hd
    have := List.find?_eq_none.mp hf d hd
    rw [named_iff] at this
    exact ⟨fun h => this (Or.inl h), fun a h => this (Or.inr ⟨a, h⟩)⟩
  | some d =>
    have hd := List.mem_of_find?_eq_some hf
    have hn : d.named (c :: p) = true := by simpa using List.find?_some hf
    cases ha : d.hasArg with
    | false =>
      rcases (named_iff d _).mp hn with h1 | ⟨a, h1⟩
      · refine Or.inl ⟨d, ⟨hd, ha⟩, h1, ?_⟩
        rw [longOpt, hf]
        dsimp only
        rw [ha, h1, List.drop_length]
      · refine Or.inr (Or.inr (Or.inr ⟨ws, ?_, rfl, ?_⟩))
        · rw [longOpt, hf]
          dsimp only
          rw [ha, h1, List.drop_left]
        · rw [h1]; exact .nameArg d a ws ⟨hd, ha⟩
    | true =>
      rcases (named_iff d _).mp hn with h1 | ⟨a, h1⟩
      · cases ws with
        | nil =>
          refine Or.inr (Or.inr (Or.inr ⟨[], ?_, rfl, ?_⟩))
          · rw [longOpt, hf]
            dsimp only
            rw [ha, h1, List.drop_length]
          · rw [h1]; exact .nameMissing d ⟨hd, ha⟩
        | cons a ws =>
          refine Or.inr (Or.inr (Or.inl ⟨d, a, ws, ⟨hd, ha⟩, h1, rfl, ?_⟩))
          rw [longOpt, hf]
          dsimp only
          rw [ha, h1, List.drop_length]
      · refine Or.inr (Or.inl ⟨d, a, ⟨hd, ha⟩, h1, ?_⟩)
        rw [longOpt, hf]
        dsimp only
        rw [ha, h1, List.drop_left]

theorem shortOpt_cases (tbl : List OptDef) (c : Char) (p : Word) (ws : List Word) :
    (∃ d, Flag tbl d ∧ c = d.ch ∧ shortOpt tbl c p ws = (.opt d.ch [], p, ws)) ∨
    (∃ d, Takes tbl d ∧ c = d.ch ∧ p ≠ [] ∧ shortOpt tbl c p ws = (.opt d.ch p, [], ws)) ∨
    (∃ d a ws', Takes tbl d ∧ c = d.ch ∧ p = [] ∧ ws = a :: ws' ∧ shortOpt tbl c p ws = (.opt d.ch a, [], ws')) ∨
    (∃ q, shortOpt tbl c p ws = (.bad, q, ws) ∧ ∀ fs : List OptDef, (fs = [] → c ≠ '-') → Wrong tbl fs (c :: p) ws) := by
  cases hf : tbl.find? (fun d => d.ch == c) with
  | none =>
    refine Or.inr (Or.inr (Or.inr ⟨p, by rw [shortOpt, hf], fun fs h => .char fs c p ws h ?_⟩))
    intro d hd
    simpa using List.find?_eq_none.mp hf d hd
  | some d =>
    have hd := List.mem_of_find?_eq_some hf
    have hn : c = d.ch := by have := List.find?_some hf; simp at this; exact this.symm
    cases ha : d.hasArg with
    | false =>
      refine Or.inl ⟨d, ⟨hd, ha⟩, hn, ?_⟩
      rw [shortOpt, hf]
      dsimp only
      rw [ha, hn]
    | true =>
      cases p with
      | cons x p =>
        refine Or.inr (Or.inl ⟨d, ⟨hd, ha⟩, hn, by simp, ?_⟩)
        rw [shortOpt, hf]
        dsimp only
        rw [ha, hn]
      | nil =>
        cases ws with
        | nil =>
          refine Or.inr (Or.inr (Or.inr ⟨[], ?_, fun fs _ => ?_⟩))
          · rw [shortOpt, hf]
            dsimp only
            rw [ha]
          · rw [hn]; exact .missing fs d ⟨hd, ha⟩
        | cons a ws =>
          refine Or.inr (Or.inr (Or.inl ⟨d, a, ws, ⟨hd, ha⟩, hn, rfl, rfl, ?_⟩))
          rw [shortOpt, hf]
          dsimp only
          rw [ha, hn]

theorem read_line_both (tbl : List OptDef) (n : Nat) :
    (∀ (ws : List Word) (ts : List Tok) (rest : List Word), getopt tbl n [] ws = .ok (ts, rest) → Line tbl ws ts rest) ∧
    (∀ (fs : List OptDef) (c : Char) (p : Word) (ws : List Word) (ts : List Tok) (rest : List Word), (∀ d ∈ fs, Flag tbl d) → (fs = [] → c ≠ '-') →
      getopt tbl n (c :: p) ws = .ok (ts, rest) → Line tbl (('-' :: (chs fs ++ c :: p)) :: ws) (flagToks fs ++ ts) rest) := by
  induction n with
  | zero => exact ⟨by intro ws ts rest h; simp [getopt] at h, by intro fs c p ws ts rest _ _ h; simp [getopt] at h⟩
  | succ n ih =>
    obtain ⟨ih1, ih2⟩ := ih
    constructor
    · intro ws ts rest h
      cases ws with
      | nil =>
        rw [getopt] at h
        obtain ⟨rfl, rfl⟩ := Prod.mk.inj (Res.ok.inj h)
        exact .plain [] [] [] .nil trivial
      | cons w ws =>
        rw [getopt.eq_def] at h
        dsimp only at h
        split at h
        · obtain ⟨rfl, rfl⟩ := Prod.mk.inj (Res.ok.inj h)
          exact .dashes [] _ [] .nil
        · rename_i c p
          rcases longOpt_cases tbl c p ws with ⟨d, hd, h1, h2⟩ | ⟨d, a, hd, h1, h2⟩ | ⟨d, a, ws', hd, h1, rfl, h2⟩ | ⟨r, h1, rfl, h2⟩
          · rw [h2] at h
            obtain ⟨⟨t', r'⟩, h3, h4⟩ := Res.bind_eq_ok.mp h
            obtain ⟨rfl, rfl⟩ := Prod.mk.inj (Res.ok.inj h4)
            rw [h1]
            exact Line.prepend (.long d [] [] hd .nil) (ih1 _ _ _ h3)
          · rw [h2] at h
            obtain ⟨⟨t', r'⟩, h3, h4⟩ := Res.bind_eq_ok.mp h
            obtain ⟨rfl, rfl⟩ := Prod.mk.inj (Res.ok.inj h4)
            rw [h1]
            exact Line.prepend (.longEq d a [] [] hd .nil) (ih1 _ _ _ h3)
          · rw [h2] at h
            obtain ⟨⟨t', r'⟩, h3, h4⟩ := Res.bind_eq_ok.mp h
            obtain ⟨rfl, rfl⟩ := Prod.mk.inj (Res.ok.inj h4)
            rw [h1]
            exact Line.prepend (.longNext d a [] [] hd .nil) (ih1 _ _ _ h3)
          · rw [h1] at h
            obtain ⟨rfl, rfl⟩ := Prod.mk.inj (Res.ok.inj h)
            exact .wrong [] _ [] [] _ .nil (by simp) h2
        · obtain ⟨rfl, rfl⟩ := Prod.mk.inj (Res.ok.inj h)
          exact .wrong [] _ [] [] _ .nil (by simp) (.dash _)
        · rename_i c p hc1 hc2
          refine ih2 [] c p ws ts rest (by simp) ?_ h
          rintro - rfl
          cases p with
          | nil => exact hc1 rfl rfl
          | cons x p => exact hc2 x p rfl rfl
        · rename_i h1 h2 h3 h4
          obtain ⟨rfl, rfl⟩ := Prod.mk.inj (Res.ok.inj h)
          refine .plain [] _ [] .nil ?_
          cases w with
          | nil => simp [Plain]
          | cons c w =>
            simp only [Plain, List.head?_cons, ne_eq, Option.some.injEq]
            rintro rfl
            cases w with
            | nil => exact h3 rfl
            | cons x w => exact h4 x w rfl
    · intro fs c p ws ts rest hf hc h
      rw [getopt] at h
      rcases shortOpt_cases tbl c p ws with ⟨d, hd, h1, h2⟩ | ⟨d, hd, h1, hp, h2⟩ | ⟨d, a, ws', hd, h1, rfl, rfl, h2⟩ | ⟨q, h1, h2⟩
      · rw [h2] at h
        obtain ⟨⟨t', r'⟩, h3, h4⟩ := Res.bind_eq_ok.mp h
        obtain ⟨rfl, rfl⟩ := Prod.mk.inj (Res.ok.inj h4)
        have hf' : ∀ e ∈ fs ++ [d], Flag tbl e := by
          intro e he
          rcases List.mem_append.mp he with he | he
          · exact hf e he
          · rw [List.mem_singleton.mp he]; exact hd
        cases p with
        | nil =>
          have := Line.prepend (.run (fs ++ [d]) [] [] hf' (by simp) .nil) (ih1 _ _ _ h3)
          simpa [chs, flagToks, h1] using this
        | cons x p =>
          have := ih2 (fs ++ [d]) x p ws t' r' hf' (by simp) h3
          simpa [chs, flagToks, h1] using this
      · rw [h2] at h
        obtain ⟨⟨t', r'⟩, h3, h4⟩ := Res.bind_eq_ok.mp h
        obtain ⟨rfl, rfl⟩ := Prod.mk.inj (Res.ok.inj h4)
        have := Line.prepend (.runIn fs d p [] [] hf hd hp .nil) (ih1 _ _ _ h3)
        simpa [h1] using this
      · rw [h2] at h
        obtain ⟨⟨t', r'⟩, h3, h4⟩ := Res.bind_eq_ok.mp h
        obtain ⟨rfl, rfl⟩ := Prod.mk.inj (Res.ok.inj h4)
        have := Line.prepend (.runNext fs d a [] [] hf hd .nil) (ih1 _ _ _ h3)
        simpa [h1] using this
      · rw [h1] at h
        obtain ⟨rfl, rfl⟩ := Prod.mk.inj (Res.ok.inj h)
        exact .wrong [] _ [] fs _ .nil hf (h2 fs hc)

/-- **C113, exactly.** What the scanner reads of any words is what they spell out: there is nothing else it accepts, and it always ends. -/
theorem read_exact {tbl : List OptDef} (hs : Sane tbl) (ws : List Word) (ts : List Tok) (rest : List Word) :
    getopt tbl (calls ws) [] ws = .ok (ts, rest) ↔ Line tbl ws ts rest :=
  ⟨(read_line_both tbl _).1 ws ts rest, line_read hs⟩

theorem read_total (tbl : List OptDef) (ws : List Word) : ∃ ts rest, getopt tbl (calls ws) [] ws = .ok (ts, rest) ∧ Line tbl ws ts rest := by
  obtain ⟨⟨ts, rest⟩, h⟩ := getopt_ends tbl (calls ws) [] ws (by simp [calls, cost])
  exact ⟨ts, rest, h, (read_line_both tbl _).1 ws ts rest h⟩

/-- No command line can be read in two ways. -/
theorem read_unique {tbl : List OptDef} (hs : Sane tbl) {ws : List Word} {ts ts' : List Tok} {rest rest' : List Word} (h : Line tbl ws ts rest) (h' : Line tbl ws ts' rest') :
    ts = ts' ∧ rest = rest' := by
  have := (line_read hs h).symm.trans (line_read hs h')
  exact Prod.mk.inj (Res.ok.inj this)

/-- The table of the program is sane. -/
theorem optTable_sane : Sane optTable := by
  constructor <;> decide +kernel

/-! ## Arguments (C114) -/

/-- The options that are given an argument. -/
def taking : List Char := ['e', 'T', 'i', 'm', 'M', 'p', 's', 'j', 'w', 'x']

/-- **C114.** Exactly these options take an argument; every other option works without reading one (there is none: `apr_getopt_long` hands over a null pointer). -/
theorem argument_unread (h : List Char → UInt32) (fuel : Nat) (d : OptDef) (hd : d ∈ optTable) :
    (d.hasArg = true ↔ d.ch ∈ taking) ∧ (d.hasArg = false → ∀ (a b : List Char) (conf : Conf), processOption h fuel d.ch a conf = processOption h fuel d.ch b conf) := by
  refine ⟨by revert d; decide +kernel, ?_⟩
  intro hf a b conf
  have : d.ch ∈ ['a', 'c', 'd', 'n', 'f', 'h', 'I', 'J', 'o', 'r', 'R', 't', 'v', 'V'] := by revert d; decide +kernel
  simp only [List.mem_cons, List.not_mem_nil, or_false] at this
  rcases this with h | h | h | h | h | h | h | h | h | h | h | h | h | h <;> rw [h] <;> simp [processOption, handleSpecial, handleImage]

/-- An option that takes an argument reads it. -/
example : ∃ (a b : List Char) (conf : Conf), processOption (fun _ => 0) 40 's' a conf ≠ processOption (fun _ => 0) 40 's' b conf :=
  ⟨['x'], ['y'], create 4 (Hash.makeEx _ 32 8), fun h => absurd (congrArg Conf.sep (Option.some.inj (Res.ok.inj h))) (by decide)⟩

/-! ## Examples -/

/-- One way to write four options; the words behind the directory are not options. -/
theorem exShort : Line optTable ["-ri".toList, "x,y".toList, "-m2".toList, "-ez".toList, "d".toList, "-J".toList]
    [.opt 'r' [], .opt 'i' "x,y".toList, .opt 'm' "2".toList, .opt 'e' "z".toList] ["d".toList, "-J".toList] := by
  have hr : Flag optTable ⟨"recurse-subdir".toList, 'r', false⟩ := ⟨by decide +kernel, rfl⟩
  have hi : Takes optTable ⟨"ignore-list".toList, 'i', true⟩ := ⟨by decide +kernel, rfl⟩
  have hm : Takes optTable ⟨"minimal-length".toList, 'm', true⟩ := ⟨by decide +kernel, rfl⟩
  have he : Takes optTable ⟨"regex-ignore-file".toList, 'e', true⟩ := ⟨by decide +kernel, rfl⟩
  refine .plain ["-ri".toList, "x,y".toList, "-m2".toList, "-ez".toList] _ _ ?_ (by simp [Plain])
  refine .runNext [_] _ "x,y".toList _ _ (by simpa using hr) hi ?_
  refine .runIn [] _ "2".toList _ _ (by simp) hm (by decide) ?_
  exact .runIn [] _ "z".toList _ _ (by simp) he (by decide) .nil

/-- Another way to write them. -/
theorem exLong : Line optTable ["--recurse-subdir".toList, "--ignore-list=x,y".toList, "--minimal-length".toList, "2".toList, "-e".toList, "z".toList, "--".toList, "d".toList, "-J".toList]
    [.opt 'r' [], .opt 'i' "x,y".toList, .opt 'm' "2".toList, .opt 'e' "z".toList] ["d".toList, "-J".toList] := by
  have hr : Flag optTable ⟨"recurse-subdir".toList, 'r', false⟩ := ⟨by decide +kernel, rfl⟩
  have hi : Takes optTable ⟨"ignore-list".toList, 'i', true⟩ := ⟨by decide +kernel, rfl⟩
  have hm : Takes optTable ⟨"minimal-length".toList, 'm', true⟩ := ⟨by decide +kernel, rfl⟩
  have he : Takes optTable ⟨"regex-ignore-file".toList, 'e', true⟩ := ⟨by decide +kernel, rfl⟩
  refine .dashes ["--recurse-subdir".toList, "--ignore-list=x,y".toList, "--minimal-length".toList, "2".toList, "-e".toList, "z".toList] _ _ ?_
  refine .long _ _ _ hr ?_
  refine .longEq _ "x,y".toList _ _ hi ?_
  refine .longNext _ "2".toList _ _ hm ?_
  exact .runNext [] _ "z".toList _ _ (by simp) he .nil

/-- A shortened name is wrong, and so is a flag with an argument, an argument that is not there, or a lone dash. -/
theorem exWrong (rest : List Word) : Wrong optTable [] "-recurse".toList rest := by
  refine .name 'r' "ecurse".toList rest ?_
  intro d hd
  have h0 : d.named "recurse".toList ≠ true := by revert d; decide +kernel
  have h := mt (named_iff d "recurse".toList).mpr h0
  exact ⟨fun k => h (Or.inl k), fun a k => h (Or.inr ⟨a, k⟩)⟩

end Verif.Config
