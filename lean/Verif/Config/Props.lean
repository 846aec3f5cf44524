import Verif.Config.Lemmas

/-!
# Properties of option parsing (C32, C33, C34, C61, C62)

Specifications are stated on the list of options given on the command line.
-/

namespace Verif.Config

open HumanSize (isSpace dchar valueOf decVal takeDigits)

/-- The option characters given, in order. -/
def chars (ts : List Tok) : List Char := (given ts).map (·.1)

/-! ## Flags (C32, C34) -/

theorem runs_flag {h : List Char → UInt32} {fuel : Nat} {os : List (Char × List Char)} {c0 c : Conf} (r : Runs h fuel os c0 c)
    (b : Nat) (hb : b ∈ bits) (xs : List Char)
    (hstep : ∀ o m, bitStep o b m = (decide (o ∈ xs) || isOptionSet m b)) :
    isOptionSet c.mask b = (isOptionSet c0.mask b || decide (∃ x ∈ xs, x ∈ os.map (·.1))) := by
  induction r with
  | nil c => simp
  | @cons o a os c c1 c2 e _ ih =>
    rw [ih, processOption_mask e b hb, hstep, Bool.eq_iff_iff]
    simp only [Bool.or_eq_true, decide_eq_true_eq, List.map_cons, List.mem_cons]
    constructor
    · rintro ((h1 | h1) | ⟨x, hx, h1⟩)
      · exact Or.inr ⟨o, h1, Or.inl rfl⟩
      · exact Or.inl h1
      · exact Or.inr ⟨x, hx, Or.inr h1⟩
    · rintro (h1 | ⟨x, hx, rfl | h1⟩)
      · exact Or.inl (Or.inr h1)
      · exact Or.inl (Or.inl hx)
      · exact Or.inr ⟨x, hx, h1⟩

theorem runs_verbose {h : List Char → UInt32} {fuel : Nat} {os : List (Char × List Char)} {c0 c : Conf} (r : Runs h fuel os c0 c) :
    isOptionSet c.mask bVERBO = (((isOptionSet c0.mask bVERBO || (decide ('v' ∈ os.map (·.1)) && !isOptionSet c0.mask bJSON))) &&
      !decide ('J' ∈ os.map (·.1))) := by
  induction r with
  | nil c => simp
  | @cons o a os c c1 c2 e _ ih =>
    rw [ih, processOption_mask e bVERBO (by decide), processOption_mask e bJSON (by decide)]
    have s1 : bitStep o bVERBO c.mask = if o = 'v' then isOptionSet c.mask bVERBO || !isOptionSet c.mask bJSON
        else if o = 'J' then false else isOptionSet c.mask bVERBO := by
      simp [bitStep, bVERBO, bSHOW_HIDDEN, bICASE, bSIZED, bDRY_RUN, bFSYML, bOPMEM, bRECSD, bPUZZL, bUNTAR, bJSON]
    have s2 : bitStep o bJSON c.mask = if o = 'J' then true else isOptionSet c.mask bJSON := by
      simp [bitStep, bVERBO, bSHOW_HIDDEN, bICASE, bSIZED, bDRY_RUN, bFSYML, bOPMEM, bRECSD, bPUZZL, bUNTAR, bJSON]
    rw [s1, s2]
    by_cases hv : o = 'v'
    · subst hv
      cases isOptionSet c.mask bVERBO <;> cases isOptionSet c.mask bJSON <;> simp
    · by_cases hj : o = 'J'
      · subst hj; simp
      · have hv' : ¬ 'v' = o := fun e => hv e.symm
        have hj' : ¬ 'J' = o := fun e => hj e.symm
        rw [if_neg hv, if_neg hj, if_neg hj, Bool.eq_iff_iff]
        simp only [Bool.and_eq_true, Bool.or_eq_true, Bool.not_eq_true', decide_eq_true_eq, decide_eq_false_iff_not,
          List.map_cons, List.mem_cons, hv', hj', false_or]

theorem runs_recurse {h : List Char → UInt32} {fuel : Nat} {os : List (Char × List Char)} {c0 c : Conf} (r : Runs h fuel os c0 c) :
    isOptionSet c.mask bRECSD = match ((os.map (·.1)).filter (· ∈ ['r', 'R'])).getLast? with
      | none => isOptionSet c0.mask bRECSD
      | some x => decide (x = 'r') := by
  induction r with
  | nil c => simp
  | @cons o a os c c1 c2 e _ ih =>
    rw [ih, processOption_mask e bRECSD (by decide)]
    have s1 : bitStep o bRECSD c.mask = if o = 'r' then true else if o = 'R' then false else isOptionSet c.mask bRECSD := by
      simp [bitStep, bVERBO, bSHOW_HIDDEN, bICASE, bSIZED, bDRY_RUN, bFSYML, bOPMEM, bRECSD, bPUZZL, bUNTAR, bJSON]
    rw [s1, List.map_cons]
    by_cases hr : o = 'r'
    · subst hr
      rw [List.filter_cons_of_pos (by simp), List.getLast?_cons]
      cases (List.filter (fun x => decide (x ∈ ['r', 'R'])) (os.map (·.1))).getLast? <;> simp
    · by_cases hR : o = 'R'
      · subst hR
        rw [List.filter_cons_of_pos (by simp), List.getLast?_cons]
        cases (List.filter (fun x => decide (x ∈ ['r', 'R'])) (os.map (·.1))).getLast? <;> simp
      · rw [List.filter_cons_of_neg (by simp [hr, hR])]
        simp [hr, hR]

/-- **C32.** After successful option parsing JSON and verbose mode are never both on,
whatever was given in whatever order: JSON is on exactly if `-J` was given, verbose exactly if
`-v` was given and `-J` never. -/
theorem json_verbose_exclusive (h : List Char → UInt32) (fuel cores : Nat) (w : World) (ig : Hash.Table (List Char))
    (ts : List Tok) (c : Conf) (e : parseArgs h fuel w ts (create cores ig) = .ok (some c)) :
    (isOptionSet c.mask bJSON = true ↔ 'J' ∈ chars ts) ∧
    (isOptionSet c.mask bVERBO = true ↔ 'v' ∈ chars ts ∧ 'J' ∉ chars ts) ∧
    ¬ (isOptionSet c.mask bJSON = true ∧ isOptionSet c.mask bVERBO = true) := by
  have r := optionLoop_runs (parseArgs_loop e)
  have hJ := runs_flag r bJSON (by decide) ['J'] (by
    intro o m
    simp [bitStep, bVERBO, bSHOW_HIDDEN, bICASE, bSIZED, bDRY_RUN, bFSYML, bOPMEM, bRECSD, bPUZZL, bUNTAR, bJSON])
  have hV := runs_verbose r
  have z1 : isOptionSet (create cores ig).mask bJSON = false := by
    show isOptionSet (optVal bRECSD) bJSON = false
    decide
  have z2 : isOptionSet (create cores ig).mask bVERBO = false := by
    show isOptionSet (optVal bRECSD) bVERBO = false
    decide
  rw [z1] at hJ
  rw [z1, z2] at hV
  have h1 : isOptionSet c.mask bJSON = true ↔ 'J' ∈ chars ts := by rw [hJ]; simp [chars]
  have h2 : isOptionSet c.mask bVERBO = true ↔ 'v' ∈ chars ts ∧ 'J' ∉ chars ts := by rw [hV]; simp [chars]
  exact ⟨h1, h2, fun hh => (h2.mp hh.2).2 (h1.mp hh.1)⟩

/-- **C34.** Recursion follows the last of `-r`/`-R` (on by default); every other flag is on
exactly if an option for it was given, `-I` implying case-insensitive matching. -/
theorem flags_exact (h : List Char → UInt32) (fuel cores : Nat) (w : World) (ig : Hash.Table (List Char))
    (ts : List Tok) (c : Conf) (e : parseArgs h fuel w ts (create cores ig) = .ok (some c)) :
    (isOptionSet c.mask bRECSD = true ↔ ((chars ts).filter (· ∈ ['r', 'R'])).getLast? ≠ some 'R') ∧
    (isOptionSet c.mask bSHOW_HIDDEN = true ↔ 'a' ∈ chars ts) ∧ (isOptionSet c.mask bSIZED = true ↔ 'd' ∈ chars ts) ∧
    (isOptionSet c.mask bDRY_RUN = true ↔ 'n' ∈ chars ts) ∧ (isOptionSet c.mask bFSYML = true ↔ 'f' ∈ chars ts) ∧
    (isOptionSet c.mask bOPMEM = true ↔ 'o' ∈ chars ts) ∧ (isOptionSet c.mask bPUZZL = true ↔ 'I' ∈ chars ts) ∧
    (isOptionSet c.mask bUNTAR = true ↔ 't' ∈ chars ts) ∧
    (isOptionSet c.mask bICASE = true ↔ 'c' ∈ chars ts ∨ 'I' ∈ chars ts) := by
  have r := optionLoop_runs (parseArgs_loop e)
  have z : ∀ b ∈ bits, b ≠ bRECSD → isOptionSet (create cores ig).mask b = false := by
    show ∀ b ∈ bits, b ≠ bRECSD → isOptionSet (optVal bRECSD) b = false
    decide
  have fl : ∀ b x, b ∈ bits → b ≠ bRECSD → (∀ o m, bitStep o b m = (decide (o ∈ [x]) || isOptionSet m b)) →
      (isOptionSet c.mask b = true ↔ x ∈ chars ts) := by
    intro b x hb hne hs
    rw [runs_flag r b hb [x] hs, z b hb hne]; simp [chars]
  refine ⟨?_, ?_, ?_, ?_, ?_, ?_, ?_, ?_, ?_⟩
  · rw [runs_recurse r, show isOptionSet (create cores ig).mask bRECSD = true from (by decide : isOptionSet (optVal bRECSD) bRECSD = true)]
    show _ ↔ (((given ts).map (·.1)).filter (· ∈ ['r', 'R'])).getLast? ≠ some 'R'
    cases hl : (((given ts).map (·.1)).filter (· ∈ ['r', 'R'])).getLast? with
    | none => simp
    | some x =>
      have hx := List.mem_of_getLast? hl
      simp only [List.mem_filter, decide_eq_true_eq, List.mem_cons, List.not_mem_nil, or_false] at hx
      rcases hx.2 with rfl | rfl <;> simp
  · exact fl _ 'a' (by decide) (by decide) (by
      intro o m
      simp [bitStep, bVERBO, bSHOW_HIDDEN, bICASE, bSIZED, bDRY_RUN, bFSYML, bOPMEM, bRECSD, bPUZZL, bUNTAR, bJSON])
  · exact fl _ 'd' (by decide) (by decide) (by
      intro o m
      simp [bitStep, bVERBO, bSHOW_HIDDEN, bICASE, bSIZED, bDRY_RUN, bFSYML, bOPMEM, bRECSD, bPUZZL, bUNTAR, bJSON])
  · exact fl _ 'n' (by decide) (by decide) (by
      intro o m
      simp [bitStep, bVERBO, bSHOW_HIDDEN, bICASE, bSIZED, bDRY_RUN, bFSYML, bOPMEM, bRECSD, bPUZZL, bUNTAR, bJSON])
  · exact fl _ 'f' (by decide) (by decide) (by
      intro o m
      simp [bitStep, bVERBO, bSHOW_HIDDEN, bICASE, bSIZED, bDRY_RUN, bFSYML, bOPMEM, bRECSD, bPUZZL, bUNTAR, bJSON])
  · exact fl _ 'o' (by decide) (by decide) (by
      intro o m
      simp [bitStep, bVERBO, bSHOW_HIDDEN, bICASE, bSIZED, bDRY_RUN, bFSYML, bOPMEM, bRECSD, bPUZZL, bUNTAR, bJSON])
  · exact fl _ 'I' (by decide) (by decide) (by
      intro o m
      simp [bitStep, bVERBO, bSHOW_HIDDEN, bICASE, bSIZED, bDRY_RUN, bFSYML, bOPMEM, bRECSD, bPUZZL, bUNTAR, bJSON])
  · exact fl _ 't' (by decide) (by decide) (by
      intro o m
      simp [bitStep, bVERBO, bSHOW_HIDDEN, bICASE, bSIZED, bDRY_RUN, bFSYML, bOPMEM, bRECSD, bPUZZL, bUNTAR, bJSON])
  · have hs : ∀ o m, bitStep o bICASE m = (decide (o ∈ ['c', 'I']) || isOptionSet m bICASE) := by
      intro o m
      simp [bitStep, bVERBO, bSHOW_HIDDEN, bICASE, bSIZED, bDRY_RUN, bFSYML, bOPMEM, bRECSD, bPUZZL, bUNTAR, bJSON]
      by_cases h : o = 'c' <;> by_cases h2 : o = 'I' <;> simp [h, h2]
    rw [runs_flag r bICASE (by decide) _ hs, z _ (by decide) (by decide)]
    simp [chars]

/-! ## Numbers (C33) -/

/-- A thread count as the user may write it: blanks, optional plus, decimal digits, 1 to 256. -/
def ThreadsArg (a : List Char) (n : Nat) : Prop :=
  ∃ ws sg ds, a = ws ++ (sg ++ ds.map dchar) ∧ (∀ c ∈ ws, isSpace c = true) ∧ (sg = [] ∨ sg = ['+']) ∧
    (∀ d ∈ ds, d < 10) ∧ ds ≠ [] ∧ valueOf ds = n ∧ 1 ≤ n ∧ n ≤ 256

theorem decVal_sound {c : Char} {d : Nat} (h : decVal c = some d) : c = dchar d ∧ d < 10 := by
  unfold decVal at h
  split at h
  · rename_i hc
    injection h with h
    have h1 : '0'.toNat ≤ c.toNat := hc.1
    have h2 : c.toNat ≤ '9'.toNat := hc.2
    have e0 : '0'.toNat = 48 := by decide
    have e9 : '9'.toNat = 57 := by decide
    constructor
    · unfold dchar; rw [← h, show 48 + (c.toNat - 48) = c.toNat by omega, Char.ofNat_toNat]
    · omega
  · cases h

theorem takeDigits_sound : ∀ (s : List Char) (ds : List Nat) (r : List Char), takeDigits decVal s = (ds, r) →
    s = ds.map dchar ++ r ∧ (∀ d ∈ ds, d < 10) ∧ (∀ c ∈ r.head?, decVal c = none) := by
  intro s
  induction s with
  | nil => intro ds r h; simp [takeDigits] at h; obtain ⟨rfl, rfl⟩ := h; simp
  | cons c s ih =>
    intro ds r h
    simp only [takeDigits] at h
    cases hd : decVal c with
    | none => simp only [hd] at h; injection h with h1 h2; subst h1; subst h2; simp [hd]
    | some d =>
      simp only [hd] at h
      obtain ⟨ds', r', e⟩ : ∃ ds' r', takeDigits decVal s = (ds', r') := ⟨_, _, rfl⟩
      rw [e] at h
      injection h with h1 h2; subst h1; subst h2
      obtain ⟨i1, i2, i3⟩ := ih ds' r' e
      have := decVal_sound hd
      refine ⟨by simp [i1, this.1], ?_, i3⟩
      intro x hx
      rcases List.mem_cons.mp hx with rfl | hx
      · exact this.2
      · exact i2 x hx

/-- **C33** (threads): the thread counts accepted are exactly the well-formed ones, with their
value. -/
theorem parseThreads_iff (a : List Char) (n : Nat) : parseThreads a = some n ↔ ThreadsArg a n := by
  constructor
  · intro h
    unfold parseThreads strtol at h
    obtain ⟨ng, s1, es⟩ : ∃ ng s1, HumanSize.sign (a.dropWhile isSpace) = (ng, s1) := ⟨_, _, rfl⟩
    obtain ⟨ds, r, ed⟩ : ∃ ds r, takeDigits decVal s1 = (ds, r) := ⟨_, _, rfl⟩
    simp only [es, ed] at h
    by_cases hds : ds = []
    · simp only [hds, if_true] at h
      split at h
      · cases h
      · rename_i hx; exact absurd (Or.inr (Or.inl (by decide))) hx
    · simp only [hds, if_false] at h
      obtain ⟨i1, i2, _⟩ := takeDigits_sound _ _ _ ed
      cases ng with
      | true =>
        simp only [if_true] at h
        rw [if_pos (Or.inr (Or.inl (by omega)))] at h
        cases h
      | false =>
        simp only [Bool.false_eq_true, if_false] at h
        by_cases hx : r ≠ [] ∨ min (HumanSize.ofDigits 10 ds : Int) (2 ^ 63 - 1) < 1 ∨
            min (HumanSize.ofDigits 10 ds : Int) (2 ^ 63 - 1) > 256
        · rw [if_pos hx] at h; cases h
        · rw [if_neg hx] at h
          injection h with h
          have hr : r = [] := Classical.byContradiction fun h => hx (Or.inl h)
          rw [hr, List.append_nil] at i1
          rw [HumanSize.ofDigits_eq] at hx h
          have hval : valueOf ds = n ∧ 1 ≤ valueOf ds ∧ valueOf ds ≤ 256 := by
            have : (2 : Int) ^ 63 - 1 = 9223372036854775807 := by decide
            rw [this] at hx h
            omega
          refine ⟨a.takeWhile isSpace, if a.dropWhile isSpace = s1 then [] else ['+'], ds, ?_, ?_, ?_, i2, hds, hval.1,
            by omega, by omega⟩
          · have h0 := List.takeWhile_append_dropWhile (p := isSpace) (l := a)
            have h1 : (if a.dropWhile isSpace = s1 then ([] : List Char) else ['+']) ++ ds.map dchar = a.dropWhile isSpace := by
              rw [← i1]
              generalize a.dropWhile isSpace = s at es
              unfold HumanSize.sign at es
              split at es
              · simp at es
              · rename_i s'
                injection es with _ es; subst es
                simp
              · injection es with _ es; subst es; simp
            rw [h1]; exact h0.symm
          · intro c hc
            have := List.all_takeWhile (p := isSpace) (l := a)
            exact List.all_eq_true.mp this c hc
          · split <;> simp
  · rintro ⟨ws, sg, ds, rfl, hws, hsg, hds, hne, hv, h1, h2⟩
    obtain ⟨d, ds', rfl⟩ : ∃ d ds', ds = d :: ds' := by
      cases ds with
      | nil => exact absurd rfl hne
      | cons d ds' => exact ⟨d, ds', rfl⟩
    have hd := hds d (by simp)
    have hdrop : (ws ++ (sg ++ (d :: ds').map dchar)).dropWhile isSpace = sg ++ (d :: ds').map dchar := by
      apply HumanSize.dropWhile_spaces _ _ hws
      rcases hsg with rfl | rfl
      · intro c hc; simp at hc; subst hc; exact HumanSize.not_space_dchar d hd
      · intro c hc; simp at hc; subst hc; decide
    have hsign : HumanSize.sign (sg ++ (d :: ds').map dchar) = (false, (d :: ds').map dchar) := by
      rcases hsg with rfl | rfl
      · rw [List.nil_append]
        apply HumanSize.sign_of_ne
        intro c hc; simp at hc; subst hc
        exact ⟨(HumanSize.dchar_ne d hd).1, (HumanSize.dchar_ne d hd).2.1⟩
      · rfl
    have htake := HumanSize.takeDigits_append (d :: ds') [] hds (by simp)
    rw [List.append_nil] at htake
    unfold parseThreads strtol
    simp only [hdrop, hsign, htake, hne, if_false]
    rw [HumanSize.ofDigits_eq, hv]
    have e : min (n : Int) (2 ^ 63 - 1) = n := by
      have : (2 : Int) ^ 63 - 1 = 9223372036854775807 := by decide
      rw [this]; omega
    simp only [Bool.false_eq_true, if_false, e]
    rw [if_neg (by rintro (h | h | h) <;> first | exact h rfl | omega)]
    simp

/-- The argument of the last occurrence of an option. -/
def lastArg (x : Char) (ts : List Tok) : Option (List Char) := (((given ts).filter (·.1 = x)).getLast?).map (·.2)

/-- Effect of one option on the numeric fields. -/
theorem processOption_num {h : List Char → UInt32} {fuel : Nat} {o : Char} {arg : List Char} {conf c : Conf}
    (e : processOption h fuel o arg conf = .ok (some c)) :
    (if o = 'j' then parseThreads arg = some c.numThreads else c.numThreads = conf.numThreads) ∧
    (if o = 'm' then HumanSize.parse arg = .ok c.minsize ∧ 0 ≤ c.minsize else c.minsize = conf.minsize) ∧
    (if o = 'M' then HumanSize.parse arg = .ok c.maxsize ∧ 0 ≤ c.maxsize else c.maxsize = conf.maxsize) ∧
    (if o = 'x' then HumanSize.parse arg = .ok c.excess ∧ 0 ≤ c.excess else c.excess = conf.excess) := by
  unfold processOption at e
  split at e
  · rename_i ho
    injection e with e; injection e with e
    have hf : c.numThreads = conf.numThreads ∧ c.minsize = conf.minsize ∧ c.maxsize = conf.maxsize ∧ c.excess = conf.excess := by
      subst e; unfold handleFlag
      split
      · exact ⟨rfl, rfl, rfl, rfl⟩
      · split
        · split <;> exact ⟨rfl, rfl, rfl, rfl⟩
        · exact ⟨rfl, rfl, rfl, rfl⟩
    simp at ho
    rcases ho with rfl | rfl | rfl | rfl | rfl | rfl | rfl | rfl | rfl <;> simp [hf]
  · split at e
    · rename_i hs
      rw [Res.bind_eq_ok] at e
      obtain ⟨c1, e1, e2⟩ := e
      injection e2 with e2; injection e2 with e2; subst e2
      have hf : c1.numThreads = conf.numThreads ∧ c1.minsize = conf.minsize ∧ c1.maxsize = conf.maxsize ∧ c1.excess = conf.excess := by
        unfold handleString at e1
        split at e1
        · injection e1 with e1; subst e1; exact ⟨rfl, rfl, rfl, rfl⟩
        · split at e1
          · rw [Res.bind_eq_ok] at e1
            obtain ⟨t, _, e1⟩ := e1
            injection e1 with e1; subst e1; exact ⟨rfl, rfl, rfl, rfl⟩
          · split at e1
            · injection e1 with e1; subst e1; exact ⟨rfl, rfl, rfl, rfl⟩
            · split at e1
              · injection e1 with e1; subst e1; exact ⟨rfl, rfl, rfl, rfl⟩
              · split at e1 <;> (injection e1 with e1; subst e1; exact ⟨rfl, rfl, rfl, rfl⟩)
      simp at hs
      rcases hs with rfl | rfl | rfl | rfl | rfl <;> simp [hf]
    · split at e
      · rename_i hs
        simp at hs
        rcases hs with rfl | rfl | rfl | rfl
        · simp only [handleNumeric, if_true] at e
          split at e
          · rename_i n hn
            injection e with e; injection e with e; subst e; simp [hn]
          · injection e with e; cases e
        all_goals
          simp [handleNumeric] at e
          rw [Res.bind_eq_ok] at e
          obtain ⟨v, e1, e2⟩ := e
          injection e2 with e2
          split at e2
          · cases e2
          · injection e2 with e2; subst e2; simp [e1]; omega
      · split at e
        · rename_i hs
          injection e with e
          have hf : c.numThreads = conf.numThreads ∧ c.minsize = conf.minsize ∧ c.maxsize = conf.maxsize ∧ c.excess = conf.excess := by
            unfold handleSpecial at e
            split at e
            · cases e
            · split at e
              · unfold handleImage at e
                split at e
                · injection e with e; subst e; exact ⟨rfl, rfl, rfl, rfl⟩
                · split at e
                  · split at e <;> first | (injection e with e; subst e; exact ⟨rfl, rfl, rfl, rfl⟩) | cases e
                  · injection e with e; subst e; exact ⟨rfl, rfl, rfl, rfl⟩
              · split at e
                · injection e with e; subst e; unfold handleJson; simp only
                  split <;> exact ⟨rfl, rfl, rfl, rfl⟩
                · split at e
                  · injection e with e; subst e; exact ⟨rfl, rfl, rfl, rfl⟩
                  · injection e with e; subst e; exact ⟨rfl, rfl, rfl, rfl⟩
          simp at hs
          rcases hs with rfl | rfl | rfl | rfl | rfl | rfl <;> simp [hf]
        · rename_i hj _
          injection e with e; injection e with e; subst e
          simp at hj
          simp [hj]

theorem runs_field {h : List Char → UInt32} {fuel : Nat} {β : Type} (x : Char) (fld : Conf → β) (P : List Char → β → Prop)
    (hstep : ∀ o arg conf c, processOption h fuel o arg conf = .ok (some c) →
      if o = x then P arg (fld c) else fld c = fld conf)
    {os : List (Char × List Char)} {c0 c : Conf} (r : Runs h fuel os c0 c) :
    (match ((os.filter (·.1 = x)).getLast?).map (·.2) with
      | none => fld c = fld c0
      | some a => P a (fld c)) ∧ ∀ a, (x, a) ∈ os → ∃ v, P a v := by
  induction r with
  | nil c => simp
  | @cons o a os c c1 c2 e _ ih =>
    have hs := hstep o a c c1 e
    by_cases ho : o = x
    · rw [if_pos ho] at hs
      rw [List.filter_cons_of_pos (by simp [ho]), List.getLast?_cons]
      refine ⟨?_, ?_⟩
      · cases hl : (os.filter (·.1 = x)).getLast? with
        | none => rw [hl] at ih; simp at ih ⊢; rw [ih.1]; exact hs
        | some y => rw [hl] at ih; simp at ih ⊢; exact ih.1
      · intro b hb
        rcases List.mem_cons.mp hb with hb | hb
        · injection hb with _ hb; subst hb; exact ⟨_, hs⟩
        · exact ih.2 b hb
    · rw [if_neg ho] at hs
      rw [List.filter_cons_of_neg (by simp [ho])]
      refine ⟨?_, ?_⟩
      · rw [← hs]; exact ih.1
      · intro b hb
        rcases List.mem_cons.mp hb with hb | hb
        · injection hb with hb _; exact absurd hb.symm ho
        · exact ih.2 b hb

/-- **C33.** If option parsing succeeds, every thread count and size given was well-formed, the
last one of each kind is in effect, the thread count given is between 1 and 256 and the sizes are
non-negative; what is not given is as documented: no limits of size, files of up to 50 MiB mapped, as many threads as there are cores. -/
theorem numbers_in_range (h : List Char → UInt32) (fuel cores : Nat) (w : World) (ig : Hash.Table (List Char))
    (ts : List Tok) (c : Conf) (e : parseArgs h fuel w ts (create cores ig) = .ok (some c)) :
    (∀ a, ('j', a) ∈ given ts → ∃ n, ThreadsArg a n) ∧
    (∀ x a, x ∈ ['m', 'M', 'x'] → (x, a) ∈ given ts → ∃ v, HumanSize.parse a = .ok v ∧ 0 ≤ v) ∧
    (match lastArg 'j' ts with
      | none => c.numThreads = cores
      | some a => ThreadsArg a c.numThreads ∧ 1 ≤ c.numThreads ∧ c.numThreads ≤ 256) ∧
    0 ≤ c.minsize ∧ 0 ≤ c.maxsize ∧ 0 ≤ c.excess ∧
    (∀ a, lastArg 'm' ts = some a → HumanSize.parse a = .ok c.minsize) ∧
    (∀ a, lastArg 'M' ts = some a → HumanSize.parse a = .ok c.maxsize) ∧
    (∀ a, lastArg 'x' ts = some a → HumanSize.parse a = .ok c.excess) ∧
    (lastArg 'm' ts = none → c.minsize = 0) ∧ (lastArg 'M' ts = none → c.maxsize = 0) ∧ (lastArg 'x' ts = none → c.excess = 52428800) := by
  have r := optionLoop_runs (parseArgs_loop e)
  have rj := runs_field 'j' Conf.numThreads (fun a n => parseThreads a = some n)
    (fun o a c1 c2 e => (processOption_num e).1) r
  have rm := runs_field 'm' Conf.minsize (fun a n => HumanSize.parse a = .ok n ∧ 0 ≤ n)
    (fun o a c1 c2 e => (processOption_num e).2.1) r
  have rM := runs_field 'M' Conf.maxsize (fun a n => HumanSize.parse a = .ok n ∧ 0 ≤ n)
    (fun o a c1 c2 e => (processOption_num e).2.2.1) r
  have rx := runs_field 'x' Conf.excess (fun a n => HumanSize.parse a = .ok n ∧ 0 ≤ n)
    (fun o a c1 c2 e => (processOption_num e).2.2.2) r
  refine ⟨?_, ?_, ?_, ?_, ?_, ?_, ?_, ?_, ?_, ?_, ?_, ?_⟩
  · intro a ha
    obtain ⟨n, hn⟩ := rj.2 a ha
    exact ⟨n, (parseThreads_iff a n).mp hn⟩
  · intro x a hx ha
    simp at hx
    rcases hx with rfl | rfl | rfl
    · exact rm.2 a ha
    · exact rM.2 a ha
    · exact rx.2 a ha
  · have := rj.1
    unfold lastArg
    cases hl : (((given ts).filter (·.1 = 'j')).getLast?).map (·.2) with
    | none => rw [hl] at this; exact this
    | some a =>
      rw [hl] at this
      have ht := (parseThreads_iff a _).mp this
      obtain ⟨_, _, _, _, _, _, _, _, _, h1, h2⟩ := id ht
      exact ⟨ht, h1, h2⟩
  · have := rm.1
    cases hl : (((given ts).filter (·.1 = 'm')).getLast?).map (·.2) with
    | none => rw [hl] at this; simp only at this; rw [this]; simp [create]
    | some a => rw [hl] at this; exact this.2
  · have := rM.1
    cases hl : (((given ts).filter (·.1 = 'M')).getLast?).map (·.2) with
    | none => rw [hl] at this; simp only at this; rw [this]; simp [create]
    | some a => rw [hl] at this; exact this.2
  · have := rx.1
    cases hl : (((given ts).filter (·.1 = 'x')).getLast?).map (·.2) with
    | none => rw [hl] at this; simp only at this; rw [this]; simp [create]
    | some a => rw [hl] at this; exact this.2
  · intro a ha; have := rm.1; unfold lastArg at ha; rw [ha] at this; exact this.1
  · intro a ha; have := rM.1; unfold lastArg at ha; rw [ha] at this; exact this.1
  · intro a ha; have := rx.1; unfold lastArg at ha; rw [ha] at this; exact this.1
  · intro ha; have := rm.1; unfold lastArg at ha; rw [ha] at this; exact this
  · intro ha; have := rM.1; unfold lastArg at ha; rw [ha] at this; exact this
  · intro ha; have := rx.1; unfold lastArg at ha; rw [ha] at this; exact this

/-! ## The ignore list (C61) -/

/-- Names joined by commas. -/
def joined : List (List Char) → List Char
  | [] => []
  | [n] => n
  | n :: ns => n ++ ',' :: joined ns

theorem segments_name (acc n r : List Char) (hn : ',' ∉ n) :
    segments acc (n ++ r) = segments (n.reverse ++ acc) r := by
  induction n generalizing acc with
  | nil => rfl
  | cons c n ih =>
    simp at hn
    rw [List.cons_append, segments.eq_def]
    simp only
    rw [if_neg (fun h => hn.1 h.symm), ih _ hn.2]
    simp

theorem segments_joined : ∀ (ns : List (List Char)), ns ≠ [] → (∀ n ∈ ns, ',' ∉ n ∧ n ≠ []) →
    segments [] (joined ns) = ns := by
  intro ns
  induction ns with
  | nil => intro h; exact absurd rfl h
  | cons n ns ih =>
    intro _ h
    have hn := h n (by simp)
    cases ns with
    | nil =>
      have := segments_name [] n [] hn.1
      rw [List.append_nil] at this
      simp [joined, this, segments]
    | cons n2 ns =>
      have h2 := h n2 (by simp)
      rw [joined, segments_name [] n _ hn.1]
      · have hne : joined (n2 :: ns) ≠ [] := by
          cases ns <;> simp [joined, h2.2]
        obtain ⟨c, s, hcs⟩ : ∃ c s, joined (n2 :: ns) = c :: s := by
          cases hj : joined (n2 :: ns) with
          | nil => exact absurd hj hne
          | cons c s => exact ⟨c, s, rfl⟩
        have := ih (by simp) (fun x hx => h x (by simp [hx]))
        rw [hcs] at this ⊢
        rw [segments.eq_def]
        simp only [if_true]
        rw [this]; simp
      · simp

theorem addIgnore_spec (h : List Char → UInt32) (fuel : Nat) (t : Hash.Table (List Char)) (s : List Char)
    (hi : Hash.Inv (strFns h) t) :
    addIgnoreList h fuel t s = .div ∨ ∃ t', addIgnoreList h fuel t s = .ok t' ∧ Hash.Added (strFns h) t (segments [] s) t' :=
  Hash.foldSet_spec (strFns h) _ (fun t x hx => Hash.set_spec (strFns h) fuel t x hx) (segments [] s) t hi

/-- **C61, partial.** If the option returns, exactly the names of the list (non-empty, without
commas) are now ignored in addition to those before.  Missing: that it returns, which is false
— see `ignore_list_hangs`. -/
theorem ignore_list_exact_partial (h : List Char → UInt32) (fuel : Nat) (t t' : Hash.Table (List Char))
    (ns : List (List Char)) (hi : Hash.Inv (strFns h) t) (hne : ns ≠ []) (hns : ∀ n ∈ ns, ',' ∉ n ∧ n ≠ [])
    (e : addIgnoreList h fuel t (joined ns) = .ok t') (k : List Char) :
    (∃ o, Hash.search (strFns h) t' k = .ok o ∧ (o.isSome ↔ k ∈ ns ∨ Hash.search (strFns h) t k = .ok (some k))) := by
  rcases addIgnore_spec h fuel t (joined ns) hi with e' | ⟨t2, e', ha⟩
  · rw [e] at e'; cases e'
  · rw [e] at e'; injection e' with e'; subst e'
    rw [segments_joined ns hne hns] at ha
    obtain ⟨l, hl⟩ := Hash.bucket_exists hi.placed (h k)
    obtain ⟨l', hl'⟩ := Hash.bucket_exists ha.inv.placed (h k)
    have f1 := Hash.elems_filter hi.placed k hl
    have f2 := Hash.elems_filter ha.inv.placed k hl'
    refine ⟨l'.find? (fun x => k = (strFns h).key x), by
      unfold Hash.search; rw [show (strFns h).hash k = h k from rfl, hl'], ?_⟩
    have hs : Hash.search (strFns h) t k = .ok (l.find? (fun x => k = (strFns h).key x)) := by
      unfold Hash.search; rw [show (strFns h).hash k = h k from rfl, hl]
    rw [hs]
    have hk : (l.find? (fun x => decide (k = (strFns h).key x)) = some k) ↔ k ∈ Hash.elems t := by
      constructor
      · intro hh
        have h1 := List.mem_of_find?_eq_some hh
        exact List.mem_flatten.mpr ⟨l, List.mem_of_getElem? hl, h1⟩
      · intro hh
        have h1 : k ∈ (Hash.elems t).filter (fun y => decide (k = (strFns h).key y)) := by
          rw [List.mem_filter]; exact ⟨hh, by simp [strFns]⟩
        rw [f1, List.mem_filter] at h1
        cases hf : l.find? (fun x => decide (k = (strFns h).key x)) with
        | none =>
          have := List.find?_eq_none.mp hf k h1.1
          simp [strFns] at this
        | some y =>
          have := List.find?_some hf
          have : k = y := of_decide_eq_true this
          rw [this]
    have hk' : (l'.find? (fun x => decide (k = (strFns h).key x))).isSome ↔ k ∈ Hash.elems t' := by
      rw [List.find?_isSome]
      constructor
      · rintro ⟨x, hx, hxk⟩
        have hxk : k = x := of_decide_eq_true hxk
        subst hxk
        exact List.mem_flatten.mpr ⟨l', List.mem_of_getElem? hl', hx⟩
      · intro hh
        have h1 : k ∈ (Hash.elems t').filter (fun y => decide (k = (strFns h).key y)) := by
          rw [List.mem_filter]; exact ⟨hh, by simp [strFns]⟩
        rw [f2, List.mem_filter] at h1
        exact ⟨k, h1.1, h1.2⟩
    rw [hk', Res.ok.injEq, hk, ha.perm.mem_iff, List.mem_append]

/-- **C61 is false of the code**: a list that repeats a name eight times makes the option loop
for ever (until memory runs out), whatever the hash function and the table. -/
theorem ignore_list_hangs (h : List Char → UInt32) (fuel : Nat) (t : Hash.Table (List Char)) (n : List Char)
    (hi : Hash.Inv (strFns h) t) (hff : t.ffactor = 8) (hn : ',' ∉ n ∧ n ≠ []) :
    addIgnoreList h fuel t (joined (List.replicate 8 n)) = .div := by
  rcases addIgnore_spec h fuel t (joined (List.replicate 8 n)) hi with e | ⟨t', e, ha⟩
  · exact e
  · exfalso
    rw [segments_joined _ (by simp) (by intro x hx; rw [List.mem_replicate] at hx; rw [hx.2]; exact hn)] at ha
    have f := ha.filt n
    obtain ⟨l, hl⟩ := Hash.bucket_exists ha.inv.placed (h n)
    rw [Hash.elems_filter ha.inv.placed n hl] at f
    have hroom := ha.inv.room l (List.mem_of_getElem? hl)
    rw [ha.ff, hff] at hroom
    have h1 := List.length_filter_le (fun y => decide (n = (strFns h).key y)) l
    rw [f, List.length_append] at h1
    simp [strFns] at h1
    omega

/-! ## Unknown options (C62) -/

/-- **C62 is false of the code**: an unknown option (or a missing argument) does not make
parsing fail; it ends it, and every option after it has no effect. -/
theorem unknown_option_ignored (h : List Char → UInt32) (fuel : Nat) (w : World) (ts ts' : List Tok) (conf : Conf) :
    parseArgs h fuel w (ts ++ .bad :: ts') conf = parseArgs h fuel w ts conf := by
  have : ∀ (ts : List Tok) (conf : Conf), optionLoop h fuel (ts ++ .bad :: ts') conf = optionLoop h fuel ts conf := by
    intro ts
    induction ts with
    | nil => intro conf; rfl
    | cons t ts ih =>
      intro conf
      cases t with
      | bad => rfl
      | opt o a =>
        simp only [List.cons_append, optionLoop]
        cases processOption h fuel o a conf with
        | ub => rfl
        | div => rfl
        | ok s => cases s with
          | none => rfl
          | some c => exact ih c
  unfold parseArgs
  rw [this]

/-- A run with an unknown option that nevertheless succeeds. -/
theorem unknown_option_rejected_false : ∃ (w : World) (c : Conf),
    parseArgs (fun _ => 0) 40 w [.bad, .opt 'J' []] (create 4 (Hash.makeEx _ 32 8)) = .ok (some c) :=
  ⟨⟨1, true, fun _ _ => true⟩, _, rfl⟩

/-! ## Non-vacuity -/

/-- A configuration with "." and ".." really exists and is a well-formed table. -/
example : ∃ t, createIgnored (fun s => UInt32.ofNat s.length) 40 = .ok t ∧ Hash.Inv (strFns (fun s => UInt32.ofNat s.length)) t := by
  have i0 := Hash.makeEx_inv (strFns (fun s => UInt32.ofNat s.length)) 32 (ff := 8) (by decide)
  obtain ⟨t1, e1, a1⟩ := Hash.set_terminates_from (strFns (fun s => UInt32.ofNat s.length)) 40 _ ['.'] i0 (by
    intro v; rw [Hash.elems_makeEx]; unfold Hash.sameHash
    have := List.countP_le_length (p := fun y => decide ((strFns (fun s => UInt32.ofNat s.length)).hash
      ((strFns (fun s => UInt32.ofNat s.length)).key y) = v)) (l := [['.']])
    exact Nat.lt_of_le_of_lt this (by show 1 < 8; decide)) (by omega)
  obtain ⟨t2, e2, a2⟩ := Hash.set_terminates_from (strFns (fun s => UInt32.ofNat s.length)) 40 t1 ['.', '.'] a1.inv (by
    intro v; unfold Hash.sameHash
    refine Nat.lt_of_le_of_lt List.countP_le_length ?_
    rw [a1.ff, List.length_cons, a1.perm.length_eq, Hash.elems_makeEx]
    show 2 < 8; decide) (by omega)
  refine ⟨t2, ?_, a2.inv⟩
  simp only [createIgnored]
  have e1' : Hash.set (strFns fun s => UInt32.ofNat s.length) 40 (Hash.makeEx (List Char) 32 8) ['.'] (UInt32.ofNat ['.'].length) = .ok t1 := e1
  have e2' : Hash.set (strFns fun s => UInt32.ofNat s.length) 40 t1 ['.', '.'] (UInt32.ofNat ['.', '.'].length) = .ok t2 := e2
  simp only [e1', Res.ok_bind, e2']

/-- `-v -J -R -r -j +08 -m 2K path` parses; JSON on, verbose off, recursion on, 8 threads. -/
example : (match parseArgs (fun _ => 0) 40 ⟨1, true, fun _ _ => true⟩
    [.opt 'v' [], .opt 'J' [], .opt 'R' [], .opt 'r' [], .opt 'j' ['+', '0', '8'], .opt 'm' ['2', 'K']]
    (create 4 (Hash.makeEx _ 32 8)) with
    | .ok (some c) => (isOptionSet c.mask bJSON, isOptionSet c.mask bVERBO, isOptionSet c.mask bRECSD, c.numThreads, c.minsize)
    | _ => (false, false, false, 0, 0)) = (true, false, true, 8, 2048) := by decide +kernel

example : ThreadsArg ['+', '0', '8'] 8 :=
  ⟨[], ['+'], [0, 8], rfl, by simp, Or.inr rfl, by decide, by decide, by decide, by decide, by decide⟩

example : joined [['a'], ['b', 'c']] = ['a', ',', 'b', 'c'] := rfl

end Verif.Config
