import Verif.Config.Props

/-! # Options with values, and which command lines are accepted (C66, C67) -/

namespace Verif.Config

/-- The last option given among those selected. -/
def lastOf (S : List Char) (ts : List Tok) : Option (Char × List Char) := ((given ts).filter (fun oa => oa.1 ∈ S)).getLast?

theorem runs_last {h : List Char → UInt32} {fuel : Nat} {β : Type} (S : List Char) (fld : Conf → β) (P : Char × List Char → β → Prop)
    (hstep : ∀ o arg conf c, processOption h fuel o arg conf = .ok (some c) →
      if o ∈ S then P (o, arg) (fld c) else fld c = fld conf)
    {os : List (Char × List Char)} {c0 c : Conf} (r : Runs h fuel os c0 c) :
    match (os.filter (fun oa => oa.1 ∈ S)).getLast? with
      | none => fld c = fld c0
      | some oa => P oa (fld c) := by
  induction r with
  | nil c => simp
  | @cons o a os c c1 c2 e _ ih =>
    have hs := hstep o a c c1 e
    by_cases ho : o ∈ S
    · rw [if_pos ho] at hs
      rw [List.filter_cons_of_pos (by simp [ho]), List.getLast?_cons]
      cases hl : (os.filter (fun oa => oa.1 ∈ S)).getLast? with
      | none => rw [hl] at ih; simp at ih ⊢; rw [ih]; exact hs
      | some y => rw [hl] at ih; simp at ih ⊢; exact ih
    · rw [if_neg ho] at hs
      rw [List.filter_cons_of_neg (by simp [ho]), ← hs]
      exact ih

/-- The expression `-I` puts in the place of a whitelist. -/
def imageExpr : List Char := ".*\\.(gif|png|jpe?g)$".toList

/-- The expression for archive names. -/
def archiveExpr : List Char := ".*\\.(tar\\.gz|tgz|tar\\.bz2|tbz2|tar\\.xz|txz|zip|rar|7z|tar)$".toList

/-- The five threshold levels. -/
def Level (a : List Char) (n : Nat) : Prop := 1 ≤ n ∧ n ≤ 5 ∧ ∃ r, a = HumanSize.dchar n :: r

theorem level_cases (a : List Char) (n : Nat) : Level a n ↔
    (n = 1 ∧ a.head? = some '1') ∨ (n = 2 ∧ a.head? = some '2') ∨ (n = 3 ∧ a.head? = some '3') ∨ (n = 4 ∧ a.head? = some '4') ∨
    (n = 5 ∧ a.head? = some '5') := by
  unfold Level
  constructor
  · rintro ⟨h1, h2, r, rfl⟩
    have : n = 1 ∨ n = 2 ∨ n = 3 ∨ n = 4 ∨ n = 5 := by omega
    rcases this with rfl | rfl | rfl | rfl | rfl <;> simp <;> decide
  · intro h
    cases a with
    | nil => simp at h
    | cons c r =>
      simp only [List.head?_cons, Option.some.injEq] at h
      rcases h with ⟨rfl, rfl⟩ | ⟨rfl, rfl⟩ | ⟨rfl, rfl⟩ | ⟨rfl, rfl⟩ | ⟨rfl, rfl⟩ <;>
        exact ⟨by decide, by decide, r, by congr 1⟩

/-- What one option does to the fields with text or level values. -/
theorem processOption_str {h : List Char → UInt32} {fuel : Nat} {o : Char} {arg : List Char} {conf c : Conf}
    (e : processOption h fuel o arg conf = .ok (some c)) :
    c.pPath = (if o = 'p' then some arg else conf.pPath) ∧
    c.sep = (if o = 's' then arg.head?.getD '\x00' else conf.sep) ∧
    c.ignoreRegex = (if o = 'e' then some arg else conf.ignoreRegex) ∧
    c.whitelistRegex = (if o = 'w' then some arg else if o = 'I' then some imageExpr else conf.whitelistRegex) ∧
    c.archiveRegex = (if o = 't' then some archiveExpr else conf.archiveRegex) ∧
    (if o = 'T' then Level arg c.threshold else c.threshold = conf.threshold) := by
  unfold processOption at e
  split at e
  · rename_i ho
    injection e with e; injection e with e
    have hf : c.pPath = conf.pPath ∧ c.sep = conf.sep ∧ c.ignoreRegex = conf.ignoreRegex ∧ c.whitelistRegex = conf.whitelistRegex ∧
        c.archiveRegex = conf.archiveRegex ∧ c.threshold = conf.threshold := by
      subst e; unfold handleFlag
      split
      · exact ⟨rfl, rfl, rfl, rfl, rfl, rfl⟩
      · split
        · split <;> exact ⟨rfl, rfl, rfl, rfl, rfl, rfl⟩
        · exact ⟨rfl, rfl, rfl, rfl, rfl, rfl⟩
    simp at ho
    rcases ho with rfl | rfl | rfl | rfl | rfl | rfl | rfl | rfl | rfl <;> simp [hf]
  · split at e
    · rename_i hs
      rw [Res.bind_eq_ok] at e
      obtain ⟨c1, e1, e2⟩ := e
      injection e2 with e2; injection e2 with e2; subst e2
      simp at hs
      rcases hs with rfl | rfl | rfl | rfl | rfl
      · simp [handleString] at e1; subst e1; simp
      · simp [handleString] at e1
        rw [Res.bind_eq_ok] at e1
        obtain ⟨t, _, e1⟩ := e1
        injection e1 with e1; subst e1; simp
      · simp [handleString] at e1; subst e1; simp
      · simp [handleString] at e1; subst e1; simp
      · simp [handleString] at e1; subst e1; simp
    · split at e
      · rename_i hs
        simp at hs
        have hf : c.pPath = conf.pPath ∧ c.sep = conf.sep ∧ c.ignoreRegex = conf.ignoreRegex ∧ c.whitelistRegex = conf.whitelistRegex ∧
            c.archiveRegex = conf.archiveRegex ∧ c.threshold = conf.threshold := by
          rcases hs with rfl | rfl | rfl | rfl
          · simp only [handleNumeric, if_true] at e
            split at e
            · injection e with e; injection e with e; subst e; exact ⟨rfl, rfl, rfl, rfl, rfl, rfl⟩
            · injection e with e; cases e
          all_goals
            simp [handleNumeric] at e
            rw [Res.bind_eq_ok] at e
            obtain ⟨v, e1, e2⟩ := e
            injection e2 with e2
            split at e2
            · cases e2
            · injection e2 with e2; subst e2; exact ⟨rfl, rfl, rfl, rfl, rfl, rfl⟩
        rcases hs with rfl | rfl | rfl | rfl <;> simp [hf]
      · split at e
        · rename_i hs
          injection e with e
          simp at hs
          rcases hs with rfl | rfl | rfl | rfl | rfl | rfl
          · simp [handleSpecial] at e
          · simp [handleSpecial] at e
          · simp only [handleSpecial, handleImage] at e
            injection e with e; subst e; exact ⟨rfl, rfl, rfl, rfl, rfl, rfl⟩
          · simp only [handleSpecial, handleImage] at e
            simp at e
            simp only [level_cases]
            split at e <;> (try cases e) <;> simp_all
          · simp [handleSpecial, handleJson] at e
            subst e
            split <;> simp
          · simp only [handleSpecial, handleArchive] at e
            injection e with e; subst e; exact ⟨rfl, rfl, rfl, rfl, rfl, rfl⟩
        · rename_i h1 h2 h3 h4
          injection e with e; injection e with e; subst e
          simp at h2 h4
          simp [h2, h4]

/-- **C66.** After a command line is accepted, each option with a text or level value is in
effect with the argument of its last occurrence, and has its default value if it was not given; `-I` stands for a
whitelist. -/
theorem values_exact (h : List Char → UInt32) (fuel cores : Nat) (w : World) (ig : Hash.Table (List Char))
    (ts : List Tok) (c : Conf) (e : parseArgs h fuel w ts (create cores ig) = .ok (some c)) :
    c.pPath = lastArg 'p' ts ∧
    c.sep = (match lastArg 's' ts with | some a => a.head?.getD '\x00' | none => '\n') ∧
    c.ignoreRegex = lastArg 'e' ts ∧
    c.whitelistRegex = (lastOf ['w', 'I'] ts).map (fun oa => if oa.1 = 'w' then oa.2 else imageExpr) ∧
    (match lastArg 'T' ts with | some a => Level a c.threshold | none => c.threshold = 1) ∧
    (∀ a, ('T', a) ∈ given ts → ∃ n, Level a n) := by
  have r := optionLoop_runs (parseArgs_loop e)
  have rp := runs_field 'p' Conf.pPath (fun a v => v = some a)
    (fun o a c1 c2 e => by have := (processOption_str e).1; split <;> simp_all) r
  have rs := runs_field 's' Conf.sep (fun a v => v = a.head?.getD '\x00')
    (fun o a c1 c2 e => by have := (processOption_str e).2.1; split <;> simp_all) r
  have re := runs_field 'e' Conf.ignoreRegex (fun a v => v = some a)
    (fun o a c1 c2 e => by have := (processOption_str e).2.2.1; split <;> simp_all) r
  have rw' := runs_last ['w', 'I'] Conf.whitelistRegex (fun oa v => v = some (if oa.1 = 'w' then oa.2 else imageExpr))
    (fun o a c1 c2 e => by
      have := (processOption_str e).2.2.2.1
      by_cases h1 : o = 'w'
      · simp [h1] at this ⊢; exact this
      · by_cases h2 : o = 'I'
        · simp [h2] at this ⊢; exact this
        · simp [h1, h2] at this ⊢; exact this) r
  have rt := runs_field 'T' Conf.threshold Level
    (fun o a c1 c2 e => (processOption_str e).2.2.2.2.2) r
  refine ⟨?_, ?_, ?_, ?_, ?_, rt.2⟩
  · have := rp.1
    unfold lastArg
    cases hl : (((given ts).filter (·.1 = 'p')).getLast?).map (·.2) with
    | none => rw [hl] at this; exact this
    | some a => rw [hl] at this; exact this
  · have := rs.1
    unfold lastArg
    cases hl : (((given ts).filter (·.1 = 's')).getLast?).map (·.2) with
    | none => rw [hl] at this; exact this
    | some a => rw [hl] at this; exact this
  · have := re.1
    unfold lastArg
    cases hl : (((given ts).filter (·.1 = 'e')).getLast?).map (·.2) with
    | none => rw [hl] at this; exact this
    | some a => rw [hl] at this; exact this
  · unfold lastOf
    cases hl : ((given ts).filter (fun oa => oa.1 ∈ ['w', 'I'])).getLast? with
    | none => rw [hl] at rw'; exact rw'
    | some a => rw [hl] at rw'; exact rw'
  · have := rt.1
    unfold lastArg
    cases hl : (((given ts).filter (·.1 = 'T')).getLast?).map (·.2) with
    | none => rw [hl] at this; exact this
    | some a => rw [hl] at this; exact this

/-! ## Acceptance (C67) -/

/-- An option the user may give: help and version end the program instead. -/
def Valid (oa : Char × List Char) : Prop :=
  oa.1 ≠ 'h' ∧ oa.1 ≠ 'V' ∧ (oa.1 = 'j' → ∃ n, ThreadsArg oa.2 n) ∧
  (oa.1 ∈ ['m', 'M', 'x'] → ∃ v, HumanSize.parse oa.2 = .ok v ∧ 0 ≤ v) ∧ (oa.1 = 'T' → ∃ n, Level oa.2 n)

theorem processOption_accepts (h : List Char → UInt32) (fuel : Nat) (o : Char) (arg : List Char) (conf : Conf) (hi : o ≠ 'i') :
    (∃ c, processOption h fuel o arg conf = .ok (some c)) ↔ Valid (o, arg) := by
  unfold Valid
  by_cases h1 : o ∈ ['a', 'c', 'd', 'n', 'f', 'o', 'r', 'R', 'v']
  · simp only [processOption, if_pos h1]
    simp at h1
    rcases h1 with rfl | rfl | rfl | rfl | rfl | rfl | rfl | rfl | rfl <;> simp
  · by_cases h2 : o ∈ ['e', 'i', 'p', 's', 'w']
    · simp at h2
      rcases h2 with rfl | rfl | rfl | rfl | rfl
      · simp [processOption, handleString]
      · exact absurd rfl hi
      · simp [processOption, handleString]
      · simp [processOption, handleString]
      · simp [processOption, handleString]
    · by_cases h3 : o ∈ ['j', 'm', 'M', 'x']
      · simp only [processOption, if_neg h1, if_neg h2, if_pos h3]
        simp at h3
        rcases h3 with rfl | rfl | rfl | rfl
        · simp only [handleNumeric, if_true]
          cases hp : parseThreads arg with
          | none =>
            have : ¬ ∃ n, ThreadsArg arg n := by
              rintro ⟨n, hn⟩; rw [(parseThreads_iff arg n).mpr hn] at hp; cases hp
            simp [this]
          | some n =>
            have : ∃ n, ThreadsArg arg n := ⟨n, (parseThreads_iff arg n).mp hp⟩
            simp [this]
        all_goals
          simp [handleNumeric]
          cases hp : HumanSize.parse arg with
          | ub => simp
          | div => simp
          | ok v => by_cases hv : v < 0
                    · simp [hv]
                    · simp [hv]; omega
      · by_cases h4 : o ∈ ['h', 'V', 'I', 'T', 'J', 't']
        · simp only [processOption, if_neg h1, if_neg h2, if_neg h3, if_pos h4]
          simp at h4
          rcases h4 with rfl | rfl | rfl | rfl | rfl | rfl
          · simp [handleSpecial]
          · simp [handleSpecial]
          · simp [handleSpecial, handleImage]
          · simp only [handleSpecial, handleImage, level_cases]
            simp
            split
            all_goals first | simp_all | (rename_i a1 a2 a3 a4 a5; refine fun n => ⟨?_, ?_, ?_, ?_, ?_⟩ <;> simp_all)
          · simp [handleSpecial]
          · simp [handleSpecial]
        · simp only [processOption, if_neg h1, if_neg h2, if_neg h3, if_neg h4]
          simp at h3 h4
          simp [h3, h4]

theorem optionLoop_accepts (h : List Char → UInt32) (fuel : Nat) : ∀ (ts : List Tok) (conf : Conf), 'i' ∉ chars ts →
    ((∃ c, optionLoop h fuel ts conf = .ok (some c)) ↔ ∀ oa ∈ given ts, Valid oa) := by
  intro ts
  induction ts with
  | nil => intro conf _; simp [optionLoop, given]
  | cons t ts ih =>
    intro conf hi
    cases t with
    | bad => simp [optionLoop, given]
    | opt o a =>
      have ho : o ≠ 'i' := by rintro rfl; exact hi (by simp [chars, given])
      have hts : 'i' ∉ chars ts := by intro hm; exact hi (by simp [chars, given] at hm ⊢; exact Or.inr hm)
      have hacc := processOption_accepts h fuel o a conf ho
      simp only [given, List.mem_cons, forall_eq_or_imp]
      constructor
      · rintro ⟨c, e⟩
        simp only [optionLoop, Res.bind_eq_ok] at e
        obtain ⟨s, e1, e2⟩ := e
        cases s with
        | none => simp at e2
        | some c1 => exact ⟨hacc.mp ⟨c1, e1⟩, (ih c1 hts).mp ⟨c, e2⟩⟩
      · rintro ⟨h1, h2⟩
        obtain ⟨c1, e1⟩ := hacc.mpr h1
        obtain ⟨c, e2⟩ := (ih c1 hts).mpr h2
        exact ⟨c, by simp only [optionLoop, e1, Res.ok_bind, e2]⟩

/-- The pending expressions a command line leaves, with the case sensitivity it asks for. -/
def Compiles (w : World) (ts : List Tok) : Prop :=
  let ic := decide ('c' ∈ chars ts ∨ 'I' ∈ chars ts)
  (∀ a, lastArg 'e' ts = some a → w.compiles a ic = true) ∧
  (∀ oa, lastOf ['w', 'I'] ts = some oa → w.compiles (if oa.1 = 'w' then oa.2 else imageExpr) ic = true) ∧
  ('t' ∈ chars ts → w.compiles archiveExpr ic = true)

theorem runs_archive {h : List Char → UInt32} {fuel : Nat} {os : List (Char × List Char)} {c0 c : Conf} (r : Runs h fuel os c0 c) :
    c.archiveRegex = if 't' ∈ os.map (·.1) then some archiveExpr else c0.archiveRegex := by
  induction r with
  | nil c => simp
  | @cons o a os c c1 c2 e _ ih =>
    have hs := (processOption_str e).2.2.2.2.1
    rw [ih, hs]
    by_cases h1 : 't' ∈ os.map (·.1)
    · simp [h1]
    · by_cases h2 : o = 't'
      · simp [h1, h2]
      · have : ¬ 't' = o := fun h => h2 h.symm
        simp [h1, h2, this]

/-- The fields a run of the option loop leaves; as `flags_exact` and `values_exact` but for the loop alone. -/
theorem loop_regexes {h : List Char → UInt32} {fuel cores : Nat} {ig : Hash.Table (List Char)} {ts : List Tok} {c : Conf}
    (e : optionLoop h fuel ts (create cores ig) = .ok (some c)) :
    c.ignoreRegex = lastArg 'e' ts ∧ c.whitelistRegex = (lastOf ['w', 'I'] ts).map (fun oa => if oa.1 = 'w' then oa.2 else imageExpr) ∧
    c.archiveRegex = (if 't' ∈ chars ts then some archiveExpr else none) ∧
    isOptionSet c.mask bICASE = decide ('c' ∈ chars ts ∨ 'I' ∈ chars ts) := by
  have e' : parseArgs h fuel ⟨1, true, fun _ _ => true⟩ ts (create cores ig) = .ok (some c) := by
    have : ∀ b o, regexBad ⟨1, true, fun _ _ => true⟩ b o = false := by intro b o; cases o <;> rfl
    simp [parseArgs, e, this]
  have hv := values_exact h fuel cores _ ig ts c e'
  have hf := flags_exact h fuel cores _ ig ts c e'
  have ha := runs_archive (optionLoop_runs e)
  refine ⟨hv.2.2.1, hv.2.2.2.1, ha, ?_⟩
  rw [Bool.eq_iff_iff, hf.2.2.2.2.2.2.2.2]; simp

theorem regexes_iff {h : List Char → UInt32} {fuel cores : Nat} (w : World) {ig : Hash.Table (List Char)} {ts : List Tok} (c : Conf)
    (e : optionLoop h fuel ts (create cores ig) = .ok (some c)) :
    (regexBad w (isOptionSet c.mask bICASE) c.ignoreRegex || regexBad w (isOptionSet c.mask bICASE) c.whitelistRegex
      || regexBad w (isOptionSet c.mask bICASE) c.archiveRegex) = false ↔ Compiles w ts := by
  obtain ⟨h1, h2, h3, h4⟩ := loop_regexes e
  rw [h1, h2, h3, h4]
  unfold Compiles
  simp only [Bool.or_eq_false_iff, and_assoc]
  refine and_congr ?_ (and_congr ?_ ?_)
  · cases lastArg 'e' ts <;> simp [regexBad]
  · cases lastOf ['w', 'I'] ts <;> simp [regexBad]
  · by_cases ht : 't' ∈ chars ts <;> simp [regexBad, ht]

/-- **C67.** A command line without `-i` is accepted exactly if every option before the first unknown one is valid, at least
one path is given, the user can be looked up and the expressions in effect compile. -/
theorem accepted_iff (h : List Char → UInt32) (fuel cores : Nat) (w : World) (ig : Hash.Table (List Char)) (ts : List Tok)
    (hi : 'i' ∉ chars ts) :
    (∃ c, parseArgs h fuel w ts (create cores ig) = .ok (some c)) ↔
      (∀ oa ∈ given ts, Valid oa) ∧ 1 ≤ w.nargs ∧ w.userOk = true ∧ Compiles w ts := by
  have hbad : ∀ c, optionLoop h fuel ts (create cores ig) = .ok (some c) → _ := fun c e => regexes_iff w c e
  constructor
  · rintro ⟨c, e⟩
    have el := parseArgs_loop e
    refine ⟨(optionLoop_accepts h fuel ts _ hi).mp ⟨c, el⟩, ?_⟩
    simp only [parseArgs, el, Res.ok_bind] at e
    by_cases hn : w.nargs < 1
    · simp [hn] at e
    · rw [if_neg hn] at e
      by_cases hu : w.userOk = true
      · rw [if_neg (by simp [hu])] at e
        refine ⟨by omega, hu, (hbad c el).mp ?_⟩
        cases hb : (regexBad w (isOptionSet c.mask bICASE) c.ignoreRegex || regexBad w (isOptionSet c.mask bICASE) c.whitelistRegex
          || regexBad w (isOptionSet c.mask bICASE) c.archiveRegex) with
        | false => rfl
        | true => rw [hb] at e; simp at e
      · simp [hu] at e
  · rintro ⟨h1, h2, h3, h4⟩
    obtain ⟨c, el⟩ := (optionLoop_accepts h fuel ts _ hi).mpr h1
    refine ⟨c, ?_⟩
    have := (hbad c el).mpr h4
    simp only [parseArgs, el, Res.ok_bind, this]
    rw [if_neg (by omega), if_neg (by simp [h3]), if_neg (by simp)]

/-- A command line: `-T 5 -p /a -p /b -w x -I -j 4 -m 10k`. -/
def exLine : List Tok :=
  [.opt 'T' ['5'], .opt 'p' ['/', 'a'], .opt 'p' ['/', 'b'], .opt 'w' ['x'], .opt 'I' [], .opt 'j' ['4'], .opt 'm' ['1', '0', 'k']]

example : 'i' ∉ chars exLine ∧ lastArg 'p' exLine = some ['/', 'b'] ∧ (lastOf ['w', 'I'] exLine).map (·.1) = some 'I' ∧
    Level ['5'] 5 := ⟨by decide, by decide, by decide, by decide, by decide, [], by decide⟩

end Verif.Config
