import Verif.Config.Model
import Verif.Hash.Props
import Verif.HumanSize.Props

/-! Helper lemmas for `Verif.Config.Props`. -/

namespace Verif.Config

theorem isOptionSet_eq (m : BitVec 16) (b : Nat) (hb : b < 16) : isOptionSet m b = m.getLsbD b := by
  unfold isOptionSet optVal
  rw [Bool.eq_iff_iff, beq_iff_eq]
  constructor
  · intro h
    have := congrArg (fun v => v.getLsbD b) h
    simp [hb] at this; exact this
  · intro h
    apply BitVec.eq_of_getLsbD_eq
    intro i hi
    simp only [BitVec.getLsbD_and, BitVec.getLsbD_twoPow]
    by_cases hib : b = i
    · subst hib; simp [h, hb]
    · simp [hib]

theorem isOptionSet_set (m : BitVec 16) (b b' : Nat) (on : Bool) (hb : b < 16) (hb' : b' < 16) :
    isOptionSet (setOption m b on) b' = if b = b' then on else isOptionSet m b' := by
  rw [isOptionSet_eq _ _ hb', isOptionSet_eq _ _ hb']
  unfold setOption optVal
  by_cases h : b = b'
  · subst h
    cases on <;> simp [hb]
  · have h' : ¬ b' = b := fun e => h e.symm
    cases on <;> simp [h, h', hb']

/-- Effect of one option on one bit of the mask. -/
def bitStep (o : Char) (b : Nat) (m : BitVec 16) : Bool :=
  if o = 'a' ∧ b = bSHOW_HIDDEN then true
  else if o = 'c' ∧ b = bICASE then true
  else if o = 'd' ∧ b = bSIZED then true
  else if o = 'n' ∧ b = bDRY_RUN then true
  else if o = 'f' ∧ b = bFSYML then true
  else if o = 'o' ∧ b = bOPMEM then true
  else if o = 'r' ∧ b = bRECSD then true
  else if o = 'R' ∧ b = bRECSD then false
  else if o = 'v' ∧ b = bVERBO then isOptionSet m bVERBO || !isOptionSet m bJSON
  else if o = 'I' ∧ b = bICASE then true
  else if o = 'I' ∧ b = bPUZZL then true
  else if o = 't' ∧ b = bUNTAR then true
  else if o = 'J' ∧ b = bJSON then true
  else if o = 'J' ∧ b = bVERBO then false
  else isOptionSet m b

/-- Option bits in use. -/
def bits : List Nat := [0, 1, 2, 3, 4, 6, 7, 8, 9, 10, 11]

theorem handleFlag_mask (o : Char) (conf : Conf) (ho : o ∈ ['a', 'c', 'd', 'n', 'f', 'o', 'r', 'R', 'v']) (b : Nat)
    (hb : b ∈ bits) : isOptionSet (handleFlag o conf).mask b = bitStep o b conf.mask := by
  have hlt : b < 16 := by revert b; decide
  simp only [List.mem_cons, List.not_mem_nil, or_false] at ho
  rcases ho with rfl | rfl | rfl | rfl | rfl | rfl | rfl | rfl | rfl
  · simp [handleFlag, flagMappings, bitStep]; rw [isOptionSet_set _ _ _ _ (by decide) hlt]; simp [eq_comm]
  · simp [handleFlag, flagMappings, bitStep]; rw [isOptionSet_set _ _ _ _ (by decide) hlt]; simp [eq_comm]
  · simp [handleFlag, flagMappings, bitStep]; rw [isOptionSet_set _ _ _ _ (by decide) hlt]; simp [eq_comm]
  · simp [handleFlag, flagMappings, bitStep]; rw [isOptionSet_set _ _ _ _ (by decide) hlt]; simp [eq_comm]
  · simp [handleFlag, flagMappings, bitStep]; rw [isOptionSet_set _ _ _ _ (by decide) hlt]; simp [eq_comm]
  · simp [handleFlag, flagMappings, bitStep]; rw [isOptionSet_set _ _ _ _ (by decide) hlt]; simp [eq_comm]
  · simp [handleFlag, flagMappings, bitStep]; rw [isOptionSet_set _ _ _ _ (by decide) hlt]; simp [eq_comm]
  · simp [handleFlag, flagMappings, bitStep]; rw [isOptionSet_set _ _ _ _ (by decide) hlt]; simp [eq_comm]
  · simp [handleFlag, flagMappings, bitStep]
    by_cases hj : isOptionSet conf.mask bJSON = true
    · simp only [hj, if_true]
      by_cases hv : b = bVERBO <;> simp [hv]
    · simp only [hj, if_false]
      simp only [Bool.false_eq_true, if_false]
      rw [isOptionSet_set _ _ _ _ (by decide) hlt]; simp at hj; simp [eq_comm, hj]

theorem handleJson_mask (conf : Conf) (b : Nat) (hb : b ∈ bits) :
    isOptionSet (handleJson conf).mask b = bitStep 'J' b conf.mask := by
  have hlt : b < 16 := by revert b; decide
  unfold handleJson
  simp only
  have hstep : bitStep 'J' b conf.mask = if bJSON = b then true else if bVERBO = b then false else isOptionSet conf.mask b := by
    simp [bitStep, eq_comm]
  rw [hstep]
  split
  · simp only
    rw [isOptionSet_set _ _ _ _ (by decide) hlt, isOptionSet_set _ _ _ _ (by decide) hlt]
    by_cases h1 : bJSON = b
    · subst h1; simp [bJSON, bVERBO]
    · simp [h1]
  · rename_i hv
    simp only
    rw [isOptionSet_set _ _ _ _ (by decide) hlt]
    rw [isOptionSet_set _ _ _ _ (by decide) (by decide)] at hv
    by_cases h1 : bJSON = b
    · simp [h1]
    · by_cases h2 : bVERBO = b
      · subst h2; simp [bJSON, bVERBO] at hv ⊢; exact hv
      · simp [h1, h2]

theorem processOption_mask {h : List Char → UInt32} {fuel : Nat} {o : Char} {arg : List Char} {conf c : Conf}
    (e : processOption h fuel o arg conf = .ok (some c)) (b : Nat) (hb : b ∈ bits) :
    isOptionSet c.mask b = bitStep o b conf.mask := by
  have hlt : b < 16 := by revert b; decide
  unfold processOption at e
  split at e
  · rename_i ho
    injection e with e; injection e with e; subst e
    exact handleFlag_mask o conf ho b hb
  · rename_i ho
    have nof : ∀ x ∈ ['a', 'c', 'd', 'n', 'f', 'o', 'r', 'R', 'v'], o ≠ x := by
      intro x hx h; subst h; exact ho hx
    simp at nof
    split at e
    · rename_i hs
      rw [Res.bind_eq_ok] at e
      obtain ⟨c1, e1, e2⟩ := e
      injection e2 with e2; injection e2 with e2; subst e2
      have hm : c1.mask = conf.mask := by
        unfold handleString at e1
        split at e1
        · injection e1 with e1; subst e1; rfl
        · split at e1
          · rw [Res.bind_eq_ok] at e1
            obtain ⟨t, _, e1⟩ := e1
            injection e1 with e1; subst e1; rfl
          · split at e1
            · injection e1 with e1; subst e1; rfl
            · split at e1
              · injection e1 with e1; subst e1; rfl
              · split at e1 <;> (injection e1 with e1; subst e1; rfl)
      rw [hm]
      simp at hs
      rcases hs with rfl | rfl | rfl | rfl | rfl <;> simp [bitStep]
    · split at e
      · rename_i hs
        have hm : c.mask = conf.mask := by
          unfold handleNumeric at e
          split at e
          · split at e
            · injection e with e; injection e with e; subst e; rfl
            · injection e with e; cases e
          · split at e
            · rw [Res.bind_eq_ok] at e
              obtain ⟨v, _, e⟩ := e
              injection e with e
              split at e
              · cases e
              · injection e with e; subst e; rfl
            · split at e
              · rw [Res.bind_eq_ok] at e
                obtain ⟨v, _, e⟩ := e
                injection e with e
                split at e
                · cases e
                · injection e with e; subst e; rfl
              · split at e
                · rw [Res.bind_eq_ok] at e
                  obtain ⟨v, _, e⟩ := e
                  injection e with e
                  split at e
                  · cases e
                  · injection e with e; subst e; rfl
                · injection e with e; injection e with e; subst e; rfl
        rw [hm]
        simp at hs
        rcases hs with rfl | rfl | rfl | rfl <;> simp [bitStep]
      · split at e
        · rename_i hs
          injection e with e
          simp at hs
          rcases hs with rfl | rfl | rfl | rfl | rfl | rfl
          · simp [handleSpecial] at e
          · simp [handleSpecial] at e
          · simp [handleSpecial, handleImage] at e
            subst e
            simp only
            rw [isOptionSet_set _ _ _ _ (by decide) hlt, isOptionSet_set _ _ _ _ (by decide) hlt]
            by_cases h1 : bPUZZL = b
            · subst h1; simp [bitStep, bPUZZL, bICASE]
            · by_cases h2 : bICASE = b
              · subst h2; simp [bitStep, bPUZZL, bICASE]
              · simp [bitStep, h1, h2, Ne.symm h1, Ne.symm h2]
          · have hm : c.mask = conf.mask := by
              simp [handleSpecial, handleImage] at e
              split at e <;> first | (injection e with e; subst e; rfl) | cases e
            rw [hm]; simp [bitStep]
          · simp [handleSpecial] at e
            subst e
            exact handleJson_mask conf b hb
          · simp [handleSpecial, handleArchive] at e
            subst e
            simp only
            rw [isOptionSet_set _ _ _ _ (by decide) hlt]; simp [bitStep, eq_comm]
        · rename_i hs
          injection e with e; injection e with e; subst e
          have nos : ∀ x ∈ ['h', 'V', 'I', 'T', 'J', 't'], o ≠ x := by
            intro x hx h; subst h; exact hs hx
          simp at nos
          simp [bitStep, nof, nos]

/-- The options taken into account: those before the first scanner error. -/
def given : List Tok → List (Char × List Char)
  | [] => []
  | .bad :: _ => []
  | .opt o a :: ts => (o, a) :: given ts

/-- A run of the option loop is a run through the given options. -/
inductive Runs (h : List Char → UInt32) (fuel : Nat) : List (Char × List Char) → Conf → Conf → Prop
  | nil (c) : Runs h fuel [] c c
  | cons {o a os c c1 c2} : processOption h fuel o a c = .ok (some c1) → Runs h fuel os c1 c2 → Runs h fuel ((o, a) :: os) c c2

theorem optionLoop_runs {h : List Char → UInt32} {fuel : Nat} : ∀ {ts : List Tok} {conf c : Conf},
    optionLoop h fuel ts conf = .ok (some c) → Runs h fuel (given ts) conf c := by
  intro ts
  induction ts with
  | nil => intro conf c e; simp [optionLoop] at e; subst e; exact .nil _
  | cons t ts ih =>
    intro conf c e
    cases t with
    | bad => simp [optionLoop] at e; subst e; exact .nil _
    | opt o a =>
      simp only [optionLoop, Res.bind_eq_ok] at e
      obtain ⟨s, e1, e2⟩ := e
      cases s with
      | none => simp at e2
      | some c1 => exact .cons e1 (ih e2)

theorem parseArgs_loop {h : List Char → UInt32} {fuel : Nat} {w : World} {ts : List Tok} {conf c : Conf}
    (e : parseArgs h fuel w ts conf = .ok (some c)) : optionLoop h fuel ts conf = .ok (some c) := by
  unfold parseArgs at e
  rw [Res.bind_eq_ok] at e
  obtain ⟨s, e1, e2⟩ := e
  cases s with
  | none => simp at e2
  | some c1 =>
    simp only at e2
    split at e2
    · simp at e2
    · split at e2
      · simp at e2
      · split at e2
        · simp at e2
        · injection e2 with e2; injection e2 with e2; subst e2; exact e1

end Verif.Config
