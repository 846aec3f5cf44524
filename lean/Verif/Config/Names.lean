import Verif.Config.Values
import Verif.Hash.Props
import Verif.Output.Spec

/-!
# All `-i` options of a command line together (C61, C67)
-/

namespace Verif.Config

open Verif.Output (cutAt)

/-- The names of one list: what stands between the commas; nothing is expected behind a comma at the end. -/
def listNames (s : List Char) : List (List Char) :=
  if (cutAt ',' s []).getLast? = some [] ∧ 1 < (cutAt ',' s []).length then (cutAt ',' s []).dropLast else cutAt ',' s []

/-- The names of all lists of a command line. -/
def namesOf (os : List (Char × List Char)) : List (List Char) := os.flatMap (fun oa => if oa.1 = 'i' then listNames oa.2 else [])

/-- The names that are not to be looked at: those given, and the two that every directory has. -/
def ignoredNames (ts : List Tok) : List (List Char) := namesOf (given ts) ++ [['.', '.'], ['.']]

example : listNames "a,b,".toList = ["a".toList, "b".toList] := by decide
example : listNames "a,,b".toList = ["a".toList, [], "b".toList] := by decide

theorem cutAt_ne_nil (sep : Char) : ∀ (s acc : List Char), cutAt sep s acc ≠ [] := by
  intro s
  induction s with
  | nil => intro acc; simp [cutAt]
  | cons c s ih =>
    intro acc
    rw [cutAt]
    split
    · simp
    · exact ih _

/-- The pieces without an empty last one behind a comma. -/
def trimmed (l : List (List Char)) : List (List Char) := if l.getLast? = some [] ∧ 1 < l.length then l.dropLast else l

theorem segments_cutAt : ∀ (s acc : List Char), segments acc s = trimmed (cutAt ',' s acc) := by
  intro s
  induction s with
  | nil => intro acc; simp [segments, cutAt, trimmed]
  | cons c s ih =>
    intro acc
    rw [segments.eq_def, cutAt]
    simp only
    by_cases hc : c = ','
    · rw [if_pos hc, if_pos hc]
      cases s with
      | nil => simp [cutAt, trimmed]
      | cons d s =>
        simp only
        rw [ih []]
        have hne := cutAt_ne_nil ',' (d :: s) []
        have hnt : (cutAt ',' (d :: s) []).getLast? = some [] → 1 < (cutAt ',' (d :: s) []).length := by
          intro hl
          cases hcut : cutAt ',' (d :: s) [] with
          | nil => exact absurd hcut hne
          | cons a r =>
            cases r with
            | cons b r => simp
            | nil =>
              exfalso
              rw [hcut] at hl
              simp at hl
              subst hl
              have key : ∀ (s acc : List Char), acc ≠ [] → cutAt ',' s acc ≠ [[]] := by
                intro s
                induction s with
                | nil => intro acc ha h; simp [cutAt] at h; exact ha h
                | cons c s ih =>
                  intro acc ha h
                  rw [cutAt] at h
                  split at h
                  · injection h with h1 h2; exact cutAt_ne_nil _ _ _ h2
                  · exact ih _ (by simp) h
              rw [cutAt] at hcut
              split at hcut
              · injection hcut with h1 h2; exact cutAt_ne_nil _ _ _ h2
              · exact key _ _ (by simp) hcut
        unfold trimmed
        have hg : (acc.reverse :: cutAt ',' (d :: s) []).getLast? = (cutAt ',' (d :: s) []).getLast? := by
          rw [List.getLast?_cons]
          cases hx : (cutAt ',' (d :: s) []).getLast? with
          | none => exact absurd (List.getLast?_eq_none_iff.mp hx) hne
          | some a => rfl
        rw [hg]
        by_cases hl : (cutAt ',' (d :: s) []).getLast? = some []
        · rw [if_pos ⟨hl, hnt hl⟩, if_pos ⟨hl, by have := hnt hl; simp; omega⟩, List.dropLast_cons_of_ne_nil hne]
        · rw [if_neg (by simp [hl]), if_neg (by simp [hl])]
    · rw [if_neg hc, if_neg hc]
      exact ih _

theorem segments_names (s : List Char) : segments [] s = listNames s := segments_cutAt s []

theorem foldSet_ends {h : List Char → UInt32} {fuel : Nat} (hf : 33 ≤ fuel) : ∀ (ns : List (List Char)) (t : Hash.Table (List Char)),
    Hash.Inv (strFns h) t → (∀ v, Hash.sameHash (strFns h) (ns ++ Hash.elems t) v < t.ffactor) →
    ∃ t', ns.foldlM (fun t n => Hash.set (strFns h) fuel t n (h n)) t = .ok t' ∧ Hash.Added (strFns h) t ns t' := by
  intro ns
  induction ns with
  | nil => intro t hi _; exact ⟨t, rfl, .nil hi⟩
  | cons n ns ih =>
    intro t hi hb
    obtain ⟨t1, e1, a1⟩ := Hash.set_terminates_from (strFns h) fuel t n hi (by
      intro v
      refine Nat.lt_of_le_of_lt ?_ (hb v)
      unfold Hash.sameHash
      simp only [List.cons_append, List.countP_cons, List.countP_append]
      omega) (by omega)
    obtain ⟨t2, e2, a2⟩ := ih t1 a1.inv (by
      intro v
      rw [a1.ff]
      refine Nat.lt_of_le_of_lt ?_ (hb v)
      unfold Hash.sameHash
      rw [List.countP_append, a1.perm.countP_eq]
      simp only [List.cons_append, List.nil_append, List.countP_cons, List.countP_append]
      omega)
    refine ⟨t2, ?_, a1.trans a2⟩
    rw [List.foldlM_cons]
    have e1' : Hash.set (strFns h) fuel t n (h n) = .ok t1 := e1
    rw [e1']
    exact e2

/-- Only `-i` changes the table of names. -/
theorem processOption_igFiles {h : List Char → UInt32} {fuel : Nat} {o : Char} {arg : List Char} {conf c : Conf}
    (e : processOption h fuel o arg conf = .ok (some c)) (ho : o ≠ 'i') : c.igFiles = conf.igFiles := by
  unfold processOption at e
  split at e
  · injection e with e; injection e with e; subst e
    unfold handleFlag
    split
    · rfl
    · split
      · split <;> rfl
      · rfl
  · split at e
    · rw [Res.bind_eq_ok] at e
      obtain ⟨c1, e1, e2⟩ := e
      injection e2 with e2; injection e2 with e2; subst e2
      unfold handleString at e1
      split at e1
      · injection e1 with e1; subst e1; rfl
      · split at e1
        · injection e1 with e1; subst e1; rfl
        · split at e1
          · injection e1 with e1; subst e1; rfl
          · split at e1 <;> (injection e1 with e1; subst e1; rfl)
    · split at e
      · unfold handleNumeric at e
        split at e
        · split at e
          · injection e with e; injection e with e; subst e; rfl
          · injection e with e; cases e
        · split at e
          · rw [Res.bind_eq_ok] at e
            obtain ⟨v, _, e2⟩ := e
            injection e2 with e2
            split at e2
            · cases e2
            · injection e2 with e2; subst e2; rfl
          · split at e
            · rw [Res.bind_eq_ok] at e
              obtain ⟨v, _, e2⟩ := e
              injection e2 with e2
              split at e2
              · cases e2
              · injection e2 with e2; subst e2; rfl
            · split at e
              · rw [Res.bind_eq_ok] at e
                obtain ⟨v, _, e2⟩ := e
                injection e2 with e2
                split at e2
                · cases e2
                · injection e2 with e2; subst e2; rfl
              · injection e with e; injection e with e; subst e; rfl
      · split at e
        · injection e with e
          unfold handleSpecial at e
          split at e
          · cases e
          · split at e
            · unfold handleImage at e
              split at e
              · injection e with e; subst e; rfl
              · split at e
                · split at e <;> first | (injection e with e; subst e; rfl) | cases e
                · injection e with e; subst e; rfl
            · split at e
              · injection e with e; subst e
                unfold handleJson
                simp only
                split <;> rfl
              · split at e
                · injection e with e; subst e; rfl
                · injection e with e; subst e; rfl
        · injection e with e; injection e with e; subst e; rfl

/-- One `-i`. -/
theorem processOption_i {h : List Char → UInt32} {fuel : Nat} (hf : 33 ≤ fuel) (arg : List Char) (conf : Conf)
    (hi : Hash.Inv (strFns h) conf.igFiles) (hb : ∀ v, Hash.sameHash (strFns h) (listNames arg ++ Hash.elems conf.igFiles) v < conf.igFiles.ffactor) :
    ∃ t, processOption h fuel 'i' arg conf = .ok (some { conf with igFiles := t }) ∧ Hash.Added (strFns h) conf.igFiles (listNames arg) t := by
  rw [← segments_names] at hb ⊢
  obtain ⟨t, e, ha⟩ := foldSet_ends hf _ _ hi hb
  refine ⟨t, ?_, ha⟩
  have e' : addIgnoreList h fuel conf.igFiles arg = .ok t := e
  simp [processOption, handleString, e']

/-- The option loop with `-i`, if the names collide little enough for the table. -/
theorem optionLoop_names {h : List Char → UInt32} {fuel : Nat} (hf : 33 ≤ fuel) : ∀ (ts : List Tok) (conf : Conf),
    Hash.Inv (strFns h) conf.igFiles → (∀ v, Hash.sameHash (strFns h) (namesOf (given ts) ++ Hash.elems conf.igFiles) v < conf.igFiles.ffactor) →
    ((∃ c, optionLoop h fuel ts conf = .ok (some c)) ↔ ∀ oa ∈ given ts, Valid oa) ∧
    ∀ c, optionLoop h fuel ts conf = .ok (some c) → (∀ n, n ∈ Hash.elems c.igFiles ↔ n ∈ namesOf (given ts) ∨ n ∈ Hash.elems conf.igFiles) := by
  intro ts
  induction ts with
  | nil => intro conf _ _; simp [optionLoop, given, namesOf]
  | cons t ts ih =>
    intro conf hi hb
    cases t with
    | bad => simp [optionLoop, given, namesOf]
    | opt o a =>
      simp only [given, List.mem_cons, forall_eq_or_imp]
      by_cases ho : o = 'i'
      · subst ho
        have en : namesOf (('i', a) :: given ts) = listNames a ++ namesOf (given ts) := by simp [namesOf]
        simp only [given] at hb
        rw [en] at hb ⊢
        obtain ⟨t, e1, ha⟩ := processOption_i hf a conf hi (by
          intro v
          refine Nat.lt_of_le_of_lt ?_ (hb v)
          unfold Hash.sameHash
          simp only [List.countP_append]; omega)
        obtain ⟨i1, i2⟩ := ih { conf with igFiles := t } ha.inv (by
          intro v
          show _ < t.ffactor
          rw [ha.ff]
          refine Nat.lt_of_le_of_lt ?_ (hb v)
          unfold Hash.sameHash
          rw [List.countP_append, ha.perm.countP_eq]
          simp only [List.countP_append]; omega)
        have hv : Valid ('i', a) := by simp [Valid]
        have eo : optionLoop h fuel (.opt 'i' a :: ts) conf = optionLoop h fuel ts { conf with igFiles := t } := by
          rw [optionLoop, e1]; rfl
        rw [eo]
        refine ⟨by rw [i1]; simp [hv], ?_⟩
        intro c e n
        rw [i2 c e n]
        show n ∈ _ ∨ n ∈ Hash.elems t ↔ _
        rw [ha.perm.mem_iff]
        simp only [List.mem_append]
        grind
      · have en : namesOf ((o, a) :: given ts) = namesOf (given ts) := by simp [namesOf, ho]
        simp only [given] at hb
        rw [en] at hb ⊢
        have hacc := processOption_accepts h fuel o a conf ho
        have step : ∀ c1, processOption h fuel o a conf = .ok (some c1) →
            ((∃ c, optionLoop h fuel ts c1 = .ok (some c)) ↔ ∀ oa ∈ given ts, Valid oa) ∧
            ∀ c, optionLoop h fuel ts c1 = .ok (some c) → (∀ n, n ∈ Hash.elems c.igFiles ↔ n ∈ namesOf (given ts) ∨ n ∈ Hash.elems conf.igFiles) := by
          intro c1 e1
          have hk := processOption_igFiles e1 ho
          have := ih c1 (by rw [hk]; exact hi) (by rw [hk]; exact hb)
          rw [hk] at this
          exact this
        constructor
        · constructor
          · rintro ⟨c, e⟩
            simp only [optionLoop, Res.bind_eq_ok] at e
            obtain ⟨s, e1, e2⟩ := e
            cases s with
            | none => simp at e2
            | some c1 => exact ⟨hacc.mp ⟨c1, e1⟩, (step c1 e1).1.mp ⟨c, e2⟩⟩
          · rintro ⟨h1, h2⟩
            obtain ⟨c1, e1⟩ := hacc.mpr h1
            obtain ⟨c, e2⟩ := (step c1 e1).1.mpr h2
            exact ⟨c, by simp only [optionLoop, e1, Res.ok_bind, e2]⟩
        · intro c e
          simp only [optionLoop, Res.bind_eq_ok] at e
          obtain ⟨s, e1, e2⟩ := e
          cases s with
          | none => simp at e2
          | some c1 => exact (step c1 e1).2 c e2

/-- The names of a command line are stored if fewer than eight of them, counted as often as they are given, have the same hash. -/
def NamesFit (h : List Char → UInt32) (ts : List Tok) : Prop := ∀ v, (ignoredNames ts).countP (fun n => h n = v) < 8

/-- Up to five names always fit. -/
theorem fit_of_few (h : List Char → UInt32) (ts : List Tok) (hl : (namesOf (given ts)).length ≤ 5) : NamesFit h ts := by
  intro v
  have := List.countP_le_length (p := fun n => decide (h n = v)) (l := ignoredNames ts)
  have hlen : (ignoredNames ts).length = (namesOf (given ts)).length + 2 := by simp [ignoredNames]
  omega

theorem createIgnored_ok {h : List Char → UInt32} {fuel : Nat} (hf : 33 ≤ fuel) :
    ∃ ig, createIgnored h fuel = .ok ig ∧ Hash.Inv (strFns h) ig ∧ ig.ffactor = 8 ∧ (Hash.elems ig).Perm [['.', '.'], ['.']] := by
  obtain ⟨t1, e1, a1⟩ := Hash.set_terminates_from (strFns h) fuel (Hash.makeEx (List Char) 32 8) ['.'] (Hash.makeEx_inv _ _ (by decide)) (by
    intro v
    rw [Hash.elems_makeEx]
    unfold Hash.sameHash
    refine Nat.lt_of_le_of_lt List.countP_le_length ?_
    show (1 : Nat) < 8
    decide) (by omega)
  have p1 : (Hash.elems t1).Perm [['.']] := by have := a1.perm; rw [Hash.elems_makeEx] at this; exact this
  obtain ⟨t2, e2, a2⟩ := Hash.set_terminates_from (strFns h) fuel t1 ['.', '.'] a1.inv (by
    intro v
    unfold Hash.sameHash
    refine Nat.lt_of_le_of_lt List.countP_le_length ?_
    rw [List.length_cons, p1.length_eq, a1.ff]
    show (2 : Nat) < 8
    decide) (by omega)
  refine ⟨t2, ?_, a2.inv, by rw [a2.ff, a1.ff]; rfl, a2.perm.trans (p1.cons _)⟩
  unfold createIgnored
  have e1' : Hash.set (strFns h) fuel (Hash.makeEx (List Char) 32 8) ['.'] (h ['.']) = .ok t1 := e1
  have e2' : Hash.set (strFns h) fuel t1 ['.', '.'] (h ['.', '.']) = .ok t2 := e2
  rw [e1', Res.ok_bind, e2']

/-- **C67.**  A command line, with any number of `-i`, is accepted exactly if every option before the first unknown one is valid, at least one path is given, the user
can be looked up and the expressions in effect compile — and then **C61** exactly the names given are ignored, and the two every directory has.
Of the names only that the table has room for them. -/
theorem accepted_with_names_partial {h : List Char → UInt32} {fuel : Nat} (hf : 33 ≤ fuel) (cores : Nat) (w : World) (ts : List Tok) (hfit : NamesFit h ts) :
    ∃ ig, createIgnored h fuel = .ok ig ∧
      ((∃ c, parseArgs h fuel w ts (create cores ig) = .ok (some c)) ↔ (∀ oa ∈ given ts, Valid oa) ∧ 1 ≤ w.nargs ∧ w.userOk = true ∧ Compiles w ts) ∧
      ∀ c, parseArgs h fuel w ts (create cores ig) = .ok (some c) → ∀ n, n ∈ Hash.elems c.igFiles ↔ n ∈ ignoredNames ts := by
  obtain ⟨ig, e, hi, hff, hp⟩ := createIgnored_ok (h := h) hf
  refine ⟨ig, e, ?_⟩
  obtain ⟨l1, l2⟩ := optionLoop_names hf ts (create cores ig) hi (by
    intro v
    show Hash.sameHash (strFns h) (namesOf (given ts) ++ Hash.elems ig) v < ig.ffactor
    rw [hff]
    refine Nat.lt_of_le_of_lt ?_ (hfit v)
    unfold Hash.sameHash ignoredNames
    rw [List.countP_append, List.countP_append, hp.countP_eq]
    exact Nat.le_refl _)
  refine ⟨⟨?_, ?_⟩, ?_⟩
  · rintro ⟨c, e⟩
    have el := parseArgs_loop e
    refine ⟨l1.mp ⟨c, el⟩, ?_⟩
    simp only [parseArgs, el, Res.ok_bind] at e
    by_cases hn : w.nargs < 1
    · simp [hn] at e
    · rw [if_neg hn] at e
      by_cases hu : w.userOk = true
      · rw [if_neg (by simp [hu])] at e
        refine ⟨by omega, hu, (regexes_iff w c el).mp ?_⟩
        cases hb : (regexBad w (isOptionSet c.mask bICASE) c.ignoreRegex || regexBad w (isOptionSet c.mask bICASE) c.whitelistRegex
          || regexBad w (isOptionSet c.mask bICASE) c.archiveRegex) with
        | false => rfl
        | true => rw [hb] at e; simp at e
      · simp [hu] at e
  · rintro ⟨h1, h2, h3, h4⟩
    obtain ⟨c, el⟩ := l1.mpr h1
    refine ⟨c, ?_⟩
    have := (regexes_iff w c el).mpr h4
    simp only [parseArgs, el, Res.ok_bind, this]
    rw [if_neg (by omega), if_neg (by simp [h3]), if_neg (by simp)]
  · intro c e n
    rw [l2 c (parseArgs_loop e) n]
    show n ∈ _ ∨ n ∈ Hash.elems ig ↔ _
    rw [hp.mem_iff, ignoredNames, List.mem_append]

/-- `-i a,b -i c, -m 1k`. -/
def namesLine : List Tok := [.opt 'i' "a,b".toList, .opt 'i' "c,".toList, .opt 'm' "1k".toList]

example (h : List Char → UInt32) : NamesFit h namesLine ∧ ignoredNames namesLine = ["a".toList, "b".toList, "c".toList, "..".toList, ".".toList] :=
  ⟨fit_of_few h _ (by decide), by decide⟩

end Verif.Config
