import Verif.Main.Whole
import Verif.Traverse.Defined

/-! # The exit status (C93) -/

namespace Verif.Main

open Verif.Ignore (Ctx)
open Verif.Report (FileEnt World Exact)
open Verif.Traverse (Path Opts FS scanArgs Selected Visits Healthy Clear EntryOk join)
open Verif.Config (Tok Conf given chars lastArg lastOf ignoredNames Valid isOptionSet NamesFit Compiles processOption optionLoop namesOf strFns)
open Verif.Image (Out)

/-- The sizes given are numbers the program can convert (C23). -/
def SizesOk (os : List (Char × List Char)) : Prop := ∀ oa ∈ os, oa.1 ∈ ['m', 'M', 'x'] → ∃ v, HumanSize.parse oa.2 = .ok v

theorem processOption_total (h : List Char → UInt32) (fuel : Nat) (o : Char) (arg : List Char) (conf : Conf) (hi : o ≠ 'i')
    (hs : o ∈ ['m', 'M', 'x'] → ∃ v, HumanSize.parse arg = .ok v) : ∃ s, processOption h fuel o arg conf = .ok s := by
  unfold processOption
  split
  · exact ⟨_, rfl⟩
  · split
    · rename_i h2
      simp at h2
      rcases h2 with rfl | rfl | rfl | rfl | rfl
      · exact ⟨_, rfl⟩
      · exact absurd rfl hi
      · exact ⟨_, rfl⟩
      · exact ⟨_, rfl⟩
      · exact ⟨_, rfl⟩
    · split
      · rename_i h3
        simp at h3
        rcases h3 with rfl | rfl | rfl | rfl
        · simp only [Config.handleNumeric, if_true]
          split <;> exact ⟨_, rfl⟩
        all_goals
          obtain ⟨v, hv⟩ := hs (by simp)
          simp [Config.handleNumeric, hv]
      · split <;> exact ⟨_, rfl⟩

/-- How the loop over the options ends: with all of them valid, or at the first that is not. -/
theorem loop_cases {h : List Char → UInt32} {fuel : Nat} (hf : 33 ≤ fuel) : ∀ (ts : List Tok) (conf : Conf),
    Hash.Inv (strFns h) conf.igFiles → (∀ v, Hash.sameHash (strFns h) (namesOf (given ts) ++ Hash.elems conf.igFiles) v < conf.igFiles.ffactor) →
    SizesOk (given ts) →
    ((∀ oa ∈ given ts, Valid oa) ∧ loopStop h fuel ts conf = .ok none ∧ ∃ c, optionLoop h fuel ts conf = .ok (some c)) ∨
    (∃ pre o a post, given ts = pre ++ (o, a) :: post ∧ (∀ oa ∈ pre, Valid oa) ∧ ¬ Valid (o, a) ∧ loopStop h fuel ts conf = .ok (some o) ∧
      optionLoop h fuel ts conf = .ok none) := by
  intro ts
  induction ts with
  | nil => intro conf _ _ _; left; exact ⟨by simp [given], rfl, conf, rfl⟩
  | cons t ts ih =>
    intro conf hi hb hs
    cases t with
    | bad => left; exact ⟨by simp [given], rfl, conf, rfl⟩
    | opt o a =>
      simp only [given] at hs hb ⊢
      have hs' : SizesOk (given ts) := fun oa hoa => hs oa (List.mem_cons_of_mem _ hoa)
      -- one step accepted
      have cont : ∀ c1, processOption h fuel o a conf = .ok (some c1) → Valid (o, a) → Hash.Inv (strFns h) c1.igFiles →
          (∀ v, Hash.sameHash (strFns h) (namesOf (given ts) ++ Hash.elems c1.igFiles) v < c1.igFiles.ffactor) →
          ((∀ oa ∈ (o, a) :: given ts, Valid oa) ∧ loopStop h fuel (.opt o a :: ts) conf = .ok none ∧ ∃ c, optionLoop h fuel (.opt o a :: ts) conf = .ok (some c)) ∨
          (∃ pre o' a' post, (o, a) :: given ts = pre ++ (o', a') :: post ∧ (∀ oa ∈ pre, Valid oa) ∧ ¬ Valid (o', a') ∧
            loopStop h fuel (.opt o a :: ts) conf = .ok (some o') ∧ optionLoop h fuel (.opt o a :: ts) conf = .ok none) := by
        intro c1 e1 hv hi1 hb1
        have el : loopStop h fuel (.opt o a :: ts) conf = loopStop h fuel ts c1 := by rw [loopStop, e1]; rfl
        have eo : optionLoop h fuel (.opt o a :: ts) conf = optionLoop h fuel ts c1 := by rw [optionLoop, e1]; rfl
        rw [el, eo]
        rcases ih c1 hi1 hb1 hs' with ⟨h1, h2, h3⟩ | ⟨pre, o', a', post, h1, h2, h3, h4, h5⟩
        · left
          refine ⟨?_, h2, h3⟩
          intro oa hoa
          rcases List.mem_cons.mp hoa with rfl | hoa
          · exact hv
          · exact h1 oa hoa
        · right
          refine ⟨(o, a) :: pre, o', a', post, by rw [h1]; rfl, ?_, h3, h4, h5⟩
          intro oa hoa
          rcases List.mem_cons.mp hoa with rfl | hoa
          · exact hv
          · exact h2 oa hoa
      by_cases ho : o = 'i'
      · subst ho
        have en : namesOf (('i', a) :: given ts) = Config.listNames a ++ namesOf (given ts) := by simp [namesOf]
        rw [en] at hb
        obtain ⟨t, e1, ha⟩ := Config.processOption_i hf a conf hi (by
          intro v
          refine Nat.lt_of_le_of_lt ?_ (hb v)
          unfold Hash.sameHash
          simp only [List.countP_append]; omega)
        refine cont _ e1 (by simp [Valid]) ha.inv ?_
        intro v
        show _ < t.ffactor
        rw [ha.ff]
        refine Nat.lt_of_le_of_lt ?_ (hb v)
        unfold Hash.sameHash
        rw [List.countP_append, ha.perm.countP_eq]
        simp only [List.countP_append]; omega
      · have en : namesOf ((o, a) :: given ts) = namesOf (given ts) := by simp [namesOf, ho]
        rw [en] at hb
        obtain ⟨s, e1⟩ := processOption_total h fuel o a conf ho (hs (o, a) (List.mem_cons_self ..))
        have hacc := Config.processOption_accepts h fuel o a conf ho
        cases s with
        | some c1 =>
          have hk := Config.processOption_igFiles e1 ho
          exact cont c1 e1 (hacc.mp ⟨c1, e1⟩) (by rw [hk]; exact hi) (by rw [hk]; exact hb)
        | none =>
          right
          refine ⟨[], o, a, given ts, rfl, by simp, ?_, ?_, ?_⟩
          · intro hv
            obtain ⟨c, e⟩ := hacc.mpr hv
            rw [e1] at e; cases e
          · rw [loopStop, e1]; rfl
          · rw [optionLoop, e1]; rfl

/-- Of two ways to split a list at the first element that fails a test, both are the same. -/
theorem split_first {α : Type} {P : α → Prop} : ∀ {p1 p2 : List α} {x1 x2 : α} {q1 q2 : List α}, p1 ++ x1 :: q1 = p2 ++ x2 :: q2 → (∀ x ∈ p1, P x) → ¬ P x1 →
    (∀ x ∈ p2, P x) → ¬ P x2 → x1 = x2 := by
  intro p1
  induction p1 with
  | nil =>
    intro p2 x1 x2 q1 q2 e _ h1 h2 _
    cases p2 with
    | nil => injection e
    | cons y p2 => injection e with e _; subst e; exact absurd (h2 _ (List.mem_cons_self ..)) h1
  | cons y p1 ih =>
    intro p2 x1 x2 q1 q2 e h0 h1 h2 h3
    cases p2 with
    | nil => injection e with e _; subst e; exact absurd (h0 _ (List.mem_cons_self ..)) h3
    | cons z p2 =>
      injection e with _ e
      exact ih e (fun x hx => h0 x (List.mem_cons_of_mem _ hx)) h1 (fun x hx => h2 x (List.mem_cons_of_mem _ hx)) h3

/-- If the options are not all valid, help is asked for exactly if the first that is not valid is one of the two. -/
theorem help_first {ts : List Tok} {pre post : List (Char × List Char)} {o : Char} {a : List Char} (h : given ts = pre ++ (o, a) :: post)
    (hpre : ∀ oa ∈ pre, Valid oa) (hv : ¬ Valid (o, a)) : Help ts ↔ o = 'h' ∨ o = 'V' := by
  constructor
  · rintro ⟨pre', o', a', post', h', ho', hp'⟩
    have hv' : ¬ Valid (o', a') := by rintro ⟨h1, h2, _⟩; rcases ho' with rfl | rfl <;> contradiction
    have := split_first (h.symm.trans h') hpre hv hp' hv'
    injection this with this _
    rw [this]; exact ho'
  · intro ho
    exact ⟨pre, o, a, post, h, ho, hpre⟩

theorem help_invalid {ts : List Tok} (h : Help ts) : ¬ ∀ oa ∈ given ts, Valid oa := by
  obtain ⟨pre, o, a, post, h, ho, -⟩ := h
  intro hall
  obtain ⟨h1, h2, _⟩ := hall (o, a) (by rw [h]; simp)
  rcases ho with rfl | rfl <;> contradiction

/-- What a run needs to come to a defined end: a bound on the depth of the trees, existing targets of links that are followed, and short lines in ignore files. -/
structure Walkable (m : Machine) (globals : List Ctx) (ts : List Tok) (args : List Path) (depth : Path → Nat) : Prop where
  down : ∀ p es e, m.fs.readdir p = some es → e ∈ es → EntryOk (asked m globals ts) p e → depth (join p e.1) < depth p
  top : ∀ a ∈ args, ∀ p, place m ts a = some p → depth p < m.depth
  clear : ∀ a ∈ args, ∀ p, place m ts a = some p → ∀ q rules, Visits (asked m globals ts) m.fs p globals q rules → Clear (asked m globals ts) m.fs q

/-- The scan goes well and finds something. -/
def Finds (m : Machine) (globals : List Ctx) (ts : List Tok) (args : List Path) : Prop :=
  (∀ a ∈ args, ∃ p, place m ts a = some p ∧ ∀ q rules, Visits (asked m globals ts) m.fs p globals q rules → Healthy (asked m globals ts) m.fs q rules) ∧
  ∃ a ∈ args, ∃ p f, place m ts a = some p ∧ Selected (asked m globals ts) m.fs p globals f

/-- **C93, part.**  The exit status: 0 if help or the version is asked for before anything wrong; 1 if an option is wrong or no path is given; 0 if the command line is
accepted, everything asked for can be visited and something is found; and -1 (255) otherwise.  A report is made exactly in the third case.
Missing: unknown options (see `unknown_option_ignored`); images, archives; files that change; what `Calm` asks of leftover digests; what is said to be missing in C06, C90, C91. -/
theorem exit_status_partial (m : Machine) (pz : Image.Puzzle ν δ) (level : Nat → δ) (evs : List (Pool.Ev Nat)) (ts : List Tok) (args : List Path)
    (hu : Usable m ts) (hs : SizesOk (given ts)) (hI : 'I' ∉ chars ts) (ht : 't' ∉ chars ts) {globals : List Ctx} (hgl : Traverse.globalChain m.engine = .ok globals)
    (depth : Path → Nat) (hw : Walkable m globals ts args depth)
    (hq : ∀ cands, scanArgs (asked m globals ts) m.fs m.depth (place m ts) args = .ok (true, cands) → Calm m cands) :
    ∃ (s : Int) (out : Out), ftwinMain m pz level evs ts args = .ok (s, out) ∧
      (s = 0 ∧ Help ts ∧ out = .failed ∨
       s = 1 ∧ (¬ Help ts ∧ ¬ (∀ oa ∈ given ts, Valid oa) ∨ (∀ oa ∈ given ts, Valid oa) ∧ args = []) ∧ out = .failed ∨
       s = 0 ∧ Accepted m ts args ∧ Finds m globals ts args ∧ (if 'J' ∈ chars ts then ∃ d, out = .json d else ∃ t, out = .text t) ∨
       s = -1 ∧ (∀ oa ∈ given ts, Valid oa) ∧ args ≠ [] ∧ ¬ (Accepted m ts args ∧ Finds m globals ts args) ∧ out = .failed) := by
  obtain ⟨ig, hig, hacc, -⟩ := Config.accepted_with_names_partial (h := Xxh.strHash) hu.fuel m.cores (m.lookups args) ts hu.names
  obtain ⟨ig', hig', hi, hff, hp⟩ := Config.createIgnored_ok (h := Xxh.strHash) hu.fuel
  rw [hig] at hig'; injection hig' with hig'; subst hig'
  have hloop := loop_cases (h := Xxh.strHash) hu.fuel ts (Config.create m.cores ig) hi (by
    intro v
    show Hash.sameHash (strFns Xxh.strHash) (namesOf (given ts) ++ Hash.elems ig) v < ig.ffactor
    rw [hff]
    refine Nat.lt_of_le_of_lt ?_ (hu.names v)
    unfold Hash.sameHash ignoredNames
    rw [List.countP_append, List.countP_append, hp.countP_eq]
    exact Nat.le_refl _) hs
  have huser : (m.lookups args).userOk = m.userKnown := by
    have h : m.groups.length ≤ Xxh.maxGids := Nat.le_of_lt hu.few
    simp only [Machine.lookups, h, decide_true, Bool.and_true]
  have hrefused : ∀ s, Config.parseArgs Xxh.strHash m.fuel (m.lookups args) ts (Config.create m.cores ig) = .ok none →
      parseStatus Xxh.strHash m.fuel ts args.length (Config.create m.cores ig) = .ok s →
      ftwinMain m pz level evs ts args = .ok (s, .failed) := by
    intro s e1 e2
    unfold ftwinMain
    rw [hig, Res.ok_bind, hgl, Res.ok_bind, e1, Res.ok_bind]
    dsimp only
    rw [e2]; rfl
  rcases hloop with ⟨hvalid, hstop, c, hc⟩ | ⟨pre, o, a, post, hgiv, hpre, hinv, hstop, hc⟩
  · by_cases ha : Accepted m ts args
    · -- accepted
      obtain ⟨ig2, c2, hig2, e, hsep, hrun⟩ := run_eq m pz level evs ts args hu ha hgl
      obtain ⟨b, cands, hscan⟩ := Traverse.scan_defined (asked m globals ts) m.fs m.depth (place m ts) depth hw.down args
        (fun a ham p hp => ⟨hw.top a ham p hp, hw.clear a ham p hp⟩)
      have hb := Traverse.scan_succeeds_iff _ _ _ _ _ _ _ hscan
      cases b with
      | false =>
        refine ⟨-1, .failed, ?_, Or.inr (Or.inr (Or.inr ⟨rfl, hvalid, ha.some, ?_, rfl⟩))⟩
        · rw [hrun, hscan]; rfl
        · rintro ⟨-, h1, -⟩
          have := hb.mpr h1
          cases this
      | true =>
        have hall := hb.mp rfl
        by_cases hne : cands = []
        · subst hne
          refine ⟨-1, .failed, ?_, Or.inr (Or.inr (Or.inr ⟨rfl, hvalid, ha.some, ?_, rfl⟩))⟩
          · rw [hrun, hscan]; rfl
          · rintro ⟨-, -, a, ham, p, f, hp, hsel⟩
            have := (found_iff hscan f).mpr ⟨a, ham, p, hp, hsel⟩
            cases this
        · have hq := hq cands hscan
          have hfinds : Finds m globals ts args := by
            refine ⟨hall, ?_⟩
            obtain ⟨f, hf⟩ := List.exists_mem_of_ne_nil _ hne
            obtain ⟨a, ham, p, hp, hsel⟩ := (found_iff hscan f).mp hf
            exact ⟨a, ham, p, f, hp, hsel⟩
          obtain ⟨out, gs, ho, hg, -⟩ := calm_report m ts cands hq (decide ('J' ∈ chars ts))
          have hrun := whole_run m pz level evs ts args hu ha hI ht hgl hscan hne
          rw [ho, Res.ok_bind, hg] at hrun
          refine ⟨0, _, hrun, Or.inr (Or.inr (Or.inl ⟨rfl, ha, hfinds, ?_⟩))⟩
          unfold presented
          by_cases hJ : 'J' ∈ chars ts
          · rw [if_pos hJ, if_pos hJ]; exact ⟨_, rfl⟩
          · rw [if_neg hJ, if_neg hJ]; exact ⟨_, rfl⟩
    · -- valid options, refused
      have hpn : Config.parseArgs Xxh.strHash m.fuel (m.lookups args) ts (Config.create m.cores ig) = .ok none := by
        have hno : ¬ ∃ c, Config.parseArgs Xxh.strHash m.fuel (m.lookups args) ts (Config.create m.cores ig) = .ok (some c) := by
          rw [hacc]
          rintro ⟨h1, h2, h3, h4⟩
          exact ha ⟨h1, List.length_pos_iff.mp h2, by rw [← huser]; exact h3, h4⟩
        simp only [Config.parseArgs, hc, Res.ok_bind] at hno ⊢
        by_cases h1 : (m.lookups args).nargs < 1
        · rw [if_pos h1]
        · rw [if_neg h1] at hno ⊢
          by_cases h2 : (!(m.lookups args).userOk) = true
          · rw [if_pos h2]
          · rw [if_neg h2] at hno ⊢
            split
            · rfl
            · rename_i h3
              rw [if_neg h3] at hno
              exact absurd ⟨c, rfl⟩ hno
      by_cases hargs : args = []
      · refine ⟨1, .failed, hrefused 1 hpn ?_, Or.inr (Or.inl ⟨rfl, Or.inr ⟨hvalid, hargs⟩, rfl⟩)⟩
        rw [parseStatus, hstop, Res.ok_bind]
        subst hargs; rfl
      · refine ⟨-1, .failed, hrefused (-1) hpn ?_, Or.inr (Or.inr (Or.inr ⟨rfl, hvalid, hargs, fun h => ha h.1, rfl⟩))⟩
        rw [parseStatus, hstop, Res.ok_bind]
        have := List.length_pos_iff.mpr hargs
        dsimp only
        rw [if_neg (by omega)]
  · have hpn : Config.parseArgs Xxh.strHash m.fuel (m.lookups args) ts (Config.create m.cores ig) = .ok none := by
      simp only [Config.parseArgs, hc, Res.ok_bind]
    have hhelp := help_first hgiv hpre hinv
    have hnv : ¬ ∀ oa ∈ given ts, Valid oa := fun hall => hinv (hall (o, a) (by rw [hgiv]; simp))
    by_cases ho : o = 'h' ∨ o = 'V'
    · refine ⟨0, .failed, hrefused 0 hpn ?_, Or.inl ⟨rfl, hhelp.mpr ho, rfl⟩⟩
      rw [parseStatus, hstop, Res.ok_bind]
      dsimp only
      rw [if_pos ho]
    · refine ⟨1, .failed, hrefused 1 hpn ?_, Or.inr (Or.inl ⟨rfl, Or.inl ⟨fun h => ho (hhelp.mp h), hnv⟩, rfl⟩)⟩
      rw [parseStatus, hstop, Res.ok_bind]
      dsimp only
      rw [if_neg ho]

/-- **C93 is false of unknown options.**  An option that does not exist, and all options behind it, change nothing: the run, its status and its report are those
of the options before it. -/
theorem unknown_option_ignored (m : Machine) (pz : Image.Puzzle ν δ) (level : Nat → δ) (evs : List (Pool.Ev Nat)) (ts rest : List Tok) (args : List Path) :
    ftwinMain m pz level evs (ts ++ .bad :: rest) args = ftwinMain m pz level evs ts args := by
  have h1 : ∀ (ts : List Tok) (c : Conf), optionLoop Xxh.strHash m.fuel (ts ++ .bad :: rest) c = optionLoop Xxh.strHash m.fuel ts c := by
    intro ts
    induction ts with
    | nil => intro c; rfl
    | cons t ts ih =>
      intro c
      cases t with
      | bad => rfl
      | opt o a =>
        rw [List.cons_append, optionLoop, optionLoop]
        cases processOption Xxh.strHash m.fuel o a c with
        | ub => rfl
        | div => rfl
        | ok s =>
          cases s with
          | none => rfl
          | some c1 => exact ih c1
  have h2 : ∀ (ts : List Tok) (c : Conf), loopStop Xxh.strHash m.fuel (ts ++ .bad :: rest) c = loopStop Xxh.strHash m.fuel ts c := by
    intro ts
    induction ts with
    | nil => intro c; rfl
    | cons t ts ih =>
      intro c
      cases t with
      | bad => rfl
      | opt o a =>
        rw [List.cons_append, loopStop, loopStop]
        cases processOption Xxh.strHash m.fuel o a c with
        | ub => rfl
        | div => rfl
        | ok s =>
          cases s with
          | none => rfl
          | some c1 => exact ih c1
  unfold ftwinMain parseStatus Config.parseArgs
  simp only [h1, h2]

end Verif.Main
