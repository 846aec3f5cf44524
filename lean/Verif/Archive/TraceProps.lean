import Verif.Archive.Trace
import Verif.Report.Disk

/-! # Property theorems for hashing and comparing with `-t` (C84, C87) -/

namespace Verif.Archive

open Verif.Report (FileEnt)

/-! ## C84: no trace -/

/-- C84.  Hashing a file or a member leaves the files of the disk as they were, whether it succeeds or not. -/
theorem hash_no_trace {η : Type} (w : World) (hw : w.Fresh) (untar : Bool) (dig : Option (List UInt8) → Option η) (st st' : St) (f : ArcFile) (r : Option η)
    (h : hashFile w untar dig st f = .ok (r, st')) : st'.files = st.files := by
  unfold hashFile at h
  obtain ⟨m, hm, h⟩ := Res.bind_eq_ok.mp h
  cases m with
  | none => simp only [Res.ok.injEq, Prod.mk.injEq] at h; rw [← h.2]
  | some sub =>
    simp only at h
    cases hu : untarFile w st f.ent.path sub with
    | mk o s1 =>
      cases o with
      | none => simp only [hu, Res.ok.injEq, Prod.mk.injEq] at h; rw [← h.2]; exact (untar_fails_partial w hw _ _ _ _ hu).1
      | some p =>
        simp only [hu, Res.ok.injEq, Prod.mk.injEq] at h
        rw [← h.2]
        exact undo_extract w hw hu

/-- C84.  The digest is that of what the record stands for; there is none only if the member cannot be extracted or the digest cannot be made. -/
theorem hash_of_contents {η : Type} (w : World) (hw : w.Fresh) (untar : Bool) (dig : Option (List UInt8) → Option η) (st st' : St) (f : ArcFile) (r : Option η)
    (h : hashFile w untar dig st f = .ok (r, st')) :
    (∃ o, Means w st untar f o ∧ r = dig o) ∨ (r = none ∧ ((¬ ∃ o, Means w st untar f o) ∨ w.mkstemp st.files = none)) := by
  unfold hashFile at h
  obtain ⟨m, hm, h⟩ := Res.bind_eq_ok.mp h
  cases m with
  | none =>
    simp only [Res.ok.injEq, Prod.mk.injEq] at h
    refine .inl ⟨_, ?_, h.1.symm⟩
    exact means_file w st untar f hm
  | some sub =>
    have hM := means_member w st untar f hm
    simp only at h
    cases hu : untarFile w st f.ent.path sub with
    | mk o s1 =>
      cases o with
      | none =>
        simp only [hu, Res.ok.injEq, Prod.mk.injEq] at h
        refine .inr ⟨h.1.symm, ?_⟩
        cases hk : w.mkstemp st.files with
        | none => exact .inr rfl
        | some q =>
          left
          intro ⟨o, ho⟩
          obtain ⟨c, hc, -⟩ := (hM o).mp ho
          have := (untar_succeeds_iff w hw st f.ent.path sub).mpr ⟨⟨c, hc⟩, by rw [hk]; rfl⟩
          rw [hu] at this; cases this
      | some p =>
        simp only [hu, Res.ok.injEq, Prod.mk.injEq] at h
        obtain ⟨-, ⟨c, hc, hp⟩, -⟩ := untar_extracts_partial w hw _ _ _ _ _ hu
        refine .inl ⟨some c, (hM _).mpr ⟨c, hc, rfl⟩, ?_⟩
        rw [← h.1, hp]

/-- C84.  Comparing leaves the files of the disk as they were, whatever the outcome. -/
theorem compare_no_trace {ρ : Type} (w : World) (hw : w.Fresh) (untar : Bool) (cmp : Option (List UInt8) → Option (List UInt8) → ρ) (st st' : St) (f g : ArcFile)
    (r : Option ρ) (h : compareFiles w untar cmp st f g = .ok (r, st')) : st'.files = st.files := by
  rcases compare_cases w hw untar cmp st st' f g r h with ⟨h1, -⟩
  exact h1

/-- C84.  Two files that exist are compared by what their records stand for. -/
theorem compare_contents {ρ : Type} (w : World) (hw : w.Fresh) (untar : Bool) (cmp : Option (List UInt8) → Option (List UInt8) → ρ) (st st' : St) (f g : ArcFile)
    (hf : st.files f.ent.path ≠ none) (hg : st.files g.ent.path ≠ none) (r : ρ) (h : compareFiles w untar cmp st f g = .ok (some r, st')) :
    ∃ a b, Means w st untar f a ∧ Means w st untar g b ∧ r = cmp a b :=
  (compare_cases w hw untar cmp st st' f g (some r) h).2 hf hg r rfl

/-! ## C87: what `-t` does -/

/-- C87 is false: the records the traversal makes have no `subpath`, so with `-t` hashing any file and comparing any two has no defined behaviour. -/
theorem traversed_undefined {η ρ : Type} (w : World) (dig : Option (List UInt8) → Option η) (cmp : Option (List UInt8) → Option (List UInt8) → ρ) (st : St)
    (f g : FileEnt) : hashFile w true dig st (newFile f) = .ub ∧ compareFiles w true cmp st (newFile f) (newFile g) = .ub := ⟨rfl, rfl⟩

/-- C87, the runs: a run with `-t` that has a defined behaviour finds nothing; it has compared no two files. -/
theorem archive_run_finds_nothing {η : Type} [DecidableEq η] (rw_ : Report.World η) (w : World) (cmp : Option (List UInt8) → Option (List UInt8) → Bool × Int)
    (st : St) (json : Bool) (cands : List FileEnt) (out : Report.Outcome η)
    (h : Report.ftwin { rw_ with fc := archiveFc w cmp st } json cands = .ok out) : out.compared = [] ∧ (out.groups = none ∨ out.groups = some []) := by
  unfold Report.ftwin at h
  obtain ⟨c, -, h⟩ := Res.bind_eq_ok.mp h
  exact processAndReport_ub _ (fun _ _ _ => rfl) json _ c out h

open Verif.Report in
/-- C87 is false of runs: two files of one size and `-t`, and there is no defined behaviour, in text and in JSON. -/
theorem archive_run_undefined :
    let w := natWorld (fun _ => some 5) (archiveFc sampleWorld (fun _ _ => (true, 0)) sampleSt)
    let cands := [exFile 11 3, exFile 12 3]
    Limits w cands ∧ ftwin w false cands = .ub ∧ ftwin w true cands = .ub := by
  have hl : Limits (natWorld (fun _ => some 5) (archiveFc sampleWorld (fun _ _ => (true, 0)) sampleSt)) [exFile 11 3, exFile 12 3] :=
    natWorld_limits _ _ _ [3] (by decide) (by decide) (by decide)
  refine ⟨hl, ?_, ?_⟩
  · exact ub_eval [exFile 11 3, exFile 12 3] [3] hl (by decide +kernel) (by decide) (by decide) (by decide) (by decide +kernel)
  · exact ub_eval [exFile 11 3, exFile 12 3] [3] hl (by decide +kernel) (by decide) (by decide) (by decide) (by decide +kernel)

open Verif.Report in
/-- A run that is defined: no two files have one size. -/
example : paths (ftwin (natWorld (fun _ => some 5) (archiveFc sampleWorld (fun _ _ => (true, 0)) sampleSt)) false [exFile 11 3, exFile 12 2]) = some [] :=
  paths_eval [exFile 11 3, exFile 12 2] [] (natWorld_limits _ _ _ [3, 2] (by decide) (by decide) (by decide)) (by decide +kernel) (by decide) (by decide) (by decide)
    (by decide +kernel)

/-- C87.  With records that have the field set, as `ft_file_make` would make them, all is defined. -/
theorem made_defined_partial {η ρ : Type} (w : World) (untar : Bool) (dig : Option (List UInt8) → Option η) (cmp : Option (List UInt8) → Option (List UInt8) → ρ)
    (st : St) (f g : FileEnt) (s t : Option String) :
    (∃ x, hashFile w untar dig st (makeFile f s) = .ok x) ∧ ∃ x, compareFiles w untar cmp st (makeFile f s) (makeFile g t) = .ok x := by
  obtain ⟨m, hm⟩ := makeFile_sub f s
  obtain ⟨n, hn⟩ := makeFile_sub g t
  constructor
  · unfold hashFile memberOf
    cases untar with
    | false => exact ⟨_, rfl⟩
    | true =>
      simp only [if_true, hm, Res.ok_bind]
      cases m with
      | none => exact ⟨_, rfl⟩
      | some sub =>
        simp only
        cases hu : untarFile w st (makeFile f s).ent.path sub with
        | mk o s1 => cases o <;> exact ⟨_, rfl⟩
  · unfold compareFiles comparisonPaths cleanup
    cases untar with
    | false => exact ⟨_, rfl⟩
    | true =>
      simp only [if_true, hm, hn, Res.ok_bind]
      cases fetch w st (makeFile f s) m with
      | mk p s1 =>
        cases p with
        | none => exact ⟨_, rfl⟩
        | some p =>
          simp only
          cases fetch w s1 (makeFile g t) n with
          | mk q s2 =>
            cases q with
            | none => exact ⟨_, rfl⟩
            | some q => exact ⟨_, rfl⟩

/-! ## Concrete cases -/

/-- A member against a file, and against a member of the same archive. -/
def sampleMember : ArcFile := makeFile ⟨"a.tar", 2, 0, false⟩ (some "m")
def sampleFile : ArcFile := makeFile ⟨"b", 2, 0, false⟩ none

/-- What `x` is, apart from the disk. -/
def outcome {α : Type} : Res (Option α × St) → Option (Option α)
  | .ok (x, _) => some x
  | _ => none

example : outcome (hashFile sampleWorld true (fun o => o.map List.length) sampleSt sampleMember) = some (some 5) := by decide

example : outcome (compareFiles sampleWorld true (fun a b => (a, b)) sampleSt sampleMember sampleFile) = some (some (some [1, 7, 0, 0, 5], some [0, 0])) := by decide

example : outcome (compareFiles sampleWorld true (fun a b => (a, b)) sampleSt sampleMember (makeFile ⟨"a.tar", 2, 0, false⟩ (some "x"))) =
    some (some (some [1, 7, 0, 0, 5], some [9])) := by decide

/-- The disk as it is when the comparison is made has both temporary files. -/
example : (match comparisonPaths sampleWorld true sampleSt sampleMember sampleMember with | .ok (o, _) => o | _ => none) = some ("/tmp/ftwinA", "/tmp/ftwinB") := by decide

end Verif.Archive
