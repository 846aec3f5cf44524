import Verif.Report.Props

/-!
# What is written on the standard error output while files are compared (C115)
-/

namespace Verif.Report

variable {η : Type} [DecidableEq η]

/-- ft_report.c L246, L253: the two messages. -/
inductive Message where
  | skipping (a b : FileEnt)
  | wouldReport (a b : FileEnt)
  deriving DecidableEq

/-- ft_report.c L241-254: what is written after one comparison, with `-v` and with `-n`. -/
def afterCompare (w : World η) (verbose dry : Bool) (p : FileEnt × FileEnt) : List Message :=
  match w.fc p.1 p.2 0 with
  | .ok (false, _) => if verbose then [.skipping p.1 p.2] else []
  | .ok (true, v) => if v = 0 then (if dry then [.wouldReport p.1 p.2] else []) else []
  | _ => []

/-- ft_report.c L133-137, L83-94: the messages of a run with a text report, in their order; the pairs compared are in the order of the comparisons.  The JSON reporter has only the first message (ft_report_json.c L109-112), and only
with `-v`, which `-J` switches off (C32). -/
def messages (w : World η) (verbose dry : Bool) (out : Outcome η) : List Message := out.compared.flatMap (afterCompare w verbose dry)

/-! ## Specification -/

/-- A group announced pair by pair: its first file with each of the others. -/
def announced : List FileEnt → List Message
  | [] => []
  | f :: ds => ds.map (.wouldReport f ·)

/-! ## Proofs -/

theorem inner_messages (w : World η) (f : FileEnt) (h : η) : ∀ (es : List (Entry η)) (r : Int) (x : Inner η), inner w false f h es r = .ok x →
    x.log.flatMap (afterCompare w false true) = x.dups.map (.wouldReport f ·) := by
  intro es
  induction es with
  | nil => intro r x e; simp only [inner, Res.ok.injEq] at e; subst e; rfl
  | cons e es ih =>
    intro r x hx
    unfold inner at hx
    by_cases hh : h = e.hash
    · rw [if_pos hh] at hx
      cases hf : e.file with
      | none => rw [hf] at hx; cases hx
      | some g =>
        rw [hf] at hx
        dsimp only at hx
        rw [Res.bind_eq_ok] at hx
        obtain ⟨⟨ok, v⟩, e1, e2⟩ := hx
        simp only [Bool.false_eq_true, if_false] at e1 e2
        cases ok with
        | false =>
          simp only [Bool.false_eq_true, if_false] at e2
          rw [if_neg (by decide), Res.bind_eq_ok] at e2
          obtain ⟨y, y1, y2⟩ := e2
          simp only [Res.ok.injEq] at y2
          subst y2
          simp only [List.flatMap_cons]
          rw [ih _ _ y1]
          simp [afterCompare, e1]
        | true =>
          simp only [if_true] at e2
          by_cases hv : v = 0
          · rw [if_pos hv, Res.bind_eq_ok] at e2
            obtain ⟨y, y1, y2⟩ := e2
            simp only [Res.ok.injEq] at y2
            subst y2
            simp only [List.flatMap_cons, List.map_cons]
            rw [ih _ _ y1]
            simp [afterCompare, e1, hv]
          · rw [if_neg hv, Res.bind_eq_ok] at e2
            obtain ⟨y, y1, y2⟩ := e2
            simp only [Res.ok.injEq] at y2
            subst y2
            simp only [List.flatMap_cons]
            rw [ih _ _ y1]
            simp [afterCompare, e1, hv]
    · rw [if_neg hh] at hx
      simp only [Res.ok.injEq] at hx
      subst hx
      rfl

theorem outer_messages (w : World η) (size : Nat) : ∀ (n : Nat) (es : List (Entry η)) (r : Int) (gs : List (Group η)) (log : List (FileEnt × FileEnt)),
    outer w false size n es r = .ok (gs, log) → log.flatMap (afterCompare w false true) = gs.flatMap (fun g => announced g.files) := by
  intro n
  induction n with
  | zero => intro es r gs log e; simp only [outer, Res.ok.injEq, Prod.mk.injEq] at e; obtain ⟨rfl, rfl⟩ := e; rfl
  | succ n ih =>
    intro es r gs log hx
    cases es with
    | nil => cases hx
    | cons e es =>
      unfold outer at hx
      cases hf : e.file with
      | none => rw [hf] at hx; exact ih _ _ _ _ hx
      | some f =>
        rw [hf] at hx
        dsimp only at hx
        rw [Res.bind_eq_ok] at hx
        obtain ⟨x, x1, x2⟩ := hx
        rw [Res.bind_eq_ok] at x2
        obtain ⟨⟨gs', log'⟩, y1, y2⟩ := x2
        simp only [Res.ok.injEq, Prod.mk.injEq] at y2
        obtain ⟨rfl, rfl⟩ := y2
        rw [List.flatMap_append, inner_messages w f _ _ _ _ x1, ih _ _ _ _ y1]
        by_cases hd : x.dups = []
        · rw [if_pos hd, hd]; rfl
        · rw [if_neg hd, List.flatMap_cons]; rfl

/-- **C115, part.**  A dry run with a text report announces each group of the report, its first file with each of the others, and nothing else, in the order of the report; whatever the comparisons answer. -/
theorem dry_run_announces_partial (w : World η) (cands : List FileEnt) (out : Outcome η) (gs : List (Group η)) (hl : Limits w cands) (h : ftwin w false cands = .ok out)
    (hg : out.groups = some gs) : messages w false true out = gs.flatMap (fun g => announced g.files) := by
  obtain ⟨s⟩ := shape w false cands out hl h
  rw [s.groups, Option.some.injEq] at hg
  subst hg
  unfold messages
  rw [s.compared, List.flatMap_assoc, List.flatMap_assoc, List.flatMap_def, List.flatMap_def]
  congr 1
  apply List.map_congr_left
  intro k hk
  exact outer_messages w k _ _ _ _ _ (s.run k hk)

/-- Without `-n` and `-v` nothing is written. -/
theorem silent (w : World η) (out : Outcome η) : messages w false false out = [] := by
  unfold messages
  rw [List.flatMap_eq_nil_iff]
  intro p _
  unfold afterCompare
  split <;> simp

/-- `-v` adds exactly the comparisons that failed. -/
theorem verbose_skips (w : World η) (out : Outcome η) (a b : FileEnt) (dry : Bool) :
    .skipping a b ∈ messages w true dry out ↔ (a, b) ∈ out.compared ∧ ∃ v, w.fc a b 0 = .ok (false, v) := by
  unfold messages
  rw [List.mem_flatMap]
  constructor
  · rintro ⟨p, hp, hm⟩
    unfold afterCompare at hm
    split at hm
    · rename_i v e
      simp only [if_true, List.mem_singleton, Message.skipping.injEq] at hm
      obtain ⟨rfl, rfl⟩ := hm
      exact ⟨hp, v, e⟩
    · split at hm
      · split at hm <;> simp at hm
      · simp at hm
    · simp at hm
  · rintro ⟨hp, v, e⟩
    refine ⟨(a, b), hp, ?_⟩
    unfold afterCompare
    rw [e]
    simp

end Verif.Report
