import Verif.Ignore.Props

/-!
# A regular-expression engine that runs

`refEngine` decides with `Classical`; this one computes, so that the model of the ignore files can be evaluated.
-/

namespace Verif.Ignore

/-- What is left after the repetitions of `f`, each of which must consume something; `n` bounds their number. -/
def starEnds (f : Bool → List Char → List (List Char)) : Nat → Bool → List Char → List (List Char)
  | 0, _, s => [s]
  | n + 1, first, s => s :: ((f first s).filter (fun t => decide (t.length < s.length))).flatMap (starEnds f n false)

/-- What can be left of `s` after a match of `r` at its start; `first`: the subject begins here. -/
def Re.ends : Re → Bool → List Char → List (List Char)
  | .eps, _, s => [s]
  | .bol, first, s => if first then [s] else []
  | .eol, _, s => if s = [] ∨ s = ['\n'] then [s] else []
  | .any, _, s => match s with
    | [] => []
    | c :: t => if c = '\n' then [] else [t]
  | .set neg rs, _, s => match s with
    | [] => []
    | c :: t => if inSet rs c = !neg then [t] else []
  | .seq a b, first, s => (a.ends first s).flatMap fun t => b.ends (first && decide (t.length = s.length)) t
  | .alt a b, first, s => a.ends first s ++ b.ends first s
  | .star a, first, s => starEnds a.ends s.length first s
  | .opt a, first, s => s :: a.ends first s

/-- A search that tries the places one by one. -/
def Re.find (r : Re) : Bool → List Char → Bool
  | first, [] => !(r.ends first []).isEmpty
  | first, c :: s => !(r.ends first (c :: s)).isEmpty || r.find false s

theorem starEnds_iff {r : Re} (ih : ∀ b s t, t ∈ r.ends b.isEmpty s ↔ ∃ m, s = m ++ t ∧ M r b m t) (n : Nat) : ∀ (b s t : List Char), s.length ≤ n →
    (t ∈ starEnds r.ends n b.isEmpty s ↔ ∃ m, s = m ++ t ∧ M (.star r) b m t) := by
  have drop : ∀ {q : Re} {b m a : List Char}, M q b m a → q = .star r → m = [] ∨ ∃ b' m1 m2, b' = b ∧ m = m1 ++ m2 ∧ m1 ≠ [] ∧ M r b m1 (m2 ++ a) ∧
      M (.star r) (b ++ m1) m2 a := by
    intro q b m a h
    induction h with
    | starNil => intro _; exact .inl rfl
    | @starCons r' b m n a h1 h2 _ ih2 =>
      intro he
      cases he
      by_cases hm : m = []
      · subst hm
        simp only [List.append_nil, List.nil_append] at ih2 h2 ⊢
        exact ih2 trivial
      · exact .inr ⟨b, m, n, rfl, rfl, hm, h1, h2⟩
    | _ => intro he; cases he
  induction n with
  | zero =>
    intro b s t hs
    have : s = [] := List.length_eq_zero_iff.mp (by omega)
    subst this
    simp only [starEnds, List.mem_singleton]
    constructor
    · rintro rfl; exact ⟨[], rfl, .starNil⟩
    · rintro ⟨m, h, -⟩; exact (List.append_eq_nil_iff.mp h.symm).2
  | succ n ihn =>
    intro b s t hs
    simp only [starEnds, List.mem_cons, List.mem_flatMap, List.mem_filter, decide_eq_true_eq]
    constructor
    · rintro (rfl | ⟨u, ⟨hu, hl⟩, ht⟩)
      · exact ⟨[], rfl, .starNil⟩
      · obtain ⟨m, rfl, hm⟩ := (ih _ _ _).mp hu
        have hne : (b ++ m).isEmpty = false := by
          cases m with
          | nil => simp at hl
          | cons c m => cases b <;> rfl
        rw [← hne] at ht
        obtain ⟨m2, rfl, h2⟩ := (ihn (b ++ m) u t (by simp at hs hl; omega)).mp ht
        exact ⟨m ++ m2, by simp, .starCons hm h2⟩
    · rintro ⟨m, rfl, h⟩
      rcases drop h rfl with rfl | ⟨-, m1, m2, -, rfl, hne, h1, h2⟩
      · exact .inl rfl
      · refine .inr ⟨m2 ++ t, ⟨(ih _ _ _).mpr ⟨m1, by simp, h1⟩, ?_⟩, ?_⟩
        · have : 0 < m1.length := List.length_pos_iff.mpr hne
          simp; omega
        · have hf : (b ++ m1).isEmpty = false := by
            cases m1 with
            | nil => exact absurd rfl hne
            | cons c m => cases b <;> rfl
          rw [← hf]
          have : 0 < m1.length := List.length_pos_iff.mpr hne
          exact (ihn _ _ _ (by simp at hs ⊢; omega)).mpr ⟨m2, rfl, h2⟩

/-- What `ends` lists is exactly what the matches leave. -/
theorem ends_iff (r : Re) : ∀ (b s t : List Char), t ∈ r.ends b.isEmpty s ↔ ∃ m, s = m ++ t ∧ M r b m t := by
  induction r with
  | eps =>
    intro b s t
    simp only [Re.ends, List.mem_singleton]
    constructor
    · rintro rfl; exact ⟨[], rfl, .eps⟩
    · rintro ⟨m, rfl, h⟩; cases h; rfl
  | bol =>
    intro b s t
    simp only [Re.ends]
    constructor
    · intro h
      split at h
      · next hb => cases List.mem_singleton.mp h; cases List.isEmpty_iff.mp hb; exact ⟨[], rfl, .bol⟩
      · cases h
    · rintro ⟨m, rfl, h⟩; cases h; simp
  | eol =>
    intro b s t
    simp only [Re.ends]
    constructor
    · intro h
      split at h
      · next hb =>
        cases List.mem_singleton.mp h
        rcases hb with rfl | rfl
        · exact ⟨[], rfl, .eol⟩
        · exact ⟨[], rfl, .eolNl⟩
      · cases h
    · rintro ⟨m, rfl, h⟩; cases h <;> simp
  | any =>
    intro b s t
    constructor
    · intro h
      cases s with
      | nil => cases h
      | cons c u =>
        simp only [Re.ends] at h
        split at h
        · cases h
        · next hc => cases List.mem_singleton.mp h; exact ⟨[c], rfl, .any hc⟩
    · rintro ⟨m, rfl, h⟩
      cases h with
      | any hc => simp [Re.ends, hc]
  | set neg rs =>
    intro b s t
    constructor
    · intro h
      cases s with
      | nil => cases h
      | cons c u =>
        simp only [Re.ends] at h
        split at h
        · next hc => cases List.mem_singleton.mp h; exact ⟨[c], rfl, .set hc⟩
        · cases h
    · rintro ⟨m, rfl, h⟩
      cases h with
      | set hc => simp [Re.ends, hc]
  | seq x y ihx ihy =>
    intro b s t
    have key : ∀ m : List Char, (b.isEmpty && decide ((m : List Char) = [])) = (b ++ m).isEmpty := by
      intro m; cases b <;> cases m <;> simp
    simp only [Re.ends, List.mem_flatMap]
    constructor
    · rintro ⟨u, hu, ht⟩
      obtain ⟨m, rfl, hm⟩ := (ihx _ _ _).mp hu
      have e : decide (u.length = (m ++ u).length) = decide (m = []) := by
        cases m with
        | nil => simp
        | cons c m => simp; omega
      rw [e, key] at ht
      obtain ⟨n, rfl, hn⟩ := (ihy _ _ _).mp ht
      exact ⟨m ++ n, by simp, .seq hm hn⟩
    · rintro ⟨m, rfl, h⟩
      cases h with
      | @seq _ _ _ m n _ h1 h2 =>
        refine ⟨n ++ t, (ihx _ _ _).mpr ⟨m, by simp, h1⟩, ?_⟩
        have e : decide ((n ++ t).length = (m ++ n ++ t).length) = decide (m = []) := by
          cases m with
          | nil => simp
          | cons c m => simp; omega
        rw [e, key]
        exact (ihy _ _ _).mpr ⟨n, rfl, h2⟩
  | alt x y ihx ihy =>
    intro b s t
    simp only [Re.ends, List.mem_append, ihx, ihy]
    constructor
    · rintro (⟨m, hm, h⟩ | ⟨m, hm, h⟩)
      · exact ⟨m, hm, .altL h⟩
      · exact ⟨m, hm, .altR h⟩
    · rintro ⟨m, hm, h⟩
      cases h with
      | altL h => exact .inl ⟨m, hm, h⟩
      | altR h => exact .inr ⟨m, hm, h⟩
  | star x ih =>
    intro b s t
    exact starEnds_iff ih s.length b s t (Nat.le_refl _)
  | opt x ih =>
    intro b s t
    simp only [Re.ends, List.mem_cons, ih]
    constructor
    · rintro (rfl | ⟨m, hm, h⟩)
      · exact ⟨[], rfl, .optNil⟩
      · exact ⟨m, hm, .optSome h⟩
    · rintro ⟨m, rfl, h⟩
      cases h with
      | optNil => exact .inl rfl
      | optSome h => exact .inr ⟨m, rfl, h⟩

theorem find_iff (r : Re) : ∀ (s b : List Char), r.find b.isEmpty s = true ↔ ∃ c m a, s = c ++ m ++ a ∧ M r (b ++ c) m a := by
  have ne : ∀ (b s : List Char), (!(r.ends b.isEmpty s).isEmpty) = true ↔ ∃ m a, s = m ++ a ∧ M r b m a := by
    intro b s
    constructor
    · intro h
      cases he : r.ends b.isEmpty s with
      | nil => simp [he] at h
      | cons t ts =>
        obtain ⟨m, hm, hr⟩ := (ends_iff r b s t).mp (by rw [he]; exact .head _)
        exact ⟨m, t, hm, hr⟩
    · rintro ⟨m, a, hm, h⟩
      have := (ends_iff r b s a).mpr ⟨m, hm, h⟩
      cases he : r.ends b.isEmpty s with
      | nil => rw [he] at this; cases this
      | cons t ts => rfl
  intro s
  induction s with
  | nil =>
    intro b
    rw [Re.find, ne]
    constructor
    · rintro ⟨m, a, hm, h⟩; exact ⟨[], m, a, by simpa using hm, by simpa using h⟩
    · rintro ⟨c, m, a, hm, h⟩
      have := List.append_eq_nil_iff.mp hm.symm
      have h2 := List.append_eq_nil_iff.mp this.1
      rw [h2.1, List.append_nil] at h
      exact ⟨m, a, by simp [h2.2, this.2], h⟩
  | cons x s ih =>
    intro b
    rw [Re.find, Bool.or_eq_true, ne]
    have e : false = (b ++ [x]).isEmpty := by cases b <;> rfl
    rw [e, ih]
    constructor
    · rintro (⟨m, a, hm, h⟩ | ⟨c, m, a, rfl, h⟩)
      · exact ⟨[], m, a, by simpa using hm, by simpa using h⟩
      · exact ⟨x :: c, m, a, by simp, by simpa using h⟩
    · rintro ⟨c, m, a, hm, h⟩
      cases c with
      | nil => exact .inl ⟨m, a, by simpa using hm, by simpa using h⟩
      | cons y c =>
        simp only [List.cons_append, List.cons.injEq] at hm
        obtain ⟨rfl, rfl⟩ := hm
        exact .inr ⟨c, m, a, rfl, by simpa using h⟩

/-- The search that computes finds what there is to find. -/
theorem find_search (r : Re) (s : List Char) : r.find true s = true ↔ r.Search s := by
  have := find_iff r s []
  simpa [Re.Search] using this

/-- The engine. -/
def runEngine : Engine := fun text => (parse text).map fun r => r.find true

theorem runEngine_conforms : runEngine.Conforms := by
  refine ⟨fun text r h => ⟨r.find true, by simp [runEngine, h], find_search r⟩, fun text h => ?_, fun text h => by simp [runEngine, parse_alone h]⟩
  obtain ⟨p, hp, hm⟩ := h
  have : parse text = none := by
    unfold parse; rw [hp]
    rcases hm with h | h | ⟨_, _, _, h⟩ <;> (split <;> first | rfl | (next e => cases e; cases h))
  simp [runEngine, this]

end Verif.Ignore
