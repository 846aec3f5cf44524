import Verif.Ignore.Props

/-!
# What patterns mean to Git (C109)

The README promises "Git-compatible ignore support".  The specification follows gitignore(5).
-/

namespace Verif.Ignore

/-! ## The specification -/

/-- What a pattern matches according to gitignore(5), character by character; the flag tells that a component of the path begins here.  Two asterisks are special
only as a whole component: before a slash they stand for any number of directories, at the end for everything inside; other asterisks, one or more, are the usual
wildcard.  No wildcard and no class matches a slash. -/
inductive Wild : Bool → List Char → List Char → Prop
  | nil {b} : Wild b [] []
  | slash {b p s} : Wild true p s → Wild b ('/' :: p) ('/' :: s)
  | lit {b c p s} : c ∉ ['\\', '*', '?', '[', '/'] → Wild false p s → Wild b (c :: p) (c :: s)
  | esc {b c p s} : Wild (c == '/') p s → Wild b ('\\' :: c :: p) (c :: s)
  | one {b c p s} : c ≠ '/' → Wild false p s → Wild b ('?' :: p) (c :: s)
  | cls {b p neg rs p' c s} : readClass p = some (neg, rs, p') → inSet rs c = !neg → c ≠ '/' → Wild false p' s → Wild b ('[' :: p) (c :: s)
  | star {b u p s} : ¬ (b = true ∧ (p = ['*'] ∨ ∃ r, p = '*' :: '/' :: r)) → (∀ c ∈ u, c ≠ '/') → Wild false p s → Wild b ('*' :: p) (u ++ s)
  | dirs0 {p s} : Wild true p s → Wild true ('*' :: '*' :: '/' :: p) s
  | dirs {u p s} : Wild true p s → Wild true ('*' :: '*' :: '/' :: p) (u ++ '/' :: s)
  | inside {s} : s ≠ [] → Wild true ['*', '*'] s

/-- The path `rel`, relative to the directory of the ignore file, is matched by the pattern (without its marks): a pattern with a slash at the beginning or in the
middle is relative to that directory, any other is compared with the name alone. -/
def GitMatch (anch : Bool) (core rel : List Char) : Prop :=
  if anch = true ∨ '/' ∈ core then Wild true core rel
  else ∃ pre name, (rel = name ∨ rel = pre ++ '/' :: name) ∧ '/' ∉ name ∧ Wild true core name

/-- The path or a directory it lies in is matched. -/
def GitMatchIn (anch : Bool) (core rel : List Char) : Prop := ∃ up, (rel = up ∨ ∃ q, rel = up ++ '/' :: q) ∧ GitMatch anch core up

/-- A path as the traversal makes them: not empty, and no component is. -/
structure Clean (rel : List Char) : Prop where
  ne : rel ≠ []
  slash : ∀ pre post, rel = pre ++ '/' :: post → pre ≠ [] ∧ pre.getLast? ≠ some '/' ∧ post ≠ []

/-- Two asterisks stand only where they are special to Git, and slashes are neither escaped nor in classes. -/
inductive Aligned : Bool → List Char → Prop
  | nil {b} : Aligned b []
  | slash {b r} : Aligned true r → Aligned b ('/' :: r)
  | lit {b c r} : c ∉ ['\\', '*', '?', '[', '/'] → Aligned false r → Aligned b (c :: r)
  | esc {b c r} : c ≠ '/' → Aligned false r → Aligned b ('\\' :: c :: r)
  | one {b r} : Aligned false r → Aligned b ('?' :: r)
  | cls {b p neg rs r} : readClass p = some (neg, rs, r) → Aligned false r → Aligned b ('[' :: p)
  | star {b r} : r.head? ≠ some '*' → Aligned false r → Aligned b ('*' :: r)
  | dirs {r} : Aligned true r → Aligned true ('*' :: '*' :: '/' :: r)
  | inside : Aligned true ['*', '*']

/-! ## Lemmas -/

theorem globX_cls_inv {sl : Bool} {p s : List Char} {neg rs r} (h : readClass p = some (neg, rs, r)) (hg : GlobX sl ('[' :: p) s) :
    ∃ c s', s = c :: s' ∧ inSet rs c = !neg ∧ (sl = true ∨ c ≠ '/') ∧ GlobX sl r s' := by
  cases hg with
  | cls h1 h2 h3 h4 =>
    rw [h] at h1
    injection h1 with h1; injection h1 with e1 h1; injection h1 with e2 e3
    subst e1; subst e2; subst e3
    exact ⟨_, _, rfl, h2, h3, h4⟩
  | lit h => simp at h

theorem wild_cls_inv {b : Bool} {p s : List Char} {neg rs r} (h : readClass p = some (neg, rs, r)) (hg : Wild b ('[' :: p) s) :
    ∃ c s', s = c :: s' ∧ inSet rs c = !neg ∧ c ≠ '/' ∧ Wild false r s' := by
  cases hg with
  | cls h1 h2 h3 h4 =>
    rw [h] at h1
    injection h1 with h1; injection h1 with e1 h1; injection h1 with e2 e3
    subst e1; subst e2; subst e3
    exact ⟨_, _, rfl, h2, h3, h4⟩
  | lit h => simp at h

theorem readClass_sub {p : List Char} {neg : Bool} {rs : List (Char × Char)} {r : List Char} (h : readClass p = some (neg, rs, r)) {x : Char} (hx : x ∈ r) : x ∈ p := by
  have key : ∀ (t : List Char) y, readBody t = some y → x ∈ y.2 → x ∈ t := by
    rintro t ⟨a, b⟩ ht hb
    obtain ⟨w, rfl, _⟩ := body_text ht
    simp at hb
    simp [hb]
  unfold readClass at h
  split at h
  all_goals
    rw [Option.map_eq_some_iff] at h
    obtain ⟨y, hy, e⟩ := h
    injection e with e1 e; injection e with e2 e3
    have := key _ y hy (by rw [e3]; exact hx)
    simp [this]

/-- On aligned patterns the two semantics agree. -/
theorem glob_wild {b : Bool} {p : List Char} (ha : Aligned b p) : ∀ s : List Char, s.getLast? ≠ some '/' → (b = true → s ≠ []) →
    (Glob p s ↔ Wild b p s) := by
  have last_cons : ∀ (c : Char) (s : List Char), (c :: s).getLast? ≠ some '/' → s.getLast? ≠ some '/' := by
    intro c s h e
    cases s with
    | nil => simp at e
    | cons d s => rw [List.getLast?_cons_cons] at h; exact h e
  have last_app : ∀ (u s : List Char), (u ++ s).getLast? ≠ some '/' → s.getLast? ≠ some '/' := by
    intro u s h e
    apply h
    rw [List.getLast?_append, e]; rfl
  have after : ∀ (s : List Char), ('/' :: s).getLast? ≠ some '/' → s ≠ [] := by
    intro s h e; subst e; simp at h
  induction ha with
  | nil =>
    intro s _ _
    constructor
    · intro h; cases h; exact .nil
    · intro h; cases h; exact .nil
  | slash _ ih =>
    intro s hl _
    constructor
    · intro h
      cases h with
      | lit _ h => exact .slash ((ih _ (last_cons _ _ hl) (fun _ => after _ hl)).mp h)
    · intro h
      cases h with
      | slash h => exact .lit (by decide) ((ih _ (last_cons _ _ hl) (fun _ => after _ hl)).mpr h)
      | lit h => simp at h
  | @lit b c r hc _ ih =>
    intro s hl _
    have hc' : c ∉ ['\\', '*', '?', '['] := by
      intro h; exact hc (by rw [show ['\\', '*', '?', '[', '/'] = ['\\', '*', '?', '['] ++ ['/'] from rfl]; exact List.mem_append_left _ h)
    constructor
    · intro h
      cases h with
      | lit _ h => exact .lit hc ((ih _ (last_cons _ _ hl) (by simp)).mp h)
      | _ => simp at hc
    · intro h
      cases h with
      | lit _ h => exact .lit hc' ((ih _ (last_cons _ _ hl) (by simp)).mpr h)
      | _ => simp at hc
  | @esc b c r hc _ ih =>
    intro s hl _
    have hb : (c == '/') = false := by simpa using hc
    constructor
    · intro h
      cases h with
      | esc h => exact .esc (by rw [hb]; exact (ih _ (last_cons _ _ hl) (by simp)).mp h)
      | lit h => simp at h
    · intro h
      cases h with
      | esc h => rw [hb] at h; exact .esc ((ih _ (last_cons _ _ hl) (by simp)).mpr h)
      | lit h => simp at h
  | one _ ih =>
    intro s hl _
    constructor
    · intro h
      cases h with
      | one h1 h => exact .one h1 ((ih _ (last_cons _ _ hl) (by simp)).mp h)
      | lit h => simp at h
    · intro h
      cases h with
      | one h1 h => exact .one h1 ((ih _ (last_cons _ _ hl) (by simp)).mpr h)
      | lit h => simp at h
  | cls hr _ ih =>
    intro s hl _
    constructor
    · intro h
      obtain ⟨c, s', rfl, h1, h2, h3⟩ := globX_cls_inv hr h
      exact .cls hr h1 (by simpa using h2) ((ih _ (last_cons _ _ hl) (by simp)).mp h3)
    · intro h
      obtain ⟨c, s', rfl, h1, h2, h3⟩ := wild_cls_inv hr h
      exact .cls hr h1 (.inr h2) ((ih _ (last_cons _ _ hl) (by simp)).mpr h3)
  | @star b r hr _ ih =>
    intro s hl _
    have hns : ¬ (b = true ∧ (r = ['*'] ∨ ∃ q, r = '*' :: '/' :: q)) := by
      rintro ⟨-, rfl | ⟨q, rfl⟩⟩ <;> simp at hr
    constructor
    · intro h
      cases h with
      | star _ hu h => exact .star hns hu ((ih _ (last_app _ _ hl) (by simp)).mp h)
      | lit h => simp at h
      | dirs0 => simp at hr
      | dirs => simp at hr
      | all => simp at hr
    · intro h
      cases h with
      | star _ hu h => exact .star hr hu ((ih _ (last_app _ _ hl) (by simp)).mpr h)
      | lit h => simp at h
      | dirs0 => simp at hr
      | dirs => simp at hr
      | inside => simp at hr
  | @dirs r _ ih =>
    intro s hl hne
    constructor
    · intro h
      cases h with
      | dirs0 h => exact .dirs0 ((ih _ hl hne).mp h)
      | dirs h =>
        have hl' := last_app _ _ hl
        exact .dirs ((ih _ (last_cons _ _ hl') (fun _ => after _ hl')).mp h)
      | star h => simp at h
      | all h => simp at h
      | lit h => simp at h
    · intro h
      cases h with
      | dirs0 h => exact .dirs0 ((ih _ hl hne).mpr h)
      | dirs h =>
        have hl' := last_app _ _ hl
        exact .dirs ((ih _ (last_cons _ _ hl') (fun _ => after _ hl')).mpr h)
      | star h => exact absurd ⟨rfl, .inr ⟨_, rfl⟩⟩ h
      | lit h => simp at h
  | inside =>
    intro s _ hne
    constructor
    · intro _; exact .inside (hne rfl)
    · intro _
      have : Glob ['*', '*'] (s ++ []) := .all (by simp) .nil
      simpa using this

/-- A pattern without a slash and without two asterisks in a row matches no slash. -/
theorem glob_noslash {b : Bool} {p : List Char} (ha : Aligned b p) : '/' ∉ p → (b = true → p ≠ ['*', '*']) → ∀ s, Glob p s → '/' ∉ s := by
  induction ha with
  | nil => intro _ _ s h; cases h; simp
  | slash => intro h; simp at h
  | @lit b c r hc _ ih =>
    intro hp _ s h
    simp only [List.mem_cons, not_or] at hp
    cases h with
    | lit _ h =>
      simp only [List.mem_cons, not_or]
      exact ⟨hp.1, ih hp.2 (by simp) _ h⟩
    | _ => simp at hc
  | @esc b c r hc _ ih =>
    intro hp _ s h
    simp only [List.mem_cons, not_or] at hp
    cases h with
    | esc h => simp only [List.mem_cons, not_or]; exact ⟨hp.2.1, ih hp.2.2 (by simp) _ h⟩
    | lit h => simp at h
  | one _ ih =>
    intro hp _ s h
    simp only [List.mem_cons, not_or] at hp
    cases h with
    | one h1 h => simp only [List.mem_cons, not_or]; exact ⟨fun e => h1 e.symm, ih hp.2 (by simp) _ h⟩
    | lit h => simp at h
  | @cls b p neg rs r hr _ ih =>
    intro hp _ s h
    obtain ⟨c, s', rfl, h1, h2, h3⟩ := globX_cls_inv hr h
    simp only [List.mem_cons, not_or] at hp ⊢
    refine ⟨fun e => ?_, ih (fun hm => hp.2 (readClass_sub hr hm)) (by simp) _ h3⟩
    rcases h2 with h2 | h2
    · simp at h2
    · exact h2 e.symm
  | @star b r hr _ ih =>
    intro hp _ s h
    simp only [List.mem_cons, not_or] at hp
    cases h with
    | star _ hu h =>
      rw [List.mem_append, not_or]
      exact ⟨fun e => hu _ e rfl, ih hp.2 (by simp) _ h⟩
    | lit h => simp at h
    | dirs0 => simp at hr
    | dirs => simp at hr
    | all => simp at hr
  | dirs => intro h; simp at h
  | inside => intro _ h; exact absurd rfl (h rfl)

end Verif.Ignore
