import Verif.Traverse.Run
import Verif.Output.Spec

/-!
# Traversals without undefined behaviour (C69, C72)

A traversal of a tree of finite depth is defined if the lines of its ignore files are short (C29) and, with links followed, every path visited exists.
-/

namespace Verif.Traverse

open Verif.Ignore (Engine Ctx ignoreMatch loadContent addPattern Verdict gets chomp)
open Verif.Report (FileEnt World Outcome)
open Verif.Output (cutAt)

/-- Every line has at most 908 characters. -/
def ShortLines (content : List Char) : Prop := ∀ l ∈ cutAt '\n' content [], l.length ≤ 908

theorem cutAt_long (sep : Char) : ∀ (s acc : List Char), ∃ l ∈ cutAt sep s acc, acc.length ≤ l.length := by
  intro s
  induction s with
  | nil => intro acc; exact ⟨acc.reverse, by simp [cutAt], by simp⟩
  | cons c s ih =>
    intro acc
    rw [cutAt]
    split
    · exact ⟨acc.reverse, by simp, by simp⟩
    · obtain ⟨l, h1, h2⟩ := ih (c :: acc)
      exact ⟨l, h1, by simp at h2; omega⟩

theorem gets_short : ∀ (s acc : List Char) (k : Nat), (∀ l ∈ cutAt '\n' s acc, l.length ≤ 908) → 909 ≤ acc.length + k →
    (∃ r, gets k s = (r, []) ∧ acc.length + r.length ≤ 908) ∨
    (∃ r s2, gets k s = (r ++ ['\n'], s2) ∧ acc.length + r.length ≤ 908 ∧ ∀ l ∈ cutAt '\n' s2 [], l.length ≤ 908) := by
  intro s
  induction s with
  | nil =>
    intro acc k h hk
    have := h acc.reverse (by simp [cutAt])
    left
    refine ⟨[], ?_, by simpa using this⟩
    cases k <;> rfl
  | cons c s ih =>
    intro acc k h hk
    obtain ⟨l, hl, hlen⟩ := cutAt_long '\n' (c :: s) acc
    have hacc := Nat.le_trans hlen (h l hl)
    cases k with
    | zero => omega
    | succ k =>
      rw [cutAt] at h
      by_cases hc : c = '\n'
      · rw [if_pos hc] at h
        right
        refine ⟨[], s, ?_, by simpa using hacc, fun l hl => h l (by simp [hl])⟩
        simp [gets, hc]
      · rw [if_neg hc] at h
        rw [gets, if_neg hc]
        rcases ih (c :: acc) k h (by simp; omega) with ⟨r, e, hr⟩ | ⟨r, s2, e, hr, h2⟩
        · left
          exact ⟨c :: r, by rw [e], by simp at hr ⊢; omega⟩
        · right
          exact ⟨c :: r, s2, by rw [e]; rfl, by simp at hr ⊢; omega, h2⟩

theorem chomp_le (l : List Char) : (chomp l).length ≤ l.length := by
  unfold chomp
  simp only
  split <;> split <;> simp <;> omega

theorem chomp_line (r : List Char) : (chomp (r ++ ['\n'])).length ≤ r.length := by
  unfold chomp
  simp only [List.getLast?_append, List.getLast?_singleton, Option.some_or, if_true, List.dropLast_concat]
  split <;> simp

theorem addPattern_short (E : Engine) (ps : List Ignore.Pattern) (s : List Char) (h : s.length ≤ 908) : ∃ ps', addPattern E ps s = .ok ps' := by
  obtain ⟨ps', e⟩ := fold_ok E [s] ps (by simpa using h)
  refine ⟨ps', ?_⟩
  rw [List.foldlM_cons, Res.bind_eq_ok] at e
  obtain ⟨x, e1, e2⟩ := e
  injection e2 with e2
  rw [e1, e2]

/-- An ignore file with short lines is loaded. -/
theorem loadContent_short (E : Engine) : ∀ (n : Nat) (s : List Char) (ps : List Ignore.Pattern), s.length < n → ShortLines s → ∃ ps', loadContent E n s ps = .ok ps' := by
  intro n
  induction n with
  | zero => intro s ps h; omega
  | succ n ih =>
    intro s ps h hs
    cases s with
    | nil => exact ⟨ps, by simp [loadContent]⟩
    | cons c s =>
      have hsh := gets_shrinks 4094 c s
      have hlen : ∃ line rest, gets (Ignore.maxLen - 1) (c :: s) = (line, rest) ∧ (chomp line).length ≤ 908 ∧ ShortLines rest := by
        rcases gets_short (c :: s) [] 4095 hs (by simp) with ⟨r, e, hr⟩ | ⟨r, s2, e, hr, h2⟩
        · exact ⟨r, [], e, Nat.le_trans (chomp_le r) (by simpa using hr), by intro l hl; simp [cutAt] at hl; subst hl; simp⟩
        · exact ⟨_, s2, e, Nat.le_trans (chomp_line r) (by simpa using hr), h2⟩
      obtain ⟨line, rest, e, h1, h2⟩ := hlen
      have hsh : (gets (Ignore.maxLen - 1) (c :: s)).2.length < (c :: s).length := hsh
      rw [e] at hsh
      obtain ⟨ps1, e1⟩ := addPattern_short E ps (chomp line) h1
      obtain ⟨ps2, e2⟩ := ih rest ps1 (by simp only [List.length_cons] at h hsh; omega) h2
      refine ⟨ps2, ?_⟩
      rw [loadContent]
      · rw [e, e1, Res.ok_bind]; exact e2
      · simp

/-- Nothing undefined happens at a path. -/
def Clear (o : Opts) (fs : FS) (q : Path) : Prop :=
  (o.follow = true → (fs.stat true q).isSome) ∧ ∀ content, fs.ignore q = some content → ShortLines content

theorem traversal_defined (o : Opts) (fs : FS) : ∀ (n : Nat) (p : Path) (rules : List Ctx),
    (∀ q rules', Visits o fs p rules q rules' → Clear o fs q) → traverse o fs n p rules ≠ .ub := by
  intro n
  induction n with
  | zero => intro p rules _; simp [traverse]
  | succ n ih =>
    intro p rules hc
    rw [traverse]
    have h0 := hc p rules .here
    have hfi : fileInfo o fs p ≠ .ub := by
      unfold fileInfo
      split
      · simp
      · rename_i hs
        split
        · rename_i hf
          rw [hf] at hs
          have := h0.1 hf
          rw [hs] at this; cases this
        · simp
    cases hf : fileInfo o fs p with
    | div => simp
    | ub => exact absurd hf hfi
    | ok info =>
      rw [Res.ok_bind]
      cases info with
      | none => simp
      | some i =>
        dsimp only
        split
        · simp
        · rename_i hig
          split
          · simp
          · rename_i hp
            split
            · rename_i hk
              split
              · simp
              · rename_i es hr
                have hent : Enters o fs p rules i := by
                  refine ⟨fileInfo_some.mp hf, ?_, (permitted_iff o i).mp (by simpa using hp)⟩
                  intro hg hm
                  apply hig
                  simp [hg, hm]
                cases hctx : openCtx o fs p rules with
                | div => simp
                | ub =>
                  exfalso
                  unfold openCtx at hctx
                  split at hctx
                  · split at hctx
                    · simp at hctx
                    · rename_i content hcont
                      obtain ⟨ps, e⟩ := loadContent_short o.engine (content.length + 1) content [] (by omega) (h0.2 content hcont)
                      rw [e] at hctx; simp at hctx
                  · simp at hctx
                | ok inner =>
                  rw [Res.ok_bind]
                  have hin := (openCtx_iff o fs p rules inner).mp hctx
                  have key : ∀ sub : List (Path × Kind), (∀ e ∈ sub, e ∈ es) → entries o (fun q => traverse o fs n q inner) p sub ≠ .ub := by
                    intro sub
                    induction sub with
                    | nil => intro _; simp [entries]
                    | cons e sub ih2 =>
                      intro hsub
                      have ih2 := ih2 (fun x hx => hsub x (List.mem_cons_of_mem _ hx))
                      rw [entries]
                      split
                      · exact ih2
                      · split
                        · exact ih2
                        · rename_i hs1 hs2
                          have hok : EntryOk o p e := (skip_iff o p e).mp ⟨by simpa using hs1, by simpa using hs2⟩
                          have hv := ih (join p e.1) inner (fun q r v => hc q r (.down hent hk hr (hsub e (List.mem_cons_self ..)) hok hin v))
                          cases hv' : traverse o fs n (join p e.1) inner with
                          | ub => exact absurd hv' hv
                          | div => simp
                          | ok r =>
                            rw [Res.ok_bind]
                            split
                            · cases hE : entries o (fun q => traverse o fs n q inner) p sub with
                              | ub => exact absurd hE ih2
                              | div => simp
                              | ok r' => simp
                            · simp
                  exact key es (fun _ h => h)
            · simp
            · simp
            · simp

/-- A scan of trees of finite depth in which nothing undefined happens has a result. -/
theorem scan_defined (o : Opts) (fs : FS) (n : Nat) (resolve : Path → Option Path) (depth : Path → Nat)
    (hd : ∀ p es e, fs.readdir p = some es → e ∈ es → EntryOk o p e → depth (join p e.1) < depth p) : ∀ (args : List Path),
    (∀ a ∈ args, ∀ p, resolve a = some p → depth p < n ∧ ∀ q rules', Visits o fs p o.globals q rules' → Clear o fs q) →
    ∃ b l, scanArgs o fs n resolve args = .ok (b, l) := by
  intro args
  induction args with
  | nil => intro _; exact ⟨true, [], rfl⟩
  | cons a as ih =>
    intro h
    obtain ⟨b2, l2, e2⟩ := ih (fun x hx => h x (List.mem_cons_of_mem _ hx))
    rw [scanArgs]
    cases hr : resolve a with
    | none => exact ⟨false, [], rfl⟩
    | some p =>
      dsimp only
      obtain ⟨h1, h2⟩ := h a (List.mem_cons_self ..) p hr
      cases ht : traverse o fs n p o.globals with
      | ub => exact absurd ht (traversal_defined o fs n p _ h2)
      | div => exact absurd ht (traversal_terminates o fs depth hd n p _ h1)
      | ok r =>
        rw [Res.ok_bind]
        split
        · rw [e2, Res.ok_bind]; exact ⟨_, _, rfl⟩
        · exact ⟨_, _, rfl⟩

/-- **C69.**  A scan succeeds exactly if all arguments can be resolved and nothing goes wrong at any path visited. -/
theorem scan_succeeds_iff (o : Opts) (fs : FS) (n : Nat) (resolve : Path → Option Path) : ∀ (args : List Path) (b : Bool) (l : List FileEnt),
    scanArgs o fs n resolve args = .ok (b, l) →
    (b = true ↔ ∀ a ∈ args, ∃ p, resolve a = some p ∧ ∀ q rules, Visits o fs p o.globals q rules → Healthy o fs q rules) := by
  intro args
  induction args with
  | nil => intro b l h; rw [scanArgs] at h; injection h with h; injection h with h _; subst h; simp
  | cons a as ih =>
    intro b l h
    rw [scanArgs] at h
    cases hr : resolve a with
    | none =>
      rw [hr] at h; simp at h
      rw [h.1]
      simp [hr]
    | some p =>
      rw [hr] at h
      dsimp only at h
      rw [Res.bind_eq_ok] at h
      obtain ⟨⟨b1, l1⟩, ht, h⟩ := h
      have h1 := traversal_succeeds_iff o fs n p o.globals b1 l1 ht
      cases b1 with
      | false =>
        simp at h
        rw [h.1]
        simp only [Bool.false_eq_true, false_iff] at h1 ⊢
        intro hall
        obtain ⟨p', e', h'⟩ := hall a (List.mem_cons_self ..)
        rw [hr] at e'; injection e' with e'; subst e'
        exact h1 h'
      | true =>
        simp only [if_true] at h
        rw [Res.bind_eq_ok] at h
        obtain ⟨⟨b2, l2⟩, hs, h⟩ := h
        injection h with h; injection h with h2 h3; subst h2
        rw [ih b2 l2 hs]
        simp only [List.mem_cons, forall_eq_or_imp, hr, Option.some.injEq, exists_eq_left']
        simp only [true_iff] at h1
        exact ⟨fun h => ⟨h1, h⟩, fun h => h.2⟩

end Verif.Traverse
