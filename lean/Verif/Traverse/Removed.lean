import Verif.Traverse.Run

/-!
# Scanning again after files have been removed (C126)

What `rm` does to the file system as the traversal sees it: the path cannot be examined any more, the directory no longer lists it, and an ignore file that is removed is not read.
-/

namespace Verif.Traverse

open Verif.Ignore (Ctx)
open Verif.Report (FileEnt)

/-- The file system without the paths `gone`. -/
def FS.without (fs : FS) (gone : Path → Bool) : FS where
  stat := fun b p => if gone p then none else fs.stat b p
  readdir := fun p => (fs.readdir p).map fun es => es.filter fun e => !gone (join p e.1)
  ignore := fun d => if gone (join d ".gitignore".toList) then none else fs.ignore d

/-- The file is not one of those removed. -/
def stays (gone : Path → Bool) (f : FileEnt) : Bool := !gone f.path.toList

theorem processFile_stays (o : Opts) (gone : Path → Bool) (p : Path) (i : Finfo) : (processFile o p i).filter (stays gone) = if gone p then [] else processFile o p i := by
  unfold processFile stays
  split
  · cases hg : gone p <;> simp [hg]
  · cases hg : gone p <;> simp

theorem entries_without (o : Opts) (gone : Path → Bool) (visit visit' : Path → Res (Bool × List FileEnt)) (dir : Path) : ∀ (es : List (Path × Kind)) (l : List FileEnt),
    (∀ e ∈ es, ∀ le, visit (join dir e.1) = .ok (true, le) →
      if gone (join dir e.1) then le.filter (stays gone) = [] else visit' (join dir e.1) = .ok (true, le.filter (stays gone))) →
    entries o visit dir es = .ok (true, l) →
    entries o visit' dir (es.filter fun e => !gone (join dir e.1)) = .ok (true, l.filter (stays gone)) := by
  intro es
  induction es with
  | nil =>
    intro l _ h
    rw [entries] at h
    injection h with h; injection h with _ h2; subst h2
    rfl
  | cons e es ih =>
    intro l hv h
    have ih := fun l => ih l (fun x hx => hv x (List.mem_cons_of_mem _ hx))
    have hve := hv e (List.mem_cons_self ..)
    rw [entries] at h
    by_cases hg : gone (join dir e.1) = true
    · rw [List.filter_cons_of_neg (by simp [hg])]
      split at h
      · exact ih l h
      · split at h
        · exact ih l h
        · rw [Res.bind_eq_ok] at h
          obtain ⟨⟨b, le⟩, hx, h⟩ := h
          cases b with
          | false => simp at h
          | true =>
            rw [if_pos rfl, Res.bind_eq_ok] at h
            obtain ⟨⟨b, lr⟩, hr, h⟩ := h
            injection h with h; injection h with h1 h2
            dsimp only at h1 h2; subst h1; subst h2
            have := hve le hx
            rw [if_pos hg] at this
            rw [List.filter_append, this, List.nil_append]
            exact ih lr hr
    · rw [List.filter_cons_of_pos (by simp [hg]), entries]
      split at h
      · rename_i hs; rw [if_pos hs]; exact ih l h
      · rename_i hs
        rw [if_neg hs]
        split at h
        · rename_i hr; rw [if_pos hr]; exact ih l h
        · rename_i hr
          rw [if_neg hr]
          rw [Res.bind_eq_ok] at h
          obtain ⟨⟨b, le⟩, hx, h⟩ := h
          cases b with
          | false => simp at h
          | true =>
            rw [if_pos rfl, Res.bind_eq_ok] at h
            obtain ⟨⟨b, lr⟩, hrest, h⟩ := h
            injection h with h; injection h with h1 h2
            dsimp only at h1 h2; subst h1; subst h2
            have := hve le hx
            rw [if_neg hg] at this
            rw [this, Res.ok_bind, if_pos rfl, ih lr hrest, Res.ok_bind, List.filter_append]

/-- What is removed are no directories and no ignore files. -/
structure Removable (o : Opts) (fs : FS) (gone : Path → Bool) : Prop where
  files : ∀ p, gone p = true → ∀ i, fs.stat o.follow p = some i → i.kind ≠ .dir
  rules : ∀ d, gone (join d ".gitignore".toList) = false

theorem traverse_gone {o : Opts} {fs : FS} {gone : Path → Bool} (hr : Removable o fs gone) (n : Nat) (p : Path) (rules : List Ctx) (l : List FileEnt) (hg : gone p = true)
    (h : traverse o fs n p rules = .ok (true, l)) : l.filter (stays gone) = [] := by
  cases n with
  | zero => cases h
  | succ n =>
    rw [traverse, Res.bind_eq_ok] at h
    obtain ⟨info, hi, h⟩ := h
    cases info with
    | none => simp at h
    | some i =>
      have hk := hr.files p hg i (fileInfo_some.mp hi)
      dsimp only at h
      split at h
      · injection h with h; injection h with _ h; subst h; rfl
      · split at h
        · injection h with h; injection h with _ h; subst h; rfl
        · cases hki : i.kind with
          | dir => exact absurd hki hk
          | reg => rw [hki] at h; injection h with h; injection h with _ h; subst h; rw [processFile_stays, if_pos hg]
          | lnk =>
            rw [hki] at h; injection h with h; injection h with _ h; subst h
            split
            · rw [processFile_stays, if_pos hg]
            · rfl
          | other => rw [hki] at h; injection h with h; injection h with _ h; subst h; rfl

theorem traverse_without {o : Opts} {fs : FS} {gone : Path → Bool} (hr : Removable o fs gone) : ∀ (n : Nat) (p : Path) (rules : List Ctx) (l : List FileEnt), gone p = false →
    traverse o fs n p rules = .ok (true, l) → traverse o (fs.without gone) n p rules = .ok (true, l.filter (stays gone)) := by
  intro n
  induction n with
  | zero => intro p rules l _ h; cases h
  | succ n ih =>
    intro p rules l hg h
    rw [traverse] at h
    rw [traverse]
    have hfi : fileInfo o (fs.without gone) p = fileInfo o fs p := by
      unfold fileInfo
      rw [show (fs.without gone).stat o.follow p = fs.stat o.follow p by show (if gone p then none else _) = _; rw [hg]; rfl]
    have hoc : openCtx o (fs.without gone) p rules = openCtx o fs p rules := by
      unfold openCtx
      rw [show (fs.without gone).ignore p = fs.ignore p by show (if gone _ then none else _) = _; rw [hr.rules]; rfl]
    rw [hfi]
    cases hi : fileInfo o fs p with
    | ub => rw [hi] at h; cases h
    | div => rw [hi] at h; cases h
    | ok info =>
      rw [hi, Res.ok_bind] at h
      rw [Res.ok_bind]
      cases info with
      | none => simp at h
      | some i =>
        dsimp only at h ⊢
        split at h
        · rename_i h1
          rw [if_pos h1]
          injection h with h; injection h with _ h; subst h; rfl
        · rename_i h1
          rw [if_neg h1]
          split at h
          · rename_i h2
            rw [if_pos h2]
            injection h with h; injection h with _ h; subst h; rfl
          · rename_i h2
            rw [if_neg h2]
            cases hk : i.kind with
            | reg =>
              rw [hk] at h; injection h with h; injection h with _ h; subst h
              dsimp only
              rw [processFile_stays, hg]; rfl
            | lnk =>
              rw [hk] at h; injection h with h; injection h with _ h; subst h
              dsimp only
              split
              · rw [processFile_stays, hg]; rfl
              · rfl
            | other => rw [hk] at h; injection h with h; injection h with _ h; subst h; rfl
            | dir =>
              rw [hk] at h
              dsimp only at h ⊢
              rw [show (fs.without gone).readdir p = (fs.readdir p).map fun es => es.filter fun e => !gone (join p e.1) from rfl]
              cases hd : fs.readdir p with
              | none => rw [hd] at h; simp at h
              | some es =>
                rw [hd] at h
                dsimp only [Option.map_some] at h ⊢
                rw [hoc]
                cases hc : openCtx o fs p rules with
                | ub => rw [hc] at h; cases h
                | div => rw [hc] at h; cases h
                | ok inner =>
                  rw [hc, Res.ok_bind] at h
                  rw [Res.ok_bind]
                  refine entries_without o gone _ _ p es l ?_ h
                  intro e _ le hv
                  split
                  · rename_i hge; exact traverse_gone hr n _ _ _ hge hv
                  · rename_i hge; exact ih _ _ _ (by simpa using hge) hv

/-- After files have been removed a scan finds the files it found before that are left, in the same order: if no argument, no directory and no ignore file was removed. -/
theorem scan_without {o : Opts} {fs : FS} {gone : Path → Bool} (hr : Removable o fs gone) {n : Nat} {resolve : Path → Option Path} : ∀ {args : List Path} {l : List FileEnt},
    (∀ a ∈ args, ∀ p, resolve a = some p → gone p = false) → scanArgs o fs n resolve args = .ok (true, l) →
    scanArgs o (fs.without gone) n resolve args = .ok (true, l.filter (stays gone)) := by
  intro args
  induction args with
  | nil =>
    intro l _ h
    rw [scanArgs] at h
    injection h with h; injection h with _ h; subst h; rfl
  | cons a as ih =>
    intro l hg h
    rw [scanArgs] at h
    rw [scanArgs]
    cases hp : resolve a with
    | none => rw [hp] at h; simp at h
    | some p =>
      rw [hp] at h
      dsimp only at h ⊢
      rw [Res.bind_eq_ok] at h
      obtain ⟨⟨b, l1⟩, h1, h⟩ := h
      cases b with
      | false => simp at h
      | true =>
        rw [if_pos rfl, Res.bind_eq_ok] at h
        obtain ⟨⟨b, l2⟩, h2, h⟩ := h
        injection h with h; injection h with hb hl
        dsimp only at hb hl; subst hb; subst hl
        rw [traverse_without hr n p o.globals l1 (hg a (by simp) p hp) h1, Res.ok_bind, if_pos rfl,
          ih (fun x hx => hg x (List.mem_cons_of_mem _ hx)) h2, Res.ok_bind, List.filter_append]

/-- If an argument was removed the scan fails. -/
theorem scan_lost {o : Opts} {fs : FS} {gone : Path → Bool} (hr : Removable o fs gone) (hf : o.follow = false) {n : Nat} {resolve : Path → Option Path} : ∀ {args : List Path} {l : List FileEnt},
    (∃ a ∈ args, ∃ p, resolve a = some p ∧ gone p = true) → scanArgs o fs n resolve args = .ok (true, l) →
    ∃ l', scanArgs o (fs.without gone) n resolve args = .ok (false, l') := by
  intro args
  induction args with
  | nil => rintro l ⟨a, ha, -⟩ _; cases ha
  | cons a as ih =>
    intro l hg h
    rw [scanArgs] at h
    rw [scanArgs]
    cases hp : resolve a with
    | none => rw [hp] at h; simp at h
    | some p =>
      rw [hp] at h
      dsimp only at h ⊢
      rw [Res.bind_eq_ok] at h
      obtain ⟨⟨b, l1⟩, h1, h⟩ := h
      cases b with
      | false => simp at h
      | true =>
        rw [if_pos rfl, Res.bind_eq_ok] at h
        obtain ⟨⟨b, l2⟩, h2, h⟩ := h
        injection h with h; injection h with hb hl
        dsimp only at hb hl; subst hb; subst hl
        cases hgp : gone p with
        | true =>
          have : traverse o (fs.without gone) n p o.globals = .ok (false, []) := by
            cases n with
            | zero => cases h1
            | succ n =>
              rw [traverse]
              have h0 : (fs.without gone).stat o.follow p = none := by show (if gone p then none else _) = _; rw [hgp]; rfl
              have hn : fileInfo o (fs.without gone) p = .ok none := by
                unfold fileInfo
                rw [h0, hf]; rfl
              rw [hn]; rfl
          rw [this]; exact ⟨_, rfl⟩
        | false =>
          have hg : ∃ a ∈ as, ∃ p, resolve a = some p ∧ gone p = true := by
            obtain ⟨x, hx, q, hq, hgq⟩ := hg
            rcases List.mem_cons.mp hx with rfl | hx
            · rw [hp] at hq; cases hq; rw [hgp] at hgq; cases hgq
            · exact ⟨x, hx, q, hq, hgq⟩
          obtain ⟨l', hl⟩ := ih hg h2
          rw [traverse_without hr n p o.globals l1 hgp h1, Res.ok_bind, if_pos rfl, hl]
          exact ⟨_, rfl⟩

/-- In `exFS` the file `d/a` is removed. -/
example : scanArgs { engine := noEngine } ((exFS true).without (· == "d/a".toList)) 5 some [['d']] = .ok (true, [⟨"d/b/c", 3, 0, false⟩]) := by
  have h0 : scanArgs { engine := noEngine } (exFS true) 5 some [['d']] = .ok (true, [⟨"d/a", 3, 0, false⟩, ⟨"d/b/c", 3, 0, false⟩]) := by decide +kernel
  refine scan_without ⟨?_, ?_⟩ ?_ h0
  · intro p hp i hi
    have : p = "d/a".toList := by simpa using hp
    subst this
    have : some { kind := Kind.reg, size := 3 } = some i := hi
    rw [← Option.some.inj this]; decide
  · intro d
    unfold join
    split <;> simp only [beq_eq_false_iff_ne, ne_eq] <;> intro e <;> have := congrArg List.getLast? e <;> simp at this
  · intro a ha p hp
    simp only [List.mem_cons, List.not_mem_nil, or_false] at ha
    subst ha
    rw [← Option.some.inj hp]; decide

end Verif.Traverse
