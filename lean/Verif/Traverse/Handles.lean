import Verif.Traverse.Props
import Verif.Ignore.Exec

/-!
# The scan with a limited number of descriptors (C127)

`process_directory` keeps its directory open while it descends (ft_traverse.c L116, L149), so a scan holds one descriptor per level, and one more while it reads an ignore file (ft_ignore.c L365-384).  An
`apr_dir_open` without a free descriptor fails and ends the run; an ignore file that cannot be opened is as if there were none (L128-130).
-/

namespace Verif.Traverse

open Verif.Ignore (Engine Ctx ignoreMatch loadContent Verdict)
open Verif.Report (FileEnt)

/-- `openCtx` with `free` free descriptors: L128 fails without one. -/
def openCtxIn (o : Opts) (fs : FS) (free : Nat) (dir : Path) (chain : List Ctx) : Res (List Ctx) :=
  if free = 0 then .ok chain else openCtx o fs dir chain

/-- ft_traverse.c L153-176 `traverse_recursive` with L112-151 `process_directory`, with `free` free descriptors: L116 takes one, L149 gives it back. -/
def traverseIn (o : Opts) (fs : FS) : Nat → Nat → Path → List Ctx → Res (Bool × List FileEnt)
  | 0, _, _, _ => .div
  | n + 1, free, path, chain => do
    let info ← fileInfo o fs path
    match info with
    | none => .ok (false, [])
    | some i =>
      if o.gitignore && decide (ignoreMatch chain path (decide (i.kind = .dir)) = .ignored) then .ok (true, [])
      else if !permitted o i then .ok (true, [])
      else match i.kind with
        | .dir =>
          if free = 0 then .ok (false, [])
          else match fs.readdir path with
            | none => .ok (false, [])
            | some es => do
              let inner ← openCtxIn o fs (free - 1) path chain
              entries o (fun p => traverseIn o fs n (free - 1) p inner) path es
        | .reg => .ok (true, processFile o path i)
        | .lnk => .ok (true, if o.follow then processFile o path i else [])
        | .other => .ok (true, [])

/-- ftwin.c L86-102 with `free` free descriptors. -/
def scanArgsIn (o : Opts) (fs : FS) (n free : Nat) (resolve : Path → Option Path) : List Path → Res (Bool × List FileEnt)
  | [] => .ok (true, [])
  | a :: as =>
    match resolve a with
    | none => .ok (false, [])
    | some p => do
      let r ← traverseIn o fs n free p o.globals
      if r.1 then do
        let r' ← scanArgsIn o fs n free resolve as
        .ok (r'.1, r.2 ++ r'.2)
      else .ok (false, r.2)

theorem entries_same (o : Opts) (visit visit' : Path → Res (Bool × List FileEnt)) (dir : Path) : ∀ es : List (Path × Kind),
    (∀ e ∈ es, EntryOk o dir e → visit (join dir e.1) = visit' (join dir e.1)) → entries o visit dir es = entries o visit' dir es := by
  intro es
  induction es with
  | nil => intro _; rfl
  | cons e es ih =>
    intro h
    have ih := ih fun x hx => h x (List.mem_cons_of_mem _ hx)
    rw [entries, entries, ih]
    by_cases h1 : skipName o e = true
    · rw [if_pos h1, if_pos h1]
    · by_cases h2 : skipRe o (join dir e.1) = true
      · rw [if_neg h1, if_neg h1, if_pos h2, if_pos h2]
      · rw [if_neg h1, if_neg h1, if_neg h2, if_neg h2, h e List.mem_cons_self ?_]
        exact (skip_iff _ _ _).1 ⟨by simpa using h1, by simpa using h2⟩

/-- `depth` bounds how many levels of directories a directory has in it: it is less for those the scan goes to from there. -/
def Nested (o : Opts) (fs : FS) (depth : Path → Nat) : Prop :=
  ∀ p es e, fs.readdir p = some es → e ∈ es → EntryOk o p e → ∀ i, fs.stat o.follow (join p e.1) = some i → i.kind = .dir → depth (join p e.1) < depth p

/-- **C127, scans.**  With one descriptor per level of directories and one for an ignore file, a scan is that without a limit, however many files and directories there are. -/
theorem scan_within_limit (o : Opts) (fs : FS) (depth : Path → Nat) (hd : Nested o fs depth) :
    ∀ (n free : Nat) (p : Path) (rules : List Ctx), (∀ i, fs.stat o.follow p = some i → i.kind = .dir → depth p + 2 ≤ free) → traverseIn o fs n free p rules = traverse o fs n p rules := by
  intro n
  induction n with
  | zero => intro free p rules _; rfl
  | succ n ih =>
    intro free p rules h
    rw [traverse, traverseIn]
    cases hi : fileInfo o fs p with
    | div => rfl
    | ub => rfl
    | ok info =>
      rw [Res.ok_bind, Res.ok_bind]
      cases info with
      | none => rfl
      | some i =>
        dsimp only
        split
        · rfl
        · split
          · rfl
          · cases hk : i.kind with
            | dir =>
              dsimp only
              have h : depth p + 2 ≤ free := by
                refine h i ?_ hk
                unfold fileInfo at hi
                split at hi
                · rename_i j hj
                  rw [hj]; exact Res.ok.inj hi
                · split at hi <;> cases hi
              rw [if_neg (by omega)]
              cases hr : fs.readdir p with
              | none => rfl
              | some es =>
                dsimp only
                have : openCtxIn o fs (free - 1) p rules = openCtx o fs p rules := if_neg (by omega)
                rw [this]
                cases openCtx o fs p rules with
                | ub => rfl
                | div => rfl
                | ok inner =>
                  rw [Res.ok_bind, Res.ok_bind]
                  refine entries_same o _ _ p es fun e he hok => ih _ _ _ fun j hj hjk => ?_
                  have := hd p es e hr he hok j hj hjk
                  omega
            | reg => rfl
            | lnk => rfl
            | other => rfl

theorem args_within_limit (o : Opts) (fs : FS) (depth : Path → Nat) (hd : Nested o fs depth) (n free : Nat) (resolve : Path → Option Path) : ∀ args : List Path,
    (∀ a ∈ args, ∀ p, resolve a = some p → ∀ i, fs.stat o.follow p = some i → i.kind = .dir → depth p + 2 ≤ free) → scanArgsIn o fs n free resolve args = scanArgs o fs n resolve args := by
  intro args
  induction args with
  | nil => intro _; rfl
  | cons a as ih =>
    intro h
    rw [scanArgsIn, scanArgs, ih fun x hx => h x (List.mem_cons_of_mem _ hx)]
    cases hr : resolve a with
    | none => rfl
    | some p =>
      dsimp only
      rw [scan_within_limit o fs depth hd n free p _ (h a List.mem_cons_self p hr)]

/-! ## Trees that are too deep -/

/-- `k + 1` directories, each inside the one before, and a file in each of them. -/
def deep (k : Nat) : FS where
  stat := fun _ p => some { kind := if p.getLast? = some 'f' then .reg else .dir, size := 1 }
  readdir := fun p => if p.getLast? ≠ some 'd' then none else some (if p.length < 2 * k then [(['f'], .reg), (['d'], .dir)] else [(['f'], .reg)])
  ignore := fun _ => none

theorem join_d (p : Path) (h : p.getLast? = some 'd') (c : Char) : join p [c] = p ++ ['/', c] := by
  unfold join
  rw [if_neg (by rw [h]; decide)]

theorem deep_file (E : Engine) (k n free : Nat) (p : Path) (h : p.getLast? = some 'd') (rules : List Ctx) :
    traverse { engine := E, gitignore := false } (deep k) (n + 1) (join p ['f']) rules = .ok (true, [⟨String.ofList (join p ['f']), 1, 0, false⟩]) ∧
    traverseIn { engine := E, gitignore := false } (deep k) (n + 1) free (join p ['f']) rules = .ok (true, [⟨String.ofList (join p ['f']), 1, 0, false⟩]) := by
  have hl : (join p ['f']).getLast? = some 'f' := by rw [join_d p h]; simp
  constructor
  · rw [traverse]
    simp [fileInfo, deep, hl, permitted, processFile, prioritized, Res.ok_bind]
  · rw [traverseIn]
    simp [fileInfo, deep, hl, permitted, processFile, prioritized, Res.ok_bind]

theorem deep_dir (E : Engine) (k : Nat) : ∀ (m : Nat) (p : Path) (n : Nat) (rules : List Ctx), p.getLast? = some 'd' → p.length + 2 * m = 2 * k + 1 → m + 2 ≤ n →
    (∃ l, traverse { engine := E, gitignore := false } (deep k) n p rules = .ok (true, l) ∧ l.length = m + 1) ∧
    ∀ free ≤ m, ∃ l, traverseIn { engine := E, gitignore := false } (deep k) n free p rules = .ok (false, l) := by
  intro m
  induction m with
  | zero =>
    intro p n rules hp hl hn
    obtain ⟨n, rfl⟩ : ∃ j, n = j + 2 := ⟨n - 2, by omega⟩
    have hr : (deep k).readdir p = some [(['f'], .reg)] := by
      show (if p.getLast? ≠ some 'd' then none else some (if p.length < 2 * k then _ else _)) = _
      rw [if_neg (by simp [hp]), if_neg (by omega)]
    have hs : (deep k).stat false p = some { kind := .dir, size := 1 } := by
      show some ({ kind := if p.getLast? = some 'f' then Kind.reg else .dir, size := 1 } : Finfo) = _
      rw [if_neg (by rw [hp]; decide)]
    constructor
    · refine ⟨[⟨String.ofList (join p ['f']), 1, 0, false⟩], ?_, rfl⟩
      rw [traverse]
      simp only [fileInfo, hs, Res.ok_bind, Bool.false_and, Bool.false_eq_true, if_false, permitted, hr, openCtx]
      simp [entries, skipName, skipRe, (deep_file E k n 0 p hp rules).1, Res.ok_bind]
    · intro free hf
      refine ⟨[], ?_⟩
      rw [traverseIn]
      simp [fileInfo, hs, Res.ok_bind, permitted, show free = 0 by omega]
  | succ m ih =>
    intro p n rules hp hl hn
    obtain ⟨n, rfl⟩ : ∃ j, n = j + 2 := ⟨n - 2, by omega⟩
    have hr : (deep k).readdir p = some [(['f'], .reg), (['d'], .dir)] := by
      show (if p.getLast? ≠ some 'd' then none else some (if p.length < 2 * k then _ else _)) = _
      rw [if_neg (by simp [hp]), if_pos (by omega)]
    have hs : (deep k).stat false p = some { kind := .dir, size := 1 } := by
      show some ({ kind := if p.getLast? = some 'f' then Kind.reg else .dir, size := 1 } : Finfo) = _
      rw [if_neg (by rw [hp]; decide)]
    obtain ⟨⟨l, e1, hlen⟩, e2⟩ := ih (join p ['d']) (n + 1) rules (by rw [join_d p hp]; simp) (by rw [join_d p hp]; simp; omega) (by omega)
    constructor
    · refine ⟨⟨String.ofList (join p ['f']), 1, 0, false⟩ :: l, ?_, by simp [hlen]⟩
      rw [traverse]
      simp only [fileInfo, hs, Res.ok_bind, Bool.false_and, Bool.false_eq_true, if_false, permitted, hr, openCtx]
      simp [entries, skipName, skipRe, (deep_file E k n 0 p hp rules).1, e1, Res.ok_bind]
    · intro free hf
      cases free with
      | zero =>
        refine ⟨[], ?_⟩
        rw [traverseIn]
        simp [fileInfo, hs, Res.ok_bind, permitted]
      | succ free =>
        obtain ⟨l', e3⟩ := e2 free (by omega)
        refine ⟨⟨String.ofList (join p ['f']), 1, 0, false⟩ :: l', ?_⟩
        rw [traverseIn]
        have hctx : openCtxIn { engine := E, gitignore := false } (deep k) free p rules = .ok rules := by
          unfold openCtxIn; split <;> rfl
        simp only [fileInfo, hs, Res.ok_bind, Bool.false_and, Bool.false_eq_true, if_false, permitted, hr, Nat.add_sub_cancel, hctx]
        simp [entries, skipName, skipRe, (deep_file E k n free p hp rules).2, e3, Res.ok_bind]

/-- **C127 and deep trees.**  For every number of descriptors there is a tree that a scan gets through without a limit, finding a file in each of its `k + 1` directories, and that it fails on with `k` free descriptors or less. -/
theorem deep_tree_fails (E : Engine) (k : Nat) : (∃ l, traverse { engine := E, gitignore := false } (deep k) (k + 2) ['d'] [] = .ok (true, l) ∧ l.length = k + 1) ∧
    ∀ free ≤ k, ∃ l, traverseIn { engine := E, gitignore := false } (deep k) (k + 2) free ['d'] [] = .ok (false, l) :=
  deep_dir E k k ['d'] (k + 2) [] rfl (by simp; omega) (Nat.le_refl _)

/-- The tree meets the hypothesis of `scan_within_limit`, with depth `k` at the top. -/
theorem deep_nested (o : Opts) (k : Nat) : Nested o (deep k) fun p => (2 * k + 1 - p.length) / 2 := by
  intro p es e hr he _ i hi hk
  change (if p.getLast? ≠ some 'd' then none else some (if p.length < 2 * k then [(['f'], Kind.reg), (['d'], .dir)] else [(['f'], .reg)])) = some es at hr
  split at hr
  · cases hr
  · rename_i hp
    have hp : p.getLast? = some 'd' := Decidable.not_not.1 hp
    have hf : e.1 ≠ ['f'] := by
      intro h
      have hl : (join p e.1).getLast? = some 'f' := by rw [h, join_d p hp]; simp
      change some ({ kind := if (join p e.1).getLast? = some 'f' then Kind.reg else .dir, size := 1 } : Finfo) = some i at hi
      rw [if_pos hl] at hi
      rw [← Option.some.inj hi] at hk
      cases hk
    split at hr
    · rename_i hlt
      rw [← Option.some.inj hr] at he
      simp only [List.mem_cons, List.not_mem_nil, or_false] at he
      rcases he with rfl | rfl
      · exact absurd rfl hf
      · show (2 * k + 1 - (join p ['d']).length) / 2 < (2 * k + 1 - p.length) / 2
        rw [join_d p hp]
        simp only [List.length_append, List.length_cons, List.length_nil]
        omega
    · rw [← Option.some.inj hr] at he
      simp only [List.mem_cons, List.not_mem_nil, or_false] at he
      rw [he] at hf
      exact absurd rfl hf

/-- An example for `scan_within_limit`: two levels, four descriptors, three files. -/
example (E : Engine) : ∃ l, traverseIn { engine := E, gitignore := false } (deep 2) 4 4 ['d'] [] = .ok (true, l) ∧ l.length = 3 := by
  rw [scan_within_limit _ _ _ (deep_nested _ 2) 4 4 ['d'] [] fun _ _ _ => by decide]
  exact (deep_tree_fails E 2).1

/-- A directory `d` with an ignore file that excludes `f`, and the file `d/f`. -/
def guarded : FS where
  stat := fun _ p => some { kind := if p.getLast? = some 'f' then .reg else .dir, size := 1 }
  readdir := fun _ => some [(['f'], .reg)]
  ignore := fun _ => some ['f', '\n']

/-- **C127 and ignore files.**  With one free descriptor the directory can be opened and its ignore file cannot: without any message the file is taken that the ignore file excludes. -/
theorem ignore_file_dropped : traverse { engine := Ignore.runEngine } guarded 2 ['d'] [] = .ok (true, []) ∧
    traverseIn { engine := Ignore.runEngine } guarded 2 2 ['d'] [] = .ok (true, []) ∧
    traverseIn { engine := Ignore.runEngine } guarded 2 1 ['d'] [] = .ok (true, [⟨"d/f", 1, 0, false⟩]) := by
  decide +kernel

end Verif.Traverse
