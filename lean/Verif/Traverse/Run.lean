import Verif.Traverse.Props

/-! # The whole run (C13, C30, C65, C69) and the places where the traversal surprises (C70, C71, C74, C75) -/

namespace Verif.Traverse

open Verif.Ignore (Engine Ctx ignoreMatch loadContent addPattern Verdict render PathMatch Glob)
open Verif.Report (FileEnt World Outcome)

/-! ## All arguments -/

theorem scanArgs_exact (o : Opts) (fs : FS) (n : Nat) (resolve : Path → Option Path) : ∀ (args : List Path) (l : List FileEnt),
    scanArgs o fs n resolve args = .ok (true, l) →
      ∀ f, f ∈ l ↔ ∃ a ∈ args, ∃ p, resolve a = some p ∧ Selected o fs p o.globals f := by
  intro args
  induction args with
  | nil =>
    intro l h f
    rw [scanArgs] at h; injection h with h; injection h with _ h; subst h; simp
  | cons a as ih =>
    intro l h f
    rw [scanArgs] at h
    cases hr : resolve a with
    | none => rw [hr] at h; simp at h
    | some p =>
      rw [hr] at h
      dsimp only at h
      rw [Res.bind_eq_ok] at h
      obtain ⟨⟨b1, l1⟩, ht, h⟩ := h
      cases b1 with
      | false => simp at h
      | true =>
        simp only [if_true] at h
        rw [Res.bind_eq_ok] at h
        obtain ⟨⟨b2, l2⟩, hs, h⟩ := h
        injection h with h; injection h with h1 h2; subst h1; subst h2
        rw [List.mem_append, traversal_exact o fs n p _ _ ht f, ih _ hs f]
        simp [hr]

/-- **C30, C12, C13 end to end.**  A run whose scan succeeds, on files that can be read and do not change, without digest
collision within a size, lists exactly the sets of identical selected files. -/
theorem run_reports_identical_selected_files_partial [DecidableEq η] (o : Opts) (fs : FS) (n : Nat) (resolve : Path → Option Path)
    (disk : String → File.OnDisk) (H : File.Bytes → η) (excess ioFuel : Nat) (base : World η) (json : Bool) (args : List Path)
    (cands : List FileEnt) (hscan : scanArgs o fs n resolve args = .ok (true, cands)) (hne : cands ≠ [])
    (hl : Report.Limits base cands) (ho : Report.HashOrder base.hcmp) (hq : Report.Sorts base)
    (hsize : ∀ f ∈ cands, f.size = (disk f.path).bytes.length) (hio : ∀ f ∈ cands, f.size < ioFuel)
    (hread : ∀ f ∈ cands, (disk f.path).openOk = true ∧ (disk f.path).closeOk = true ∧ (disk f.path).sched = [])
    (hcol : ∀ f ∈ cands, ∀ g ∈ cands, f.size = g.size → H (disk f.path).bytes = H (disk g.path).bytes → (disk f.path).bytes = (disk g.path).bytes) :
    ∃ out gs, run o fs n resolve (Report.diskWorld disk H excess ioFuel base) json args = .ok (some out) ∧ out.groups = some gs ∧
      Report.Exact (fun f => (disk f.path).bytes) cands (gs.map (·.files)) ∧
      ∀ f, f ∈ cands ↔ ∃ a ∈ args, ∃ p, resolve a = some p ∧ Selected o fs p o.globals f := by
  obtain ⟨out, gs, h1, h2, h3⟩ := Report.ftwin_reports_identical_files_partial disk H excess ioFuel base json cands hl ho hq hsize hio hread hcol
  refine ⟨out, gs, ?_, h2, h3, scanArgs_exact o fs n resolve args cands hscan⟩
  simp [run, hscan, hne, h1, h2]

/-- **C65** (part): one argument, any tree: no path is listed twice, in the same group or in two. -/
theorem one_argument_no_path_twice_partial [DecidableEq η] (o : Opts) (fs : FS) (n : Nat) (resolve : Path → Option Path) (w : World η) (json : Bool)
    (a : Path) (out : Outcome η) (gs : List (Report.Group η)) (hfs : ListingOk fs) (hq : ∀ l, (w.qs l).Perm l)
    (hl : ∀ cands, scanArgs o fs n resolve [a] = .ok (true, cands) → Report.Limits w cands)
    (h : run o fs n resolve w json [a] = .ok (some out)) (hg : out.groups = some gs) :
    ((gs.flatMap (·.files)).map (·.path)).Nodup := by
  unfold run at h
  rw [Res.bind_eq_ok] at h
  obtain ⟨⟨b, l⟩, hs, h⟩ := h
  cases b with
  | false => simp at h
  | true =>
    simp only [Bool.not_true, Bool.false_eq_true, if_false] at h
    split at h
    · simp at h
    · rw [Res.bind_eq_ok] at h
      obtain ⟨out', hf, h⟩ := h
      injection h with h
      split at h
      · injection h with h; subst h
        refine Report.no_path_twice_partial w json l out' gs (hl l hs) hq ?_ hf hg
        rw [scanArgs] at hs
        cases hr : resolve a with
        | none => rw [hr] at hs; simp at hs
        | some p =>
          rw [hr] at hs
          dsimp only at hs
          rw [Res.bind_eq_ok] at hs
          obtain ⟨⟨b1, l1⟩, ht, hs⟩ := hs
          cases b1 with
          | false => simp at hs
          | true =>
            simp [scanArgs] at hs
            subst hs
            exact no_file_offered_twice o fs hfs n p _ _ ht
      · simp at h

/-- **C69 is false.**  If anything goes wrong at one visited path below one argument, the run reports nothing. -/
theorem one_bad_directory_fails_run [DecidableEq η] (o : Opts) (fs : FS) (n : Nat) (resolve : Path → Option Path) (w : World η) (json : Bool)
    (args : List Path) (a p q : Path) (rules : List Ctx) (ha : a ∈ args) (hr : resolve a = some p) (hv : Visits o fs p o.globals q rules)
    (hbad : ¬ Healthy o fs q rules) : ∀ out, run o fs n resolve w json args ≠ .ok (some out) := by
  intro out h
  unfold run at h
  rw [Res.bind_eq_ok] at h
  obtain ⟨⟨b, l⟩, hs, h⟩ := h
  cases b with
  | false => simp at h
  | true =>
    clear h
    induction args generalizing l with
    | nil => simp at ha
    | cons x xs ih =>
      rw [scanArgs] at hs
      cases hrx : resolve x with
      | none => rw [hrx] at hs; simp at hs
      | some px =>
        rw [hrx] at hs
        dsimp only at hs
        rw [Res.bind_eq_ok] at hs
        obtain ⟨⟨b1, l1⟩, ht, hs⟩ := hs
        cases b1 with
        | false => simp at hs
        | true =>
          simp only [if_true] at hs
          rw [Res.bind_eq_ok] at hs
          obtain ⟨⟨b2, l2⟩, hs', hs⟩ := hs
          injection hs with hs; injection hs with h1 h2; subst h1
          rcases List.mem_cons.mp ha with rfl | ha
          · rw [hr] at hrx; injection hrx with hrx; subst hrx
            exact hbad ((traversal_succeeds_iff o fs n _ _ _ _ ht).mp rfl _ _ hv)
          · exact ih ha l2 hs'

/-! ## A small file system -/

/-- A directory `d` with the file `d/a` and the directory `d/b`, which holds `d/b/c`. -/
def exFS (listB : Bool) : FS where
  stat _ p :=
    if p = ['d'] then some { kind := .dir }
    else if p = ['d', '/', 'a'] then some { kind := .reg, size := 3 }
    else if p = ['d', '/', 'b'] then some { kind := .dir }
    else if p = ['d', '/', 'b', '/', 'c'] then some { kind := .reg, size := 3 }
    else none
  readdir p :=
    if p = ['d'] then some [(['.'], .dir), (['a'], .reg), (['b'], .dir)]
    else if p = ['d', '/', 'b'] then (if listB then some [(['c'], .reg)] else none)
    else none
  ignore _ := none

def noEngine : Engine := fun _ => none

def pathsOf : Res (Bool × List FileEnt) → Option (Bool × List String)
  | .ok (b, l) => some (b, l.map (·.path))
  | _ => none

/-- Both files are found. -/
example : pathsOf (traverse { engine := noEngine } (exFS true) 3 ['d'] []) = some (true, ["d/a", "d/b/c"]) := by decide +kernel

/-- With a directory that cannot be listed the traversal fails. -/
example : pathsOf (traverse { engine := noEngine } (exFS false) 3 ['d'] []) = some (false, ["d/a"]) := by decide +kernel

/-- It is visited and not healthy: `one_bad_directory_fails_run` applies. -/
example : ∃ rules, Visits { engine := noEngine } (exFS false) ['d'] [] ['d', '/', 'b'] rules ∧ ¬ Healthy { engine := noEngine } (exFS false) ['d', '/', 'b'] rules := by
  refine ⟨[], .down (i := { kind := .dir }) (e := (['b'], .dir)) ⟨rfl, by decide, Or.inl rfl⟩ rfl rfl (by decide) ?_ (Or.inr ⟨Or.inr rfl, rfl⟩) .here, ?_⟩
  · exact ⟨by decide, by decide, fun _ => rfl, by simp, by simp⟩
  · rintro ⟨_, h⟩
    have := h { kind := .dir } ⟨rfl, by decide, Or.inl rfl⟩ rfl
    cases this

/-- The end-to-end theorem applied: both files hold the same three bytes. -/
example : ∃ out gs, run { engine := noEngine } (exFS true) 3 some (Report.diskWorld (fun _ => ⟨[1, 2, 3], [], true, true, true⟩) Report.exHash 2 4 Report.exWorld) true [['d']] = .ok (some out) ∧
    out.groups = some gs ∧ Report.Exact (fun _ => ([1, 2, 3] : File.Bytes)) [⟨"d/a", 3, 0, false⟩, ⟨"d/b/c", 3, 0, false⟩] (gs.map (·.files)) := by
  obtain ⟨out, gs, h1, h2, h3, _⟩ := run_reports_identical_selected_files_partial { engine := noEngine } (exFS true) 3 some
    (fun _ => ⟨[1, 2, 3], [], true, true, true⟩) Report.exHash 2 4 Report.exWorld true [['d']] [⟨"d/a", 3, 0, false⟩, ⟨"d/b/c", 3, 0, false⟩]
    (by decide +kernel) (by simp) (Report.natWorld_limits _ _ _ [3] (by decide) (by decide) (by decide)) (Report.natWorld_order _ _)
    (Report.natWorld_sorts _ _) (by decide) (by decide) (by simp) (by simp)
  exact ⟨out, gs, h1, h2, h3⟩

theorem exFS_listing : ListingOk (exFS true) := by
  intro p es h
  unfold exFS at h
  dsimp only at h
  split at h
  · injection h with h; subst h; exact ⟨by decide, by decide⟩
  · split at h
    · simp at h; subst h; exact ⟨by decide, by decide⟩
    · simp at h

/-- Its depth is finite: `traversal_terminates` applies. -/
example : ∀ p es e, (exFS true).readdir p = some es → e ∈ es → EntryOk { engine := noEngine } p e → 10 - (join p e.1).length < 10 - p.length := by
  intro p es e h he _
  unfold exFS at h
  dsimp only at h
  split at h
  · rename_i hp; subst hp; injection h with h; subst h
    simp at he; rcases he with rfl | rfl | rfl <;> decide
  · split at h
    · rename_i hp; subst hp; simp at h; subst h
      simp at he; subst he; decide
    · simp at h

/-! ## C70, C71: the default patterns -/

/-- Patterns of an outermost context at `/` say nothing about relative paths. -/
theorem relative_paths_escape_defaults (ps : List Ignore.Pattern) (path : Path) (isDir : Bool) (h : path.head? ≠ some '/') :
    ignoreMatch [⟨['/'], ps⟩] path isDir = .none := by
  have : Ignore.relative ['/'] path = none := by
    unfold Ignore.relative
    cases path with
    | nil => rfl
    | cons c r =>
      simp at h
      simp [List.isPrefixOf, Ne.symm h]
  simp [ignoreMatch, Ignore.matchChain, this]

theorem addPattern_mono (E : Engine) (ps ps' : List Ignore.Pattern) (str : Path) (h : addPattern E ps str = .ok ps')
    (hn : (Ignore.handleMarks (str.dropWhile Ignore.isSpace)).1.negate = false) :
    (∀ p ∈ ps, p ∈ ps') ∧ ((∀ p ∈ ps, p.negate = false) → ∀ p ∈ ps', p.negate = false) := by
  unfold addPattern at h
  split at h
  · injection h with h; subst h; exact ⟨fun _ h => h, fun h => h⟩
  · injection h with h; subst h; exact ⟨fun _ h => h, fun h => h⟩
  · rw [Res.bind_eq_ok] at h
    obtain ⟨text, _, h⟩ := h
    split at h
    · injection h with h; subst h; exact ⟨fun _ h => h, fun h => h⟩
    · injection h with h; subst h
      refine ⟨fun p hp => List.mem_append_left _ hp, fun hall p hp => ?_⟩
      rcases List.mem_append.mp hp with hp | hp
      · exact hall p hp
      · simp at hp; subst hp; exact hn

theorem fold_mono (E : Engine) : ∀ (strs : List Path) (ps ps' : List Ignore.Pattern),
    (∀ s ∈ strs, (Ignore.handleMarks (s.dropWhile Ignore.isSpace)).1.negate = false) → strs.foldlM (addPattern E) ps = .ok ps' →
    (∀ p ∈ ps, p ∈ ps') ∧ ((∀ p ∈ ps, p.negate = false) → ∀ p ∈ ps', p.negate = false) := by
  intro strs
  induction strs with
  | nil => intro ps ps' _ h; injection h with h; subst h; exact ⟨fun _ h => h, fun h => h⟩
  | cons s strs ih =>
    intro ps ps' hn h
    rw [List.foldlM_cons, Res.bind_eq_ok] at h
    obtain ⟨ps1, h1, h2⟩ := h
    obtain ⟨a1, a2⟩ := addPattern_mono E ps ps1 s h1 (hn s (List.mem_cons_self ..))
    obtain ⟨b1, b2⟩ := ih ps1 ps' (fun x hx => hn x (List.mem_cons_of_mem _ hx)) h2
    exact ⟨fun p hp => b1 p (a1 p hp), fun hall => b2 (a2 hall)⟩

theorem fold_ok (E : Engine) : ∀ (strs : List Path) (ps : List Ignore.Pattern), (∀ s ∈ strs, s.length ≤ 908) →
    ∃ ps', strs.foldlM (addPattern E) ps = .ok ps' := by
  intro strs
  induction strs with
  | nil => intro ps _; exact ⟨ps, rfl⟩
  | cons s strs ih =>
    intro ps h
    have h1 : ∃ ps1, addPattern E ps s = .ok ps1 := by
      unfold addPattern
      split
      · exact ⟨_, rfl⟩
      · exact ⟨_, rfl⟩
      · have hl : (s.dropWhile Ignore.isSpace).length ≤ 908 :=
          Nat.le_trans (List.dropWhile_sublist _).length_le (h s (List.mem_cons_self ..))
        rw [Ignore.globToPcre, if_pos (Ignore.text_length _ hl), Res.ok_bind]
        split <;> exact ⟨_, rfl⟩
    obtain ⟨ps1, h1⟩ := h1
    obtain ⟨ps', h2⟩ := ih ps1 (fun x hx => h x (List.mem_cons_of_mem _ hx))
    exact ⟨ps', by rw [List.foldlM_cons, h1, Res.ok_bind, h2]⟩

theorem glob_self {c : List Char} (h : ∀ x ∈ c, x ∉ ['\\', '*', '?', '[']) : Glob c c := by
  induction c with
  | nil => exact .nil
  | cons x c ih => exact .lit (h x (List.mem_cons_self ..)) (ih (fun y hy => h y (List.mem_cons_of_mem _ hy)))

/-- The directories among the default patterns. -/
def defaultDirs : List Path :=
  [".git", ".hg", ".svn", "build", "dist", "out", "target", "bin", "node_modules", "vendor", ".venv", ".idea", ".vscode"].map String.toList

/-- **C70 is false.**  The default patterns exclude a directory named by an absolute path as soon as one of its components,
above or below the argument, is `bin`, `build`, …; named by a relative path it is never excluded by them. -/
theorem default_patterns_depend_on_spelling (E : Engine) (hE : E.Conforms) : ∃ chain, globalChain E = .ok chain ∧
    (∀ name ∈ defaultDirs, ∀ pre post : Path, (pre = [] ∨ ∃ q, pre = q ++ ['/']) → (post = [] ∨ ∃ q, post = '/' :: q) →
      pre.head? ≠ some '/' → '\n' ∉ pre → '\n' ∉ post → ignoreMatch chain ('/' :: (pre ++ name ++ post)) true = .ignored) ∧
    ∀ path isDir, path.head? ≠ some '/' → ignoreMatch chain path isDir = .none := by
  obtain ⟨ps, hps⟩ := fold_ok E defaultIgnores [] (by decide +kernel)
  refine ⟨[⟨['/'], ps⟩], by rw [globalChain, loadDefaults, hps]; rfl, ?_, fun path isDir h => relative_paths_escape_defaults ps path isDir h⟩
  have hneg : ∀ s ∈ defaultIgnores, (Ignore.handleMarks (s.dropWhile Ignore.isSpace)).1.negate = false := by decide +kernel
  have hmem : ∀ name ∈ defaultDirs, name ++ ['/'] ∈ defaultIgnores := by decide +kernel
  have hok : ∀ name ∈ defaultDirs, Ignore.fragX false name = true ∧ (∀ x ∈ name, x ∉ ['\\', '*', '?', '[']) ∧
      (name.getLast?.all fun c => c ≠ '/' && !Ignore.isSpace c) = true ∧ (name.head?.all fun c => c ≠ '/' && !Ignore.isSpace c && c ≠ '!' && c ≠ '#') = true ∧
      name ≠ [] ∧ name.length ≤ 900 ∧ '*' ∉ name ∧ '\n' ∉ name := by decide +kernel
  intro name hname pre post hpre hpost hhead hn1 hn2
  obtain ⟨h1, h2, h3, h4, h5, h6, h7, h8⟩ := hok name hname
  have hcore : Ignore.CoreOk false false true name := by
    refine ⟨h1, ?_, fun _ => ?_⟩
    · cases hl : name.getLast? with
      | none => exact absurd (List.getLast?_eq_none_iff.mp hl) h5
      | some c => rw [hl] at h3; simp at h3; exact ⟨c, rfl, h3.1, h3.2⟩
    · cases hh : name.head? with
      | none => exact absurd (List.head?_eq_none_iff.mp hh) h5
      | some c => rw [hh] at h4; simp at h4; exact ⟨c, rfl, h4.1.1.1, h4.1.1.2, fun _ => ⟨h4.1.2, h4.2⟩⟩
  have hstar : ∀ q, name ≠ q ++ ['*', '*'] := by rintro q rfl; simp at h7
  -- the pattern of `name` is loaded
  obtain ⟨A, B, hAB⟩ := List.append_of_mem (hmem name hname)
  rw [hAB, List.foldlM_append, Res.bind_eq_ok] at hps
  obtain ⟨psA, hA, hps⟩ := hps
  rw [List.foldlM_cons, Res.bind_eq_ok] at hps
  obtain ⟨psN, hN, hB⟩ := hps
  obtain ⟨f, hf, hfm⟩ := Ignore.pattern_matches_glob_partial E hE false false true name hcore (fun _ => hstar)
    (by simp [render]; omega) psA
  have hrender : render false false name true = name ++ ['/'] := by simp [render]
  rw [hrender] at hf
  rw [hN] at hf
  injection hf with hf
  subst hf
  have hnegs : ∀ p ∈ ps, p.negate = false := by
    have hA' := (fold_mono E A [] psA (fun s hs => hneg s (by rw [hAB]; simp [hs])) hA).2 (by simp)
    refine (fold_mono E B _ ps (fun s hs => hneg s (by rw [hAB]; simp [hs])) hB).2 ?_
    intro p hp
    rcases List.mem_append.mp hp with hp | hp
    · exact hA' p hp
    · simp at hp; subst hp; rfl
  have hin : (⟨false, true, f⟩ : Ignore.Pattern) ∈ ps :=
    (fold_mono E B _ ps (fun s hs => hneg s (by rw [hAB]; simp [hs])) hB).1 _ (by simp)
  have hrel : (pre ++ name ++ post).head? ≠ some '/' := by
    cases pre with
    | cons c pre => simpa using hhead
    | nil =>
      cases name with
      | nil => exact absurd rfl h5
      | cons c name =>
        simp at h4 ⊢
        exact h4.1.1.1
  have hmatch : f (pre ++ name ++ post) = true := by
    refine (hfm _ (by simp [hn1, hn2, h8])).mpr ⟨pre, name, post, rfl, ?_, glob_self h2, ?_⟩
    · rcases hpre with h | h
      · exact Or.inl h
      · exact Or.inr ⟨rfl, h⟩
    · rcases hpost with h | h
      · exact Or.inl h
      · exact Or.inr ⟨rfl, h⟩
  have := Ignore.last_match_wins ps ['/'] [] (pre ++ name ++ post) true (by simp) hrel
  rw [show ('/' :: (pre ++ name ++ post)) = ['/'] ++ [] ++ (pre ++ name ++ post) from rfl, this]
  have hfil : (⟨false, true, f⟩ : Ignore.Pattern) ∈ ps.filter (·.applies true (pre ++ name ++ post)) :=
    List.mem_filter.mpr ⟨hin, hmatch⟩
  cases hg : (ps.filter (·.applies true (pre ++ name ++ post))).getLast? with
  | none => rw [List.getLast?_eq_none_iff] at hg; rw [hg] at hfil; cases hfil
  | some p =>
    have hp : p ∈ ps := (List.mem_filter.mp (List.mem_of_getLast? hg)).1
    simp [Ignore.verdictOf, hnegs p hp]

/-- **C71 is false.**  JSON mode resolves arguments to absolute paths first: for the directory `bin` of `/usr` text mode offers the
file in it, JSON mode offers nothing. -/
theorem json_mode_misses_files (E : Engine) (hE : E.Conforms) (fs : FS)
    (hrel : fs.stat false ['b', 'i', 'n'] = some { kind := .dir } ∧ fs.readdir ['b', 'i', 'n'] = some [(['x'], .reg)] ∧
      fs.ignore ['b', 'i', 'n'] = none ∧ fs.stat false ['b', 'i', 'n', '/', 'x'] = some { kind := .reg, size := 7 })
    (habs : fs.stat false "/usr/bin".toList = some { kind := .dir }) :
    ∃ chain, globalChain E = .ok chain ∧
      pathsOf (scanArgs { engine := E, globals := chain } fs 2 some [['b', 'i', 'n']]) = some (true, ["bin/x"]) ∧
      pathsOf (scanArgs { engine := E, globals := chain } fs 2 (fun a => some ("/usr/".toList ++ a)) [['b', 'i', 'n']]) = some (true, []) := by
  obtain ⟨chain, hc, h1, h2⟩ := default_patterns_depend_on_spelling E hE
  obtain ⟨r1, r2, r3, r4⟩ := hrel
  refine ⟨chain, hc, ?_, ?_⟩
  · have e1 : traverse { engine := E, globals := chain } fs 1 ['b', 'i', 'n', '/', 'x'] chain =
        .ok (true, [{ path := "bin/x", size := 7 }]) := by
      simp [traverse, fileInfo, r4, h2 ['b', 'i', 'n', '/', 'x'] false (by decide), permitted, processFile, prioritized]
    have e2 : traverse { engine := E, globals := chain } fs 2 ['b', 'i', 'n'] chain = .ok (true, [{ path := "bin/x", size := 7 }]) := by
      rw [traverse]
      simp [fileInfo, r1, h2 ['b', 'i', 'n'] true (by decide), permitted, r2, openCtx, r3, entries, skipName, skipRe, join, e1]
    simp [scanArgs, e2, pathsOf]
  · have := h1 ['b', 'i', 'n'] (by decide +kernel) ['u', 's', 'r', '/'] [] (Or.inr ⟨['u', 's', 'r'], rfl⟩) (Or.inl rfl) (by decide) (by decide) (by decide)
    have e3 : traverse { engine := E, globals := chain } fs 2 "/usr/bin".toList chain = .ok (true, []) := by
      rw [traverse]
      have h' : ignoreMatch chain "/usr/bin".toList true = .ignored := this
      rw [fileInfo, show ({ engine := E, globals := chain } : Opts).follow = false from rfl, habs]
      simp only [Res.ok_bind, decide_true, h']
      rfl
    have e4 : "/usr/".toList ++ ['b', 'i', 'n'] = "/usr/bin".toList := by decide
    simp only [scanArgs, e4, e3, Res.ok_bind, if_true, pathsOf]
    rfl

/-! ## C74, C75 -/

/-- A directory that holds a link `l` to itself; paths through more than `limit` links do not resolve. -/
def loopFS (limit : Nat) : FS where
  stat _ p := if p.length ≤ 1 + 2 * limit then some { kind := .dir } else none
  readdir _ := some [(['l'], .lnk)]
  ignore _ := none

/-- **C74 is false.**  Following links, a link to the directory it is in leads down until the path no longer resolves; then uninitialised
memory is read. -/
theorem link_cycle_undefined (E : Engine) (limit : Nat) : traverse { engine := E, follow := true } (loopFS limit) (limit + 2) ['d'] [] = .ub := by
  have key : ∀ (k : Nat) (p : Path), p.length = 1 + 2 * (limit + 1 - k) → k ≤ limit + 1 → p.getLast? ≠ some '/' →
      traverse { engine := E, follow := true } (loopFS limit) (k + 1) p [] = .ub := by
    intro k
    induction k with
    | zero =>
      intro p hp _ _
      rw [traverse, fileInfo, show (loopFS limit).stat true p = none from if_neg (by omega)]
      rfl
    | succ k ih =>
      intro p hp hk hl
      rw [traverse, fileInfo, show (loopFS limit).stat true p = some { kind := .dir } from if_pos (by omega)]
      have hrec := ih (p ++ ['/', 'l']) (by simp; omega) (by omega) (by simp)
      simp [ignoreMatch, Ignore.matchChain, permitted, loopFS, openCtx, entries, skipName, skipRe, join, hl]
      have : traverse { engine := E, follow := true } (loopFS limit) (k + 1) (p ++ ['/', 'l']) [] = .ub := hrec
      rw [loopFS] at this
      rw [this]
      rfl
  exact key (limit + 1) ['d'] (by simp) (Nat.le_refl _) (by decide)

/-- The path is itself a file to be considered. -/
def Itself (o : Opts) (fs : FS) (q : Path) (rules : List Ctx) (f : FileEnt) : Prop :=
  ∃ i, Enters o fs q rules i ∧ (i.kind = .reg ∨ i.kind = .lnk ∧ o.follow = true) ∧
    SizeOk o i.size ∧ f.path = String.ofList q ∧ f.size = i.size ∧ f.mtime = i.mtime ∧
    (f.prio = true ↔ ∃ pp, o.pPath = some pp ∧
      (if o.icase then ∃ a b, q = a ++ b ∧ a.map Char.toLower = pp.map Char.toLower else ∃ b, q = pp ++ b))

/-- **C75** (part).  With `-R`, if what is met as a directory is also listed as one (so there are no links to directories, or they are not followed), a scan that succeeds offers the argument, if it is a file,
or else the files among its entries that pass the filters, and nothing below them.  (Missing: links to directories that are followed, where it is false.) -/
theorem no_recurse_exact_partial (o : Opts) (fs : FS) (hr : o.recurse = false) (hk : ∀ p es e i, fs.readdir p = some es → e ∈ es → fs.stat o.follow (join p e.1) = some i → i.kind = .dir → e.2 = .dir)
    (n : Nat) (p : Path) (rules : List Ctx) (l : List FileEnt) (h : traverse o fs n p rules = .ok (true, l)) (f : FileEnt) :
    f ∈ l ↔ Itself o fs p rules f ∨
      ∃ i es e inner, Enters o fs p rules i ∧ i.kind = .dir ∧ fs.readdir p = some es ∧ e ∈ es ∧ EntryOk o p e ∧ Inside o fs p rules inner ∧ Itself o fs (join p e.1) inner f := by
  rw [traversal_exact o fs n p rules l h f]
  constructor
  · rintro ⟨q, rules', i, v, he, hrest⟩
    cases v with
    | here => exact Or.inl ⟨i, he, hrest⟩
    | down he0 hd hl hm hok hin v =>
      cases v with
      | here => exact Or.inr ⟨_, _, _, _, he0, hd, hl, hm, hok, hin, i, he, hrest⟩
      | down he1 hd1 _ _ _ _ _ =>
        exact absurd (hok.2.2.1 (hk _ _ _ _ hl hm he1.1 hd1)) (by rw [hr]; decide)
  · rintro (⟨i, he, hrest⟩ | ⟨i, es, e, inner, he0, hd, hl, hm, hok, hin, j, he, hrest⟩)
    · exact ⟨p, rules, i, .here, he, hrest⟩
    · exact ⟨_, _, j, .down he0 hd hl hm hok hin .here, he, hrest⟩

/-- A directory with a file and a directory with a file in it: only the first is offered. -/
example : ∃ fs : FS, (∀ p es e i, fs.readdir p = some es → e ∈ es → fs.stat false (join p e.1) = some i → i.kind = .dir → e.2 = .dir) ∧
    pathsOf (traverse { engine := noEngine, recurse := false } fs 3 ['d'] []) = some (true, ["d/x"]) ∧
    pathsOf (traverse { engine := noEngine } fs 3 ['d'] []) = some (true, ["d/x", "d/s/x"]) := by
  refine ⟨{ stat := fun _ p => if p = ['d'] ∨ p = ['d', '/', 's'] then some { kind := .dir } else some { kind := .reg, size := 7 }
            readdir := fun p => if p = ['d'] then some [(['x'], .reg), (['s'], .dir)] else if p = ['d', '/', 's'] then some [(['x'], .reg)] else none
            ignore := fun _ => none }, ?_, by decide +kernel, by decide +kernel⟩
  intro p es e i hl hm hs hd
  simp only at hl hs
  by_cases h1 : p = ['d']
  · subst h1
    simp at hl; subst hl
    simp at hm
    rcases hm with rfl | rfl
    · simp [join] at hs; subst hs; simp at hd
    · rfl
  · by_cases h2 : p = ['d', '/', 's']
    · subst h2
      simp at hl; subst hl
      simp at hm; subst hm
      simp [join] at hs; subst hs; simp at hd
    · simp [h1, h2] at hl

/-- **C75 is false.**  Without recursion, but following links, a directory behind a link is traversed. -/
theorem no_recurse_follows_linked_directories : ∃ fs : FS, (∀ b, fs.stat b ['d', '/', 'l', '/', 'x'] = some { kind := .reg, size := 7 }) ∧
    pathsOf (traverse { engine := noEngine, follow := true, recurse := false } fs 3 ['d'] []) = some (true, ["d/l/x"]) := by
  refine ⟨{ stat := fun _ p => if p = ['d', '/', 'l', '/', 'x'] then some { kind := .reg, size := 7 } else some { kind := .dir }
            readdir := fun p => if p = ['d'] then some [(['l'], .lnk)] else some [(['x'], .reg)]
            ignore := fun _ => none }, fun _ => rfl, by decide +kernel⟩

/-- A regular expression given with `-w` must match the directories on the way as well: a selected file below an entry of the
argument is only reached if the expression matches the path of that entry. -/
theorem whitelist_applies_to_directories (o : Opts) (fs : FS) (p : Path) (rules : List Ctx) (re : Path → Bool) (hw : o.wlRe = some re)
    (q : Path) (rules' : List Ctx) (v : Visits o fs p rules q rules') : q = p ∨ ∃ name, re (join p name) = true ∧ ∃ r, Visits o fs (join p name) r q rules' := by
  cases v with
  | here => exact Or.inl rfl
  | down _ _ _ _ hok _ v => exact Or.inr ⟨_, hok.2.2.2.2 re hw, _, v⟩

end Verif.Traverse
