import Verif.Traverse.Model

/-! # Properties C30, C69-C75: the traversal -/

namespace Verif.Traverse

open Verif.Ignore (Engine Ctx ignoreMatch loadContent addPattern Verdict)
open Verif.Report (FileEnt World Outcome)

/-! ## Which paths are visited (specification) -/

/-- The user may read the file, or enter the directory. -/
def MayRead (o : Opts) (i : Finfo) : Prop :=
  o.uid = 0 ∨
  (i.user = o.uid ∧ (if i.kind = .dir then i.prot.ux else i.prot.ur) = true) ∨
  (i.user ≠ o.uid ∧ i.group ∈ o.gids ∧ (if i.kind = .dir then i.prot.gx else i.prot.gr) = true) ∨
  (i.user ≠ o.uid ∧ i.group ∉ o.gids ∧ (if i.kind = .dir then i.prot.wx else i.prot.wr) = true)

/-- The path exists, no ignore rule excludes it and it may be read. -/
def Enters (o : Opts) (fs : FS) (p : Path) (rules : List Ctx) (i : Finfo) : Prop :=
  fs.stat o.follow p = some i ∧ (o.gitignore = true → ignoreMatch rules p (decide (i.kind = .dir)) ≠ .ignored) ∧ MayRead o i

/-- The entry of a directory passes the filters on names, kinds and expressions. -/
def EntryOk (o : Opts) (dir : Path) (e : Path × Kind) : Prop :=
  e.1 ∉ o.igNames ∧ (e.1.head? = some '.' → o.hidden = true) ∧ (e.2 = .dir → o.recurse = true) ∧
  (∀ r, o.igRe = some r → r (join dir e.1) = false) ∧ (∀ r, o.wlRe = some r → r (join dir e.1) = true)

/-- The rules inside a directory: its own ignore file, if there is one, and those outside. -/
def Inside (o : Opts) (fs : FS) (dir : Path) (rules inner : List Ctx) : Prop :=
  (o.gitignore = true ∧ ∃ content ps, fs.ignore dir = some content ∧ loadContent o.engine (content.length + 1) content [] = .ok ps ∧ inner = ⟨dir, ps⟩ :: rules) ∨
  ((o.gitignore = false ∨ fs.ignore dir = none) ∧ inner = rules)

/-- `Visits o fs p rules q rules'`: going down from `p` one comes to `q`. -/
inductive Visits (o : Opts) (fs : FS) : Path → List Ctx → Path → List Ctx → Prop
  | here {p rules} : Visits o fs p rules p rules
  | down {p rules i es e inner q rules'} : Enters o fs p rules i → i.kind = .dir → fs.readdir p = some es → e ∈ es →
      EntryOk o p e → Inside o fs p rules inner → Visits o fs (join p e.1) inner q rules' → Visits o fs p rules q rules'

/-- The size is within the bounds (an upper bound of 0 is none). -/
def SizeOk (o : Opts) (n : Nat) : Prop := o.minsize ≤ n ∧ (o.maxsize = 0 ∨ (n : Int) ≤ o.maxsize)

/-- `f` is a file to be considered below `p`. -/
def Selected (o : Opts) (fs : FS) (p : Path) (rules : List Ctx) (f : FileEnt) : Prop :=
  ∃ q rules' i, Visits o fs p rules q rules' ∧ Enters o fs q rules' i ∧ (i.kind = .reg ∨ i.kind = .lnk ∧ o.follow = true) ∧
    SizeOk o i.size ∧ f.path = String.ofList q ∧ f.size = i.size ∧ f.mtime = i.mtime ∧
    (f.prio = true ↔ ∃ pp, o.pPath = some pp ∧
      (if o.icase then ∃ a b, q = a ++ b ∧ a.map Char.toLower = pp.map Char.toLower else ∃ b, q = pp ++ b))

/-! ## Lemmas -/

theorem permitted_iff (o : Opts) (i : Finfo) : permitted o i = true ↔ MayRead o i := by
  unfold permitted MayRead
  by_cases h : o.uid = 0
  · simp [h]
  · by_cases hu : i.user = o.uid
    · by_cases hd : i.kind = .dir <;> simp [h, hu, hd]
    · by_cases hg : i.group ∈ o.gids <;> by_cases hd : i.kind = .dir <;> simp [h, hu, hg, hd]

theorem skip_iff (o : Opts) (dir : Path) (e : Path × Kind) : (skipName o e = false ∧ skipRe o (join dir e.1) = false) ↔ EntryOk o dir e := by
  unfold skipName skipRe EntryOk
  cases hi : o.igRe <;> cases hw : o.wlRe <;> cases o.hidden <;> cases o.recurse <;>
    simp only [Bool.or_eq_false_iff, Bool.and_eq_false_iff, decide_eq_false_iff_not, beq_eq_false_iff_ne, ne_eq, Bool.not_eq_false',
      Bool.not_true, Bool.not_false, Option.some.injEq, reduceCtorEq, false_imp_iff, implies_true, forall_eq', and_true, or_false, or_true, true_and] <;>
    simp [and_assoc]

theorem openCtx_iff (o : Opts) (fs : FS) (dir : Path) (rules inner : List Ctx) : openCtx o fs dir rules = .ok inner ↔ Inside o fs dir rules inner := by
  unfold openCtx Inside
  cases o.gitignore
  · simp [eq_comm]
  · cases hf : fs.ignore dir with
    | none => simp [eq_comm]
    | some content =>
      simp only [if_true, Res.bind_eq_ok]
      constructor
      · rintro ⟨ps, h, hi⟩
        injection hi with hi
        exact Or.inl ⟨trivial, content, ps, rfl, h, hi.symm⟩
      · rintro (⟨_, c, ps, hc, h, rfl⟩ | ⟨h, _⟩)
        · injection hc with hc; subst hc; exact ⟨ps, h, rfl⟩
        · simp at h

theorem prioritized_iff (o : Opts) (q : Path) : prioritized o q = true ↔ ∃ pp, o.pPath = some pp ∧
    (if o.icase then ∃ a b, q = a ++ b ∧ a.map Char.toLower = pp.map Char.toLower else ∃ b, q = pp ++ b) := by
  unfold prioritized
  cases h : o.pPath with
  | none => simp
  | some pp =>
    simp only [Option.some.injEq, exists_eq_left', Bool.and_eq_true, decide_eq_true_eq]
    cases o.icase
    · simp only [Bool.false_eq_true, if_false, beq_iff_eq]
      constructor
      · rintro ⟨_, h⟩; exact ⟨q.drop pp.length, by conv => lhs; rw [← List.take_append_drop pp.length q, h]⟩
      · rintro ⟨b, rfl⟩; simp
    · simp only [if_true, beq_iff_eq]
      constructor
      · rintro ⟨_, h⟩; exact ⟨_, _, (List.take_append_drop pp.length q).symm, h⟩
      · rintro ⟨a, b, rfl, h⟩
        have hl : a.length = pp.length := by simpa using congrArg List.length h
        rw [← hl]
        refine ⟨by simp, ?_⟩
        rw [List.take_left, h]

theorem processFile_mem (o : Opts) (q : Path) (i : Finfo) (f : FileEnt) : f ∈ processFile o q i ↔
    SizeOk o i.size ∧ f.path = String.ofList q ∧ f.size = i.size ∧ f.mtime = i.mtime ∧ (f.prio = true ↔ prioritized o q = true) := by
  unfold processFile SizeOk
  split
  · rename_i h
    obtain ⟨p, s, m, r⟩ := f
    simp only [List.mem_singleton, FileEnt.mk.injEq]
    constructor
    · rintro ⟨h1, h2, h3, h4⟩; exact ⟨h, h1, h2, h3, by rw [h4]⟩
    · rintro ⟨_, h1, h2, h3, h4⟩; exact ⟨h1, h2, h3, Bool.eq_iff_iff.mpr h4⟩
  · rename_i h
    simp only [List.not_mem_nil, false_iff]
    rintro ⟨h1, _⟩; exact h h1

theorem fileInfo_some {o : Opts} {fs : FS} {p : Path} {i : Finfo} : fileInfo o fs p = .ok (some i) ↔ fs.stat o.follow p = some i := by
  unfold fileInfo
  cases fs.stat o.follow p with
  | none => cases o.follow <;> simp
  | some j => simp

theorem fileInfo_none {o : Opts} {fs : FS} {p : Path} (h : fileInfo o fs p = .ok none) : fs.stat o.follow p = none := by
  unfold fileInfo at h
  cases hs : fs.stat o.follow p with
  | none => rfl
  | some j => rw [hs] at h; simp at h

theorem not_enters {o : Opts} {fs : FS} {p : Path} {rules : List Ctx} {i j : Finfo} (hs : fs.stat o.follow p = some i)
    (h : (o.gitignore && decide (ignoreMatch rules p (decide (i.kind = .dir)) = .ignored)) = true ∨ permitted o i = false) :
    ¬ Enters o fs p rules j := by
  rintro ⟨h1, h2, h3⟩
  rw [hs] at h1; injection h1 with h1; subst h1
  rcases h with h | h
  · simp only [Bool.and_eq_true, decide_eq_true_eq] at h
    exact h2 h.1 h.2
  · rw [← permitted_iff, h] at h3; cases h3

/-- A path that is not entered has nothing below it. -/
theorem visits_leaf {o : Opts} {fs : FS} {p q : Path} {rules rules' : List Ctx} (h : ∀ i, Enters o fs p rules i → i.kind ≠ .dir)
    (v : Visits o fs p rules q rules') : q = p ∧ rules' = rules := by
  cases v with
  | here => exact ⟨rfl, rfl⟩
  | down he hk => exact absurd hk (h _ he)

/-- The loop over the entries. -/
theorem entries_ok {o : Opts} {visit : Path → Res (Bool × List FileEnt)} {dir : Path} : ∀ {es : List (Path × Kind)} {b : Bool} {l : List FileEnt},
    entries o visit dir es = .ok (b, l) →
      (b = true → ∀ e ∈ es, EntryOk o dir e → ∃ le, visit (join dir e.1) = .ok (true, le)) ∧
      (b = false → ∃ e ∈ es, EntryOk o dir e ∧ ∃ le, visit (join dir e.1) = .ok (false, le)) ∧
      (b = true → ∀ f, f ∈ l ↔ ∃ e ∈ es, EntryOk o dir e ∧ ∃ le, visit (join dir e.1) = .ok (true, le) ∧ f ∈ le) := by
  intro es
  induction es with
  | nil =>
    intro b l h
    rw [entries] at h
    injection h with h; injection h with h1 h2; subst h1; subst h2
    simp
  | cons e es ih =>
    intro b l h
    rw [entries] at h
    have hskip : (skipName o e = true ∨ skipRe o (join dir e.1) = true) → entries o visit dir es = .ok (b, l) → _ := fun hs h => by
      have hno : ¬ EntryOk o dir e := by
        rw [← skip_iff]; rintro ⟨h1, h2⟩
        rcases hs with hs | hs
        · rw [h1] at hs; cases hs
        · rw [h2] at hs; cases hs
      obtain ⟨i1, i2, i3⟩ := ih h
      exact (show
        (b = true → ∀ e' ∈ e :: es, EntryOk o dir e' → ∃ le, visit (join dir e'.1) = .ok (true, le)) ∧
        (b = false → ∃ e' ∈ e :: es, EntryOk o dir e' ∧ ∃ le, visit (join dir e'.1) = .ok (false, le)) ∧
        (b = true → ∀ f, f ∈ l ↔ ∃ e' ∈ e :: es, EntryOk o dir e' ∧ ∃ le, visit (join dir e'.1) = .ok (true, le) ∧ f ∈ le) from by
        refine ⟨?_, ?_, ?_⟩
        · intro hb e' he' hok
          rcases List.mem_cons.mp he' with rfl | he'
          · exact absurd hok hno
          · exact i1 hb e' he' hok
        · intro hb
          obtain ⟨e', he', h'⟩ := i2 hb
          exact ⟨e', List.mem_cons_of_mem _ he', h'⟩
        · intro hb f
          rw [i3 hb f]
          constructor
          · rintro ⟨e', he', h'⟩; exact ⟨e', List.mem_cons_of_mem _ he', h'⟩
          · rintro ⟨e', he', hok, h'⟩
            rcases List.mem_cons.mp he' with rfl | he'
            · exact absurd hok hno
            · exact ⟨e', he', hok, h'⟩)
    split at h
    · rename_i hs; exact hskip (Or.inl hs) h
    · rename_i hs1
      split at h
      · rename_i hs; exact hskip (Or.inr hs) h
      · rename_i hs2
        have hok : EntryOk o dir e := (skip_iff o dir e).mp ⟨by simpa using hs1, by simpa using hs2⟩
        rw [Res.bind_eq_ok] at h
        obtain ⟨⟨b1, l1⟩, hv, h⟩ := h
        dsimp only at h
        cases b1 with
        | false =>
          simp only [Bool.false_eq_true, if_false] at h
          injection h with h; injection h with h1 h2; subst h1; subst h2
          exact ⟨by simp, fun _ => ⟨e, List.mem_cons_self .., hok, l1, hv⟩, by simp⟩
        | true =>
          simp only [if_true] at h
          rw [Res.bind_eq_ok] at h
          obtain ⟨⟨b2, l2⟩, he, h⟩ := h
          injection h with h; injection h with h1 h2; subst h1; subst h2
          obtain ⟨i1, i2, i3⟩ := ih he
          refine ⟨?_, ?_, ?_⟩
          · intro hb e' he' hok'
            rcases List.mem_cons.mp he' with rfl | he'
            · exact ⟨l1, hv⟩
            · exact i1 hb e' he' hok'
          · intro hb
            obtain ⟨e', he', h'⟩ := i2 hb
            exact ⟨e', List.mem_cons_of_mem _ he', h'⟩
          · intro hb f
            rw [List.mem_append, i3 hb f]
            constructor
            · rintro (hf | ⟨e', he', h'⟩)
              · exact ⟨e, List.mem_cons_self .., hok, l1, hv, hf⟩
              · exact ⟨e', List.mem_cons_of_mem _ he', h'⟩
            · rintro ⟨e', he', hok', le, hle, hf⟩
              rcases List.mem_cons.mp he' with rfl | he'
              · rw [hv] at hle
                injection hle with hle; injection hle with _ hle; subst hle
                exact Or.inl hf
              · exact Or.inr ⟨e', he', hok', le, hle, hf⟩

theorem inside_unique {o : Opts} {fs : FS} {dir : Path} {rules a b : List Ctx} (h1 : Inside o fs dir rules a) (h2 : Inside o fs dir rules b) : a = b := by
  rw [← openCtx_iff] at h1 h2
  rw [h1] at h2; injection h2

theorem enters_unique {o : Opts} {fs : FS} {p : Path} {rules : List Ctx} {i j : Finfo} (h1 : Enters o fs p rules i) (h2 : Enters o fs p rules j) : i = j := by
  have := h1.1.symm.trans h2.1
  injection this

/-- What a call does, by cases. -/
theorem traverse_cases {o : Opts} {fs : FS} {n : Nat} {p : Path} {rules : List Ctx} {b : Bool} {l : List FileEnt}
    (h : traverse o fs (n + 1) p rules = .ok (b, l)) :
    (fs.stat o.follow p = none ∧ b = false ∧ l = []) ∨
    (∃ j, fs.stat o.follow p = some j ∧ (∀ i, ¬ Enters o fs p rules i) ∧ b = true ∧ l = []) ∨
    (∃ i, Enters o fs p rules i ∧
      ((i.kind = .dir ∧ fs.readdir p = none ∧ b = false ∧ l = []) ∨
       (∃ es inner, i.kind = .dir ∧ fs.readdir p = some es ∧ Inside o fs p rules inner ∧ entries o (fun q => traverse o fs n q inner) p es = .ok (b, l)) ∨
       (i.kind ≠ .dir ∧ b = true ∧ l = if i.kind = .reg ∨ i.kind = .lnk ∧ o.follow = true then processFile o p i else []))) := by
  rw [traverse, Res.bind_eq_ok] at h
  obtain ⟨info, hi, h⟩ := h
  cases info with
  | none =>
    injection h with h; injection h with h1 h2
    exact Or.inl ⟨fileInfo_none hi, h1.symm, h2.symm⟩
  | some i =>
    have hs := fileInfo_some.mp hi
    dsimp only at h
    split at h
    · rename_i hig
      injection h with h; injection h with h1 h2
      exact Or.inr (Or.inl ⟨i, hs, fun j => not_enters hs (Or.inl hig), h1.symm, h2.symm⟩)
    · rename_i hig
      split at h
      · rename_i hp
        injection h with h; injection h with h1 h2
        exact Or.inr (Or.inl ⟨i, hs, fun j => not_enters hs (Or.inr (by simpa using hp)), h1.symm, h2.symm⟩)
      · rename_i hp
        have he : Enters o fs p rules i := by
          refine ⟨hs, ?_, (permitted_iff o i).mp (by simpa using hp)⟩
          intro hg
          simpa [hg] using hig
        refine Or.inr (Or.inr ⟨i, he, ?_⟩)
        split at h
        · rename_i hk
          split at h
          · rename_i hr
            injection h with h; injection h with h1 h2
            exact Or.inl ⟨hk, hr, h1.symm, h2.symm⟩
          · rename_i es hr
            rw [Res.bind_eq_ok] at h
            obtain ⟨inner, hc, h⟩ := h
            exact Or.inr (Or.inl ⟨es, inner, hk, hr, (openCtx_iff ..).mp hc, h⟩)
        · rename_i hk
          injection h with h; injection h with h1 h2
          exact Or.inr (Or.inr ⟨by rw [hk]; simp, h1.symm, by rw [← h2]; simp [hk]⟩)
        · rename_i hk
          injection h with h; injection h with h1 h2
          exact Or.inr (Or.inr ⟨by rw [hk]; simp, h1.symm, by rw [← h2]; simp [hk]⟩)
        · rename_i hk
          injection h with h; injection h with h1 h2
          exact Or.inr (Or.inr ⟨by rw [hk]; simp, h1.symm, by rw [← h2]; simp [hk]⟩)

/-! ## C30: the candidates -/

/-- **C30.**  A traversal that succeeds offers exactly the selected files. -/
theorem traversal_exact (o : Opts) (fs : FS) : ∀ (n : Nat) (p : Path) (rules : List Ctx) (l : List FileEnt),
    traverse o fs n p rules = .ok (true, l) → ∀ f, f ∈ l ↔ Selected o fs p rules f := by
  intro n
  induction n with
  | zero => intro p rules l h; cases h
  | succ n ih =>
    intro p rules l h f
    rcases traverse_cases h with ⟨_, hb, _⟩ | ⟨j, _, hno, _, rfl⟩ | ⟨i, he, hcase⟩
    · cases hb
    · simp only [List.not_mem_nil, false_iff]
      rintro ⟨q, rules', i, v, he, _⟩
      obtain ⟨rfl, rfl⟩ := visits_leaf (fun i hi => absurd hi (hno i)) v
      exact hno i he
    · rcases hcase with ⟨_, _, hb, _⟩ | ⟨es, inner, hk, hr, hin, hes⟩ | ⟨hk, _, rfl⟩
      · cases hb
      · obtain ⟨h1, -, h3⟩ := entries_ok hes
        rw [h3 rfl f]
        constructor
        · rintro ⟨e, hmem, hok, le, hle, hf⟩
          obtain ⟨q, rules', j, v, rest⟩ := (ih _ _ _ hle f).mp hf
          exact ⟨q, rules', j, .down he hk hr hmem hok hin v, rest⟩
        · rintro ⟨q, rules', j, v, hj, hkind, rest⟩
          cases v with
          | here =>
            have := enters_unique hj he; subst this
            rw [hk] at hkind; simp at hkind
          | down he' hk' hr' hmem hok hin' v =>
            rw [hr] at hr'; injection hr' with hr'; subst hr'
            have := inside_unique hin hin'; subst this
            obtain ⟨le, hle⟩ := h1 rfl _ hmem hok
            exact ⟨_, hmem, hok, le, hle, (ih _ _ _ hle f).mpr ⟨q, rules', j, v, hj, hkind, rest⟩⟩
      · constructor
        · intro hf
          split at hf
          · rename_i hkind
            obtain ⟨h1, h2, h3, h4, h5⟩ := (processFile_mem o p i f).mp hf
            exact ⟨p, rules, i, .here, he, hkind, h1, h2, h3, h4, h5.trans (prioritized_iff o p)⟩
          · cases hf
        · rintro ⟨q, rules', j, v, hj, hkind, h1, h2, h3, h4, h5⟩
          obtain ⟨rfl, rfl⟩ := visits_leaf (fun k hk' => by rw [enters_unique hk' he]; exact hk) v
          have := enters_unique hj he; subst this
          rw [if_pos hkind]
          exact (processFile_mem ..).mpr ⟨h1, h2, h3, h4, h5.trans (prioritized_iff o q).symm⟩

/-- Nothing goes wrong at a path: it exists and, if it is a directory to be entered, it can be listed. -/
def Healthy (o : Opts) (fs : FS) (q : Path) (rules : List Ctx) : Prop :=
  (fs.stat o.follow q).isSome ∧ ∀ i, Enters o fs q rules i → i.kind = .dir → (fs.readdir q).isSome

/-- **C69.**  A traversal succeeds exactly if nothing goes wrong at any visited path: one directory that can be
entered but not listed makes the whole run fail. -/
theorem traversal_succeeds_iff (o : Opts) (fs : FS) : ∀ (n : Nat) (p : Path) (rules : List Ctx) (b : Bool) (l : List FileEnt),
    traverse o fs n p rules = .ok (b, l) → (b = true ↔ ∀ q rules', Visits o fs p rules q rules' → Healthy o fs q rules') := by
  intro n
  induction n with
  | zero => intro p rules b l h; cases h
  | succ n ih =>
    intro p rules b l h
    rcases traverse_cases h with ⟨hs, rfl, _⟩ | ⟨j, hs, hno, rfl, _⟩ | ⟨i, he, hcase⟩
    · simp only [Bool.false_eq_true, false_iff]
      intro hall
      have := (hall p rules .here).1
      rw [hs] at this; cases this
    · simp only [true_iff]
      intro q rules' v
      obtain ⟨rfl, rfl⟩ := visits_leaf (fun i hi => absurd hi (hno i)) v
      exact ⟨by rw [hs]; rfl, fun i hi => absurd hi (hno i)⟩
    · rcases hcase with ⟨hk, hr, rfl, _⟩ | ⟨es, inner, hk, hr, hin, hes⟩ | ⟨hk, rfl, _⟩
      · simp only [Bool.false_eq_true, false_iff]
        intro hall
        have := (hall p rules .here).2 i he hk
        rw [hr] at this; cases this
      · obtain ⟨h1, h2, -⟩ := entries_ok hes
        cases b with
        | true =>
          simp only [true_iff]
          intro q rules' v
          cases v with
          | here => exact ⟨by rw [he.1]; rfl, fun _ _ _ => by rw [hr]; rfl⟩
          | down he' hk' hr' hmem hok hin' v =>
            rw [hr] at hr'; injection hr' with hr'; subst hr'
            have := inside_unique hin hin'; subst this
            obtain ⟨le, hle⟩ := h1 rfl _ hmem hok
            exact (ih _ _ _ _ hle).mp rfl _ _ v
        | false =>
          simp only [Bool.false_eq_true, false_iff]
          intro hall
          obtain ⟨e, hmem, hok, le, hle⟩ := h2 rfl
          have := (ih _ _ _ _ hle).mpr (fun q rules' v => hall q rules' (.down he hk hr hmem hok hin v))
          cases this
      · simp only [true_iff]
        intro q rules' v
        obtain ⟨rfl, rfl⟩ := visits_leaf (fun k hk' => by rw [enters_unique hk' he]; exact hk) v
        exact ⟨by rw [he.1]; rfl, fun j hj hkj => absurd hkj (by rw [enters_unique hj he]; exact hk)⟩

/-! ## C72: termination -/

theorem gets_shrinks (n : Nat) (c : Char) (s : List Char) : (Ignore.gets (n + 1) (c :: s)).2.length < (c :: s).length := by
  have h : ∀ n s, (Ignore.gets n s).2.length ≤ s.length := by
    intro n
    induction n with
    | zero => intro s; exact Nat.le_refl _
    | succ n ih =>
      intro s
      cases s with
      | nil => exact Nat.le_refl _
      | cons c s =>
        rw [Ignore.gets]
        split
        · simp
        · have := ih s
          simp only [List.length_cons]; omega
  rw [Ignore.gets]
  split
  · simp
  · have := h n s
    simp only [List.length_cons]; omega

theorem addPattern_ends (E : Engine) (ps : List Ignore.Pattern) (s : List Char) : addPattern E ps s ≠ .div := by
  unfold addPattern
  split
  · simp
  · simp
  · unfold Ignore.globToPcre
    split
    · rw [Res.ok_bind]
      split <;> simp
    · simp

theorem loadContent_ends (E : Engine) : ∀ (n : Nat) (s : List Char) (ps : List Ignore.Pattern), s.length < n → loadContent E n s ps ≠ .div := by
  intro n
  induction n with
  | zero => intro s ps h; omega
  | succ n ih =>
    intro s ps h
    cases s with
    | nil => simp [loadContent]
    | cons c s =>
      rw [loadContent]
      · have hs := gets_shrinks 4094 c s
        have hs : (Ignore.gets (Ignore.maxLen - 1) (c :: s)).2.length < (c :: s).length := hs
        cases ha : addPattern E ps (Ignore.chomp (Ignore.gets (Ignore.maxLen - 1) (c :: s)).1) with
        | ok ps' => rw [Res.ok_bind]; exact ih _ _ (by omega)
        | ub => simp
        | div => exact absurd ha (addPattern_ends _ _ _)
      · simp

/-- **C72.**  On a file system of finite depth every traversal ends. -/
theorem traversal_terminates (o : Opts) (fs : FS) (depth : Path → Nat)
    (hd : ∀ p es e, fs.readdir p = some es → e ∈ es → EntryOk o p e → depth (join p e.1) < depth p) :
    ∀ (n : Nat) (p : Path) (rules : List Ctx), depth p < n → traverse o fs n p rules ≠ .div := by
  intro n
  induction n with
  | zero => intro p rules h; omega
  | succ n ih =>
    intro p rules h
    rw [traverse]
    have hfi : fileInfo o fs p ≠ .div := by
      unfold fileInfo
      split
      · simp
      · split <;> simp
    cases hf : fileInfo o fs p with
    | div => exact absurd hf hfi
    | ub => simp
    | ok info =>
      rw [Res.ok_bind]
      cases info with
      | none => simp
      | some i =>
        dsimp only
        split
        · simp
        · split
          · simp
          · split
            · split
              · simp
              · rename_i es hr
                cases hc : openCtx o fs p rules with
                | ub => simp
                | div =>
                  unfold openCtx at hc
                  split at hc
                  · split at hc
                    · simp at hc
                    · rename_i content _
                      have := loadContent_ends o.engine (content.length + 1) content [] (by omega)
                      cases hl : loadContent o.engine (content.length + 1) content [] with
                      | div => exact absurd hl this
                      | ub => rw [hl] at hc; simp at hc
                      | ok ps => rw [hl] at hc; simp at hc
                  · simp at hc
                | ok inner =>
                  rw [Res.ok_bind]
                  have key : ∀ sub : List (Path × Kind), (∀ e ∈ sub, e ∈ es) → entries o (fun q => traverse o fs n q inner) p sub ≠ .div := by
                    intro sub
                    induction sub with
                    | nil => intro _; simp [entries]
                    | cons e sub ih2 =>
                      intro hsub
                      have ih2 := ih2 (fun x hx => hsub x (List.mem_cons_of_mem _ hx))
                      rw [entries]
                      split
                      · exact ih2
                      · split
                        · exact ih2
                        · rename_i hs1 hs2
                          have hok : EntryOk o p e := (skip_iff o p e).mp ⟨by simpa using hs1, by simpa using hs2⟩
                          have hlt := hd p es e hr (hsub e (List.mem_cons_self ..)) hok
                          cases hv : traverse o fs n (join p e.1) inner with
                          | div => exact absurd hv (ih _ _ (by omega))
                          | ub => simp
                          | ok r =>
                            rw [Res.ok_bind]
                            split
                            · cases hE : entries o (fun q => traverse o fs n q inner) p sub with
                              | div => exact absurd hE ih2
                              | ub => simp
                              | ok r' => simp
                            · simp
                  exact key es (fun _ h => h)
            · simp
            · simp
            · simp

/-! ## C73: no file twice -/

/-- Directory listings: distinct names, none empty, none with a slash. -/
def ListingOk (fs : FS) : Prop :=
  ∀ p es, fs.readdir p = some es → (es.map (·.1)).Nodup ∧ ∀ e ∈ es, e.1 ≠ [] ∧ '/' ∉ e.1

theorem join_last {dir name : Path} (h : name ≠ []) (h' : '/' ∉ name) : (join dir name).getLast? ≠ some '/' := by
  have : (join dir name).getLast? = name.getLast? := by
    unfold join
    cases name with
    | nil => exact absurd rfl h
    | cons c r => split <;> simp [List.getLast?_append, List.getLast?_cons]
  rw [this]
  intro hl
  exact h' (List.mem_of_getLast? hl)

/-- Everything below a path begins with it. -/
theorem visits_prefix {o : Opts} {fs : FS} (hl : ListingOk fs) {p q : Path} {rules rules' : List Ctx} (v : Visits o fs p rules q rules') :
    p.getLast? ≠ some '/' → q = p ∨ ∃ s, q = p ++ '/' :: s := by
  induction v with
  | here => intro _; exact Or.inl rfl
  | @down p rules i es e inner q rules' he hk hr hmem hok hin v ih =>
    intro hp
    obtain ⟨h1, h2⟩ := (hl p es hr).2 e hmem
    have hj : join p e.1 = p ++ '/' :: e.1 := by rw [join, if_neg hp]
    rcases ih (join_last h1 h2) with h | ⟨s, h⟩
    · exact Or.inr ⟨e.1, by rw [h, hj]⟩
    · exact Or.inr ⟨e.1 ++ '/' :: s, by rw [h, hj]; simp⟩

theorem split_name {a b s t : Path} (ha : '/' ∉ a) (hb : '/' ∉ b) (hs : s = [] ∨ ∃ s', s = '/' :: s') (ht : t = [] ∨ ∃ t', t = '/' :: t')
    (h : a ++ s = b ++ t) : a = b := by
  induction a generalizing b with
  | nil =>
    cases b with
    | nil => rfl
    | cons c b =>
      rcases hs with rfl | ⟨s', rfl⟩
      · simp at h
      · simp at h; exact absurd h.1 (by intro h'; simp [← h'] at hb)
  | cons d a ih =>
    cases b with
    | nil =>
      rcases ht with rfl | ⟨t', rfl⟩
      · simp at h
      · simp at h; exact absurd h.1.symm (by intro h'; simp [← h'] at ha)
    | cons c b =>
      simp at h ha hb
      rw [h.1, ih ha.2 hb.2 h.2]

/-- **C73.**  A traversal offers no path twice. -/
theorem no_file_offered_twice (o : Opts) (fs : FS) (hl : ListingOk fs) : ∀ (n : Nat) (p : Path) (rules : List Ctx) (l : List FileEnt),
    traverse o fs n p rules = .ok (true, l) → (l.map (·.path)).Nodup := by
  intro n
  induction n with
  | zero => intro p rules l h; cases h
  | succ n ih =>
    intro p rules l h
    rcases traverse_cases h with ⟨_, hb, _⟩ | ⟨j, _, _, _, rfl⟩ | ⟨i, he, hcase⟩
    · cases hb
    · simp
    · rcases hcase with ⟨_, _, hb, _⟩ | ⟨es, inner, hk, hr, hin, hes⟩ | ⟨hk, _, rfl⟩
      · cases hb
      · obtain ⟨hnd, hname⟩ := hl p es hr
        have key : ∀ (sub : List (Path × Kind)) (l : List FileEnt), (sub.map (·.1)).Nodup → (∀ e ∈ sub, e ∈ es) →
            entries o (fun q => traverse o fs n q inner) p sub = .ok (true, l) → (l.map (·.path)).Nodup := by
          intro sub
          induction sub with
          | nil =>
            intro l _ _ h
            rw [entries] at h; injection h with h; injection h with _ h; subst h; simp
          | cons e sub ih2 =>
            intro l hnd hsub h
            have hnd2 : (sub.map (·.1)).Nodup := (List.nodup_cons.mp hnd).2
            have hsub2 : ∀ x ∈ sub, x ∈ es := fun x hx => hsub x (List.mem_cons_of_mem _ hx)
            rw [entries] at h
            split at h
            · exact ih2 l hnd2 hsub2 h
            · split at h
              · exact ih2 l hnd2 hsub2 h
              · rw [Res.bind_eq_ok] at h
                obtain ⟨⟨b1, l1⟩, hv, h⟩ := h
                cases b1 with
                | false => simp at h
                | true =>
                  simp only [if_true] at h
                  rw [Res.bind_eq_ok] at h
                  obtain ⟨⟨b2, l2⟩, hs, h⟩ := h
                  injection h with h; injection h with h1 h2; subst h1; subst h2
                  rw [List.map_append, List.nodup_append]
                  refine ⟨ih _ _ _ hv, ih2 _ hnd2 hsub2 hs, ?_⟩
                  intro a ha b hb hab
                  subst hab
                  obtain ⟨f, hf, hfp⟩ := List.mem_map.mp ha
                  obtain ⟨g, hg, hgp⟩ := List.mem_map.mp hb
                  obtain ⟨q, r', i1, v1, _, _, _, hq, _⟩ := (traversal_exact o fs n _ _ _ hv f).mp hf
                  obtain ⟨e', he', _, le, hle, hg'⟩ := ((entries_ok hs).2.2 rfl g).mp hg
                  obtain ⟨q', r'', i2, v2, _, _, _, hq', _⟩ := (traversal_exact o fs n _ _ _ hle g).mp hg'
                  obtain ⟨e1, e2⟩ := hname e (hsub e (List.mem_cons_self ..))
                  obtain ⟨e1', e2'⟩ := hname e' (hsub2 e' he')
                  have hqq : q = q' := by
                    have : String.ofList q = String.ofList q' := by rw [← hq, ← hq', hfp, hgp]
                    simpa using congrArg String.toList this
                  have p1 : ∃ s, (s = [] ∨ ∃ s', s = '/' :: s') ∧ q = join p e.1 ++ s := by
                    rcases visits_prefix hl v1 (join_last e1 e2) with h | ⟨s, h⟩
                    · exact ⟨[], Or.inl rfl, by simpa using h⟩
                    · exact ⟨'/' :: s, Or.inr ⟨s, rfl⟩, h⟩
                  have p2 : ∃ s, (s = [] ∨ ∃ s', s = '/' :: s') ∧ q' = join p e'.1 ++ s := by
                    rcases visits_prefix hl v2 (join_last e1' e2') with h | ⟨s, h⟩
                    · exact ⟨[], Or.inl rfl, by simpa using h⟩
                    · exact ⟨'/' :: s, Or.inr ⟨s, rfl⟩, h⟩
                  obtain ⟨s, hs1, hs2⟩ := p1
                  obtain ⟨t, ht1, ht2⟩ := p2
                  rw [hqq, ht2] at hs2
                  have heq : e'.1 ++ t = e.1 ++ s := by
                    unfold join at hs2
                    split at hs2 <;> simpa using hs2
                  have := split_name e2' e2 ht1 hs1 heq
                  have hmem : e.1 ∈ sub.map (·.1) := by rw [← this]; exact List.mem_map_of_mem he'
                  exact (List.nodup_cons.mp hnd).1 hmem
        exact key es l hnd (fun _ h => h) hes
      · split
        · unfold processFile; split <;> simp
        · simp

end Verif.Traverse
