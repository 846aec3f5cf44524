import Verif.Traverse.Links
import Verif.Traverse.Run

/-!
# C74: when following links is harmless

`scan_links_exact` says for every file system with links when a scan with `-f` is undefined; `link_cycle_undefined` (in `Run.lean`) and `endless_undefined` are the
refutation of C74, the second for every cycle that is not filtered out.  Without `-f` links change nothing (`unfollowed_links`).
-/

namespace Verif.Traverse

open Verif.Ignore (Engine Ctx ignoreMatch loadContent)
open Verif.Report (FileEnt)

/-- With links followed, a traversal in which every directory can be listed is undefined exactly if it comes to a path that does not resolve; otherwise it
succeeds. -/
theorem unresolved_undefined (o : Opts) (fs : FS) (hf : o.follow = true) (depth : Path → Nat)
    (hd : ∀ p es e, fs.readdir p = some es → e ∈ es → EntryOk o p e → depth (join p e.1) < depth p)
    {n : Nat} {p : Path} {rules : List Ctx} (hn : depth p < n)
    (hl : ∀ q rules' i, Visits o fs p rules q rules' → Enters o fs q rules' i → i.kind = .dir → fs.readdir q ≠ none)
    (hs : ∀ q rules', Visits o fs p rules q rules' → ∀ content, fs.ignore q = some content → ShortLines content) :
    (traverse o fs n p rules = .ub ↔ ∃ q rules', Visits o fs p rules q rules' ∧ fs.stat true q = none) ∧
    (traverse o fs n p rules ≠ .ub → ∃ l, traverse o fs n p rules = .ok (true, l)) := by
  have hdiv := traversal_terminates o fs depth hd n p rules hn
  have hfail : ∀ l, traverse o fs n p rules ≠ .ok (false, l) := by
    intro l h
    obtain ⟨q, rules', i, v, he, hk, hr⟩ := failure_cause o fs hf n p rules l h
    exact hl q rules' i v he hk hr
  refine ⟨⟨fun h => ?_, ?_⟩, fun h => ?_⟩
  · refine Classical.byContradiction (fun hno => ?_)
    refine traversal_defined o fs n p rules (fun q rules' v => ⟨fun _ => ?_, hs q rules' v⟩) h
    cases hq : fs.stat true q with
    | none => exact absurd ⟨q, rules', v, hq⟩ hno
    | some i => rfl
  · rintro ⟨q, rules', v, hq⟩
    cases ht : traverse o fs n p rules with
    | ub => rfl
    | div => exact absurd ht hdiv
    | ok r =>
      obtain ⟨b, l⟩ := r
      cases b with
      | false => exact absurd ht (hfail l)
      | true =>
        have := ((traversal_succeeds_iff o fs n p rules true l ht).mp rfl q rules' v).1
        rw [hf, hq] at this
        cases this
  · cases ht : traverse o fs n p rules with
    | ub => exact absurd ht h
    | div => exact absurd ht hdiv
    | ok r =>
      obtain ⟨b, l⟩ := r
      cases b with
      | false => exact absurd ht (hfail l)
      | true => exact ⟨l, rfl⟩

variable {ν : Type} {m : Mount ν} {skip : List Path} {rank : ν → Nat} {height : Nat}

/-- All directories can be listed and the lines of the ignore files are short (C29). -/
def Mount.Plain (m : Mount ν) : Prop := (∀ v, m.graph.listable v = true) ∧ ∀ v content, m.graph.rules v = some content → ShortLines content

/-- **C74.**  With `-f` a scan of a file system with links, in which all directories can be listed and the lines of ignore files are short, is undefined exactly
if it comes to a path that leads nowhere: through a dangling link, through more links than are followed, or too long.  Otherwise it succeeds, with exactly the
files `traversal_exact` says. -/
theorem scan_links_exact (h : m.Sound skip rank height) (hp : m.Plain) {o : Opts} (hf : o.follow = true) (hs : ∀ n ∈ skip, n ∈ o.igNames)
    {n : Nat} (hn : m.depth rank height m.arg < n) (rules : List Ctx) :
    (traverse o m.fs n m.arg rules = .ub ↔ ∃ q rules', Visits o m.fs m.arg rules q rules' ∧ m.place q = none) ∧
    (traverse o m.fs n m.arg rules ≠ .ub → ∃ l, traverse o m.fs n m.arg rules = .ok (true, l) ∧ ∀ f, f ∈ l ↔ Selected o m.fs m.arg rules f) := by
  have hst : ∀ q, m.fs.stat true q = none ↔ m.place q = none := by
    intro q
    show (m.place q).map (fun s => m.graph.info s.1) = none ↔ _
    rw [Option.map_eq_none_iff]
  obtain ⟨h1, h2⟩ := unresolved_undefined o m.fs hf (m.depth rank height) (fun p es e hr he hok => depth_join h hs p es e hr he hok) (rules := rules) hn
    (by
      intro q rules' i _ he hk hr
      have hq := he.1
      rw [hf] at hq
      have hq : (m.place q).map (fun s => m.graph.info s.1) = some i := hq
      have hr : (m.place q).bind (fun s => if (m.graph.info s.1).kind = .dir ∧ m.graph.listable s.1 = true then
        some ((m.graph.ents s.1).map (fun e => (e.1, e.2.kind m.graph))) else none) = none := hr
      cases hc : m.place q with
      | none => rw [hc] at hq; cases hq
      | some s =>
        rw [hc] at hq hr
        injection hq with hq
        dsimp only at hq
        rw [Option.bind_some, hq, if_pos ⟨hk, hp.1 _⟩] at hr
        cases hr)
    (by
      intro q rules' _ content hc
      have hc : (m.place q).bind (fun s => m.graph.rules s.1) = some content := hc
      obtain ⟨s, _, hc⟩ := Option.bind_eq_some_iff.1 hc
      exact hp.2 _ _ hc)
  refine ⟨h1.trans ?_, fun hu => ?_⟩
  · simp only [hst]
  · obtain ⟨l, hl⟩ := h2 hu
    exact ⟨l, hl, traversal_exact o m.fs n m.arg rules l hl⟩

/-- **C74 is false, in general.**  If from the argument one can go on for ever, from directory to directory of a set `S` through entries that pass the filters and
directories that may be entered, as with a link to a directory above it, then the scan with `-f` is undefined. -/
theorem endless_undefined (h : m.Sound skip rank height) (hp : m.Plain) {o : Opts} (hf : o.follow = true) (hs : ∀ n ∈ skip, n ∈ o.igNames)
    {n : Nat} (hn : m.depth rank height m.arg < n) (rules : List Ctx) (S : ν → Prop) (htop : S m.top)
    (hS : ∀ q rules' v k, Visits o m.fs m.arg rules q rules' → m.place q = some (v, k) → S v →
      (m.graph.info v).kind = .dir ∧ MayRead o (m.graph.info v) ∧ (o.gitignore = true → ignoreMatch rules' q true ≠ .ignored) ∧
      ∃ e ∈ m.graph.ents v, EntryOk o q (e.1, e.2.kind m.graph) ∧ ∃ u, S u ∧ (e.2 = .hard u ∨ ∃ more, e.2 = .link (some u) more)) :
    traverse o m.fs n m.arg rules = .ub := by
  refine (scan_links_exact h hp hf hs hn rules).1.2 ?_
  have key : ∀ d q rules' v k, m.depth rank height q ≤ d → (∀ q' r', Visits o m.fs q rules' q' r' → Visits o m.fs m.arg rules q' r') →
      m.place q = some (v, k) → S v → ∃ q' r', Visits o m.fs m.arg rules q' r' ∧ m.place q' = none := by
    intro d
    induction d with
    | zero =>
      intro q rules' v k hd _ hq _
      unfold Mount.depth at hd
      rw [hq] at hd
      dsimp only at hd
      omega
    | succ d ih =>
      intro q rules' v k hd hv hq hv'
      obtain ⟨hk, hm, hi, e, he, hok, u, hu, ht⟩ := hS q rules' v k (hv _ _ .here) hq hv'
      have hst : m.fs.stat o.follow q = some (m.graph.info v) := by
        rw [hf]
        show (m.place q).map (fun s => m.graph.info s.1) = _
        rw [hq]; rfl
      have hent : Enters o m.fs q rules' (m.graph.info v) := ⟨hst, by rw [hk]; exact hi, hm⟩
      have hrd : m.fs.readdir q = some ((m.graph.ents v).map (fun e => (e.1, e.2.kind m.graph))) := by
        show (m.place q).bind _ = _
        rw [hq, Option.bind_some]
        exact if_pos ⟨hk, hp.1 v⟩
      obtain ⟨inner, hin⟩ : ∃ inner, Inside o m.fs q rules' inner := by
        cases hg : o.gitignore with
        | false => exact ⟨rules', .inr ⟨.inl hg, rfl⟩⟩
        | true =>
          cases hc : m.fs.ignore q with
          | none => exact ⟨rules', .inr ⟨.inr hc, rfl⟩⟩
          | some content =>
            have hc' : (m.place q).bind (fun s => m.graph.rules s.1) = some content := hc
            rw [hq, Option.bind_some] at hc'
            obtain ⟨ps, e⟩ := loadContent_short o.engine (content.length + 1) content [] (by omega) (hp.2 v content hc')
            exact ⟨⟨q, ps⟩ :: rules', .inl ⟨hg, content, ps, hc, e, rfl⟩⟩
      have hmem : (e.1, e.2.kind m.graph) ∈ (m.graph.ents v).map (fun e => (e.1, e.2.kind m.graph)) := List.mem_map.2 ⟨e, he, rfl⟩
      have hv2 : ∀ q' r', Visits o m.fs (join q e.1) inner q' r' → Visits o m.fs m.arg rules q' r' :=
        fun q' r' w => hv q' r' (.down hent hk hrd hmem hok hin w)
      cases hj : m.place (join q e.1) with
      | none => exact ⟨join q e.1, inner, hv2 _ _ .here, hj⟩
      | some s =>
        obtain ⟨u', k'⟩ := s
        have hlt := depth_join h hs q _ _ hrd hmem hok
        have : u' = u := by
          rw [place_join h hq he] at hj
          split at hj
          · cases hj
          · rcases ht with ht | ⟨more, ht⟩
            · rw [ht] at hj
              simp only [Target.goes, Option.some.injEq, Prod.mk.injEq] at hj
              exact hj.1.symm
            · rw [ht] at hj
              simp only [Target.goes] at hj
              split at hj
              · simp only [Option.map_some, Option.some.injEq, Prod.mk.injEq] at hj
                exact hj.1.symm
              · cases hj
        subst this
        exact ih (join q e.1) inner u' k' (by dsimp only at hlt; omega) hv2 hj hu
  exact key _ m.arg rules m.top 0 (Nat.le_refl _) (fun _ _ v => v) (place_arg h) htop

/-- The arguments before the one with the cycle having been scanned, the run is undefined. -/
theorem scan_undefined (o : Opts) (fs : FS) (n : Nat) (resolve : Path → Option Path) {p : Path} (h : traverse o fs n p o.globals = .ub) :
    ∀ (pre : List Path) (a : Path) (post : List Path), resolve a = some p →
      (∀ b ∈ pre, ∃ q l, resolve b = some q ∧ traverse o fs n q o.globals = .ok (true, l)) → scanArgs o fs n resolve (pre ++ a :: post) = .ub := by
  intro pre
  induction pre with
  | nil =>
    intro a post ha _
    rw [List.nil_append, scanArgs, ha]
    dsimp only
    rw [h]; rfl
  | cons b pre ih =>
    intro a post ha hpre
    obtain ⟨q, l, hq, hl⟩ := hpre b (List.mem_cons_self ..)
    rw [List.cons_append, scanArgs, hq]
    dsimp only
    rw [hl, Res.ok_bind, if_pos rfl, ih a post ha (fun c hc => hpre c (List.mem_cons_of_mem _ hc))]
    rfl

/-! ## Without `-f` -/

/-- The file system without its links. -/
def FS.noLinks (fs : FS) : FS := { fs with readdir := fun p => (fs.readdir p).map (fun es => es.filter (fun e => decide (e.2 ≠ .lnk))) }

/-- What is listed as a link is a link. -/
def LinksOk (fs : FS) : Prop := ∀ p es e, fs.readdir p = some es → e ∈ es → e.2 = .lnk → ∃ i, fs.stat false (join p e.1) = some i ∧ i.kind = .lnk

theorem traverse_link (o : Opts) (fs : FS) (hf : o.follow = false) {p : Path} {i : Finfo} (hi : fs.stat false p = some i) (hk : i.kind = .lnk) (n : Nat) (rules : List Ctx) :
    traverse o fs (n + 1) p rules = .ok (true, []) := by
  rw [traverse, fileInfo, hf, hi]
  dsimp only
  rw [Res.ok_bind]
  dsimp only
  split
  · rfl
  · split
    · rfl
    · rw [hk]; rfl

theorem entries_filter (o : Opts) (visit visit' : Path → Res (Bool × List FileEnt)) (dir : Path) : ∀ es : List (Path × Kind),
    (∀ e ∈ es, e.2 = .lnk → visit (join dir e.1) = .ok (true, []) ∨ visit (join dir e.1) = .div) →
    (∀ e ∈ es, visit (join dir e.1) ≠ .div → visit' (join dir e.1) = visit (join dir e.1)) →
    entries o visit dir es ≠ .div → entries o visit' dir (es.filter (fun e => decide (e.2 ≠ .lnk))) = entries o visit dir es := by
  intro es
  induction es with
  | nil => intro _ _ _; rfl
  | cons e es ih =>
    intro h1 h2 h3
    have ih := ih (fun x hx => h1 x (List.mem_cons_of_mem _ hx)) (fun x hx => h2 x (List.mem_cons_of_mem _ hx))
    have g1 := h1 e (List.mem_cons_self ..)
    have g2 := h2 e (List.mem_cons_self ..)
    by_cases hk : e.2 = .lnk
    · rw [List.filter_cons_of_neg (by simp [hk])]
      rw [entries] at h3 ⊢
      split
      · rename_i hs; rw [if_pos hs] at h3; exact ih h3
      · rename_i hs
        rw [if_neg hs] at h3
        split
        · rename_i hr; rw [if_pos hr] at h3; exact ih h3
        · rename_i hr
          rw [if_neg hr] at h3
          rcases g1 hk with g | g
          · rw [g, Res.ok_bind, if_pos rfl] at h3
            rw [g, Res.ok_bind, if_pos rfl]
            have h4 : entries o visit dir es ≠ .div := by
              intro c; rw [c] at h3; exact h3 rfl
            rw [ih h4]
            cases entries o visit dir es with
            | ok r => simp
            | ub => rfl
            | div => rfl
          · rw [g] at h3; exact absurd rfl h3
    · rw [List.filter_cons_of_pos (by simp [hk])]
      rw [entries] at h3
      rw [entries, entries]
      split
      · rename_i hs; rw [if_pos hs] at h3; exact ih h3
      · rename_i hs
        rw [if_neg hs] at h3
        split
        · rename_i hr; rw [if_pos hr] at h3; exact ih h3
        · rename_i hr
          rw [if_neg hr] at h3
          have hv : visit (join dir e.1) ≠ .div := by
            intro c; rw [c] at h3; exact h3 rfl
          rw [g2 hv]
          cases hc : visit (join dir e.1) with
          | ub => rfl
          | div => exact absurd hc hv
          | ok r =>
            rw [hc, Res.ok_bind] at h3
            rw [Res.ok_bind, Res.ok_bind]
            split
            · rename_i hr1
              rw [if_pos hr1] at h3
              have h4 : entries o visit dir es ≠ .div := by
                intro c; rw [c] at h3; exact h3 rfl
              rw [ih h4]
            · rfl

theorem entries_links (o : Opts) (visit visit' : Path → Res (Bool × List FileEnt)) (dir : Path) : ∀ es : List (Path × Kind),
    (∀ e ∈ es, e.2 = .lnk → visit (join dir e.1) = .ok (true, [])) →
    (∀ e ∈ es, visit' (join dir e.1) ≠ .div → visit (join dir e.1) = visit' (join dir e.1)) →
    entries o visit' dir (es.filter (fun e => decide (e.2 ≠ .lnk))) ≠ .div → entries o visit dir es = entries o visit' dir (es.filter (fun e => decide (e.2 ≠ .lnk))) := by
  intro es
  induction es with
  | nil => intro _ _ _; rfl
  | cons e es ih =>
    intro h1 h2 h3
    have ih := ih (fun x hx => h1 x (List.mem_cons_of_mem _ hx)) (fun x hx => h2 x (List.mem_cons_of_mem _ hx))
    have g1 := h1 e (List.mem_cons_self ..)
    have g2 := h2 e (List.mem_cons_self ..)
    by_cases hk : e.2 = .lnk
    · rw [List.filter_cons_of_neg (by simp [hk])] at h3 ⊢
      rw [entries]
      split
      · exact ih h3
      · split
        · exact ih h3
        · rw [g1 hk, Res.ok_bind, if_pos rfl, ih h3]
          cases entries o visit' dir (es.filter (fun e => decide (e.2 ≠ .lnk))) with
          | ok r => simp
          | ub => rfl
          | div => rfl
    · rw [List.filter_cons_of_pos (by simp [hk])] at h3 ⊢
      rw [entries] at h3
      rw [entries, entries]
      split
      · rename_i hs; rw [if_pos hs] at h3; exact ih h3
      · rename_i hs
        rw [if_neg hs] at h3
        split
        · rename_i hr; rw [if_pos hr] at h3; exact ih h3
        · rename_i hr
          rw [if_neg hr] at h3
          have hv : visit' (join dir e.1) ≠ .div := by
            intro c; rw [c] at h3; exact h3 rfl
          rw [g2 hv]
          cases hc : visit' (join dir e.1) with
          | ub => rfl
          | div => exact absurd hc hv
          | ok r =>
            rw [hc, Res.ok_bind] at h3
            rw [Res.ok_bind, Res.ok_bind]
            split
            · rename_i hr1
              rw [if_pos hr1] at h3
              have h4 : entries o visit' dir (es.filter (fun e => decide (e.2 ≠ .lnk))) ≠ .div := by
                intro c; rw [c] at h3; exact h3 rfl
              rw [ih h4]
            · rfl

/-- **C74, part.**  Without `-f` links change nothing: a scan does what it does in the file system without the links, whatever they point at. -/
theorem unfollowed_links (o : Opts) (fs : FS) (hf : o.follow = false) (hl : LinksOk fs) : ∀ (n : Nat) (p : Path) (rules : List Ctx),
    traverse o fs n p rules ≠ .div → traverse o fs.noLinks n p rules = traverse o fs n p rules := by
  intro n
  induction n with
  | zero => intro p rules h; exact absurd rfl h
  | succ n ih =>
    intro p rules h
    rw [traverse] at h
    rw [traverse, traverse]
    show (fileInfo o fs p >>= _) = (fileInfo o fs p >>= _)
    cases hfi : fileInfo o fs p with
    | ub => rfl
    | div => rfl
    | ok info =>
      rw [hfi, Res.ok_bind] at h
      rw [Res.ok_bind, Res.ok_bind]
      cases info with
      | none => rfl
      | some i =>
        dsimp only at h ⊢
        split
        · rfl
        · rename_i h1
          rw [if_neg h1] at h
          split
          · rfl
          · rename_i h2
            rw [if_neg h2] at h
            cases hk : i.kind with
            | reg => rfl
            | lnk => rfl
            | other => rfl
            | dir =>
              rw [hk] at h
              dsimp only at h ⊢
              rw [show fs.noLinks.readdir p = (fs.readdir p).map (fun es => es.filter (fun e => decide (e.2 ≠ .lnk))) from rfl]
              cases hr : fs.readdir p with
              | none => rfl
              | some es =>
                rw [hr] at h
                dsimp only [Option.map_some] at h ⊢
                show (openCtx o fs p rules >>= _) = (openCtx o fs p rules >>= _)
                cases hc : openCtx o fs p rules with
                | ub => rfl
                | div => rfl
                | ok inner =>
                  rw [hc, Res.ok_bind] at h
                  rw [Res.ok_bind, Res.ok_bind]
                  refine entries_filter o _ _ p es ?_ (fun e _ hv => ih _ _ hv) h
                  intro e he hke
                  obtain ⟨j, hj, hjk⟩ := hl p es e hr he hke
                  cases n with
                  | zero => exact .inr rfl
                  | succ n => exact .inl (traverse_link o fs hf hj hjk n inner)

/-- The other direction: the scan ends with the links if it does without them. -/
theorem unfollowed_links_end (o : Opts) (fs : FS) (hf : o.follow = false) (hl : LinksOk fs) : ∀ (n : Nat) (p : Path) (rules : List Ctx),
    traverse o fs.noLinks n p rules ≠ .div → traverse o fs (n + 1) p rules = traverse o fs.noLinks n p rules := by
  intro n
  induction n with
  | zero => intro p rules h; exact absurd rfl h
  | succ n ih =>
    intro p rules h
    have er : fs.noLinks.readdir p = (fs.readdir p).map (fun es => es.filter (fun e => decide (e.2 ≠ .lnk))) := rfl
    have ef : fileInfo o fs.noLinks p = fileInfo o fs p := rfl
    have ec : openCtx o fs.noLinks p rules = openCtx o fs p rules := rfl
    rw [traverse, ef, er, ec] at h
    rw [traverse, traverse.eq_def o fs.noLinks (n + 1)]
    dsimp only
    rw [ef, er, ec]
    cases hfi : fileInfo o fs p with
    | ub => rfl
    | div => rfl
    | ok info =>
      rw [hfi, Res.ok_bind] at h
      rw [Res.ok_bind, Res.ok_bind]
      cases info with
      | none => rfl
      | some i =>
        dsimp only at h ⊢
        split
        · rfl
        · rename_i h1
          rw [if_neg h1] at h
          split
          · rfl
          · rename_i h2
            rw [if_neg h2] at h
            cases hk : i.kind with
            | reg => rfl
            | lnk => rfl
            | other => rfl
            | dir =>
              rw [hk] at h
              dsimp only at h ⊢
              cases hr : fs.readdir p with
              | none => rfl
              | some es =>
                rw [hr] at h
                dsimp only [Option.map_some] at h ⊢
                cases hc : openCtx o fs p rules with
                | ub => rfl
                | div => rfl
                | ok inner =>
                  rw [hc, Res.ok_bind] at h
                  rw [Res.ok_bind, Res.ok_bind]
                  refine entries_links o _ _ p es ?_ (fun e _ hv => ih _ _ hv) h
                  intro e he hke
                  obtain ⟨j, hj, hjk⟩ := hl p es e hr he hke
                  exact traverse_link o fs hf hj hjk n inner

/-! ## Examples -/

/-- A directory `d` with a subdirectory `s`, in which `up` is a link to `d` and `f` a file. -/
def upMount (limit pathMax : Nat) : Mount Nat where
  graph :=
    { info := fun v => if v ≤ 1 then { kind := .dir } else { kind := .reg, size := 7 }
      ents := fun v =>
        if v = 0 then [(['.'], .hard 0), (['s'], .hard 1)]
        else if v = 1 then [(['.'], .hard 1), (['.', '.'], .hard 0), (['f'], .hard 2), (['u', 'p'], .link (some 0) 0)]
        else []
      listable := fun _ => true
      rules := fun _ => none }
  limit := limit
  pathMax := pathMax
  arg := ['d']
  top := 0

theorem upMount_sound (limit pathMax : Nat) (h : 1 < pathMax) : (upMount limit pathMax).Sound [['.'], ['.', '.']] (fun v => 2 - v) 2 where
  name := by
    intro v e he
    simp only [upMount] at he
    split at he
    · simp at he; rcases he with rfl | rfl <;> decide
    · split at he
      · simp at he; rcases he with rfl | rfl | rfl | rfl <;> decide
      · cases he
  once := by
    intro v
    simp only [upMount]
    split
    · decide
    · split <;> decide
  arg := ⟨by simp [upMount], h⟩
  down := by
    intro v name u he hn
    simp only [upMount] at he
    split at he
    · simp at he hn
      rcases he with ⟨rfl, rfl⟩ | ⟨rfl, rfl⟩
      · simp at hn
      · omega
    · split at he
      · simp at he hn
        rcases he with ⟨rfl, rfl⟩ | ⟨rfl, rfl⟩ | ⟨rfl, rfl⟩ <;> first | omega | simp at hn
      · cases he
  bound := by intro v; omega

/-- The scan of `d` with `-f` is undefined, however many links are followed. -/
theorem up_undefined (E : Engine) (limit pathMax : Nat) (h : 1 < pathMax) (n : Nat) (hn : (upMount limit pathMax).depth (fun v => 2 - v) 2 ['d'] < n) :
    traverse { engine := E, follow := true } (upMount limit pathMax).fs n ['d'] [] = .ub := by
  refine endless_undefined (upMount_sound limit pathMax h) ⟨fun _ => rfl, by intro v c hc; cases hc⟩ rfl (fun n hn => hn) hn [] (· ≤ 1) (by simp [upMount]) ?_
  intro q rules' v k hv hq hvS
  have hr : ∀ {p r q r'}, Visits ({ engine := E, follow := true } : Opts) (upMount limit pathMax).fs p r q r' → r = [] → r' = [] := by
    intro p r q r' w
    induction w with
    | here => intro h; exact h
    | down _ _ _ _ _ hin _ ih =>
      intro hr
      refine ih ?_
      rcases hin with ⟨_, content, ps, hc, _, _⟩ | ⟨_, rfl⟩
      · obtain ⟨s, _, hs⟩ := Option.bind_eq_some_iff.1 (show ((upMount limit pathMax).place _).bind (fun _ => none) = some content from hc)
        cases hs
      · exact hr
  have hr := hr hv rfl
  subst hr
  have hk : ((upMount limit pathMax).graph.info v).kind = .dir := by simp [upMount, hvS]
  refine ⟨hk, .inl rfl, fun _ => by simp [ignoreMatch, Ignore.matchChain], ?_⟩
  rcases (show v = 0 ∨ v = 1 by omega) with rfl | rfl
  · exact ⟨(['s'], .hard 1), by simp [upMount], by simp [EntryOk, Target.kind], 1, by simp, .inl rfl⟩
  · exact ⟨(['u', 'p'], .link (some 0) 0), by simp [upMount], by simp [EntryOk, Target.kind], 0, by simp, .inr ⟨0, rfl⟩⟩

/-- With the usual forty links and paths of 4096 characters; without `-f` the file is found. -/
example (E : Engine) : traverse { engine := E, follow := true } (upMount 40 4096).fs 124 ['d'] [] = .ub ∧
    pathsOf (traverse { engine := noEngine } (upMount 40 4096).fs 4 ['d'] []) = some (true, ["d/s/f"]) :=
  ⟨up_undefined E 40 4096 (by decide) 124 (by decide +kernel), by decide +kernel⟩

/-- `unfollowed_links` applies to a directory that holds a link to itself. -/
example : LinksOk { stat := fun b p => some { kind := if !b && p.getLast? == some 'l' then .lnk else .dir }, readdir := fun _ => some [(['l'], .lnk)], ignore := fun _ => none } := by
  intro p es e hes he _
  simp only [Option.some.injEq] at hes
  subst hes
  simp only [List.mem_singleton] at he
  subst he
  refine ⟨_, rfl, ?_⟩
  unfold join
  split <;> simp

end Verif.Traverse
