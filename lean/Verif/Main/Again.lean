import Verif.Main.Recipe
import Verif.Traverse.Removed

/-!
# The clean-up recipe, run again and again (C126)
-/

namespace Verif.Main

open Verif.Ignore (Ctx)
open Verif.Report (FileEnt)
open Verif.Traverse (Path scanArgs exFS FS stays Removable)
open Verif.Config (Tok chars)
open Verif.Output (recipe hasWord Survives)

/-! ## Specification -/

/-- The path leads to an entry that `rm` has removed. -/
def gone [DecidableEq ε] (d : Entries ε) (rm : List Path) (q : Path) : Bool := rm.any fun p => decide (d.own p = d.own q)

/-- The machine when the names `rm` have been given to `rm`. -/
def remove [DecidableEq ε] (d : Entries ε) (m : Machine) (rm : List Path) : Machine :=
  { m with fs := m.fs.without (gone d rm), disk := fun s => if gone d rm s.toList then ⟨[], [], false, false, false⟩ else m.disk s }

/-- One round: `ftwin` writes its log and exits with 0, and the recipe removes what it finds in it. -/
def round [DecidableEq ε] (d : Entries ε) (pz : Image.Puzzle ν δ) (level : Nat → δ) (ts : List Tok) (args : List Path) (word : List Char) (m : Machine) (evs : List (Pool.Ev Nat)) :
    Option Machine :=
  match ftwinMain m pz level evs ts args with
  | .ok (0, .text t) => some (remove d m (recipe word t))
  | _ => none

/-- Several rounds, with what happened among the threads of each. -/
def rounds [DecidableEq ε] (d : Entries ε) (pz : Image.Puzzle ν δ) (level : Nat → δ) (ts : List Tok) (args : List Path) (word : List Char) (m : Machine) (es : List (List (Pool.Ev Nat))) :
    Option Machine :=
  es.foldlM (round d pz level ts args word) m

instance (m : Machine) (f g : FileEnt) : Decidable (Twins m f g) := by unfold Twins; infer_instance

/-- How many files from the prioritised path have the bytes of `f`. -/
def copies (m : Machine) (cands : List FileEnt) (f : FileEnt) : Nat := cands.countP fun g => g.prio && decide (Twins m f g)

/-- What the recipe needs, and with links not followed: two names for one entry give the same information, and no file found is an ignore file. -/
structure Ready (d : Entries ε) (ts : List Tok) (args : List Path) (globals : List Ctx) (word : List Char) (m : Machine) (cands : List FileEnt) : Prop where
  usable : Usable m ts
  accepted : Accepted m ts args
  line : 'I' ∉ chars ts ∧ 't' ∉ chars ts ∧ 'J' ∉ chars ts ∧ 'd' ∉ chars ts ∧ 'f' ∉ chars ts
  comma : separator ts = ','
  pipe : m.tty = false
  rules : Traverse.globalChain m.engine = .ok globals
  scan : scanArgs (asked m globals ts) m.fs m.depth (place m ts) args = .ok (true, cands)
  found : cands ≠ []
  calm : Calm m cands
  names : ∀ f ∈ cands, Survives f.path.toList
  apart : Apart d cands
  word : ∀ f ∈ cands, f.prio = true → hasWord word f.path.toList = true
  entry : ∀ p q, d.own p = d.own q → m.fs.stat false p = m.fs.stat false q
  ignore : ∀ f ∈ cands, ∀ dir, d.own f.path.toList ≠ d.own (Traverse.join dir ".gitignore".toList)

/-- No file found is itself an argument. -/
def Inner (d : Entries ε) (args : List Path) (cands : List FileEnt) : Prop := ∀ a ∈ args, ∀ f ∈ cands, d.own f.path.toList ≠ d.own a

/-! ## Lemmas -/

theorem Calm.rest {m m' : Machine} {cands left : List FileEnt} (h : Calm m cands) (hs : left.Sublist cands) (hd : ∀ f ∈ left, m'.disk f.path = m.disk f.path)
    (h1 : m'.files = m.files) (h2 : m'.fuel = m.fuel) (h3 : m'.xxh128 = m.xxh128) : Calm m' left where
  order := by rw [h1]; exact h.order
  sorts := by rw [h1]; exact h.sorts
  hash := by rw [h1]; exact h.hash
  len := Nat.le_trans hs.length_le h.len
  fuel := by rw [h1]; have := hs.length_le; have := h.fuel; omega
  small := fun f hf => h.small f (hs.subset hf)
  size := fun f hf => by rw [hd f hf]; exact h.size f (hs.subset hf)
  io := fun f hf => by rw [h2]; exact h.io f (hs.subset hf)
  read := fun f hf => by rw [hd f hf]; exact h.read f (hs.subset hf)
  digests := fun f hf g hg => by rw [hd f hf, hd g hg, h3]; exact h.digests f (hs.subset hf) g (hs.subset hg)
  filled := fun f hf => by rw [hd f hf]; exact h.filled f (hs.subset hf)
  single := fun f hf ho => by
    rw [hd f hf] at ho
    have e := h.single f (hs.subset hf) ho
    have l := hs.countP_le (p := fun g => decide (g.path = f.path))
    have g : 0 < left.countP fun g => decide (g.path = f.path) := List.countP_pos_iff.mpr ⟨f, hf, by simp⟩
    omega
  leftover := fun f hf g hg => by rw [hd f hf, hd g hg, h1, h3]; exact h.leftover f (hs.subset hf) g (hs.subset hg)

theorem countP_drop {α : Type} {p : α → Bool} {l s : List α} (hs : s.Sublist l) {x : α} (hx : x ∈ l) (hn : x ∉ s) (hp : p x = true) : s.countP p < l.countP p := by
  rw [List.countP_eq_length_filter, List.countP_eq_length_filter]
  have hs' := hs.filter p
  refine Nat.lt_of_le_of_ne hs'.length_le fun e => ?_
  have := hs'.eq_of_length e
  have hm : x ∈ s.filter p := by rw [this]; exact List.mem_filter.mpr ⟨hx, hp⟩
  exact hn (List.mem_filter.mp hm).1

theorem Twins.congr {m m' : Machine} {f g : FileEnt} (hf : m'.disk f.path = m.disk f.path) (hg : m'.disk g.path = m.disk g.path) : Twins m' f g ↔ Twins m f g := by
  unfold Twins; rw [hf, hg]

theorem Twins.trans {m : Machine} {f g h : FileEnt} (a : Twins m f g) (b : Twins m g h) : Twins m f h := ⟨a.1, b.2.1, a.2.2.trans b.2.2⟩

theorem Twins.symm {m : Machine} {f g : FileEnt} (a : Twins m f g) : Twins m g f := ⟨a.2.1, a.1, a.2.2.symm⟩

/-- With links not followed, the files found are regular files. -/
theorem found_regular {m : Machine} {ts : List Tok} {args : List Path} {globals : List Ctx} {cands : List FileEnt} (hf : 'f' ∉ chars ts)
    (hscan : scanArgs (asked m globals ts) m.fs m.depth (place m ts) args = .ok (true, cands)) {f : FileEnt} (h : f ∈ cands) :
    ∃ i, m.fs.stat false f.path.toList = some i ∧ i.kind = .reg := by
  obtain ⟨a, -, p, -, q, rules', i, -, hen, hk, -, e, -⟩ := (found_iff hscan f).mp h
  have hfo : (asked m globals ts).follow = false := by show decide _ = false; simp [hf]
  have hst := hen.1
  rw [hfo] at hst
  refine ⟨i, ?_, ?_⟩
  · rw [e, String.toList_ofList]; exact hst
  · rcases hk with hk | ⟨-, hk⟩
    · exact hk
    · rw [hfo] at hk; cases hk

/-- A path is gone only if it leads to a file removed. -/
theorem gone_found [DecidableEq ε] {d : Entries ε} {cands : List FileEnt} {rm : List Path} (h : ∀ p ∈ rm, ∃ f ∈ cands, f.path.toList = p) {q : Path} (hq : gone d rm q = true) :
    ∃ f ∈ cands, f.path.toList ∈ rm ∧ d.own f.path.toList = d.own q := by
  obtain ⟨p, hp, e⟩ := List.any_eq_true.mp hq
  obtain ⟨f, hfm, rfl⟩ := h p hp
  exact ⟨f, hfm, hp, by simpa using e⟩

theorem Ready.removable [DecidableEq ε] {d : Entries ε} {ts : List Tok} {args : List Path} {globals : List Ctx} {word : List Char} {m : Machine} {cands : List FileEnt}
    (h : Ready d ts args globals word m cands) {rm : List Path} (hrm : ∀ p ∈ rm, ∃ f ∈ cands, f.path.toList = p) : Removable (asked m globals ts) m.fs (gone d rm) := by
  have hf := h.line.2.2.2.2
  have hfo : (asked m globals ts).follow = false := by show decide _ = false; simp [hf]
  constructor
  · intro q hq i hi
    obtain ⟨f, hfm, -, e⟩ := gone_found hrm hq
    obtain ⟨j, hj, hk⟩ := found_regular hf h.scan hfm
    rw [hfo, ← h.entry _ _ e, hj] at hi
    rw [← Option.some.inj hi, hk]; decide
  · intro dir
    rw [Bool.eq_false_iff]
    intro hg
    obtain ⟨f, hfm, -, e⟩ := gone_found hrm hg
    exact h.ignore f hfm dir e

/-- What one round does. -/
theorem round_ready [DecidableEq ε] {d : Entries ε} {ts : List Tok} {args : List Path} {globals : List Ctx} {word : List Char} {m : Machine} {cands : List FileEnt}
    (h : Ready d ts args globals word m cands) (ha : Inner d args cands) (pz : Image.Puzzle ν δ) (level : Nat → δ) (evs : List (Pool.Ev Nat)) :
    ∃ m' left, round d pz level ts args word m evs = some m' ∧ left.Sublist cands ∧ Ready d ts args globals word m' left ∧
      (∀ f ∈ left, m'.disk f.path = m.disk f.path) ∧
      (∀ f ∈ cands, f ∈ left ∨ hasWord word f.path.toList = true ∧ ∃ g ∈ left, Twins m f g) ∧
      (∀ f ∈ left, f.prio = true → (∃ g ∈ left, g ≠ f ∧ Twins m f g) → copies m left f < copies m cands f) := by
  obtain ⟨hI, ht, hJ, hd, hf⟩ := h.line
  obtain ⟨t, h1, h2, h3, h4, h5⟩ := recipe_keeps_names m pz level evs ts args h.usable h.accepted hI ht hJ hd h.comma h.pipe h.rules h.scan h.found h.calm h.names h.apart.once word
  have hpl : ∀ a, place m ts a = .some a := fun a => by unfold place; rw [if_neg hJ]
  have hrm : ∀ p ∈ recipe word t, ∃ f ∈ cands, f.path.toList = p := fun p hp => (h2 p hp).2
  have hgc : ∀ f ∈ cands, gone d (recipe word t) f.path.toList = decide (f.path.toList ∈ recipe word t) := by
    intro f hfm
    rw [Bool.eq_iff_iff, decide_eq_true_iff]
    constructor
    · intro hg
      obtain ⟨g, hgm, hgr, e⟩ := gone_found hrm hg
      by_cases ne : g = f
      · subst ne; exact hgr
      · exact absurd (by rw [e]; exact d.self _) (h.apart.ne hgm hfm ne)
    · intro hr; exact List.any_eq_true.mpr ⟨_, hr, by simp⟩
  have hscan := Traverse.scan_without (h.removable hrm) (by
    intro a ham p hp
    rw [hpl] at hp
    cases hp
    rw [Bool.eq_false_iff]
    intro hg
    obtain ⟨f, hfm, -, e⟩ := gone_found hrm hg
    exact ha a ham f hfm e) h.scan
  have hsub : (cands.filter (stays (gone d (recipe word t)))).Sublist cands := List.filter_sublist
  have hin : ∀ f ∈ cands, f ∈ cands.filter (stays (gone d (recipe word t))) ↔ f.path.toList ∉ recipe word t := by
    intro f hfm
    rw [List.mem_filter, stays, hgc f hfm]
    simp [hfm]
  have hdisk : ∀ f ∈ cands.filter (stays (gone d (recipe word t))), (remove d m (recipe word t)).disk f.path = m.disk f.path := by
    intro f hfm
    have := (List.mem_filter.mp hfm).2
    rw [stays, Bool.not_eq_true'] at this
    show (if gone d _ f.path.toList = true then _ else _) = _
    rw [this]; rfl
  have hkeep : ∀ f ∈ cands, f ∈ cands.filter (stays (gone d (recipe word t))) ∨ hasWord word f.path.toList = true ∧ ∃ g ∈ cands.filter (stays (gone d (recipe word t))), Twins m f g := by
    intro f hfm
    by_cases hr : f.path.toList ∈ recipe word t
    · right
      obtain ⟨g, hg, hgn, htw⟩ := h3 f hfm hr
      exact ⟨(h2 _ hr).1, g, (hin g hg).mpr hgn, htw⟩
    · exact .inl ((hin f hfm).mpr hr)
  refine ⟨remove d m (recipe word t), cands.filter (stays (gone d (recipe word t))), ?_, hsub, ?_, hdisk, hkeep, ?_⟩
  · rw [round, h1]; rfl
  · refine ⟨⟨h.usable.fuel, h.usable.names, h.usable.few, h.usable.gids, h.usable.egid⟩, ⟨h.accepted.valid, h.accepted.some, h.accepted.user, h.accepted.exprs⟩, h.line, h.comma, h.pipe, h.rules, hscan,
      ?_, h.calm.rest hsub hdisk rfl rfl rfl, fun f hf' => h.names f (hsub.subset hf'), h.apart.filter _, fun f hf' => h.word f (hsub.subset hf'), ?_, fun f hf' => h.ignore f (hsub.subset hf')⟩
    · intro e
      obtain ⟨f, hfm⟩ := List.exists_mem_of_ne_nil _ h.found
      rw [e] at hkeep
      rcases hkeep f hfm with hc | ⟨-, g, hg, -⟩
      · cases hc
      · cases hg
    · intro p q e
      have hg : gone d (recipe word t) p = gone d (recipe word t) q := by unfold gone; rw [e]
      show (if gone d _ p = true then none else _) = (if gone d _ q = true then none else _)
      rw [hg, h.entry p q e]
  · rintro f hfm hp ⟨g, hg, ne, htw⟩
    obtain ⟨f', hf', hp', htw', hr⟩ := h5 h.word f (hsub.subset hfm) hp ⟨g, hsub.subset hg, ne, htw⟩
    exact countP_drop hsub hf' (fun hc => (hin f' hf').mp hc hr) (by simp [hp', htw'])

/-! ## Theorems -/

/-- **C126, part.**  The command line and the recipe are run again and again, at least as many times as there are copies of any one file in the prioritised path.  Every run exits with 0.  In the end a scan finds some of the files it
found at first, unchanged; every other one had the word in its name and has a twin that is left; and no file that is left in the prioritised path has a twin that is left.  Missing: what C117 leaves out, and links
followed (`-f`), arguments that are files and ignore files among the files found. -/
theorem recipe_again_partial [DecidableEq ε] {d : Entries ε} {ts : List Tok} {args : List Path} {globals : List Ctx} {word : List Char} {m : Machine} {cands : List FileEnt}
    (h : Ready d ts args globals word m cands) (ha : Inner d args cands) (pz : Image.Puzzle ν δ) (level : Nat → δ) (es : List (List (Pool.Ev Nat)))
    (hmany : ∀ f ∈ cands, f.prio = true → copies m cands f ≤ es.length) :
    ∃ m' left, rounds d pz level ts args word m es = some m' ∧ left.Sublist cands ∧
      scanArgs (asked m globals ts) m'.fs m.depth (place m ts) args = .ok (true, left) ∧
      (∀ f ∈ left, m'.disk f.path = m.disk f.path) ∧
      (∀ f ∈ cands, f ∈ left ∨ hasWord word f.path.toList = true ∧ ∃ g ∈ left, Twins m f g) ∧
      ∀ f ∈ left, f.prio = true → ∀ g ∈ left, Twins m f g → g = f := by
  have key : ∀ (es : List (List (Pool.Ev Nat))) (m : Machine) (cands : List FileEnt), Ready d ts args globals word m cands → Inner d args cands →
      (∀ f ∈ cands, f.prio = true → (∃ g ∈ cands, g ≠ f ∧ Twins m f g) → copies m cands f ≤ es.length) →
      ∃ m' left, rounds d pz level ts args word m es = some m' ∧ left.Sublist cands ∧ asked m' globals ts = asked m globals ts ∧ m'.depth = m.depth ∧ place m' ts = place m ts ∧
        scanArgs (asked m globals ts) m'.fs m.depth (place m ts) args = .ok (true, left) ∧
        (∀ f ∈ left, m'.disk f.path = m.disk f.path) ∧
        (∀ f ∈ cands, f ∈ left ∨ hasWord word f.path.toList = true ∧ ∃ g ∈ left, Twins m f g) ∧
        ∀ f ∈ left, f.prio = true → ∀ g ∈ left, Twins m f g → g = f := by
    intro es
    induction es with
    | nil =>
      intro m cands h ha hmany
      refine ⟨m, cands, rfl, .refl _, rfl, rfl, rfl, h.scan, fun _ _ => rfl, fun f hf => .inl hf, ?_⟩
      intro f hf hp g hg htw
      by_cases e : g = f
      · exact e
      · have h0 := hmany f hf hp ⟨g, hg, e, htw⟩
        have hpos : 0 < copies m cands f := List.countP_pos_iff.mpr ⟨f, hf, by simp [hp, htw.trans htw.symm]⟩
        simp only [List.length_nil] at h0
        omega
    | cons evs es ih =>
      intro m cands h ha hmany
      obtain ⟨m1, left1, hr, hs1, hready, hd1, hk1, hc1⟩ := round_ready h ha pz level evs
      have hasked : asked m1 globals ts = asked m globals ts ∧ m1.depth = m.depth ∧ place m1 ts = place m ts := by
        rw [round] at hr
        split at hr
        · cases hr; exact ⟨rfl, rfl, rfl⟩
        · cases hr
      have htw1 : ∀ f ∈ left1, ∀ g ∈ left1, (Twins m1 f g ↔ Twins m f g) := fun f hf g hg => Twins.congr (hd1 f hf) (hd1 g hg)
      have hcop : ∀ f ∈ left1, copies m1 left1 f = copies m left1 f := by
        intro f hf
        refine List.countP_congr fun g hg => ?_
        simp [htw1 f hf g hg]
      obtain ⟨m', left, hr', hs', ha', hdp', hpl', hscan', hd', hk', hend⟩ := ih m1 left1 hready (fun a ham f hf => ha a ham f (hs1.subset hf)) (by
        rintro f hf hp ⟨g, hg, ne, htw⟩
        have htw := (htw1 f hf g hg).mp htw
        have h1 := hc1 f hf hp ⟨g, hg, ne, htw⟩
        have h2 := hmany f (hs1.subset hf) hp ⟨g, hs1.subset hg, ne, htw⟩
        simp only [List.length_cons] at h2
        rw [hcop f hf]; omega)
      refine ⟨m', left, ?_, hs'.trans hs1, ha'.trans hasked.1, hdp'.trans hasked.2.1, hpl'.trans hasked.2.2, ?_, ?_, ?_, ?_⟩
      · rw [rounds, List.foldlM_cons, hr]; exact hr'
      · rw [hasked.1, hasked.2.1, hasked.2.2] at hscan'; exact hscan'
      · intro f hf; rw [hd' f hf, hd1 f (hs'.subset hf)]
      · intro f hf
        have lift : ∀ f ∈ left1, f ∈ left ∨ hasWord word f.path.toList = true ∧ ∃ g ∈ left, Twins m f g := by
          intro f hf
          rcases hk' f hf with hl | ⟨hw, g, hg, htw⟩
          · exact .inl hl
          · exact .inr ⟨hw, g, hg, (htw1 f hf g (hs'.subset hg)).mp htw⟩
        rcases hk1 f hf with hl | ⟨hw, g, hg, htw⟩
        · exact lift f hl
        · rcases lift g hg with hl | ⟨-, k, hk, htw2⟩
          · exact .inr ⟨hw, g, hl, htw⟩
          · exact .inr ⟨hw, k, hk, htw.trans htw2⟩
      · intro f hf hp g hg htw
        exact hend f hf hp g hg ((htw1 f (hs'.subset hf) g (hs'.subset hg)).mpr htw)
  obtain ⟨m', left, h1, h2, -, -, -, h3, h4, h5, h6⟩ := key es m cands h ha fun f hf hp _ => hmany f hf hp
  exact ⟨m', left, h1, h2, h3, h4, h5, h6⟩

/-- **C126 is false of files given as arguments.**  If a file in the prioritised path has a twin, and it and its twins in there are arguments, the run after the recipe exits with 255
and compares nothing. -/
theorem recipe_again_fails [DecidableEq ε] {d : Entries ε} {ts : List Tok} {args : List Path} {globals : List Ctx} {word : List Char} {m : Machine} {cands : List FileEnt}
    (h : Ready d ts args globals word m cands) (pz : Image.Puzzle ν δ) (level : Nat → δ) (evs : List (Pool.Ev Nat)) {f g : FileEnt} (hf : f ∈ cands) (hp : f.prio = true) (hg : g ∈ cands) (hne : g ≠ f)
    (htw : Twins m f g) (hargs : ∀ k ∈ cands, k.prio = true → Twins m f k → ∃ a ∈ args, d.own a = d.own k.path.toList) :
    ∃ m', round d pz level ts args word m evs = some m' ∧ ∀ evs', ftwinMain m' pz level evs' ts args = .ok (-1, .failed) := by
  obtain ⟨hI, ht, hJ, hd, hfol⟩ := h.line
  obtain ⟨t, h1, h2, h3, h4, h5⟩ := recipe_keeps_names m pz level evs ts args h.usable h.accepted hI ht hJ hd h.comma h.pipe h.rules h.scan h.found h.calm h.names h.apart.once word
  obtain ⟨f', hf', hp', htw', hr⟩ := h5 h.word f hf hp ⟨g, hg, hne, htw⟩
  obtain ⟨a, ham, e⟩ := hargs f' hf' hp' htw'
  have hrm : ∀ p ∈ recipe word t, ∃ f ∈ cands, f.path.toList = p := fun p hp => (h2 p hp).2
  obtain ⟨l', hl'⟩ := Traverse.scan_lost (h.removable hrm) (show decide _ = false by simp [hfol])
    ⟨a, ham, a, by unfold place; rw [if_neg hJ], List.any_eq_true.mpr ⟨_, hr, by simp [e]⟩⟩ h.scan
  refine ⟨remove d m (recipe word t), by rw [round, h1]; rfl, fun evs' => ?_⟩
  obtain ⟨ig, c, -, -, -, hrun⟩ := run_eq (remove d m (recipe word t)) pz level evs' ts args ⟨h.usable.fuel, h.usable.names, h.usable.few, h.usable.gids, h.usable.egid⟩
    ⟨h.accepted.valid, h.accepted.some, h.accepted.user, h.accepted.exprs⟩ h.rules
  rw [hrun, show scanArgs (asked (remove d m (recipe word t)) globals ts) (remove d m (recipe word t)).fs (remove d m (recipe word t)).depth (place (remove d m (recipe word t)) ts) args = .ok (false, l') from hl']
  rfl

/-! ## Examples -/

theorem exReady {args : List Path} (hargs : args ≠ []) (hscan : scanArgs (asked exMachine exGlobals exRecipeLine) exMachine.fs exMachine.depth (place exMachine exRecipeLine) args = .ok (true, exRecipeFound)) :
    Ready exNames exRecipeLine args exGlobals "b/".toList exMachine exRecipeFound where
  usable := exUsable _ (by decide)
  accepted := exRecipeAccepted _ hargs
  line := by decide
  comma := by decide
  pipe := rfl
  rules := exGlobals_ok
  scan := hscan
  found := by decide
  calm := exRecipeQuiet.calm
  names := by
    intro f hf
    simp only [exRecipeFound, List.mem_cons, List.not_mem_nil, or_false] at hf
    rcases hf with rfl | rfl <;> exact ⟨⟨by decide, by decide, by decide⟩, by decide, by decide, by decide⟩
  apart := by unfold Apart; decide
  word := by decide
  entry := by intro p q (e : p = q); rw [e]
  ignore := by
    intro f hf dir (e : f.path.toList = _)
    unfold Traverse.join at e
    simp only [exRecipeFound, List.mem_cons, List.not_mem_nil, or_false] at hf
    rcases hf with rfl | rfl <;> split at e <;> have := congrArg List.getLast? e <;> simp [exNames] at this

/-- `recipe_again_partial` applies: two rounds leave `d/a`. -/
example (pz : Image.Puzzle ν δ) (level : Nat → δ) (e1 e2 : List (Pool.Ev Nat)) : ∃ m', rounds exNames pz level exRecipeLine [['d']] "b/".toList exMachine [e1, e2] = some m' ∧
    scanArgs (asked exMachine exGlobals exRecipeLine) m'.fs exMachine.depth (place exMachine exRecipeLine) [['d']] = .ok (true, [⟨"d/a", 3, 0, false⟩]) := by
  obtain ⟨m', left, h1, h2, h3, -, h5, h6⟩ := recipe_again_partial (exReady (args := [['d']]) (by simp) (by decide +kernel)) (by unfold Inner; decide) pz level [e1, e2] (by show ∀ f ∈ exRecipeFound, f.prio = true → copies exMachine exRecipeFound f ≤ 2; decide)
  refine ⟨m', h1, ?_⟩
  have ha : ⟨"d/a", 3, 0, false⟩ ∈ left := by
    rcases h5 ⟨"d/a", 3, 0, false⟩ (by simp [exRecipeFound]) with h | ⟨h, -⟩
    · exact h
    · exact absurd h (by decide)
  have hb : ⟨"d/b/c", 3, 0, true⟩ ∉ left := fun hb => absurd (h6 _ hb rfl _ ha ⟨rfl, rfl, rfl⟩) (by decide)
  have : left = [⟨"d/a", 3, 0, false⟩] := by
    unfold exRecipeFound at h2
    cases h2 with
    | cons _ h => exact absurd (h.subset ha) (by decide)
    | cons_cons _ h =>
      cases h with
      | cons _ h => rw [List.sublist_nil.mp h]
      | cons_cons _ h => exact absurd (by simp) hb
  rw [← this]; exact h3

/-- `recipe_again_fails` applies: `ftwin -v -p d/b -s , d/a d/b/c`, the recipe, and the same again. -/
example (pz : Image.Puzzle ν δ) (level : Nat → δ) (evs : List (Pool.Ev Nat)) :
    ∃ m', round exNames pz level exRecipeLine ["d/a".toList, "d/b/c".toList] "b/".toList exMachine evs = some m' ∧
      ∀ evs', ftwinMain m' pz level evs' exRecipeLine ["d/a".toList, "d/b/c".toList] = .ok (-1, .failed) := by
  refine recipe_again_fails (exReady (by simp) (by decide +kernel)) pz level evs (f := ⟨"d/b/c", 3, 0, true⟩) (g := ⟨"d/a", 3, 0, false⟩) (by simp [exRecipeFound]) rfl (by simp [exRecipeFound]) (by decide) ⟨rfl, rfl, rfl⟩ ?_
  decide

end Verif.Main
