import Verif.Main.Props
import Verif.Report.Same
import Verif.Report.CrashProps
import Verif.Output.Color

/-!
# Whole runs, exactly (C13, C17, C64, C92, C99)

`whole_run` says what a run is in terms of the report on the files found, without assuming that these can be read; the theorems behind it put in what is known about reports.
-/

namespace Verif.Main

open Verif.Ignore (Ctx)
open Verif.Report (FileEnt World Exact)
open Verif.Traverse (Path Opts FS scanArgs Selected)
open Verif.Config (Tok Conf chars lastArg isOptionSet)
open Verif.Output (readReport readSized Plain Digest)
open Verif.Image (Out)

/-- From which size on files are read instead of mapped: the last `-x`, or 50 MiB. -/
def threshold (ts : List Tok) : Nat :=
  match lastArg 'x' ts with
  | none => 50 * 1024 * 1024
  | some a => match HumanSize.parse a with
    | .ok v => v.toNat
    | _ => 0

/-- The files as the run reads them. -/
def reader (m : Machine) (ts : List Tok) : World Digest := Report.diskWorld m.disk m.xxh128 (threshold ts) m.fuel m.files

/-- What a report looks like. -/
def presented (m : Machine) (ts : List Tok) (gs : List (Report.Group Digest)) : Out :=
  if 'J' ∈ chars ts then .json (Output.jsonReport m.gmt false gs)
  else .text (Output.textReport ⟨separator ts, decide ('d' ∈ chars ts), Output.colors m.tty⟩ gs)

/-- **C92, exactly.**  A run with an accepted command line, not for images or archives, whose scan has found some files, is the report on these files: with the threshold asked for, in the form asked for.  If the report is
undefined so is the run. -/
theorem whole_run (m : Machine) (pz : Image.Puzzle ν δ) (level : Nat → δ) (evs : List (Pool.Ev Nat)) (ts : List Tok) (args : List Path)
    (hu : Usable m ts) (ha : Accepted m ts args) (hI : 'I' ∉ chars ts) (ht : 't' ∉ chars ts)
    {globals : List Ctx} (hgl : Traverse.globalChain m.engine = .ok globals) {cands : List FileEnt}
    (hscan : scanArgs (asked m globals ts) m.fs m.depth (place m ts) args = .ok (true, cands)) (hne : cands ≠ []) :
    ftwinMain m pz level evs ts args = (do
      let out ← Report.ftwin (reader m ts) (decide ('J' ∈ chars ts)) cands
      match out.groups with
      | none => .ok (-1, .failed)
      | some gs => .ok (0, presented m ts gs)) := by
  obtain ⟨ig, c, hig, e, hsep, hrun⟩ := run_eq m pz level evs ts args hu ha hgl
  obtain ⟨hf1, hf2, hf3, -, hf5, -, hf7, hf8, hf9⟩ := Config.flags_exact _ _ _ _ _ _ _ e
  have hj := (Config.json_verbose_exclusive _ _ _ _ _ _ _ e).1
  obtain ⟨-, -, -, -, -, -, -, -, hx, -, -, hx0⟩ := Config.numbers_in_range _ _ _ _ _ _ _ e
  have hb : ∀ {b : Bool} {p : Prop} [Decidable p], (b = true ↔ p) → b = decide p := by
    intro b p _ h
    cases b with
    | true => exact (decide_eq_true (h.mp rfl)).symm
    | false => exact (decide_eq_false (fun hp => by simpa using h.mpr hp)).symm
  have hp : isOptionSet c.mask Config.bPUZZL = false := by rw [hb hf7]; exact decide_eq_false hI
  have hut : isOptionSet c.mask Config.bUNTAR = false := by rw [hb hf8]; exact decide_eq_false ht
  have hw : worldOf m c = reader m ts := by
    unfold worldOf reader threshold
    cases hl : lastArg 'x' ts with
    | none => rw [hx0 hl]; rfl
    | some a => dsimp only; rw [hx a hl]
  have hst : Output.styleOf c m.tty = ⟨separator ts, decide ('d' ∈ chars ts), Output.colors m.tty⟩ := by
    unfold Output.styleOf
    rw [hsep, hb hf3]
  rw [hrun, hscan, Res.ok_bind]
  simp only [Bool.not_true, Bool.false_eq_true, if_false]
  unfold Image.processing
  rw [if_pos (List.length_pos_iff.mpr hne), hp, if_neg (by simp)]
  dsimp only
  rw [hw, hb hj, hut, hst]
  cases Report.ftwin (reader m ts) (decide ('J' ∈ chars ts)) cands with
  | ub => rfl
  | div => rfl
  | ok out =>
    rw [Res.ok_bind, Res.ok_bind]
    cases out.groups with
    | none => rfl
    | some gs =>
      unfold presented
      by_cases hJ : 'J' ∈ chars ts <;> simp [hJ, statusOf]

/-- The files found do not change, are smaller than 28 GiB, and no two different ones of one size have one digest; some may not be opened, of which each is found once and is not empty, and where its digest was to be
stored there is no digest of another file of its size. -/
structure Calm (m : Machine) (cands : List FileEnt) : Prop where
  order : Report.HashOrder m.files.hcmp
  sorts : Report.Sorts m.files
  hash : m.files.sizeHash = Xxh.sizeHash
  len : cands.length ≤ 2 ^ 31
  fuel : cands.length + 33 ≤ m.files.fuel
  small : ∀ f ∈ cands, f.size < 28 * 2 ^ 30
  size : ∀ f ∈ cands, (m.disk f.path).openOk = true → f.size = (m.disk f.path).bytes.length
  io : ∀ f ∈ cands, f.size < m.fuel
  read : ∀ f ∈ cands, (m.disk f.path).openOk = true → (m.disk f.path).closeOk = true ∧ (m.disk f.path).sched = []
  digests : ∀ f ∈ cands, ∀ g ∈ cands, f.size = g.size → (m.disk f.path).openOk = true → (m.disk g.path).openOk = true →
    m.xxh128 (m.disk f.path).bytes = m.xxh128 (m.disk g.path).bytes → (m.disk f.path).bytes = (m.disk g.path).bytes
  filled : ∀ f ∈ cands, (m.disk f.path).openOk = false → f.size ≠ 0
  single : ∀ f ∈ cands, (m.disk f.path).openOk = false → cands.countP (fun g => g.path = f.path) = 1
  leftover : ∀ f ∈ cands, ∀ g ∈ cands, f.size = g.size → f.path ≠ g.path → (m.disk f.path).openOk = false → ∀ p q,
    m.files.junk { f with prio := p } ≠ if (m.disk g.path).openOk then m.xxh128 (m.disk g.path).bytes else m.files.junk { g with prio := q }

theorem Quiet.calm {m : Machine} {cands : List FileEnt} (h : Quiet m cands) : Calm m cands where
  order := h.order
  sorts := h.sorts
  hash := h.hash
  len := h.len
  fuel := h.fuel
  small := h.small
  size := fun f hf _ => h.size f hf
  io := h.io
  read := fun f hf _ => (h.read f hf).2
  digests := fun f hf g hg hs _ _ => h.digests f hf g hg hs
  filled := fun f hf ho => by rw [(h.read f hf).1] at ho; cases ho
  single := fun f hf ho => by rw [(h.read f hf).1] at ho; cases ho
  leftover := fun f hf g hg _ _ ho => by rw [(h.read f hf).1] at ho; cases ho

/-- What files are told apart by: their contents, or their names if they cannot be opened. -/
def identity (m : Machine) (f : FileEnt) : File.Bytes ⊕ String := if (m.disk f.path).openOk then .inl (m.disk f.path).bytes else .inr f.path

theorem exact_congr {κ κ' : Type} [DecidableEq κ] [DecidableEq κ'] {key : FileEnt → κ} {key' : FileEnt → κ'} {cands : List FileEnt} {gs : List (List FileEnt)}
    (h : Exact key cands gs) (hk : ∀ f ∈ cands, ∀ g ∈ cands, key f = key g ↔ key' f = key' g) : Exact key' cands gs := by
  have hfil : ∀ f ∈ cands, cands.filter (fun x => key x = key f) = cands.filter (fun x => key' x = key' f) := by
    intro f hf
    refine List.filter_congr ?_
    intro x hx
    simp [hk x hx f hf]
  have hmem : ∀ g ∈ gs, ∀ x ∈ g, x ∈ cands := by
    intro g hg x hx
    obtain ⟨-, f, -, hp⟩ := h.whole g hg
    exact (List.mem_filter.mp (hp.subset hx)).1
  refine ⟨?_, ?_, ?_⟩
  · intro g hg
    obtain ⟨h2, f, hf, hp⟩ := h.whole g hg
    exact ⟨h2, f, hf, by rw [← hfil f hf]; exact hp⟩
  · intro f hf h2
    exact h.all f hf (by rw [hfil f hf]; exact h2)
  · refine List.Pairwise.imp_of_mem ?_ h.once
    intro a b ha hb hab x hx y hy e
    exact hab x hx y hy ((hk x (hmem a ha x hx) y (hmem b hb y hy)).mpr e)

theorem Calm.limits {m : Machine} {cands : List FileEnt} (h : Calm m cands) : Report.Limits m.files cands :=
  Xxh.limits_of_small m.files h.hash cands h.len h.fuel h.small

/-- Two candidates with the name of one that cannot be opened are one. -/
theorem Calm.one {m : Machine} {cands : List FileEnt} (h : Calm m cands) {f g : FileEnt} (hf : f ∈ cands) (hg : g ∈ cands) (ho : (m.disk f.path).openOk = false) (hp : f.path = g.path) :
    f = g := by
  have h1 := h.single f hf ho
  rw [List.countP_eq_length_filter] at h1
  obtain ⟨x, hx⟩ := List.length_eq_one_iff.mp h1
  have m1 : f ∈ cands.filter (fun g => g.path = f.path) := List.mem_filter.mpr ⟨hf, by simp⟩
  have m2 : g ∈ cands.filter (fun g => g.path = f.path) := List.mem_filter.mpr ⟨hg, by simp [hp]⟩
  rw [hx, List.mem_singleton] at m1 m2
  rw [m1, m2]

/-- Files of some size one of which cannot be opened are not compared. -/
theorem filecmp_unopened (f1 f2 : File.OnDisk) (size excess fuel : Nat) (r0 : Int) (hz : size ≠ 0) (h : f1.openOk = false ∨ f2.openOk = false) :
    ∃ v, File.filecmp fuel f1 f2 size excess r0 = .ok (false, v) := by
  have hb : File.bigFilecmp fuel f1 f2 size r0 = .ok (false, r0) := by
    unfold File.bigFilecmp
    rcases h with h | h
    · simp [hz, h]
    · cases h1 : f1.openOk <;> simp [hz, h]
  refine ⟨r0, ?_⟩
  unfold File.filecmp File.smallFilecmp
  rw [hb]
  rcases h with h | h
  · simp [hz, h]
  · cases h1 : f1.openOk <;> cases h2 : f1.mapOk <;> simp [hz, h]

theorem calm_digest (m : Machine) (ts : List Tok) (cands : List FileEnt) (hq : Calm m cands) :
    ∀ f ∈ cands, (reader m ts).dig f = if (m.disk f.path).openOk then some (m.xxh128 (m.disk f.path).bytes) else none := by
  intro f hf
  cases ho : (m.disk f.path).openOk with
  | true =>
    obtain ⟨r2, r3⟩ := hq.read f hf ho
    have hlt : (m.disk f.path).bytes.length < m.fuel := by rw [← hq.size f hf ho]; exact hq.io f hf
    have := (File.checksum_strategy_independent m.xxh128 (m.disk f.path) (threshold ts) m.fuel hlt).2.2 ho r2 (by rw [r3]; simp)
    simp only [reader, Report.diskWorld, hq.size f hf ho, this, if_true]
  | false =>
    simp only [reader, Report.diskWorld, File.checksum, File.checksumSmall, File.checksumBig, ho]
    split <;> simp_all

/-- The report on calm files. -/
theorem calm_report (m : Machine) (ts : List Tok) (cands : List FileEnt) (hq : Calm m cands) (json : Bool) :
    ∃ out gs, Report.ftwin (reader m ts) json cands = .ok out ∧ out.groups = some gs ∧ Exact (identity m) cands (gs.map (·.files)) := by
  have hl := hq.limits
  have hdig := calm_digest m ts cands hq
  obtain ⟨out, gs, e1, e2, hex⟩ := Report.report_skips_unreadable_partial (reader m ts) json cands (fun f => (m.disk f.path).bytes) m.xxh128 (fun f => (m.disk f.path).openOk)
    ⟨hl.len, hl.fuel, hl.sizes⟩ hq.order ⟨hq.sorts.perm, hq.sorts.sorted⟩ hq.size hq.filled hdig
    (by
      intro f hf g hg hs of og r0
      obtain ⟨f2, f3⟩ := hq.read f hf of
      obtain ⟨g2, g3⟩ := hq.read g hg og
      exact File.filecmp_decides_equality (m.disk f.path) (m.disk g.path) f.size (threshold ts) m.fuel r0 (hq.size f hf of).symm
        (hs.trans (hq.size g hg og)).symm ⟨of, og⟩ ⟨f2, g2⟩ (by rw [f3]; simp) g3 (hq.io f hf))
    (by
      intro f hf g hg hs hor r0
      have hz : f.size ≠ 0 := by
        rcases hor with h | h
        · exact hq.filled f hf h
        · rw [hs]; exact hq.filled g hg h
      exact filecmp_unopened _ _ _ _ _ _ hz hor)
    (by
      intro f hf ho
      have h1 := hq.single f hf ho
      have h2 : cands.count f ≤ cands.countP (fun g => g.path = f.path) := by
        rw [List.count_eq_countP]
        refine List.countP_mono_left ?_
        intro x _ hx
        have : x = f := by simpa using hx
        simp [this]
      have h3 := List.count_pos_iff.mpr hf
      omega)
    hq.digests
    (by
      intro f hf g hg hs hfg ho
      have hp : f.path ≠ g.path := fun hp => hfg (hq.one hf hg ho hp)
      have := hq.leftover f hf g hg hs hp ho f.prio g.prio
      rw [hdig g hg]
      cases og : (m.disk g.path).openOk with
      | true => rw [og] at this; exact this
      | false => rw [og] at this; exact this)
  refine ⟨out, gs, e1, e2, exact_congr hex ?_⟩
  intro f hf g hg
  unfold Report.keyOf identity
  cases of : (m.disk f.path).openOk with
  | true => cases og : (m.disk g.path).openOk with
    | true => simp [of, og]
    | false => simp [of, og]
  | false => cases og : (m.disk g.path).openOk with
    | true => simp [of, og]
    | false =>
      simp only [of, og, Bool.false_eq_true, if_false, Sum.inr.injEq]
      exact ⟨fun h => by rw [h], fun h => hq.one hf hg of h⟩

/-- A file that is listed can be opened. -/
theorem Calm.listed {m : Machine} {cands : List FileEnt} (h : Calm m cands) {gs : List (List FileEnt)} (hex : Exact (identity m) cands gs) {g : List FileEnt} (hg : g ∈ gs)
    {f : FileEnt} (hf : f ∈ g) : (m.disk f.path).openOk = true := by
  cases ho : (m.disk f.path).openOk with
  | true => rfl
  | false =>
    exfalso
    obtain ⟨h2, x, hx, hp⟩ := hex.whole g hg
    have hfm := List.mem_filter.mp (hp.subset hf)
    have hk : identity m f = identity m x := by simpa using hfm.2
    have hsub : cands.filter (fun y => identity m y = identity m x) = cands.filter (fun y => y.path = f.path) := by
      refine List.filter_congr ?_
      intro y _
      rw [← hk, decide_eq_decide]
      unfold identity
      rw [ho]
      constructor
      · intro e
        cases hy : (m.disk y.path).openOk with
        | true => rw [hy] at e; simp at e
        | false => rw [hy] at e; simpa using e
      · intro e
        rw [e, ho]
    rw [hsub] at hp
    have h1 := h.single f hfm.1 ho
    rw [List.countP_eq_length_filter] at h1
    have := hp.length_eq
    omega

/-- What a user sees of the text: a terminal interprets the colours. -/
def seen (m : Machine) (t : List Char) : List Char := if m.tty then (Output.render .text [] t).map (·.1) else t

/-- **C92, part.**  An accepted command line that asks for a text report: the run ends with status 0, and a reader who knows the separator gets
from the report exactly the sets of identical files among those the options ask for.  Files that cannot be opened are in no set.  Images are in `image_run_partial`.  Missing: archives; files that change;
names with line breaks or separators, or with escape characters on a terminal; what `Calm` asks of leftover digests; and what is said to be missing in C06, C90, C91. -/
theorem text_run_partial (m : Machine) (pz : Image.Puzzle ν δ) (level : Nat → δ) (evs : List (Pool.Ev Nat)) (ts : List Tok) (args : List Path)
    (hu : Usable m ts) (ha : Accepted m ts args) (hI : 'I' ∉ chars ts) (ht : 't' ∉ chars ts) (hJ : 'J' ∉ chars ts)
    {globals : List Ctx} (hgl : Traverse.globalChain m.engine = .ok globals) {cands : List FileEnt}
    (hscan : scanArgs (asked m globals ts) m.fs m.depth (place m ts) args = .ok (true, cands)) (hne : cands ≠ []) (hq : Calm m cands)
    (hplain : ∀ f ∈ cands, Plain (separator ts) f.path.toList) (hesc : m.tty = true → separator ts ≠ '\x1b' ∧ ∀ f ∈ cands, '\x1b' ∉ f.path.toList) :
    ∃ (t : List Char) (gs : List (List FileEnt)), ftwinMain m pz level evs ts args = .ok (0, .text t) ∧ Exact (identity m) cands gs ∧
      (∀ f, f ∈ cands ↔ ∃ a ∈ args, ∃ p, place m ts a = some p ∧ Selected (asked m globals ts) m.fs p globals f) ∧
      (if 'd' ∈ chars ts then
        (readSized (separator ts) (seen m t)).map (·.2) = gs.map (·.map (·.path.toList)) ∧
        ∀ (i : Nat) (g : List FileEnt) (f : FileEnt), gs[i]? = some g → f ∈ g → ((readSized (separator ts) (seen m t))[i]?).map (·.1) = some (Output.sizeName f.size)
      else readReport (separator ts) (seen m t) = gs.map (·.map (·.path.toList))) := by
  obtain ⟨out, gs, ho, hg, hex⟩ := calm_report m ts cands hq false
  have hl : Report.Limits (reader m ts) cands := ⟨hq.limits.len, hq.limits.fuel, hq.limits.sizes⟩
  have hrun := whole_run m pz level evs ts args hu ha hI ht hgl hscan hne
  rw [decide_eq_false hJ, ho, Res.ok_bind, hg] at hrun
  dsimp only [presented] at hrun
  rw [if_neg hJ] at hrun
  have hseen : seen m (Output.textReport ⟨separator ts, decide ('d' ∈ chars ts), Output.colors m.tty⟩ gs) =
      Output.textReport ⟨separator ts, decide ('d' ∈ chars ts), Output.colors false⟩ gs := by
    unfold seen
    cases htty : m.tty with
    | false => rfl
    | true =>
      rw [if_pos rfl]
      exact Output.colors_do_not_change_text_partial (reader m ts) cands out gs _ _ hl hq.sorts.perm ho hg (hesc htty).2 (hesc htty).1
  refine ⟨_, gs.map (·.files), hrun, hex, found_iff hscan, ?_⟩
  rw [hseen]
  by_cases hd : 'd' ∈ chars ts
  · rw [if_pos hd, decide_eq_true hd, Output.sized_report_read_back_partial (reader m ts) cands out gs (separator ts) hl hq.sorts.perm ho hg hplain]
    refine ⟨by simp, ?_⟩
    intro i g f hi hfm
    rw [List.getElem?_map, Option.map_eq_some_iff] at hi
    obtain ⟨g', hg', rfl⟩ := hi
    rw [List.getElem?_map, hg']
    have hsz : g'.size = f.size := group_size (reader m ts) false cands out gs hl hq.sorts.perm ho hg g' (List.mem_of_getElem? hg') f hfm
    simp [hsz]
  · rw [if_neg hd, decide_eq_false hd, Output.text_report_read_back_partial (reader m ts) cands out gs (separator ts) hl hq.sorts.perm ho hg hplain, List.map_map]
    rfl

/-- **C92, part.**  The same for a report in JSON: the document has for each set of identical files among those asked for one group with the size, the digest, and the
names, times and priorities of its files. -/
theorem json_run_partial (m : Machine) (pz : Image.Puzzle ν δ) (level : Nat → δ) (evs : List (Pool.Ev Nat)) (ts : List Tok) (args : List Path)
    (hu : Usable m ts) (ha : Accepted m ts args) (hI : 'I' ∉ chars ts) (ht : 't' ∉ chars ts) (hJ : 'J' ∈ chars ts)
    {globals : List Ctx} (hgl : Traverse.globalChain m.engine = .ok globals) {cands : List FileEnt}
    (hscan : scanArgs (asked m globals ts) m.fs m.depth (place m ts) args = .ok (true, cands)) (hne : cands ≠ []) (hq : Calm m cands)
    (hutf : ∀ f ∈ cands, Output.utf8 (f.path.toList.map Char.toNat) = true) (hgmt : ∀ f ∈ cands, Output.GmtOk m.gmt f.mtime) :
    ∃ (d : Output.Json) (gs : List (List FileEnt)) (recs : List Output.GroupRec), ftwinMain m pz level evs ts args = .ok (0, .json d) ∧ Exact (identity m) cands gs ∧
      (∀ f, f ∈ cands ↔ ∃ a ∈ args, ∃ p, place m ts a = some p ∧ Selected (asked m globals ts) m.fs p globals f) ∧
      Output.readJson d = some recs ∧
      recs.map (·.files) = gs.map (·.map (fun f => ⟨f.path.toList, f.mtime / 1000000, f.prio⟩)) ∧
      ∀ (i : Nat) (g : List FileEnt) (f : FileEnt), gs[i]? = some g → f ∈ g → (recs[i]?).map (fun r => (r.size, r.digest)) = some (f.size, (m.xxh128 (m.disk f.path).bytes).val) := by
  obtain ⟨out, gs, ho, hg, hex⟩ := calm_report m ts cands hq true
  have hl : Report.Limits (reader m ts) cands := ⟨hq.limits.len, hq.limits.fuel, hq.limits.sizes⟩
  have hrun := whole_run m pz level evs ts args hu ha hI ht hgl hscan hne
  rw [decide_eq_true hJ, ho, Res.ok_bind, hg] at hrun
  dsimp only [presented] at hrun
  rw [if_pos hJ] at hrun
  refine ⟨_, gs.map (·.files), gs.map Output.groupRecOf, hrun, hex, found_iff hscan,
    Output.json_report_read_back_partial m.gmt _ (reader m ts) cands out gs hl hq.sorts.perm ho hg hutf hgmt, ?_, ?_⟩
  · simp [Output.groupRecOf, Output.recOf, Function.comp_def]
  · intro i g f hi hfm
    have hop := hq.listed hex (List.mem_of_getElem? hi) hfm
    rw [List.getElem?_map, Option.map_eq_some_iff] at hi
    obtain ⟨g', hg', rfl⟩ := hi
    rw [List.getElem?_map, hg']
    have hgm := List.mem_of_getElem? hg'
    obtain ⟨h1, h2⟩ := Output.json_group_of_its_files (reader m ts) cands out gs hl hq.sorts.perm ho hg g' hgm f hfm
    have hfc : f ∈ cands := (Output.listed_mem (reader m ts) true cands out gs hl hq.sorts.perm ho hg g' hgm).2 f hfm
    simp [h1, h2 _ (by rw [calm_digest m ts cands hq f hfc, if_pos hop])]

/-- The groups of names a reader of the text gets who knows the separator and whether sizes are printed. -/
def told (ts : List Tok) (t : List Char) : List (List (List Char)) :=
  if 'd' ∈ chars ts then (readSized (separator ts) t).map (·.2) else readReport (separator ts) t

/-- What `text_run_partial` says of the reader, in one equation. -/
theorem told_of {us : List Tok} {u : List Char} {hs : List (List FileEnt)} (h : if 'd' ∈ chars us then
        (readSized (separator us) u).map (·.2) = hs.map (·.map (·.path.toList)) ∧
        ∀ (i : Nat) (g : List FileEnt) (f : FileEnt), hs[i]? = some g → f ∈ g → ((readSized (separator us) u)[i]?).map (·.1) = some (Output.sizeName f.size)
      else readReport (separator us) u = hs.map (·.map (·.path.toList))) : told us u = hs.map (·.map (·.path.toList)) := by
  unfold told
  by_cases hd : 'd' ∈ chars us
  · rw [if_pos hd] at h ⊢; exact h.1
  · rw [if_neg hd] at h ⊢; exact h

/-- The groups of names that a reader of the output gets. -/
def Tells (m : Machine) (ts : List Tok) : Image.Out → List (List (List Char)) → Prop
  | .failed, _ => False
  | .text t, gs => 'J' ∉ chars ts ∧ told ts (seen m t) = gs
  | .json d, gs => 'J' ∈ chars ts ∧ ∃ recs, Output.readJson d = some recs ∧ recs.map (·.files.map (·.name)) = gs

/-- The output can be read: in text no name contains the separator or a line break nor, on a terminal, an escape character; in JSON all names are UTF-8 and the years have four digits. -/
structure Legible (m : Machine) (ts : List Tok) (cands : List FileEnt) : Prop where
  text : 'J' ∉ chars ts → (∀ f ∈ cands, Plain (separator ts) f.path.toList) ∧ (m.tty = true → separator ts ≠ '\x1b' ∧ ∀ f ∈ cands, '\x1b' ∉ f.path.toList)
  json : 'J' ∈ chars ts → ∀ f ∈ cands, Output.utf8 (f.path.toList.map Char.toNat) = true ∧ Output.GmtOk m.gmt f.mtime

theorem Legible.sub {m : Machine} {ts : List Tok} {cands cands' : List FileEnt} (h : Legible m ts cands) (hm : ∀ f ∈ cands', ∃ g ∈ cands, f.path = g.path ∧ f.mtime = g.mtime) :
    Legible m ts cands' where
  text := fun hJ => ⟨fun f hf => by obtain ⟨g, hg, e, -⟩ := hm f hf; rw [e]; exact (h.text hJ).1 g hg,
    fun ht => ⟨((h.text hJ).2 ht).1, fun f hf => by obtain ⟨g, hg, e, -⟩ := hm f hf; rw [e]; exact ((h.text hJ).2 ht).2 g hg⟩⟩
  json := fun hJ f hf => by obtain ⟨g, hg, e, e'⟩ := hm f hf; rw [e, e']; exact h.json hJ g hg

/-- A run with text or JSON output. -/
theorem any_run (m : Machine) (pz : Image.Puzzle ν δ) (level : Nat → δ) (evs : List (Pool.Ev Nat)) (ts : List Tok) (args : List Path)
    (hu : Usable m ts) (ha : Accepted m ts args) (hI : 'I' ∉ chars ts) (ht : 't' ∉ chars ts)
    {globals : List Ctx} (hgl : Traverse.globalChain m.engine = .ok globals) {cands : List FileEnt}
    (hscan : scanArgs (asked m globals ts) m.fs m.depth (place m ts) args = .ok (true, cands)) (hne : cands ≠ []) (hq : Calm m cands) (hl : Legible m ts cands) :
    ∃ (out : Image.Out) (gs : List (List FileEnt)), ftwinMain m pz level evs ts args = .ok (0, out) ∧ Tells m ts out (gs.map (·.map (·.path.toList))) ∧
      Exact (identity m) cands gs := by
  by_cases hJ : 'J' ∈ chars ts
  · obtain ⟨d, gs, recs, e, hex, -, hr, hf, -⟩ := json_run_partial m pz level evs ts args hu ha hI ht hJ hgl hscan hne hq (fun f hf => (hl.json hJ f hf).1)
      (fun f hf => (hl.json hJ f hf).2)
    refine ⟨_, gs, e, ⟨hJ, recs, hr, ?_⟩, hex⟩
    have := congrArg (List.map (List.map Output.FileRec.name)) hf
    simpa [Function.comp_def] using this
  · obtain ⟨t, gs, e, hex, -, hr⟩ := text_run_partial m pz level evs ts args hu ha hI ht hJ hgl hscan hne hq (hl.text hJ).1 (hl.text hJ).2
    exact ⟨_, gs, e, ⟨hJ, told_of hr⟩, hex⟩

end Verif.Main
