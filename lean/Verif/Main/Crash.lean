import Verif.Main.Example

/-!
# When a run crashes (C64, C92)

Whole runs on files that can be read, without assuming anything about digests.
-/

namespace Verif.Main

open Verif.Ignore (Ctx)
open Verif.Report (FileEnt World Exact Sorts)
open Verif.Traverse (Path scanArgs)
open Verif.Config (Tok chars)
open Verif.Output (Digest)

/-- Each file is found once, does not change, can be read, and is smaller than 28 GiB; and digests are compared like numbers. -/
structure Still (m : Machine) (cands : List FileEnt) : Prop where
  order : Report.HashOrder m.files.hcmp
  total : ∀ a b, m.files.hcmp a b ≤ 0 ∨ m.files.hcmp b a ≤ 0
  trans : ∀ a b c, m.files.hcmp a b ≤ 0 → m.files.hcmp b c ≤ 0 → m.files.hcmp a c ≤ 0
  hash : m.files.sizeHash = Xxh.sizeHash
  len : cands.length ≤ 2 ^ 31
  fuel : cands.length + 33 ≤ m.files.fuel
  small : ∀ f ∈ cands, f.size < 28 * 2 ^ 30
  size : ∀ f ∈ cands, f.size = (m.disk f.path).bytes.length
  io : ∀ f ∈ cands, f.size < m.fuel
  read : ∀ f ∈ cands, (m.disk f.path).openOk = true ∧ (m.disk f.path).closeOk = true ∧ (m.disk f.path).sched = []
  once : cands.Nodup

/-- `f` and `k` are identical, `g` is not but has their size and digest, and it is preferred like one of them. -/
def Between (m : Machine) (f g k : FileEnt) : Prop :=
  (m.disk f.path).bytes = (m.disk k.path).bytes ∧ (m.disk f.path).bytes ≠ (m.disk g.path).bytes ∧ f.size = g.size ∧
  m.xxh128 (m.disk f.path).bytes = m.xxh128 (m.disk g.path).bytes ∧ (f.prio = g.prio ∨ g.prio = k.prio)

/-- The machine with another `qsort`. -/
def withSort (m : Machine) (qs : List (Report.Entry Digest) → List (Report.Entry Digest)) : Machine := { m with files := { m.files with qs := qs } }

theorem Still.limits {m : Machine} {cands : List FileEnt} (h : Still m cands) : Report.Limits m.files cands :=
  Xxh.limits_of_small m.files h.hash cands h.len h.fuel h.small

theorem still_digest {m : Machine} {cands : List FileEnt} (h : Still m cands) (ts : List Tok) : ∀ f ∈ cands, (reader m ts).dig f = some (m.xxh128 (m.disk f.path).bytes) := by
  intro f hf
  obtain ⟨r1, r2, r3⟩ := h.read f hf
  have hlt : (m.disk f.path).bytes.length < m.fuel := by rw [← h.size f hf]; exact h.io f hf
  have := (File.checksum_strategy_independent m.xxh128 (m.disk f.path) (threshold ts) m.fuel hlt).2.2 r1 r2 (by rw [r3]; simp)
  simp only [reader, Report.diskWorld, h.size f hf, this]

theorem still_decides {m : Machine} {cands : List FileEnt} (h : Still m cands) (ts : List Tok) :
    ∀ f ∈ cands, ∀ g ∈ cands, f.size = g.size → Report.Decides (reader m ts) (fun f => (m.disk f.path).bytes) f g := by
  intro f hf g hg hs r0
  obtain ⟨f1, f2, f3⟩ := h.read f hf
  obtain ⟨g1, g2, g3⟩ := h.read g hg
  obtain ⟨v, e, hv⟩ := File.filecmp_decides_equality (m.disk f.path) (m.disk g.path) f.size (threshold ts) m.fuel r0 (h.size f hf).symm
    (hs.trans (h.size g hg)).symm ⟨f1, g1⟩ ⟨f2, g2⟩ (by rw [f3]; simp) g3 (h.io f hf)
  exact ⟨true, v, e, by simpa using hv⟩

/-- With three files of one size the digests that count are those of the contents. -/
theorem still_mixes {m : Machine} {cands : List FileEnt} (h : Still m cands) (ts : List Tok) (json : Bool) {f g k : FileEnt} (hf : f ∈ cands) (hg : g ∈ cands) (hk : k ∈ cands) (hne : f ≠ k) :
    Report.Mixes (fun f => (m.disk f.path).bytes) (Report.digestOf (reader m ts) json cands) f g k ↔ Between m f g k := by
  have hsz : (m.disk f.path).bytes = (m.disk k.path).bytes → f.size = k.size := fun e => by rw [h.size f hf, h.size k hk, e]
  have hdir : (m.disk f.path).bytes = (m.disk k.path).bytes → (m.disk f.path).bytes ≠ (m.disk g.path).bytes → f.size = g.size → Report.direct json cands f.size = false := by
    intro e1 e2 e3
    have hfg : f ≠ g := fun e => e2 (by rw [e])
    have hgk : g ≠ k := fun e => e2 (by rw [e1, e])
    have hsub : [f, g, k].length ≤ (cands.filter (fun x => x.size = f.size)).length := by
      refine Report.nodup_length_le _ _ (by simp [hfg, hgk, hne]) ?_
      intro x hx
      simp only [List.mem_cons, List.not_mem_nil, or_false] at hx
      rcases hx with rfl | rfl | rfl
      · exact List.mem_filter.mpr ⟨hf, by simp⟩
      · exact List.mem_filter.mpr ⟨hg, by simp [e3]⟩
      · exact List.mem_filter.mpr ⟨hk, by simp [hsz e1]⟩
    have hc : 3 ≤ Report.cnt cands f.size := by
      unfold Report.cnt
      rw [List.countP_eq_length_filter]
      exact hsub
    have hz : f.size ≠ 0 := by
      intro h0
      refine e2 ?_
      rw [List.length_eq_zero_iff.mp ((h.size f hf).symm.trans h0), List.length_eq_zero_iff.mp ((h.size g hg).symm.trans (e3.symm.trans h0))]
    have : Report.cnt cands f.size ≠ 2 := by omega
    simp [Report.direct, this, hz]
  unfold Report.Mixes Between Report.digestOf Report.mark
  rw [still_digest h ts f hf, still_digest h ts g hg, still_digest h ts k hk]
  dsimp only
  constructor
  · rintro ⟨s1, s2, d1, d2, k1, k2, p⟩
    refine ⟨k1, k2, s1, ?_, p⟩
    rw [← s1, hdir k1 k2 s1] at d1
    simpa using d1
  · rintro ⟨k1, k2, s1, d1, p⟩
    have s2 : g.size = k.size := s1.symm.trans (hsz k1)
    refine ⟨s1, s2, ?_, ?_, k1, k2, p⟩
    · rw [← s1, hdir k1 k2 s1]; simpa using d1
    · rw [← s2, ← s1, hdir k1 k2 s1, ← k1]; simpa using d1.symm

/-- **When exactly a run can crash** (C64, C92).  An accepted command line, not for images or archives; files that can be read.  If there are no two identical files with a different one of their size and digest that may be sorted
between them, the run ends with status 0 and its report has exactly the sets of identical files, whatever `qsort` does with ties.  Otherwise there is a `qsort` with which the run dereferences NULL. -/
theorem run_crashes_iff (m : Machine) (pz : Image.Puzzle ν δ) (level : Nat → δ) (evs : List (Pool.Ev Nat)) (ts : List Tok) (args : List Path)
    (hu : Usable m ts) (ha : Accepted m ts args) (hI : 'I' ∉ chars ts) (ht : 't' ∉ chars ts)
    {globals : List Ctx} (hgl : Traverse.globalChain m.engine = .ok globals) {cands : List FileEnt}
    (hscan : scanArgs (asked m globals ts) m.fs m.depth (place m ts) args = .ok (true, cands)) (hne : cands ≠ []) (hq : Still m cands) :
    ((¬ ∃ f ∈ cands, ∃ g ∈ cands, ∃ k ∈ cands, f ≠ k ∧ Between m f g k) → ∀ qs, Sorts { m.files with qs := qs } →
      ∃ gs, ftwinMain (withSort m qs) pz level evs ts args = .ok (0, presented m ts gs) ∧ Exact (fun f => (m.disk f.path).bytes) cands (gs.map (·.files))) ∧
    ((∃ f ∈ cands, ∃ g ∈ cands, ∃ k ∈ cands, f ≠ k ∧ Between m f g k) → ∃ qs, Sorts { m.files with qs := qs } ∧ ftwinMain (withSort m qs) pz level evs ts args = .ub) := by
  have hl : Report.Limits (reader m ts) cands := ⟨hq.limits.len, hq.limits.fuel, hq.limits.sizes⟩
  have hsafe := Report.safe_iff (reader m ts) (decide ('J' ∈ chars ts)) cands (fun f => (m.disk f.path).bytes) hl hq.order hq.total hq.trans hq.once (still_decides hq ts)
  have hmix : (∃ f ∈ cands, ∃ g ∈ cands, ∃ k ∈ cands, f ≠ k ∧ Report.Mixes (fun f => (m.disk f.path).bytes) (Report.digestOf (reader m ts) (decide ('J' ∈ chars ts)) cands) f g k) ↔
      ∃ f ∈ cands, ∃ g ∈ cands, ∃ k ∈ cands, f ≠ k ∧ Between m f g k := by
    constructor
    · rintro ⟨f, hf, g, hg, k, hk, hne, h⟩
      exact ⟨f, hf, g, hg, k, hk, hne, (still_mixes hq ts _ hf hg hk hne).mp h⟩
    · rintro ⟨f, hf, g, hg, k, hk, hne, h⟩
      exact ⟨f, hf, g, hg, k, hk, hne, (still_mixes hq ts _ hf hg hk hne).mpr h⟩
  rw [hmix] at hsafe
  have hrun : ∀ qs, ftwinMain (withSort m qs) pz level evs ts args = (do
      let out ← Report.ftwin { reader m ts with qs := qs } (decide ('J' ∈ chars ts)) cands
      match out.groups with
      | none => .ok (-1, .failed)
      | some gs => .ok (0, presented m ts gs)) := fun qs =>
    whole_run (withSort m qs) pz level evs ts args ⟨hu.fuel, hu.names, hu.few, hu.gids, hu.egid⟩ ⟨ha.valid, ha.some, ha.user, ha.exprs⟩ hI ht hgl hscan hne
  constructor
  · intro hno qs hs
    have hs' : Sorts { reader m ts with qs := qs } := ⟨hs.perm, hs.sorted⟩
    obtain ⟨out, gs, e1, e2⟩ := hsafe.mpr hno qs hs'
    refine ⟨gs, by rw [hrun qs, e1, Res.ok_bind, e2], ?_⟩
    refine Report.report_exact { reader m ts with qs := qs } _ cands (fun f => (m.disk f.path).bytes) out gs ⟨hl.len, hl.fuel, hl.sizes⟩ hq.order hs' ?_ ?_ ?_ e1 e2
    · intro f hf g hg e
      rw [hq.size f hf, hq.size g hg, e]
    · intro f hf g hg hsz _ r0 o v e
      obtain ⟨o', v', e', h⟩ := still_decides hq ts f hf g hg hsz r0
      have : (reader m ts).fc f g r0 = .ok (o, v) := e
      rw [e'] at this
      injection this with this
      injection this with h1 h2
      rw [← h1, ← h2]
      exact h
    · intro f hf g hg hsz _ e
      refine Report.digestOf_eq hsz ?_
      show ((reader m ts).dig f).getD ((reader m ts).junk f) = ((reader m ts).dig g).getD ((reader m ts).junk g)
      rw [still_digest hq ts f hf, still_digest hq ts g hg, e]
      rfl
  · intro hex
    apply Classical.byContradiction
    intro hno
    refine hsafe.mp ?_ hex
    intro qs hs
    obtain ⟨l, -, -, h1, h2⟩ := Report.crash_iff { reader m ts with qs := qs } (decide ('J' ∈ chars ts)) cands (fun f => (m.disk f.path).bytes) ⟨hl.len, hl.fuel, hl.sizes⟩ hq.order hs
      (still_decides hq ts)
    refine h2 (fun hsp => hno ⟨qs, ⟨hs.perm, hs.sorted⟩, ?_⟩)
    rw [hrun qs, h1 hsp]
    rfl

/-! ## Runs -/

/-- The tree `d` with three files of three bytes. -/
def exThreeFS : Traverse.FS where
  stat _ p := if p = ['d'] then some { kind := .dir }
    else if p ∈ ["d/a".toList, "d/b".toList, "d/c".toList] then some { kind := .reg, size := 3 } else none
  readdir p := if p = ['d'] then some [(['.'], .dir), (['a'], .reg), (['b'], .reg), (['c'], .reg)] else none
  ignore _ := none

def exThree : List FileEnt := [⟨"d/a", 3, 0, false⟩, ⟨"d/b", 3, 0, false⟩, ⟨"d/c", 3, 0, false⟩]

/-- Digests that collide; `d/b` has other bytes than `d/a` and `d/c`. -/
def exCollide : Machine := { exMachine with
  fs := exThreeFS, disk := fun p => ⟨if p = "d/b" then [4, 5, 6] else [1, 2, 3], [], true, true, true⟩, xxh128 := fun _ => ⟨7, 7⟩ }

theorem exThreeScan : scanArgs (asked exCollide exGlobals exLine) exCollide.fs exCollide.depth (place exCollide exLine) [['d']] = .ok (true, exThree) := by
  decide +kernel

theorem exStill (H : File.Bytes → Digest) : Still { exCollide with xxh128 := H } exThree where
  order := mainFiles_order
  total := by intro a b; show (a.val : Int) - b.val ≤ 0 ∨ (b.val : Int) - a.val ≤ 0; omega
  trans := by intro a b c (h1 : (a.val : Int) - b.val ≤ 0) (h2 : (b.val : Int) - c.val ≤ 0); show (a.val : Int) - c.val ≤ 0; omega
  hash := rfl
  len := by decide
  fuel := by show exThree.length + 33 ≤ exCollide.files.fuel; decide
  small := by decide
  size := by show ∀ f ∈ exThree, f.size = (exCollide.disk f.path).bytes.length; decide
  io := by show ∀ f ∈ exThree, f.size < exCollide.fuel; decide
  read := by simp [exCollide]
  once := by decide

/-- `run_crashes_iff` applies: `d/b` may be sorted between `d/a` and `d/c`. -/
example (pz : Image.Puzzle ν δ) (level : Nat → δ) (evs : List (Pool.Ev Nat)) :
    ∃ qs, Sorts { exCollide.files with qs := qs } ∧ ftwinMain (withSort exCollide qs) pz level evs exLine [['d']] = .ub :=
  (run_crashes_iff exCollide pz level evs exLine [['d']] ⟨by decide, Config.fit_of_few _ _ (by decide), by decide, by decide, by decide⟩
    ⟨exAccepted.valid, by simp, rfl, exAccepted.exprs⟩ (by decide) (by decide) exGlobals_ok exThreeScan (by decide) (exStill _)).2
    ⟨⟨"d/a", 3, 0, false⟩, by decide, ⟨"d/b", 3, 0, false⟩, by decide, ⟨"d/c", 3, 0, false⟩, by decide, by decide, by unfold Between; decide⟩

/-- With another digest it reports `d/a` and `d/c`, whatever `qsort` does. -/
example (pz : Image.Puzzle ν δ) (level : Nat → δ) (evs : List (Pool.Ev Nat)) (qs : List (Report.Entry Digest) → List (Report.Entry Digest)) (hs : Sorts { mainFiles with qs := qs }) :
    let m : Machine := { exCollide with xxh128 := toyDigest }
    ∃ gs, ftwinMain (withSort m qs) pz level evs exLine [['d']] = .ok (0, presented m exLine gs) ∧ Exact (fun f => (m.disk f.path).bytes) exThree (gs.map (·.files)) :=
  (run_crashes_iff { exCollide with xxh128 := toyDigest } pz level evs exLine [['d']] ⟨by decide, Config.fit_of_few _ _ (by decide), by decide, by decide, by decide⟩
    ⟨exAccepted.valid, by simp, rfl, exAccepted.exprs⟩ (by decide) (by decide) exGlobals_ok exThreeScan (by decide) (exStill _)).1
    (by unfold Between; decide) qs hs

/-- `d/b` cannot be opened, and the report goes to a terminal. -/
def exShut : Machine := { exMachine with
  fs := exThreeFS, disk := fun p => if p = "d/b" then ⟨[], [], false, true, true⟩ else ⟨[1, 2, 3], [], true, true, true⟩, tty := true }

theorem exCalm : Calm exShut exThree where
  order := mainFiles_order
  sorts := mainFiles_sorts
  hash := rfl
  len := by decide
  fuel := by decide
  small := by decide
  size := by decide
  io := by decide
  read := by decide
  digests := by decide
  filled := by decide
  single := by decide
  leftover := by
    intro f hf g hg _ hne ho p q
    have hb : f.path = "d/b" := by
      simp only [exShut] at ho
      split at ho
      · assumption
      · cases ho
    have hg' : g.path ≠ "d/b" := fun e => hne (hb.trans e.symm)
    rw [if_pos (by simp [exShut, hg'])]
    simp only [exShut, hg', if_false]
    show (⟨7, 7⟩ : Digest) ≠ toyDigest [1, 2, 3]
    decide

/-- `text_run_partial` applies: the user of the terminal is told of `d/a` and `d/c`. -/
example (pz : Image.Puzzle ν δ) (level : Nat → δ) (evs : List (Pool.Ev Nat)) :
    ∃ (t : List Char) (gs : List (List FileEnt)), ftwinMain exShut pz level evs exLine [['d']] = .ok (0, .text t) ∧
      Exact (identity exShut) exThree gs ∧ Output.readReport '\n' (seen exShut t) = gs.map (·.map (·.path.toList)) := by
  obtain ⟨t, gs, h1, h2, -, h4⟩ := text_run_partial exShut pz level evs exLine [['d']] ⟨by decide, Config.fit_of_few _ _ (by decide), by decide, by decide, by decide⟩
    ⟨exAccepted.valid, by simp, rfl, exAccepted.exprs⟩ (by decide) (by decide) (by decide) exGlobals_ok (cands := exThree) (by decide +kernel) (by decide) exCalm (by
      intro f hf
      simp only [exThree, List.mem_cons, List.not_mem_nil, or_false] at hf
      rcases hf with rfl | rfl | rfl <;> exact ⟨by decide, by decide, by decide⟩) (fun _ => ⟨by decide, by decide⟩)
  exact ⟨t, gs, h1, h2, h4⟩

end Verif.Main
