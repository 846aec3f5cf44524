import Verif.Main.Lemmas

/-!
# What a run of the program does (C92, C93)

The command line is any list of options and arguments; the specification (`Main/Spec.lean`) reads off it what is asked for.
-/

namespace Verif.Main

open Verif.Ignore (Ctx)
open Verif.Report (FileEnt World Exact)
open Verif.Traverse (Path Opts FS traverse scanArgs Selected Visits Healthy)
open Verif.Config (Tok Conf given chars lastArg lastOf imageExpr ignoredNames Valid isOptionSet NamesFit Compiles)
open Verif.Output (readReport readSized readJson Plain)
open Verif.Image (Out)

/-- The process is in fewer than 256 groups, and the ignored names collide little enough (C06). -/
structure Usable (m : Machine) (ts : List Tok) : Prop where
  fuel : 33 ≤ m.fuel
  names : NamesFit Xxh.strHash ts
  few : m.groups.length < 256
  gids : ∀ g ∈ m.groups, g < 2 ^ 32
  egid : m.egid < 2 ^ 32

/-- The command line is acceptable. -/
structure Accepted (m : Machine) (ts : List Tok) (args : List Path) : Prop where
  valid : ∀ oa ∈ given ts, Valid oa
  some : args ≠ []
  user : m.userKnown = true
  exprs : Expressions m ts

/-- The files found can be read, do not change, are smaller than 28 GiB, and no two different ones of one size have one digest. -/
structure Quiet (m : Machine) (cands : List FileEnt) : Prop where
  order : Report.HashOrder m.files.hcmp
  sorts : Report.Sorts m.files
  hash : m.files.sizeHash = Xxh.sizeHash
  len : cands.length ≤ 2 ^ 31
  fuel : cands.length + 33 ≤ m.files.fuel
  small : ∀ f ∈ cands, f.size < 28 * 2 ^ 30
  size : ∀ f ∈ cands, f.size = (m.disk f.path).bytes.length
  io : ∀ f ∈ cands, f.size < m.fuel
  read : ∀ f ∈ cands, (m.disk f.path).openOk = true ∧ (m.disk f.path).closeOk = true ∧ (m.disk f.path).sched = []
  digests : ∀ f ∈ cands, ∀ g ∈ cands, f.size = g.size → m.xxh128 (m.disk f.path).bytes = m.xxh128 (m.disk g.path).bytes →
    (m.disk f.path).bytes = (m.disk g.path).bytes

theorem Quiet.limits {m : Machine} {cands : List FileEnt} (h : Quiet m cands) : Report.Limits m.files cands :=
  Xxh.limits_of_small m.files h.hash cands h.len h.fuel h.small

/-- An accepted command line: what is scanned is what is asked for. -/
theorem run_eq (m : Machine) (pz : Image.Puzzle ν δ) (level : Nat → δ) (evs : List (Pool.Ev Nat)) (ts : List Tok) (args : List Path)
    (hu : Usable m ts) (ha : Accepted m ts args) {globals : List Ctx} (hgl : Traverse.globalChain m.engine = .ok globals) :
    ∃ ig c, Config.createIgnored Xxh.strHash m.fuel = .ok ig ∧
      Config.parseArgs Xxh.strHash m.fuel (m.lookups args) ts (Config.create m.cores ig) = .ok (some c) ∧ c.sep = separator ts ∧
      ftwinMain m pz level evs ts args = (do
        let r ← scanArgs (asked m globals ts) m.fs m.depth (place m ts) args
        let out ← (if !r.1 then .ok .failed else Image.processing ⟨pz, level, worldOf m c, m.gmt, m.tty, evs, m.fuel⟩ c r.2)
        .ok (statusOf out, out)) := by
  obtain ⟨ig, hig, hacc, -⟩ := Config.accepted_with_names_partial (h := Xxh.strHash) hu.fuel m.cores (m.lookups args) ts hu.names
  obtain ⟨c, e⟩ := hacc.mpr ⟨ha.valid, List.length_pos_iff.mpr ha.some, by
    have := hu.few
    simp only [Machine.lookups, ha.user, Xxh.maxGids, Bool.true_and]
    exact decide_eq_true (by omega), ha.exprs⟩
  obtain ⟨gids, hgi, hgm⟩ := groups_ok m hu.fuel hu.few hu.gids hu.egid
  obtain ⟨hs, hr, hsep⟩ := conf_asked (globals := globals) hu.fuel hu.names hgm hig e
  refine ⟨ig, c, hig, e, hsep, ?_⟩
  unfold ftwinMain
  rw [hig, Res.ok_bind, hgl, Res.ok_bind, e, Res.ok_bind]
  dsimp only
  rw [hgi, Res.ok_bind]
  dsimp only [processing]
  rw [same_scan hs, hr]
  cases scanArgs (asked m globals ts) m.fs m.depth (place m ts) args with
  | ub => rfl
  | div => rfl
  | ok r => rfl

/-- The report of the files found. -/
theorem report_ok (m : Machine) (c : Conf) (cands : List FileEnt) (hq : Quiet m cands) (json : Bool) :
    ∃ out gs, Report.ftwin (worldOf m c) json cands = .ok out ∧ out.groups = some gs ∧ Exact (fun f => (m.disk f.path).bytes) cands (gs.map (·.files)) :=
  Report.ftwin_reports_identical_files_partial m.disk m.xxh128 c.excess.toNat m.fuel m.files json cands hq.limits hq.order hq.sorts hq.size hq.io hq.read hq.digests

/-- The scan finds what is asked for. -/
theorem found_iff {m : Machine} {globals : List Ctx} {ts : List Tok} {args : List Path} {cands : List FileEnt}
    (hscan : scanArgs (asked m globals ts) m.fs m.depth (place m ts) args = .ok (true, cands)) (f : FileEnt) :
    f ∈ cands ↔ ∃ a ∈ args, ∃ p, place m ts a = some p ∧ Selected (asked m globals ts) m.fs p globals f :=
  Traverse.scanArgs_exact _ _ _ _ _ _ hscan f

end Verif.Main
