import Verif.Main.Example

/-!
# A run that looks for similar images (C92)

The whole program with `-I`: options, traversal, the pool of worker threads, the comparison and the text it prints.
-/

namespace Verif.Main

open Verif.Ignore (Ctx)
open Verif.Report (FileEnt)
open Verif.Traverse (Path scanArgs Selected)
open Verif.Config (Tok given chars lastArg Level isOptionSet Valid)
open Verif.Output (readReport Plain)

/-- The level of similarity asked for: the last `-T`, or 1. -/
def LevelAsked (ts : List Tok) (n : Nat) : Prop :=
  match lastArg 'T' ts with
  | some a => Level a n
  | none => n = 1

/-- **C92, part.**  An accepted command line with `-I`: there is one text such that, whatever the number of worker threads and however they are scheduled, a run whose threads have
come to rest ends with status 0 and that text; a reader who knows the separator gets from it exactly which of the images asked for are similar at the level asked for, each
pair once.  That `-J` is among the options makes no difference (C86), nor does `-t`.  Missing: what is said to be missing in C81, C90, C91. -/
theorem image_run_partial (m : Machine) (pz : Image.Puzzle ν δ) (level : Nat → δ) (ts : List Tok) (args : List Path)
    (hu : Usable m ts) (ha : Accepted m ts args) (hI : 'I' ∈ chars ts)
    {globals : List Ctx} (hgl : Traverse.globalChain m.engine = .ok globals) {cands : List FileEnt}
    (hscan : scanArgs (asked m globals ts) m.fs m.depth (place m ts) args = .ok (true, cands)) (hne : cands ≠ [])
    (hsym : ∀ v u, pz.dist v u = pz.dist u v) (hlen : cands.length ≤ 2 ^ 31) (hfuel : cands.length + 32 ≤ m.fuel)
    (hplain : ∀ f ∈ cands, Plain (separator ts) f.path.toList) :
    ∃ (l : List Nat) (t : List Char) (gs : List (Nat × List Nat)) (n : Nat), LevelAsked ts n ∧ l.Perm (List.range cands.length) ∧
      (∀ {w : Nat}, 1 ≤ w → ∀ {a b : Nat} {s : Pool.St Nat}, Pool.Exec a b (Pool.init w (Image.vectorProgram l)) s → (¬ ∃ s', Pool.Step s s') →
        Pool.Finished s ∧ ftwinMain m pz level s.evs ts args = .ok (0, .text t)) ∧
      readReport (separator ts) t = gs.map (fun g => (g.1 :: g.2).map (fun i => (Image.ent cands i).path.toList)) ∧
      Image.Exact pz cands (level n) gs ∧
      (∀ f, f ∈ cands ↔ ∃ a ∈ args, ∃ p, place m ts a = some p ∧ Selected (asked m globals ts) m.fs p globals f) := by
  obtain ⟨ig, c, hig, e, hsep, -⟩ := run_eq m pz level [] ts args hu ha hgl
  obtain ⟨-, -, -, -, -, -, hf7, -⟩ := Config.flags_exact _ _ _ _ _ _ _ e
  obtain ⟨-, -, -, -, hT, -⟩ := Config.values_exact _ _ _ _ _ _ _ e
  obtain ⟨h, l, t, gs, eh, hl, hrun, hread, hex⟩ := Image.image_report_exact pz cands (separator ts) (level c.threshold) m.fuel hsym hlen hfuel hplain
  obtain ⟨h', l', eh', H, -, hp⟩ := Image.fill_spec m.fuel cands hlen hfuel
  rw [eh] at eh'
  have hh := Res.ok.inj eh'
  subst hh
  have hll : l = l' := Res.ok.inj (hl.symm.trans (Image.taskFiles_spec H))
  subst hll
  refine ⟨l, t, gs, c.threshold, hT, hp, ?_, hread, hex, found_iff hscan⟩
  intro w hw a b s hs hstuck
  obtain ⟨hfin, hrep⟩ := hrun hw hs hstuck
  refine ⟨hfin, ?_⟩
  obtain ⟨ig', c', hig', e', hsep', hmain⟩ := run_eq m pz level s.evs ts args hu ha hgl
  rw [hig] at hig'
  have := Res.ok.inj hig'; subst this
  rw [e] at e'
  have := Option.some.inj (Res.ok.inj e'); subst this
  have hproc : Image.processing ⟨pz, level, worldOf m c, m.gmt, m.tty, s.evs, m.fuel⟩ c cands = .ok (.text t) := by
    unfold Image.processing
    rw [if_pos (List.length_pos_iff.mpr hne), hf7.mpr hI, if_pos rfl]
    dsimp only
    rw [hsep, hrep, Res.ok_bind]
  rw [hmain, hscan, Res.ok_bind]
  simp only [Bool.not_true, Bool.false_eq_true, if_false]
  rw [hproc, Res.ok_bind]
  rfl

/-! ## A run -/

/-- `-I -T 2 -J`. -/
def exImageLine : List Tok := [.opt 'I' [], .opt 'T' "2".toList, .opt 'J' []]

/-- A machine on which any expression compiles, and matches every name. -/
def exImages : Machine := { exMachine with compile := fun _ _ => some (fun _ => true) }

/-- A libpuzzle for which the two files of the tree are images at a distance of 3. -/
def exPuzzle : Image.Puzzle Nat Nat where
  load := fun p => if p = "d/a" then some 0 else if p = "d/b/c" then some 3 else none
  dist := fun v u => max v u - min v u
  lt := fun a b => decide (a < b)

theorem exImageAccepted : Accepted exImages exImageLine [['d']] where
  valid := by
    intro oa h
    simp only [exImageLine, given, List.mem_cons, List.not_mem_nil, or_false] at h
    rcases h with rfl | rfl | rfl
    · simp [Valid]
    · refine ⟨by decide, by decide, by simp, by simp, ?_⟩
      intro _; exact ⟨2, by decide, by decide, [], by decide⟩
    · simp [Valid]
  some := by simp
  user := rfl
  exprs := by
    unfold Expressions
    decide

theorem exImageScan : scanArgs (asked exImages exGlobals exImageLine) exImages.fs exImages.depth (place exImages exImageLine) [['d']] = .ok (true, exFound) := by
  decide +kernel

/-- `image_run_partial` applies: at level 2, here a distance below 4, the two files are told as a pair. -/
example : ∃ (t : List Char) (gs : List (Nat × List Nat)) (l : List Nat),
    (∀ {a b : Nat} {s : Pool.St Nat}, Pool.Exec a b (Pool.init 4 (Image.vectorProgram l)) s → (¬ ∃ s', Pool.Step s s') →
      ftwinMain exImages exPuzzle (fun n => 2 * n) s.evs exImageLine [['d']] = .ok (0, .text t)) ∧
    Image.Exact exPuzzle exFound 4 gs ∧ (Image.links gs).count (0, 1) + (Image.links gs).count (1, 0) = 1 := by
  obtain ⟨l, t, gs, n, hn, -, hrun, -, hex, -⟩ := image_run_partial exImages exPuzzle (fun n => 2 * n) exImageLine [['d']]
    ⟨by decide, Config.fit_of_few _ _ (by decide), by decide, by decide, by decide⟩ exImageAccepted (by decide)
    exGlobals_ok exImageScan (by decide) (by intro v u; simp only [exPuzzle]; rw [Nat.max_comm, Nat.min_comm]) (by decide) (by decide) (by
      intro f hf
      simp only [exFound, List.mem_cons, List.not_mem_nil, or_false] at hf
      rcases hf with rfl | rfl <;> exact ⟨by decide, by decide, by decide⟩)
  have hn2 : n = 2 := by
    have hl : Level "2".toList n := hn
    rcases (Config.level_cases _ _).mp hl with ⟨rfl, h⟩ | ⟨rfl, h⟩ | ⟨rfl, h⟩ | ⟨rfl, h⟩ | ⟨rfl, h⟩ <;> first | rfl | (revert h; decide)
  subst hn2
  exact ⟨t, gs, l, fun h1 h2 => (hrun (by decide) h1 h2).2, hex, hex.similar 0 1 (by decide) (by decide) (by decide) ⟨0, 3, by decide, by decide, by decide⟩⟩

end Verif.Main
