import Verif.Main.Example
import Verif.Config.GetoptProps

/-!
# Runs from the words of a command line (C62, C113)
-/

namespace Verif.Main

open Verif.Report (FileEnt)
open Verif.Traverse (Path)
open Verif.Config (Tok Word OptDef optTable getopt calls Line Spelled Wrong Flag flagToks chs)

/-- ftwin.c L133-180 `ftwin_main` on the words behind the program's name: ft_config.c L605-619 reads them, and the words left are the paths (ft_config.c L666-668, ftwin.c L84). -/
def ftwinArgv (m : Machine) (pz : Image.Puzzle ν δ) (level : Nat → δ) (evs : List (Pool.Ev Nat)) (argv : List Word) : Res (Int × Image.Out) := do
  let r ← getopt optTable (calls argv) [] argv
  ftwinMain m pz level evs r.1 r.2

/-- **C113.** A run depends on the words only through the options they spell out and the paths behind these. -/
theorem argv_run (m : Machine) (pz : Image.Puzzle ν δ) (level : Nat → δ) (evs : List (Pool.Ev Nat)) {argv : List Word} {ts : List Tok} {args : List Path}
    (h : Line optTable argv ts args) : ftwinArgv m pz level evs argv = ftwinMain m pz level evs ts args := by
  unfold ftwinArgv
  rw [Config.line_read Config.optTable_sane h]
  rfl

/-- Every command line is read in exactly one way. -/
theorem argv_total (m : Machine) (pz : Image.Puzzle ν δ) (level : Nat → δ) (evs : List (Pool.Ev Nat)) (argv : List Word) :
    ∃ ts args, Line optTable argv ts args ∧ ftwinArgv m pz level evs argv = ftwinMain m pz level evs ts args := by
  obtain ⟨ts, args, -, h⟩ := Config.read_total optTable argv
  exact ⟨ts, args, h, argv_run m pz level evs h⟩

/-- **C113.** Two ways to write the same options in front of the same paths give the same run. -/
theorem spelling_free (m : Machine) (pz : Image.Puzzle ν δ) (level : Nat → δ) (evs : List (Pool.Ev Nat)) {argv argv' : List Word} {ts : List Tok} {args : List Path}
    (h : Line optTable argv ts args) (h' : Line optTable argv' ts args) : ftwinArgv m pz level evs argv = ftwinArgv m pz level evs argv' := by
  rw [argv_run m pz level evs h, argv_run m pz level evs h']

theorem loopStop_bad (h : List Char → UInt32) (fuel : Nat) (ts ts' : List Tok) (conf : Config.Conf) : loopStop h fuel (ts ++ .bad :: ts') conf = loopStop h fuel ts conf := by
  induction ts generalizing conf with
  | nil => rfl
  | cons t ts ih =>
    cases t with
    | bad => rfl
    | opt o a =>
      simp only [List.cons_append, loopStop]
      cases Config.processOption h fuel o a conf with
      | ub => rfl
      | div => rfl
      | ok s => cases s with
        | none => rfl
        | some c => exact ih c

theorem main_bad (m : Machine) (pz : Image.Puzzle ν δ) (level : Nat → δ) (evs : List (Pool.Ev Nat)) (ts ts' : List Tok) (args : List Path) :
    ftwinMain m pz level evs (ts ++ .bad :: ts') args = ftwinMain m pz level evs ts args := by
  unfold ftwinMain parseStatus
  simp only [Config.unknown_option_ignored, loopStop_bad]

/-- **C62 is false of the code, exactly.** A word that is not an option acts like a double dash: the run is that of the options before it, and every word behind it, option or not, is a
path to search. -/
theorem wrong_option_run (m : Machine) (pz : Image.Puzzle ν δ) (level : Nat → δ) (evs : List (Pool.Ev Nat)) {pre : List Word} {ts : List Tok} {fs : List OptDef} {p : Word}
    {rest : List Word} (h : Spelled optTable pre ts) (hf : ∀ d ∈ fs, Flag optTable d) (hw : Wrong optTable fs p rest) :
    ftwinArgv m pz level evs (pre ++ ('-' :: (chs fs ++ p)) :: rest) = ftwinMain m pz level evs (ts ++ flagToks fs) rest ∧
    (fs = [] → ftwinArgv m pz level evs (pre ++ ('-' :: (chs fs ++ p)) :: rest) = ftwinArgv m pz level evs (pre ++ ['-', '-'] :: rest)) := by
  have h1 : ftwinArgv m pz level evs (pre ++ ('-' :: (chs fs ++ p)) :: rest) = ftwinMain m pz level evs (ts ++ flagToks fs) rest := by
    rw [argv_run m pz level evs (.wrong pre rest ts fs p h hf hw)]
    exact main_bad m pz level evs (ts ++ flagToks fs) [] rest
  refine ⟨h1, ?_⟩
  intro he
  rw [h1, he, argv_run m pz level evs (.dashes pre rest ts h)]
  simp [flagToks]

/-- The same run, written in two ways. -/
example (m : Machine) (pz : Image.Puzzle ν δ) (level : Nat → δ) (evs : List (Pool.Ev Nat)) :
    ftwinArgv m pz level evs ["-ri".toList, "x,y".toList, "-m2".toList, "-ez".toList, "d".toList, "-J".toList] =
      ftwinArgv m pz level evs ["--recurse-subdir".toList, "--ignore-list=x,y".toList, "--minimal-length".toList, "2".toList, "-e".toList, "z".toList, "--".toList, "d".toList, "-J".toList] :=
  spelling_free m pz level evs Config.exShort Config.exLong

/-- A run with a shortened option searches `-J` and `d`, and prints text. -/
example (m : Machine) (pz : Image.Puzzle ν δ) (level : Nat → δ) (evs : List (Pool.Ev Nat)) :
    ftwinArgv m pz level evs ["--recurse".toList, "-J".toList, "d".toList] = ftwinMain m pz level evs [] ["-J".toList, "d".toList] :=
  (wrong_option_run m pz level evs (pre := []) (fs := []) .nil (by simp) (Config.exWrong _)).1

/-- A whole run from its words: the report of the two files. -/
example (pz : Image.Puzzle ν δ) (level : Nat → δ) (evs : List (Pool.Ev Nat)) :
    ∃ (t : List Char) (gs : List (List FileEnt)),
      ftwinArgv exMachine pz level evs ["-ri".toList, "x,y".toList, "-m2".toList, "-ez".toList, "d".toList] = .ok (0, .text t) ∧
      Report.Exact (fun _ => ([1, 2, 3] : File.Bytes)) exFound gs ∧ Output.readReport '\n' t = gs.map (·.map (·.path.toList)) := by
  have hl : ftwinArgv exMachine pz level evs ["-ri".toList, "x,y".toList, "-m2".toList, "-ez".toList, "d".toList] = ftwinMain exMachine pz level evs exLine [['d']] :=
    argv_run exMachine pz level evs ((Config.read_exact Config.optTable_sane _ _ _).mp rfl)
  obtain ⟨t, gs, h1, h2, -, h4⟩ := text_run_partial exMachine pz level evs exLine [['d']] (exUsable _ (by decide)) exAccepted (by decide) (by decide) (by decide)
    exGlobals_ok exScan (by decide) exQuiet.calm (by
      intro f hf
      simp only [exFound, List.mem_cons, List.not_mem_nil, or_false] at hf
      rcases hf with rfl | rfl <;> exact ⟨by decide, by decide, by decide⟩) (fun h => by cases h)
  exact ⟨t, gs, hl.trans h1, exact_congr h2 (fun _ _ _ _ => ⟨fun _ => rfl, fun _ => rfl⟩), h4⟩

end Verif.Main
