import Verif.Main.Status

/-! # A machine that meets the hypotheses of C92 and C93 -/

namespace Verif.Main

open Verif.Report (FileEnt World Entry)
open Verif.Traverse (Path exFS noEngine scanArgs Visits Clear EntryOk join)
open Verif.Config (Tok given chars Valid NamesFit)
open Verif.Output (Digest)

/-- Order of digests, and within one digest that of priorities. -/
def rank (e : Entry Digest) : Int := 2 * (e.hash.val : Int) + (e.file.map Report.prioVal).getD 0

def put (e : Entry Digest) : List (Entry Digest) → List (Entry Digest)
  | [] => [e]
  | x :: xs => if rank e ≤ rank x then e :: x :: xs else x :: put e xs

/-- One possible `qsort`. -/
def sortDigests : List (Entry Digest) → List (Entry Digest)
  | [] => []
  | e :: es => put e (sortDigests es)

theorem put_perm (e : Entry Digest) (l : List (Entry Digest)) : (put e l).Perm (e :: l) := by
  induction l with
  | nil => exact .refl _
  | cons x xs ih =>
    unfold put
    split
    · exact .refl _
    · exact (ih.cons x).trans (List.Perm.swap e x xs)

theorem sortDigests_perm (l : List (Entry Digest)) : (sortDigests l).Perm l := by
  induction l with
  | nil => exact .refl _
  | cons e es ih => exact (put_perm e _).trans (ih.cons e)

theorem put_sorted (e : Entry Digest) (l : List (Entry Digest)) (h : l.Pairwise (fun a b => rank a ≤ rank b)) : (put e l).Pairwise (fun a b => rank a ≤ rank b) := by
  induction l with
  | nil => simp [put]
  | cons x xs ih =>
    rw [List.pairwise_cons] at h
    unfold put
    split
    · rename_i hc
      rw [List.pairwise_cons]
      refine ⟨?_, List.pairwise_cons.mpr h⟩
      intro y hy
      rcases List.mem_cons.mp hy with rfl | hy
      · exact hc
      · exact Int.le_trans hc (h.1 y hy)
    · rename_i hc
      rw [List.pairwise_cons]
      refine ⟨?_, ih h.2⟩
      intro y hy
      rcases List.mem_cons.mp ((put_perm e xs).subset hy) with rfl | hy
      · omega
      · exact h.1 y hy

theorem sortDigests_sorted (l : List (Entry Digest)) : (sortDigests l).Pairwise (fun a b => rank a ≤ rank b) := by
  induction l with
  | nil => exact .nil
  | cons e es ih => exact put_sorted e _ ih

theorem val_inj {a b : Digest} (h : a.val = b.val) : a = b := by
  obtain ⟨ah, al⟩ := a
  obtain ⟨bh, bl⟩ := b
  simp only [Digest.val] at h
  have h1 := al.toNat_lt
  have h2 := bl.toNat_lt
  have e1 : ah.toNat = bh.toNat := by omega
  have e2 : al.toNat = bl.toNat := by omega
  rw [UInt64.toNat_inj.mp e1, UInt64.toNat_inj.mp e2]

def mainFiles : World Digest where
  dig := fun _ => none
  junk := fun _ => ⟨7, 7⟩
  fc := fun _ _ _ => .ok (false, 0)
  zero := ⟨0, 0⟩
  hcmp := fun a b => (a.val : Int) - b.val
  qs := sortDigests
  sizeHash := Xxh.sizeHash
  fuel := 64

theorem mainFiles_order : Report.HashOrder mainFiles.hcmp where
  zero := by
    intro a b
    simp only [mainFiles]
    exact ⟨fun h => val_inj (by omega), fun h => by subst h; omega⟩
  anti := by
    intro a b h1 h2
    simp only [mainFiles] at h1 h2
    exact val_inj (by omega)

theorem mainFiles_sorts : Report.Sorts mainFiles where
  perm := sortDigests_perm
  sorted := by
    intro l hl
    refine List.Pairwise.imp_of_mem ?_ (sortDigests_sorted l)
    intro a b ha hb h
    obtain ⟨f, hf⟩ := Option.isSome_iff_exists.mp (hl a ((sortDigests_perm l).subset ha))
    obtain ⟨g, hg⟩ := Option.isSome_iff_exists.mp (hl b ((sortDigests_perm l).subset hb))
    have p1 : Report.prioVal f = 0 ∨ Report.prioVal f = -1 := by unfold Report.prioVal; split <;> simp
    have p2 : Report.prioVal g = 0 ∨ Report.prioVal g = -1 := by unfold Report.prioVal; split <;> simp
    simp only [rank, hf, hg, Option.map_some, Option.getD_some] at h
    simp only [Report.chksumCmp, mainFiles, hf, hg]
    split <;> omega

/-- A digest without collisions among files of up to three bytes. -/
def toyDigest (b : File.Bytes) : Digest := ⟨b.length.toUInt64, (b.foldl (fun h (x : UInt8) => h * 256 + x.toNat) 0).toUInt64⟩

/-- The tree `d` with `d/a` and `d/b/c`, both with the same three bytes. -/
def exMachine : Machine where
  cores := 4
  uid := 1000
  groups := [100, 27]
  egid := 100
  userKnown := true
  compile := fun e _ => if e = ['('] then none else some (fun _ => false)
  engine := noEngine
  fs := exFS true
  merge := some
  disk := fun _ => ⟨[1, 2, 3], [], true, true, true⟩
  xxh128 := toyDigest
  files := mainFiles
  gmt := fun _ => some ⟨70, 0, 1, 0, 0, 0⟩
  tty := false
  depth := 12
  fuel := 64

def exGlobals : List Ignore.Ctx := match Traverse.globalChain noEngine with
  | .ok g => g
  | _ => []

theorem exGlobals_ok : Traverse.globalChain exMachine.engine = .ok exGlobals := by
  obtain ⟨g, e⟩ := globals_ok exMachine
  have e' : Traverse.globalChain noEngine = .ok g := e
  unfold exGlobals
  rw [e', e]

/-- `-r -i x,y -m 2 -e z`. -/
def exLine : List Tok := [.opt 'r' [], .opt 'i' "x,y".toList, .opt 'm' "2".toList, .opt 'e' "z".toList]

def exFound : List FileEnt := [⟨"d/a", 3, 0, false⟩, ⟨"d/b/c", 3, 0, false⟩]

theorem exUsable (ts : List Tok) (h : (Config.namesOf (given ts)).length ≤ 5) : Usable exMachine ts :=
  ⟨by decide, Config.fit_of_few _ _ h, by decide, by decide, by decide⟩

theorem exQuiet : Quiet exMachine exFound :=
  ⟨mainFiles_order, mainFiles_sorts, rfl, by decide, by decide, by decide, by decide, by decide, by simp [exMachine], by intro _ _ _ _ _ _; rfl⟩

theorem two_valid : Valid ('m', "2".toList) := by
  refine ⟨by decide, by decide, by simp, fun _ => ⟨2, by decide +kernel, by decide⟩, by simp⟩

theorem exAccepted : Accepted exMachine exLine [['d']] where
  valid := by
    intro oa h
    simp only [exLine, given, List.mem_cons, List.not_mem_nil, or_false] at h
    rcases h with rfl | rfl | rfl | rfl
    · simp [Valid]
    · simp [Valid]
    · exact two_valid
    · simp [Valid]
  some := by simp
  user := rfl
  exprs := by
    unfold Expressions
    decide

theorem exScan : scanArgs (asked exMachine exGlobals exLine) exMachine.fs exMachine.depth (place exMachine exLine) [['d']] = .ok (true, exFound) := by
  decide +kernel

/-- `text_run_partial` applies. -/
example (pz : Image.Puzzle ν δ) (level : Nat → δ) (evs : List (Pool.Ev Nat)) :
    ∃ (t : List Char) (gs : List (List FileEnt)), ftwinMain exMachine pz level evs exLine [['d']] = .ok (0, .text t) ∧
      Report.Exact (fun _ => ([1, 2, 3] : File.Bytes)) exFound gs ∧ Output.readReport '\n' t = gs.map (·.map (·.path.toList)) := by
  obtain ⟨t, gs, h1, h2, -, h4⟩ := text_run_partial exMachine pz level evs exLine [['d']] (exUsable _ (by decide)) exAccepted (by decide) (by decide) (by decide)
    exGlobals_ok exScan (by decide) exQuiet.calm (by
      intro f hf
      simp only [exFound, List.mem_cons, List.not_mem_nil, or_false] at hf
      rcases hf with rfl | rfl <;> exact ⟨by decide, by decide, by decide⟩) (fun h => by cases h)
  exact ⟨t, gs, h1, exact_congr h2 (fun _ _ _ _ => ⟨fun _ => rfl, fun _ => rfl⟩), h4⟩

theorem exJsonAccepted : Accepted exMachine [.opt 'J' []] [['d']] where
  valid := by simp [given, Valid]
  some := by simp
  user := rfl
  exprs := by
    unfold Expressions
    decide

/-- `json_run_partial` applies. -/
example (pz : Image.Puzzle ν δ) (level : Nat → δ) (evs : List (Pool.Ev Nat)) :
    ∃ (d : Output.Json) (gs : List (List FileEnt)), ftwinMain exMachine pz level evs [.opt 'J' []] [['d']] = .ok (0, .json d) ∧
      Report.Exact (fun _ => ([1, 2, 3] : File.Bytes)) exFound gs := by
  obtain ⟨d, gs, -, h1, h2, -⟩ := json_run_partial exMachine pz level evs [.opt 'J' []] [['d']] (exUsable _ (by decide)) exJsonAccepted (by decide) (by decide) (by decide)
    exGlobals_ok (cands := exFound) (by decide +kernel) (by decide) exQuiet.calm (by decide +kernel) (by
      intro f hf
      refine ⟨_, 1970, 1, 1, 0, 0, 0, rfl, by decide, by decide, by decide, by decide, by decide, by decide, by decide, by decide, by decide,
        by decide, by decide, by decide, ?_⟩
      simp only [exFound, List.mem_cons, List.not_mem_nil, or_false] at hf
      rcases hf with rfl | rfl <;> decide +kernel)
  exact ⟨d, gs, h1, exact_congr h2 (fun _ _ _ _ => ⟨fun _ => rfl, fun _ => rfl⟩)⟩

/-- The tree is finite and holds no ignore files, for any command line without `-f`. -/
theorem exWalkable (ts : List Tok) (hf : 'f' ∉ chars ts) : Walkable exMachine exGlobals ts [['d']] (fun p => 10 - p.length) where
  down := by
    intro p es e h he _
    simp only [exMachine, exFS] at h
    split at h
    · rename_i hp; subst hp; injection h with h; subst h
      simp at he; rcases he with rfl | rfl | rfl <;> decide
    · split at h
      · rename_i hp; subst hp; simp at h; subst h
        simp at he; subst he; decide
      · simp at h
  top := by
    intro a ha p hp
    simp at ha; subst ha
    have : p = ['d'] := by
      unfold place at hp
      split at hp <;> (injection hp with hp; exact hp.symm)
    subst this; decide
  clear := by
    intro a _ p _ q rules _
    refine ⟨?_, ?_⟩
    · intro h
      simp [asked, hf] at h
    · intro c h
      simp [exMachine, exFS] at h

/-- `exit_status_partial` applies: 0 with a report, 0 for `-h`, 1 for a bad size, 255 for an expression that does not compile. -/
example (pz : Image.Puzzle ν δ) (level : Nat → δ) (evs : List (Pool.Ev Nat)) (s : Int) (out : Image.Out)
    (h : ftwinMain exMachine pz level evs exLine [['d']] = .ok (s, out)) : s = 0 ∧ ∃ t, out = .text t := by
  obtain ⟨s', out', e, hc⟩ := exit_status_partial exMachine pz level evs exLine [['d']] (exUsable _ (by decide)) (by
      intro oa hoa hm
      simp only [exLine, given, List.mem_cons, List.not_mem_nil, or_false] at hoa
      rcases hoa with rfl | rfl | rfl | rfl <;> first | exact ⟨2, by decide +kernel⟩ | simp at hm) (by decide) (by decide) exGlobals_ok _
    (exWalkable _ (by decide)) (by intro cands hcs; rw [exScan] at hcs; injection hcs with hcs; injection hcs with _ hcs; subst hcs; exact exQuiet.calm)
  rw [h] at e; injection e with e; injection e with e1 e2; subst e1; subst e2
  have hv := exAccepted.valid
  rcases hc with ⟨-, h2, -⟩ | ⟨-, h2 | h2, -⟩ | ⟨h1, -, -, h4⟩ | ⟨-, -, -, h4, -⟩
  · exact absurd hv (help_invalid h2)
  · exact absurd hv h2.2
  · simp at h2
  · rw [if_neg (by decide)] at h4; exact ⟨h1, h4⟩
  · refine absurd ⟨exAccepted, ?_, ?_⟩ h4
    · exact (Traverse.scan_succeeds_iff _ _ _ _ _ _ _ exScan).mp rfl
    · obtain ⟨a, ha, p, hp, hs⟩ := (found_iff exScan _).mp (List.mem_cons_self ..)
      exact ⟨a, ha, p, _, hp, hs⟩

example : Help [.opt 'r' [], .opt 'h' []] := ⟨[('r', [])], 'h', [], [], rfl, Or.inl rfl, by simp [Valid]⟩
example : ¬ Accepted exMachine [.opt 'e' ['(']] [['d']] := by
  intro h
  have := h.exprs
  revert this
  unfold Expressions
  decide

end Verif.Main
