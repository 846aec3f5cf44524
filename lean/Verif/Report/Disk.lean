import Verif.Report.Props

/-!
# The pipeline on a disk, and the runs that go wrong (C13, C17, C64)

The world of the pipeline is instantiated with the models of `checksum_file` and `filecmp`
(`Verif.File`).  The second part has concrete worlds: examples for the theorems of `Verif.Report.Props`
and the witnesses of undefined behaviour.
-/

namespace Verif.Report

open Verif.File (Bytes OnDisk checksum filecmp)

variable {η : Type} [DecidableEq η]

/-- The world in which file `f` is `disk f.path`, read with the models of `checksum_file`
(ft_process.c L62-65) and `filecmp` (ft_report.c L243, ft_report_json.c L101). -/
def diskWorld (disk : String → OnDisk) (H : Bytes → η) (excess ioFuel : Nat) (base : World η) : World η :=
  { base with
    dig := fun f => match checksum H ioFuel (disk f.path) f.size excess with
      | .ok (some d) => some d
      | _ => none
    fc := fun f g r0 => filecmp ioFuel (disk f.path) (disk g.path) f.size excess r0 }

/-- **C13, C12, C14 end to end.**  On a disk whose candidate files can be read and did not change
since their size was recorded, with no digest collision within a size, `ftwin` lists exactly the
sets of identical files, in both output modes, whatever the threshold for mapping is. -/
theorem ftwin_reports_identical_files_partial (disk : String → OnDisk) (H : Bytes → η) (excess ioFuel : Nat) (base : World η) (json : Bool)
    (cands : List FileEnt) (hl : Limits base cands) (ho : HashOrder base.hcmp) (hq : Sorts base)
    (hsize : ∀ f ∈ cands, f.size = (disk f.path).bytes.length) (hio : ∀ f ∈ cands, f.size < ioFuel)
    (hread : ∀ f ∈ cands, (disk f.path).openOk = true ∧ (disk f.path).closeOk = true ∧ (disk f.path).sched = [])
    (hcol : ∀ f ∈ cands, ∀ g ∈ cands, f.size = g.size → H (disk f.path).bytes = H (disk g.path).bytes → (disk f.path).bytes = (disk g.path).bytes) :
    ∃ out gs, ftwin (diskWorld disk H excess ioFuel base) json cands = .ok out ∧ out.groups = some gs ∧
      Exact (fun f => (disk f.path).bytes) cands (gs.map (·.files)) := by
  refine report_all_duplicates_partial (diskWorld disk H excess ioFuel base) json cands (fun f => (disk f.path).bytes) H
    ⟨hl.len, hl.fuel, hl.sizes⟩ ho ⟨hq.perm, hq.sorted⟩ ⟨hsize, ?_, ?_⟩ hcol
  · intro f hf
    obtain ⟨h1, h2, h3⟩ := hread f hf
    have hlt : (disk f.path).bytes.length < ioFuel := by rw [← hsize f hf]; exact hio f hf
    have := (File.checksum_strategy_independent H (disk f.path) excess ioFuel hlt).2.2 h1 h2 (by rw [h3]; simp)
    simp only [diskWorld, hsize f hf, this]
  · intro f hf g hg hs r0
    obtain ⟨f1, f2, f3⟩ := hread f hf
    obtain ⟨g1, g2, g3⟩ := hread g hg
    exact File.filecmp_decides_equality (disk f.path) (disk g.path) f.size excess ioFuel r0 (hsize f hf).symm
      (hs.trans (hsize g hg)).symm ⟨f1, g1⟩ ⟨f2, g2⟩ (by rw [f3]; simp) g3 (hio f hf)

/-! ## Concrete worlds -/

/-- Insertion by hash, then priority: one possible `qsort`. -/
def ins (e : Entry Nat) : List (Entry Nat) → List (Entry Nat)
  | [] => [e]
  | x :: xs => if e.hash < x.hash ∨ (e.hash = x.hash ∧ (e.file.map prioVal).getD 0 ≤ (x.file.map prioVal).getD 0) then e :: x :: xs else x :: ins e xs

def insSort : List (Entry Nat) → List (Entry Nat)
  | [] => []
  | e :: es => ins e (insSort es)

/-- A world with digests in `Nat`, given by the contents and a hash function. -/
def natWorld (dig : FileEnt → Option Nat) (fc : FileEnt → FileEnt → Int → Res (Bool × Int)) : World Nat where
  dig := dig
  junk := fun _ => 77
  fc := fc
  zero := 0
  hcmp := fun a b => (a : Int) - b
  qs := insSort
  sizeHash := fun n => n.toUInt32
  fuel := 64

theorem natWorld_order (dig : FileEnt → Option Nat) (fc : FileEnt → FileEnt → Int → Res (Bool × Int)) : HashOrder (natWorld dig fc).hcmp :=
  ⟨fun a b => by simp only [natWorld]; omega, fun a b => by simp only [natWorld]; omega⟩

theorem ins_perm (e : Entry Nat) (l : List (Entry Nat)) : (ins e l).Perm (e :: l) := by
  induction l with
  | nil => exact .refl _
  | cons x xs ih =>
    unfold ins
    split
    · exact .refl _
    · exact (ih.cons x).trans (List.Perm.swap e x xs)

theorem insSort_perm (l : List (Entry Nat)) : (insSort l).Perm l := by
  induction l with
  | nil => exact .refl _
  | cons e es ih => exact (ins_perm e _).trans (ih.cons e)

/-- The order `ins` uses. -/
def entLe (a b : Entry Nat) : Prop :=
  a.hash < b.hash ∨ (a.hash = b.hash ∧ (a.file.map prioVal).getD 0 ≤ (b.file.map prioVal).getD 0)

theorem ins_sorted (e : Entry Nat) : ∀ (l : List (Entry Nat)), l.Pairwise entLe → (ins e l).Pairwise entLe := by
  intro l
  induction l with
  | nil => intro _; simp [ins]
  | cons x xs ih =>
    intro h
    unfold ins
    rw [List.pairwise_cons] at h
    split
    · rename_i hle
      rw [List.pairwise_cons]
      refine ⟨?_, List.pairwise_cons.mpr h⟩
      intro y hy
      rw [List.mem_cons] at hy
      rcases hy with rfl | hy
      · exact hle
      · have := h.1 y hy
        unfold entLe at *
        omega
    · rename_i hle
      rw [List.pairwise_cons]
      refine ⟨?_, ih h.2⟩
      intro y hy
      have := (ins_perm e xs).subset hy
      rw [List.mem_cons] at this
      rcases this with rfl | hy
      · unfold entLe; omega
      · exact h.1 y hy

theorem insSort_sorted (l : List (Entry Nat)) : (insSort l).Pairwise entLe := by
  induction l with
  | nil => exact .nil
  | cons e es ih => exact ins_sorted e _ ih

theorem natWorld_sorts (dig : FileEnt → Option Nat) (fc : FileEnt → FileEnt → Int → Res (Bool × Int)) : Sorts (natWorld dig fc) where
  perm := insSort_perm
  sorted := by
    intro l hl
    refine List.Pairwise.imp_of_mem ?_ (insSort_sorted l)
    intro a b ha hb h
    obtain ⟨f, hf⟩ := Option.isSome_iff_exists.mp (hl a ((insSort_perm l).subset ha))
    obtain ⟨g, hg⟩ := Option.isSome_iff_exists.mp (hl b ((insSort_perm l).subset hb))
    unfold entLe at h
    simp only [hf, hg, Option.map_some, Option.getD_some] at h
    simp only [chksumCmp, natWorld, hf, hg]
    split <;> omega

theorem nodup_length_le {α : Type} [DecidableEq α] : ∀ (l m : List α), l.Nodup → (∀ s ∈ l, s ∈ m) → l.length ≤ m.length := by
  intro l
  induction l with
  | nil => intro m _ _; exact Nat.zero_le _
  | cons a l ih =>
    intro m hnd hsub
    rw [List.nodup_cons] at hnd
    have ham := hsub a List.mem_cons_self
    have := ih (m.erase a) hnd.2 (by
      intro s hs
      rw [List.mem_erase_of_ne (by rintro rfl; exact hnd.1 hs)]
      exact hsub s (List.mem_cons_of_mem _ hs))
    rw [List.length_erase_of_mem ham] at this
    have hpos : 0 < m.length := List.length_pos_of_mem ham
    simp only [List.length_cons]; omega

/-- Limits hold for few candidates. -/
theorem natWorld_limits (dig : FileEnt → Option Nat) (fc : FileEnt → FileEnt → Int → Res (Bool × Int)) (cands : List FileEnt)
    (ss : List Nat) (h : cands.length ≤ 31)
    (hss : ss.length ≤ 7) (hm : ∀ f ∈ cands, f.size ∈ ss) : Limits (natWorld dig fc) cands where
  len := by have : (31 : Nat) ≤ 2 ^ 31 := by decide
            omega
  fuel := by simp only [natWorld]; omega
  sizes := by
    intro v l hnd hl
    have := nodup_length_le l ss hnd (by
      intro s hs
      obtain ⟨⟨f, hf, e⟩, -⟩ := hl s hs
      exact e ▸ hm f hf)
    omega

/-- Comparison of known contents. -/
def contentCmp (content : FileEnt → Bytes) (f g : FileEnt) (_ : Int) : Res (Bool × Int) :=
  .ok (true, if content f = content g then 0 else 1)

/-- Contents used by the examples, by the tens of the modification time (which also tells the files apart). -/
def exContent (f : FileEnt) : Bytes :=
  match f.mtime / 10 with
  | 1 => [1, 2, 3]
  | 2 => [4, 5, 6]
  | 3 => [7]
  | _ => []

def exFile (t : Int) (n : Nat) (prio : Bool := false) : FileEnt := { path := "", size := n, mtime := t, prio := prio }

/-- Three copies of one content (one prioritised), two of another of the same size, a unique size, two
empty files. -/
def exCands : List FileEnt :=
  [exFile 21 3, exFile 11 3, exFile 1 0, exFile 12 3, exFile 31 1, exFile 22 3, exFile 13 3 true, exFile 2 0]

def exHash (b : Bytes) : Nat := b.foldl (fun h x => h * 31 + x.toNat) 7

def exWorld : World Nat := natWorld (fun f => some (exHash (exContent f))) (contentCmp exContent)

/-- A way to evaluate a run: the order of extraction and the shared sizes determine it. -/
theorem ftwin_eval {η : Type} [DecidableEq η] (w : World η) (json : Bool) (cands l : List FileEnt) (ks : List Nat) (hl : Limits w cands)
    (ho : orderOf w.fuel cands = .ok l) (hd : ks.Pairwise (fun a b => b < a))
    (h1 : ∀ f ∈ cands, 2 ≤ cnt cands f.size → f.size ∈ ks) (h2 : ∀ k ∈ ks, 2 ≤ cnt cands k) :
    ∃ hashed, ftwin w json cands = (do
      let (gs, lg) ← classes w json (fun k => (cls l k).map (mark w json cands)) ks
      .ok ⟨some gs, hashed, lg⟩) := by
  obtain ⟨l', ks', hashed, e0, -, hd', hm', -, e⟩ := ftwin_eq w json cands hl.len hl.fuel hl.sizes
  rw [ho] at e0
  injection e0 with e0
  subst e0
  have hm : ∀ k, k ∈ ks ↔ 2 ≤ cnt cands k := by
    intro k
    refine ⟨h2 k, ?_⟩
    intro hk
    obtain ⟨f, hf, rfl⟩ := cnt_pos.mp (by omega : 0 < cnt cands k)
    exact h1 f hf hk
  have hperm : ks.Perm ks' := by
    rw [List.perm_iff_count]
    intro k
    have c1 := List.nodup_iff_count.mp (desc_nodup hd) k
    have c2 := List.nodup_iff_count.mp (desc_nodup hd') k
    have : 0 < ks.count k ↔ 0 < ks'.count k := by rw [List.count_pos_iff, List.count_pos_iff, hm, hm']
    omega
  have : ks = ks' := hperm.eq_of_pairwise (fun a b _ _ h1 h2 => by omega) hd hd'
  subst this
  exact ⟨hashed, e⟩

/-- The groups, as modification times. -/
def paths (x : Res (Outcome Nat)) : Option (List (List Int)) :=
  match x with
  | .ok o => o.groups.map (·.map (·.files.map (·.mtime)))
  | _ => none

/-- What `paths` gives once the order and the sizes are known. -/
def classPaths (w : World Nat) (json : Bool) (cands l : List FileEnt) (ks : List Nat) : Res (List (List Int)) := do
  let (gs, _) ← classes w json (fun k => (cls l k).map (mark w json cands)) ks
  .ok (gs.map (·.files.map (·.mtime)))

def okEq (x : Res (List (List Int))) (y : List (List Int)) : Bool :=
  match x with
  | .ok z => z == y
  | _ => false

def isUb (x : Res α) : Bool :=
  match x with
  | .ub => true
  | _ => false

def ordEq (x : Res (List FileEnt)) (y : List FileEnt) : Bool :=
  match x with
  | .ok z => z == y
  | _ => false

theorem paths_eval {w : World Nat} {json : Bool} {cands : List FileEnt} (l : List FileEnt) (ks : List Nat) {out : List (List Int)} (hl : Limits w cands)
    (ho : ordEq (orderOf w.fuel cands) l = true) (hd : ks.Pairwise (fun a b => b < a))
    (h1 : ∀ f ∈ cands, 2 ≤ cnt cands f.size → f.size ∈ ks) (h2 : ∀ k ∈ ks, 2 ≤ cnt cands k)
    (hc : okEq (classPaths w json cands l ks) out = true) : paths (ftwin w json cands) = some out := by
  have ho' : orderOf w.fuel cands = .ok l := by
    unfold ordEq at ho
    split at ho
    · rename_i e; rw [e, eq_of_beq ho]
    · cases ho
  obtain ⟨hashed, e⟩ := ftwin_eval w json cands l ks hl ho' hd h1 h2
  rw [e]
  unfold okEq classPaths at hc
  cases hcl : classes w json (fun k => (cls l k).map (mark w json cands)) ks with
  | ub => rw [hcl] at hc; simp at hc
  | div => rw [hcl] at hc; simp at hc
  | ok x =>
    rw [hcl] at hc
    simp only [Res.ok_bind, beq_iff_eq] at hc
    simp [paths, hc]

theorem ub_eval {w : World Nat} {json : Bool} {cands : List FileEnt} (l : List FileEnt) (ks : List Nat) (hl : Limits w cands)
    (ho : ordEq (orderOf w.fuel cands) l = true) (hd : ks.Pairwise (fun a b => b < a))
    (h1 : ∀ f ∈ cands, 2 ≤ cnt cands f.size → f.size ∈ ks) (h2 : ∀ k ∈ ks, 2 ≤ cnt cands k)
    (hc : isUb (classPaths w json cands l ks) = true) : ftwin w json cands = .ub := by
  have ho' : orderOf w.fuel cands = .ok l := by
    unfold ordEq at ho
    split at ho
    · rename_i e; rw [e, eq_of_beq ho]
    · cases ho
  obtain ⟨hashed, e⟩ := ftwin_eval w json cands l ks hl ho' hd h1 h2
  rw [e]
  unfold isUb classPaths at hc
  cases hcl : classes w json (fun k => (cls l k).map (mark w json cands)) ks with
  | ub => simp
  | div => rw [hcl] at hc; simp at hc
  | ok x => rw [hcl] at hc; simp at hc

/-- A run in text mode: the prioritised file leads its group, the larger size comes first. -/
example : paths (ftwin exWorld false exCands) = some [[13, 11, 12], [21, 22], [1, 2]] :=
  paths_eval [exFile 21 3, exFile 11 3, exFile 13 3 true, exFile 12 3, exFile 22 3, exFile 31 1, exFile 1 0, exFile 2 0] [3, 0]
    (natWorld_limits _ _ _ [0, 1, 3] (by decide) (by decide) (by decide)) (by decide +kernel) (by decide) (by decide) (by decide) (by decide +kernel)

example : paths (ftwin exWorld true exCands) = some [[13, 11, 12], [21, 22], [1, 2]] :=
  paths_eval [exFile 21 3, exFile 11 3, exFile 13 3 true, exFile 12 3, exFile 22 3, exFile 31 1, exFile 1 0, exFile 2 0] [3, 0]
    (natWorld_limits _ _ _ [0, 1, 3] (by decide) (by decide) (by decide)) (by decide +kernel) (by decide) (by decide) (by decide) (by decide +kernel)

/-- The hypotheses of `report_all_duplicates_partial` and of the theorems it uses hold of it. -/
example : Readable exWorld exCands exContent exHash ∧ HashOrder exWorld.hcmp ∧ Sorts exWorld ∧
    (∀ f ∈ exCands, ∀ g ∈ exCands, f.size = g.size → exHash (exContent f) = exHash (exContent g) → exContent f = exContent g) := by
  refine ⟨⟨by decide +kernel, fun _ _ => rfl, ?_⟩, natWorld_order _ _, natWorld_sorts _ _, by decide +kernel⟩
  intro f hf g hg _ r0
  refine ⟨_, rfl, ?_⟩
  by_cases h : exContent f = exContent g <;> simp [h]

/-- **C64 is false.**  Contents `[1,2,3]`, `[1,2,3]`, `[4,5,6]` with one digest: the comparison decides equality, all
files can be read, and the report dereferences NULL. -/
theorem digest_collision_crashes :
    let w := natWorld (fun _ => some 5) (contentCmp exContent)
    let cands := [exFile 11 3, exFile 12 3, exFile 21 3]
    Limits w cands ∧ HashOrder w.hcmp ∧ Sorts w ∧ Readable w cands exContent (fun _ => 5) ∧
      ftwin w false cands = .ub ∧ ftwin w true cands = .ub := by
  have hl : Limits (natWorld (fun _ => some 5) (contentCmp exContent)) [exFile 11 3, exFile 12 3, exFile 21 3] :=
    natWorld_limits _ _ _ [3] (by decide) (by decide) (by decide)
  refine ⟨hl, natWorld_order _ _, natWorld_sorts _ _, ⟨by decide +kernel, fun _ _ => rfl, ?_⟩, ?_, ?_⟩
  · intro f hf g hg _ r0
    refine ⟨_, rfl, ?_⟩
    by_cases h : exContent f = exContent g <;> simp [h]
  · exact ub_eval [exFile 11 3, exFile 21 3, exFile 12 3] [3] hl (by decide +kernel) (by decide) (by decide) (by decide) (by decide +kernel)
  · exact ub_eval [exFile 11 3, exFile 21 3, exFile 12 3] [3] hl (by decide +kernel) (by decide) (by decide) (by decide) (by decide +kernel)

/-- The comparison of equal files in which every one with file 12 fails. -/
def failCmp (f g : FileEnt) (r0 : Int) : Res (Bool × Int) :=
  if f.mtime = 12 ∨ g.mtime = 12 then .ok (false, r0) else contentCmp exContent f g r0

/-- **C17 is false.**  Three identical files, digests computed; then one of them can no longer
be read: its comparisons fail, the other two are equal, and the report dereferences NULL. -/
theorem failing_comparison_crashes :
    let w := natWorld (fun f => some (exHash (exContent f))) failCmp
    let cands := [exFile 11 3, exFile 13 3, exFile 12 3]
    Limits w cands ∧ HashOrder w.hcmp ∧ Sorts w ∧ ftwin w false cands = .ub ∧ ftwin w true cands = .ub := by
  have hl : Limits (natWorld (fun f => some (exHash (exContent f))) failCmp) [exFile 11 3, exFile 13 3, exFile 12 3] :=
    natWorld_limits _ _ _ [3] (by decide) (by decide) (by decide)
  refine ⟨hl, natWorld_order _ _, natWorld_sorts _ _, ?_, ?_⟩
  · exact ub_eval [exFile 11 3, exFile 12 3, exFile 13 3] [3] hl (by decide +kernel) (by decide) (by decide) (by decide) (by decide +kernel)
  · exact ub_eval [exFile 11 3, exFile 12 3, exFile 13 3] [3] hl (by decide +kernel) (by decide) (by decide) (by decide) (by decide +kernel)

/-- The same files when the unreadable one could not be hashed either and its digest field holds 77. -/
def exUnreadable : World Nat := natWorld (fun f => if f.mtime = 12 then none else some (exHash (exContent f))) failCmp

/-- `report_skips_unreadable_partial` applies to it. -/
example : ∃ out gs, ftwin exUnreadable false [exFile 11 3, exFile 13 3, exFile 12 3] = .ok out ∧ out.groups = some gs ∧
    Exact (keyOf (fun f => f.mtime ≠ 12) exContent) [exFile 11 3, exFile 13 3, exFile 12 3] (gs.map (·.files)) := by
  refine report_skips_unreadable_partial exUnreadable false _ exContent exHash (fun f => f.mtime ≠ 12)
    (natWorld_limits _ _ _ [3] (by decide) (by decide) (by decide)) (natWorld_order _ _) (natWorld_sorts _ _)
    (by decide +kernel) (by decide +kernel) (by decide +kernel) ?_ ?_ (by decide +kernel) (by decide +kernel) (by decide +kernel)
  · intro f hf g hg _ h1 h2 r0
    have h1 : f.mtime ≠ 12 := by simpa using h1
    have h2 : g.mtime ≠ 12 := by simpa using h2
    refine ⟨if exContent f = exContent g then 0 else 1, ?_, ?_⟩
    · simp [exUnreadable, natWorld, failCmp, h1, h2, contentCmp]
    · by_cases h : exContent f = exContent g <;> simp [h]
  · intro f hf g hg _ h r0
    have h : f.mtime = 12 ∨ g.mtime = 12 := by simpa using h
    exact ⟨r0, by simp [exUnreadable, natWorld, failCmp, h]⟩

/-- **C65 is false.**  A path given twice on the command line is offered twice and reported as a
duplicate of itself. -/
theorem path_given_twice_reported :
    paths (ftwin exWorld false [exFile 31 1, exFile 31 1]) = some [[31, 31]] :=
  paths_eval [exFile 31 1, exFile 31 1] [1]
    (natWorld_limits _ _ _ [1] (by decide) (by decide) (by decide)) (by decide +kernel) (by decide) (by decide) (by decide) (by decide +kernel)

/-- **C65** (part).  If no path is offered twice, no group lists a path twice and no path is in two groups. -/
theorem no_path_twice_partial (w : World η) (json : Bool) (cands : List FileEnt) (out : Outcome η) (gs : List (Group η))
    (hl : Limits w cands) (hq : ∀ l, (w.qs l).Perm l) (hnd : (cands.map (·.path)).Nodup)
    (h : ftwin w json cands = .ok out) (hg : out.groups = some gs) :
    ((gs.flatMap (·.files)).map (·.path)).Nodup := by
  obtain ⟨-, un, hp⟩ := report_disjoint w json cands out gs hl hq h hg
  have := (hp.map (·.path)).nodup_iff.mpr hnd
  rw [List.map_append] at this
  exact (List.nodup_append.mp this).1

/-- The end-to-end theorem applied: three copies on disk, larger than the mapping threshold. -/
example : ∃ out gs, ftwin (diskWorld (fun _ => ⟨[1, 2, 3], [], true, true, true⟩) exHash 2 4 exWorld) true [exFile 11 3, exFile 12 3, exFile 13 3] = .ok out ∧
    out.groups = some gs ∧ Exact (fun _ => ([1, 2, 3] : Bytes)) [exFile 11 3, exFile 12 3, exFile 13 3] (gs.map (·.files)) :=
  ftwin_reports_identical_files_partial (fun _ => ⟨[1, 2, 3], [], true, true, true⟩) exHash 2 4 exWorld true [exFile 11 3, exFile 12 3, exFile 13 3]
    (natWorld_limits _ _ _ [3] (by decide) (by decide) (by decide)) (natWorld_order _ _) (natWorld_sorts _ _)
    (by decide) (by decide) (by simp) (by simp)

end Verif.Report
