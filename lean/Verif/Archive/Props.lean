import Verif.Archive.Lemmas

/-! # Property theorems for the extraction of members (C83) -/

namespace Verif.Archive

open Verif.Report (FileEnt)

/-! ## C83: extracting a member -/

/-- C83.  A member that is extracted is in a new file, which holds the contents of the first member of that name; no other file is touched, and the file
creation mask and the libarchive objects are as before.  (Failures are in `untar_fails_partial`; that they are as clean as this is refuted by
`untar_leaks` and `umask_left`.) -/
theorem untar_extracts_partial (w : World) (hw : w.Fresh) (st st' : St) (path sub p : String) (h : untarFile w st path sub = (some p, st')) :
    st.files p = none ∧ (∃ c, Member (w.archives path) sub c ∧ st'.files p = some c) ∧ (∀ q, q ≠ p → st'.files q = st.files q) ∧
      st'.umask = st.umask ∧ st'.handles = st.handles := by
  unfold untarFile at h
  cases ha : w.archives path with
  | none => simp [ha] at h
  | some items =>
    simp only [ha] at h
    rcases find_cases w { st with handles := st.handles + 2 } sub items with ⟨pre, opened, blocks, rest, rfl, hp⟩ | hf
    · rw [find_skip hp] at h
      obtain ⟨hm, rfl, hc, rfl⟩ := extract_ok h
      obtain ⟨i1, i2⟩ := copyData_spec blocks [] [] assembled_nil
      refine ⟨hw _ _ hm, ⟨_, ⟨pre, blocks, rest, rfl, hp, i1.mp hc, by simpa using i2 hc⟩, setFile_same _ _ _⟩, ?_, rfl, by simp⟩
      intro q hq
      simp only [setFile_other _ _ hq]
    · rw [hf] at h; simp at h

/-- C83.  The extraction succeeds exactly if the archive has such a member and a temporary file can be made. -/
theorem untar_succeeds_iff (w : World) (hw : w.Fresh) (st : St) (path sub : String) :
    (untarFile w st path sub).1.isSome ↔ (∃ c, Member (w.archives path) sub c) ∧ (w.mkstemp st.files).isSome := by
  constructor
  · intro h
    obtain ⟨p, hp⟩ := Option.isSome_iff_exists.mp h
    have he : untarFile w st path sub = (some p, (untarFile w st path sub).2) := by rw [← hp]
    obtain ⟨-, ⟨c, hc, -⟩, -⟩ := untar_extracts_partial w hw st _ path sub p he
    refine ⟨⟨c, hc⟩, ?_⟩
    obtain ⟨pre, blocks, rest, ha, hpre, -, -⟩ := hc
    unfold untarFile at he
    simp only [ha] at he
    rw [find_skip hpre] at he
    rw [(extract_ok he).1]; rfl
  · rintro ⟨⟨c, pre, blocks, rest, ha, hpre, hs, -⟩, hm⟩
    cases hr : untarFile w st path sub with
    | mk o st' =>
      cases o with
      | some p => rfl
      | none =>
        exfalso
        unfold untarFile at hr
        simp only [ha] at hr
        rw [find_skip hpre] at hr
        obtain ⟨-, -, -, h4⟩ := extract_none hw hr
        rcases h4 with h4 | h4 | h4
        · rw [h4] at hm; cases hm
        · cases h4
        · rw [((copyData_spec blocks [] [] assembled_nil).1).mpr hs] at h4; cases h4

/-- C83.  An extraction that fails leaves the files of the disk as they were, and if a temporary file could be made also the file creation mask. -/
theorem untar_fails_partial (w : World) (hw : w.Fresh) (st st' : St) (path sub : String) (h : untarFile w st path sub = (none, st')) :
    st'.files = st.files ∧ (w.mkstemp st.files ≠ none → st'.umask = st.umask) := by
  unfold untarFile at h
  cases ha : w.archives path with
  | none => simp only [ha, Prod.mk.injEq, true_and] at h; subst h; exact ⟨rfl, fun _ => rfl⟩
  | some items =>
    simp only [ha] at h
    rcases find_cases w { st with handles := st.handles + 2 } sub items with ⟨pre, opened, blocks, rest, rfl, hp⟩ | hf
    · rw [find_skip hp] at h
      obtain ⟨h1, -, h3, -⟩ := extract_none hw h
      exact ⟨h1, h3⟩
    · rw [hf] at h; simp only [Prod.mk.injEq, true_and] at h; subst h; exact ⟨rfl, fun _ => rfl⟩

/-- C83 is false of failures: each of them, whatever its reason, loses the libarchive objects and the open archive. -/
theorem untar_leaks (w : World) (hw : w.Fresh) (st st' : St) (path sub : String) (h : untarFile w st path sub = (none, st')) : st.handles < st'.handles := by
  unfold untarFile at h
  cases ha : w.archives path with
  | none => simp only [ha, Prod.mk.injEq, true_and] at h; subst h; exact Nat.lt_succ_self _
  | some items =>
    simp only [ha] at h
    rcases find_cases w { st with handles := st.handles + 2 } sub items with ⟨pre, opened, blocks, rest, rfl, hp⟩ | hf
    · rw [find_skip hp] at h
      obtain ⟨-, h2, -⟩ := extract_none hw h
      rw [h2]; simp
    · rw [hf] at h; simp only [Prod.mk.injEq, true_and] at h; subst h; simp

/-- What an archive holds under a name is determined: there is only one answer. -/
theorem member_unique (a : Archive) (sub : String) (c d : List UInt8) (h1 : Member a sub c) (h2 : Member a sub d) : c = d := by
  obtain ⟨pre, b, rest, e1, p1, -, a1⟩ := h1
  obtain ⟨pre', b', rest', e2, p2, -, a2⟩ := h2
  rw [e1] at e2
  injection e2 with e2
  have hb := first_unique p1 p2 e2
  subst hb
  exact assembled_unique a1 a2

/-- No temporary file can be made. -/
def fullWorld : World := ⟨fun _ => some [.member "m" true [.data 0 [1] true]], fun _ => none⟩

/-- C83 is false of the mask: if no temporary file can be made, the program goes on with the mask 077. -/
theorem umask_left : fullWorld.Fresh ∧ ∃ st : St, st.umask = 18 ∧ (untarFile fullWorld st "a.tar" "m").1 = none ∧ (untarFile fullWorld st "a.tar" "m").2.umask = 63 :=
  ⟨(fun _ _ h => nomatch h), ⟨fun _ => none, 18, 0⟩, rfl, rfl, rfl⟩

/-- C83, the mask.  Extractions one after the other leave the mask as it was. -/
theorem mask_restored_partial (umask : Nat) (ids : List Nat) : maskAfter umask (ids.flatMap (fun i => [i, i])) = umask := by
  have step : ∀ i, Masks.act (Masks.act ⟨umask, fun _ => none⟩ i) i = ⟨umask, fun _ => none⟩ := by
    intro i
    simp only [Masks.act, if_true]
    congr 1
    funext j
    by_cases h : j = i <;> simp [h]
  have key : ∀ l : List Nat, (l.flatMap (fun i => [i, i])).foldl Masks.act ⟨umask, fun _ => none⟩ = ⟨umask, fun _ => none⟩ := by
    intro l
    induction l with
    | nil => rfl
    | cons i r ih => simp only [List.flatMap_cons, List.foldl_append, List.foldl_cons, List.foldl_nil, step, ih]
  unfold maskAfter
  rw [key]

/-- C83 is false of extractions at the same time, which the hashing threads make: the mask of the process ends as 077 although all extractions succeed. -/
theorem mask_race : maskAfter 18 [0, 1, 0, 1] = 63 := by decide

/-! ## A concrete case -/

/-- An archive with a member in three parts, the second of which leaves a gap, behind another member and before one of the same name; two temporary names. -/
def sampleWorld : World where
  archives := fun p => if p = "a.tar" then some [.member "x" true [.data 0 [9] true], .member "m" true [.data 0 [1, 2] true, .data 4 [5] true, .data 1 [7] true],
    .member "m" true [.data 0 [8] true], .error] else if p = "bad.tar" then some [.member "m" true [.data 0 [1] true, .error]] else none
  mkstemp := fun fs => if fs "/tmp/ftwinA" = none then some "/tmp/ftwinA" else if fs "/tmp/ftwinB" = none then some "/tmp/ftwinB" else none

def sampleSt : St := ⟨fun p => if p = "a.tar" ∨ p = "b" then some [0, 0] else none, 18, 3⟩

theorem sampleWorld_fresh : sampleWorld.Fresh := by
  intro fs p h
  simp only [sampleWorld] at h
  split at h
  · injection h with h; rw [← h]; assumption
  · split at h
    · injection h with h; rw [← h]; assumption
    · cases h

example : (untarFile sampleWorld sampleSt "a.tar" "m").1 = some "/tmp/ftwinA" ∧
    (untarFile sampleWorld sampleSt "a.tar" "m").2.files "/tmp/ftwinA" = some [1, 7, 0, 0, 5] ∧ (untarFile sampleWorld sampleSt "a.tar" "m").2.handles = 3 := by decide

example : (untarFile sampleWorld sampleSt "bad.tar" "m").1 = none ∧ (untarFile sampleWorld sampleSt "bad.tar" "m").2.handles = 5 ∧
    (untarFile sampleWorld sampleSt "bad.tar" "m").2.files "/tmp/ftwinA" = none := by decide

example : Member (sampleWorld.archives "a.tar") "m" [1, 7, 0, 0, 5] := by
  obtain ⟨-, ⟨c, hc, hp⟩, -⟩ := untar_extracts_partial sampleWorld sampleWorld_fresh sampleSt (untarFile sampleWorld sampleSt "a.tar" "m").2 "a.tar" "m" "/tmp/ftwinA" rfl
  have : (untarFile sampleWorld sampleSt "a.tar" "m").2.files "/tmp/ftwinA" = some [1, 7, 0, 0, 5] := by decide
  rw [this] at hp
  injection hp with hp
  rw [hp]; exact hc

end Verif.Archive
