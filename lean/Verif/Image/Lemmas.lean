import Verif.Image.Model
import Verif.Pool.Hashing
import Verif.Output.Lemmas
import Verif.Report.Lemmas

/-! # Helper lemmas for the comparison of images -/

namespace Verif.Image

open Verif.Report (FileEnt)
open Verif.Heap (Holds HeapOrd IsOrder)
open Verif.Output (blockText)

theorem ptrCmp_isOrder (fs : List FileEnt) : IsOrder (ptrCmp fs) := by
  have h := Report.fileCmp_isOrder
  exact ⟨fun a b => h.anti _ _, fun a b c => h.trans _ _ _⟩

theorem fill_from (fuel : Nat) (fs : List FileEnt) : ∀ (is : List Nat) (h : Heap.Heap Nat) (t : List Nat), Holds h t → HeapOrd (ptrCmp fs) t →
    t.length + is.length ≤ 2 ^ 31 → t.length + is.length + 32 ≤ fuel →
    ∃ h' t', is.foldlM (fun h i => Heap.insert (ptrCmp fs) fuel h i) h = .ok h' ∧ Holds h' t' ∧ HeapOrd (ptrCmp fs) t' ∧ t'.Perm (is ++ t) := by
  intro is
  induction is with
  | nil => intro h t H ho _ _; exact ⟨h, t, rfl, H, ho, .refl _⟩
  | cons i is ih =>
    intro h t H ho hl hf
    simp only [List.length_cons] at hl hf
    obtain ⟨h1, t1, e1, H1, p1, o1⟩ := Heap.insert_spec (ptrCmp fs) H i (by omega) (fuel := fuel) (by omega)
    have hlen := p1.length_eq
    simp only [List.length_cons] at hlen
    obtain ⟨h2, t2, e2, H2, o2, p2⟩ := ih h1 t1 H1 (o1 (ptrCmp_isOrder fs) ho) (by omega) (by omega)
    refine ⟨h2, t2, ?_, H2, o2, ?_⟩
    · rw [List.foldlM_cons, e1]; exact e2
    · exact p2.trans (((List.Perm.refl is).append p1).trans List.perm_middle)

/-- The heap after the traversal. -/
theorem fill_spec (fuel : Nat) (fs : List FileEnt) (hl : fs.length ≤ 2 ^ 31) (hf : fs.length + 32 ≤ fuel) :
    ∃ h t, fill fuel fs = .ok h ∧ Holds h t ∧ HeapOrd (ptrCmp fs) t ∧ t.Perm (List.range fs.length) := by
  obtain ⟨h, t, e, H, o, p⟩ := fill_from fuel fs (List.range fs.length) (Heap.make Nat) [] (Heap.make_holds _)
    (fun j a b _ _ hb => by simp at hb) (by simpa using hl) (by simpa using hf)
  exact ⟨h, t, e, H, o, by simpa using p⟩

theorem getNth_holds {h : Heap.Heap Nat} {t : List Nat} (H : Holds h t) (i : Nat) (hi : i < t.length) : Heap.getNth h i = .ok (some t[i]) := by
  have hc := H.count
  have hle := H.rep.1
  unfold Heap.getNth
  rw [if_pos ⟨by omega, by rw [List.isEmpty_eq_false_iff]; intro hc0; rw [hc0, List.length_nil] at hle; omega⟩, H.rep.2 i hi]
  simp [hi]

theorem taskFiles_from {h : Heap.Heap Nat} {t : List Nat} (H : Holds h t) : ∀ is : List Nat, (∀ i ∈ is, i < t.length) →
    taskFiles h is = .ok (is.map (fun i => t.getD i 0)) := by
  intro is
  induction is with
  | nil => intro _; rfl
  | cons i is ih =>
    intro hi
    have h1 := hi i (by simp)
    simp only [taskFiles, getNth_holds H i h1, Res.ok_bind, ih (fun j hj => hi j (by simp [hj])), List.map_cons]
    simp [h1]

theorem range_getD (t : List Nat) : (List.range t.length).map (fun i => t.getD i 0) = t := by
  apply List.ext_getElem
  · simp
  · intro i h1 h2; simp [List.getElem?_eq_getElem h2]

/-- The tasks are for all the files in the heap. -/
theorem taskFiles_spec {h : Heap.Heap Nat} {t : List Nat} (H : Holds h t) : taskFiles h (List.range (Heap.size h)) = .ok t := by
  have hc : Heap.size h = t.length := H.count
  rw [hc, taskFiles_from H _ (by simp), range_getD]

theorem computeVector_fold (z : Puzzle ν δ) (fs : List FileEnt) : ∀ (l : List Nat) (vs : Vecs ν) (k : Nat),
    l.foldl (computeVector z fs) vs k = if k ∈ l then (match z.load (ent fs k).path with | some v => some v | none => vs k) else vs k := by
  intro l
  induction l with
  | nil => intro vs k; simp
  | cons i l ih =>
    intro vs k
    rw [List.foldl_cons, ih]
    by_cases hk : k = i
    · subst hk
      simp only [computeVector, List.mem_cons, true_or, if_true]
      cases z.load (ent fs k).path <;> simp
    · simp [computeVector, hk]

/-- Whether two files with vectors are listed together, as the program computes it. -/
def near (z : Puzzle ν δ) (thr : δ) (vs : Vecs ν) (v : ν) (g : Nat) : Bool :=
  match vs g with
  | some u => z.lt (z.dist v u) thr
  | none => false

/-- The text of the names of the files found near another. -/
def listed (fs : List FileEnt) (sep : Char) (js : List Nat) : List Char := js.flatMap (fun g => sep :: (ent fs g).path.toList)

theorem scan_spec (z : Puzzle ν δ) (fs : List FileEnt) (sep : Char) (thr : δ) (vs : Vecs ν) {h : Heap.Heap Nat} {t : List Nat} (H : Holds h t)
    (f : Nat) (v : ν) : ∀ (is : List Nat) (already : Bool), (∀ i ∈ is, i < t.length) →
    scan z fs sep thr vs h f v is already =
      (let js := (is.map (fun i => t.getD i 0)).filter (near z thr vs v)
       .ok (if already then listed fs sep js else if js = [] then [] else (ent fs f).path.toList ++ listed fs sep js, already || !js.isEmpty)) := by
  intro is
  induction is with
  | nil => intro already _; cases already <;> rfl
  | cons i is ih =>
    intro already hi
    have h1 := hi i (by simp)
    have hr := fun a => ih a (fun j hj => hi j (by simp [hj]))
    have hg : t.getD i 0 = t[i] := by simp [h1]
    simp only [scan, getNth_holds H i h1, Res.ok_bind, List.map_cons, hg]
    cases hv : vs t[i] with
    | none =>
      have hn : near z thr vs v t[i] = false := by simp [near, hv]
      simp only [hr, List.filter_cons, hn, Bool.false_eq_true, if_false]
    | some u =>
      cases hlt : z.lt (z.dist v u) thr with
      | false =>
        have hn : near z thr vs v t[i] = false := by simp [near, hv, hlt]
        simp only [hlt, hr, List.filter_cons, hn, Bool.false_eq_true, if_false]
      | true =>
        have hn : near z thr vs v t[i] = true := by simp [near, hv, hlt]
        simp only [hlt, hr, List.filter_cons, hn, if_true, Res.ok_bind]
        cases already <;> simp [listed]

/-- What the loop finds, with the files in the order `l` in which they leave the heap. -/
inductive Found (z : Puzzle ν δ) (thr : δ) (vs : Vecs ν) : List Nat → List (Nat × List Nat) → Prop
  | nil : Found z thr vs [] []
  | skip {f : Nat} {l : List Nat} {gs : List (Nat × List Nat)} : vs f = none → Found z thr vs l gs → Found z thr vs (f :: l) gs
  | alone {f : Nat} {l : List Nat} {gs : List (Nat × List Nat)} {v : ν} : vs f = some v → l.filter (near z thr vs v) = [] →
      Found z thr vs l gs → Found z thr vs (f :: l) gs
  | group {f : Nat} {l js : List Nat} {gs : List (Nat × List Nat)} {v : ν} : vs f = some v → js.Perm (l.filter (near z thr vs v)) → js ≠ [] →
      Found z thr vs l gs → Found z thr vs (f :: l) ((f, js) :: gs)

/-- The names in a block. -/
def namesOf (fs : List FileEnt) (g : Nat × List Nat) : List (List Char) := (g.1 :: g.2).map (fun i => (ent fs i).path.toList)

theorem block_names (fs : List FileEnt) (sep : Char) (f : Nat) (js : List Nat) :
    blockText sep (namesOf fs (f, js)) = (ent fs f).path.toList ++ listed fs sep js ++ ['\n', '\n'] := by
  simp only [blockText, namesOf, List.map_cons, Output.joinWith_eq, listed, List.flatMap_map]

theorem compare_spec (z : Puzzle ν δ) (fs : List FileEnt) (sep : Char) (thr : δ) (vs : Vecs ν) (fuel : Nat) :
    ∀ (n : Nat) (h : Heap.Heap Nat) (t : List Nat), Holds h t → HeapOrd (ptrCmp fs) t → t.length < n → t.length + 1 ≤ fuel →
    ∃ l gs, compareVectors z fs sep thr vs fuel n h = .ok (gs.flatMap (fun g => blockText sep (namesOf fs g))) ∧ l.Perm t ∧
      l.Pairwise (fun a b => (ent fs b).size ≤ (ent fs a).size) ∧ Found z thr vs l gs := by
  intro n
  induction n with
  | zero => intro h t _ _ h0; omega
  | succ n ih =>
    intro h t H ho hn hf
    unfold compareVectors
    rcases Heap.extract_spec (ptrCmp fs) H hf with ⟨h0, e⟩ | ⟨x, h', t', hx, e, H', hp, ho'⟩
    · simp only [e, Res.ok_bind]
      exact ⟨[], [], rfl, by rw [h0], .nil, .nil⟩
    · simp only [e, Res.ok_bind]
      have hl := hp.length_eq
      rw [List.length_cons] at hl
      obtain ⟨l, gs, e2, hp2, hs, hfd⟩ := ih h' t' H' (ho' (ptrCmp_isOrder fs) ho) (by omega) (by omega)
      have hpw : (x :: l).Pairwise (fun a b => (ent fs b).size ≤ (ent fs a).size) := by
        rw [List.pairwise_cons]
        refine ⟨?_, hs⟩
        intro b hb
        have hbt : b ∈ t := hp.mem_iff.mpr (List.mem_cons_of_mem _ (hp2.mem_iff.mp hb))
        obtain ⟨j, hj⟩ := List.getElem?_of_mem hbt
        exact (Report.fileCmp_le _ _).mp (Heap.root_max (ptrCmp_isOrder fs) ho j x b hx hj)
      have hperm : (x :: l).Perm t := (hp2.cons x).trans hp.symm
      cases hv : vs x with
      | none =>
        simp only [e2]
        exact ⟨x :: l, gs, rfl, hperm, hpw, .skip hv hfd⟩
      | some v =>
        have hc : Heap.size h' = t'.length := H'.count
        simp only [scan_spec z fs sep thr vs H' x v (List.range (Heap.size h')) false (by simp [hc]), Res.ok_bind, e2]
        have hj : ((List.range (Heap.size h')).map (fun i => t'.getD i 0)).filter (near z thr vs v) = t'.filter (near z thr vs v) := by
          rw [hc, range_getD]
        rw [hj]
        have hpf : (t'.filter (near z thr vs v)).Perm (l.filter (near z thr vs v)) := (hp2.filter _).symm
        by_cases hnil : t'.filter (near z thr vs v) = []
        · refine ⟨x :: l, gs, ?_, hperm, hpw, .alone hv ?_ hfd⟩
          · simp [hnil]
          · rw [hnil] at hpf; exact hpf.symm.eq_nil
        · refine ⟨x :: l, (x, t'.filter (near z thr vs v)) :: gs, ?_, hperm, hpw, .group hv hpf hnil hfd⟩
          have hne : (t'.filter (near z thr vs v)).isEmpty = false := by
            cases hq : t'.filter (near z thr vs v) with
            | nil => exact absurd hq hnil
            | cons a b => rfl
          rw [List.flatMap_cons, block_names, if_neg hnil, hne]
          simp

end Verif.Image
