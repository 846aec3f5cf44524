import Verif.Image.Spec
import Verif.Image.Lemmas

/-! # The image report (C81) -/

namespace Verif.Image

open Verif.Report (FileEnt)
open Verif.Output (Plain readReport blockText)

theorem found_mem {z : Puzzle ν δ} {thr : δ} {vs : Vecs ν} {l : List Nat} {gs : List (Nat × List Nat)} (h : Found z thr vs l gs) :
    (gs.map (·.1)).Sublist l ∧ (∀ g ∈ gs, g.2 ≠ []) ∧
    ∀ i j, (i, j) ∈ links gs → i ∈ l ∧ j ∈ l ∧ ∃ v, vs i = some v ∧ near z thr vs v j = true := by
  induction h with
  | nil => simp [links]
  | skip _ _ ih => exact ⟨ih.1.cons _, ih.2.1, fun i j hij => by obtain ⟨a, b, c⟩ := ih.2.2 i j hij; exact ⟨by simp [a], by simp [b], c⟩⟩
  | alone _ _ _ ih => exact ⟨ih.1.cons _, ih.2.1, fun i j hij => by obtain ⟨a, b, c⟩ := ih.2.2 i j hij; exact ⟨by simp [a], by simp [b], c⟩⟩
  | @group f l js gs v hv hp hne _ ih =>
    refine ⟨by rw [List.map_cons]; exact ih.1.cons_cons _, ?_, ?_⟩
    · intro g hg
      rcases List.mem_cons.mp hg with rfl | hg
      · exact hne
      · exact ih.2.1 g hg
    · intro i j hij
      simp only [links, List.flatMap_cons, List.mem_append] at hij
      rcases hij with hij | hij
      · obtain ⟨j', hj', e⟩ := List.mem_map.mp hij
        injection e with e1 e2
        subst e1; subst e2
        have hm := List.mem_filter.mp (hp.mem_iff.mp hj')
        exact ⟨by simp, by simp [hm.1], v, hv, hm.2⟩
      · obtain ⟨a, b, c⟩ := ih.2.2 i j hij
        exact ⟨by simp [a], by simp [b], c⟩

theorem count_map_pair (f : Nat) (js : List Nat) (i j : Nat) : (js.map (fun j => (f, j))).count (i, j) = if i = f then js.count j else 0 := by
  induction js with
  | nil => simp
  | cons a js ih =>
    rw [List.map_cons, List.count_cons, ih, List.count_cons]
    by_cases h : i = f
    · subst h; by_cases h2 : a = j <;> simp [h2]
    · simp [h, Ne.symm h]

theorem found_sorted {z : Puzzle ν δ} {thr : δ} {vs : Vecs ν} {l : List Nat} {gs : List (Nat × List Nat)} (R : Nat → Nat → Prop)
    (h : Found z thr vs l gs) (hl : l.Pairwise R) : ∀ i j, (i, j) ∈ links gs → R i j := by
  induction h with
  | nil => simp [links]
  | skip _ _ ih => exact ih (List.pairwise_cons.mp hl).2
  | alone _ _ _ ih => exact ih (List.pairwise_cons.mp hl).2
  | @group f l js gs v hv hp hne _ ih =>
    have hl' := List.pairwise_cons.mp hl
    intro i j hij
    simp only [links, List.flatMap_cons, List.mem_append] at hij
    rcases hij with hij | hij
    · obtain ⟨j', hj', e⟩ := List.mem_map.mp hij
      injection e with e1 e2
      subst e1; subst e2
      exact hl'.1 _ (List.mem_filter.mp (hp.mem_iff.mp hj')).1
    · exact ih hl'.2 i j hij

/-- A pair of files that are near each other, in both directions, is found once. -/
theorem found_count {z : Puzzle ν δ} {thr : δ} {vs : Vecs ν} {l : List Nat} {gs : List (Nat × List Nat)} (h : Found z thr vs l gs) (hnd : l.Nodup) :
    ∀ (i j : Nat) (v u : ν), i ∈ l → j ∈ l → i ≠ j → vs i = some v → vs j = some u → z.lt (z.dist v u) thr = true → z.lt (z.dist u v) thr = true →
    (links gs).count (i, j) + (links gs).count (j, i) = 1 := by
  induction h with
  | nil => intro i j v u hi; simp at hi
  | @skip f l gs hv _ ih =>
    intro i j v u hi hj hij hvi hvj h1 h2
    have hn := List.nodup_cons.mp hnd
    have hfi : i ≠ f := by rintro rfl; rw [hv] at hvi; cases hvi
    have hfj : j ≠ f := by rintro rfl; rw [hv] at hvj; cases hvj
    exact ih hn.2 i j v u (by simpa [hfi] using hi) (by simpa [hfj] using hj) hij hvi hvj h1 h2
  | @alone f l gs v0 hv hnil _ ih =>
    intro i j v u hi hj hij hvi hvj h1 h2
    have hn := List.nodup_cons.mp hnd
    rw [List.filter_eq_nil_iff] at hnil
    have hfi : i ≠ f := by
      rintro rfl
      rw [hv] at hvi; injection hvi with hvi; subst hvi
      exact hnil j (by simpa [Ne.symm hij] using hj) (by simp [near, hvj, h1])
    have hfj : j ≠ f := by
      rintro rfl
      rw [hv] at hvj; injection hvj with hvj; subst hvj
      exact hnil i (by simpa [hij] using hi) (by simp [near, hvi, h2])
    exact ih hn.2 i j v u (by simpa [hfi] using hi) (by simpa [hfj] using hj) hij hvi hvj h1 h2
  | @group f l js gs v0 hv hp hne hfd ih =>
    intro i j v u hi hj hij hvi hvj h1 h2
    have hn := List.nodup_cons.mp hnd
    have hrest : ∀ a b, a = f ∨ b = f → (links gs).count (a, b) = 0 := by
      intro a b hab
      rw [List.count_eq_zero]
      intro hm
      have := (found_mem hfd).2.2 a b hm
      rcases hab with rfl | rfl
      · exact hn.1 this.1
      · exact hn.1 this.2.1
    have hjs : ∀ k, k ∈ l → near z thr vs v0 k = true → js.count k = 1 := by
      intro k hk hnear
      rw [hp.count_eq, List.count_filter hnear]
      exact (List.Nodup.count hn.2).trans (if_pos hk)
    have hlk : links ((f, js) :: gs) = js.map (fun j => (f, j)) ++ links gs := by simp [links]
    rw [hlk, List.count_append, List.count_append, count_map_pair, count_map_pair]
    by_cases hfi : i = f
    · subst hfi
      rw [hv] at hvi; injection hvi with hvi; subst hvi
      rw [hrest i j (.inl rfl), hrest j i (.inr rfl), if_pos rfl, if_neg (Ne.symm hij),
        hjs j (by simpa [Ne.symm hij] using hj) (by simp [near, hvj, h1])]
    · by_cases hfj : j = f
      · subst hfj
        rw [hv] at hvj; injection hvj with hvj; subst hvj
        rw [hrest i j (.inr rfl), hrest j i (.inl rfl), if_pos rfl, if_neg hij,
          hjs i (by simpa [hij] using hi) (by simp [near, hvi, h2])]
      · rw [if_neg hfi, if_neg hfj]
        have := ih hn.2 i j v u (by simpa [hfi] using hi) (by simpa [hfj] using hj) hij hvi hvj h1 h2
        omega

/-- **C81.**  Whatever the number of workers and the schedule, a run on images ends in the same text (C08, C10 and C68 say that it ends), and that text tells its reader exactly which
files are similar images: each pair once, the larger file first.  Files that cannot be read as images are not listed.  The distance is
assumed to be symmetric; names must not contain the separator or a line break (as in C80). -/
theorem image_report_exact (z : Puzzle ν δ) (fs : List FileEnt) (sep : Char) (thr : δ) (fuel : Nat) (hsym : ∀ v u, z.dist v u = z.dist u v)
    (hlen : fs.length ≤ 2 ^ 31) (hfuel : fs.length + 32 ≤ fuel) (hplain : ∀ f ∈ fs, Plain sep f.path.toList) :
    ∃ h l text gs, fill fuel fs = .ok h ∧ taskFiles h (List.range (Heap.size h)) = .ok l ∧
      (∀ {n : Nat}, 1 ≤ n → ∀ {a b : Nat} {s : Pool.St Nat}, Pool.Exec a b (Pool.init n (vectorProgram l)) s → (¬ ∃ s', Pool.Step s s') →
        Pool.Finished s ∧ imageReport z fs sep thr fuel s.evs = .ok text) ∧
      readReport sep text = gs.map (fun g => (g.1 :: g.2).map (fun i => (ent fs i).path.toList)) ∧ Exact z fs thr gs := by
  obtain ⟨h, t, eh, H, ho, hp⟩ := fill_spec fuel fs hlen hfuel
  have hmem : ∀ i, i ∈ t ↔ i < fs.length := fun i => by rw [hp.mem_iff, List.mem_range]
  have htl : t.length = fs.length := by rw [hp.length_eq, List.length_range]
  have hnd : t.Nodup := hp.nodup_iff.mpr List.nodup_range
  let vs : Vecs ν := fun k => if k ∈ t then z.load (ent fs k).path else none
  obtain ⟨l, gs, ec, hl, hs, hfd⟩ := compare_spec z fs sep thr vs fuel (fs.length + 1) h t H ho (by omega) (by omega)
  have hlm : ∀ i, i ∈ l ↔ i < fs.length := fun i => by rw [hl.mem_iff, hmem]
  obtain ⟨hsub, hne, hlinks⟩ := found_mem hfd
  have hld : l.Nodup := hl.nodup_iff.mpr hnd
  have hvs : ∀ i, i < fs.length → vs i = z.load (ent fs i).path := by
    intro i hi; simp only [vs, hmem, hi, if_true]
  have hsim : ∀ i j v, (i, j) ∈ links gs → vs i = some v → near z thr vs v j = true → ∃ u, vs j = some u ∧ z.lt (z.dist v u) thr = true := by
    intro i j v _ _ hn
    unfold near at hn
    split at hn
    · rename_i u hu; exact ⟨u, hu, hn⟩
    · cases hn
  refine ⟨h, t, gs.flatMap (fun g => blockText sep (namesOf fs g)), gs, eh, taskFiles_spec H, ?_, ?_, ?_⟩
  · intro n hn a b s e hstuck
    obtain ⟨hf, hperm⟩ := Pool.program_runs_all t (by omega) hn e hstuck
    refine ⟨hf, ?_⟩
    have hva : vectorsAfter z fs s.evs = vs := by
      funext k
      rw [vectorsAfter, computeVector_fold]
      simp only [vs, ← hperm.mem_iff, noVecs]
      split
      · split <;> simp_all
      · rfl
    unfold imageReport
    rw [eh, hva]
    exact ec
  · have := Output.readReport_blocks sep (gs.map (namesOf fs)) ?_
    · rw [List.flatMap_map] at this; exact this
    · intro g hg
      obtain ⟨g, hgm, rfl⟩ := List.mem_map.mp hg
      refine ⟨by simp [namesOf], ?_⟩
      intro p hpm
      obtain ⟨i, hi, rfl⟩ := List.mem_map.mp hpm
      have hilt : i < fs.length := by
        rcases List.mem_cons.mp hi with rfl | hi
        · exact (hlm _).mp (hsub.subset (List.mem_map.mpr ⟨g, hgm, rfl⟩))
        · exact (hlm _).mp (hlinks g.1 i (List.mem_flatMap.mpr ⟨g, hgm, List.mem_map.mpr ⟨i, hi, rfl⟩⟩)).2.1
      apply hplain
      simp only [ent, List.getD_eq_getElem?_getD, List.getElem?_eq_getElem hilt, Option.getD_some]
      exact List.getElem_mem hilt
  · refine ⟨?_, ?_, ?_, ?_, hne⟩
    · rintro i j hi hj hij ⟨v, u, hv, hu, hlt⟩
      exact found_count hfd hld i j v u ((hlm i).mpr hi) ((hlm j).mpr hj) hij (by rw [hvs i hi, hv]) (by rw [hvs j hj, hu]) hlt (by rw [hsym]; exact hlt)
    · intro i j hij
      obtain ⟨hi, hj, v, hv, hn⟩ := hlinks i j hij
      obtain ⟨u, hu, hlt⟩ := hsim i j v hij hv hn
      have hi' := (hlm i).mp hi
      have hj' := (hlm j).mp hj
      refine ⟨hi', hj', ?_, v, u, by rw [← hvs i hi', hv], by rw [← hvs j hj', hu], hlt⟩
      exact found_sorted (fun a b => a ≠ b) hfd hld i j hij
    · exact found_sorted (fun a b => (ent fs b).size ≤ (ent fs a).size) hfd hs
    · exact hsub.nodup hld

end Verif.Image
