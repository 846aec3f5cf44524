import Verif.Report.Crash

/-!
# When exactly a report breaks off (C64)

`crash_iff` says for one run, with its order of the files and its sorting routine, when it dereferences NULL; `safe_iff` says which sets of files are reported to the end whatever the sorting
routine does with entries that compare equal.
-/

namespace Verif.Report

variable {η : Type} [DecidableEq η] {κ : Type} [DecidableEq κ]

/-- **When exactly a report breaks off** (C64, C17).  All files can be read and comparing decides their contents.  Then the run dereferences NULL exactly if, in some class of files that share their
size, sorting leaves a different file with the same digest between two identical ones; in every other case it completes.  `l` is the order in which the run meets the files, `w.qs` is `qsort`. -/
theorem crash_iff (w : World η) (json : Bool) (cands : List FileEnt) (key : FileEnt → κ) (hl : Limits w cands) (ho : HashOrder w.hcmp) (hq : Sorts w)
    (hd : ∀ f ∈ cands, ∀ g ∈ cands, f.size = g.size → Decides w key f g) :
    ∃ l, orderOf w.fuel cands = .ok l ∧ l.Perm cands ∧
      ((∃ k, 2 ≤ cnt cands k ∧ Split key (w.qs ((cls l k).map (mark w json cands)))) → ftwin w json cands = .ub) ∧
      (¬ (∃ k, 2 ≤ cnt cands k ∧ Split key (w.qs ((cls l k).map (mark w json cands)))) →
        ∃ out gs, ftwin w json cands = .ok out ∧ out.groups = some gs) := by
  obtain ⟨l, ks, hashed, hord, hp, hdesc, hm, hh, e⟩ := ftwin_eq w json cands hl.len hl.fuel hl.sizes
  refine ⟨l, hord, hp, ?_⟩
  have hent : ∀ k, ∀ e ∈ w.qs ((cls l k).map (mark w json cands)), ∃ f ∈ cands, f.size = k ∧ e = mark w json cands f := by
    intro k e he
    have := (hq.perm _).subset he
    rw [List.mem_map] at this
    obtain ⟨f, hf, rfl⟩ := this
    have := (cls_perm hp k).subset hf
    unfold cls at this
    rw [List.mem_filter] at this
    exact ⟨f, this.1, by simpa using this.2, rfl⟩
  have hout : ∀ k, (Split key (w.qs ((cls l k).map (mark w json cands))) →
        outer w json k ((cls l k).map (mark w json cands)).length (w.qs ((cls l k).map (mark w json cands))) 0 = .ub) ∧
      (¬ Split key (w.qs ((cls l k).map (mark w json cands))) →
        ∃ x, outer w json k ((cls l k).map (mark w json cands)).length (w.qs ((cls l k).map (mark w json cands))) 0 = .ok x) := by
    intro k
    have hns : ¬ Stale (w.qs ((cls l k).map (mark w json cands))) := by
      rintro ⟨a, c, hs, _, _, hc⟩
      obtain ⟨f, _, _, rfl⟩ := hent k c (hs.subset (by simp))
      cases hc
    have := outer_iff w json k key _ _ 0 (hq.perm ((cls l k).map (mark w json cands))).length_eq
      (contig_of_sorted ho _ (hq.sorted _ (mark_isSome w json cands _)))
      (by
        intro a ha b hb f g hf hg
        obtain ⟨f', hf', hk1, rfl⟩ := hent k a ha
        obtain ⟨g', hg', hk2, rfl⟩ := hent k b hb
        obtain rfl := Option.some.inj hf
        obtain rfl := Option.some.inj hg
        exact hd _ hf' _ hg' (by rw [hk1, hk2]))
    exact ⟨fun h => this.1 (.inr h), fun h => this.2 (fun hh => hh.elim hns h)⟩
  constructor
  · rintro ⟨k, hk, hsp⟩
    rw [e, classes_ub w json _ k ks ((hm k).2 hk) ((hout k).1 hsp)
      (fun k' _ => by
        by_cases h : Split key (w.qs ((cls l k').map (mark w json cands)))
        · exact .inl ((hout k').1 h)
        · exact .inr ((hout k').2 h))]
    rfl
  · intro hno
    obtain ⟨gs, lg, hc⟩ := classes_completes w json (fun k => (cls l k).map (mark w json cands)) ks (fun k hk => by
      obtain ⟨⟨gs, lg⟩, hx⟩ := (hout k).2 (fun h => hno ⟨k, (hm k).1 hk, h⟩)
      exact ⟨gs, lg, hx⟩)
    rw [e, hc]
    exact ⟨_, gs, rfl, rfl⟩

/-- `f`, `g` and `k` can be sorted with `g` between the other two: files from a preferred path come first among those with one digest, so `g` must be preferred like one of them. -/
def Mixes (key : FileEnt → κ) (dig : FileEnt → η) (f g k : FileEnt) : Prop :=
  f.size = g.size ∧ g.size = k.size ∧ dig f = dig g ∧ dig g = dig k ∧ key f = key k ∧ key f ≠ key g ∧ (f.prio = g.prio ∨ g.prio = k.prio)

/-- **Which sets of files are reported to the end, whatever `qsort` does with ties** (C64).  Each file is a candidate once, all can be read and comparing decides their contents.  Then the report completes for
every sorting routine exactly if there are no two identical files and a different one of their size and digest that may be sorted between them. -/
theorem safe_iff (w : World η) (json : Bool) (cands : List FileEnt) (key : FileEnt → κ) (hl : Limits w cands) (ho : HashOrder w.hcmp)
    (htot : ∀ a b, w.hcmp a b ≤ 0 ∨ w.hcmp b a ≤ 0) (htr : ∀ a b c, w.hcmp a b ≤ 0 → w.hcmp b c ≤ 0 → w.hcmp a c ≤ 0)
    (hnd : cands.Nodup) (hd : ∀ f ∈ cands, ∀ g ∈ cands, f.size = g.size → Decides w key f g) :
    (∀ qs, Sorts { w with qs := qs } → ∃ out gs, ftwin { w with qs := qs } json cands = .ok out ∧ out.groups = some gs) ↔
      ¬ ∃ f ∈ cands, ∃ g ∈ cands, ∃ k ∈ cands, f ≠ k ∧ Mixes key (digestOf w json cands) f g k := by
  have hl' : ∀ qs, Limits { w with qs := qs } cands := fun qs => ⟨hl.len, hl.fuel, hl.sizes⟩
  constructor
  · intro hall
    -- the one that comes first in the sorted order is called `f`
    have main : ∀ f ∈ cands, ∀ g ∈ cands, ∀ k ∈ cands, f ≠ k → Mixes key (digestOf w json cands) f g k → prioVal f ≤ prioVal g → prioVal g ≤ prioVal k → False := by
      intro f hf g hg k hk hne hm p1 p2
      obtain ⟨s1, s2, d1, d2, k1, k2, _⟩ := hm
      obtain ⟨l, hord, hp, hub, _⟩ := crash_iff { w with qs := fun es => es.mergeSort (before w.hcmp) } json cands key (hl' _) ho
        ⟨fun l => List.mergeSort_perm l _, fun l h => by
          refine (List.pairwise_mergeSort (before_trans ho htr) (before_total ho htot) l).imp_of_mem ?_
          intro a b ha hb hab
          exact (chksumCmp_before (w := w) ho (h a (List.mem_mergeSort.1 ha)) (h b (List.mem_mergeSort.1 hb))).2 hab⟩ hd
      clear hub
      have hfg : f ≠ g := fun h => k2 (by rw [h])
      have hgk : g ≠ k := fun h => k2 (by rw [k1, h])
      have hmem : ∀ x ∈ cands, x.size = f.size → x ∈ cls l f.size := by
        intro x hx hs
        exact (cls_perm hp f.size).symm.subset (List.mem_filter.2 ⟨hx, by simpa using hs⟩)
      have hperm : ∃ R, (cls l f.size).Perm (f :: g :: k :: R) := by
        have e1 := List.perm_cons_erase (hmem f hf rfl)
        have m2 : g ∈ (cls l f.size).erase f := (List.mem_erase_of_ne (Ne.symm hfg)).2 (hmem g hg s1.symm)
        have e2 := List.perm_cons_erase m2
        have m3 : k ∈ ((cls l f.size).erase f).erase g := (List.mem_erase_of_ne (Ne.symm hgk)).2 ((List.mem_erase_of_ne (Ne.symm hne)).2 (hmem k hk (by rw [s1, s2])))
        have e3 := List.perm_cons_erase m3
        exact ⟨_, e1.trans ((e2.trans (e3.cons g)).cons f)⟩
      obtain ⟨R, hR⟩ := hperm
      let target := (cls l f.size).map (mark w json cands)
      let Y := (List.map (mark w json cands) (f :: g :: k :: R)).mergeSort (before w.hcmp)
      have hsomeM : ∀ L : List FileEnt, ∀ e ∈ L.map (mark w json cands), e.file.isSome := mark_isSome w json cands
      have hsub : [mark w json cands f, mark w json cands g, mark w json cands k].Sublist Y := by
        refine List.sublist_mergeSort (before_trans ho htr) (before_total ho htot) ?_ ?_
        · have b1 : ∀ x y : FileEnt, digestOf w json cands x = digestOf w json cands y → prioVal x ≤ prioVal y → before w.hcmp (mark w json cands x) (mark w json cands y) = true := by
            intro x y h1 h2
            refine before_iff.2 ⟨?_, fun _ => h2⟩
            have := (ho.zero _ _).2 h1
            unfold digestOf at this
            omega
          simp only [List.pairwise_cons, List.mem_cons, List.not_mem_nil, or_false, forall_eq_or_imp, forall_eq]
          exact ⟨⟨b1 _ _ d1 p1, b1 _ _ (d1.trans d2) (Int.le_trans p1 p2)⟩, b1 _ _ d2 p2, fun _ h => h.elim, .nil⟩
        · exact List.Sublist.cons_cons _ (List.Sublist.cons_cons _ (List.Sublist.cons_cons _ (List.nil_sublist _)))
      have hYp : Y.Perm target := (List.mergeSort_perm _ _).trans (hR.map _).symm
      classical
      let qs : List (Entry η) → List (Entry η) := fun es => if es = target then Y else es.mergeSort (before w.hcmp)
      have hqs : Sorts { w with qs := qs } := by
        constructor
        · intro l'
          show (if l' = target then Y else l'.mergeSort (before w.hcmp)).Perm l'
          split
          · rename_i h; rw [h]; exact hYp
          · exact List.mergeSort_perm _ _
        · intro l' h
          have gen : ∀ L : List (Entry η), (∀ e ∈ L, e.file.isSome) → (L.mergeSort (before w.hcmp)).Pairwise (fun a b => chksumCmp w a b ≤ 0) := by
            intro L h
            refine (List.pairwise_mergeSort (before_trans ho htr) (before_total ho htot) L).imp_of_mem ?_
            intro a b ha hb hab
            exact (chksumCmp_before (w := w) ho (h a (List.mem_mergeSort.1 ha)) (h b (List.mem_mergeSort.1 hb))).2 hab
          show (if l' = target then Y else l'.mergeSort (before w.hcmp)).Pairwise (fun a b => chksumCmp w a b ≤ 0)
          split
          · exact gen _ (hsomeM _)
          · exact gen _ h
      obtain ⟨l2, hord2, _, hub2, _⟩ := crash_iff { w with qs := qs } json cands key (hl' _) ho hqs hd
      have hll : l2 = l := Res.ok.inj (hord2.symm.trans hord)
      subst hll
      obtain ⟨out, gs, hout, _⟩ := hall qs hqs
      have hcnt : 2 ≤ cnt cands f.size := by
        have h1 := hR.length_eq
        rw [cls_length, cnt_perm hp] at h1
        rw [h1]; simp
      have hY : Split key (qs ((cls l2 f.size).map (mark w json cands))) := by
        have : qs ((cls l2 f.size).map (mark w json cands)) = Y := if_pos rfl
        rw [this]
        exact ⟨_, _, _, hsub, d1, d2, f, g, k, rfl, rfl, rfl, k1, k2⟩
      rw [hub2 ⟨f.size, hcnt, hY⟩] at hout
      cases hout
    rintro ⟨f, hf, g, hg, k, hk, hne, hm⟩
    have hm' : Mixes key (digestOf w json cands) k g f := by
      obtain ⟨s1, s2, d1, d2, k1, k2, p⟩ := hm
      exact ⟨s2.symm, s1.symm, d2.symm, d1.symm, k1.symm, by rw [← k1]; exact k2, p.symm.imp Eq.symm Eq.symm⟩
    have hpr := hm.2.2.2.2.2.2
    have hcase : (prioVal f ≤ prioVal g ∧ prioVal g ≤ prioVal k) ∨ (prioVal k ≤ prioVal g ∧ prioVal g ≤ prioVal f) := by
      unfold prioVal
      cases hpf : f.prio <;> cases hpg : g.prio <;> cases hpk : k.prio <;> simp_all
    rcases hcase with ⟨c1, c2⟩ | ⟨c1, c2⟩
    · exact main f hf g hg k hk hne hm c1 c2
    · exact main k hk g hg f hf (Ne.symm hne) hm' c1 c2
  · intro hno qs hq
    obtain ⟨l, hord, hp, _, hok⟩ := crash_iff { w with qs := qs } json cands key (hl' _) ho hq hd
    refine hok ?_
    rintro ⟨n, _, a, b, c, hs, h1, h2, f, g, k, hf, hg, hk, hfk, hfg⟩
    have hp' : ((cls l n).map (mark { w with qs := qs } json cands)).Perm ((cands.filter (fun x => x.size = n)).map (mark { w with qs := qs } json cands)) := (cls_perm hp n).map _
    have hmem : ∀ x ∈ [a, b, c], ∃ y ∈ cands, y.size = n ∧ x = mark w json cands y := by
      intro x hx
      have := hp'.subset ((hq.perm _).subset (hs.subset hx))
      obtain ⟨y, hy, rfl⟩ := List.mem_map.1 this
      rw [List.mem_filter] at hy
      exact ⟨y, hy.1, by simpa using hy.2, rfl⟩
    obtain ⟨f', hf', s1, rfl⟩ := hmem a (by simp)
    obtain ⟨g', hg', s2, rfl⟩ := hmem b (by simp)
    obtain ⟨k', hk', s3, rfl⟩ := hmem c (by simp)
    obtain rfl := Option.some.inj hf
    obtain rfl := Option.some.inj hg
    obtain rfl := Option.some.inj hk
    have hpw := sub3 hs (hq.sorted _ (mark_isSome _ json cands _))
    have hnd2 : (cands.filter (fun x => x.size = n)).Nodup := hnd.filter _
    have hnd3 : (filesOf (qs ((cls l n).map (mark { w with qs := qs } json cands)))).Nodup := by
      have h3 := filesOf_perm (hq.perm ((cls l n).map (mark { w with qs := qs } json cands)))
      rw [filesOf_mark] at h3
      exact (h3.trans (cls_perm hp n)).nodup_iff.2 hnd2
    have hne : f' ≠ k' := by
      have h4 : (filesOf [mark w json cands f', mark w json cands g', mark w json cands k']).Sublist (filesOf (qs ((cls l n).map (mark { w with qs := qs } json cands)))) := by
        unfold filesOf
        exact hs.filterMap _
      have h5 : [f', g', k'].Nodup := hnd3.sublist h4
      intro h
      rw [h] at h5
      simp at h5
    refine hno ⟨f', hf', g', hg', k', hk', hne, by rw [s1, s2], by rw [s2, s3], h1, h2, hfk, hfg, ?_⟩
    have c1 := hpw.1
    have c2 := hpw.2.1
    have b1 := (before_iff.1 ((chksumCmp_before (w := { w with qs := qs }) ho rfl rfl).1 c1)).2 h1
    have b2 := (before_iff.1 ((chksumCmp_before (w := { w with qs := qs }) ho rfl rfl).1 c2)).2 h2
    have b1' : prioVal f' ≤ prioVal g' := b1
    have b2' : prioVal g' ≤ prioVal k' := b2
    unfold prioVal at b1' b2'
    cases hpf : f'.prio <;> cases hpg : g'.prio <;> cases hpk : k'.prio <;> simp_all

/-- Both theorems apply to the files of `digest_collision_crashes`, and they are not safe. -/
example : ¬ ∀ qs, Sorts { natWorld (fun _ => some 5) (contentCmp exContent) with qs := qs } →
    ∃ out gs, ftwin { natWorld (fun _ => some 5) (contentCmp exContent) with qs := qs } true [exFile 11 3, exFile 12 3, exFile 21 3] = .ok out ∧ out.groups = some gs := by
  rw [safe_iff (natWorld (fun _ => some 5) (contentCmp exContent)) true [exFile 11 3, exFile 12 3, exFile 21 3] exContent (natWorld_limits _ _ _ [3] (by decide) (by decide) (by decide)) (natWorld_order _ _)
    (by intro a b; simp only [natWorld]; omega) (by intro a b c; simp only [natWorld]; omega) (by decide)
    (by intro f _ g _ _ r0; refine ⟨_, _, rfl, ?_⟩; by_cases h : exContent f = exContent g <;> simp [h])]
  refine fun h => h ⟨exFile 11 3, by decide, exFile 21 3, by decide, exFile 12 3, by decide, by decide, by decide, by decide, rfl, rfl, by decide, by decide, .inl rfl⟩

/-- If the two equal ones come from a preferred path, the same files are safe. -/
example : ∀ qs, Sorts { natWorld (fun _ => some 5) (contentCmp exContent) with qs := qs } →
    ∃ out gs, ftwin { natWorld (fun _ => some 5) (contentCmp exContent) with qs := qs } true [exFile 11 3 true, exFile 12 3 true, exFile 21 3] = .ok out ∧ out.groups = some gs := by
  rw [safe_iff (natWorld (fun _ => some 5) (contentCmp exContent)) true [exFile 11 3 true, exFile 12 3 true, exFile 21 3] exContent (natWorld_limits _ _ _ [3] (by decide) (by decide) (by decide)) (natWorld_order _ _)
    (by intro a b; simp only [natWorld]; omega) (by intro a b c; simp only [natWorld]; omega) (by decide)
    (by intro f _ g _ _ r0; refine ⟨_, _, rfl, ?_⟩; by_cases h : exContent f = exContent g <;> simp [h])]
  rintro ⟨f, hf, g, hg, k, hk, hne, -, -, -, -, h1, h2, h3⟩
  revert hne h1 h2 h3
  revert f g k
  decide

end Verif.Report
