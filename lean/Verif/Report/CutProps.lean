import Verif.Report.Cut

/-!
# What is reported whatever the comparisons answer (C17)

`report_any_comparison` describes a run for every answer of every comparison, also for failing ones; `one_unreadable` applies it to the simplest failure, a file that can no longer be read when the
files are compared.
-/

namespace Verif.Report

variable {η : Type} [DecidableEq η] {κ : Type} [DecidableEq κ]

/-- The files of size `k` in the order in which they are reported. -/
def reportOrder (w : World η) (json : Bool) (cands l : List FileEnt) (k : Nat) : List FileEnt := filesOf (w.qs ((cls l k).map (mark w json cands)))

theorem classes_groups (w : World η) (json : Bool) (ent : Nat → List (Entry η)) (g : Nat → List (Group η)) :
    ∀ (ks : List Nat), (∀ k ∈ ks, ∃ lg, outer w json k (ent k).length (w.qs (ent k)) 0 = .ok (g k, lg)) →
      ∃ lg, classes w json ent ks = .ok (ks.flatMap g, lg) := by
  intro ks
  induction ks with
  | nil => intro _; exact ⟨_, rfl⟩
  | cons k ks ih =>
    intro h
    obtain ⟨l1, e1⟩ := h k List.mem_cons_self
    obtain ⟨l2, e2⟩ := ih (fun k' hk' => h k' (List.mem_cons_of_mem _ hk'))
    exact ⟨l1 ++ l2, by simp only [classes, e1, e2, Res.ok_bind, List.flatMap_cons]⟩

theorem entries_eq (w : World η) (json : Bool) (cands : List FileEnt) :
    ∀ es : List (Entry η), (∀ e ∈ es, ∃ f, e = mark w json cands f) → es = (filesOf es).map (entry (digestOf w json cands)) := by
  intro es
  induction es with
  | nil => intro _; rfl
  | cons e es ih =>
    intro h
    obtain ⟨f, hf⟩ := h e List.mem_cons_self
    rw [filesOf_cons_some (f := f) (by rw [hf]; rfl), List.map_cons, ← ih (fun e' he' => h e' (List.mem_cons_of_mem _ he'))]
    rw [hf]; rfl

/-- **C17, exactly.**  Let every comparison return some answer, "different" if it fails.  If the files of each shared size, as they are sorted, can be cut into blocks of which the first file was found
equal to the others and to no later file with its digest, the run completes and reports the blocks of two and more files, from the largest size on.  If one of the sizes cannot be cut so, the run
dereferences NULL. -/
theorem report_any_comparison (w : World η) (json : Bool) (cands : List FileEnt) (same : FileEnt → FileEnt → Bool) (hl : Limits w cands) (ho : HashOrder w.hcmp) (hq : Sorts w)
    (hd : ∀ f ∈ cands, ∀ g ∈ cands, f.size = g.size → Answers w same f g) :
    ∃ (l : List FileEnt) (ks : List Nat), orderOf w.fuel cands = .ok l ∧ l.Perm cands ∧ ks.Pairwise (fun a b => b < a) ∧ (∀ k, k ∈ ks ↔ 2 ≤ cands.countP (fun x => x.size = k)) ∧
      (∀ bs : Nat → List (List FileEnt), (∀ k ∈ ks, Cut same (digestOf w json cands) (reportOrder w json cands l k) (bs k)) →
        ∃ out gs, ftwin w json cands = .ok out ∧ out.groups = some gs ∧ gs.map (·.files) = ks.flatMap (fun k => (bs k).filter (fun b => 2 ≤ b.length))) ∧
      ((∃ k ∈ ks, ¬ ∃ bs, Cut same (digestOf w json cands) (reportOrder w json cands l k) bs) → ftwin w json cands = .ub) := by
  obtain ⟨l, ks, hashed, hord, hp, hdesc, hm, hh, e⟩ := ftwin_eq w json cands hl.len hl.fuel hl.sizes
  refine ⟨l, ks, hord, hp, hdesc, hm, ?_⟩
  have hent : ∀ k, ∀ e ∈ w.qs ((cls l k).map (mark w json cands)), ∃ f ∈ cands, f.size = k ∧ e = mark w json cands f := by
    intro k e he
    have := (hq.perm _).subset he
    rw [List.mem_map] at this
    obtain ⟨f, hf, rfl⟩ := this
    have := (cls_perm hp k).subset hf
    unfold cls at this
    rw [List.mem_filter] at this
    exact ⟨f, this.1, by simpa using this.2, rfl⟩
  have heq : ∀ k, w.qs ((cls l k).map (mark w json cands)) = (reportOrder w json cands l k).map (entry (digestOf w json cands)) := by
    intro k
    exact entries_eq w json cands _ (fun e he => by obtain ⟨f, _, _, h⟩ := hent k e he; exact ⟨f, h⟩)
  have hmem : ∀ k, ∀ f ∈ reportOrder w json cands l k, f ∈ cands ∧ f.size = k := by
    intro k f hf
    have h1 := filesOf_perm (hq.perm ((cls l k).map (mark w json cands)))
    rw [filesOf_mark] at h1
    have := (h1.trans (cls_perm hp k)).subset hf
    unfold cls at this
    rw [List.mem_filter] at this
    exact ⟨this.1, by simpa using this.2⟩
  have hout : ∀ k, (∀ bs, Cut same (digestOf w json cands) (reportOrder w json cands l k) bs → ∃ lg,
        outer w json k ((cls l k).map (mark w json cands)).length (w.qs ((cls l k).map (mark w json cands))) 0 = .ok (groupsOf k (digestOf w json cands) bs, lg)) ∧
      ((¬ ∃ bs, Cut same (digestOf w json cands) (reportOrder w json cands l k) bs) →
        outer w json k ((cls l k).map (mark w json cands)).length (w.qs ((cls l k).map (mark w json cands))) 0 = .ub) := by
    intro k
    have hlen : ((cls l k).map (mark w json cands)).length = (reportOrder w json cands l k).length := by
      rw [← (hq.perm ((cls l k).map (mark w json cands))).length_eq, heq k, List.length_map]
    rw [hlen, heq k]
    refine outer_cut w json k same (digestOf w json cands) _ (reportOrder w json cands l k) 0 (Nat.le_refl _) ?_ ?_
    · rw [← heq k]
      exact contig_of_sorted ho _ (hq.sorted _ (mark_isSome w json cands _))
    · intro f hf g hg
      exact hd f (hmem k f hf).1 g (hmem k g hg).1 (by rw [(hmem k f hf).2, (hmem k g hg).2])
  constructor
  · intro bs hb
    obtain ⟨lg, hc⟩ := classes_groups w json (fun k => (cls l k).map (mark w json cands)) (fun k => groupsOf k (digestOf w json cands) (bs k)) ks
      (fun k hk => (hout k).1 (bs k) (hb k hk))
    rw [e, hc]
    refine ⟨_, _, rfl, rfl, ?_⟩
    rw [List.map_flatMap]
    simp only [groupsOf_files]
  · rintro ⟨k, hk, hno⟩
    rw [e, classes_ub w json _ k ks hk ((hout k).2 hno)
      (fun k' _ => by
        by_cases h : ∃ bs, Cut same (digestOf w json cands) (reportOrder w json cands l k') bs
        · obtain ⟨bs, hb⟩ := h
          obtain ⟨lg, hx⟩ := (hout k').1 bs hb
          exact .inr ⟨_, hx⟩
        · exact .inl ((hout k').2 h))]
    rfl

/-! ## One file that can no longer be read -/

/-- The answers if `v` cannot be read any more and comparing decides the contents otherwise. -/
def without (key : FileEnt → κ) (v f g : FileEnt) : Bool := f ≠ v && g ≠ v && key f = key g

omit [DecidableEq η] in
theorem without_iff {key : FileEnt → κ} {v f g : FileEnt} : without key v f g = true ↔ f ≠ v ∧ g ≠ v ∧ key f = key g := by
  simp [without, and_assoc]

omit [DecidableEq η] in
/-- If `v` stands between two files with its contents, the list cannot be cut. -/
theorem no_cut {key : FileEnt → κ} {dig : FileEnt → η} {v a c : FileEnt} (ha : a ≠ v) (hc : c ≠ v) (hac : key a = key c) (hda : dig a = dig v) (hdc : dig v = dig c) :
    ∀ {fs : List FileEnt} {bs : List (List FileEnt)}, Cut (without key v) dig fs bs → [a, v, c].Sublist fs → False := by
  intro fs bs h
  induction h with
  | nil => intro hs; exact absurd hs.length_le (by simp)
  | block f ds rest bs h1 h2 h3 ih =>
    intro hs
    -- if `f` equals `a`, also `c` and with it `v` are in the block
    have key' : dig f = dig a → f ≠ v → key f = key a → [v, c].Sublist (ds ++ rest) → False := by
      intro hd hf hk hs2
      obtain ⟨l1, l2, e2, s1, s2⟩ := List.sublist_append_iff.1 hs2
      have hc2 : without key v f c = true := without_iff.2 ⟨hf, hc, by rw [hk, hac]⟩
      match l1, e2 with
      | [], e2 =>
        rw [List.nil_append] at e2
        subst e2
        have := h2 c (s2.subset (by simp)) (by rw [hd, hda, hdc])
        rw [hc2] at this; cases this
      | z :: l1, e2 =>
        obtain ⟨rfl, _⟩ := List.cons.inj e2
        exact (without_iff.1 (h1 v (s1.subset (by simp))).2).2.1 rfl
    rcases List.sublist_cons_iff.1 hs with hs | ⟨r, hr, hs⟩
    · obtain ⟨l1, l2, e2, s1, s2⟩ := List.sublist_append_iff.1 hs
      match l1, e2 with
      | [], e2 =>
        rw [List.nil_append] at e2
        subst e2
        exact ih s2
      | z :: l1, e2 =>
        obtain ⟨rfl, _⟩ := List.cons.inj e2
        obtain ⟨hd, hw⟩ := h1 a (s1.subset (by simp))
        obtain ⟨hf, _, hk⟩ := without_iff.1 hw
        exact key' hd hf hk ((List.sublist_cons_self a [v, c]).trans hs)
    · obtain ⟨rfl, rfl⟩ := List.cons.inj hr
      exact key' rfl ha rfl hs

/-- Otherwise it can, if files of one digest have one content. -/
theorem cut_exists {key : FileEnt → κ} {dig : FileEnt → η} {v : FileEnt} :
    ∀ (n : Nat) (fs : List FileEnt), fs.length ≤ n → fs.Nodup → Contig (fs.map (entry dig)) → (∀ f ∈ fs, ∀ g ∈ fs, dig f = dig g → key f = key g) →
      (∀ a c, [a, v, c].Sublist fs → dig a = dig v → dig v ≠ dig c) → ∃ bs, Cut (without key v) dig fs bs := by
  intro n
  induction n with
  | zero =>
    intro fs hn _ _ _ _
    obtain rfl := List.length_eq_zero_iff.1 (Nat.le_zero.1 hn)
    exact ⟨[], Cut.nil⟩
  | succ n ih =>
    intro fs hn hnd hc hinj hb
    match fs, hn, hnd, hc, hinj, hb with
    | [], _, _, _, _, _ => exact ⟨[], Cut.nil⟩
    | f :: fs, hn, hnd, hc, hinj, hb =>
      have hn' : fs.length ≤ n := by simpa using hn
      have hnd' := List.nodup_cons.1 hnd
      have suffix : ∀ ds rest : List FileEnt, fs = ds ++ rest → ∃ bs, Cut (without key v) dig rest bs := by
        intro ds rest e
        refine ih rest (by rw [e, List.length_append] at hn'; omega) (by rw [e] at hnd'; exact (List.nodup_append.1 hnd'.2).2.1) ?_ ?_ ?_
        · have h1 := hc.2
          rw [e, List.map_append] at h1
          generalize ds.map (entry dig) = ns at h1
          induction ns with
          | nil => exact h1
          | cons _ ns ih2 => exact ih2 h1.2
        · intro a ha b hb2
          exact hinj a (List.mem_cons_of_mem _ (by rw [e]; exact List.mem_append_right _ ha)) b (List.mem_cons_of_mem _ (by rw [e]; exact List.mem_append_right _ hb2))
        · intro a c hs
          exact hb a c ((hs.trans (by rw [e]; exact List.sublist_append_right _ _)).cons _)
      by_cases hfv : f = v
      · obtain ⟨bs, hbs⟩ := suffix [] fs rfl
        exact ⟨_, Cut.block f [] fs bs (by simp) (by intro y _ _; simp [without, hfv]) hbs⟩
      · obtain ⟨run, tail, hrt, hrun, htail⟩ := hc.1
        obtain ⟨fr, ft, hfs, rfl, rfl⟩ := List.map_eq_append_iff.1 hrt
        have hrun' : ∀ g ∈ fr, dig f = dig g := fun g hg => (hrun _ (List.mem_map_of_mem hg)).symm
        have htail' : ∀ g ∈ ft, dig f ≠ dig g := fun g hg hh => htail _ (List.mem_map_of_mem hg) hh.symm
        have hmr : ∀ g ∈ fr, g ∈ fs := fun g hg => by rw [hfs]; exact List.mem_append_left _ hg
        have hkey : ∀ g ∈ fr, key f = key g := fun g hg => hinj f List.mem_cons_self g (List.mem_cons_of_mem _ (hmr g hg)) (hrun' g hg)
        by_cases hv : v ∈ fr
        · -- `v` is the last of the run
          obtain ⟨p, q, hpq⟩ := List.append_of_mem hv
          have hq : q = [] := by
            cases q with
            | nil => rfl
            | cons c q =>
              exfalso
              have hs : [f, v, c].Sublist (f :: fs) := by
                refine List.Sublist.cons_cons _ ?_
                rw [hfs, hpq, List.append_assoc]
                exact (List.Sublist.cons_cons v (List.Sublist.cons_cons c (List.nil_sublist _))).trans (List.sublist_append_right _ _)
              exact hb f c hs (hrun' v hv) (by rw [← hrun' v hv, hrun' c (by rw [hpq]; simp)])
          subst hq
          obtain ⟨bs, hbs⟩ := suffix p (v :: ft) (by rw [hfs, hpq, List.append_assoc]; rfl)
          have hvp : ∀ d ∈ p, d ≠ v := by
            intro d hdm hdv
            rw [hfs, hpq] at hnd'
            have h2 := (List.nodup_append.1 (List.nodup_append.1 hnd'.2).1).2.2
            exact h2 d hdm v (by simp) hdv
          refine ⟨(f :: p) :: bs, ?_⟩
          have := Cut.block (same := without key v) (dig := dig) f p (v :: ft) bs
            (fun d hdm => ⟨hrun' d (by rw [hpq]; simp [hdm]), without_iff.2 ⟨hfv, hvp d hdm, hkey d (by rw [hpq]; simp [hdm])⟩⟩)
            (by
              intro y hy hh
              rcases List.mem_cons.1 hy with rfl | hy
              · simp [without]
              · exact absurd hh (htail' y hy))
            hbs
          rw [hfs, hpq, List.append_assoc]
          exact this
        · obtain ⟨bs, hbs⟩ := suffix fr ft hfs
          refine ⟨(f :: fr) :: bs, ?_⟩
          have := Cut.block (same := without key v) (dig := dig) f fr ft bs
            (fun d hdm => ⟨hrun' d hdm, without_iff.2 ⟨hfv, fun h => hv (h ▸ hdm), hkey d hdm⟩⟩)
            (fun y hy hh => absurd hh (htail' y hy))
            hbs
          rw [hfs]
          exact this

/-- **C17, one unreadable file.**  Each file is a candidate once, files of one size with one digest have one content, and when the files are compared, one of them, `v`, can no longer be read: all its
comparisons fail.  Then the run dereferences NULL exactly if, as the files of that size are sorted, `v` has other files with its digest before it and behind it.  Otherwise the run completes. -/
theorem one_unreadable (w : World η) (json : Bool) (cands : List FileEnt) (key : FileEnt → κ) (v : FileEnt) (hl : Limits w cands) (ho : HashOrder w.hcmp) (hq : Sorts w) (hnd : cands.Nodup)
    (hv : v ∈ cands) (hinj : ∀ f ∈ cands, ∀ g ∈ cands, f.size = g.size → digestOf w json cands f = digestOf w json cands g → key f = key g)
    (hd : ∀ f ∈ cands, ∀ g ∈ cands, f.size = g.size → Answers w (without key v) f g) :
    ∃ l, orderOf w.fuel cands = .ok l ∧ l.Perm cands ∧
      ((∃ a c, [a, v, c].Sublist (reportOrder w json cands l v.size) ∧ digestOf w json cands a = digestOf w json cands v ∧ digestOf w json cands v = digestOf w json cands c) →
        ftwin w json cands = .ub) ∧
      ((¬ ∃ a c, [a, v, c].Sublist (reportOrder w json cands l v.size) ∧ digestOf w json cands a = digestOf w json cands v ∧ digestOf w json cands v = digestOf w json cands c) →
        ∃ out gs, ftwin w json cands = .ok out ∧ out.groups = some gs) := by
  obtain ⟨l, ks, hord, hp, hdesc, hm, hok, hub⟩ := report_any_comparison w json cands (without key v) hl ho hq hd
  refine ⟨l, hord, hp, ?_⟩
  have hperm : ∀ k, (reportOrder w json cands l k).Perm (cls cands k) := by
    intro k
    have h1 := filesOf_perm (hq.perm ((cls l k).map (mark w json cands)))
    rw [filesOf_mark] at h1
    exact h1.trans (cls_perm hp k)
  have hmem : ∀ k, ∀ f ∈ reportOrder w json cands l k, f ∈ cands ∧ f.size = k := by
    intro k f hf
    have := (hperm k).subset hf
    unfold cls at this
    rw [List.mem_filter] at this
    exact ⟨this.1, by simpa using this.2⟩
  have hnodup : ∀ k, (reportOrder w json cands l k).Nodup := fun k => (hperm k).nodup_iff.2 (hnd.filter _)
  constructor
  · rintro ⟨a, c, hs, h1, h2⟩
    have h3 := (hnodup v.size).sublist hs
    have hav : a ≠ v := by rintro rfl; simp at h3
    have hcv : c ≠ v := by rintro rfl; simp at h3
    have ha := hmem _ a (hs.subset (by simp))
    have hc := hmem _ c (hs.subset (by simp))
    refine hub ⟨v.size, (hm _).2 ?_, ?_⟩
    · have h4 := hs.length_le
      rw [(hperm _).length_eq, cls_length] at h4
      simp only [List.length_cons, List.length_nil] at h4
      have : cnt cands v.size = cands.countP (fun x => x.size = v.size) := rfl
      omega
    · rintro ⟨bs, hb⟩
      exact no_cut hav hcv (hinj a ha.1 c hc.1 (by rw [ha.2, hc.2]) (h1.trans h2)) h1 h2 hb hs
  · intro hno
    have hall : ∀ k, ∃ bs, Cut (without key v) (digestOf w json cands) (reportOrder w json cands l k) bs := by
      intro k
      have hen : w.qs ((cls l k).map (mark w json cands)) = (reportOrder w json cands l k).map (entry (digestOf w json cands)) := by
        refine entries_eq w json cands _ (fun e he => ?_)
        obtain ⟨f, _, rfl⟩ := List.mem_map.1 ((hq.perm _).subset he)
        exact ⟨f, rfl⟩
      refine cut_exists _ _ (Nat.le_refl _) (hnodup k) ?_ ?_ ?_
      · rw [← hen]
        exact contig_of_sorted ho _ (hq.sorted _ (mark_isSome w json cands _))
      · intro f hf g hg h
        exact hinj f (hmem k f hf).1 g (hmem k g hg).1 (by rw [(hmem k f hf).2, (hmem k g hg).2]) h
      · intro a c hs h1 h2
        have : v.size = k := (hmem k v (hs.subset (by simp))).2
        exact hno ⟨a, c, by rw [this]; exact hs, h1, h2⟩
    obtain ⟨out, gs, h1, h2, _⟩ := hok (fun k => (hall k).choose) (fun k _ => (hall k).choose_spec)
    exact ⟨out, gs, h1, h2⟩

/-- The hypotheses hold of the files of `failing_comparison_crashes`: file 12 fails. -/
example : let w := natWorld (fun f => some (exHash (exContent f))) failCmp
    let cands := [exFile 11 3, exFile 13 3, exFile 12 3]
    Limits w cands ∧ HashOrder w.hcmp ∧ Sorts w ∧ cands.Nodup ∧ exFile 12 3 ∈ cands ∧
      (∀ f ∈ cands, ∀ g ∈ cands, f.size = g.size → digestOf w true cands f = digestOf w true cands g → exContent f = exContent g) ∧
      (∀ f ∈ cands, ∀ g ∈ cands, f.size = g.size → Answers w (without exContent (exFile 12 3)) f g) := by
  refine ⟨natWorld_limits _ _ _ [3] (by decide) (by decide) (by decide), natWorld_order _ _, natWorld_sorts _ _, by decide, by decide, by decide +kernel, ?_⟩
  intro f hf g hg _ r0
  have hall : ∀ f ∈ [exFile 11 3, exFile 13 3, exFile 12 3], (f.mtime = 12 ↔ f = exFile 12 3) := by decide
  by_cases h : f.mtime = 12 ∨ g.mtime = 12
  · refine ⟨false, r0, by simp [natWorld, failCmp, h], ?_⟩
    simp only [Bool.false_eq_true, false_and, false_iff, without_iff]
    rintro ⟨h1, h2, _⟩
    rcases h with h | h
    · exact h1 ((hall f hf).1 h)
    · exact h2 ((hall g hg).1 h)
  · refine ⟨true, if exContent f = exContent g then 0 else 1, by simp [natWorld, failCmp, h, contentCmp], ?_⟩
    rw [without_iff]
    have h1 : f ≠ exFile 12 3 := fun e => h (.inl ((hall f hf).2 e))
    have h2 : g ≠ exFile 12 3 := fun e => h (.inr ((hall g hg).2 e))
    by_cases he : exContent f = exContent g <;> simp [he, h1, h2]

end Verif.Report
