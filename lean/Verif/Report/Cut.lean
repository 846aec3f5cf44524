import Verif.Report.Crash

/-!
# The loop over a class, whatever the comparisons answer: lemmas for `Report/CutProps.lean`
-/

namespace Verif.Report

variable {η : Type} [DecidableEq η]

/-- The comparison of `f` with `g` returns, and its answer is `same f g`; a comparison that fails counts as "different". -/
def Answers (w : World η) (same : FileEnt → FileEnt → Bool) (f g : FileEnt) : Prop :=
  ∀ r0, ∃ o v, w.fc f g r0 = .ok (o, v) ∧ ((o = true ∧ v = 0) ↔ same f g = true)

/-- The files, in the order of the report, are cut into blocks: the first of a block was found equal to the others of the block, which have its digest, and to no later file with its digest. -/
inductive Cut (same : FileEnt → FileEnt → Bool) (dig : FileEnt → η) : List FileEnt → List (List FileEnt) → Prop
  | nil : Cut same dig [] []
  | block (f : FileEnt) (ds rest : List FileEnt) (bs : List (List FileEnt)) :
      (∀ d ∈ ds, dig f = dig d ∧ same f d = true) → (∀ y ∈ rest, dig f = dig y → same f y = false) → Cut same dig rest bs →
      Cut same dig (f :: (ds ++ rest)) ((f :: ds) :: bs)

/-- The entry of a file that has not been marked. -/
def entry (dig : FileEnt → η) (f : FileEnt) : Entry η := ⟨dig f, some f⟩

/-- The entries after the inner loop for `f`. -/
def struck (same : FileEnt → FileEnt → Bool) (f : FileEnt) (h : η) (e : Entry η) : Entry η :=
  match e.file with
  | some g => if e.hash = h ∧ same f g = true then { e with file := none } else e
  | none => e

theorem struck_hash (same : FileEnt → FileEnt → Bool) (f : FileEnt) (h : η) (e : Entry η) : (struck same f h e).hash = e.hash := by
  unfold struck; split
  · split <;> rfl
  · rfl

theorem struck_cases (same : FileEnt → FileEnt → Bool) (f : FileEnt) (h : η) (e : Entry η) :
    struck same f h e = e ∨ ((struck same f h e).file = none ∧ e.hash = h) := by
  unfold struck
  cases hf : e.file with
  | none => left; rfl
  | some g =>
    by_cases hc : e.hash = h ∧ same f g = true
    · right; simp only [if_pos hc]; exact ⟨trivial, hc.1⟩
    · left; simp only [if_neg hc]

/-- The inner loop over the entries with the digest `h`, of which some may be marked. -/
theorem inner_any (w : World η) (json : Bool) (same : FileEnt → FileEnt → Bool) (f : FileEnt) (h : η) (tail : List (Entry η)) (ht : ∀ e ∈ tail, e.hash ≠ h) :
    ∀ (run : List (Entry η)) (r : Int), (∀ e ∈ run, e.hash = h) → (∀ e ∈ run, ∀ g, e.file = some g → Answers w same f g) →
      ((∃ e ∈ run, e.file = none) → inner w json f h (run ++ tail) r = .ub) ∧
      ((∀ e ∈ run, e.file.isSome) → ∃ x, inner w json f h (run ++ tail) r = .ok x ∧ x.rest = (run ++ tail).map (struck same f h) ∧
        x.dups = (filesOf run).filter (fun g => same f g)) := by
  have htail : tail.map (struck same f h) = tail := by
    conv => rhs; rw [← List.map_id tail]
    apply List.map_congr_left
    intro e he
    rcases struck_cases same f h e with hh | hh
    · exact hh
    · exact absurd hh.2 (ht e he)
  intro run
  induction run with
  | nil =>
    intro r _ _
    refine ⟨fun ⟨e, he, _⟩ => (List.not_mem_nil he).elim, fun _ => ?_⟩
    cases tail with
    | nil => exact ⟨_, rfl, rfl, rfl⟩
    | cons e es =>
      have : ¬ h = e.hash := fun hh => ht e List.mem_cons_self hh.symm
      simp only [List.nil_append, inner, this, if_false, htail]
      exact ⟨_, rfl, rfl, rfl⟩
  | cons e run ih =>
    intro r hr hd
    have he := hr e List.mem_cons_self
    cases hf : e.file with
    | none =>
      refine ⟨fun _ => ?_, fun hs => ?_⟩
      · simp [inner, he, hf]
      · have := hs e List.mem_cons_self; rw [hf] at this; cases this
    | some g =>
      obtain ⟨o, v, e1, e2⟩ := hd e List.mem_cons_self g hf (if json then r else 0)
      have hih := fun r' => ih r' (fun e' he' => hr e' (List.mem_cons_of_mem _ he')) (fun e' he' => hd e' (List.mem_cons_of_mem _ he'))
      have hv0 : (if o = true then v else (1 : Int)) = 0 ↔ same f g = true := by
        rw [← e2]; cases o <;> simp
      generalize hvv : (if o = true then v else (1 : Int)) = v' at hv0
      obtain ⟨u1, u2⟩ := hih v'
      simp only [List.cons_append, inner, he, if_true, hf, e1, Res.ok_bind, hvv]
      constructor
      · rintro ⟨e', he', hn⟩
        rcases List.mem_cons.1 he' with rfl | he'
        · rw [hf] at hn; cases hn
        · rw [u1 ⟨e', he', hn⟩]; split <;> simp
      · intro hs
        obtain ⟨x, x1, x2, x3⟩ := u2 (fun e' he' => hs e' (List.mem_cons_of_mem _ he'))
        rw [x1, filesOf_cons_some hf]
        by_cases hk : same f g = true
        · rw [if_pos (hv0.2 hk)]
          refine ⟨_, rfl, ?_, ?_⟩
          · simp only [List.map_cons, x2, struck, hf, he, hk, and_self, if_true]
          · simp only [x3, List.filter_cons, hk, if_true]
        · rw [if_neg (fun hh => hk (hv0.1 hh))]
          refine ⟨_, rfl, ?_, ?_⟩
          · simp only [List.map_cons, x2, struck, hf, he, hk, and_false, if_false]; rfl
          · simp only [x3, List.filter_cons, hk]; rfl

/-- Once an unmarked entry stands before a marked one of its digest, the loop will break off. -/
theorem stale_ub (w : World η) (json : Bool) (size : Nat) (same : FileEnt → FileEnt → Bool) :
    ∀ (n : Nat) (es : List (Entry η)) (r : Int), es.length = n → Contig es →
      (∀ a ∈ es, ∀ b ∈ es, ∀ f g, a.file = some f → b.file = some g → Answers w same f g) → Stale es → outer w json size n es r = .ub := by
  intro n
  induction n with
  | zero =>
    intro es r hn _ _
    obtain rfl := List.length_eq_zero_iff.1 hn
    rintro ⟨a, c, hs, _⟩
    exact absurd hs.length_le (by simp)
  | succ n ih =>
    intro es r hn hc hd hst
    match es, hn, hc, hd, hst with
    | e :: es, hn, hc, hd, hst =>
      have hn' : es.length = n := by simpa using hn
      cases hf : e.file with
      | none =>
        rw [stale_cons] at hst
        simp only [outer, hf]
        refine ih es r hn' hc.2 (fun a ha b hb => hd a (List.mem_cons_of_mem _ ha) b (List.mem_cons_of_mem _ hb)) (hst.resolve_right ?_)
        rw [hf]; rintro ⟨h, _⟩; cases h
      | some f =>
        obtain ⟨run, tail, hrt, hrun, htail⟩ := hc.1
        have hin := inner_any w json same f e.hash tail htail run r hrun (fun e' he' g hg =>
          hd e List.mem_cons_self e' (List.mem_cons_of_mem _ (by rw [hrt]; exact List.mem_append_left _ he')) f g hf hg)
        rw [← hrt] at hin
        simp only [outer, hf]
        by_cases hx : ∃ e' ∈ run, e'.file = none
        · rw [hin.1 hx]; rfl
        · have hx' : ∀ e' ∈ run, e'.file.isSome := by
            intro e' he'
            cases hf' : e'.file with
            | some _ => rfl
            | none => exact absurd ⟨e', he', hf'⟩ hx
          obtain ⟨x, x1, x2, x3⟩ := hin.2 hx'
          have hfile : ∀ {y : Entry η} {g : FileEnt}, (struck same f e.hash y).file = some g → y.file = some g := by
            intro y g hy
            rcases struck_cases same f e.hash y with ey | ⟨ey, _⟩
            · rw [← ey]; exact hy
            · rw [ey] at hy; cases hy
          have hnone : ∀ c ∈ es, c.file = none → c.hash ≠ e.hash := by
            intro c hc1 hc2 hc3
            rw [hrt] at hc1
            rcases List.mem_append.1 hc1 with hc1 | hc1
            · exact hx ⟨c, hc1, hc2⟩
            · exact htail c hc1 hc3
          have hst' : Stale (es.map (struck same f e.hash)) := by
            rcases stale_cons.1 hst with ⟨a, c, hs, h1, h2, h3⟩ | ⟨_, c, hc1, hc2, hc3⟩
            · have hch := hnone c (hs.subset (by simp)) h3
              have key : ∀ y : Entry η, y.hash ≠ e.hash → struck same f e.hash y = y := by
                intro y hy
                exact (struck_cases same f e.hash y).resolve_right (fun hh => hy hh.2)
              have hm := hs.map (struck same f e.hash)
              simp only [List.map_cons, List.map_nil, key a (by rw [h1]; exact hch), key c hch] at hm
              exact ⟨a, c, hm, h1, h2, h3⟩
            · exact absurd hc2.symm (hnone c hc1 hc3)
          rw [x1, Res.ok_bind, ih x.rest x.res (by rw [x2, List.length_map, hn'])
            (by
              refine contig_congr es _ ?_ hc.2
              rw [x2, List.map_map]
              exact List.map_congr_left (fun y _ => (struck_hash same f e.hash y).symm))
            (by
              intro a ha b hb f' g' hf' hg'
              rw [x2] at ha hb
              obtain ⟨a0, ha0, rfl⟩ := List.mem_map.1 ha
              obtain ⟨b0, hb0, rfl⟩ := List.mem_map.1 hb
              exact hd a0 (List.mem_cons_of_mem _ ha0) b0 (List.mem_cons_of_mem _ hb0) f' g' (hfile hf') (hfile hg'))
            (by rw [x2]; exact hst')]
          rfl

/-- A list is its longest beginning with `p`, and then either nothing with `p` or something without `p` before something with `p`. -/
theorem prefix_or {α : Type} (p : α → Bool) (l : List α) :
    ∃ ds rest, l = ds ++ rest ∧ (∀ d ∈ ds, p d = true) ∧ ((∀ y ∈ rest, p y = false) ∨ ∃ a c, [a, c].Sublist rest ∧ p a = false ∧ p c = true) := by
  induction l with
  | nil => exact ⟨[], [], rfl, by simp, .inl (by simp)⟩
  | cons x l ih =>
    cases hp : p x with
    | true =>
      obtain ⟨ds, rest, rfl, h1, h2⟩ := ih
      refine ⟨x :: ds, rest, rfl, ?_, h2⟩
      intro d hd
      rcases List.mem_cons.1 hd with rfl | hd
      · exact hp
      · exact h1 d hd
    | false =>
      refine ⟨[], x :: l, rfl, by simp, ?_⟩
      by_cases h : ∃ c ∈ l, p c = true
      · obtain ⟨c, hc, hpc⟩ := h
        exact .inr ⟨x, c, (List.singleton_sublist.2 hc).cons_cons _, hp, hpc⟩
      · left
        intro y hy
        rcases List.mem_cons.1 hy with rfl | hy
        · exact hp
        · cases hpy : p y with
          | false => rfl
          | true => exact absurd ⟨y, hy, hpy⟩ h

omit [DecidableEq η] in
theorem cut_nil_inv {same : FileEnt → FileEnt → Bool} {dig : FileEnt → η} {bs : List (List FileEnt)} (h : Cut same dig [] bs) : bs = [] := by
  cases h; rfl

/-- How the files behind the first one lie if the list can be cut. -/
theorem cut_cons_inv {same : FileEnt → FileEnt → Bool} {dig : FileEnt → η} {f : FileEnt} {fs : List FileEnt} {bs : List (List FileEnt)} (h : Cut same dig (f :: fs) bs) :
    ∃ ds rest bs', fs = ds ++ rest ∧ bs = (f :: ds) :: bs' ∧ (∀ d ∈ ds, dig f = dig d ∧ same f d = true) ∧ (∀ y ∈ rest, dig f = dig y → same f y = false) ∧ Cut same dig rest bs' := by
  generalize hl : f :: fs = l at h
  cases h with
  | nil => cases hl
  | block f' ds rest bs' h1 h2 h3 =>
    obtain ⟨rfl, rfl⟩ := List.cons.inj hl
    exact ⟨ds, rest, bs', rfl, rfl, h1, h2, h3⟩

/-- The groups of a class that is cut into `bs`. -/
def groupsOf (size : Nat) (dig : FileEnt → η) (bs : List (List FileEnt)) : List (Group η) :=
  bs.filterMap (fun b => match b with | f :: d :: ds => some ⟨size, dig f, f :: d :: ds⟩ | _ => none)

theorem groupsOf_files (size : Nat) (dig : FileEnt → η) (bs : List (List FileEnt)) : (groupsOf size dig bs).map (·.files) = bs.filter (fun b => 2 ≤ b.length) := by
  induction bs with
  | nil => rfl
  | cons b bs ih =>
    unfold groupsOf at ih ⊢
    match b with
    | [] => simpa using ih
    | [_] => simpa using ih
    | f :: d :: ds => simpa using ih

theorem filesOf_entries (dig : FileEnt → η) (fs : List FileEnt) : filesOf (fs.map (entry dig)) = fs := by
  induction fs with
  | nil => rfl
  | cons f fs ih => rw [List.map_cons, filesOf_cons_some (f := f) rfl, ih]

/-- The loop over a class of which nothing is marked. -/
theorem outer_cut (w : World η) (json : Bool) (size : Nat) (same : FileEnt → FileEnt → Bool) (dig : FileEnt → η) :
    ∀ (n : Nat) (fs : List FileEnt) (r : Int), fs.length ≤ n → Contig (fs.map (entry dig)) → (∀ f ∈ fs, ∀ g ∈ fs, Answers w same f g) →
      (∀ bs, Cut same dig fs bs → ∃ lg, outer w json size fs.length (fs.map (entry dig)) r = .ok (groupsOf size dig bs, lg)) ∧
      ((¬ ∃ bs, Cut same dig fs bs) → outer w json size fs.length (fs.map (entry dig)) r = .ub) := by
  intro n
  induction n with
  | zero =>
    intro fs r hn _ _
    obtain rfl := List.length_eq_zero_iff.1 (Nat.le_zero.1 hn)
    refine ⟨fun bs h => ?_, fun h => absurd ⟨[], Cut.nil⟩ h⟩
    rw [cut_nil_inv h]
    exact ⟨[], rfl⟩
  | succ n ih =>
    intro fs r hn hc hd
    match fs, hn, hc, hd with
    | [], _, _, _ =>
      refine ⟨fun bs h => ?_, fun h => absurd ⟨[], Cut.nil⟩ h⟩
      rw [cut_nil_inv h]
      exact ⟨[], rfl⟩
    | f :: fs, hn, hc, hd =>
      have hn' : fs.length ≤ n := by simpa using hn
      obtain ⟨run, tail, hrt, hrun, htail⟩ := hc.1
      -- the files of the run and of the tail
      obtain ⟨fr, ft, hfs, rfl, rfl⟩ := List.map_eq_append_iff.1 hrt
      have hrun' : ∀ g ∈ fr, dig f = dig g := fun g hg => (hrun _ (List.mem_map_of_mem hg)).symm
      have htail' : ∀ g ∈ ft, dig f ≠ dig g := fun g hg hh => htail _ (List.mem_map_of_mem hg) hh.symm
      have hin := (inner_any w json same f (dig f) _ htail (fr.map (entry dig)) r hrun (by
        intro e' he' g hg
        obtain ⟨y, hy, rfl⟩ := List.mem_map.1 he'
        obtain rfl := Option.some.inj hg
        exact hd f List.mem_cons_self _ (List.mem_cons_of_mem _ (by rw [hfs]; exact List.mem_append_left _ hy)))).2 (by
        intro e' he'
        obtain ⟨y, hy, rfl⟩ := List.mem_map.1 he'
        rfl)
      obtain ⟨x, x1, x2, x3⟩ := hin
      rw [← hrt] at x1 x2
      rw [filesOf_entries] at x3
      have hout : outer w json size (f :: fs).length ((f :: fs).map (entry dig)) r =
          (do
            let (gs, log) ← outer w json size fs.length x.rest x.res
            .ok (if x.dups = [] then gs else ⟨size, dig f, f :: x.dups⟩ :: gs, x.log ++ log)) := by
        show (do
          let x ← inner w json f (dig f) (fs.map (entry dig)) r
          let (gs, log) ← outer w json size fs.length x.rest x.res
          .ok (if x.dups = [] then gs else (⟨size, dig f, f :: x.dups⟩ : Group η) :: gs, x.log ++ log)) = _
        rw [x1, Res.ok_bind]
      rw [hout]
      obtain ⟨ds, rest, hdr, hds, hrest⟩ := prefix_or (fun g => same f g) fr
      have hsub : ∀ y ∈ fr, y ∈ f :: fs := fun y hy => List.mem_cons_of_mem _ (by rw [hfs]; exact List.mem_append_left _ hy)
      have hsubt : ∀ y ∈ ft, y ∈ f :: fs := fun y hy => List.mem_cons_of_mem _ (by rw [hfs]; exact List.mem_append_right _ hy)
      rcases hrest with hrest | ⟨a, c, hac, ha, hcc⟩
      · -- the equal ones are a beginning of the run
        have hrestEq : x.rest = ds.map (fun d => (⟨dig d, none⟩ : Entry η)) ++ (rest ++ ft).map (entry dig) := by
          rw [x2, hfs, hdr]
          simp only [List.map_append, List.append_assoc, List.map_map]
          congr 1
          · apply List.map_congr_left
            intro d hdm
            have hs : same f d = true := hds d hdm
            have hh : dig d = dig f := (hrun' d (by rw [hdr]; exact List.mem_append_left _ hdm)).symm
            simp only [Function.comp, struck, entry, hs, hh, and_self, if_true]
          · congr 1
            · apply List.map_congr_left
              intro d hdm
              have hs : same f d = false := hrest d hdm
              simp [struck, entry, hs]
            · apply List.map_congr_left
              intro d hdm
              have hh : ¬ dig d = dig f := fun hh => htail' d hdm hh.symm
              simp [struck, entry, hh]
        have hdups : x.dups = ds := by
          rw [x3, hdr, List.filter_append, List.filter_eq_self.2 hds, List.filter_eq_nil_iff.2 (by intro y hy; simp [hrest y hy]), List.append_nil]
        have hlen : fs.length = (ds.map (fun d => (⟨dig d, none⟩ : Entry η))).length + (rest ++ ft).length := by
          rw [hfs, hdr]; simp
        have hcr : Contig ((rest ++ ft).map (entry dig)) := by
          have h1 : Contig x.rest := by
            refine contig_congr _ _ ?_ hc.2
            rw [x2, List.map_map, List.map_map, List.map_map]
            exact List.map_congr_left (fun y _ => (struck_hash same f (dig f) (entry dig y)).symm)
          rw [hrestEq] at h1
          generalize hm : ds.map (fun d => (⟨dig d, none⟩ : Entry η)) = ns at h1
          clear hm hrestEq hlen
          induction ns with
          | nil => exact h1
          | cons _ ns ih2 => exact ih2 h1.2
        obtain ⟨i1, i2⟩ := ih (rest ++ ft) x.res (by rw [hfs, hdr] at hn'; simp only [List.length_append] at hn' ⊢; omega) hcr (by
          intro a ha b hb
          have hm : ∀ y ∈ rest ++ ft, y ∈ f :: fs := by
            intro y hy
            rcases List.mem_append.1 hy with hy | hy
            · exact hsub y (by rw [hdr]; exact List.mem_append_right _ hy)
            · exact hsubt y hy
          exact hd a (hm a ha) b (hm b hb))
        have hstep : outer w json size fs.length x.rest x.res = outer w json size (rest ++ ft).length ((rest ++ ft).map (entry dig)) x.res := by
          rw [hrestEq, hlen]
          exact outer_skip w json size _ _ _ _ (by intro e he; obtain ⟨d, _, rfl⟩ := List.mem_map.1 he; rfl)
        rw [hstep, hdups]
        have hall : ∀ d ∈ ds, dig f = dig d ∧ same f d = true := fun d hdm => ⟨hrun' d (by rw [hdr]; exact List.mem_append_left _ hdm), hds d hdm⟩
        have hnot : ∀ y ∈ rest ++ ft, dig f = dig y → same f y = false := by
          intro y hy hh
          rcases List.mem_append.1 hy with hy | hy
          · exact hrest y hy
          · exact absurd hh (htail' y hy)
        constructor
        · intro bs hb
          obtain ⟨ds', rest', bs', e1, rfl, h1, h2, h3⟩ := cut_cons_inv hb
          -- the block is the same
          have hds' : ds' = ds ∧ rest' = rest ++ ft := by
            have e2 : ds' ++ rest' = ds ++ (rest ++ ft) := by rw [← e1, hfs, hdr, List.append_assoc]
            have fil : ∀ (u v : List FileEnt), (∀ d ∈ u, dig f = dig d ∧ same f d = true) → (∀ y ∈ v, dig f = dig y → same f y = false) →
                (u ++ v).filter (fun y => decide (dig f = dig y) && same f y) = u := by
              intro u v hu hv
              rw [List.filter_append, List.filter_eq_self.2 (by intro d hdm; simp [hu d hdm]), List.filter_eq_nil_iff.2 (by
                intro y hy
                by_cases hh : dig f = dig y
                · simp [hv y hy hh]
                · simp [hh]), List.append_nil]
            have e3 := fil ds' rest' h1 h2
            have e4 := fil ds (rest ++ ft) hall hnot
            rw [e2, e4] at e3
            subst e3
            exact ⟨rfl, List.append_cancel_left e2⟩
          obtain ⟨rfl, rfl⟩ := hds'
          obtain ⟨lg, e2⟩ := i1 bs' h3
          rw [e2, Res.ok_bind]
          refine ⟨x.log ++ lg, ?_⟩
          cases ds' with
          | nil => rfl
          | cons d ds => rfl
        · intro hno
          rw [i2 (fun ⟨bs', hb'⟩ => hno ⟨_, by
            have := Cut.block f ds (rest ++ ft) bs' hall hnot hb'
            rw [hfs, hdr, List.append_assoc]; exact this⟩)]
          rfl
      · -- an unmarked one stays before a marked one
        have hstale : Stale x.rest := by
          have hs2 : [a, c].Sublist fs := by
            rw [hfs, hdr, List.append_assoc]
            exact (hac.trans (List.sublist_append_left _ _)).trans (List.sublist_append_right _ _)
          have hm := (hs2.map (entry dig)).map (struck same f (dig f))
          rw [← x2] at hm
          have ham : a ∈ fr := by rw [hdr]; exact List.mem_append_right _ (hac.subset (by simp))
          have hcm : c ∈ fr := by rw [hdr]; exact List.mem_append_right _ (hac.subset (by simp))
          have ha' : same f a = false := ha
          have hc' : same f c = true := hcc
          have hh : dig c = dig f := (hrun' c hcm).symm
          have hh2 : dig a = dig f := (hrun' a ham).symm
          refine ⟨_, _, hm, ?_, ?_, ?_⟩
          · simp only [struck_hash, entry, hh, hh2]
          · simp [struck, entry, ha']
          · simp [struck, entry, hc', hh]
        have hub := stale_ub w json size same fs.length x.rest x.res (by rw [x2, List.length_map, List.length_map])
          (by
            refine contig_congr _ _ ?_ hc.2
            rw [x2, List.map_map, List.map_map, List.map_map]
            exact List.map_congr_left (fun y _ => (struck_hash same f (dig f) (entry dig y)).symm))
          (by
            have hfile : ∀ y ∈ x.rest, ∀ g, y.file = some g → g ∈ f :: fs := by
              intro y hy g hg
              rw [x2] at hy
              obtain ⟨y0, hy0, rfl⟩ := List.mem_map.1 hy
              obtain ⟨y1, hy1, rfl⟩ := List.mem_map.1 hy0
              rcases struck_cases same f (dig f) (entry dig y1) with ey | ⟨ey, _⟩
              · rw [ey] at hg
                obtain rfl := Option.some.inj hg
                exact List.mem_cons_of_mem _ hy1
              · rw [ey] at hg; cases hg
            intro a' ha b' hb f' g' hf' hg'
            exact hd f' (hfile a' ha f' hf') g' (hfile b' hb g' hg'))
          hstale
        rw [hub]
        refine ⟨fun bs hb => ?_, fun _ => rfl⟩
        exfalso
        obtain ⟨ds', rest', bs', e1, rfl, h1, h2, h3⟩ := cut_cons_inv hb
        have hs2 : [a, c].Sublist (ds' ++ rest') := by
          rw [← e1, hfs, hdr, List.append_assoc]
          exact (hac.trans (List.sublist_append_left _ _)).trans (List.sublist_append_right _ _)
        have ham : a ∈ fr := by rw [hdr]; exact List.mem_append_right _ (hac.subset (by simp))
        have hcm : c ∈ fr := by rw [hdr]; exact List.mem_append_right _ (hac.subset (by simp))
        have ha' : same f a = false := ha
        have hc' : same f c = true := hcc
        obtain ⟨l1, l2, e2, s1, s2⟩ := List.sublist_append_iff.1 hs2
        match l1, e2 with
        | [], e2 =>
          rw [List.nil_append] at e2
          subst e2
          have := h2 c (s2.subset (by simp)) (hrun' c hcm)
          rw [hc'] at this; cases this
        | z :: l1, e2 =>
          obtain ⟨rfl, _⟩ := List.cons.inj e2
          have := (h1 a (s1.subset (by simp))).2
          rw [ha'] at this; cases this

end Verif.Report
