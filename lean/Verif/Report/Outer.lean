import Verif.Report.Lemmas

/-! # Lemmas: the report of one size class -/

namespace Verif.Report

variable {η : Type} [DecidableEq η]

/-- The files of a list of entries. -/
def filesOf (es : List (Entry η)) : List FileEnt := es.filterMap (·.file)

omit [DecidableEq η] in
@[simp] theorem filesOf_nil : filesOf ([] : List (Entry η)) = [] := rfl

omit [DecidableEq η] in
theorem filesOf_cons_some {e : Entry η} {f : FileEnt} (h : e.file = some f) (es : List (Entry η)) :
    filesOf (e :: es) = f :: filesOf es := by simp [filesOf, h]

omit [DecidableEq η] in
theorem filesOf_cons_none {e : Entry η} (h : e.file = none) (es : List (Entry η)) :
    filesOf (e :: es) = filesOf es := by simp [filesOf, h]

omit [DecidableEq η] in
theorem mem_filesOf {es : List (Entry η)} {f : FileEnt} : f ∈ filesOf es ↔ ∃ e ∈ es, e.file = some f := by
  simp [filesOf]

omit [DecidableEq η] in
theorem filesOf_length (run : List (Entry η)) (h : ∀ y ∈ run, y.file.isSome) : (filesOf run).length = run.length := by
  induction run with
  | nil => rfl
  | cons y run ihr =>
    obtain ⟨g, hg⟩ := Option.isSome_iff_exists.mp (h y List.mem_cons_self)
    rw [filesOf_cons_some hg, List.length_cons, List.length_cons, ihr (fun z hz => h z (List.mem_cons_of_mem _ hz))]

/-- What one pass of the inner loop guarantees whatever the comparisons answer. -/
theorem inner_sound (w : World η) (json : Bool) (f : FileEnt) (h : η) :
    ∀ (es : List (Entry η)) (r : Int) (x : Inner η), inner w json f h es r = .ok x →
      x.rest.length = es.length ∧ (x.dups ++ filesOf x.rest).Perm (filesOf es) ∧ x.dups.Sublist (filesOf es) ∧
      (filesOf x.rest).Sublist (filesOf es) ∧
      (∀ e ∈ x.rest, ∀ g, e.file = some g → e ∈ es) ∧
      (∀ d ∈ x.dups, (∃ r0, w.fc f d r0 = .ok (true, 0)) ∧ ∃ e ∈ es, e.file = some d ∧ e.hash = h) ∧
      (∀ p ∈ x.log, p.1 = f ∧ p.2 ∈ filesOf es) := by
  intro es
  induction es with
  | nil =>
    intro r x hx
    simp only [inner, Res.ok.injEq] at hx
    subst hx
    simp
  | cons e es ih =>
    intro r x hx
    unfold inner at hx
    split at hx
    · rename_i hh
      cases hf : e.file with
      | none => simp [hf] at hx
      | some g =>
        simp only [hf] at hx
        rw [Res.bind_eq_ok] at hx
        obtain ⟨⟨ok, v0⟩, h1, h2⟩ := hx
        simp only at h2
        generalize hvv : (if ok = true then v0 else (1 : Int)) = v at h2
        rw [filesOf_cons_some hf]
        split at h2
        · rename_i hv
          rw [Res.bind_eq_ok] at h2
          obtain ⟨y, h3, h4⟩ := h2
          simp only [Res.ok.injEq] at h4
          obtain ⟨i1, i2, i3, i4, i5, i6, i7⟩ := ih _ y h3
          subst h4
          refine ⟨by simp [i1], ?_, ?_, ?_, ?_, ?_, ?_⟩
          · rw [filesOf_cons_none rfl]; exact i2.cons g
          · exact i3.cons_cons g
          · rw [filesOf_cons_none rfl]; exact i4.cons g
          · intro e' he' g' hg'
            simp only [List.mem_cons] at he'
            rcases he' with rfl | he'
            · cases hg'
            · exact List.mem_cons_of_mem _ (i5 e' he' g' hg')
          · intro d hd
            simp only [List.mem_cons] at hd
            rcases hd with rfl | hd
            · refine ⟨⟨if json then r else 0, ?_⟩, e, List.mem_cons_self, hf, hh.symm⟩
              rw [h1]
              cases ok with
              | true => rw [if_pos rfl] at hvv; rw [hvv, hv]
              | false => rw [if_neg (by decide)] at hvv; omega
            · obtain ⟨j1, e', j2, j3⟩ := i6 d hd
              exact ⟨j1, e', List.mem_cons_of_mem _ j2, j3⟩
          · intro p hp
            simp only [List.mem_cons] at hp
            rcases hp with rfl | hp
            · exact ⟨rfl, List.mem_cons_self⟩
            · exact ⟨(i7 p hp).1, List.mem_cons_of_mem _ (i7 p hp).2⟩
        · rename_i hv
          rw [Res.bind_eq_ok] at h2
          obtain ⟨y, h3, h4⟩ := h2
          simp only [Res.ok.injEq] at h4
          obtain ⟨i1, i2, i3, i4, i5, i6, i7⟩ := ih _ y h3
          subst h4
          refine ⟨by simp [i1], ?_, ?_, ?_, ?_, ?_, ?_⟩
          · rw [filesOf_cons_some hf]
            exact List.perm_middle.trans (i2.cons g)
          · exact i3.cons g
          · rw [filesOf_cons_some hf]; exact i4.cons_cons g
          · intro e' he' g' hg'
            simp only [List.mem_cons] at he' ⊢
            rcases he' with rfl | he'
            · exact Or.inl rfl
            · exact Or.inr (i5 e' he' g' hg')
          · intro d hd
            obtain ⟨j1, e', j2, j3⟩ := i6 d hd
            exact ⟨j1, e', List.mem_cons_of_mem _ j2, j3⟩
          · intro p hp
            simp only [List.mem_cons] at hp
            rcases hp with rfl | hp
            · exact ⟨rfl, List.mem_cons_self⟩
            · exact ⟨(i7 p hp).1, List.mem_cons_of_mem _ (i7 p hp).2⟩
    · simp only [Res.ok.injEq] at hx
      subst hx
      refine ⟨rfl, by simp, by simp, .refl _, fun e he _ _ => he, by simp, by simp⟩

/-- What the report of one class guarantees whatever the digests and comparisons are. -/
theorem outer_sound (w : World η) (json : Bool) (size : Nat) :
    ∀ (n : Nat) (es : List (Entry η)) (r : Int) (gs : List (Group η)) (lg : List (FileEnt × FileEnt)),
      outer w json size n es r = .ok (gs, lg) →
      (∀ g ∈ gs, g.size = size ∧ (∃ f ds, g.files = f :: ds ∧ ds ≠ [] ∧ ∀ d ∈ ds, ∃ r0, w.fc f d r0 = .ok (true, 0)) ∧
        g.files.Sublist (filesOf es) ∧ ∀ a ∈ g.files, ∃ e ∈ es, e.file = some a ∧ e.hash = g.hash) ∧
      (∃ rest, (gs.flatMap (·.files) ++ rest).Perm (filesOf es)) ∧
      (∀ p ∈ lg, p.1 ∈ filesOf es ∧ p.2 ∈ filesOf es) := by
  intro n
  induction n with
  | zero =>
    intro es r gs lg h
    simp only [outer, Res.ok.injEq, Prod.mk.injEq] at h
    obtain ⟨rfl, rfl⟩ := h
    exact ⟨by simp, ⟨filesOf es, by simp⟩, by simp⟩
  | succ n ih =>
    intro es r gs lg h
    cases es with
    | nil => simp [outer] at h
    | cons e es =>
      unfold outer at h
      cases hf : e.file with
      | none =>
        simp only [hf] at h
        obtain ⟨h1, h2, h3⟩ := ih es r gs lg h
        rw [filesOf_cons_none hf]
        refine ⟨?_, h2, h3⟩
        intro g hg
        obtain ⟨a, b, c, d⟩ := h1 g hg
        refine ⟨a, b, c, ?_⟩
        intro x hx
        obtain ⟨e', he', q⟩ := d x hx
        exact ⟨e', List.mem_cons_of_mem _ he', q⟩
      | some f =>
        simp only [hf] at h
        rw [Res.bind_eq_ok] at h
        obtain ⟨x, hx, h⟩ := h
        rw [Res.bind_eq_ok] at h
        obtain ⟨⟨gs', lg'⟩, h1, h⟩ := h
        simp only [Res.ok.injEq, Prod.mk.injEq] at h
        obtain ⟨hgs, hlg⟩ := h
        obtain ⟨i1, i2, i3, i4, i5, i6, i7⟩ := inner_sound w json f e.hash es r x hx
        obtain ⟨j1, ⟨rest, j2⟩, j3⟩ := ih x.rest x.res gs' lg' h1
        rw [filesOf_cons_some hf]
        have hj1 : ∀ g ∈ gs', g.size = size ∧ (∃ f ds, g.files = f :: ds ∧ ds ≠ [] ∧ ∀ d ∈ ds, ∃ r0, w.fc f d r0 = .ok (true, 0)) ∧
            g.files.Sublist (f :: filesOf es) ∧ ∀ a ∈ g.files, ∃ e' ∈ e :: es, e'.file = some a ∧ e'.hash = g.hash := by
          intro g hg
          obtain ⟨a, b, c, d⟩ := j1 g hg
          refine ⟨a, b, (c.trans i4).cons f, ?_⟩
          intro y hy
          obtain ⟨e', he', q⟩ := d y hy
          exact ⟨e', List.mem_cons_of_mem _ (i5 e' he' y q.1), q⟩
        have hlog : ∀ p ∈ lg, p.1 ∈ f :: filesOf es ∧ p.2 ∈ f :: filesOf es := by
          intro p hp
          rw [← hlg, List.mem_append] at hp
          rcases hp with hp | hp
          · exact ⟨by rw [(i7 p hp).1]; exact List.mem_cons_self, List.mem_cons_of_mem _ (i7 p hp).2⟩
          · exact ⟨List.mem_cons_of_mem _ (i4.mem (j3 p hp).1), List.mem_cons_of_mem _ (i4.mem (j3 p hp).2)⟩
        by_cases hd : x.dups = []
        · rw [if_pos hd] at hgs
          subst hgs
          rw [hd, List.nil_append] at i2
          refine ⟨hj1, ⟨f :: rest, ?_⟩, hlog⟩
          exact List.perm_middle.trans ((j2.trans i2).cons f)
        · rw [if_neg hd] at hgs
          subst hgs
          refine ⟨?_, ⟨rest, ?_⟩, hlog⟩
          · intro g hg
            rw [List.mem_cons] at hg
            rcases hg with rfl | hg
            · refine ⟨rfl, ⟨f, x.dups, rfl, hd, fun d hd => (i6 d hd).1⟩, i3.cons_cons f, ?_⟩
              intro a ha
              simp only [List.mem_cons] at ha
              rcases ha with rfl | ha
              · exact ⟨e, List.mem_cons_self, hf, rfl⟩
              · obtain ⟨e', he', q⟩ := (i6 a ha).2
                exact ⟨e', List.mem_cons_of_mem _ he', q⟩
            · exact hj1 g hg
          · simp only [List.flatMap_cons, List.cons_append, List.append_assoc]
            exact ((j2.append_left x.dups).trans i2).cons f

/-! ## When digests and comparisons agree -/

/-- The comparison of `f` with `g` completes and reports equality, whatever the result variable
held. -/
def ReportsEqual (w : World η) (f g : FileEnt) : Prop := ∀ r0, w.fc f g r0 = .ok (true, 0)

/-- Inner loop over a run of equal digests, all reported equal, followed by another digest. -/
theorem inner_run (w : World η) (json : Bool) (f : FileEnt) (h : η) (tail : List (Entry η)) :
    ∀ (run : List (Entry η)) (r : Int), (∀ e ∈ run, e.hash = h ∧ ∃ g, e.file = some g ∧ ReportsEqual w f g) →
      (∀ e es, tail = e :: es → e.hash ≠ h) →
      ∃ x, inner w json f h (run ++ tail) r = .ok x ∧ x.rest = run.map (fun e => { e with file := none }) ++ tail ∧ x.dups = filesOf run := by
  intro run
  induction run with
  | nil =>
    intro r _ ht
    cases tail with
    | nil => exact ⟨_, rfl, rfl, rfl⟩
    | cons e es =>
      have : ¬ h = e.hash := fun hh => ht e es rfl hh.symm
      simp only [List.nil_append, inner, this, if_false]
      exact ⟨_, rfl, rfl, rfl⟩
  | cons e run ih =>
    intro r hr ht
    obtain ⟨h1, g, h2, h3⟩ := hr e List.mem_cons_self
    obtain ⟨x, e1, e2, e3⟩ := ih 0 (fun e' he' => hr e' (List.mem_cons_of_mem _ he')) ht
    simp only [List.cons_append, inner, h1, if_true, h2, h3 _, Res.ok_bind, e1]
    refine ⟨_, rfl, ?_, ?_⟩
    · simp [e2, h1]
    · simp [e3, filesOf, h2]

/-- Marked entries are skipped. -/
theorem outer_skip (w : World η) (json : Bool) (size n : Nat) (tail : List (Entry η)) (r : Int) :
    ∀ (run : List (Entry η)), (∀ e ∈ run, e.file = none) →
      outer w json size (run.length + n) (run ++ tail) r = outer w json size n tail r := by
  intro run
  induction run with
  | nil => intro _; simp
  | cons e run ih =>
    intro h
    have : (e :: run).length + n = (run.length + n) + 1 := by simp; omega
    rw [this]
    simp only [List.cons_append, outer, h e List.mem_cons_self]
    exact ih (fun e' he' => h e' (List.mem_cons_of_mem _ he'))

/-- Equal digests are next to each other. -/
def Contig : List (Entry η) → Prop
  | [] => True
  | e :: es => (∃ run tail, es = run ++ tail ∧ (∀ x ∈ run, x.hash = e.hash) ∧ ∀ x ∈ tail, x.hash ≠ e.hash) ∧ Contig es

omit [DecidableEq η] in
theorem contig_congr : ∀ (es es' : List (Entry η)), es.map (·.hash) = es'.map (·.hash) → Contig es → Contig es' := by
  intro es
  induction es with
  | nil => intro es' h _; cases es' with
    | nil => trivial
    | cons => simp at h
  | cons e es ih =>
    intro es' h hc
    cases es' with
    | nil => simp at h
    | cons e' es' =>
      simp only [List.map_cons, List.cons.injEq] at h
      refine ⟨?_, ih es' h.2 hc.2⟩
      obtain ⟨run, tail, rfl, h1, h2⟩ := hc.1
      rw [List.map_append] at h
      obtain ⟨run', tail', rfl, h3, h4⟩ := List.map_eq_append_iff.mp h.2.symm
      refine ⟨run', tail', rfl, ?_, ?_⟩
      · intro x hx
        have : x.hash ∈ run'.map (·.hash) := List.mem_map_of_mem hx
        rw [h3, List.mem_map] at this
        obtain ⟨y, hy, e1⟩ := this
        rw [← e1, h1 y hy, h.1]
      · intro x hx
        have : x.hash ∈ tail'.map (·.hash) := List.mem_map_of_mem hx
        rw [h4, List.mem_map] at this
        obtain ⟨y, hy, e1⟩ := this
        rw [← e1, ← h.1]; exact h2 y hy

theorem Contig.drop {run tail : List (Entry η)} (h : Contig (run ++ tail)) : Contig tail := by
  induction run with
  | nil => exact h
  | cons e run ih => exact ih h.2

/-- A class in which equal digests mean reported equal is reported to the end. -/
theorem outer_runs (w : World η) (json : Bool) (size : Nat) :
    ∀ (n : Nat) (es : List (Entry η)) (r : Int), es.length = n → Contig es → (∀ e ∈ es, e.file.isSome) →
      es.Pairwise (fun a b => a.hash = b.hash → ∀ f g, a.file = some f → b.file = some g → ReportsEqual w f g) →
      ∃ gs lg, outer w json size n es r = .ok (gs, lg) := by
  intro n
  induction n using Nat.strongRecOn with
  | ind n ih =>
    intro es r hn hc hs hp
    cases es with
    | nil =>
      simp at hn; subst hn
      exact ⟨[], [], rfl⟩
    | cons e es =>
      obtain ⟨⟨run, tail, rfl, hrun, htail⟩, hc2⟩ := hc
      simp only [List.length_cons, List.length_append] at hn
      subst hn
      rw [List.pairwise_cons] at hp
      obtain ⟨f, hf⟩ := Option.isSome_iff_exists.mp (hs e List.mem_cons_self)
      obtain ⟨x, ex, er, ed⟩ := inner_run w json f e.hash tail run r
        (by
          intro e' he'
          obtain ⟨g, hg⟩ := Option.isSome_iff_exists.mp (hs e' (List.mem_cons_of_mem _ (List.mem_append_left _ he')))
          exact ⟨hrun e' he', g, hg, hp.1 e' (List.mem_append_left _ he') (hrun e' he').symm f g hf hg⟩)
        (by intro e' es' h; exact htail e' (by rw [h]; exact List.mem_cons_self))
      obtain ⟨gs, lg, eg⟩ := ih tail.length (by omega) tail x.res rfl hc2.drop
        (fun e' he' => hs e' (List.mem_cons_of_mem _ (List.mem_append_right _ he')))
        ((List.pairwise_append.mp hp.2).2.1)
      have hskip := outer_skip w json size tail.length tail x.res (run.map (fun e => { e with file := none }))
        (by intro e' he'; rw [List.mem_map] at he'; obtain ⟨_, _, rfl⟩ := he'; rfl)
      rw [List.length_map] at hskip
      simp only [outer, hf, ex, Res.ok_bind, er, hskip, eg, ed]
      exact ⟨_, _, rfl⟩

/-- A class of two files is reported to the end if the comparison returns at all. -/
theorem outer_two (w : World η) (json : Bool) (size : Nat) (a b : Entry η) (f g : FileEnt) (r : Int)
    (ha : a.file = some f) (hb : b.file = some g) (hfc : ∀ r0, ∃ x, w.fc f g r0 = .ok x) :
    ∃ gs lg, outer w json size 2 [a, b] r = .ok (gs, lg) := by
  obtain ⟨⟨o, v⟩, hx⟩ := hfc (if json then r else 0)
  have h1 : ∀ z, outer w json size 1 [b] z = .ok ([], []) := by
    intro z; simp [outer, hb, inner]
  simp only [outer, ha, inner, hb, hx, Res.ok_bind]
  by_cases h : a.hash = b.hash
  · simp only [if_pos h]
    generalize (if o = true then v else (1 : Int)) = z
    by_cases hz : z = 0
    · simp only [if_pos hz, Res.ok_bind]
      exact ⟨_, _, rfl⟩
    · simp only [if_neg hz, Res.ok_bind, h1]
      exact ⟨_, _, rfl⟩
  · simp only [if_neg h, Res.ok_bind, h1]
    exact ⟨_, _, rfl⟩

/-- The digest order is antisymmetric and 0 means equal (true of `memcmp` on 16 bytes). -/
structure HashOrder (hcmp : η → η → Int) : Prop where
  zero : ∀ a b, hcmp a b = 0 ↔ a = b
  anti : ∀ a b, hcmp a b ≤ 0 → hcmp b a ≤ 0 → a = b

/-- `qsort` leaves a sorted permutation of an array in which no file is NULL. -/
structure Sorts (w : World η) : Prop where
  perm : ∀ l, (w.qs l).Perm l
  sorted : ∀ l, (∀ e ∈ l, e.file.isSome) → (w.qs l).Pairwise (fun a b => chksumCmp w a b ≤ 0)

omit [DecidableEq η] in
theorem hcmp_of_sorted {w : World η} {a b : Entry η} (h : chksumCmp w a b ≤ 0) : w.hcmp a.hash b.hash ≤ 0 := by
  unfold chksumCmp at h
  simp only at h
  split at h
  · rename_i h0; rw [h0]; exact Int.le_refl 0
  · exact h

theorem contig_of_sorted {w : World η} (ho : HashOrder w.hcmp) : ∀ (es : List (Entry η)),
    es.Pairwise (fun a b => chksumCmp w a b ≤ 0) → Contig es := by
  intro es
  induction es with
  | nil => intro _; trivial
  | cons e es ih =>
    intro h
    rw [List.pairwise_cons] at h
    refine ⟨⟨es.takeWhile (fun x => x.hash = e.hash), es.dropWhile (fun x => x.hash = e.hash),
      (List.takeWhile_append_dropWhile).symm, ?_, ?_⟩, ih h.2⟩
    · intro x hx
      have := List.all_takeWhile (p := fun x : Entry η => decide (x.hash = e.hash)) (l := es)
      rw [List.all_eq_true] at this
      exact of_decide_eq_true (this x hx)
    · intro x hx
      cases hd : es.dropWhile (fun x => decide (x.hash = e.hash)) with
      | nil => rw [hd] at hx; simp at hx
      | cons d ds =>
        have hdne : d.hash ≠ e.hash := by
          have := List.head?_dropWhile_not (fun x : Entry η => decide (x.hash = e.hash)) es
          rw [hd] at this
          simpa using this
        have hsub : (d :: ds).Sublist es := by rw [← hd]; exact List.dropWhile_sublist _
        have hdm : d ∈ es := hsub.mem List.mem_cons_self
        have hpw := h.2.sublist hsub
        rw [List.pairwise_cons] at hpw
        rw [hd, List.mem_cons] at hx
        rcases hx with rfl | hx
        · exact hdne
        · intro hxe
          apply hdne
          have h1 := hcmp_of_sorted (h.1 d hdm)
          have h2 := hcmp_of_sorted (hpw.1 x hx)
          rw [hxe] at h2
          exact ho.anti _ _ h2 h1

/-! ## Exactness of a class that is reported to the end -/

/-- What relates the comparison of two files at different places of a class to `key`: if it returns, it says
equal exactly if the keys agree; and equal keys have equal digests. -/
def Agrees {κ : Type} (w : World η) (key : FileEnt → κ) (hsh : FileEnt → η) (f g : FileEnt) : Prop :=
  (∀ r0 o v, w.fc f g r0 = .ok (o, v) → ((o = true ∧ v = 0) ↔ key f = key g)) ∧ (key f = key g → hsh f = hsh g)

theorem inner_exact {κ : Type} [DecidableEq κ] (w : World η) (json : Bool) (key : FileEnt → κ) (hsh : FileEnt → η) (f : FileEnt) :
    ∀ (es : List (Entry η)) (r : Int) (x : Inner η), inner w json f (hsh f) es r = .ok x →
      (∀ e ∈ es, ∀ g, e.file = some g → e.hash = hsh g) → (∀ g ∈ filesOf es, Agrees w key hsh f g) →
      (∃ run tail, es = run ++ tail ∧ (∀ e ∈ run, e.hash = hsh f) ∧ ∀ e ∈ tail, e.hash ≠ hsh f) →
      x.dups = (filesOf es).filter (fun g => key g = key f) ∧ filesOf x.rest = (filesOf es).filter (fun g => ¬ key g = key f) ∧
      x.rest.map (·.hash) = es.map (·.hash) := by
  intro es
  induction es with
  | nil =>
    intro r x hx _ _ _
    simp only [inner, Res.ok.injEq] at hx
    subst hx
    simp
  | cons e es ih =>
    intro r x hx hh ha hc
    unfold inner at hx
    split at hx
    · rename_i heq
      have hc' : ∃ run tail, es = run ++ tail ∧ (∀ e ∈ run, e.hash = hsh f) ∧ ∀ e ∈ tail, e.hash ≠ hsh f := by
        obtain ⟨run, tail, h1, h2, h3⟩ := hc
        cases run with
        | nil => exact absurd heq.symm (h3 e (by rw [← List.nil_append tail, ← h1]; exact List.mem_cons_self))
        | cons y run =>
          simp only [List.cons_append, List.cons.injEq] at h1
          exact ⟨run, tail, h1.2, fun e he => h2 e (List.mem_cons_of_mem _ he), h3⟩
      cases hf : e.file with
      | none => simp [hf] at hx
      | some g =>
        simp only [hf] at hx
        rw [Res.bind_eq_ok] at hx
        obtain ⟨⟨ok, v0⟩, h1, h2⟩ := hx
        simp only at h2
        generalize hvv : (if ok = true then v0 else (1 : Int)) = v at h2
        rw [filesOf_cons_some hf] at ha ⊢
        have hag := (ha g List.mem_cons_self).1 _ _ _ h1
        have hv0 : v = 0 ↔ key g = key f := by
          rw [eq_comm (a := key g), ← hag, ← hvv]
          cases ok <;> simp
        have hih : ∀ y, inner w json f (hsh f) es v = .ok y → _ := fun y hy => ih v y hy
          (fun e' he' => hh e' (List.mem_cons_of_mem _ he')) (fun g' hg' => ha g' (List.mem_cons_of_mem _ hg')) hc'
        by_cases hk : key g = key f
        · rw [if_pos (hv0.mpr hk), Res.bind_eq_ok] at h2
          obtain ⟨y, h3, h4⟩ := h2
          simp only [Res.ok.injEq] at h4
          obtain ⟨i1, i2, i3⟩ := hih y h3
          subst h4
          refine ⟨?_, ?_, ?_⟩
          · rw [List.filter_cons, if_pos (by simpa using hk), i1]
          · rw [filesOf_cons_none rfl, List.filter_cons, if_neg (by simpa using hk), i2]
          · simp [i3]
        · rw [if_neg (fun h => hk (hv0.mp h)), Res.bind_eq_ok] at h2
          obtain ⟨y, h3, h4⟩ := h2
          simp only [Res.ok.injEq] at h4
          obtain ⟨i1, i2, i3⟩ := hih y h3
          subst h4
          refine ⟨?_, ?_, ?_⟩
          · rw [List.filter_cons, if_neg (by simpa using hk), i1]
          · rw [filesOf_cons_some hf, List.filter_cons, if_pos (by simpa using hk), i2]
          · simp [i3]
    · rename_i hne
      simp only [Res.ok.injEq] at hx
      subst hx
      obtain ⟨run, tail, h1, h2, h3⟩ := hc
      have hrun : run = [] := by
        cases run with
        | nil => rfl
        | cons y run =>
          simp only [List.cons_append, List.cons.injEq] at h1
          exact absurd (h2 y List.mem_cons_self).symm (by rw [← h1.1]; exact hne)
      rw [hrun, List.nil_append] at h1
      have hno : ∀ g ∈ filesOf (e :: es), ¬ key g = key f := by
        intro g hg hk
        obtain ⟨e', he', hf'⟩ := mem_filesOf.mp hg
        have := (ha g hg).2 hk.symm
        rw [← hh e' he' g hf'] at this
        exact h3 e' (h1 ▸ he') this.symm
      refine ⟨?_, ?_, rfl⟩
      · rw [List.filter_eq_nil_iff.mpr]
        intro g hg; simpa using hno g hg
      · rw [List.filter_eq_self.mpr]
        intro g hg; simpa using hno g hg

/-- The groups of one class are exactly the keys occurring at least twice. -/
structure ByKey {κ : Type} [DecidableEq κ] (key : FileEnt → κ) (fs : List FileEnt) (gs : List (List FileEnt)) : Prop where
  whole : ∀ g ∈ gs, 2 ≤ g.length ∧ ∃ f ∈ fs, g = fs.filter (fun x => key x = key f)
  all : ∀ f ∈ fs, 2 ≤ (fs.filter (fun x => key x = key f)).length → ∃ g ∈ gs, f ∈ g
  once : gs.Pairwise (fun g h => ∀ a ∈ g, ∀ b ∈ h, key a ≠ key b)

theorem outer_exact {κ : Type} [DecidableEq κ] (w : World η) (json : Bool) (size : Nat) (key : FileEnt → κ) (hsh : FileEnt → η) :
    ∀ (n : Nat) (es : List (Entry η)) (r : Int) (gs : List (Group η)) (lg : List (FileEnt × FileEnt)),
      es.length = n → outer w json size n es r = .ok (gs, lg) → Contig es →
      (∀ e ∈ es, ∀ g, e.file = some g → e.hash = hsh g) → (filesOf es).Pairwise (Agrees w key hsh) →
      ByKey key (filesOf es) (gs.map (·.files)) := by
  intro n
  induction n with
  | zero =>
    intro es r gs lg hn h _ _ _
    simp only [outer, Res.ok.injEq, Prod.mk.injEq] at h
    obtain ⟨rfl, rfl⟩ := h
    rw [List.length_eq_zero_iff] at hn
    subst hn
    exact ⟨by simp, by simp, .nil⟩
  | succ n ih =>
    intro es r gs lg hn h hc hh hp
    cases es with
    | nil => simp at hn
    | cons e es =>
      unfold outer at h
      simp only [List.length_cons, Nat.add_right_cancel_iff] at hn
      cases hf : e.file with
      | none =>
        simp only [hf] at h
        rw [filesOf_cons_none hf] at hp ⊢
        exact ih es r gs lg hn h hc.2 (fun e' he' => hh e' (List.mem_cons_of_mem _ he')) hp
      | some f =>
        simp only [hf] at h
        rw [Res.bind_eq_ok] at h
        obtain ⟨x, hx, h⟩ := h
        rw [Res.bind_eq_ok] at h
        obtain ⟨⟨gs', lg'⟩, h1, h⟩ := h
        simp only [Res.ok.injEq, Prod.mk.injEq] at h
        obtain ⟨hgs, hlg⟩ := h
        rw [filesOf_cons_some hf] at hp ⊢
        rw [List.pairwise_cons] at hp
        have he := hh e List.mem_cons_self f hf
        obtain ⟨i1, i2, i3, i4, i5, i6, i7⟩ := inner_sound w json f e.hash es r x hx
        rw [he] at hx
        obtain ⟨d1, d2, d3⟩ := inner_exact w json key hsh f es r x hx (fun e' he' => hh e' (List.mem_cons_of_mem _ he')) hp.1
          (by rw [← he]; exact hc.1)
        have hb := ih x.rest x.res gs' lg' (by omega) h1 (contig_congr es x.rest d3.symm hc.2)
          (fun e' he' g hg => hh e' (List.mem_cons_of_mem _ (i5 e' he' g hg)) g hg) (hp.2.sublist i4)
        -- filters in the whole and in the rest
        have hfil : ∀ g ∈ filesOf x.rest, (f :: filesOf es).filter (fun y => key y = key g) = (filesOf x.rest).filter (fun y => key y = key g) := by
          intro g hg
          rw [d2, List.mem_filter] at hg
          have hgk : ¬ key g = key f := by simpa using hg.2
          rw [List.filter_cons, if_neg (by simpa using fun h => hgk h.symm), d2, List.filter_filter]
          apply List.filter_congr
          intro y _
          by_cases hy : key y = key g
          · simp [hy, hgk]
          · simp [hy]
        have hself : (f :: filesOf es).filter (fun y => key y = key f) = f :: x.dups := by
          rw [List.filter_cons, if_pos (by simp), d1]
        have hmem : ∀ g ∈ f :: filesOf es, key g ≠ key f → g ∈ filesOf x.rest := by
          intro g hg hk
          rw [List.mem_cons] at hg
          rcases hg with rfl | hg
          · exact absurd rfl hk
          · rw [d2, List.mem_filter]; exact ⟨hg, by simpa using hk⟩
        have hwhole : ∀ g ∈ gs'.map (·.files), 2 ≤ g.length ∧ ∃ f' ∈ f :: filesOf es, g = (f :: filesOf es).filter (fun y => key y = key f') := by
          intro g hg
          obtain ⟨a1, f', a2, a3⟩ := hb.whole g hg
          exact ⟨a1, f', List.mem_cons_of_mem _ (i4.mem a2), by rw [hfil f' a2]; exact a3⟩
        have hall : ∀ g ∈ f :: filesOf es, key g ≠ key f → 2 ≤ ((f :: filesOf es).filter (fun y => key y = key g)).length →
            ∃ y ∈ gs'.map (·.files), g ∈ y := by
          intro g hg hk h2
          have hm := hmem g hg hk
          rw [hfil g hm] at h2
          exact hb.all g hm h2
        by_cases hd : x.dups = []
        · rw [if_pos hd] at hgs
          subst hgs
          refine ⟨hwhole, ?_, hb.once⟩
          intro g hg h2
          by_cases hk : key g = key f
          · rw [hk, hself, hd] at h2; simp at h2
          · exact hall g hg hk h2
        · rw [if_neg hd] at hgs
          subst hgs
          simp only [List.map_cons]
          refine ⟨?_, ?_, ?_⟩
          · intro g hg
            rw [List.mem_cons] at hg
            rcases hg with rfl | hg
            · refine ⟨?_, f, List.mem_cons_self, hself.symm⟩
              have : 0 < x.dups.length := List.length_pos_iff.mpr hd
              simp only [List.length_cons]; omega
            · exact hwhole g hg
          · intro g hg h2
            by_cases hk : key g = key f
            · refine ⟨_, List.mem_cons_self, ?_⟩
              rw [← hself, List.mem_filter]; exact ⟨hg, by simpa using hk⟩
            · obtain ⟨y, hy, q⟩ := hall g hg hk h2
              exact ⟨y, List.mem_cons_of_mem _ hy, q⟩
          · rw [List.pairwise_cons]
            refine ⟨?_, hb.once⟩
            intro h hh' a ha b hb'
            have hak : key a = key f := by
              rw [← hself, List.mem_filter] at ha; simpa using ha.2
            obtain ⟨_, f', a2, a3⟩ := hb.whole h hh'
            rw [a3, List.mem_filter, d2, List.mem_filter] at hb'
            have : ¬ key b = key f := by simpa using hb'.1.2
            rw [hak]; exact fun hq => this hq.symm

end Verif.Report
