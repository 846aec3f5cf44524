import Verif.Report.Disk

/-!
# How much is read and compared (C120)

Which files are digested, which pairs of files are compared, and how many.
-/

namespace Verif.Report

variable {η : Type} [DecidableEq η]

/-! ## Specification -/

/-- The first file of a group with each of the others. -/
def firstWith : List FileEnt → List (FileEnt × FileEnt)
  | [] => []
  | f :: ds => ds.map (f, ·)

/-- `same` is what the comparison answers, whatever the answer of the comparison before it was. -/
def TellsSame (w : World η) (cands : List FileEnt) (same : FileEnt → FileEnt → Bool) : Prop :=
  ∀ f ∈ cands, ∀ g ∈ cands, ∀ r0 o v, w.fc f g r0 = .ok (o, v) → ((o = true ∧ v = 0) ↔ same f g = true)

/-! ## One pass -/

/-- The comparisons of one pass: those that answer "equal" are the duplicates found; all are with files of the same digest, in the order of the entries. -/
theorem inner_effort (w : World η) (json : Bool) (f : FileEnt) (h : η) (same : FileEnt → FileEnt → Bool) : ∀ (es : List (Entry η)) (r : Int) (x : Inner η),
    inner w json f h es r = .ok x →
    (∀ g ∈ filesOf es, ∀ r0 o v, w.fc f g r0 = .ok (o, v) → ((o = true ∧ v = 0) ↔ same f g = true)) →
    x.log.filter (fun p => same p.1 p.2) = x.dups.map (f, ·) ∧ (∃ gs : List FileEnt, x.log = gs.map (f, ·) ∧ gs.Sublist (filesOf es) ∧ ∀ g ∈ gs, ∃ e ∈ es, e.file = some g ∧ e.hash = h) := by
  intro es
  induction es with
  | nil => intro r x e _; simp only [inner, Res.ok.injEq] at e; subst e; exact ⟨rfl, [], rfl, List.Sublist.refl _, by simp⟩
  | cons e es ih =>
    intro r x hx ha
    unfold inner at hx
    by_cases hh : h = e.hash
    · rw [if_pos hh] at hx
      cases hf : e.file with
      | none => rw [hf] at hx; cases hx
      | some g =>
        rw [hf] at hx
        rw [filesOf_cons_some hf] at ha ⊢
        dsimp only at hx
        rw [Res.bind_eq_ok] at hx
        obtain ⟨⟨ok, v0⟩, e1, e2⟩ := hx
        have hsame := ha g List.mem_cons_self _ _ _ e1
        have ha' : ∀ g ∈ filesOf es, ∀ r0 o v, w.fc f g r0 = .ok (o, v) → ((o = true ∧ v = 0) ↔ same f g = true) :=
          fun g' hg' => ha g' (List.mem_cons_of_mem _ hg')
        dsimp only at e2
        generalize hvv : (if ok = true then v0 else (1 : Int)) = v at e2
        by_cases hv : v = 0
        · rw [if_pos hv, Res.bind_eq_ok] at e2
          obtain ⟨y, y1, y2⟩ := e2
          simp only [Res.ok.injEq] at y2
          subst y2
          obtain ⟨i1, gs, i2, i3, i4⟩ := ih _ _ y1 ha'
          have hs : same f g = true := by
            rw [← hsame]
            cases ok with
            | true => rw [if_pos rfl] at hvv; exact ⟨rfl, by rw [hvv, hv]⟩
            | false => rw [if_neg (by decide)] at hvv; omega
          refine ⟨?_, g :: gs, ?_, i3.cons_cons g, ?_⟩
          · simp [hs, i1]
          · simp [i2]
          · intro g' hg'
            rw [List.mem_cons] at hg'
            rcases hg' with rfl | hg'
            · exact ⟨e, List.mem_cons_self, hf, hh.symm⟩
            · obtain ⟨e', j1, j2⟩ := i4 g' hg'
              exact ⟨e', List.mem_cons_of_mem _ j1, j2⟩
        · rw [if_neg hv, Res.bind_eq_ok] at e2
          obtain ⟨y, y1, y2⟩ := e2
          simp only [Res.ok.injEq] at y2
          subst y2
          obtain ⟨i1, gs, i2, i3, i4⟩ := ih _ _ y1 ha'
          have hs : same f g = false := by
            rw [Bool.eq_false_iff]
            intro hc
            rw [← hsame] at hc
            obtain ⟨rfl, rfl⟩ := hc
            rw [if_pos rfl] at hvv
            exact hv hvv.symm
          refine ⟨?_, g :: gs, ?_, i3.cons_cons g, ?_⟩
          · simp [hs, i1]
          · simp [i2]
          · intro g' hg'
            rw [List.mem_cons] at hg'
            rcases hg' with rfl | hg'
            · exact ⟨e, List.mem_cons_self, hf, hh.symm⟩
            · obtain ⟨e', j1, j2⟩ := i4 g' hg'
              exact ⟨e', List.mem_cons_of_mem _ j1, j2⟩
    · rw [if_neg hh] at hx
      simp only [Res.ok.injEq] at hx
      subst hx
      exact ⟨rfl, [], rfl, by simp, by simp⟩

/-- The same, without knowing what the comparison answers. -/
theorem inner_log (w : World η) (json : Bool) (f : FileEnt) (h : η) : ∀ (es : List (Entry η)) (r : Int) (x : Inner η),
    inner w json f h es r = .ok x →
    ∃ gs : List FileEnt, x.log = gs.map (f, ·) ∧ gs.Sublist (filesOf es) ∧ ∀ g ∈ gs, ∃ e ∈ es, e.file = some g ∧ e.hash = h := by
  intro es
  induction es with
  | nil => intro r x e; simp only [inner, Res.ok.injEq] at e; subst e; exact ⟨[], rfl, List.Sublist.refl _, by simp⟩
  | cons e es ih =>
    intro r x hx
    unfold inner at hx
    by_cases hh : h = e.hash
    · rw [if_pos hh] at hx
      cases hf : e.file with
      | none => rw [hf] at hx; cases hx
      | some g =>
        rw [hf] at hx
        rw [filesOf_cons_some hf]
        dsimp only at hx
        rw [Res.bind_eq_ok] at hx
        obtain ⟨⟨ok, v0⟩, e1, e2⟩ := hx
        dsimp only at e2
        generalize (if ok = true then v0 else (1 : Int)) = v at e2
        have fin : ∀ y, (∃ gs : List FileEnt, y = gs.map (f, ·) ∧ gs.Sublist (filesOf es) ∧ ∀ g ∈ gs, ∃ e ∈ es, e.file = some g ∧ e.hash = h) →
            ∃ gs : List FileEnt, (f, g) :: y = gs.map (f, ·) ∧ gs.Sublist (g :: filesOf es) ∧ ∀ g ∈ gs, ∃ e' ∈ e :: es, e'.file = some g ∧ e'.hash = h := by
          rintro y ⟨gs, i2, i3, i4⟩
          refine ⟨g :: gs, by simp [i2], i3.cons_cons g, ?_⟩
          intro g' hg'
          rw [List.mem_cons] at hg'
          rcases hg' with rfl | hg'
          · exact ⟨e, List.mem_cons_self, hf, hh.symm⟩
          · obtain ⟨e', j1, j2⟩ := i4 g' hg'
            exact ⟨e', List.mem_cons_of_mem _ j1, j2⟩
        by_cases hv : v = 0
        · rw [if_pos hv, Res.bind_eq_ok] at e2
          obtain ⟨y, y1, y2⟩ := e2
          simp only [Res.ok.injEq] at y2
          subst y2
          exact fin _ (ih _ _ y1)
        · rw [if_neg hv, Res.bind_eq_ok] at e2
          obtain ⟨y, y1, y2⟩ := e2
          simp only [Res.ok.injEq] at y2
          subst y2
          exact fin _ (ih _ _ y1)
    · rw [if_neg hh] at hx
      simp only [Res.ok.injEq] at hx
      subst hx
      exact ⟨[], rfl, by simp, by simp⟩

/-! ## One class -/

/-- The comparisons of one class that answer "equal" are those of the groups. -/
theorem outer_effort (w : World η) (json : Bool) (size : Nat) (same : FileEnt → FileEnt → Bool) :
    ∀ (n : Nat) (es : List (Entry η)) (r : Int) (gs : List (Group η)) (log : List (FileEnt × FileEnt)),
    outer w json size n es r = .ok (gs, log) → TellsSame w (filesOf es) same →
    log.filter (fun p => same p.1 p.2) = gs.flatMap (fun g => firstWith g.files) := by
  intro n
  induction n with
  | zero => intro es r gs log e _; simp only [outer, Res.ok.injEq, Prod.mk.injEq] at e; obtain ⟨rfl, rfl⟩ := e; rfl
  | succ n ih =>
    intro es r gs log hx ha
    cases es with
    | nil => cases hx
    | cons e es =>
      unfold outer at hx
      cases hf : e.file with
      | none => rw [hf] at hx; rw [filesOf_cons_none hf] at ha; exact ih _ _ _ _ hx ha
      | some f =>
        rw [hf] at hx
        rw [filesOf_cons_some hf] at ha
        dsimp only at hx
        rw [Res.bind_eq_ok] at hx
        obtain ⟨x, x1, x2⟩ := hx
        rw [Res.bind_eq_ok] at x2
        obtain ⟨⟨gs', log'⟩, y1, y2⟩ := x2
        simp only [Res.ok.injEq, Prod.mk.injEq] at y2
        obtain ⟨rfl, rfl⟩ := y2
        have hi := (inner_effort w json f e.hash same es r x x1 (fun g hg => ha f List.mem_cons_self g (List.mem_cons_of_mem _ hg))).1
        have hsub := (inner_sound w json f e.hash es r x x1).2.2.2.1
        rw [List.filter_append, hi, ih _ _ _ _ y1 (fun a hm b hb => ha a (List.mem_cons_of_mem _ (hsub.mem hm)) b (List.mem_cons_of_mem _ (hsub.mem hb)))]
        by_cases hd : x.dups = []
        · rw [if_pos hd, hd]; rfl
        · rw [if_neg hd, List.flatMap_cons]; rfl

/-- Each pair of one class is compared at most once, and only with equal digests. -/
theorem outer_log (w : World η) (json : Bool) (size : Nat) :
    ∀ (n : Nat) (es : List (Entry η)) (r : Int) (gs : List (Group η)) (log : List (FileEnt × FileEnt)),
    outer w json size n es r = .ok (gs, log) →
    (∀ p ∈ log, [p.1, p.2].Sublist (filesOf es) ∧ ∃ e1 ∈ es, ∃ e2 ∈ es, e1.file = some p.1 ∧ e2.file = some p.2 ∧ e1.hash = e2.hash) ∧
    log.length * 2 ≤ (filesOf es).length * ((filesOf es).length - 1) ∧
    ((filesOf es).Nodup → log.Nodup) := by
  intro n
  induction n with
  | zero => intro es r gs log e; simp only [outer, Res.ok.injEq, Prod.mk.injEq] at e; obtain ⟨rfl, rfl⟩ := e; simp
  | succ n ih =>
    intro es r gs log hx
    cases es with
    | nil => cases hx
    | cons e es =>
      unfold outer at hx
      cases hf : e.file with
      | none =>
        rw [hf] at hx
        rw [filesOf_cons_none hf]
        obtain ⟨h1, h2, h3⟩ := ih _ _ _ _ hx
        refine ⟨fun p hp => ⟨(h1 p hp).1, ?_⟩, h2, h3⟩
        obtain ⟨e1, m1, e2, m2, q⟩ := (h1 p hp).2
        exact ⟨e1, List.mem_cons_of_mem _ m1, e2, List.mem_cons_of_mem _ m2, q⟩
      | some f =>
        rw [hf] at hx
        rw [filesOf_cons_some hf]
        dsimp only at hx
        rw [Res.bind_eq_ok] at hx
        obtain ⟨x, x1, x2⟩ := hx
        rw [Res.bind_eq_ok] at x2
        obtain ⟨⟨gs', log'⟩, y1, y2⟩ := x2
        simp only [Res.ok.injEq, Prod.mk.injEq] at y2
        obtain ⟨rfl, rfl⟩ := y2
        obtain ⟨ds, d1, d2, d3⟩ := inner_log w json f e.hash es r x x1
        obtain ⟨-, -, -, i4, i5, -, -⟩ := inner_sound w json f e.hash es r x x1
        obtain ⟨h1, h2, h3⟩ := ih _ _ _ _ y1
        refine ⟨?_, ?_, ?_⟩
        · intro p hp
          rw [List.mem_append] at hp
          rcases hp with hp | hp
          · rw [d1, List.mem_map] at hp
            obtain ⟨g, hg, rfl⟩ := hp
            refine ⟨List.Sublist.cons_cons f (List.singleton_sublist.mpr (d2.mem hg)), ?_⟩
            obtain ⟨e2, m2, q1, q2⟩ := d3 g hg
            exact ⟨e, List.mem_cons_self, e2, List.mem_cons_of_mem _ m2, hf, q1, q2.symm⟩
          · obtain ⟨s1, e1, m1, e2, m2, q1, q2, q3⟩ := h1 p hp
            exact ⟨(s1.trans i4).cons f, e1, List.mem_cons_of_mem _ (i5 e1 m1 _ q1), e2, List.mem_cons_of_mem _ (i5 e2 m2 _ q2), q1, q2, q3⟩
        · have l1 : x.log.length ≤ (filesOf es).length := by rw [d1, List.length_map]; exact d2.length_le
          have l2 := i4.length_le
          rw [List.length_append, List.length_cons, Nat.add_sub_cancel]
          generalize hm : (filesOf es).length = m at *
          generalize (filesOf x.rest).length = k at *
          have h5 : k * (k - 1) ≤ m * (m - 1) := Nat.mul_le_mul l2 (by omega)
          cases m with
          | zero => simp only [Nat.zero_mul] at h5; omega
          | succ m =>
            rw [Nat.add_sub_cancel] at h5
            have h6 : (m + 1 + 1) * (m + 1) = (m + 1) * m + 2 * (m + 1) := by
              rw [show m + 1 + 1 = m + 2 from rfl, Nat.add_mul, Nat.mul_comm (m + 1) m, Nat.mul_add]
            omega
        · intro hnd
          rw [List.nodup_cons] at hnd
          rw [List.nodup_append]
          refine ⟨?_, h3 (i4.nodup hnd.2), ?_⟩
          · rw [d1]
            have := d2.nodup hnd.2
            unfold List.Nodup at this ⊢
            rw [List.pairwise_map]
            exact this.imp (fun {a b} hab hc => hab (congrArg Prod.snd hc))
          · rintro a ha b hb rfl
            rw [d1, List.mem_map] at ha
            obtain ⟨g, -, rfl⟩ := ha
            exact hnd.1 (i4.mem ((h1 _ hb).1.mem List.mem_cons_self))

/-! ## A whole run -/

omit [DecidableEq η] in
/-- In a list without repetition no two elements come in both orders. -/
theorem sublist_antisymm {α : Type} {l : List α} (hn : l.Nodup) {a b : α} (h1 : [a, b].Sublist l) (h2 : [b, a].Sublist l) : a = b := by
  induction l with
  | nil => cases h1
  | cons x l ih =>
    rw [List.nodup_cons] at hn
    cases h1 with
    | cons _ h1 =>
      cases h2 with
      | cons _ h2 => exact ih hn.2 h1 h2
      | cons_cons _ h2 => exact absurd (h1.mem (List.mem_cons_of_mem _ List.mem_cons_self)) hn.1
    | cons_cons _ h1 =>
      cases h2 with
      | cons _ h2 => exact absurd (h2.mem (List.mem_cons_of_mem _ List.mem_cons_self)) hn.1
      | cons_cons _ h2 => rfl

/-- **C120.**  The files digested are exactly those that share their size with another candidate, and in text mode with two others and are not empty; each exactly once (as often as it was offered). -/
theorem digested_exactly (w : World η) (json : Bool) (cands : List FileEnt) (out : Outcome η) (hl : Limits w cands) (h : ftwin w json cands = .ok out) :
    out.hashed.Perm (cands.filter (fun f =>
      if json then 2 ≤ cands.countP (fun g => g.size = f.size) else 3 ≤ cands.countP (fun g => g.size = f.size) ∧ f.size ≠ 0)) := by
  obtain ⟨s⟩ := shape w json cands out hl h
  refine s.hashed.trans (List.Perm.of_eq ?_)
  apply List.filter_congr
  intro f _
  have hc : cnt cands f.size = cands.countP (fun g => g.size = f.size) := rfl
  rw [hc]
  generalize cands.countP (fun g => decide (g.size = f.size)) = n at *
  rw [Bool.eq_iff_iff]
  unfold direct
  rw [hc]
  cases json <;> simp <;> omega

/-- The files of one class, with their digests, as the reporter sees them. -/
theorem Shape.entry {w : World η} {json : Bool} {cands : List FileEnt} {out : Outcome η} (s : Shape w json cands out)
    (hq : ∀ l, (w.qs l).Perm l) (k : Nat) (e : Entry η) (he : e ∈ w.qs ((cls s.l k).map (mark w json cands))) (f : FileEnt) (hf : e.file = some f) :
    e.hash = digestOf w json cands f := by
  have := (hq _).subset he
  rw [List.mem_map] at this
  obtain ⟨g, -, rfl⟩ := this
  cases hf
  rfl

/-- The comparisons among the files of one size. -/
theorem Shape.class_log {w : World η} {json : Bool} {cands : List FileEnt} {out : Outcome η} (s : Shape w json cands out)
    (hq : ∀ l, (w.qs l).Perm l) (k : Nat) : out.compared.filter (fun p => p.1.size = k) = if k ∈ s.ks then (s.per k).2 else [] := by
  have hmem : ∀ k ∈ s.ks, ∀ p ∈ (s.per k).2, p.1.size = k := by
    intro k hk p hp
    have hs := ((outer_log w json k _ _ _ (s.per k).1 (s.per k).2 (s.run k hk)).1 p hp).1
    have m1 := (s.files hq k).subset (hs.mem List.mem_cons_self)
    rw [List.mem_filter] at m1
    simpa using m1.2
  rw [s.compared]
  have key : ∀ ks : List Nat, ks.Nodup → (∀ x ∈ ks, x ∈ s.ks) →
      ((ks.flatMap (fun k => (s.per k).2)).filter (fun p => p.1.size = k)) = if k ∈ ks then (s.per k).2 else [] := by
    intro ks
    induction ks with
    | nil => intro _ _; simp
    | cons x ks ih =>
      intro hnd hx
      rw [List.nodup_cons] at hnd
      rw [List.flatMap_cons, List.filter_append, ih hnd.2 (fun y hy => hx y (List.mem_cons_of_mem _ hy))]
      by_cases hxk : x = k
      · subst hxk
        rw [if_neg hnd.1, if_pos List.mem_cons_self, List.append_nil, List.filter_eq_self]
        intro p hp
        simpa using hmem x (hx x List.mem_cons_self) p hp
      · rw [List.filter_eq_nil_iff.mpr, List.nil_append]
        · simp [show ¬ k = x from fun h => hxk h.symm]
        · intro p hp
          have := hmem x (hx x List.mem_cons_self) p hp
          simp [this, hxk]
  exact key s.ks (desc_nodup s.desc) (fun _ hh => hh)

/-- **C120.**  Two files are compared only if they have the same size and, as far as digests were taken, the same digest; no pair is compared twice, nor both ways round; and there are never more comparisons among the files of one size than pairs of them.  Whatever the comparisons answer. -/
theorem comparisons_fair (w : World η) (json : Bool) (cands : List FileEnt) (out : Outcome η) (hl : Limits w cands) (hq : ∀ l, (w.qs l).Perm l)
    (h : ftwin w json cands = .ok out) :
    (∀ p ∈ out.compared, p.1 ∈ cands ∧ p.2 ∈ cands ∧ p.1.size = p.2.size ∧ digestOf w json cands p.1 = digestOf w json cands p.2) ∧
    (∀ k, (out.compared.filter (fun p => p.1.size = k)).length * 2 ≤ cands.countP (fun f => f.size = k) * (cands.countP (fun f => f.size = k) - 1)) ∧
    (cands.Nodup → out.compared.Nodup ∧ ∀ p ∈ out.compared, p.1 ≠ p.2 ∧ (p.2, p.1) ∉ out.compared) := by
  obtain ⟨s⟩ := shape w json cands out hl h
  have hfs := s.files hq
  have hlog := fun k hk => outer_log w json k _ _ _ (s.per k).1 (s.per k).2 (s.run k hk)
  have hmem : ∀ k ∈ s.ks, ∀ p ∈ (s.per k).2, (p.1 ∈ cands ∧ p.1.size = k) ∧ (p.2 ∈ cands ∧ p.2.size = k) := by
    intro k hk p hp
    have hs := ((hlog k hk).1 p hp).1
    have m1 := (hfs k).subset (hs.mem List.mem_cons_self)
    have m2 := (hfs k).subset (hs.mem (List.mem_cons_of_mem _ List.mem_cons_self))
    rw [List.mem_filter] at m1 m2
    exact ⟨⟨m1.1, by simpa using m1.2⟩, ⟨m2.1, by simpa using m2.2⟩⟩
  refine ⟨?_, ?_, ?_⟩
  · intro p hp
    rw [s.compared, List.mem_flatMap] at hp
    obtain ⟨k, hk, hp⟩ := hp
    obtain ⟨⟨a1, a2⟩, b1, b2⟩ := hmem k hk p hp
    obtain ⟨-, e1, m1, e2, m2, q1, q2, q3⟩ := (hlog k hk).1 p hp
    refine ⟨a1, b1, a2.trans b2.symm, ?_⟩
    rw [← s.entry hq k e1 m1 _ q1, ← s.entry hq k e2 m2 _ q2, q3]
  · intro k
    rw [s.class_log hq k]
    split
    · rename_i hk
      have := (hlog k hk).2.1
      rw [(hfs k).length_eq, ← List.countP_eq_length_filter] at this
      exact this
    · simp
  · intro hnd
    have hn : ∀ k, (filesOf (w.qs ((cls s.l k).map (mark w json cands)))).Nodup := fun k => (hfs k).nodup_iff.mpr (List.filter_sublist.nodup hnd)
    constructor
    · rw [s.compared, List.nodup_iff_pairwise_ne, List.pairwise_flatMap]
      refine ⟨fun k hk => (hlog k hk).2.2 (hn k), ?_⟩
      refine List.Pairwise.imp_of_mem ?_ s.desc
      rintro a b ha hb hab p hp q hq' rfl
      have h1 := (hmem a ha p hp).1.2
      have h2 := (hmem b hb p hq').1.2
      omega
    · intro p hp
      rw [s.compared, List.mem_flatMap] at hp
      obtain ⟨k, hk, hp⟩ := hp
      have hs := ((hlog k hk).1 p hp).1
      have hne : p.1 ≠ p.2 := by
        have := hs.nodup (hn k)
        simpa using this
      refine ⟨hne, ?_⟩
      intro hc
      rw [s.compared, List.mem_flatMap] at hc
      obtain ⟨k', hk', hc⟩ := hc
      have hkk : k' = k := by rw [← (hmem k' hk' _ hc).1.2, ← (hmem k hk p hp).2.2]
      subst hkk
      have hs' := ((hlog k' hk').1 _ hc).1
      exact absurd (sublist_antisymm (hn k') hs hs') hne

/-- **C120.**  The comparisons that answer "equal" are exactly those of the report: the first file of each group with each of the others, in the order of the report. -/
theorem comparisons_account (w : World η) (json : Bool) (cands : List FileEnt) (out : Outcome η) (gs : List (Group η)) (same : FileEnt → FileEnt → Bool)
    (hl : Limits w cands) (hq : ∀ l, (w.qs l).Perm l) (ha : TellsSame w cands same)
    (h : ftwin w json cands = .ok out) (hg : out.groups = some gs) :
    out.compared.filter (fun p => same p.1 p.2) = gs.flatMap (fun g => firstWith g.files) := by
  obtain ⟨s⟩ := shape w json cands out hl h
  rw [s.groups, Option.some.injEq] at hg
  subst hg
  rw [s.compared, List.filter_flatMap, List.flatMap_assoc, List.flatMap_def, List.flatMap_def]
  congr 1
  apply List.map_congr_left
  intro k hk
  refine outer_effort w json k same _ _ _ _ _ (s.run k hk) ?_
  have hsub : ∀ f ∈ filesOf (w.qs ((cls s.l k).map (mark w json cands))), f ∈ cands := fun f hf => (List.mem_filter.mp ((s.files hq k).subset hf)).1
  exact fun f hf g hg => ha f (hsub f hf) g (hsub g hg)

omit [DecidableEq η] in
theorem firstWith_length (gs : List (Group η)) (h2 : ∀ g ∈ gs, 2 ≤ g.files.length) :
    (gs.flatMap (fun g => firstWith g.files)).length + gs.length = (gs.flatMap (·.files)).length := by
  induction gs with
  | nil => rfl
  | cons g gs ih =>
    have h1 := h2 g List.mem_cons_self
    have := ih (fun g' hg' => h2 g' (List.mem_cons_of_mem _ hg'))
    rw [List.flatMap_cons, List.flatMap_cons, List.length_append, List.length_append, List.length_cons]
    cases hf : g.files with
    | nil => rw [hf] at h1; simp at h1
    | cons f ds =>
      rw [show (firstWith (f :: ds)).length = ds.length from List.length_map _, List.length_cons]
      omega

/-- **C120.**  If files of one size whose digests agree are equal (no collision, and in text mode no two different files alone of their size), nothing is compared in vain: the comparisons are those of the report, one for each file of a group except its first; fewer than there are candidates. -/
theorem no_comparison_in_vain (w : World η) (json : Bool) (cands : List FileEnt) (out : Outcome η) (gs : List (Group η)) (same : FileEnt → FileEnt → Bool)
    (hl : Limits w cands) (hq : ∀ l, (w.qs l).Perm l) (ha : TellsSame w cands same)
    (hd : ∀ f ∈ cands, ∀ g ∈ cands, f.size = g.size → digestOf w json cands f = digestOf w json cands g → same f g = true)
    (h : ftwin w json cands = .ok out) (hg : out.groups = some gs) :
    out.compared = gs.flatMap (fun g => firstWith g.files) ∧ out.compared.length + gs.length = (gs.flatMap (·.files)).length ∧
    out.compared.length + gs.length ≤ cands.length := by
  have h1 := comparisons_account w json cands out gs same hl hq ha h hg
  rw [List.filter_eq_self.mpr] at h1
  · obtain ⟨h2, un, h3⟩ := report_disjoint w json cands out gs hl hq h hg
    have h4 := firstWith_length gs h2
    rw [← h1] at h4
    refine ⟨h1, h4, ?_⟩
    have := h3.length_eq
    rw [List.length_append] at this
    omega
  · intro p hp
    obtain ⟨m1, m2, m3, m4⟩ := (comparisons_fair w json cands out hl hq h).1 p hp
    exact hd _ m1 _ m2 m3 m4

/-- **C120.**  In text mode too, where two files alone of their size are compared without a digest: if files of one size whose digests agree are equal except for such pairs, there are fewer comparisons among the files of one size than such files. -/
theorem comparisons_linear (w : World η) (json : Bool) (cands : List FileEnt) (out : Outcome η) (same : FileEnt → FileEnt → Bool)
    (hl : Limits w cands) (hq : ∀ l, (w.qs l).Perm l) (ha : TellsSame w cands same)
    (hd : ∀ f ∈ cands, ∀ g ∈ cands, f.size = g.size → (json = true ∨ cands.countP (fun x => x.size = f.size) ≠ 2) →
      digestOf w json cands f = digestOf w json cands g → same f g = true)
    (h : ftwin w json cands = .ok out) (k : Nat) :
    (out.compared.filter (fun p => p.1.size = k)).length ≤ cands.countP (fun f => f.size = k) - 1 := by
  by_cases h2 : cands.countP (fun f => f.size = k) = 2
  · have := (comparisons_fair w json cands out hl hq h).2.1 k
    rw [h2] at this ⊢
    omega
  · have hfair := (comparisons_fair w json cands out hl hq h).1
    obtain ⟨s⟩ := shape w json cands out hl h
    have hcl := s.class_log hq k
    by_cases hk : k ∈ s.ks
    · rw [if_pos hk] at hcl
      have hsub : ∀ f ∈ filesOf (w.qs ((cls s.l k).map (mark w json cands))), f ∈ cands := fun f hf => (List.mem_filter.mp ((s.files hq k).subset hf)).1
      have h3 := outer_effort w json k same _ _ _ _ _ (s.run k hk) (fun f hf g hg => ha f (hsub f hf) g (hsub g hg))
      have h4 : (s.per k).2.filter (fun p => same p.1 p.2) = (s.per k).2 := by
        rw [List.filter_eq_self]
        intro p hp
        rw [← hcl, List.mem_filter] at hp
        obtain ⟨m1, m2, m3, m4⟩ := hfair p hp.1
        have hpk : p.1.size = k := by simpa using hp.2
        exact hd _ m1 _ m2 m3 (Or.inr (by rw [hpk]; exact h2)) m4
      rw [h4] at h3
      obtain ⟨g1, ⟨rest, g2⟩, -⟩ := outer_sound w json k _ _ _ (s.per k).1 (s.per k).2 (s.run k hk)
      have g3 := firstWith_length (s.per k).1 (fun g hg => by
        obtain ⟨-, ⟨f, ds, e2, e3, -⟩, -⟩ := g1 g hg
        rw [e2, List.length_cons]
        have : 0 < ds.length := List.length_pos_iff.mpr e3
        omega)
      have g4 := g2.length_eq
      rw [(s.files hq k).length_eq, ← List.countP_eq_length_filter, List.length_append] at g4
      rw [hcl, h3]
      cases hgs : (s.per k).1 with
      | nil => simp
      | cons g gs =>
        rw [hgs] at g3 g4
        rw [List.length_cons] at g3
        omega
    · rw [if_neg hk] at hcl
      rw [hcl]; simp

/-! ## Examples -/

/-- The comparisons of a run, as modification times. -/
def pairsOf (x : Res (Outcome Nat)) : Option (List (Int × Int)) :=
  match x with
  | .ok o => some (o.compared.map (fun p => (p.1.mtime, p.2.mtime)))
  | _ => none

/-- What `pairsOf` gives once the order and the sizes are known. -/
def classPairs (w : World Nat) (json : Bool) (cands l : List FileEnt) (ks : List Nat) : Option (List (Int × Int)) :=
  match classes w json (fun k => (cls l k).map (mark w json cands)) ks with
  | .ok (_, lg) => some (lg.map (fun p => (p.1.mtime, p.2.mtime)))
  | _ => none

theorem pairs_eval {w : World Nat} {json : Bool} {cands : List FileEnt} (l : List FileEnt) (ks : List Nat) {out : List (Int × Int)} (hl : Limits w cands)
    (ho : ordEq (orderOf w.fuel cands) l = true) (hd : ks.Pairwise (fun a b => b < a))
    (h1 : ∀ f ∈ cands, 2 ≤ cnt cands f.size → f.size ∈ ks) (h2 : ∀ k ∈ ks, 2 ≤ cnt cands k)
    (hc : classPairs w json cands l ks = some out) : pairsOf (ftwin w json cands) = some out := by
  have ho' : orderOf w.fuel cands = .ok l := by
    unfold ordEq at ho
    split at ho
    · rename_i e; rw [e, eq_of_beq ho]
    · cases ho
  obtain ⟨hashed, e⟩ := ftwin_eval w json cands l ks hl ho' hd h1 h2
  rw [e]
  unfold classPairs at hc
  cases hcl : classes w json (fun k => (cls l k).map (mark w json cands)) ks with
  | ub => rw [hcl] at hc; cases hc
  | div => rw [hcl] at hc; cases hc
  | ok x =>
    rw [hcl] at hc
    exact hc

/-- Eight candidates, groups of three, two and two: four comparisons, none in vain. -/
example : pairsOf (ftwin exWorld false exCands) = some [(13, 11), (13, 12), (21, 22), (1, 2)] :=
  pairs_eval [exFile 21 3, exFile 11 3, exFile 13 3 true, exFile 12 3, exFile 22 3, exFile 31 1, exFile 1 0, exFile 2 0] [3, 0]
    (natWorld_limits _ _ _ [0, 1, 3] (by decide) (by decide) (by decide)) (by decide +kernel) (by decide) (by decide) (by decide) (by decide +kernel)

/-- The hypotheses of the theorems hold of it, in both modes. -/
example (json : Bool) : TellsSame exWorld exCands (fun f g => exContent f = exContent g) ∧
    (∀ f ∈ exCands, ∀ g ∈ exCands, f.size = g.size → digestOf exWorld json exCands f = digestOf exWorld json exCands g → decide (exContent f = exContent g) = true) := by
  refine ⟨?_, by cases json <;> decide +kernel⟩
  intro f _ g _ r0 o v e
  change Res.ok (true, if exContent f = exContent g then (0 : Int) else 1) = _ at e
  have e := Res.ok.inj e
  rw [Prod.mk.injEq] at e
  obtain ⟨rfl, rfl⟩ := e
  by_cases hc : exContent f = exContent g <;> simp [hc]

/-- With a digest that is always the same every pair of different files of one size is compared: the bound of `comparisons_fair` is met. -/
example : pairsOf (ftwin (natWorld (fun _ => some 5) (contentCmp (fun f => [f.mtime.toNat.toUInt8]))) true [exFile 1 1, exFile 2 1, exFile 3 1]) = some [(1, 3), (1, 2), (3, 2)] :=
  pairs_eval [exFile 1 1, exFile 3 1, exFile 2 1] [1]
    (natWorld_limits _ _ _ [1] (by decide) (by decide) (by decide)) (by decide +kernel) (by decide) (by decide) (by decide) (by decide +kernel)

/-- Text mode compares two different files that are alone of their size; JSON mode digests them instead. -/
theorem pair_compared_in_vain : pairsOf (ftwin exWorld false [exFile 11 3, exFile 21 3]) = some [(11, 21)] ∧ pairsOf (ftwin exWorld true [exFile 11 3, exFile 21 3]) = some [] :=
  ⟨pairs_eval [exFile 11 3, exFile 21 3] [3] (natWorld_limits _ _ _ [3] (by decide) (by decide) (by decide)) (by decide +kernel) (by decide) (by decide) (by decide) (by decide +kernel),
    pairs_eval [exFile 11 3, exFile 21 3] [3] (natWorld_limits _ _ _ [3] (by decide) (by decide) (by decide)) (by decide +kernel) (by decide) (by decide) (by decide) (by decide +kernel)⟩

end Verif.Report
