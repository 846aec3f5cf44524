import Verif.Report.Outer
import Verif.File.Props

/-!
# Properties of the pipeline from candidates to report (C12–C19, C31, C64)

`ftwin w json cands` offers the candidates to the pipeline one after the other and reports, as text or as
JSON.  `Limits` is what every theorem assumes: at most `2^31` candidates (the heap of C01),
no eight different sizes sharing a 32-bit hash value (the table of C06), and enough fuel.
-/

namespace Verif.Report

open Verif.File (Bytes)

variable {η : Type} [DecidableEq η]

/-- The limits of the data structures. -/
structure Limits (w : World η) (cands : List FileEnt) : Prop where
  len : cands.length ≤ 2 ^ 31
  fuel : cands.length + 33 ≤ w.fuel
  sizes : ∀ v (l : List Nat), l.Nodup → (∀ s ∈ l, (∃ f ∈ cands, f.size = s) ∧ w.sizeHash s = v) → l.length < 8

/-- The report `gs` is exact for `key`: it lists, once and whole, every set of at least two
candidates with equal keys. -/
structure Exact {κ : Type} [DecidableEq κ] (key : FileEnt → κ) (cands : List FileEnt) (gs : List (List FileEnt)) : Prop where
  whole : ∀ g ∈ gs, 2 ≤ g.length ∧ ∃ f ∈ cands, g.Perm (cands.filter (fun x => key x = key f))
  all : ∀ f ∈ cands, 2 ≤ (cands.filter (fun x => key x = key f)).length → ∃ g ∈ gs, f ∈ g
  once : gs.Pairwise (fun g h => ∀ a ∈ g, ∀ b ∈ h, key a ≠ key b)

/-! ## From classes to the whole report -/

omit [DecidableEq η] in
theorem Limits.toSizesOk {w : World η} {cands : List FileEnt} (h : Limits w cands) : SizesOk w cands := h.sizes

/-- A run that completes is a sequence of completed classes. -/
theorem classes_ok (w : World η) (json : Bool) (ent : Nat → List (Entry η)) :
    ∀ (ks : List Nat) (gs : List (Group η)) (lg : List (FileEnt × FileEnt)), classes w json ent ks = .ok (gs, lg) →
      ∃ per : Nat → List (Group η) × List (FileEnt × FileEnt),
        (∀ k ∈ ks, outer w json k (ent k).length (w.qs (ent k)) 0 = .ok (per k)) ∧
        gs = ks.flatMap (fun k => (per k).1) ∧ lg = ks.flatMap (fun k => (per k).2) := by
  intro ks
  induction ks with
  | nil =>
    intro gs lg h
    simp only [classes, Res.ok.injEq, Prod.mk.injEq] at h
    exact ⟨fun _ => ([], []), by simp, by simp [← h.1], by simp [← h.2]⟩
  | cons k ks ih =>
    intro gs lg h
    unfold classes at h
    rw [Res.bind_eq_ok] at h
    obtain ⟨⟨g1, l1⟩, e1, h⟩ := h
    rw [Res.bind_eq_ok] at h
    obtain ⟨⟨g2, l2⟩, e2, h⟩ := h
    simp only [Res.ok.injEq, Prod.mk.injEq] at h
    obtain ⟨per, p1, p2, p3⟩ := ih g2 l2 e2
    have hk : ∀ k' ∈ k :: ks, outer w json k' (ent k').length (w.qs (ent k')) 0 =
        .ok (match outer w json k' (ent k').length (w.qs (ent k')) 0 with | .ok x => x | _ => ([], [])) := by
      intro k' hk'
      rw [List.mem_cons] at hk'
      rcases hk' with rfl | hk'
      · rw [e1]
      · rw [p1 k' hk']
    refine ⟨_, hk, ?_, ?_⟩
    · rw [List.flatMap_cons, e1, ← h.1, p2]
      congr 1
      rw [List.flatMap_def, List.flatMap_def]
      congr 1
      apply List.map_congr_left
      intro k' hk'; rw [p1 k' hk']
    · rw [List.flatMap_cons, e1, ← h.2, p3]
      congr 1
      rw [List.flatMap_def, List.flatMap_def]
      congr 1
      apply List.map_congr_left
      intro k' hk'; rw [p1 k' hk']

theorem classes_completes (w : World η) (json : Bool) (ent : Nat → List (Entry η)) :
    ∀ (ks : List Nat), (∀ k ∈ ks, ∃ gs lg, outer w json k (ent k).length (w.qs (ent k)) 0 = .ok (gs, lg)) →
      ∃ gs lg, classes w json ent ks = .ok (gs, lg) := by
  intro ks
  induction ks with
  | nil => intro _; exact ⟨_, _, rfl⟩
  | cons k ks ih =>
    intro h
    obtain ⟨g1, l1, e1⟩ := h k List.mem_cons_self
    obtain ⟨g2, l2, e2⟩ := ih (fun k' hk' => h k' (List.mem_cons_of_mem _ hk'))
    exact ⟨g1 ++ g2, l1 ++ l2, by simp only [classes, e1, e2, Res.ok_bind]⟩

omit [DecidableEq η] in
theorem filesOf_mark (w : World η) (json : Bool) (l fs : List FileEnt) : filesOf (fs.map (mark w json l)) = fs := by
  induction fs with
  | nil => rfl
  | cons f fs ih => rw [List.map_cons, filesOf_cons_some rfl, ih]

omit [DecidableEq η] in
theorem mark_isSome (w : World η) (json : Bool) (l fs : List FileEnt) : ∀ e ∈ fs.map (mark w json l), e.file.isSome := by
  intro e he
  rw [List.mem_map] at he
  obtain ⟨f, -, rfl⟩ := he
  rfl

omit [DecidableEq η] in
theorem filesOf_perm {a b : List (Entry η)} (h : a.Perm b) : (filesOf a).Perm (filesOf b) := h.filterMap _

/-- The shape of a completed run. -/
structure Shape (w : World η) (json : Bool) (cands : List FileEnt) (out : Outcome η) where
  l : List FileEnt
  ks : List Nat
  per : Nat → List (Group η) × List (FileEnt × FileEnt)
  perm : l.Perm cands
  desc : ks.Pairwise (fun a b => b < a)
  mem : ∀ k, k ∈ ks ↔ 2 ≤ cnt cands k
  run : ∀ k ∈ ks, outer w json k (cls l k).length (w.qs ((cls l k).map (mark w json cands))) 0 = .ok (per k)
  groups : out.groups = some (ks.flatMap (fun k => (per k).1))
  compared : out.compared = ks.flatMap (fun k => (per k).2)
  hashed : out.hashed.Perm (cands.filter (fun f => decide (2 ≤ cnt cands f.size) && !direct json cands f.size))

theorem shape (w : World η) (json : Bool) (cands : List FileEnt) (out : Outcome η) (hl : Limits w cands)
    (h : ftwin w json cands = .ok out) : Nonempty (Shape w json cands out) := by
  obtain ⟨l, ks, hashed, -, hp, hd, hm, hh, e⟩ := ftwin_eq w json cands hl.len hl.fuel hl.sizes
  rw [h] at e
  have e := e.symm
  rw [Res.bind_eq_ok] at e
  obtain ⟨⟨gs, lg⟩, e1, e2⟩ := e
  simp only [Res.ok.injEq] at e2
  subst e2
  obtain ⟨per, p1, p2, p3⟩ := classes_ok w json _ ks gs lg e1
  refine ⟨⟨l, ks, per, hp, hd, hm, ?_, by rw [p2], p3, hh⟩⟩
  intro k hk
  have := p1 k hk
  rwa [List.length_map] at this

/-- The files the reporter sees in class `k`. -/
theorem Shape.files {w : World η} {json : Bool} {cands : List FileEnt} {out : Outcome η} (s : Shape w json cands out)
    (hq : ∀ l, (w.qs l).Perm l) (k : Nat) :
    (filesOf (w.qs ((cls s.l k).map (mark w json cands)))).Perm (cands.filter (fun f => f.size = k)) := by
  have h1 := filesOf_perm (hq ((cls s.l k).map (mark w json cands)))
  rw [filesOf_mark] at h1
  exact h1.trans (cls_perm s.perm k)

omit [DecidableEq η] in
theorem flatMap_cls_perm (cands : List FileEnt) : ∀ (ks : List Nat), ks.Nodup →
    ∃ rest, (ks.flatMap (fun k => cands.filter (fun f => f.size = k)) ++ rest).Perm cands ∧ ∀ f ∈ rest, f.size ∉ ks := by
  intro ks
  induction ks with
  | nil => intro _; exact ⟨cands, by simp, by simp⟩
  | cons k ks ih =>
    intro hnd
    rw [List.nodup_cons] at hnd
    obtain ⟨rest, h1, h2⟩ := ih hnd.2
    refine ⟨rest.filter (fun f => ¬ f.size = k), ?_, ?_⟩
    · have h3 : (cands.filter (fun f => f.size = k)).Perm (rest.filter (fun f => f.size = k)) := by
        have := (h1.filter (fun f => decide (f.size = k))).symm
        rw [List.filter_append] at this
        refine this.trans ?_
        rw [List.filter_eq_nil_iff.mpr, List.nil_append]
        intro f hf
        rw [List.mem_flatMap] at hf
        obtain ⟨k', hk', hf⟩ := hf
        rw [List.mem_filter] at hf
        have : f.size = k' := by simpa using hf.2
        have hne : k ≠ k' := by rintro rfl; exact hnd.1 hk'
        simp [this]; exact fun h => hne h.symm
      rw [List.flatMap_cons, List.append_assoc]
      have h4 : (rest.filter (fun f => f.size = k) ++ rest.filter (fun f => ¬ f.size = k)).Perm rest := by
        have := List.filter_append_perm (fun f : FileEnt => decide (f.size = k)) rest
        refine (List.Perm.append_left _ (List.Perm.of_eq ?_)).trans this
        apply List.filter_congr; intro f _; simp
      refine (h3.append_right _).trans ?_
      refine List.perm_append_comm_assoc _ _ _ |>.trans ?_
      exact (h4.append_left _).trans h1
    · intro f hf
      rw [List.mem_filter] at hf
      rw [List.mem_cons]
      rintro (h | h)
      · simp [h] at hf
      · exact h2 f hf.1 h

omit [DecidableEq η] in
theorem desc_nodup {ks : List Nat} (h : ks.Pairwise (fun a b => b < a)) : ks.Nodup :=
  h.imp (fun h => by omega)

/-! ## C12, C14, C16, C19: what holds of every run that completes -/

/-- **C12.** Files listed together have the same size and the same bytes, whatever the digests
are (they may collide or be left over from a failure), provided the byte comparison of two
candidates says "equal" only for equal contents (C20, C63). -/
theorem report_sound {κ : Type} (w : World η) (json : Bool) (cands : List FileEnt) (content : FileEnt → κ) (out : Outcome η) (gs : List (Group η))
    (hl : Limits w cands) (hq : ∀ l, (w.qs l).Perm l)
    (hfc : ∀ f ∈ cands, ∀ g ∈ cands, f.size = g.size → ∀ r0, w.fc f g r0 = .ok (true, 0) → content f = content g)
    (h : ftwin w json cands = .ok out) (hg : out.groups = some gs) :
    ∀ g ∈ gs, ∀ a ∈ g.files, ∀ b ∈ g.files, a.size = g.size ∧ b.size = g.size ∧ content a = content b := by
  obtain ⟨s⟩ := shape w json cands out hl h
  intro g hgm a ha b hb
  rw [s.groups] at hg
  simp only [Option.some.injEq] at hg
  rw [← hg, List.mem_flatMap] at hgm
  obtain ⟨k, hk, hgm⟩ := hgm
  obtain ⟨h1, -, -⟩ := outer_sound w json k _ _ _ (s.per k).1 (s.per k).2 (s.run k hk)
  obtain ⟨e1, ⟨f, ds, e2, -, e3⟩, e4, -⟩ := h1 g hgm
  have hmem : ∀ x ∈ g.files, x ∈ cands ∧ x.size = k := by
    intro x hx
    have := (s.files hq k).subset (e4.mem hx)
    rw [List.mem_filter] at this
    exact ⟨this.1, by simpa using this.2⟩
  have hlead : ∀ x ∈ g.files, content f = content x := by
    intro x hx
    have hxm := hmem x hx
    have hfm := hmem f (by rw [e2]; exact List.mem_cons_self)
    rw [e2, List.mem_cons] at hx
    rcases hx with rfl | hx
    · rfl
    · obtain ⟨r0, hr⟩ := e3 x hx
      exact hfc f hfm.1 x hxm.1 (hfm.2.trans hxm.2.symm) r0 hr
  exact ⟨by rw [e1]; exact (hmem a ha).2, by rw [e1]; exact (hmem b hb).2, (hlead a ha).symm.trans (hlead b hb)⟩

/-- **C14.** Whatever the comparisons answer: every group has at least two files, and all the groups
together list candidates, each at most as often as it was offered. -/
theorem report_disjoint (w : World η) (json : Bool) (cands : List FileEnt) (out : Outcome η) (gs : List (Group η))
    (hl : Limits w cands) (hq : ∀ l, (w.qs l).Perm l)
    (h : ftwin w json cands = .ok out) (hg : out.groups = some gs) :
    (∀ g ∈ gs, 2 ≤ g.files.length) ∧ ∃ unlisted, (gs.flatMap (·.files) ++ unlisted).Perm cands := by
  obtain ⟨s⟩ := shape w json cands out hl h
  rw [s.groups] at hg
  simp only [Option.some.injEq] at hg
  subst hg
  constructor
  · intro g hgm
    rw [List.mem_flatMap] at hgm
    obtain ⟨k, hk, hgm⟩ := hgm
    obtain ⟨h1, -, -⟩ := outer_sound w json k _ _ _ (s.per k).1 (s.per k).2 (s.run k hk)
    obtain ⟨-, ⟨f, ds, e2, e3, -⟩, -⟩ := h1 g hgm
    rw [e2, List.length_cons]
    have : 0 < ds.length := List.length_pos_iff.mpr e3
    omega
  · obtain ⟨rest, hr, -⟩ := flatMap_cls_perm cands s.ks (desc_nodup s.desc)
    have key : ∀ ks : List Nat, (∀ k ∈ ks, k ∈ s.ks) → ∃ un, ((ks.flatMap (fun k => (s.per k).1)).flatMap (·.files) ++ un).Perm
        (ks.flatMap (fun k => cands.filter (fun f => f.size = k))) := by
      intro ks
      induction ks with
      | nil => intro _; exact ⟨[], by simp⟩
      | cons k ks ih =>
        intro hk
        obtain ⟨un, hun⟩ := ih (fun k' hk' => hk k' (List.mem_cons_of_mem _ hk'))
        obtain ⟨-, ⟨r2, h2⟩, -⟩ := outer_sound w json k _ _ _ (s.per k).1 (s.per k).2 (s.run k (hk k List.mem_cons_self))
        have h3 := h2.trans (s.files hq k)
        refine ⟨r2 ++ un, ?_⟩
        rw [List.flatMap_cons, List.flatMap_append, List.flatMap_cons]
        refine List.Perm.trans ?_ (h3.append hun)
        simp only [List.append_assoc]
        exact (List.perm_append_comm_assoc _ _ _).append_left _
    obtain ⟨un, hun⟩ := key s.ks (fun _ h => h)
    refine ⟨un ++ rest, ?_⟩
    rw [← List.append_assoc]
    exact (hun.append_right rest).trans hr

/-- **C16.** The sizes of the reported groups never increase, so groups of one size are next to
each other. -/
theorem report_largest_first (w : World η) (json : Bool) (cands : List FileEnt) (out : Outcome η) (gs : List (Group η))
    (hl : Limits w cands) (h : ftwin w json cands = .ok out) (hg : out.groups = some gs) :
    gs.Pairwise (fun a b => b.size ≤ a.size) := by
  obtain ⟨s⟩ := shape w json cands out hl h
  rw [s.groups] at hg
  simp only [Option.some.injEq] at hg
  subst hg
  have hsz : ∀ k ∈ s.ks, ∀ g ∈ (s.per k).1, g.size = k := by
    intro k hk g hgm
    obtain ⟨h1, -, -⟩ := outer_sound w json k _ _ _ (s.per k).1 (s.per k).2 (s.run k hk)
    exact (h1 g hgm).1
  rw [List.pairwise_flatMap]
  refine ⟨?_, ?_⟩
  · intro k hk
    rw [List.pairwise_iff_forall_sublist]
    intro a b hab
    rw [hsz k hk a (hab.mem List.mem_cons_self), hsz k hk b (hab.mem (List.mem_cons_of_mem _ List.mem_cons_self))]
    exact Nat.le_refl _
  · refine List.Pairwise.imp_of_mem ?_ s.desc
    intro k1 k2 hk1 hk2 hlt x hx y hy
    rw [hsz k1 hk1 x hx, hsz k2 hk2 y hy]
    omega

/-- **C19.** Only files whose size is shared are hashed or compared; in text mode a hashed file
has a non-zero size shared by at least three candidates. -/
theorem report_reads_only_shared_sizes (w : World η) (json : Bool) (cands : List FileEnt) (out : Outcome η)
    (hl : Limits w cands) (hq : ∀ l, (w.qs l).Perm l) (h : ftwin w json cands = .ok out) :
    (∀ f ∈ out.hashed, f ∈ cands ∧ 2 ≤ cands.countP (fun g => g.size = f.size) ∧
      (json = false → 3 ≤ cands.countP (fun g => g.size = f.size) ∧ f.size ≠ 0)) ∧
    (∀ p ∈ out.compared, p.1 ∈ cands ∧ p.2 ∈ cands ∧ p.1.size = p.2.size ∧ 2 ≤ cands.countP (fun g => g.size = p.1.size)) := by
  obtain ⟨s⟩ := shape w json cands out hl h
  refine ⟨?_, ?_⟩
  · intro f hf
    have hf := s.hashed.mem_iff.mp hf
    simp only [List.mem_filter, Bool.and_eq_true, decide_eq_true_eq, Bool.not_eq_true'] at hf
    obtain ⟨h1, h2, h3⟩ := hf
    refine ⟨h1, h2, ?_⟩
    intro hj
    subst hj
    unfold cnt at h2
    simp only [direct, cnt, Bool.not_false, Bool.and_true, Bool.or_eq_false_iff, beq_eq_false_iff_ne] at h3
    exact ⟨by omega, h3.2⟩
  · intro p hp
    rw [s.compared, List.mem_flatMap] at hp
    obtain ⟨k, hk, hp⟩ := hp
    obtain ⟨-, -, h3⟩ := outer_sound w json k _ _ _ (s.per k).1 (s.per k).2 (s.run k hk)
    obtain ⟨a, b⟩ := h3 p hp
    have a := (s.files hq k).subset a
    have b := (s.files hq k).subset b
    rw [List.mem_filter] at a b
    have ak : p.1.size = k := by simpa using a.2
    have bk : p.2.size = k := by simpa using b.2
    refine ⟨a.1, b.1, ak.trans bk.symm, ?_⟩
    rw [ak]; exact (s.mem k).mp hk

/-- **C15.** Within a group no file of a non-prioritised path precedes one of a prioritised path. -/
theorem report_prioritised_first (w : World η) (json : Bool) (cands : List FileEnt) (out : Outcome η) (gs : List (Group η))
    (hl : Limits w cands) (ho : HashOrder w.hcmp) (hq : Sorts w)
    (h : ftwin w json cands = .ok out) (hg : out.groups = some gs) :
    ∀ g ∈ gs, g.files.Pairwise (fun a b => b.prio = true → a.prio = true) := by
  obtain ⟨s⟩ := shape w json cands out hl h
  intro g hgm
  rw [s.groups] at hg
  simp only [Option.some.injEq] at hg
  rw [← hg, List.mem_flatMap] at hgm
  obtain ⟨k, hk, hgm⟩ := hgm
  obtain ⟨h1, -, -⟩ := outer_sound w json k _ _ _ (s.per k).1 (s.per k).2 (s.run k hk)
  obtain ⟨-, -, e4, e5⟩ := h1 g hgm
  have hent : ∀ e ∈ w.qs ((cls s.l k).map (mark w json cands)), ∃ f, e = mark w json cands f := by
    intro e he
    have := (hq.perm _).subset he
    rw [List.mem_map] at this
    obtain ⟨f, -, rfl⟩ := this
    exact ⟨f, rfl⟩
  have hpw : ∀ (es : List (Entry η)), (∀ e ∈ es, ∃ f, e = mark w json cands f) → es.Pairwise (fun a b => chksumCmp w a b ≤ 0) →
      (filesOf es).Pairwise (fun a b => chksumCmp w (mark w json cands a) (mark w json cands b) ≤ 0) := by
    intro es
    induction es with
    | nil => intro _ _; exact .nil
    | cons e es ih =>
      intro hes hp
      obtain ⟨f, rfl⟩ := hes e List.mem_cons_self
      rw [List.pairwise_cons] at hp
      rw [filesOf_cons_some rfl, List.pairwise_cons]
      refine ⟨?_, ih (fun e he => hes e (List.mem_cons_of_mem _ he)) hp.2⟩
      intro b hb
      obtain ⟨e', he', hf'⟩ := mem_filesOf.mp hb
      obtain ⟨f', rfl⟩ := hes e' (List.mem_cons_of_mem _ he')
      simp only [mark, Option.some.injEq] at hf'
      subst hf'
      exact hp.1 _ he'
  have hsorted := (hpw _ hent (hq.sorted _ (mark_isSome w json cands _))).sublist e4
  have hhash : ∀ a ∈ g.files, (mark w json cands a).hash = g.hash := by
    intro a ha
    obtain ⟨e, he, hf, hh⟩ := e5 a ha
    obtain ⟨f', rfl⟩ := hent e he
    simp only [mark, Option.some.injEq] at hf
    subst hf
    exact hh
  refine List.Pairwise.imp_of_mem ?_ hsorted
  intro a b ha hb hab hbp
  unfold chksumCmp at hab
  simp only at hab
  rw [if_pos ((ho.zero _ _).mpr ((hhash a ha).trans (hhash b hb).symm))] at hab
  simp only [mark, prioVal, hbp] at hab
  cases hap : a.prio with
  | true => rfl
  | false => rw [hap] at hab; simp at hab

/-! ## C13: all duplicates -/

/-- The digest a candidate has when the report begins (text mode leaves the digests of small
classes at zero). -/
def digestOf (w : World η) (json : Bool) (cands : List FileEnt) (f : FileEnt) : η := (mark w json cands f).hash

/-- How the comparison and the digests relate to `key` for two candidates of one size; for the pair of a candidate with
itself only if it was offered twice. -/
def Pairs (cands : List FileEnt) (P : FileEnt → FileEnt → Prop) : Prop :=
  ∀ f ∈ cands, ∀ g ∈ cands, f.size = g.size → (f = g → 2 ≤ cands.count f) → P f g

theorem Pairs.pairwise {cands : List FileEnt} {P : FileEnt → FileEnt → Prop} (h : Pairs cands P) (k : Nat) (l : List FileEnt)
    (hl : l.Perm (cands.filter (fun f => f.size = k))) : l.Pairwise P := by
  rw [List.pairwise_iff_forall_sublist]
  intro a b hab
  have ha := hl.subset (hab.mem List.mem_cons_self)
  have hb := hl.subset (hab.mem (List.mem_cons_of_mem _ List.mem_cons_self))
  rw [List.mem_filter] at ha hb
  have hak : a.size = k := by simpa using ha.2
  have hbk : b.size = k := by simpa using hb.2
  refine h a ha.1 b hb.1 (hak.trans hbk.symm) ?_
  rintro rfl
  have h1 : 2 ≤ l.count a := by
    have := hab.count_le a
    simpa using this
  rw [hl.count_eq a] at h1
  exact Nat.le_trans h1 (List.filter_sublist.count_le a)

/-- **C13.** A run that completes reports exactly the sets of candidates with equal contents,
for every hash function, collisions included: the comparison must decide equality of contents and equal
contents must have equal digests. -/
theorem report_exact {κ : Type} [DecidableEq κ] (w : World η) (json : Bool) (cands : List FileEnt) (content : FileEnt → κ)
    (out : Outcome η) (gs : List (Group η)) (hl : Limits w cands) (ho : HashOrder w.hcmp) (hq : Sorts w)
    (hsize : ∀ f ∈ cands, ∀ g ∈ cands, content f = content g → f.size = g.size)
    (hfc : Pairs cands (fun f g => ∀ r0 o v, w.fc f g r0 = .ok (o, v) → ((o = true ∧ v = 0) ↔ content f = content g)))
    (hdig : Pairs cands (fun f g => content f = content g → digestOf w json cands f = digestOf w json cands g))
    (h : ftwin w json cands = .ok out) (hg : out.groups = some gs) : Exact content cands (gs.map (·.files)) := by
  obtain ⟨s⟩ := shape w json cands out hl h
  rw [s.groups] at hg
  simp only [Option.some.injEq] at hg
  subst hg
  have hbk : ∀ k ∈ s.ks, ∃ fs, fs.Perm (cands.filter (fun f => f.size = k)) ∧ ByKey content fs ((s.per k).1.map (·.files)) := by
    intro k hk
    refine ⟨_, s.files hq.perm k, ?_⟩
    have hrun := s.run k hk
    have hlen : (w.qs ((cls s.l k).map (mark w json cands))).length = (cls s.l k).length := by
      rw [(hq.perm _).length_eq, List.length_map]
    refine outer_exact w json k content (digestOf w json cands) _ _ _ (s.per k).1 (s.per k).2 hlen hrun
      (contig_of_sorted ho _ (hq.sorted _ (mark_isSome w json cands _))) ?_ ?_
    · intro e he g hg
      have := (hq.perm _).subset he
      rw [List.mem_map] at this
      obtain ⟨f, -, rfl⟩ := this
      simp only [mark, Option.some.injEq] at hg
      subst hg; rfl
    · have h1 := hfc.pairwise k _ (s.files hq.perm k)
      have h2 := hdig.pairwise k _ (s.files hq.perm k)
      exact (h1.and h2)
  -- the filter by content within a class is the filter in all candidates
  have hfil : ∀ (k : Nat) (fs : List FileEnt), fs.Perm (cands.filter (fun f => f.size = k)) → ∀ f ∈ fs,
      (fs.filter (fun x => content x = content f)).Perm (cands.filter (fun x => content x = content f)) := by
    intro k fs hp f hf
    refine (hp.filter _).trans (List.Perm.of_eq ?_)
    rw [List.filter_filter]
    apply List.filter_congr
    intro x hx
    have hfm := hp.subset hf
    rw [List.mem_filter] at hfm
    have hfk : f.size = k := by simpa using hfm.2
    by_cases hc : content x = content f
    · have := hsize x hx f hfm.1 hc
      simp [hc, this, hfk]
    · simp [hc]
  refine ⟨?_, ?_, ?_⟩
  · intro g hg
    rw [List.mem_map] at hg
    obtain ⟨gr, hg, rfl⟩ := hg
    rw [List.mem_flatMap] at hg
    obtain ⟨k, hk, hg⟩ := hg
    obtain ⟨fs, hp, hb⟩ := hbk k hk
    obtain ⟨h2, f, hf, e⟩ := hb.whole gr.files (List.mem_map_of_mem hg)
    refine ⟨h2, f, ?_, ?_⟩
    · have := hp.subset hf
      exact (List.mem_filter.mp this).1
    · rw [e]; exact hfil k fs hp f hf
  · intro f hf h2
    have hk : f.size ∈ s.ks := by
      rw [s.mem]
      unfold cnt
      rw [List.countP_eq_length_filter]
      refine Nat.le_trans h2 ?_
      rw [← List.countP_eq_length_filter, ← List.countP_eq_length_filter]
      apply List.countP_mono_left
      intro x hx hc
      have := hsize x hx f hf (by simpa using hc)
      simpa using this
    obtain ⟨fs, hp, hb⟩ := hbk f.size hk
    have hfs : f ∈ fs := hp.symm.subset (List.mem_filter.mpr ⟨hf, by simp⟩)
    obtain ⟨g, hg, hfg⟩ := hb.all f hfs (by rw [(hfil f.size fs hp f hfs).length_eq]; exact h2)
    rw [List.mem_map] at hg
    obtain ⟨gr, hg, rfl⟩ := hg
    exact ⟨gr.files, List.mem_map_of_mem (List.mem_flatMap.mpr ⟨_, hk, hg⟩), hfg⟩
  · rw [List.pairwise_map, List.pairwise_flatMap]
    refine ⟨?_, ?_⟩
    · intro k hk
      obtain ⟨fs, hp, hb⟩ := hbk k hk
      exact (List.pairwise_map.mp hb.once)
    · refine List.Pairwise.imp_of_mem ?_ s.desc
      intro k1 k2 hk1 hk2 hlt x hx y hy a ha b hb' heq
      obtain ⟨fs1, hp1, hb1⟩ := hbk k1 hk1
      obtain ⟨fs2, hp2, hb2⟩ := hbk k2 hk2
      obtain ⟨-, f1, hf1, e1⟩ := hb1.whole x.files (List.mem_map_of_mem hx)
      obtain ⟨-, f2, hf2, e2⟩ := hb2.whole y.files (List.mem_map_of_mem hy)
      rw [e1] at ha; rw [e2] at hb'
      have a1 := List.mem_filter.mp (hp1.subset (List.mem_filter.mp ha).1)
      have b1 := List.mem_filter.mp (hp2.subset (List.mem_filter.mp hb').1)
      have hs := hsize a a1.1 b b1.1 heq
      have e3 : a.size = k1 := by simpa using a1.2
      have e4 : b.size = k2 := by simpa using b1.2
      omega

/-- The report completes when every comparison returns and candidates of a size shared by three or more (in
JSON mode and for non-empty files: two or more) that have equal digests are reported equal. -/
theorem report_completes (w : World η) (json : Bool) (cands : List FileEnt) (hl : Limits w cands) (ho : HashOrder w.hcmp) (hq : Sorts w)
    (hret : Pairs cands (fun f g => ∀ r0, ∃ x, w.fc f g r0 = .ok x))
    (heq : Pairs cands (fun f g => 3 ≤ cands.countP (fun x => x.size = f.size) → digestOf w json cands f = digestOf w json cands g →
      ∀ r0, w.fc f g r0 = .ok (true, 0))) :
    ∃ out gs, ftwin w json cands = .ok out ∧ out.groups = some gs := by
  obtain ⟨l, ks, hashed, -, hp, hd, hm, hh, e⟩ := ftwin_eq w json cands hl.len hl.fuel hl.sizes
  have hall : ∀ k ∈ ks, ∃ gs lg, outer w json k ((cls l k).map (mark w json cands)).length (w.qs ((cls l k).map (mark w json cands))) 0 = .ok (gs, lg) := by
    intro k hk
    have hlen := (hq.perm ((cls l k).map (mark w json cands))).length_eq
    have hfp : (filesOf (w.qs ((cls l k).map (mark w json cands)))).Perm (cands.filter (fun f => f.size = k)) := by
      have h1 := filesOf_perm (hq.perm ((cls l k).map (mark w json cands)))
      rw [filesOf_mark] at h1
      exact h1.trans (cls_perm hp k)
    have hent : ∀ e ∈ w.qs ((cls l k).map (mark w json cands)), ∃ f ∈ cands, f.size = k ∧ e = mark w json cands f := by
      intro e he
      have := (hq.perm _).subset he
      rw [List.mem_map] at this
      obtain ⟨f, hf, rfl⟩ := this
      have := (cls_perm hp k).subset hf
      unfold cls at this
      rw [List.mem_filter] at this
      exact ⟨f, this.1, by simpa using this.2, rfl⟩
    have hck : (cls l k).length = cnt cands k := by rw [cls_length, cnt_perm hp]
    rw [← hlen]
    have hlen2 : (w.qs ((cls l k).map (mark w json cands))).length = cnt cands k := by rw [hlen, List.length_map, hck]
    generalize hes : w.qs ((cls l k).map (mark w json cands)) = es at *
    by_cases h3 : 3 ≤ cnt cands k
    · refine outer_runs w json k es.length es 0 rfl ?_ ?_ ?_
      · rw [← hes]; exact contig_of_sorted ho _ (hq.sorted _ (mark_isSome w json cands _))
      · intro e he; obtain ⟨f, -, -, rfl⟩ := hent e he; rfl
      · have h1 := heq.pairwise k _ hfp
        have key : ∀ es : List (Entry η), (∀ e ∈ es, ∃ f ∈ cands, f.size = k ∧ e = mark w json cands f) →
            (filesOf es).Pairwise (fun f g => 3 ≤ cands.countP (fun x => x.size = f.size) → digestOf w json cands f = digestOf w json cands g →
              ∀ r0, w.fc f g r0 = .ok (true, 0)) →
            es.Pairwise (fun a b => a.hash = b.hash → ∀ f g, a.file = some f → b.file = some g → ReportsEqual w f g) := by
          intro es
          induction es with
          | nil => intro _ _; exact .nil
          | cons e es ih =>
            intro he hpw
            obtain ⟨f, hf, hfk, rfl⟩ := he e List.mem_cons_self
            rw [filesOf_cons_some rfl, List.pairwise_cons] at hpw
            rw [List.pairwise_cons]
            refine ⟨?_, ih (fun e' he' => he e' (List.mem_cons_of_mem _ he')) hpw.2⟩
            intro b hb hab f' g' hf' hg'
            obtain ⟨g, hg, hgk, rfl⟩ := he b (List.mem_cons_of_mem _ hb)
            simp only [mark, Option.some.injEq] at hf' hg'
            subst hf'; subst hg'
            refine hpw.1 g (mem_filesOf.mpr ⟨_, hb, rfl⟩) ?_ hab
            rw [hfk]; exact h3
        exact key es hent h1
    · have h2 : es.length = 2 := by have := (hm k).mp hk; omega
      match es, h2 with
      | [a, b], _ =>
        obtain ⟨f, hf, hfk, ea⟩ := hent a List.mem_cons_self
        obtain ⟨g, hg, hgk, eb⟩ := hent b (List.mem_cons_of_mem _ List.mem_cons_self)
        have hfa : a.file = some f := by rw [ea]; rfl
        have hgb : b.file = some g := by rw [eb]; rfl
        have hpw := hret.pairwise k _ hfp
        rw [filesOf_cons_some hfa, filesOf_cons_some hgb, List.pairwise_cons] at hpw
        exact outer_two w json k a b f g 0 hfa hgb (hpw.1 g List.mem_cons_self)
  obtain ⟨gs, lg, ec⟩ := classes_completes w json (fun k => (cls l k).map (mark w json cands)) ks hall
  rw [ec] at e
  exact ⟨_, gs, e, rfl⟩

/-! ## C13, C17, C18 under conditions on the files -/

/-- Files that can be read: the size is the length of the content, the digest is computed, and
comparisons decide equality. -/
structure Readable (w : World η) (cands : List FileEnt) (content : FileEnt → Bytes) (H : Bytes → η) : Prop where
  size : ∀ f ∈ cands, f.size = (content f).length
  dig : ∀ f ∈ cands, w.dig f = some (H (content f))
  fc : ∀ f ∈ cands, ∀ g ∈ cands, f.size = g.size → ∀ r0, ∃ v, w.fc f g r0 = .ok (true, v) ∧ (v = 0 ↔ content f = content g)

omit [DecidableEq η] in
theorem digestOf_eq {w : World η} {json : Bool} {cands : List FileEnt} {f g : FileEnt} (hs : f.size = g.size)
    (h : (w.dig f).getD (w.junk f) = (w.dig g).getD (w.junk g)) : digestOf w json cands f = digestOf w json cands g := by
  unfold digestOf mark
  simp only [hs, h]

/-- **C13.** If the candidates can be read and no two of the same size and different contents have the
same digest, the run completes and reports exactly the sets of identical files. -/
theorem report_all_duplicates_partial (w : World η) (json : Bool) (cands : List FileEnt) (content : FileEnt → Bytes) (H : Bytes → η)
    (hl : Limits w cands) (ho : HashOrder w.hcmp) (hq : Sorts w) (hr : Readable w cands content H)
    (hcol : ∀ f ∈ cands, ∀ g ∈ cands, f.size = g.size → H (content f) = H (content g) → content f = content g) :
    ∃ out gs, ftwin w json cands = .ok out ∧ out.groups = some gs ∧ Exact content cands (gs.map (·.files)) := by
  obtain ⟨out, gs, e1, e2⟩ := report_completes w json cands hl ho hq
    (by intro f hf g hg hs _ r0; obtain ⟨v, e, -⟩ := hr.fc f hf g hg hs r0; exact ⟨_, e⟩)
    (by
      intro f hf g hg hs _ h3 hd r0
      obtain ⟨v, e, hv⟩ := hr.fc f hf g hg hs r0
      have hc : content f = content g := by
        by_cases hz : f.size = 0
        · have h1 := hr.size f hf
          have h2 := hr.size g hg
          rw [List.length_eq_zero_iff.mp (h1.symm.trans hz), List.length_eq_zero_iff.mp (h2.symm.trans (hs.symm.trans hz))]
        · have hnd : direct json cands f.size = false := by
            have : cnt cands f.size ≠ 2 := by unfold cnt; omega
            simp [direct, this, hz]
          unfold digestOf mark at hd
          simp only [← hs, hnd, hr.dig f hf, hr.dig g hg, Option.getD_some] at hd
          exact hcol f hf g hg hs hd
      rw [e, hv.mpr hc])
  refine ⟨out, gs, e1, e2, report_exact w json cands content out gs hl ho hq ?_ ?_ ?_ e1 e2⟩
  · intro f hf g hg h
    rw [hr.size f hf, hr.size g hg, h]
  · intro f hf g hg hs _ r0 o v h
    obtain ⟨v', e, hv⟩ := hr.fc f hf g hg hs r0
    rw [e] at h
    simp only [Res.ok.injEq, Prod.mk.injEq] at h
    rw [← hv, ← h.1, ← h.2]; simp
  · intro f hf g hg hs _ hc
    refine digestOf_eq hs ?_
    rw [hr.dig f hf, hr.dig g hg, hc]
    rfl

theorem exact_cover {κ : Type} [DecidableEq κ] {key : FileEnt → κ} {cands : List FileEnt} {gs gs' : List (List FileEnt)}
    (h : Exact key cands gs) (h' : Exact key cands gs') : ∀ g ∈ gs, ∃ g' ∈ gs', g.Perm g' := by
  intro g hg
  obtain ⟨h2, f, hf, hp⟩ := h.whole g hg
  obtain ⟨g', hg', hfg⟩ := h'.all f hf (by rw [← hp.length_eq]; exact h2)
  obtain ⟨-, f', hf', hp'⟩ := h'.whole g' hg'
  have hk : key f = key f' := by
    have := hp'.subset hfg
    rw [List.mem_filter] at this
    simpa using this.2
  refine ⟨g', hg', hp.trans ?_⟩
  rw [hk]; exact hp'.symm

/-- **C18.** When both reports complete, they list the same groups up to order, for every hash
function.  (That they complete is C13 and C17.) -/
theorem text_json_agree (w : World η) (cands : List FileEnt) (content : FileEnt → Bytes) (H : Bytes → η)
    (hl : Limits w cands) (ho : HashOrder w.hcmp) (hq : Sorts w) (hr : Readable w cands content H)
    (ot oj : Outcome η) (gt gj : List (Group η)) (ht : ftwin w false cands = .ok ot) (hj : ftwin w true cands = .ok oj)
    (egt : ot.groups = some gt) (egj : oj.groups = some gj) :
    (∀ g ∈ gt, ∃ g' ∈ gj, g.files.Perm g'.files) ∧ (∀ g ∈ gj, ∃ g' ∈ gt, g.files.Perm g'.files) := by
  have hex : ∀ json out gs, ftwin w json cands = .ok out → out.groups = some gs → Exact content cands (gs.map (·.files)) := by
    intro json out gs e1 e2
    refine report_exact w json cands content out gs hl ho hq ?_ ?_ ?_ e1 e2
    · intro f hf g hg h
      rw [hr.size f hf, hr.size g hg, h]
    · intro f hf g hg hs _ r0 o v h
      obtain ⟨v', e, hv⟩ := hr.fc f hf g hg hs r0
      rw [e] at h
      simp only [Res.ok.injEq, Prod.mk.injEq] at h
      rw [← hv, ← h.1, ← h.2]; simp
    · intro f hf g hg hs _ hc
      refine digestOf_eq hs ?_
      rw [hr.dig f hf, hr.dig g hg, hc]
      rfl
  have h1 := hex false ot gt ht egt
  have h2 := hex true oj gj hj egj
  refine ⟨?_, ?_⟩
  · intro g hg
    obtain ⟨x, hx, p⟩ := exact_cover h1 h2 g.files (List.mem_map_of_mem hg)
    rw [List.mem_map] at hx
    obtain ⟨g', hg', rfl⟩ := hx
    exact ⟨g', hg', p⟩
  · intro g hg
    obtain ⟨x, hx, p⟩ := exact_cover h2 h1 g.files (List.mem_map_of_mem hg)
    rw [List.mem_map] at hx
    obtain ⟨g', hg', rfl⟩ := hx
    exact ⟨g', hg', p⟩

/-- What a user may regard as identical when some files cannot be read: readable files by content,
unreadable ones only as themselves. -/
def keyOf (readable : FileEnt → Bool) (content : FileEnt → Bytes) (f : FileEnt) : Bytes ⊕ FileEnt :=
  if readable f then .inl (content f) else .inr f

/-- **C17** (part).  Files that cannot be read, whose digest field keeps what was in memory and all of
whose comparisons fail, are skipped and the other duplicates are listed, if the leftover digests differ from every
other digest in their size class.  What is missing is C17's arbitrary pattern of failures: see
`failing_comparison_crashes`. -/
theorem report_skips_unreadable_partial (w : World η) (json : Bool) (cands : List FileEnt) (content : FileEnt → Bytes) (H : Bytes → η)
    (readable : FileEnt → Bool) (hl : Limits w cands) (ho : HashOrder w.hcmp) (hq : Sorts w)
    (hsz : ∀ f ∈ cands, readable f = true → f.size = (content f).length) (hnz : ∀ f ∈ cands, readable f = false → f.size ≠ 0)
    (hdig : ∀ f ∈ cands, w.dig f = if readable f then some (H (content f)) else none)
    (hfc : ∀ f ∈ cands, ∀ g ∈ cands, f.size = g.size → readable f = true → readable g = true →
      ∀ r0, ∃ v, w.fc f g r0 = .ok (true, v) ∧ (v = 0 ↔ content f = content g))
    (hfail : ∀ f ∈ cands, ∀ g ∈ cands, f.size = g.size → readable f = false ∨ readable g = false → ∀ r0, ∃ v, w.fc f g r0 = .ok (false, v))
    (hone : ∀ f ∈ cands, readable f = false → cands.count f = 1)
    (hcol : ∀ f ∈ cands, ∀ g ∈ cands, f.size = g.size → readable f = true → readable g = true → H (content f) = H (content g) → content f = content g)
    (hjunk : ∀ f ∈ cands, ∀ g ∈ cands, f.size = g.size → f ≠ g → readable f = false → w.junk f ≠ (w.dig g).getD (w.junk g)) :
    ∃ out gs, ftwin w json cands = .ok out ∧ out.groups = some gs ∧ Exact (keyOf readable content) cands (gs.map (·.files)) := by
  -- a pair at two places: either both readable, or different files one of which is not
  have hpair : Pairs cands (fun f g => f.size = g.size ∧ ((readable f = true ∧ readable g = true) ∨ (f ≠ g ∧ (readable f = false ∨ readable g = false)))) := by
    intro f hf g hg hs hcnt
    refine ⟨hs, ?_⟩
    cases hrf : readable f with
    | false =>
      refine Or.inr ⟨?_, Or.inl rfl⟩
      intro h
      have := hcnt h
      rw [hone f hf hrf] at this; omega
    | true =>
      cases hrg : readable g with
      | true => exact Or.inl ⟨rfl, rfl⟩
      | false =>
        refine Or.inr ⟨?_, Or.inr rfl⟩
        rintro rfl; rw [hrf] at hrg; cases hrg
  have hkey : ∀ f g, f ≠ g → (readable f = false ∨ readable g = false) → keyOf readable content f ≠ keyOf readable content g := by
    intro f g hne hor heq
    unfold keyOf at heq
    rcases hor with h | h
    · rw [h] at heq
      cases hg : readable g with
      | true => rw [hg] at heq; simp at heq
      | false => rw [hg] at heq; simp at heq; exact hne heq
    · rw [h] at heq
      cases hf : readable f with
      | true => rw [hf] at heq; simp at heq
      | false => rw [hf] at heq; simp at heq; exact hne heq
  have hkey2 : ∀ f g, readable f = true → readable g = true → (keyOf readable content f = keyOf readable content g ↔ content f = content g) := by
    intro f g h1 h2
    simp [keyOf, h1, h2]
  obtain ⟨out, gs, e1, e2⟩ := report_completes w json cands hl ho hq
    (by
      intro f hf g hg hs hcnt r0
      rcases (hpair f hf g hg hs hcnt).2 with ⟨h1, h2⟩ | ⟨-, h⟩
      · obtain ⟨v, e, -⟩ := hfc f hf g hg hs h1 h2 r0; exact ⟨_, e⟩
      · obtain ⟨v, e⟩ := hfail f hf g hg hs h r0; exact ⟨_, e⟩)
    (by
      intro f hf g hg hs hcnt h3 hd r0
      by_cases hz : f.size = 0
      · have r1 : readable f = true := by
          cases h : readable f with
          | true => rfl
          | false => exact absurd hz (hnz f hf h)
        have r2 : readable g = true := by
          cases h : readable g with
          | true => rfl
          | false => exact absurd (hs.symm.trans hz) (hnz g hg h)
        obtain ⟨v, e, hv⟩ := hfc f hf g hg hs r1 r2 r0
        have h1 := hsz f hf r1
        have h2 := hsz g hg r2
        rw [e, hv.mpr]
        rw [List.length_eq_zero_iff.mp (h1.symm.trans hz), List.length_eq_zero_iff.mp (h2.symm.trans (hs.symm.trans hz))]
      · have hnd : direct json cands f.size = false := by
          have : cnt cands f.size ≠ 2 := by unfold cnt; omega
          simp [direct, this, hz]
        unfold digestOf mark at hd
        simp only [← hs, hnd] at hd
        rcases (hpair f hf g hg hs hcnt).2 with ⟨h1, h2⟩ | ⟨hne, h⟩
        · obtain ⟨v, e, hv⟩ := hfc f hf g hg hs h1 h2 r0
          rw [hdig f hf, hdig g hg, h1, h2] at hd
          rw [e, hv.mpr (hcol f hf g hg hs h1 h2 (by simpa using hd))]
        · exfalso
          rcases h with h | h
          · refine hjunk f hf g hg hs hne h ?_
            rw [← show (w.dig f).getD (w.junk f) = w.junk f by rw [hdig f hf, h]; rfl]
            simpa using hd
          · refine hjunk g hg f hf hs.symm hne.symm h ?_
            rw [← show (w.dig g).getD (w.junk g) = w.junk g by rw [hdig g hg, h]; rfl]
            simpa using hd.symm)
  refine ⟨out, gs, e1, e2, report_exact w json cands (keyOf readable content) out gs hl ho hq ?_ ?_ ?_ e1 e2⟩
  · intro f hf g hg h
    by_cases heq : f = g
    · rw [heq]
    · cases h1 : readable f with
      | false => exact absurd h (hkey f g heq (Or.inl h1))
      | true =>
        cases h2 : readable g with
        | false => exact absurd h (hkey f g heq (Or.inr h2))
        | true => rw [hsz f hf h1, hsz g hg h2, (hkey2 f g h1 h2).mp h]
  · intro f hf g hg hs hcnt r0 o v h
    rcases (hpair f hf g hg hs hcnt).2 with ⟨h1, h2⟩ | ⟨hne, h'⟩
    · obtain ⟨v', e, hv⟩ := hfc f hf g hg hs h1 h2 r0
      rw [e] at h
      simp only [Res.ok.injEq, Prod.mk.injEq] at h
      rw [hkey2 f g h1 h2, ← hv, ← h.1, ← h.2]; simp
    · obtain ⟨v', e⟩ := hfail f hf g hg hs h' r0
      rw [e] at h
      simp only [Res.ok.injEq, Prod.mk.injEq] at h
      rw [← h.1]
      simp only [Bool.false_eq_true, false_and, false_iff]
      exact hkey f g hne h'
  · intro f hf g hg hs hcnt hc
    rcases (hpair f hf g hg hs hcnt).2 with ⟨h1, h2⟩ | ⟨hne, h'⟩
    · refine digestOf_eq hs ?_
      rw [hdig f hf, hdig g hg, h1, h2, (hkey2 f g h1 h2).mp hc]
      rfl
    · exact absurd hc (hkey f g hne h')

/-! ## C31 -/

/-- **C31.** After any sequence of files was offered, the table of sizes has an entry for
exactly the sizes of the files offered, each record counts the files of its size, and the heap holds the
files offered. -/
theorem offered_files_counted (w : World η) (fs : List FileEnt) (hl : Limits w fs) :
    ∃ c, fs.foldlM (addFile w) (conf0 η) = .ok c ∧
      (∀ k, Hash.search (sizeFns w) c.sizes k = .ok (if ∃ f ∈ fs, f.size = k then some k else none)) ∧
      (∀ f ∈ fs, (c.recs f.size).nb = fs.countP (fun g => g.size = f.size)) ∧
      ∃ t, Heap.Holds c.heap t ∧ t.Perm fs := by
  obtain ⟨c, e1, hpop⟩ := populate w fs [] (conf0 η) (conf0_pop w)
    (SizesOk.mono hl.sizes (by intro f hf; simpa using hf)) (by simpa using hl.len) (by simpa using hl.fuel)
  rw [List.append_nil] at hpop
  have hcr : ∀ k, cnt fs.reverse k = fs.countP (fun f => f.size = k) := cnt_perm (List.reverse_perm _)
  refine ⟨c, e1, ?_, ?_, ?_⟩
  · intro k
    rw [Hash.search_abs hpop.sizes k]
    simp only [present, cnt_pos, List.mem_reverse]
  · intro f hf
    rw [hpop.recs f.size (cnt_pos.mpr ⟨f, by simpa using hf, rfl⟩)]
    exact hcr f.size
  · obtain ⟨t, H, ho, hp⟩ := hpop.heap
    exact ⟨t, H, hp.trans (List.reverse_perm _)⟩

end Verif.Report
