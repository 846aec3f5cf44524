import Verif.Archive.Props

/-! # Helper lemmas for hashing and comparing with `-t` -/

namespace Verif.Archive

open Verif.Report (FileEnt)

theorem undo_extract (w : World) (hw : w.Fresh) {st s1 : St} {path sub p : String} (h : untarFile w st path sub = (some p, s1)) :
    setFile s1.files p none = st.files := by
  obtain ⟨h1, -, h3, -⟩ := untar_extracts_partial w hw _ _ _ _ _ h
  funext q
  by_cases hq : q = p
  · subst hq; rw [setFile_same, h1]
  · rw [setFile_other _ _ hq, h3 q hq]

theorem means_file (w : World) (st : St) (untar : Bool) (f : ArcFile) (h : memberOf untar f = .ok none) : Means w st untar f (st.files f.ent.path) := by
  obtain ⟨e, s⟩ := f
  cases untar <;> cases s <;> simp_all [memberOf, getSub, Means]

theorem means_member (w : World) (st : St) (untar : Bool) (f : ArcFile) {sub : String} (h : memberOf untar f = .ok (some sub)) (o : Option (List UInt8)) :
    Means w st untar f o ↔ ∃ c, Member (w.archives f.ent.path) sub c ∧ o = some c := by
  obtain ⟨e, s⟩ := f
  cases untar <;> cases s <;> simp_all [memberOf, getSub, Means]

/-- What `fetch` does to the disk. -/
theorem fetch_some (w : World) (hw : w.Fresh) {st s1 : St} {f : ArcFile} {m : Option String} {p : String} (hm : getSub f.sub = .ok m)
    (h : fetch w st f m = (some p, s1)) :
    (if m.isSome then setFile s1.files p none else s1.files) = st.files ∧
      (m.isSome → st.files p = none) ∧ (m.isNone → s1 = st ∧ p = f.ent.path) ∧ (∀ q, q ≠ p → s1.files q = st.files q) ∧
      (∀ s0, s0.files f.ent.path = st.files f.ent.path → Means w s0 true f (s1.files p)) := by
  have hm' : memberOf true f = .ok m := hm
  cases m with
  | none =>
    simp only [fetch, Prod.mk.injEq, Option.some.injEq] at h
    obtain ⟨rfl, rfl⟩ := h
    refine ⟨by simp, by simp, fun _ => ⟨rfl, rfl⟩, fun _ _ => rfl, ?_⟩
    intro s0 h0
    rw [← h0]
    exact means_file w s0 true f hm'
  | some sub =>
    have h' : untarFile w st f.ent.path sub = (some p, s1) := h
    obtain ⟨h1, ⟨c, hc, hp⟩, h3, -⟩ := untar_extracts_partial w hw _ _ _ _ _ h'
    refine ⟨by simpa using undo_extract w hw h', fun _ => h1, by simp, h3, ?_⟩
    intro s0 _
    rw [means_member w s0 true f hm']
    exact ⟨c, hc, hp⟩

theorem fetch_none (w : World) (hw : w.Fresh) {st s1 : St} {f : ArcFile} {m : Option String} (h : fetch w st f m = (none, s1)) : s1.files = st.files := by
  cases m with
  | none => simp [fetch] at h
  | some sub => exact (untar_fails_partial w hw _ _ _ _ h).1

theorem compare_cases {ρ : Type} (w : World) (hw : w.Fresh) (untar : Bool) (cmp : Option (List UInt8) → Option (List UInt8) → ρ) (st st' : St) (f g : ArcFile)
    (r : Option ρ) (h : compareFiles w untar cmp st f g = .ok (r, st')) :
    st'.files = st.files ∧ (st.files f.ent.path ≠ none → st.files g.ent.path ≠ none → ∀ x, r = some x →
      ∃ a b, Means w st untar f a ∧ Means w st untar g b ∧ x = cmp a b) := by
  cases untar with
  | false =>
    simp only [compareFiles, comparisonPaths, cleanup, Bool.false_eq_true, if_false, Res.ok_bind, Res.ok.injEq, Prod.mk.injEq] at h
    obtain ⟨rfl, rfl⟩ := h
    refine ⟨rfl, fun _ _ x hx => ?_⟩
    injection hx with hx
    exact ⟨_, _, means_file w st false f rfl, means_file w st false g rfl, hx.symm⟩
  | true =>
    unfold compareFiles comparisonPaths at h
    rw [if_pos rfl] at h
    obtain ⟨x0, h0, h⟩ := Res.bind_eq_ok.mp h
    obtain ⟨m, hm, h0⟩ := Res.bind_eq_ok.mp h0
    cases hf : fetch w st f m with
    | mk o s1 =>
      cases o with
      | none =>
        simp only [hf, Res.ok.injEq] at h0
        subst h0
        simp only [Res.ok.injEq, Prod.mk.injEq] at h
        obtain ⟨rfl, rfl⟩ := h
        exact ⟨fetch_none w hw hf, fun _ _ x hx => by cases hx⟩
      | some p =>
        simp only [hf] at h0
        obtain ⟨m2, hm2, h0⟩ := Res.bind_eq_ok.mp h0
        obtain ⟨f1, f2, f3, f4, f5⟩ := fetch_some w hw hm hf
        cases hg : fetch w s1 g m2 with
        | mk o s2 =>
          cases o with
          | none =>
            simp only [hg, Res.ok.injEq] at h0
            subst h0
            simp only [Res.ok.injEq, Prod.mk.injEq] at h
            obtain ⟨rfl, rfl⟩ := h
            refine ⟨?_, fun _ _ x hx => by cases hx⟩
            have hn := fetch_none w hw hg
            cases m with
            | none => simp only [Option.isSome_none, Bool.false_eq_true, if_false] at f1 ⊢; rw [hn]; exact f1
            | some _ => simp only [Option.isSome_some, if_true] at f1 ⊢; rw [hn]; exact f1
          | some q =>
            simp only [hg, Res.ok.injEq] at h0
            subst h0
            obtain ⟨g1, g2, g3, g4, g5⟩ := fetch_some w hw hm2 hg
            simp only [cleanup, if_true, hm, hm2, Res.ok_bind, Res.ok.injEq, Prod.mk.injEq] at h
            obtain ⟨rfl, rfl⟩ := h
            have hps : m.isSome → s1.files p ≠ none := by
              intro hs
              cases m with
              | none => cases hs
              | some sub =>
                obtain ⟨-, ⟨c, -, hp⟩, -⟩ := untar_extracts_partial w hw _ _ _ _ _ (show untarFile w st f.ent.path sub = (some p, s1) from hf)
                rw [hp]; simp
            refine ⟨?_, fun hfe hge x hx => ?_⟩
            · cases m with
              | none =>
                simp only [Option.isSome_none, Bool.false_eq_true, if_false] at f1 ⊢
                rw [← f1, ← g1]
                cases m2 <;> rfl
              | some sub =>
                simp only [Option.isSome_some, if_true] at f1 f2 hps ⊢
                cases m2 with
                | none =>
                  simp only [Option.isSome_none, Bool.false_eq_true, if_false] at g1 ⊢
                  rw [g1]; exact f1
                | some sub2 =>
                  simp only [Option.isSome_some, if_true] at g1 g2 ⊢
                  have hqp : q ≠ p := by intro e; subst e; exact hps trivial (g2 trivial)
                  rw [← f1, ← g1]
                  funext y
                  simp only [setFile]
                  by_cases h1 : y = q <;> by_cases h2 : y = p <;> simp [h1, h2]
            · injection hx with hx
              have hpq : s2.files p = s1.files p := by
                by_cases hpq : p = q
                · cases m2 with
                  | none => rw [(g3 rfl).1]
                  | some _ =>
                    have hq := g2 rfl
                    rw [← hpq] at hq
                    cases m with
                    | some _ => exact absurd hq (hps rfl)
                    | none =>
                      obtain ⟨e1, e2⟩ := f3 rfl
                      rw [e1, e2] at hq
                      exact absurd hq hfe
                · exact g4 p hpq
              refine ⟨_, _, f5 st rfl, g5 st ?_, ?_⟩
              · symm
                cases m with
                | some _ => exact f4 _ (fun e => hge (by rw [e]; exact f2 rfl))
                | none => rw [(f3 rfl).1]
              · rw [← hx, hpq]

theorem makeFile_sub (f : FileEnt) (s : Option String) : ∃ m, getSub (makeFile f s).sub = .ok m := by
  unfold makeFile
  cases s with
  | none => exact ⟨_, rfl⟩
  | some s => by_cases h : f.path = s <;> simp [h, getSub]

section
variable {η : Type} [DecidableEq η] (w : Report.World η) (hfc : ∀ f g r, w.fc f g r = .ub)
include hfc

theorem inner_ub (json : Bool) (f : FileEnt) (h : η) (es : List (Report.Entry η)) (r : Int) (x : Report.Inner η)
    (hx : Report.inner w json f h es r = .ok x) : x.dups = [] ∧ x.log = [] := by
  cases es with
  | nil => simp only [Report.inner, Res.ok.injEq] at hx; subst hx; exact ⟨rfl, rfl⟩
  | cons e es =>
    unfold Report.inner at hx
    by_cases he : h = e.hash
    · rw [if_pos he] at hx
      cases hf : e.file with
      | none => simp [hf] at hx
      | some g => simp [hf, hfc] at hx
    · rw [if_neg he] at hx
      simp only [Res.ok.injEq] at hx; subst hx; exact ⟨rfl, rfl⟩

theorem outer_ub (json : Bool) (size : Nat) : ∀ (n : Nat) (es : List (Report.Entry η)) (r : Int) (x : List (Report.Group η) × List (FileEnt × FileEnt)),
    Report.outer w json size n es r = .ok x → x = ([], []) := by
  intro n
  induction n with
  | zero => intro es r x h; simp only [Report.outer, Res.ok.injEq] at h; exact h.symm
  | succ n ih =>
    intro es r x h
    cases es with
    | nil => simp [Report.outer] at h
    | cons e es =>
      unfold Report.outer at h
      cases hf : e.file with
      | none => simp only [hf] at h; exact ih _ _ _ h
      | some f =>
        simp only [hf] at h
        obtain ⟨y, hy, h⟩ := Res.bind_eq_ok.mp h
        obtain ⟨z, hz, h⟩ := Res.bind_eq_ok.mp h
        have hz' := ih _ _ _ hz
        subst hz'
        obtain ⟨h1, h2⟩ := inner_ub w hfc json f e.hash es r y hy
        simp only [h1, h2, if_true, List.append_nil, Res.ok.injEq] at h
        exact h.symm

theorem report_ub (json : Bool) (sizes : Hash.Table Nat) : ∀ (fs : List FileEnt) (recs : Nat → Report.FSize η) (old : Option Nat) (x : Report.Report η),
    Report.report w json sizes fs recs old = .ok x → x.2 = [] ∧ (x.1 = none ∨ x.1 = some []) := by
  intro fs
  induction fs with
  | nil => intro recs old x h; simp only [Report.report, Res.ok.injEq] at h; subst h; exact ⟨rfl, .inr rfl⟩
  | cons f fs ih =>
    intro recs old x h
    unfold Report.report at h
    by_cases ho : old = some f.size
    · rw [if_pos ho] at h; exact ih _ _ _ h
    · rw [if_neg ho] at h
      obtain ⟨o, -, h⟩ := Res.bind_eq_ok.mp h
      cases o with
      | none => simp only [Res.ok.injEq] at h; subst h; exact ⟨rfl, .inl rfl⟩
      | some p =>
        simp only at h
        obtain ⟨es, -, h⟩ := Res.bind_eq_ok.mp h
        obtain ⟨y, hy, h⟩ := Res.bind_eq_ok.mp h
        obtain ⟨z, hz, h⟩ := Res.bind_eq_ok.mp h
        have := outer_ub w hfc json p _ _ _ _ hy
        subst this
        obtain ⟨h1, h2⟩ := ih _ _ _ hz
        obtain ⟨z1, z2⟩ := z
        simp only at h1 h2
        subst h1
        simp only [List.nil_append, Res.ok.injEq] at h
        subst h
        refine ⟨rfl, ?_⟩
        rcases h2 with rfl | rfl
        · exact .inl rfl
        · exact .inr rfl

theorem processAndReport_ub (json : Bool) (n : Nat) (c : Report.Conf η) (out : Report.Outcome η) (h : Report.processAndReport w json n c = .ok out) :
    out.compared = [] ∧ (out.groups = none ∨ out.groups = some []) := by
  unfold Report.processAndReport at h
  obtain ⟨l, -, h⟩ := Res.bind_eq_ok.mp h
  obtain ⟨cat, -, h⟩ := Res.bind_eq_ok.mp h
  by_cases hc : cat.ok = false
  · rw [if_pos hc] at h
    simp only [Res.ok.injEq] at h; subst h; exact ⟨rfl, .inl rfl⟩
  · rw [if_neg hc] at h
    obtain ⟨ps, -, h⟩ := Res.bind_eq_ok.mp h
    obtain ⟨x, -, h⟩ := Res.bind_eq_ok.mp h
    obtain ⟨l2, -, h⟩ := Res.bind_eq_ok.mp h
    obtain ⟨y, hy, h⟩ := Res.bind_eq_ok.mp h
    simp only [Res.ok.injEq] at h
    subst h
    exact report_ub w hfc json _ _ _ _ _ hy

end

end Verif.Archive
