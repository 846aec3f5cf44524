import Verif.Main.Example
import Verif.Output.Recipe

/-!
# The clean-up recipe of the README (C117)

The first theorem says what is left after the recipe, the second what is lost when a file is offered twice.
-/

namespace Verif.Main

open Verif.Ignore (Ctx)
open Verif.Report (FileEnt World Exact)
open Verif.Traverse (Path scanArgs exFS)
open Verif.Config (Tok chars lastArg given Valid)
open Verif.Output (recipe hasWord Survives)

/-- What names stand for in the file system: `own` is the directory entry that `rm` removes, `uses` has the entries without which the file cannot be read under the name, its own and, if that is a link, the entry
the link leads to. -/
structure Entries (ε : Type) where
  own : List Char → ε
  uses : List Char → List ε
  self : ∀ p, own p ∈ uses p

/-- The file can still be read under its name when the names `rm` have been given to `rm`. -/
def Left (d : Entries ε) (rm : List (List Char)) (f : FileEnt) : Prop := ∀ p ∈ rm, d.own p ∉ d.uses f.path.toList

/-- Each file is found under one name, and not through a link to another one that is found. -/
def Apart (d : Entries ε) (cands : List FileEnt) : Prop :=
  cands.Pairwise fun f g => d.own f.path.toList ∉ d.uses g.path.toList ∧ d.own g.path.toList ∉ d.uses f.path.toList

/-- Two files that can be read have the same bytes. -/
def Twins (m : Machine) (f g : FileEnt) : Prop :=
  (m.disk f.path).openOk = true ∧ (m.disk g.path).openOk = true ∧ (m.disk f.path).bytes = (m.disk g.path).bytes

/-! ## Lemmas -/

theorem exact_same {κ : Type} [DecidableEq κ] {key : FileEnt → κ} {cands : List FileEnt} {gs : List (List FileEnt)} (h : Exact key cands gs)
    {g k : List FileEnt} (hg : g ∈ gs) (hk : k ∈ gs) {a b : FileEnt} (ha : a ∈ g) (hb : b ∈ k) (e : key a = key b) : g = k := by
  obtain ⟨i, hi, rfl⟩ := List.mem_iff_getElem.mp hg
  obtain ⟨j, hj, rfl⟩ := List.mem_iff_getElem.mp hk
  have hp := List.pairwise_iff_getElem.mp h.once
  rcases Nat.lt_trichotomy i j with hij | rfl | hij
  · exact absurd e (hp i j hi hj hij a ha b hb)
  · rfl
  · exact absurd e.symm (hp j i hj hi hij b hb a ha)

theorem twins_iff {m : Machine} {f g : FileEnt} (hf : (m.disk f.path).openOk = true) (hg : (m.disk g.path).openOk = true) :
    identity m f = identity m g ↔ (m.disk f.path).bytes = (m.disk g.path).bytes := by
  unfold identity
  rw [if_pos hf, if_pos hg]
  exact ⟨fun h => Sum.inl.inj h, fun h => by rw [h]⟩

theorem ofList_path {f g : FileEnt} (h : f.path.toList = g.path.toList) : f.path = g.path := String.toList_inj.mp h

theorem Apart.once {d : Entries ε} {cands : List FileEnt} (h : Apart d cands) : (cands.map (·.path)).Nodup := by
  unfold List.Nodup
  rw [List.pairwise_map]
  exact h.imp fun hfg e => hfg.1 (by rw [e]; exact d.self _)

theorem Apart.filter {d : Entries ε} {cands : List FileEnt} (h : Apart d cands) (q : FileEnt → Bool) : Apart d (cands.filter q) := List.Pairwise.filter q h

theorem Apart.ne {d : Entries ε} {cands : List FileEnt} (h : Apart d cands) {f g : FileEnt} (hf : f ∈ cands) (hg : g ∈ cands) (hne : f ≠ g) :
    d.own f.path.toList ∉ d.uses g.path.toList := by
  obtain ⟨i, hi, rfl⟩ := List.mem_iff_getElem.mp hf
  obtain ⟨j, hj, rfl⟩ := List.mem_iff_getElem.mp hg
  have hp := List.pairwise_iff_getElem.mp h
  rcases Nat.lt_trichotomy i j with hij | rfl | hij
  · exact (hp i j hi hj hij).1
  · exact absurd rfl hne
  · exact (hp j i hj hi hij).2

/-- If the names removed are names of files found, a file is left exactly if its name is not one of them. -/
theorem Apart.left_iff {d : Entries ε} {cands : List FileEnt} (h : Apart d cands) {rm : List (List Char)} (hrm : ∀ p ∈ rm, ∃ f ∈ cands, f.path.toList = p) {f : FileEnt} (hf : f ∈ cands) :
    Left d rm f ↔ f.path.toList ∉ rm := by
  constructor
  · intro hl hm; exact hl _ hm (d.self _)
  · intro hn p hp hu
    obtain ⟨g, hg, rfl⟩ := hrm p hp
    by_cases e : g = f
    · subst e; exact hn hp
    · exact h.ne hg hf e hu

/-- What a run for the recipe prints, and what the recipe makes of it. -/
theorem recipe_run (m : Machine) (pz : Image.Puzzle ν δ) (level : Nat → δ) (evs : List (Pool.Ev Nat)) (ts : List Tok) (args : List Path)
    (hu : Usable m ts) (ha : Accepted m ts args) (hI : 'I' ∉ chars ts) (ht : 't' ∉ chars ts) (hJ : 'J' ∉ chars ts) (hd : 'd' ∉ chars ts)
    (hs : separator ts = ',') (htty : m.tty = false)
    {globals : List Ctx} (hgl : Traverse.globalChain m.engine = .ok globals) {cands : List FileEnt}
    (hscan : scanArgs (asked m globals ts) m.fs m.depth (place m ts) args = .ok (true, cands)) (hne : cands ≠ []) (hq : Calm m cands)
    (hname : ∀ f ∈ cands, Survives f.path.toList) :
    ∃ (t : List Char) (gs : List (List FileEnt)), ftwinMain m pz level evs ts args = .ok (0, .text t) ∧ Exact (identity m) cands gs ∧
      (∀ g ∈ gs, g.Pairwise (fun a b => b.prio = true → a.prio = true)) ∧
      ∀ word, recipe word t = ((gs.filterMap List.head?).map (·.path.toList)).filter (hasWord word) := by
  obtain ⟨out, gs, ho, hg, hex⟩ := calm_report m ts cands hq false
  have hl : Report.Limits (reader m ts) cands := ⟨hq.limits.len, hq.limits.fuel, hq.limits.sizes⟩
  have hrun := whole_run m pz level evs ts args hu ha hI ht hgl hscan hne
  rw [decide_eq_false hJ, ho, Res.ok_bind, hg] at hrun
  dsimp only [presented] at hrun
  rw [if_neg hJ, hs, htty, decide_eq_false hd] at hrun
  refine ⟨_, gs.map (·.files), hrun, hex, ?_, fun word => ?_⟩
  · intro g' hg'
    obtain ⟨g, hgm, rfl⟩ := List.mem_map.mp hg'
    exact Report.report_prioritised_first (reader m ts) false cands out gs hl hq.order ⟨hq.sorts.perm, hq.sorts.sorted⟩ ho hg g hgm
  · rw [Output.recipe_names (reader m ts) cands out gs hl hq.sorts.perm ho hg hname word, List.filterMap_map]
    rfl

/-! ## Theorems -/

/-- The first theorem below in terms of names. -/
theorem recipe_keeps_names (m : Machine) (pz : Image.Puzzle ν δ) (level : Nat → δ) (evs : List (Pool.Ev Nat)) (ts : List Tok) (args : List Path)
    (hu : Usable m ts) (ha : Accepted m ts args) (hI : 'I' ∉ chars ts) (ht : 't' ∉ chars ts) (hJ : 'J' ∉ chars ts) (hd : 'd' ∉ chars ts)
    (hs : separator ts = ',') (htty : m.tty = false)
    {globals : List Ctx} (hgl : Traverse.globalChain m.engine = .ok globals) {cands : List FileEnt}
    (hscan : scanArgs (asked m globals ts) m.fs m.depth (place m ts) args = .ok (true, cands)) (hne : cands ≠ []) (hq : Calm m cands)
    (hname : ∀ f ∈ cands, Survives f.path.toList) (honce : (cands.map (·.path)).Nodup) (word : List Char) :
    ∃ t : List Char, ftwinMain m pz level evs ts args = .ok (0, .text t) ∧
      (∀ p ∈ recipe word t, hasWord word p = true ∧ ∃ f ∈ cands, f.path.toList = p) ∧
      (∀ f ∈ cands, f.path.toList ∈ recipe word t → ∃ g ∈ cands, g.path.toList ∉ recipe word t ∧ Twins m f g) ∧
      (∀ f ∈ cands, ∀ g ∈ cands, f.path.toList ∈ recipe word t → g.path.toList ∈ recipe word t → Twins m f g → f = g) ∧
      ((∀ f ∈ cands, f.prio = true → hasWord word f.path.toList = true) →
        ∀ f ∈ cands, f.prio = true → (∃ g ∈ cands, g ≠ f ∧ Twins m f g) → ∃ f' ∈ cands, f'.prio = true ∧ Twins m f f' ∧ f'.path.toList ∈ recipe word t) := by
  obtain ⟨t, gs, hrun, hex, hprio, hrec⟩ := recipe_run m pz level evs ts args hu ha hI ht hJ hd hs htty hgl hscan hne hq hname
  have hmem : ∀ g ∈ gs, ∀ f ∈ g, f ∈ cands := by
    intro g hg f hf
    obtain ⟨-, x, -, hp⟩ := hex.whole g hg
    exact (List.mem_filter.mp (hp.subset hf)).1
  have hin : ∀ p, p ∈ recipe word t ↔ hasWord word p = true ∧ ∃ g ∈ gs, ∃ f, g.head? = some f ∧ f.path.toList = p := by
    intro p
    rw [hrec, List.mem_filter, List.mem_map]
    constructor
    · rintro ⟨⟨f, hf, rfl⟩, hw⟩
      obtain ⟨g, hg, hh⟩ := List.mem_filterMap.mp hf
      exact ⟨hw, g, hg, f, hh, rfl⟩
    · rintro ⟨hw, g, hg, f, hh, rfl⟩
      exact ⟨⟨f, List.mem_filterMap.mpr ⟨g, hg, hh⟩, rfl⟩, hw⟩
  have hinj : ∀ f ∈ cands, ∀ g ∈ cands, f.path = g.path → f = g := by
    intro f hf g hg e
    obtain ⟨i, hi, rfl⟩ := List.mem_iff_getElem.mp hf
    obtain ⟨j, hj, rfl⟩ := List.mem_iff_getElem.mp hg
    have := (List.getElem_inj (h₀ := by simpa using hi) (h₁ := by simpa using hj) honce).mp (show (cands.map (·.path))[i]'(by simpa using hi) = (cands.map (·.path))[j]'(by simpa using hj) by simpa using e)
    subst this; rfl
  have hhead : ∀ f ∈ cands, f.path.toList ∈ recipe word t → hasWord word f.path.toList = true ∧ ∃ g ∈ gs, g.head? = some f := by
    intro f hf hn
    obtain ⟨hw, g, hg, f', hh, e⟩ := (hin _).mp hn
    have := hinj f' (hmem g hg f' (List.mem_of_mem_head? hh)) f hf (ofList_path e)
    subst this
    exact ⟨hw, g, hg, hh⟩
  have hcn : cands.Nodup := (List.pairwise_map.mp honce).imp fun h e => h (by rw [e])
  refine ⟨t, hrun, ?_, ?_, ?_, ?_⟩
  · intro p hp
    obtain ⟨hw, g, hg, f, hh, e⟩ := (hin p).mp hp
    exact ⟨hw, f, hmem g hg f (List.mem_of_mem_head? hh), e⟩
  · intro f hf hn
    obtain ⟨-, g, hg, hh⟩ := hhead f hf hn
    obtain ⟨h2, x, hx, hp⟩ := hex.whole g hg
    match g, h2, hh, hp, hg with
    | a :: b :: rest, _, hh, hp, hg =>
      simp only [List.head?_cons, Option.some.injEq] at hh
      subst hh
      have hnd : (a :: b :: rest).Nodup := hp.nodup_iff.mpr (List.Nodup.sublist List.filter_sublist hcn)
      have hab : a ≠ b := by
        rw [List.nodup_cons] at hnd
        rintro rfl
        exact hnd.1 (by simp)
      have ha' := List.mem_filter.mp (hp.subset (show a ∈ a :: b :: rest by simp))
      have hb' := List.mem_filter.mp (hp.subset (show b ∈ a :: b :: rest by simp))
      have hk : identity m a = identity m b := by
        have e1 : identity m a = identity m x := by simpa using ha'.2
        have e2 : identity m b = identity m x := by simpa using hb'.2
        rw [e1, e2]
      have oa := hq.listed hex hg (show a ∈ a :: b :: rest by simp)
      have ob := hq.listed hex hg (show b ∈ a :: b :: rest by simp)
      refine ⟨b, hb'.1, fun hr => ?_, oa, ob, (twins_iff oa ob).mp hk⟩
      obtain ⟨-, g', hg', hh'⟩ := hhead b hb'.1 hr
      have := exact_same hex hg hg' (show b ∈ a :: b :: rest by simp) (List.mem_of_mem_head? hh') rfl
      rw [← this] at hh'
      simp only [List.head?_cons, Option.some.injEq] at hh'
      exact hab hh'
  · intro f hf g hg hfn hgn htw
    obtain ⟨-, k1, hk1, hh1⟩ := hhead f hf hfn
    obtain ⟨-, k2, hk2, hh2⟩ := hhead g hg hgn
    have := exact_same hex hk1 hk2 (List.mem_of_mem_head? hh1) (List.mem_of_mem_head? hh2) ((twins_iff htw.1 htw.2.1).mpr htw.2.2)
    subst this
    rw [hh1] at hh2
    exact Option.some.inj hh2
  · rintro hw f hf hfp ⟨g, hg, hgf, htw⟩
    have hk := (twins_iff htw.1 htw.2.1).mpr htw.2.2
    have h2 : 2 ≤ (cands.filter (fun x => identity m x = identity m f)).length := by
      have := Report.nodup_length_le (l := [f, g]) (m := cands.filter (fun x => identity m x = identity m f)) (by simp [Ne.symm hgf])
        (by intro x hx; simp only [List.mem_cons, List.not_mem_nil, or_false] at hx; rcases hx with rfl | rfl <;> simp [hf, hg, hk])
      simpa using this
    obtain ⟨k, hkm, hfk⟩ := hex.all f hf h2
    cases k with
    | nil => simp at hfk
    | cons a rest =>
      have hap : a.prio = true := by
        rcases List.mem_cons.mp hfk with rfl | hr
        · exact hfp
        · exact (List.pairwise_cons.mp (hprio _ hkm)).1 f hr hfp
      have ham := hmem _ hkm a (by simp)
      obtain ⟨-, x, -, hp⟩ := hex.whole _ hkm
      have e1 : identity m a = identity m x := by simpa using (List.mem_filter.mp (hp.subset (show a ∈ a :: rest by simp))).2
      have e2 : identity m f = identity m x := by simpa using (List.mem_filter.mp (hp.subset hfk)).2
      have oa := hq.listed hex hkm (show a ∈ a :: rest by simp)
      refine ⟨a, ham, hap, ⟨htw.1, oa, (twins_iff htw.1 oa).mp (by rw [e1, e2])⟩, ?_⟩
      exact (hin _).mpr ⟨hw a ham hap, _, hkm, a, rfl, rfl⟩

/-- **C117, part.**  A run with `-s ,` to a pipe, and then the recipe.  Only files found whose names have the word in them are removed, and every removed file has a twin that is left; so no contents are lost.  Of
identical files at most one is removed; it is one from the prioritised path whenever one of them is in there, provided that all names in there have the word in them.  Missing: files found under two names or through a link
(`recipe_loses`), images (`image_recipe_loses`), and names that the report or the recipe changes. -/
theorem recipe_keeps_partial (m : Machine) (pz : Image.Puzzle ν δ) (level : Nat → δ) (evs : List (Pool.Ev Nat)) (ts : List Tok) (args : List Path)
    (hu : Usable m ts) (ha : Accepted m ts args) (hI : 'I' ∉ chars ts) (ht : 't' ∉ chars ts) (hJ : 'J' ∉ chars ts) (hd : 'd' ∉ chars ts)
    (hs : separator ts = ',') (htty : m.tty = false)
    {globals : List Ctx} (hgl : Traverse.globalChain m.engine = .ok globals) {cands : List FileEnt}
    (hscan : scanArgs (asked m globals ts) m.fs m.depth (place m ts) args = .ok (true, cands)) (hne : cands ≠ []) (hq : Calm m cands)
    (hname : ∀ f ∈ cands, Survives f.path.toList) (d : Entries ε) (honce : Apart d cands) (word : List Char) :
    ∃ t : List Char, ftwinMain m pz level evs ts args = .ok (0, .text t) ∧
      (∀ p ∈ recipe word t, hasWord word p = true ∧ ∃ f ∈ cands, f.path.toList = p) ∧
      (∀ f ∈ cands, ¬ Left d (recipe word t) f → ∃ g ∈ cands, Left d (recipe word t) g ∧ Twins m f g) ∧
      (∀ f ∈ cands, ∀ g ∈ cands, ¬ Left d (recipe word t) f → ¬ Left d (recipe word t) g → Twins m f g → f = g) ∧
      ((∀ f ∈ cands, f.prio = true → hasWord word f.path.toList = true) →
        ∀ f ∈ cands, f.prio = true → (∃ g ∈ cands, g ≠ f ∧ Twins m f g) → ∃ f' ∈ cands, f'.prio = true ∧ Twins m f f' ∧ ¬ Left d (recipe word t) f') := by
  obtain ⟨t, h1, h2, h3, h4, h5⟩ := recipe_keeps_names m pz level evs ts args hu ha hI ht hJ hd hs htty hgl hscan hne hq hname honce.once word
  have hl : ∀ {f}, f ∈ cands → (Left d (recipe word t) f ↔ f.path.toList ∉ recipe word t) := fun hf => honce.left_iff (fun p hp => (h2 p hp).2) hf
  refine ⟨t, h1, h2, ?_, ?_, ?_⟩
  · intro f hf hn
    obtain ⟨g, hg, hgl', htw⟩ := h3 f hf (Classical.not_not.mp fun c => hn ((hl hf).mpr c))
    exact ⟨g, hg, (hl hg).mpr hgl', htw⟩
  · intro f hf g hg hn hn' htw
    exact h4 f hf g hg (Classical.not_not.mp fun c => hn ((hl hf).mpr c)) (Classical.not_not.mp fun c => hn' ((hl hg).mpr c)) htw
  · intro hw f hf hp htw
    obtain ⟨f', hf', hp', htw', hr⟩ := h5 hw f hf hp htw
    exact ⟨f', hf', hp', htw', fun hx => (hl hf').mp hx hr⟩

/-- **C117 is false of files found under two names, or through a link.**  Among the files with the contents of `f`, at least two are found, and each that may come first in the report has the word in its name and is
needed by all the others, as with two names for one file or a link in another directory to a file in the prioritised path.  Then nothing with these contents is left. -/
theorem recipe_loses (m : Machine) (pz : Image.Puzzle ν δ) (level : Nat → δ) (evs : List (Pool.Ev Nat)) (ts : List Tok) (args : List Path)
    (hu : Usable m ts) (ha : Accepted m ts args) (hI : 'I' ∉ chars ts) (ht : 't' ∉ chars ts) (hJ : 'J' ∉ chars ts) (hd : 'd' ∉ chars ts)
    (hs : separator ts = ',') (htty : m.tty = false)
    {globals : List Ctx} (hgl : Traverse.globalChain m.engine = .ok globals) {cands : List FileEnt}
    (hscan : scanArgs (asked m globals ts) m.fs m.depth (place m ts) args = .ok (true, cands)) (hq : Calm m cands)
    (hname : ∀ f ∈ cands, Survives f.path.toList) (d : Entries ε) (word : List Char) (f : FileEnt)
    (htwo : ∃ g h, [g, h].Sublist cands ∧ Twins m f g ∧ Twins m f h)
    (hfirst : ∀ g ∈ cands, Twins m f g → ((∃ h ∈ cands, Twins m f h ∧ h.prio = true) → g.prio = true) →
      hasWord word g.path.toList = true ∧ ∀ h ∈ cands, Twins m f h → d.own g.path.toList ∈ d.uses h.path.toList) :
    ∃ t : List Char, ftwinMain m pz level evs ts args = .ok (0, .text t) ∧ ¬ ∃ g ∈ cands, Left d (recipe word t) g ∧ Twins m f g := by
  obtain ⟨g, h, hsub, tg, th⟩ := htwo
  have hg : g ∈ cands := hsub.subset (by simp)
  have hne : cands ≠ [] := List.ne_nil_of_mem hg
  obtain ⟨t, gs, hrun, hex, hprio, hrec⟩ := recipe_run m pz level evs ts args hu ha hI ht hJ hd hs htty hgl hscan hne hq hname
  have hid : ∀ {x y}, Twins m f x → Twins m f y → identity m x = identity m y := fun hx hy => (twins_iff hx.2.1 hy.2.1).mpr (by rw [← hx.2.2, hy.2.2])
  have h2 : 2 ≤ (cands.filter (fun x => identity m x = identity m g)).length := by
    have := (hsub.filter (fun x => decide (identity m x = identity m g))).length_le
    rw [List.filter_cons_of_pos (by simp), List.filter_cons_of_pos (by simp [hid th tg])] at this
    simpa using this
  obtain ⟨k, hkm, hgk⟩ := hex.all g hg h2
  cases k with
  | nil => simp at hgk
  | cons a rest =>
    obtain ⟨-, x, -, hp⟩ := hex.whole _ hkm
    have ham := List.mem_filter.mp (hp.subset (show a ∈ a :: rest by simp))
    have e1 : identity m a = identity m x := by simpa using ham.2
    have e2 : identity m g = identity m x := by simpa using (List.mem_filter.mp (hp.subset hgk)).2
    have oa := hq.listed hex hkm (show a ∈ a :: rest by simp)
    have hbytes := (twins_iff tg.2.1 oa).mp (by rw [e1, e2])
    have ta : Twins m f a := ⟨tg.1, oa, by rw [tg.2.2, hbytes]⟩
    obtain ⟨hw, hall⟩ := hfirst a ham.1 ta (by
      rintro ⟨y, hy, ty, hyp⟩
      have hyk : y ∈ a :: rest := hp.symm.subset (List.mem_filter.mpr ⟨hy, by simp [hid ty tg, e2]⟩)
      rcases List.mem_cons.mp hyk with rfl | hr
      · exact hyp
      · exact (List.pairwise_cons.mp (hprio _ hkm)).1 y hr hyp)
    have hrm : a.path.toList ∈ recipe word t := by
      rw [hrec, List.mem_filter]
      exact ⟨List.mem_map.mpr ⟨a, List.mem_filterMap.mpr ⟨_, hkm, rfl⟩, rfl⟩, hw⟩
    refine ⟨t, hrun, ?_⟩
    rintro ⟨y, hy, hl, ty⟩
    exact hl _ hrm (hall y hy ty)

/-- If the word is part of the prioritised path and letters are told apart, all names in there have the word in them. -/
theorem prioritised_have_word {m : Machine} {ts : List Tok} {args : List Path} {globals : List Ctx} {cands : List FileEnt}
    (hscan : scanArgs (asked m globals ts) m.fs m.depth (place m ts) args = .ok (true, cands)) {word pp : List Char} (hp : lastArg 'p' ts = some pp)
    (hw : hasWord word pp = true) (hc : 'c' ∉ chars ts ∧ 'I' ∉ chars ts) : ∀ f ∈ cands, f.prio = true → hasWord word f.path.toList = true := by
  intro f hf hfp
  obtain ⟨a, -, p, -, q, rules', i, -, -, -, -, e, -, -, hpr⟩ := (found_iff hscan f).mp hf
  obtain ⟨pp', h1, h2⟩ := hpr.mp hfp
  have e1 : pp' = pp := by
    have : lastArg 'p' ts = some pp' := h1
    rw [hp] at this
    exact (Option.some.inj this).symm
  subst e1
  have hic : (asked m globals ts).icase = false := by
    show decide ('c' ∈ chars ts ∨ 'I' ∈ chars ts) = false
    simp [hc.1, hc.2]
  rw [hic, if_neg (by simp)] at h2
  obtain ⟨b, rfl⟩ := h2
  rw [e, String.toList_ofList]
  clear hpr h1 hp hscan e hfp hf
  induction pp' with
  | nil =>
    have h0 : word = [] := by cases word with
      | nil => rfl
      | cons c w => simp [hasWord] at hw
    subst h0
    cases b <;> simp [hasWord]
  | cons c r ih =>
    simp only [hasWord, Bool.or_eq_true] at hw
    simp only [List.cons_append, hasWord, Bool.or_eq_true]
    rcases hw with hw | hw
    · left
      rw [List.isPrefixOf_iff_prefix] at hw ⊢
      exact hw.trans ⟨b, by simp⟩
    · right; exact ih hw

/-! ## Examples -/

/-- `-v -p d/b -s ,`. -/
def exRecipeLine : List Tok := [.opt 'v' [], .opt 'p' "d/b".toList, .opt 's' ",".toList]

def exRecipeFound : List FileEnt := [⟨"d/a", 3, 0, false⟩, ⟨"d/b/c", 3, 0, true⟩]

theorem exRecipeAccepted (args : List Path) (h : args ≠ []) : Accepted exMachine exRecipeLine args where
  valid := by
    intro oa h
    simp only [exRecipeLine, given, List.mem_cons, List.not_mem_nil, or_false] at h
    rcases h with rfl | rfl | rfl <;> simp [Valid]
  some := h
  user := rfl
  exprs := by
    unfold Expressions
    decide

theorem exRecipeQuiet : Quiet exMachine exRecipeFound :=
  ⟨mainFiles_order, mainFiles_sorts, rfl, by decide, by decide, by decide, by decide, by decide, by simp [exMachine], by intro _ _ _ _ _ _; rfl⟩

/-- No links and no names like `./d/a`. -/
def exNames : Entries (List Char) := ⟨id, fun p => [p], by simp⟩

/-- `recipe_keeps_partial` applies: of `d/a` and `d/b/c` the second is removed, because it is in the prioritised path. -/
example (pz : Image.Puzzle ν δ) (level : Nat → δ) (evs : List (Pool.Ev Nat)) :
    ∃ t : List Char, ftwinMain exMachine pz level evs exRecipeLine [['d']] = .ok (0, .text t) ∧
      "d/b/c".toList ∈ recipe "b/".toList t ∧ "d/a".toList ∉ recipe "b/".toList t := by
  obtain ⟨t, h1, h2, h3, h4, h5⟩ := recipe_keeps_partial exMachine pz level evs exRecipeLine [['d']] (exUsable _ (by decide)) (exRecipeAccepted _ (by simp))
    (by decide) (by decide) (by decide) (by decide) (by decide) rfl exGlobals_ok (cands := exRecipeFound) (by decide +kernel) (by decide) exRecipeQuiet.calm (by
      intro f hf
      simp only [exRecipeFound, List.mem_cons, List.not_mem_nil, or_false] at hf
      rcases hf with rfl | rfl <;> exact ⟨⟨by decide, by decide, by decide⟩, by decide, by decide, by decide⟩) exNames (by unfold Apart; decide) "b/".toList
  refine ⟨t, h1, ?_, fun h => by have := (h2 _ h).1; revert this; decide⟩
  obtain ⟨f, hf, hp, -, hn⟩ := h5 (by decide) ⟨"d/b/c", 3, 0, true⟩ (by simp [exRecipeFound]) rfl ⟨⟨"d/a", 3, 0, false⟩, by simp [exRecipeFound], by decide, rfl, rfl, rfl⟩
  simp only [exRecipeFound, List.mem_cons, List.not_mem_nil, or_false] at hf
  rcases hf with rfl | rfl
  · cases hp
  · refine Classical.not_not.mp fun c => hn fun p hp hu => ?_
    have : p = "d/b/c".toList := by simpa [exNames] using hu
    exact c (this ▸ hp)

/-- Another disk: the two files differ. -/
def exOther : Machine := { exMachine with disk := fun p => if p = "d/a" then ⟨[1, 2, 3], [], true, true, true⟩ else ⟨[1, 2, 4], [], true, true, true⟩ }

def exOverlap : List FileEnt := [⟨"d/a", 3, 0, false⟩, ⟨"d/b/c", 3, 0, true⟩, ⟨"d/b/c", 3, 0, true⟩]

/-- `recipe_loses` applies: `ftwin -v -p d/b -s , d d/b` and the recipe remove `d/b/c`, which has no twin. -/
example (pz : Image.Puzzle ν δ) (level : Nat → δ) (evs : List (Pool.Ev Nat)) :
    ∃ t : List Char, ftwinMain exOther pz level evs exRecipeLine ["d".toList, "d/b".toList] = .ok (0, .text t) ∧ ¬ Left exNames (recipe "b/".toList t) ⟨"d/b/c", 3, 0, true⟩ := by
  have hq : Quiet exOther exOverlap :=
    ⟨mainFiles_order, mainFiles_sorts, rfl, by decide, by decide, by decide, by decide, by decide, by
      intro f _; simp only [exOther]; split <;> simp, by
      intro f hf g hg h
      simp only [exOverlap, List.mem_cons, List.not_mem_nil, or_false] at hf hg
      rcases hf with rfl | rfl | rfl <;> rcases hg with rfl | rfl | rfl <;> first | (intro _; rfl) | (revert h; decide)⟩
  obtain ⟨t, h1, h2⟩ := recipe_loses exOther pz level evs exRecipeLine ["d".toList, "d/b".toList] ⟨by decide, Config.fit_of_few _ _ (by decide), by decide, by decide, by decide⟩
    (by have := exRecipeAccepted ["d".toList, "d/b".toList] (by simp); exact ⟨this.valid, this.some, this.user, this.exprs⟩)
    (by decide) (by decide) (by decide) (by decide) (by decide) rfl exGlobals_ok (cands := exOverlap) (by decide +kernel) hq.calm (by
      intro f hf
      simp only [exOverlap, List.mem_cons, List.not_mem_nil, or_false] at hf
      rcases hf with rfl | rfl | rfl <;> exact ⟨⟨by decide, by decide, by decide⟩, by decide, by decide, by decide⟩) exNames "b/".toList ⟨"d/b/c", 3, 0, true⟩
    ⟨⟨"d/b/c", 3, 0, true⟩, ⟨"d/b/c", 3, 0, true⟩, by unfold exOverlap; exact .cons _ (.refl _), ⟨rfl, rfl, rfl⟩, ⟨rfl, rfl, rfl⟩⟩ (by
      have only : ∀ g ∈ exOverlap, Twins exOther ⟨"d/b/c", 3, 0, true⟩ g → g = ⟨"d/b/c", 3, 0, true⟩ := by
        intro g hg h
        simp only [exOverlap, List.mem_cons, List.not_mem_nil, or_false] at hg
        rcases hg with rfl | rfl | rfl
        · exact absurd h.2.2 (by decide)
        · rfl
        · rfl
      intro g hg tg _
      rw [only g hg tg]
      refine ⟨by decide, fun h hh th => ?_⟩
      rw [only h hh th]
      exact exNames.self _)
  exact ⟨t, h1, fun hl => h2 ⟨_, by simp [exOverlap], hl, rfl, rfl, rfl⟩⟩

/-- `d/a` is a link to `d/b/c`. -/
def exLinked : Machine := { exMachine with fs := {
  stat := fun follow p => if p = "d/a".toList then some { kind := if follow then .reg else .lnk, size := 3 } else (exFS true).stat follow p
  readdir := fun p => if p = ['d'] then some [(['.'], .dir), (['a'], .lnk), (['b'], .dir)] else (exFS true).readdir p
  ignore := fun _ => none } }

def exLinkNames : Entries (List Char) := ⟨id, fun p => if p = "d/a".toList then [p, "d/b/c".toList] else [p], fun p => by split <;> simp⟩

/-- `-f -p d/b -s ,`. -/
def exFollowLine : List Tok := [.opt 'f' [], .opt 'p' "d/b".toList, .opt 's' ",".toList]

/-- `recipe_loses` applies: with links followed, the recipe removes `d/b/c` as a copy of `d/a`, which was a link to it. -/
example (pz : Image.Puzzle ν δ) (level : Nat → δ) (evs : List (Pool.Ev Nat)) :
    ∃ t : List Char, ftwinMain exLinked pz level evs exFollowLine [['d']] = .ok (0, .text t) ∧ ∀ f ∈ exRecipeFound, ¬ Left exLinkNames (recipe "b/".toList t) f := by
  obtain ⟨t, h1, h2⟩ := recipe_loses exLinked pz level evs exFollowLine [['d']] ⟨by decide, Config.fit_of_few _ _ (by decide), by decide, by decide, by decide⟩
    ⟨by
      intro oa h
      simp only [exFollowLine, given, List.mem_cons, List.not_mem_nil, or_false] at h
      rcases h with rfl | rfl | rfl <;> simp [Valid], by simp, rfl, by unfold Expressions; decide⟩
    (by decide) (by decide) (by decide) (by decide) (by decide) rfl exGlobals_ok (cands := exRecipeFound) (by decide +kernel)
    (Quiet.calm ⟨mainFiles_order, mainFiles_sorts, rfl, by decide, by decide, by decide, by decide, by decide, by simp [exLinked, exMachine], by intro _ _ _ _ _ _; rfl⟩) (by
      intro f hf
      simp only [exRecipeFound, List.mem_cons, List.not_mem_nil, or_false] at hf
      rcases hf with rfl | rfl <;> exact ⟨⟨by decide, by decide, by decide⟩, by decide, by decide, by decide⟩) exLinkNames "b/".toList ⟨"d/b/c", 3, 0, true⟩
    ⟨⟨"d/a", 3, 0, false⟩, ⟨"d/b/c", 3, 0, true⟩, .refl _, ⟨rfl, rfl, rfl⟩, ⟨rfl, rfl, rfl⟩⟩ (by
      intro g hg _ hp
      have hp := hp ⟨⟨"d/b/c", 3, 0, true⟩, by simp [exRecipeFound], ⟨rfl, rfl, rfl⟩, rfl⟩
      simp only [exRecipeFound, List.mem_cons, List.not_mem_nil, or_false] at hg
      rcases hg with rfl | rfl
      · cases hp
      · refine ⟨by decide, fun h hh _ => ?_⟩
        simp only [exRecipeFound, List.mem_cons, List.not_mem_nil, or_false] at hh
        rcases hh with rfl | rfl <;> decide)
  exact ⟨t, h1, fun f hf hl => h2 ⟨f, hf, hl, rfl, rfl, rfl⟩⟩

/-- Images as numbers; those that are 1 apart are similar. -/
def exNumbers : Image.Puzzle Nat Nat where
  load := fun p => if p = "t/a" then some 0 else if p = "t/b" then some 1 else some 2
  dist := fun a b => (a - b) + (b - a)
  lt := fun a b => decide (a < b)

def exChain : List FileEnt := [⟨"t/a", 30, 0, true⟩, ⟨"t/b", 20, 0, true⟩, ⟨"c", 10, 0, false⟩]

/-- **C117 is false of images** (`-I`, as in EXAMPLES L37-44).  The image `t/a` is similar to `t/b` only.  Both are removed. -/
theorem image_recipe_loses : ∃ text, Image.imageReport exNumbers exChain ',' 2 64 [.fin 0, .fin 1, .fin 2] = .ok text ∧
    recipe "t/".toList text = ["t/a".toList, "t/b".toList] ∧
    (∀ j, j ≠ 0 → Image.Similar exNumbers exChain 2 0 j → (Image.ent exChain j).path = "t/b") := by
  refine ⟨"t/a,t/b\n\nt/b,c\n\n".toList, by decide +kernel, by decide +kernel, ?_⟩
  rintro j hj ⟨v, u, hv, hu, hd⟩
  have h0 : v = 0 := by have : some 0 = some v := hv; exact (Option.some.inj this).symm
  subst h0
  have hu' : u < 2 := by simpa [exNumbers] using hd
  by_cases hb : (Image.ent exChain j).path = "t/b"
  · exact hb
  · exfalso
    rcases j with - | - | - | j
    · exact hj rfl
    · exact hb rfl
    · have : some 2 = some u := hu
      have := Option.some.inj this; omega
    · have : some 2 = some u := hu
      have := Option.some.inj this; omega

end Verif.Main
