import Verif.Main.Spec

/-! # Lemmas for C92 and C93 -/

namespace Verif.Main

open Verif.Ignore (Ctx)
open Verif.Report (FileEnt World)
open Verif.Traverse (Path Opts FS traverse scanArgs)
open Verif.Config (Tok Conf given chars lastArg lastOf imageExpr ignoredNames Valid isOptionSet NamesFit)

/-- The same options, up to the order in the lists of names and groups. -/
structure Same (o o' : Opts) : Prop where
  names : ∀ n, n ∈ o.igNames ↔ n ∈ o'.igNames
  gids : ∀ g, g ∈ o.gids ↔ g ∈ o'.gids
  rest : { o with igNames := [], gids := [] } = { o' with igNames := [], gids := [] }

theorem same_traverse {o o' : Opts} (h : Same o o') (fs : FS) : ∀ (n : Nat) (p : Path) (chain : List Ctx), traverse o fs n p chain = traverse o' fs n p chain := by
  obtain ⟨hn, hg, hr⟩ := h
  obtain ⟨f1, f2, f3, f4, f5, f6, f7, f8, f9, f10, f11, f12, f13, f14, f15⟩ := o
  obtain ⟨g1, g2, g3, g4, g5, g6, g7, g8, g9, g10, g11, g12, g13, g14, g15⟩ := o'
  simp only [Opts.mk.injEq] at hr
  obtain ⟨rfl, rfl, rfl, rfl, rfl, rfl, -, rfl, rfl, rfl, -, rfl, rfl, rfl, rfl⟩ := hr
  simp only at hn hg
  have hs : ∀ e, Traverse.skipName ⟨f1, f2, f3, f4, f5, f6, f7, f8, f9, f10, f11, f12, f13, f14, f15⟩ e =
      Traverse.skipName ⟨f1, f2, f3, f4, f5, f6, g7, f8, f9, f10, g11, f12, f13, f14, f15⟩ e := by
    intro e
    simp only [Traverse.skipName, hn]
  have hp : ∀ i, Traverse.permitted ⟨f1, f2, f3, f4, f5, f6, f7, f8, f9, f10, f11, f12, f13, f14, f15⟩ i =
      Traverse.permitted ⟨f1, f2, f3, f4, f5, f6, g7, f8, f9, f10, g11, f12, f13, f14, f15⟩ i := by
    intro i
    simp only [Traverse.permitted, hg]
  have he : ∀ (visit : Path → Res (Bool × List FileEnt)) dir es,
      Traverse.entries ⟨f1, f2, f3, f4, f5, f6, f7, f8, f9, f10, f11, f12, f13, f14, f15⟩ visit dir es =
      Traverse.entries ⟨f1, f2, f3, f4, f5, f6, g7, f8, f9, f10, g11, f12, f13, f14, f15⟩ visit dir es := by
    intro visit dir es
    induction es with
    | nil => rfl
    | cons e es ih => rw [Traverse.entries, Traverse.entries, hs, ih]; rfl
  intro n
  induction n with
  | zero => intro p chain; rfl
  | succ n ih =>
    intro p chain
    rw [traverse, traverse]
    simp only [he, hp, ih]
    rfl

theorem same_scan {o o' : Opts} (h : Same o o') (fs : FS) (n : Nat) (res : Path → Option Path) : ∀ args, scanArgs o fs n res args = scanArgs o' fs n res args := by
  intro args
  have hg : o.globals = o'.globals := by
    have := congrArg Opts.globals h.rest
    exact this
  induction args with
  | nil => rfl
  | cons a as ih => rw [scanArgs, scanArgs, ih]; simp only [same_traverse h, hg]

theorem globals_ok (m : Machine) : ∃ globals, Traverse.globalChain m.engine = .ok globals := by
  obtain ⟨ps, e⟩ := Traverse.fold_ok m.engine Traverse.defaultIgnores [] (by decide)
  exact ⟨_, by unfold Traverse.globalChain Traverse.loadDefaults; rw [e]; rfl⟩

theorem groups_ok (m : Machine) (hf : 33 ≤ m.fuel) (hn : m.groups.length < 256) (hg : ∀ g ∈ m.groups, g < 2 ^ 32) (he : m.egid < 2 ^ 32) :
    ∃ t, Xxh.fillGids m.fuel m.groups m.egid Xxh.gids0 = .ok (some t) ∧ ∀ g, g ∈ Hash.elems t ↔ g ∈ m.groups ++ [m.egid] := by
  obtain ⟨t, e, h⟩ := Xxh.addGids_holds hf (m.groups ++ [m.egid]) Xxh.gids0 [] Xxh.gids0_holds (by simp) (by
    intro g hgm; rcases List.mem_append.mp hgm with hgm | hgm; exact hg g hgm; simp at hgm; subst hgm; exact he)
  refine ⟨t, ?_, ?_⟩
  · unfold Xxh.fillGids
    rw [if_neg (by unfold Xxh.maxGids; omega), if_pos (by unfold Xxh.maxGids; exact hn), e]; rfl
  · intro g
    have habs : Hash.Abs (Report.sizeFns { Report.exWorld with sizeHash := Xxh.gidHash }) t (Report.present (· ∈ (m.groups ++ [m.egid]).reverse ++ [])) := h.abs
    rw [Report.abs_mem habs]
    unfold Report.present
    by_cases hc : g ∈ (m.groups ++ [m.egid]).reverse ++ []
    · rw [if_pos hc]
      simp only [List.append_nil, List.mem_reverse] at hc
      simp only [hc]
    · rw [if_neg hc]
      simp only [List.append_nil, List.mem_reverse] at hc
      simp only [hc]
      simp

/-- The configuration a command line leaves is what it asks for. -/
theorem conf_asked {m : Machine} {fuel : Nat} (hf : 33 ≤ fuel) {ts : List Tok} {args : List Path} (hfit : NamesFit Xxh.strHash ts)
    {globals : List Ctx} {gids : Hash.Table Nat} (hg : ∀ g, g ∈ Hash.elems gids ↔ g ∈ m.groups ++ [m.egid]) {ig : Hash.Table (List Char)}
    (hig : Config.createIgnored Xxh.strHash fuel = .ok ig) {c : Conf}
    (e : Config.parseArgs Xxh.strHash fuel (m.lookups args) ts (Config.create m.cores ig) = .ok (some c)) :
    Same (optsOf m globals gids c) (asked m globals ts) ∧ resolveOf m c = place m ts ∧ c.sep = separator ts := by
  obtain ⟨ig', hig', -, hnames⟩ := Config.accepted_with_names_partial (h := Xxh.strHash) hf m.cores (m.lookups args) ts hfit
  rw [hig] at hig'; injection hig' with hig'; subst hig'
  obtain ⟨hf1, hf2, -, -, hf5, -, -, -, hf9⟩ := Config.flags_exact _ _ _ _ _ _ _ e
  obtain ⟨hv1, hv2, hv3, hv4, -, -⟩ := Config.values_exact _ _ _ _ _ _ _ e
  have hj := (Config.json_verbose_exclusive _ _ _ _ _ _ _ e).1
  have r := Config.optionLoop_runs (Config.parseArgs_loop e)
  have hm : c.minsize = sizeOpt 'm' 0 ts := by
    have := (Config.runs_field 'm' Conf.minsize (fun a n => HumanSize.parse a = .ok n ∧ 0 ≤ n) (fun o a c1 c2 e => (Config.processOption_num e).2.1) r).1
    unfold sizeOpt lastArg
    cases hl : (((given ts).filter (·.1 = 'm')).getLast?).map (·.2) with
    | none => rw [hl] at this; exact this
    | some a => rw [hl] at this; simp only [this.1]
  have hM : c.maxsize = sizeOpt 'M' 0 ts := by
    have := (Config.runs_field 'M' Conf.maxsize (fun a n => HumanSize.parse a = .ok n ∧ 0 ≤ n) (fun o a c1 c2 e => (Config.processOption_num e).2.2.1) r).1
    unfold sizeOpt lastArg
    cases hl : (((given ts).filter (·.1 = 'M')).getLast?).map (·.2) with
    | none => rw [hl] at this; exact this
    | some a => rw [hl] at this; simp only [this.1]
  have hic : isOptionSet c.mask Config.bICASE = anyCase ts := by
    rw [Bool.eq_iff_iff, hf9]; simp [anyCase]
  refine ⟨⟨hnames c e, hg, ?_⟩, ?_, ?_⟩
  · simp only [optsOf, asked, Opts.mk.injEq]
    refine ⟨?_, ?_, ?_, hic, trivial, trivial, trivial, hm, hM, hv1, trivial, ?_, ?_, trivial, trivial⟩
    · rw [Bool.eq_iff_iff, hf5]; simp
    · rw [Bool.eq_iff_iff, hf2]; simp
    · rw [Bool.eq_iff_iff, hf1]; simp
    · rw [hv3, hic]
    · rw [hv4, hic]
      cases lastOf ['w', 'I'] ts <;> rfl
  · funext a
    unfold resolveOf place
    by_cases h : 'J' ∈ chars ts
    · rw [if_pos (hj.mpr h), if_pos h]
    · rw [if_neg (fun x => h (hj.mp x)), if_neg h]
  · rw [hv2]; unfold separator
    cases lastArg 's' ts <;> rfl

/-- The size of a group is that of its files. -/
theorem group_size [DecidableEq η] (w : World η) (json : Bool) (cands : List FileEnt) (out : Report.Outcome η) (gs : List (Report.Group η))
    (hl : Report.Limits w cands) (hq : ∀ l, (w.qs l).Perm l) (h : Report.ftwin w json cands = .ok out) (hg : out.groups = some gs) :
    ∀ g ∈ gs, ∀ f ∈ g.files, g.size = f.size := by
  obtain ⟨s⟩ := Report.shape w json cands out hl h
  intro g hgm f hf
  rw [s.groups] at hg
  simp only [Option.some.injEq] at hg
  rw [← hg, List.mem_flatMap] at hgm
  obtain ⟨k, hk, hgm⟩ := hgm
  obtain ⟨h1, -, -⟩ := Report.outer_sound w json k _ _ _ (s.per k).1 (s.per k).2 (s.run k hk)
  obtain ⟨e1, -, -, e4⟩ := h1 g hgm
  obtain ⟨e, he, h2, h3⟩ := e4 f hf
  have he := (hq _).subset he
  obtain ⟨f', hf', rfl⟩ := List.mem_map.mp he
  simp only [Report.mark, Option.some.injEq] at h2
  subst h2
  simp only [Report.cls, List.mem_filter, decide_eq_true_eq] at hf'
  rw [e1, hf'.2]

end Verif.Main
