import Verif.Main.Example
import Verif.Traverse.Order

/-!
# What the report does not depend on (C71, C105-C107)
-/

namespace Verif.Main

open Verif.Ignore (Ctx)
open Verif.Report (FileEnt Exact SameSets)
open Verif.Traverse (Path Opts FS scanArgs Reordered asFor)
open Verif.Config (Tok given chars lastArg lastOf ignoredNames)
open Verif.Output (readReport readSized Plain)

/-- The options that decide which files are looked at.  The others say how to print, how much to tell, how many threads to use, how to read and which file of a
group to name first.  `-J` belongs to them except that it has the arguments resolved. -/
def deciding : List Char := ['a', 'c', 'f', 'r', 'R', 'i', 'e', 'w', 'I', 'm', 'M']

/-- Two command lines agree on those. -/
def Alike (ts ts' : List Tok) : Prop := (given ts).filter (fun oa => oa.1 ∈ deciding) = (given ts').filter (fun oa => oa.1 ∈ deciding)

theorem Alike.chars {ts ts' : List Tok} (h : Alike ts ts') {x : Char} (hx : x ∈ deciding) : x ∈ chars ts ↔ x ∈ chars ts' := by
  have key : ∀ us : List Tok, x ∈ Config.chars us ↔ x ∈ ((given us).filter (fun oa => oa.1 ∈ deciding)).map (·.1) := by
    intro us
    simp only [Config.chars, List.mem_map, List.mem_filter, decide_eq_true_eq]
    constructor
    · rintro ⟨a, ha, rfl⟩; exact ⟨a, ⟨ha, hx⟩, rfl⟩
    · rintro ⟨a, ⟨ha, -⟩, rfl⟩; exact ⟨a, ha, rfl⟩
  rw [key, key, h]

theorem Alike.filter {ts ts' : List Tok} (h : Alike ts ts') (p : Char × List Char → Bool) (hp : ∀ oa, p oa = true → oa.1 ∈ deciding) :
    (given ts).filter p = (given ts').filter p := by
  have key : ∀ l : List (Char × List Char), l.filter p = (l.filter (fun oa => oa.1 ∈ deciding)).filter p := by
    intro l
    rw [List.filter_filter]
    refine List.filter_congr ?_
    intro x _
    cases hx : p x with
    | false => simp
    | true => simpa using hp x hx
  rw [key, key (given ts'), h]

theorem Alike.lastArg {ts ts' : List Tok} (h : Alike ts ts') {x : Char} (hx : x ∈ deciding) : lastArg x ts = lastArg x ts' := by
  unfold Config.lastArg
  rw [h.filter _ (by intro oa e; have e : oa.1 = x := by simpa using e
                     rw [e]; exact hx)]

theorem Alike.lastOf {ts ts' : List Tok} (h : Alike ts ts') {S : List Char} (hS : ∀ x ∈ S, x ∈ deciding) : lastOf S ts = lastOf S ts' := by
  unfold Config.lastOf
  rw [h.filter _ (by intro oa e; exact hS _ (by simpa using e))]

theorem Alike.names {ts ts' : List Tok} (h : Alike ts ts') : ignoredNames ts = ignoredNames ts' := by
  have key : ∀ l : List (Char × List Char), Config.namesOf l = Config.namesOf (l.filter (fun oa => oa.1 = 'i')) := by
    intro l
    unfold Config.namesOf
    induction l with
    | nil => rfl
    | cons a l ih =>
      rw [List.flatMap_cons, ih, List.filter_cons]
      by_cases ha : a.1 = 'i' <;> simp [ha]
  unfold Config.ignoredNames
  rw [key, key (given ts'), h.filter _ (by intro oa e; have e : oa.1 = 'i' := by simpa using e
                                           rw [e]; decide)]

theorem Alike.recurse {ts ts' : List Tok} (h : Alike ts ts') : (Config.chars ts).filter (· ∈ ['r', 'R']) = (Config.chars ts').filter (· ∈ ['r', 'R']) := by
  unfold Config.chars
  rw [List.filter_map, List.filter_map, h.filter _ (by
    intro oa e
    have e : oa.1 ∈ ['r', 'R'] := by simpa [Function.comp] using e
    rw [List.mem_cons, List.mem_singleton] at e
    rcases e with e | e <;> rw [e] <;> decide)]

theorem Alike.asked {ts ts' : List Tok} (h : Alike ts ts') (m : Machine) (globals : List Ctx) :
    asked m globals ts' = { asked m globals ts with pPath := Config.lastArg 'p' ts' } := by
  have hc : anyCase ts' = anyCase ts := by
    unfold anyCase
    simp only [h.chars (x := 'c') (by decide), h.chars (x := 'I') (by decide)]
  unfold Main.asked sizeOpt
  simp only [hc, h.chars (x := 'f') (by decide), h.chars (x := 'a') (by decide), h.recurse, h.names, h.lastArg (x := 'm') (by decide),
    h.lastArg (x := 'M') (by decide), h.lastArg (x := 'e') (by decide), h.lastOf (S := ['w', 'I']) (by decide)]

/-- Files that can be read calmly can be so in any order and with any priority. -/
theorem Calm.transfer {m : Machine} {cands cands' : List FileEnt} (h : Calm m cands) (fs' : FS) (o : Opts) (hp : (cands.map (asFor o)).Perm cands') :
    Calm { m with fs := fs' } cands' := by
  have hlen : cands'.length = cands.length := by rw [← hp.length_eq, List.length_map]
  have hmem : ∀ f ∈ cands', ∃ g ∈ cands, f.path = g.path ∧ f.size = g.size ∧ ∀ p, { f with prio := p } = { g with prio := p } := by
    intro f hf
    obtain ⟨g, hg, rfl⟩ := List.mem_map.mp (hp.symm.subset hf)
    exact ⟨g, hg, rfl, rfl, fun _ => rfl⟩
  refine ⟨h.order, h.sorts, h.hash, by rw [hlen]; exact h.len, by rw [hlen]; exact h.fuel, ?_, ?_, ?_, ?_, ?_, ?_, ?_, ?_⟩
  · intro f hf; obtain ⟨g, hg, e1, e2, -⟩ := hmem f hf; rw [e2]; exact h.small g hg
  · intro f hf; obtain ⟨g, hg, e1, e2, -⟩ := hmem f hf; rw [e1, e2]; exact h.size g hg
  · intro f hf; obtain ⟨g, hg, e1, e2, -⟩ := hmem f hf; rw [e2]; exact h.io g hg
  · intro f hf; obtain ⟨g, hg, e1, e2, -⟩ := hmem f hf; rw [e1]; exact h.read g hg
  · intro f hf f' hf'
    obtain ⟨g, hg, e1, e2, -⟩ := hmem f hf
    obtain ⟨g', hg', e1', e2', -⟩ := hmem f' hf'
    rw [e1, e2, e1', e2']
    exact h.digests g hg g' hg'
  · intro f hf; obtain ⟨g, hg, e1, e2, -⟩ := hmem f hf; rw [e1, e2]; exact h.filled g hg
  · intro f hf ho
    obtain ⟨g, hg, e1, e2, -⟩ := hmem f hf
    rw [e1] at ho ⊢
    rw [← hp.countP_eq, List.countP_map]
    exact h.single g hg ho
  · intro f hf f' hf' hs hne ho p q
    obtain ⟨g, hg, e1, e2, e3⟩ := hmem f hf
    obtain ⟨g', hg', e1', e2', e3'⟩ := hmem f' hf'
    rw [e1, e1'] at hne
    rw [e2, e2'] at hs
    rw [e1] at ho
    have := h.leftover g hg g' hg' hs hne ho p q
    rw [← e3 p, ← e3' q, ← e1'] at this
    exact this

theorem asked_fs (m : Machine) (fs' : FS) (globals : List Ctx) (ts : List Tok) : asked { m with fs := fs' } globals ts = asked m globals ts := rfl

theorem scan_congr (o : Opts) (fs : FS) (n : Nat) (p p' : Path → Option Path) :
    ∀ args : List Path, (∀ a ∈ args, p a = p' a) → scanArgs o fs n p args = scanArgs o fs n p' args := by
  intro args
  induction args with
  | nil => intro _; rfl
  | cons a as ih =>
    intro h
    unfold scanArgs
    rw [h a List.mem_cons_self, ih (fun b hb => h b (List.mem_cons_of_mem _ hb))]

/-- Two runs with command lines that agree on what to look at, on file systems that differ only in the order of directory entries, with the same arguments in any
order that stand for the same places: both end with status 0, and their readers are told the same. -/
theorem same_run (m : Machine) (fs' : FS) (pz : Image.Puzzle ν δ) (level : Nat → δ) (evs evs' : List (Pool.Ev Nat)) (ts ts' : List Tok) (args args' : List Path)
    (hR : Reordered m.fs fs') (hal : Alike ts ts') (hperm : args.Perm args') (hplace : ∀ a ∈ args, place m ts a = place m ts' a)
    (hu : Usable m ts) (ha : Accepted m ts args) (hu' : Usable m ts') (ha' : Accepted m ts' args')
    (hI : 'I' ∉ chars ts) (ht : 't' ∉ chars ts) (ht' : 't' ∉ chars ts')
    {globals : List Ctx} (hgl : Traverse.globalChain m.engine = .ok globals) {cands : List FileEnt}
    (hscan : scanArgs (asked m globals ts) m.fs m.depth (place m ts) args = .ok (true, cands)) (hne : cands ≠ []) (hq : Calm m cands)
    (hl : Legible m ts cands) (hl' : Legible m ts' cands) :
    ∃ out out' gs gs', ftwinMain m pz level evs ts args = .ok (0, out) ∧ ftwinMain { m with fs := fs' } pz level evs' ts' args' = .ok (0, out') ∧
      Tells m ts out gs ∧ Tells m ts' out' gs' ∧ SameSets gs gs' := by
  obtain ⟨cands', hscan', hpc⟩ := Traverse.scan_agree (asked m globals ts) (Config.lastArg 'p' ts') hR m.depth (place m ts) hperm hscan
  rw [← hal.asked m globals, scan_congr _ _ _ _ (place m ts') args' (fun a h => hplace a (hperm.mem_iff.mpr h))] at hscan'
  rw [← hal.asked m globals] at hpc
  have hmem : ∀ f ∈ cands', ∃ g ∈ cands, f.path = g.path ∧ f.mtime = g.mtime := by
    intro f hf
    obtain ⟨g, hg, rfl⟩ := List.mem_map.mp (hpc.symm.subset hf)
    exact ⟨g, hg, rfl, rfl⟩
  have hne' : cands' ≠ [] := by
    intro h0
    subst h0
    have := hpc.length_eq
    simp at this
    exact hne this
  obtain ⟨out, gs, e1, htl, hex⟩ := any_run m pz level evs ts args hu ha hI ht hgl hscan hne hq hl
  obtain ⟨out', gs', e1', htl', hex'⟩ := any_run { m with fs := fs' } pz level evs' ts' args' ⟨hu'.fuel, hu'.names, hu'.few, hu'.gids, hu'.egid⟩
    ⟨ha'.valid, ha'.some, ha'.user, ha'.exprs⟩ (fun h => hI ((hal.chars (by decide)).mpr h)) ht' hgl hscan' hne'
    (hq.transfer fs' _ hpc) ⟨(hl'.sub hmem).text, (hl'.sub hmem).json⟩
  refine ⟨out, out', _, _, e1, e1', htl, htl', ?_⟩
  have hm := Report.exact_map (key' := identity m) (φ := asFor (asked m globals ts')) hex (fun f _ => rfl)
  have hs := (Report.exact_same (Report.exact_perm hm hpc) hex').map (fun f : FileEnt => f.path.toList)
  have e : (gs.map (·.map (asFor (asked m globals ts')))).map (·.map (fun f : FileEnt => f.path.toList)) = gs.map (·.map (·.path.toList)) := by
    simp [Function.comp_def, asFor]
  rw [e] at hs
  exact hs

/-- **C105, part.**  The order in which directories list their entries and the order of the arguments on the command line do not change which sets of identical files
are reported, in text or in JSON.  Missing: what is missing in C92. -/
theorem order_free_partial (m : Machine) (fs' : FS) (pz : Image.Puzzle ν δ) (level : Nat → δ) (evs evs' : List (Pool.Ev Nat)) (ts : List Tok) (args args' : List Path)
    (hR : Reordered m.fs fs') (hperm : args.Perm args') (hu : Usable m ts) (ha : Accepted m ts args)
    (hI : 'I' ∉ chars ts) (ht : 't' ∉ chars ts)
    {globals : List Ctx} (hgl : Traverse.globalChain m.engine = .ok globals) {cands : List FileEnt}
    (hscan : scanArgs (asked m globals ts) m.fs m.depth (place m ts) args = .ok (true, cands)) (hne : cands ≠ []) (hq : Calm m cands)
    (hl : Legible m ts cands) :
    ∃ out out' gs gs', ftwinMain m pz level evs ts args = .ok (0, out) ∧ ftwinMain { m with fs := fs' } pz level evs' ts args' = .ok (0, out') ∧
      Tells m ts out gs ∧ Tells m ts out' gs' ∧ SameSets gs gs' :=
  same_run m fs' pz level evs evs' ts ts args args' hR rfl hperm (fun _ _ => rfl) hu ha hu
    ⟨ha.valid, by intro h; rw [h] at hperm; exact ha.some (List.perm_nil.mp hperm), ha.user, ha.exprs⟩ hI ht ht hgl hscan hne hq hl hl

theorem reordered_refl (fs : FS) : Reordered fs fs := ⟨rfl, rfl, fun p => by
    cases fs.readdir p with
    | none => exact Or.inl ⟨rfl, rfl⟩
    | some a => exact Or.inr ⟨a, a, rfl, rfl, .refl _⟩⟩

/-- **C106, part.**  Options that say how to print, how much to tell, how many threads to use, how to read files and which file of a group to name first do not change
which sets of identical files are reported, in text or in JSON.  Missing: what is missing in C92. -/
theorem presentation_free_partial (m : Machine) (pz : Image.Puzzle ν δ) (level : Nat → δ) (evs evs' : List (Pool.Ev Nat)) (ts ts' : List Tok) (args : List Path)
    (hal : Alike ts ts') (hJ : 'J' ∈ chars ts ↔ 'J' ∈ chars ts') (hu : Usable m ts) (ha : Accepted m ts args) (hu' : Usable m ts') (ha' : Accepted m ts' args)
    (hI : 'I' ∉ chars ts) (ht : 't' ∉ chars ts) (ht' : 't' ∉ chars ts')
    {globals : List Ctx} (hgl : Traverse.globalChain m.engine = .ok globals) {cands : List FileEnt}
    (hscan : scanArgs (asked m globals ts) m.fs m.depth (place m ts) args = .ok (true, cands)) (hne : cands ≠ []) (hq : Calm m cands)
    (hl : Legible m ts cands) (hl' : Legible m ts' cands) :
    ∃ out out' gs gs', ftwinMain m pz level evs ts args = .ok (0, out) ∧ ftwinMain m pz level evs' ts' args = .ok (0, out') ∧
      Tells m ts out gs ∧ Tells m ts' out' gs' ∧ SameSets gs gs' :=
  same_run m m.fs pz level evs evs' ts ts' args args (reordered_refl _) hal (.refl _) (fun a _ => by unfold place; simp only [hJ]) hu ha hu' ha' hI ht ht' hgl hscan hne hq hl hl'

/-- **C71, part.**  If each argument is the path it is resolved to (absolute, without dots and links), asking for JSON does not change which sets of identical files are reported.  For other
arguments it can (`json_mode_misses_files`). -/
theorem formats_agree_partial (m : Machine) (pz : Image.Puzzle ν δ) (level : Nat → δ) (evs evs' : List (Pool.Ev Nat)) (ts ts' : List Tok) (args : List Path)
    (hal : Alike ts ts') (hJ : 'J' ∉ chars ts) (hJ' : 'J' ∈ chars ts') (hres : ∀ a ∈ args, m.merge a = some a)
    (hu : Usable m ts) (ha : Accepted m ts args) (hu' : Usable m ts') (ha' : Accepted m ts' args)
    (hI : 'I' ∉ chars ts) (ht : 't' ∉ chars ts) (ht' : 't' ∉ chars ts')
    {globals : List Ctx} (hgl : Traverse.globalChain m.engine = .ok globals) {cands : List FileEnt}
    (hscan : scanArgs (asked m globals ts) m.fs m.depth (place m ts) args = .ok (true, cands)) (hne : cands ≠ []) (hq : Calm m cands)
    (hl : Legible m ts cands) (hl' : Legible m ts' cands) :
    ∃ t d gs gs', ftwinMain m pz level evs ts args = .ok (0, .text t) ∧ ftwinMain m pz level evs' ts' args = .ok (0, .json d) ∧
      Tells m ts (.text t) gs ∧ Tells m ts' (.json d) gs' ∧ SameSets gs gs' := by
  obtain ⟨out, out', gs, gs', e, e', h, h', hs⟩ := same_run m m.fs pz level evs evs' ts ts' args args (reordered_refl _) hal (.refl _)
    (fun a h => by unfold place; rw [if_neg hJ, if_pos hJ', hres a h]) hu ha hu' ha' hI ht ht' hgl hscan hne hq hl hl'
  match out, out', h, h' with
  | .text t, .json d, h, h' => exact ⟨t, d, gs, gs', e, e', h, h', hs⟩
  | .json _, _, h, _ => exact absurd h.1 hJ
  | .text _, .text _, _, h' => exact absurd hJ' h'.1

theorem Calm.sub {m : Machine} {cands cands' : List FileEnt} (h : Calm m cands) (hs : cands'.Sublist cands) : Calm m cands' where
  order := h.order
  sorts := h.sorts
  hash := h.hash
  len := Nat.le_trans hs.length_le h.len
  fuel := Nat.le_trans (Nat.add_le_add_right hs.length_le 33) h.fuel
  small := fun f hf => h.small f (hs.subset hf)
  size := fun f hf => h.size f (hs.subset hf)
  io := fun f hf => h.io f (hs.subset hf)
  read := fun f hf => h.read f (hs.subset hf)
  digests := fun f hf g hg => h.digests f (hs.subset hf) g (hs.subset hg)
  filled := fun f hf => h.filled f (hs.subset hf)
  single := fun f hf ho => by
    have h1 := h.single f (hs.subset hf) ho
    have h2 := hs.countP_le (p := fun g => g.path = f.path)
    have h3 : 0 < cands'.countP (fun g => g.path = f.path) := List.countP_pos_iff.mpr ⟨f, hf, by simp⟩
    omega
  leftover := fun f hf g hg => h.leftover f (hs.subset hf) g (hs.subset hg)

/-- Files found under different arguments are different, if those that can be opened are. -/
theorem Calm.apart {m : Machine} {c1 c2 : List FileEnt} (h : Calm m (c1 ++ c2))
    (hd : ∀ f ∈ c1, ∀ g ∈ c2, (m.disk f.path).openOk = true → (m.disk g.path).openOk = true → (m.disk f.path).bytes ≠ (m.disk g.path).bytes) :
    ∀ f ∈ c1, ∀ g ∈ c2, identity m f ≠ identity m g := by
  intro f hf g hg e
  unfold identity at e
  cases of : (m.disk f.path).openOk with
  | true => cases og : (m.disk g.path).openOk with
    | true => rw [of, og] at e; exact hd f hf g hg of og (by simpa using e)
    | false => rw [of, og] at e; simp at e
  | false => cases og : (m.disk g.path).openOk with
    | true => rw [of, og] at e; simp at e
    | false =>
      rw [of, og] at e
      have e : f.path = g.path := by simpa using e
      have h1 := h.single f (List.mem_append_left _ hf) of
      rw [List.countP_append] at h1
      have h2 : 0 < c1.countP (fun x => x.path = f.path) := List.countP_pos_iff.mpr ⟨f, hf, by simp⟩
      have h3 : 0 < c2.countP (fun x => x.path = f.path) := List.countP_pos_iff.mpr ⟨g, hg, by simp [e]⟩
      omega

/-- **C107, part.**  If no file under some arguments has the contents of a file under the others, a run with all the arguments reports the sets of identical files of two
runs, one with these and one with those, in text or in JSON.  So files without a duplicate change nothing in a report, whatever their sizes.  Missing: what is missing in C92. -/
theorem together_partial (m : Machine) (pz : Image.Puzzle ν δ) (level : Nat → δ) (evs evs1 evs2 : List (Pool.Ev Nat)) (ts : List Tok) (args1 args2 : List Path)
    (hu : Usable m ts) (ha1 : Accepted m ts args1) (ha2 : Accepted m ts args2)
    (hI : 'I' ∉ chars ts) (ht : 't' ∉ chars ts)
    {globals : List Ctx} (hgl : Traverse.globalChain m.engine = .ok globals) {c1 c2 : List FileEnt}
    (hs1 : scanArgs (asked m globals ts) m.fs m.depth (place m ts) args1 = .ok (true, c1)) (hne1 : c1 ≠ [])
    (hs2 : scanArgs (asked m globals ts) m.fs m.depth (place m ts) args2 = .ok (true, c2)) (hne2 : c2 ≠ [])
    (hq : Calm m (c1 ++ c2)) (hl : Legible m ts (c1 ++ c2))
    (hd : ∀ f ∈ c1, ∀ g ∈ c2, (m.disk f.path).openOk = true → (m.disk g.path).openOk = true → (m.disk f.path).bytes ≠ (m.disk g.path).bytes) :
    ∃ out out1 out2 gs gs1 gs2, ftwinMain m pz level evs ts (args1 ++ args2) = .ok (0, out) ∧ ftwinMain m pz level evs1 ts args1 = .ok (0, out1) ∧
      ftwinMain m pz level evs2 ts args2 = .ok (0, out2) ∧ Tells m ts out gs ∧ Tells m ts out1 gs1 ∧ Tells m ts out2 gs2 ∧ SameSets gs (gs1 ++ gs2) := by
  obtain ⟨out, gs, e, hr, hex⟩ := any_run m pz level evs ts (args1 ++ args2) hu ⟨ha1.valid, by simp [ha1.some], ha1.user, ha1.exprs⟩ hI ht hgl
    (Traverse.scan_append _ _ _ _ hs1 hs2) (by simp [hne1]) hq hl
  obtain ⟨out1, gs1, e1, hr1, hex1⟩ := any_run m pz level evs1 ts args1 hu ha1 hI ht hgl hs1 hne1
    (hq.sub (List.sublist_append_left _ _)) (hl.sub (fun f hf => ⟨f, List.mem_append_left _ hf, rfl, rfl⟩))
  obtain ⟨out2, gs2, e2, hr2, hex2⟩ := any_run m pz level evs2 ts args2 hu ha2 hI ht hgl hs2 hne2
    (hq.sub (List.sublist_append_right _ _)) (hl.sub (fun f hf => ⟨f, List.mem_append_right _ hf, rfl, rfl⟩))
  refine ⟨out, out1, out2, _, _, _, e, e1, e2, hr, hr1, hr2, ?_⟩
  rw [← List.map_append]
  exact (Report.exact_same hex (Report.exact_append hex1 hex2 (hq.apart hd))).map _

/-! ## Runs -/

/-- The tree of the examples, `d` listed backwards. -/
def exBackwards : FS := { exMachine.fs with
  readdir := fun p => if p = ['d'] then some [(['b'], .dir), (['a'], .reg), (['.'], .dir)]
    else if p = ['d', '/', 'b'] then some [(['c'], .reg)] else none }

theorem exPlain (c : Char) (hc : c ∉ ['d', '/', 'a', 'b', 'c']) : ∀ f ∈ exFound, Plain c f.path.toList := by
  intro f hf
  simp only [List.mem_cons, List.not_mem_nil, or_false, not_or] at hc
  simp only [exFound, List.mem_cons, List.not_mem_nil, or_false] at hf
  rcases hf with rfl | rfl <;> refine ⟨by decide, by decide, ?_⟩ <;> (intro h; simp at h; grind)

/-- `order_free_partial` applies. -/
example (pz : Image.Puzzle ν δ) (level : Nat → δ) (evs : List (Pool.Ev Nat)) :
    ∃ out out' gs gs', ftwinMain exMachine pz level evs exLine [['d']] = .ok (0, out) ∧
      ftwinMain { exMachine with fs := exBackwards } pz level evs exLine [['d']] = .ok (0, out') ∧ Tells exMachine exLine out gs ∧ Tells exMachine exLine out' gs' ∧ SameSets gs gs' :=
  order_free_partial exMachine exBackwards pz level evs evs exLine [['d']] [['d']] ⟨rfl, rfl, by
      intro p
      unfold exBackwards exMachine Traverse.exFS
      dsimp only
      by_cases h1 : p = ['d']
      · refine Or.inr ⟨_, _, if_pos h1, if_pos h1, ?_⟩
        decide
      · by_cases h2 : p = ['d', '/', 'b']
        · subst h2; exact Or.inr ⟨_, _, rfl, rfl, .refl _⟩
        · exact Or.inl (by simp [h1, h2])⟩ (.refl _) (exUsable _ (by decide)) exAccepted (by decide) (by decide)
    exGlobals_ok exScan (by decide) exQuiet.calm ⟨fun _ => ⟨exPlain _ (by decide), fun h => by cases h⟩, fun h => absurd h (by decide)⟩

/-- `-d -p d/b -s : -r -i x,y -m 2 -e z -v`, with the same to decide as in `exLine`. -/
def exFancy : List Tok := [.opt 'd' [], .opt 'p' "d/b".toList, .opt 's' ":".toList] ++ exLine ++ [.opt 'v' []]

/-- `presentation_free_partial` applies. -/
example (pz : Image.Puzzle ν δ) (level : Nat → δ) (evs : List (Pool.Ev Nat)) :
    ∃ out out' gs gs', ftwinMain exMachine pz level evs exLine [['d']] = .ok (0, out) ∧
      ftwinMain exMachine pz level evs exFancy [['d']] = .ok (0, out') ∧ Tells exMachine exLine out gs ∧ Tells exMachine exFancy out' gs' ∧ SameSets gs gs' :=
  presentation_free_partial exMachine pz level evs evs exLine exFancy [['d']] (by unfold Alike; decide) (by decide) (exUsable _ (by decide)) exAccepted (exUsable _ (by decide))
    ⟨by
      intro oa h
      simp only [exFancy, exLine, List.cons_append, List.nil_append, given, List.mem_cons, List.not_mem_nil, or_false] at h
      rcases h with rfl | rfl | rfl | rfl | rfl | rfl | rfl | rfl
      · simp [Config.Valid]
      · simp [Config.Valid]
      · simp [Config.Valid]
      · simp [Config.Valid]
      · simp [Config.Valid]
      · exact two_valid
      · simp [Config.Valid]
      · simp [Config.Valid], by simp, rfl, by unfold Expressions; decide⟩
    (by decide) (by decide) (by decide) exGlobals_ok exScan (by decide) exQuiet.calm
    ⟨fun _ => ⟨exPlain _ (by decide), fun h => by cases h⟩, fun h => absurd h (by decide)⟩ ⟨fun _ => ⟨exPlain _ (by decide), fun h => by cases h⟩, fun h => absurd h (by decide)⟩

/-- The machine of the examples with another third byte in `d/b/c`. -/
def exTwo : Machine := { exMachine with disk := fun p => ⟨if p = "d/b/c" then [1, 2, 4] else [1, 2, 3], [], true, true, true⟩ }

/-- `together_partial` applies: `d/a` and the tree `d/b` have nothing in common. -/
example (pz : Image.Puzzle ν δ) (level : Nat → δ) (evs : List (Pool.Ev Nat)) :
    ∃ out out1 out2 gs gs1 gs2, ftwinMain exTwo pz level evs exLine (["d/a".toList] ++ ["d/b".toList]) = .ok (0, out) ∧ ftwinMain exTwo pz level evs exLine ["d/a".toList] = .ok (0, out1) ∧
      ftwinMain exTwo pz level evs exLine ["d/b".toList] = .ok (0, out2) ∧ Tells exMachine exLine out gs ∧ Tells exMachine exLine out1 gs1 ∧ Tells exMachine exLine out2 gs2 ∧ SameSets gs (gs1 ++ gs2) :=
  together_partial exTwo pz level evs evs evs exLine ["d/a".toList] ["d/b".toList] ⟨by decide, Config.fit_of_few _ _ (by decide), by decide, by decide, by decide⟩
    ⟨exAccepted.valid, by simp, rfl, exAccepted.exprs⟩ ⟨exAccepted.valid, by simp, rfl, exAccepted.exprs⟩ (by decide) (by decide)
    exGlobals_ok (c1 := [⟨"d/a", 3, 0, false⟩]) (c2 := [⟨"d/b/c", 3, 0, false⟩]) (by decide +kernel) (by decide) (by decide +kernel) (by decide)
    (Quiet.calm ⟨mainFiles_order, mainFiles_sorts, rfl, by decide, by decide, by decide, by decide, by decide, by simp [exTwo], by
      intro f hf g hg _ h
      have hmem : ∀ f ∈ [(⟨"d/a", 3, 0, false⟩ : FileEnt)] ++ [⟨"d/b/c", 3, 0, false⟩], f = ⟨"d/a", 3, 0, false⟩ ∨ f = ⟨"d/b/c", 3, 0, false⟩ := by simp
      rcases hmem f hf with rfl | rfl <;> rcases hmem g hg with rfl | rfl
      · rfl
      · exact absurd h (by decide)
      · exact absurd h (by decide)
      · rfl⟩)
    ⟨fun _ => ⟨exPlain _ (by decide), fun h => by cases h⟩, fun h => absurd h (by decide)⟩ (by decide)

/-- `formats_agree_partial` applies: without options and with `-J`. -/
example (pz : Image.Puzzle ν δ) (level : Nat → δ) (evs : List (Pool.Ev Nat)) :
    ∃ t d gs gs', ftwinMain exMachine pz level evs [] [['d']] = .ok (0, .text t) ∧ ftwinMain exMachine pz level evs [.opt 'J' []] [['d']] = .ok (0, .json d) ∧
      Tells exMachine [] (.text t) gs ∧ Tells exMachine [.opt 'J' []] (.json d) gs' ∧ SameSets gs gs' :=
  formats_agree_partial exMachine pz level evs evs [] [.opt 'J' []] [['d']] (by unfold Alike; decide) (by decide) (by decide) (fun _ _ => rfl)
    (exUsable _ (by decide)) ⟨by simp [given], by simp, rfl, by unfold Expressions; decide⟩ (exUsable _ (by decide)) exJsonAccepted
    (by decide) (by decide) (by decide) exGlobals_ok (cands := exFound) (by decide +kernel) (by decide) exQuiet.calm
    ⟨fun _ => ⟨exPlain _ (by decide), fun h => by cases h⟩, fun h => absurd h (by decide)⟩
    ⟨fun h => absurd (by decide) h, fun _ f hf => ⟨by revert f; decide +kernel, by
      refine ⟨_, 1970, 1, 1, 0, 0, 0, rfl, by decide, by decide, by decide, by decide, by decide, by decide, by decide, by decide, by decide,
        by decide, by decide, by decide, ?_⟩
      simp only [exFound, List.mem_cons, List.not_mem_nil, or_false] at hf
      rcases hf with rfl | rfl <;> decide +kernel⟩⟩

end Verif.Main
