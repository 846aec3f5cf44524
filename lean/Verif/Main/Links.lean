import Verif.Main.Example
import Verif.Traverse.LinkProps

/-!
# Whole runs on file systems with links (C74)
-/

namespace Verif.Main

open Verif.Ignore (Ctx ignoreMatch)
open Verif.Traverse (Path Mount Visits MayRead EntryOk Selected)
open Verif.Config (Tok chars ignoredNames)

/-- **C74, whole runs.**  `ftwin -f dir`, with any other options of an acceptable command line but `-J`, is undefined exactly if below `dir` there is a path, not cut off by a
filter, that leads nowhere.  (Directories can be listed, ignore files have short lines.) -/
theorem links_run_exact {ν₁ : Type} (m : Machine) (pz : Image.Puzzle ν δ) (level : Nat → δ) (evs : List (Pool.Ev Nat)) (ts : List Tok)
    (mt : Mount ν₁) {skip : List Path} {rank : ν₁ → Nat} {height : Nat} (hfs : m.fs = mt.fs) (h : mt.Sound skip rank height) (hp : mt.Plain)
    (hu : Usable m ts) (ha : Accepted m ts [mt.arg]) (hf : 'f' ∈ chars ts) (hJ : 'J' ∉ chars ts) (hs : ∀ n ∈ skip, n ∈ ignoredNames ts)
    (hn : mt.depth rank height mt.arg < m.depth) {globals : List Ctx} (hgl : Traverse.globalChain m.engine = .ok globals) :
    ((∃ q rules', Visits (asked m globals ts) mt.fs mt.arg globals q rules' ∧ mt.place q = none) → ftwinMain m pz level evs ts [mt.arg] = .ub) ∧
    ((¬ ∃ q rules', Visits (asked m globals ts) mt.fs mt.arg globals q rules' ∧ mt.place q = none) →
      ∃ cands, Traverse.scanArgs (asked m globals ts) m.fs m.depth (place m ts) [mt.arg] = .ok (true, cands) ∧
        ∀ f, f ∈ cands ↔ Selected (asked m globals ts) m.fs mt.arg globals f) := by
  have hfo : (asked m globals ts).follow = true := by simp [asked, hf]
  have hpl : place m ts mt.arg = some mt.arg := if_neg hJ
  obtain ⟨h1, h2⟩ := Traverse.scan_links_exact h hp hfo (show ∀ n ∈ skip, n ∈ (asked m globals ts).igNames from hs) hn globals
  refine ⟨fun hno => ?_, fun hno => ?_⟩
  · obtain ⟨ig, c, -, -, -, e⟩ := run_eq m pz level evs ts [mt.arg] hu ha hgl
    have := Traverse.scan_undefined (asked m globals ts) m.fs m.depth (place m ts) (p := mt.arg) (by rw [hfs]; exact h1.2 hno) [] mt.arg [] hpl (by simp)
    rw [List.nil_append] at this
    rw [e, this]; rfl
  · obtain ⟨l, hl, hex⟩ := h2 (fun c => hno (h1.1 c))
    rw [hfs]
    refine ⟨l, ?_, hex⟩
    rw [Traverse.scanArgs, hpl]
    dsimp only
    rw [show (asked m globals ts).globals = globals from rfl, hl, Res.ok_bind, if_pos rfl, Traverse.scanArgs, Res.ok_bind, List.append_nil]

/-- **C74 is false of whole runs, in general.**  A cycle of links that no filter cuts off makes the run undefined. -/
theorem cycle_run_undefined {ν₁ : Type} (m : Machine) (pz : Image.Puzzle ν δ) (level : Nat → δ) (evs : List (Pool.Ev Nat)) (ts : List Tok)
    (mt : Mount ν₁) {skip : List Path} {rank : ν₁ → Nat} {height : Nat} (hfs : m.fs = mt.fs) (h : mt.Sound skip rank height) (hp : mt.Plain)
    (hu : Usable m ts) (ha : Accepted m ts [mt.arg]) (hf : 'f' ∈ chars ts) (hJ : 'J' ∉ chars ts) (hs : ∀ n ∈ skip, n ∈ ignoredNames ts)
    (hn : mt.depth rank height mt.arg < m.depth) {globals : List Ctx} (hgl : Traverse.globalChain m.engine = .ok globals)
    (S : ν₁ → Prop) (htop : S mt.top)
    (hS : ∀ q rules' v k, Visits (asked m globals ts) mt.fs mt.arg globals q rules' → mt.place q = some (v, k) → S v →
      (mt.graph.info v).kind = .dir ∧ MayRead (asked m globals ts) (mt.graph.info v) ∧ ignoreMatch rules' q true ≠ .ignored ∧
      ∃ e ∈ mt.graph.ents v, EntryOk (asked m globals ts) q (e.1, e.2.kind mt.graph) ∧ ∃ u, S u ∧ (e.2 = .hard u ∨ ∃ more, e.2 = .link (some u) more)) :
    ftwinMain m pz level evs ts [mt.arg] = .ub := by
  refine (links_run_exact m pz level evs ts mt hfs h hp hu ha hf hJ hs hn hgl).1 ?_
  have hfo : (asked m globals ts).follow = true := by simp [asked, hf]
  refine (Traverse.scan_links_exact h hp hfo hs hn globals).1.1 (Traverse.endless_undefined h hp hfo hs hn globals S htop ?_)
  intro q rules' v k h1 h2 h3
  obtain ⟨a, b, c, d⟩ := hS q rules' v k h1 h2 h3
  exact ⟨a, b, fun _ => c, d⟩

/-- The program on a directory with a link to the directory above. -/
def exLinks : Machine := { exMachine with fs := (Traverse.upMount 40 4096).fs, depth := 124 }

/-- `ftwin -f d` is undefined there. -/
example (pz : Image.Puzzle ν δ) (level : Nat → δ) (evs : List (Pool.Ev Nat)) : ftwinMain exLinks pz level evs [.opt 'f' []] [['d']] = .ub := by
  have hrules : ∀ {r : List Ctx} {q : Path} {b : Bool}, r = exGlobals → ignoreMatch r q b ≠ .ignored := by
    intro r q b hr
    have : exGlobals = [⟨['/'], []⟩] := by rfl
    rw [hr, this, ignoreMatch, Ignore.matchChain, Ignore.matchChain]
    split <;> simp [Ignore.scan, Ignore.matchChain]
  have hg : Traverse.globalChain exLinks.engine = .ok exGlobals := exGlobals_ok
  refine cycle_run_undefined exLinks pz level evs [.opt 'f' []] (Traverse.upMount 40 4096) rfl (Traverse.upMount_sound 40 4096 (by decide))
    ⟨fun _ => rfl, by intro v c hc; cases hc⟩ ⟨by decide, Config.fit_of_few _ _ (by decide), by decide, by decide, by decide⟩
    ⟨by simp [Config.given, Config.Valid], by simp, rfl, by unfold Expressions; decide⟩ (by decide) (by decide) (by decide) (by decide +kernel) hg (· ≤ 1)
    (by simp [Traverse.upMount]) ?_
  intro q rules' v k hv hq hvS
  have hr : ∀ {p r q r'}, Visits (asked exLinks exGlobals [.opt 'f' []]) (Traverse.upMount 40 4096).fs p r q r' → r = exGlobals → r' = exGlobals := by
    intro p r q r' w
    induction w with
    | here => intro h; exact h
    | down _ _ _ _ _ hin _ ih =>
      intro hr
      refine ih ?_
      rcases hin with ⟨_, content, ps, hc, _, _⟩ | ⟨_, rfl⟩
      · obtain ⟨s, _, hs⟩ := Option.bind_eq_some_iff.1 (show ((Traverse.upMount 40 4096).place _).bind (fun _ => none) = some content from hc)
        cases hs
      · exact hr
  have hk : ((Traverse.upMount 40 4096).graph.info v).kind = .dir := by simp [Traverse.upMount, hvS]
  have hmay : MayRead (asked exLinks exGlobals [.opt 'f' []]) ((Traverse.upMount 40 4096).graph.info v) := by
    rw [← Traverse.permitted_iff]
    rcases (show v = 0 ∨ v = 1 by omega) with rfl | rfl <;> decide +kernel
  refine ⟨hk, hmay, hrules (hr hv rfl), ?_⟩
  rcases (show v = 0 ∨ v = 1 by omega) with rfl | rfl
  · exact ⟨(['s'], .hard 1), by simp [Traverse.upMount], (Traverse.skip_iff _ _ _).mp ⟨by decide +kernel, rfl⟩, 1, by simp, .inl rfl⟩
  · exact ⟨(['u', 'p'], .link (some 0) 0), by simp [Traverse.upMount], (Traverse.skip_iff _ _ _).mp ⟨by decide +kernel, rfl⟩, 0, by simp, .inr ⟨0, rfl⟩⟩

end Verif.Main
