import Verif.Pool.Hashing
import Verif.Report.Disk

/-!
# The whole run with its worker threads (C110)

`Report/Model.lean` computes the digests one after the other.  Here they are computed by the threads of `Pool/Model.lean`, as ft_process.c L170-240 does it, and
the report is made from what the threads leave behind.
-/

namespace Verif.Report

open Pool

variable {η : Type} [DecidableEq η]

/-- ft_process.c L87-112 on the candidates: the records and the sizes in the order of the table when the hashing begins; `none` if it does not come to that. -/
def hashingStart (w : World η) (json : Bool) (cands : List FileEnt) : Res (Option (Cat η × List Nat)) := do
  let c ← cands.foldlM (addFile w) (conf0 η)
  let l ← drain w.fuel (cands.length + 1) c.heap
  let cat ← categorize w json l ⟨true, c.sizes, c.recs, Heap.make FileEnt, 0⟩
  if cat.ok = false then .ok none
  else do
    let ps ← Hash.iterate cat.sizes (cands.length + 1) (Hash.first cat.sizes)
    .ok (some (cat, ps))

/-- The run whose threads have done what `evs` says (ft_process.c L113-125 and L170-262): the records are those the tasks have left, and the files go to the heap
of the reporter when the threads are done. -/
def ftwinT (w : World η) (json : Bool) (evs : List (Ev Task)) (cands : List FileEnt) : Res (Outcome η) := do
  let s ← hashingStart w json cands
  match s with
  | none => .ok ⟨none, [], []⟩
  | some (cat, ps) => do
    let (recs, tmp, log) ← hashPhase w json ps cat
    let recs := if 0 < cat.tasks then (outcome w cat.recs evs).1 else recs
    let l2 ← drain w.fuel (cands.length + 1) tmp
    let (gs, cmps) ← report w json cat.sizes l2 recs none
    .ok ⟨gs, log, cmps⟩

omit [DecidableEq η] in
theorem start_spec (w : World η) (json : Bool) (cands : List FileEnt) (hl : Limits w cands) :
    ∃ cat ps, hashingStart w json cands = .ok (some (cat, ps)) ∧ ps.Nodup ∧ (∀ p ∈ ps, (cat.recs p).arr.length ≤ (cat.recs p).nb) ∧
      (dispatch json cat.recs ps).length ≤ cands.length ∧
      ∃ l : List FileEnt, l.Perm cands ∧ ∀ p ∈ ps, cat.recs p = ⟨p, cnt l p, (cls l p).map (mark0 w json l)⟩ := by
  have hlen := hl.len
  have hfuel := hl.fuel
  obtain ⟨c, e1, hpop⟩ := populate w cands [] (conf0 η) (conf0_pop w)
    (SizesOk.mono (a := cands.reverse ++ []) (b := cands) hl.sizes (by intro f hf; simpa using hf)) (by simpa using hlen) (by simpa using hfuel)
  rw [List.append_nil] at hpop
  obtain ⟨t, H, ho, hp⟩ := hpop.heap
  have hpc : t.Perm cands := hp.trans (List.reverse_perm _)
  have hlt := hpc.length_eq
  obtain ⟨l, e2, hlp, hsorted⟩ := drain_spec w.fuel (cands.length + 1) c.heap t H ho (by omega) (by omega)
  have hlc : l.Perm cands := hlp.trans hpc
  have hcnt : ∀ k, cnt l k = cnt cands k := cnt_perm hlc
  have hcr : ∀ k, cnt cands.reverse k = cnt cands k := cnt_perm (List.reverse_perm _)
  have hll := hlc.length_eq
  have hinit : CatInv w json l [] ⟨true, c.sizes, c.recs, Heap.make FileEnt, 0⟩ := by
    refine ⟨rfl, ?_, ?_, ?_, ⟨[], Heap.make_holds _, fun j a b _ _ hb => by simp at hb, by simp⟩, rfl⟩
    · have e : (present fun k => 0 < cnt l k ∧ ¬ (cnt l k = 1 ∧ 0 < cnt [] k)) = present (fun k => 0 < cnt cands.reverse k) := by
        funext k; simp only [present, hcnt, hcr]; simp [cnt]
      rw [e]; exact hpop.sizes
    · intro k hk
      rw [hcnt] at hk ⊢
      show c.recs k = _
      rw [hpop.recs k (by rw [hcr]; omega), hcr]; rfl
    · intro k hk
      rw [hcnt] at hk
      show (c.recs k).nb = _
      rw [hpop.recs k (by rw [hcr]; omega), hcr]; exact hk
  obtain ⟨cat, e3, hcat⟩ := categorize_spec w json l (by omega) (by omega) l [] _ rfl hinit
  have hpres : (present fun k => 0 < cnt l k ∧ ¬ (cnt l k = 1 ∧ 0 < cnt l k)) = present (fun k => 2 ≤ cnt l k) := by
    funext k; unfold present
    by_cases h : 2 ≤ cnt l k
    · rw [if_pos h, if_pos (by omega)]
    · rw [if_neg h, if_neg (by omega)]
  have habs := hcat.sizes
  rw [hpres] at habs
  have hmem : ∀ k, k ∈ Hash.elems cat.sizes ↔ 2 ≤ cnt l k := by
    intro k
    rw [abs_mem habs]
    by_cases h : 2 ≤ cnt l k <;> simp [present, h]
  have hnd := abs_nodup habs
  have hpos : 0 < cat.sizes.buckets.length := by rw [habs.inv.placed.1]; exact Nat.two_pow_pos _
  have hflat := flatMap_cls_length l (Hash.elems cat.sizes) hnd
  have hflat2 : ((Hash.elems cat.sizes).flatMap (cls l)).length ≤ l.length := Nat.le_trans hflat (List.length_filter_le _ _)
  have hsum : ∀ ps : List Nat, (∀ k ∈ ps, 2 ≤ cnt l k) → ps.length ≤ (ps.flatMap (cls l)).length := by
    intro ps
    induction ps with
    | nil => intro _; simp
    | cons p ps ih =>
      intro h
      rw [List.flatMap_cons, List.length_append, cls_length, List.length_cons]
      have := h p List.mem_cons_self
      have := ih (fun k hk => h k (List.mem_cons_of_mem _ hk))
      omega
  have hel : (Hash.elems cat.sizes).length ≤ cands.length + 1 := by
    have := hsum (Hash.elems cat.sizes) (fun k hk => (hmem k).mp hk)
    omega
  have e4 := Hash.iterate_elems cat.sizes hpos (cands.length + 1) hel
  have hrecs : ∀ k ∈ Hash.elems cat.sizes, cat.recs k = ⟨k, cnt l k, (cls l k).map (mark0 w json l)⟩ := fun k hk => hcat.recs k ((hmem k).mp hk)
  refine ⟨cat, Hash.elems cat.sizes, ?_, hnd, ?_, ?_, l, hlc, hrecs⟩
  · unfold hashingStart
    rw [e1, Res.ok_bind, e2, Res.ok_bind, e3, Res.ok_bind, if_neg (by rw [hcat.ok]; simp), e4, Res.ok_bind]
  · intro p hp
    rw [hrecs p hp]
    simp [cls_length]
  · have : ∀ ps : List Nat, (∀ k ∈ ps, k ∈ Hash.elems cat.sizes) → (dispatch json cat.recs ps).length ≤ (ps.flatMap (cls l)).length := by
      intro ps
      induction ps with
      | nil => intro _; simp [dispatch]
      | cons p ps ih =>
        intro h
        have ih := ih (fun k hk => h k (List.mem_cons_of_mem _ hk))
        unfold dispatch at ih ⊢
        rw [List.flatMap_cons, List.length_append, List.flatMap_cons, List.length_append, cls_length]
        have hc : (if shouldHash json (cat.recs p) = true then classTasks (cat.recs p) p else []).length ≤ cnt l p := by
          split
          · unfold classTasks
            rw [List.length_map]
            refine Nat.le_trans (List.length_filter_le _ _) ?_
            rw [List.length_range, hrecs p (h p List.mem_cons_self)]
            exact Nat.le_refl _
          · simp
        omega
    have := this _ (fun k hk => hk)
    omega

/-- **C110.** However many workers there are and however they are scheduled, spurious wake-ups of workers included: if the hashing begins with the records `cat`, and
the calls on the pool have been made until nothing is left to do, the run ends as it would with one file hashed after the other. -/
theorem threads_do_not_matter (w : World η) (json : Bool) (cands : List FileEnt) (hl : Limits w cands) (cat : Cat η) (ps : List Nat)
    (hst : hashingStart w json cands = .ok (some (cat, ps))) {n : Nat} (hn : 1 ≤ n) {a b : Nat} {s : St Task}
    (e : Exec a b (init n (hashProgram json cat.recs ps)) s) (hstuck : ¬ ∃ s', Step s s') :
    Finished s ∧ ftwinT w json s.evs cands = ftwin w json cands := by
  obtain ⟨cat', ps', h1, hnd, hroom, hfew, -⟩ := start_spec w json cands hl
  rw [hst] at h1
  injection h1 with h1; injection h1 with h1; injection h1 with h1 h2
  subst h1; subst h2
  have hfew' : (dispatch json cat.recs ps).length < 2 ^ 32 := by have := hl.len; omega
  have hfin := (program_runs_all (dispatch json cat.recs ps) hfew' hn e hstuck).1
  refine ⟨hfin, ?_⟩
  have hseq : ftwin w json cands = (do
      let (recs, tmp, log) ← hashPhase w json ps cat
      let l2 ← drain w.fuel (cands.length + 1) tmp
      let (gs, cmps) ← report w json cat.sizes l2 recs none
      .ok ⟨gs, log, cmps⟩) := by
    unfold hashingStart at hst
    obtain ⟨c, e1, hst⟩ := Res.bind_eq_ok.1 hst
    obtain ⟨l, e2, hst⟩ := Res.bind_eq_ok.1 hst
    obtain ⟨cat2, e3, hst⟩ := Res.bind_eq_ok.1 hst
    by_cases hok : cat2.ok = false
    · rw [if_pos hok] at hst; injection hst with hst; cases hst
    · rw [if_neg hok] at hst
      obtain ⟨ps2, e4, hst⟩ := Res.bind_eq_ok.1 hst
      injection hst with hst; injection hst with hst; injection hst with h1 h2
      subst h1; subst h2
      unfold ftwin processAndReport
      rw [e1, Res.ok_bind, e2, Res.ok_bind, e3, Res.ok_bind, if_neg hok, e4, Res.ok_bind]
  rw [hseq]
  unfold ftwinT
  rw [hst, Res.ok_bind]
  dsimp only
  by_cases ht : 0 < cat.tasks
  · unfold hashPhase
    rw [if_pos ht]
    cases hh : hashClasses w json ps cat.recs cat.tmp with
    | ub => rfl
    | div => rfl
    | ok x =>
      obtain ⟨recs', tmp', lg⟩ := x
      have := (parallel_hashing_deterministic w json ps cat.recs cat.tmp recs' tmp' lg hnd hroom hfew' hh hn e hstuck).2
      rw [Res.ok_bind, Res.ok_bind]
      dsimp only
      rw [if_pos ht, this]
  · cases hh : hashPhase w json ps cat with
    | ub => rfl
    | div => rfl
    | ok x =>
      rw [Res.ok_bind, Res.ok_bind]
      rw [if_neg ht]

/-- C13 with threads: on a disk that can be read and does not change, without digest collisions, every run of every number of workers lists exactly the sets of
identical files (missing: what is missing in C13). -/
theorem threaded_run_exact_partial (disk : String → File.OnDisk) (H : File.Bytes → η) (excess ioFuel : Nat) (base : World η) (json : Bool)
    (cands : List FileEnt) (hl : Limits base cands) (ho : HashOrder base.hcmp) (hq : Sorts base)
    (hsize : ∀ f ∈ cands, f.size = (disk f.path).bytes.length) (hio : ∀ f ∈ cands, f.size < ioFuel)
    (hread : ∀ f ∈ cands, (disk f.path).openOk = true ∧ (disk f.path).closeOk = true ∧ (disk f.path).sched = [])
    (hcol : ∀ f ∈ cands, ∀ g ∈ cands, f.size = g.size → H (disk f.path).bytes = H (disk g.path).bytes → (disk f.path).bytes = (disk g.path).bytes) :
    ∃ cat ps out gs, hashingStart (diskWorld disk H excess ioFuel base) json cands = .ok (some (cat, ps)) ∧ out.groups = some gs ∧
      Exact (fun f => (disk f.path).bytes) cands (gs.map (·.files)) ∧
      ∀ {n : Nat}, 1 ≤ n → ∀ {a b : Nat} {s : St Task}, Exec a b (init n (hashProgram json cat.recs ps)) s → (¬ ∃ s', Step s s') →
        Finished s ∧ ftwinT (diskWorld disk H excess ioFuel base) json s.evs cands = .ok out := by
  have hl' : Limits (diskWorld disk H excess ioFuel base) cands := ⟨hl.len, hl.fuel, hl.sizes⟩
  obtain ⟨out, gs, h1, h2, h3⟩ := ftwin_reports_identical_files_partial disk H excess ioFuel base json cands hl ho hq hsize hio hread hcol
  obtain ⟨cat, ps, hst, -, -, -, -⟩ := start_spec (diskWorld disk H excess ioFuel base) json cands hl'
  refine ⟨cat, ps, out, gs, hst, h2, h3, ?_⟩
  intro n hn a b s e hstuck
  obtain ⟨hf, he⟩ := threads_do_not_matter (diskWorld disk H excess ioFuel base) json cands hl' cat ps hst hn e hstuck
  exact ⟨hf, he.trans h1⟩

/-- Every state of the pool has an execution after which no step is left, so the theorems above speak about something. -/
theorem runs_out {τ : Type} (s : St τ) : ∃ a s', Exec a 0 s s' ∧ ¬ ∃ s'', Step s' s'' := by
  have key : ∀ (m : Nat) (t : St τ) (a : Nat), Pool.measure t ≤ m → Exec a 0 s t → ∃ a s', Exec a 0 s s' ∧ ¬ ∃ s'', Step s' s'' := by
    intro m
    induction m with
    | zero =>
      intro t a hm e
      refine ⟨a, t, e, ?_⟩
      rintro ⟨u, hu⟩
      have := step_measure hu
      omega
    | succ m ih =>
      intro t a hm e
      by_cases h : ∃ u, Step t u
      · obtain ⟨u, hu⟩ := h
        have := step_measure hu
        exact ih u (a + 1) (by omega) (.step e hu)
      · exact ⟨a, t, e, h⟩
  exact key _ s 0 (Nat.le_refl _) (.refl s)

/-- The five files of `exCands`, hashed by three threads. -/
example : ∃ cat ps a s, hashingStart exWorld false exCands = .ok (some (cat, ps)) ∧ Exec a 0 (init 3 (hashProgram false cat.recs ps)) s ∧ (¬ ∃ s', Step s s') ∧
    ftwinT exWorld false s.evs exCands = ftwin exWorld false exCands := by
  have hl : Limits exWorld exCands := natWorld_limits _ _ _ [0, 1, 3] (by decide) (by decide) (by decide)
  obtain ⟨cat, ps, hst, -, -, -, -⟩ := start_spec exWorld false exCands hl
  obtain ⟨a, s, e, hs⟩ := runs_out (init 3 (hashProgram false cat.recs ps))
  exact ⟨cat, ps, a, s, hst, e, hs, (threads_do_not_matter exWorld false exCands hl cat ps hst (by omega) e hs).2⟩

end Verif.Report
