import Verif.Xxh.Props

/-!
# The groups of the process (C91)

Model of `fill_gids_ht`, ft_config.c L103-137.  `getgroups(256, list)` fails if the process has more than 256 supplementary groups, and else gives them all.
-/

namespace Verif.Xxh

open Verif.Report (World sizeFns present)

/-- Table callbacks of `conf->gids`, ft_config.c L242-246. -/
def gidFns : Hash.Fns Nat Nat := ⟨id, gidHash⟩

/-- L103 `MAX_GIDS`. -/
def maxGids : Nat := 256

/-- L127-134, one round. -/
def addGid (fuel : Nat) (t : Hash.Table Nat) (g : Nat) : Res (Hash.Table Nat) := do
  let o ← Hash.search gidFns t g
  match o with
  | none => Hash.set gidFns fuel t g (gidHash g)
  | some _ => .ok t

/-- L105-137 `fill_gids_ht` for a process with the supplementary groups `groups` and the effective group `egid`; `none` is `APR_EGENERAL`. -/
def fillGids (fuel : Nat) (groups : List Nat) (egid : Nat) (t : Hash.Table Nat) : Res (Option (Hash.Table Nat)) :=
  if maxGids < groups.length then .ok none
  else do
    let t ← (if groups.length < maxGids then groups ++ [egid] else groups).foldlM (addGid fuel) t
    .ok (some t)

/-- ft_config.c L242-246: the table of a new configuration. -/
def gids0 : Hash.Table Nat := Hash.makeEx Nat 4096 8

/-- The table holds the groups of `l`. -/
structure Holds (t : Hash.Table Nat) (l : List Nat) : Prop where
  ff : t.ffactor = 8
  abs : Hash.Abs gidFns t (present (· ∈ l))

theorem addGid_holds {t : Hash.Table Nat} {l : List Nat} (h : Holds t l) (hl : ∀ x ∈ l, x < 2 ^ 32) {g : Nat} (hg : g < 2 ^ 32) {fuel : Nat} (hf : 33 ≤ fuel) :
    ∃ t', addGid fuel t g = .ok t' ∧ Holds t' (g :: l) := by
  have hfn : sizeFns { Report.exWorld with sizeHash := gidHash } = gidFns := rfl
  have habs : Hash.Abs (sizeFns { Report.exWorld with sizeHash := gidHash }) t (present (· ∈ l)) := h.abs
  have hsearch := Hash.search_abs h.abs g
  unfold addGid
  rw [hsearch, Res.ok_bind]
  by_cases hc : g ∈ l
  · have hm : present (· ∈ l) g = some g := if_pos hc
    rw [hm]
    refine ⟨t, rfl, h.ff, ?_⟩
    have : (present (· ∈ g :: l)) = present (· ∈ l) := by
      funext k
      unfold present
      by_cases hk : k = g
      · subst hk; simp [hc]
      · simp [hk]
    rw [this]; exact h.abs
  · have hm : present (· ∈ l) g = none := if_neg hc
    rw [hm]
    have hmem : ∀ k, k ∈ Hash.elems t → k ∈ l := by
      intro k hk
      have := (Report.abs_mem habs k).mp hk
      unfold present at this
      split at this
      · assumption
      · cases this
    have hbound : ∀ v, Hash.sameHash gidFns (g :: Hash.elems t) v < t.ffactor := by
      intro v
      rw [h.ff]
      unfold Hash.sameHash
      rw [List.countP_eq_length_filter]
      have hnd : ((g :: Hash.elems t).filter (fun y => decide (gidFns.hash (gidFns.key y) = v))).Nodup := by
        refine List.Pairwise.filter _ (List.nodup_cons.mpr ⟨fun hk => hc (hmem g hk), Report.abs_nodup habs⟩)
      cases hcase : (g :: Hash.elems t).filter (fun y => decide (gidFns.hash (gidFns.key y) = v)) with
      | nil => simp
      | cons a r =>
        have hlt : ∀ k ∈ (g :: Hash.elems t).filter (fun y => decide (gidFns.hash (gidFns.key y) = v)), k < 2 ^ 32 ∧ gidHash k = v := by
          intro k hk
          rw [List.mem_filter, List.mem_cons] at hk
          refine ⟨?_, of_decide_eq_true hk.2⟩
          rcases hk.1 with rfl | hk
          · exact hg
          · exact hl k (hmem k hk)
        rw [hcase] at hnd hlt
        have := Report.nodup_length_le (a :: r) [a] hnd (by
          intro k hk
          rw [List.mem_singleton]
          have h1 := hlt k hk
          have h2 := hlt a (by simp)
          exact gidHash_inj h1.1 h2.1 (h1.2.trans h2.2.symm))
        simp at this
        simp [this]
    obtain ⟨t', e2, ha⟩ := Hash.set_terminates_from gidFns fuel t g h.abs.inv hbound (by omega)
    refine ⟨t', e2, ha.ff.trans h.ff, ?_⟩
    have := Hash.set_abs h.abs ha hm
    have e : (present (· ∈ g :: l)) = fun k => if k = gidFns.key g then some g else present (· ∈ l) k := by
      funext k
      unfold present
      by_cases hk : k = g
      · subst hk; simp [gidFns]
      · simp [hk, gidFns]
    rw [e]; exact this

theorem addGids_holds {fuel : Nat} (hf : 33 ≤ fuel) : ∀ (gs : List Nat) (t : Hash.Table Nat) (l : List Nat), Holds t l → (∀ x ∈ l, x < 2 ^ 32) → (∀ g ∈ gs, g < 2 ^ 32) →
    ∃ t', gs.foldlM (addGid fuel) t = .ok t' ∧ Holds t' (gs.reverse ++ l) := by
  intro gs
  induction gs with
  | nil => intro t l h _ _; exact ⟨t, rfl, h⟩
  | cons g gs ih =>
    intro t l h hl hg
    obtain ⟨t1, e1, h1⟩ := addGid_holds h hl (hg g (by simp)) hf
    obtain ⟨t2, e2, h2⟩ := ih t1 (g :: l) h1 (by intro x hx; rcases List.mem_cons.mp hx with rfl | hx; exact hg _ (by simp); exact hl x hx) (fun x hx => hg x (by simp [hx]))
    refine ⟨t2, by rw [List.foldlM_cons, e1]; exact e2, ?_⟩
    have er : (g :: gs).reverse ++ l = gs.reverse ++ (g :: l) := by simp
    rw [er]; exact h2

theorem gids0_holds : Holds gids0 [] where
  ff := rfl
  abs := by
    have := Hash.makeEx_abs gidFns 4096 (ff := 8) (by decide)
    have e : (present (· ∈ ([] : List Nat))) = fun _ => none := by funext k; simp [present]
    rw [e]; exact this

/-- **C91, part.**  A process with fewer than 256 supplementary groups: the table of groups is built, and it holds exactly these and the effective group.  Missing: more
groups (`many_groups_fail`, `effective_group_lost`). -/
theorem groups_exact_partial {fuel : Nat} (hf : 33 ≤ fuel) (groups : List Nat) (egid : Nat) (hn : groups.length < 256) (hg : ∀ g ∈ groups, g < 2 ^ 32) (he : egid < 2 ^ 32) :
    ∃ t, fillGids fuel groups egid gids0 = .ok (some t) ∧
      ∀ g, ∃ o, Hash.search gidFns t g = .ok o ∧ (o.isSome = true ↔ g ∈ groups ∨ g = egid) := by
  obtain ⟨t, e, h⟩ := addGids_holds hf (groups ++ [egid]) gids0 [] gids0_holds (by simp) (by
    intro g hgm; rcases List.mem_append.mp hgm with hgm | hgm; exact hg g hgm; simp at hgm; subst hgm; exact he)
  refine ⟨t, ?_, fun g => ⟨_, Hash.search_abs h.abs g, ?_⟩⟩
  · unfold fillGids
    rw [if_neg (by unfold maxGids; omega), if_pos (by unfold maxGids; exact hn), e]; rfl
  · unfold present
    by_cases hc : g ∈ groups ∨ g = egid
    · have hc2 := hc.symm; simp [hc2]; exact hc
    · simp only [not_or] at hc; simp [hc]

/-- C91 is false of processes with more than 256 groups: the run fails. -/
theorem many_groups_fail (fuel : Nat) (groups : List Nat) (egid : Nat) (t : Hash.Table Nat) (hn : 256 < groups.length) : fillGids fuel groups egid t = .ok none := by
  unfold fillGids
  rw [if_pos (by unfold maxGids; exact hn)]

/-- C91 is false of processes with 256 supplementary groups: the effective group is not looked at unless it is one of them. -/
theorem effective_group_lost {fuel : Nat} (hf : 33 ≤ fuel) (groups : List Nat) (egid : Nat) (hn : groups.length = 256) (hg : ∀ g ∈ groups, g < 2 ^ 32) (he : egid ∉ groups) :
    ∃ t, fillGids fuel groups egid gids0 = .ok (some t) ∧ Hash.search gidFns t egid = .ok none := by
  obtain ⟨t, e, h⟩ := addGids_holds hf groups gids0 [] gids0_holds (by simp) hg
  refine ⟨t, ?_, ?_⟩
  · unfold fillGids
    rw [if_neg (by unfold maxGids; omega), if_neg (by unfold maxGids; omega), e]; rfl
  · rw [Hash.search_abs h.abs]
    simp [present, he]

/-- A process that is in groups 1000, 27 and 1000 again, with effective group 100. -/
example : ∃ t, fillGids 33 [1000, 27, 1000] 100 gids0 = .ok (some t) ∧ ∀ g, ∃ o, Hash.search gidFns t g = .ok o ∧ (o.isSome = true ↔ g ∈ [1000, 27, 1000] ∨ g = 100) :=
  groups_exact_partial (by decide) _ _ (by decide) (by decide) (by decide)

/-- One in the groups 1 to 256, with effective group 0. -/
example : ∃ t, fillGids 33 (List.range' 1 256) 0 gids0 = .ok (some t) ∧ Hash.search gidFns t 0 = .ok none :=
  effective_group_lost (by decide) _ _ (by simp) (by intro g hg; rw [List.mem_range'_1] at hg; omega) (by intro h; rw [List.mem_range'_1] at h; omega)

end Verif.Xxh
