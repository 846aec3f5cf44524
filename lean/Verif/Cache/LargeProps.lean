import Verif.Cache.Large
import Verif.Db.BulkSave

/-!
# A cache that cannot be swept (C59, C79)
-/

namespace Verif.Cache

open Verif.Page Verif.Db

theorem upserts_puts {env : Env} {fuel : Nat} {vis : List Bytes} (l : List (Bytes × Bytes)) : ∀ {t t' : Txn} {sts : List Status},
    puts env fuel t l = .ok (sts, t') → upserts ⟨env, some t, vis⟩ fuel l = .ok (sts, ⟨env, some t', vis⟩) := by
  induction l with
  | nil => intro t t' sts h; cases h; rfl
  | cons kv l ih =>
    intro t t' sts h
    obtain ⟨k, v⟩ := kv
    rw [puts] at h
    obtain ⟨a, h1, h⟩ := Res.bind_eq_ok.1 h
    obtain ⟨b, h2, h⟩ := Res.bind_eq_ok.1 h
    cases h
    rw [upserts]
    have : upsert ⟨env, some t, vis⟩ fuel k v = .ok (a.1, ⟨env, some a.2, vis⟩) := by
      unfold upsert
      simp only [h1, Res.ok_bind]
    rw [this, Res.ok_bind, ih (by rw [h2])]
    rfl

/-- C59 and C79 are false of the code, for a whole class of caches: a new cache is loaded in one
transaction with records under paths of the same length, in ascending order (all of this succeeds,
if the map is large enough), and afterwards more than 44704 of the paths are not marked.  Then
the sweep never succeeds: it reports "no space" and leaves all entries (or overruns a page), however large
the map is. -/
theorem large_cache_cannot_be_swept {mapPages ks fuel pid tid : Nat} {A : List (Bytes × Bytes)} {vis : List Bytes} (hs : (A.map Prod.fst).Pairwise (· < ·))
    (hsize : ∀ e ∈ A, e.1.length = ks ∧ e.2.length = 40) (hk : ks ≤ 1993)
    (hn : A.length < (4078 / (ks + 12) / 2) ^ 31) (hmap : 34 * A.length + 3 < mapPages) (hcap : mapPages < 2 ^ 52)
    (hmany : 508 * 88 < (A.filter fun e => e.1 ∉ vis).length) :
    ∃ env c1 c2 c3, envCreate mapPages = .ok env ∧ beginWrite ⟨env, none, vis⟩ = some (.success, c1) ∧
      upserts c1 (fuel + 2) A = .ok (List.replicate A.length .success, c2) ∧ commitWrite c2 (fuel + 2) none pid tid = .ok (.success, c3) ∧
      (∃ h, IsMap c3.env (readTxn c3.env) h (fun k => A.lookup k)) ∧
      ∀ fuel' fail, A.length + 34 ≤ fuel' → sweep c3 fuel' fail pid tid = .ok (.nospc, c3) ∨ sweep c3 fuel' fail pid tid = .ub := by
  obtain ⟨env, env1, t, t', env', h, hf, fl, a1, a2, a3, a4, a5, a6, a7, a8, a9, a10, a11, a12, a13, -⟩ :=
    load_and_commit_partial (vs := 40) (fuel := fuel) hs hsize (by omega) (by omega) hn hmap hcap
  have hA : A ≠ [] := by rintro rfl; simp at hmany
  have hro : t'.rdonly = false := by
    have : ∀ (l : List (Bytes × Bytes)) {t t' : Txn} {sts : List Status}, puts env1 (fuel + 2) t l = .ok (sts, t') → t.rdonly = false → t'.rdonly = false := by
      intro l
      induction l with
      | nil => intro t t' sts h ht; cases h; exact ht
      | cons kv l ih =>
        intro t t' sts h ht
        rw [puts] at h
        obtain ⟨a, h1, h⟩ := Res.bind_eq_ok.1 h
        obtain ⟨b, h2, h⟩ := Res.bind_eq_ok.1 h
        cases h
        have hP : Closed env1 (fun t => t.rdonly = false) := by
          refine ⟨fun _ _ _ h => h, ?_, fun _ h => h, fun _ _ h => h⟩
          intro t n r h ht
          unfold getWritable at h
          obtain ⟨p, -, h⟩ := Res.bind_eq_ok.1 h
          split at h
          · cases h; exact ht
          · cases h; exact ht
        exact ih h2 (putWith_inv hP (alloc_inv hP _) h1 ht)
    refine this A a3 ?_
    unfold Db.beginWrite at a2
    split at a2
    · cases a2
    · cases a2; rfl
  refine ⟨env, ⟨env1, some t, vis⟩, ⟨env1, some t', vis⟩, ⟨env', none, vis⟩, a1, ?_, upserts_puts A a3, ?_, ⟨h, a8.main⟩, ?_⟩
  · unfold beginWrite; rw [a2]
  · unfold commitWrite
    simp only [hro, Bool.false_eq_true, if_false]
    unfold commit at a4
    rw [a4]; rfl
  · intro fuel' fail hfuel
    have hsteps : sweepSteps env' h ≤ fuel' := by
      unfold sweepSteps
      rw [if_neg (a11 hA)]
      obtain ⟨l, hl, hlm⟩ := a8.main
      rcases hl with ⟨hx, -⟩ | ⟨h0, ht, hc⟩
      · exact absurd hx (a11 hA)
      · have hnd : ((contents (mapPage env') h (metaRoot env'.liveMeta)).map Prod.fst).Nodup := by
          have := holds_sorted (.inr ⟨h0, ht, hc⟩)
          rw [← hc] at this
          exact List.Pairwise.imp (fun h => by rintro rfl; exact blt_irrefl _ h) this
        have := nodup_length_le _ (A.map Prod.fst) hnd (by
          intro k hk
          have hk' : k ∈ l.map Prod.fst := by rw [← hc]; exact hk
          apply Classical.byContradiction
          intro hx
          have h1 := lookup_none_iff.2 hx
          exact lookup_none_iff.1 ((hlm k).trans h1) hk')
        rw [List.length_map, List.length_map] at this
        omega
    refine sweep_of_many_fails (c := ⟨env', none, vis⟩) pid tid fail a8 a5 (by show metaTxnid env'.liveMeta + 1 < _; omega) a9 (a11 hA) (a12 (a11 hA)) a10 hsteps ?_
      (ks := (A.filter fun e => e.1 ∉ vis).map Prod.fst) ?_ ?_ ?_
    · intro k v hkv
      have : (k, v) ∈ A := by
        clear a3 a8 hs hsize hn hmap hmany hA hsteps hfuel a11
        induction A with
        | nil => cases hkv
        | cons a l ih =>
          obtain ⟨a, w⟩ := a
          simp only [List.lookup_cons] at hkv
          split at hkv
          · rename_i he
            have : k = a := by simpa using he
            cases hkv; rw [this]; simp
          · exact List.mem_cons_of_mem _ (ih hkv)
      exact (hsize _ this).2
    · refine List.Nodup.sublist (List.Sublist.map _ List.filter_sublist) ?_
      exact List.Pairwise.imp (fun h => by rintro rfl; exact blt_irrefl _ h) hs
    · intro k hk
      obtain ⟨e, he, rfl⟩ := List.mem_map.1 hk
      rw [List.mem_filter] at he
      refine ⟨fun hx => ?_, by simpa using he.2⟩
      exact lookup_none_iff.1 hx (List.mem_map_of_mem he.1)
    · rw [List.length_map]; exact hmany

/-! ### A cache that meets the conditions -/

/-- Three bytes of a number, the most significant first. -/
def be3 (i : Nat) : Bytes := [UInt8.ofNat (i / 65536), UInt8.ofNat (i / 256 % 256), UInt8.ofNat (i % 256)]

theorem be3_lt {i j : Nat} (h : i < j) (hj : j < 2 ^ 24) : be3 i < be3 j := by
  unfold be3
  have key : ∀ a b : Nat, a < b → b < 256 → UInt8.ofNat a < UInt8.ofNat b := by
    intro a b h hb
    rw [UInt8.lt_iff_toNat_lt]
    simp
    omega
  rw [List.cons_lt_cons_iff, List.cons_lt_cons_iff, List.cons_lt_cons_iff]
  by_cases h1 : i / 65536 = j / 65536
  · right
    refine ⟨by rw [h1], ?_⟩
    by_cases h2 : i / 256 % 256 = j / 256 % 256
    · right
      refine ⟨by rw [h2], .inl (key _ _ (by omega) (by omega))⟩
    · left
      exact key _ _ (by omega) (by omega)
  · left
    exact key _ _ (by omega) (by omega)

/-- 50000 records. -/
def many : List (Bytes × Bytes) := (List.range 50000).map fun i => (be3 i, List.replicate 40 0)

/-- A map of 8 GB and 50000 paths of three bytes, none of them visited. -/
example : ∃ env c1 c2 c3, envCreate 2000000 = .ok env ∧ beginWrite ⟨env, none, []⟩ = some (.success, c1) ∧
    upserts c1 2 many = .ok (List.replicate many.length .success, c2) ∧ commitWrite c2 2 none 1 1 = .ok (.success, c3) ∧
    (∃ h, IsMap c3.env (readTxn c3.env) h (fun k => many.lookup k)) ∧
    ∀ fuel' fail, many.length + 34 ≤ fuel' → sweep c3 fuel' fail 1 1 = .ok (.nospc, c3) ∨ sweep c3 fuel' fail 1 1 = .ub := by
  have hlen : many.length = 50000 := by unfold many; rw [List.length_map, List.length_range]
  refine large_cache_cannot_be_swept (ks := 3) (fuel := 0) ?_ ?_ (by decide) ?_ ?_ (by decide) ?_
  · unfold many
    rw [List.map_map, List.pairwise_map]
    have : (List.range 50000).Pairwise (· < ·) := List.pairwise_lt_range
    refine List.Pairwise.imp_of_mem ?_ this
    intro i j hi hj hij
    rw [List.mem_range] at hj
    exact be3_lt hij (by omega)
  · intro e he
    obtain ⟨i, -, rfl⟩ := List.mem_map.1 he
    exact ⟨rfl, List.length_replicate⟩
  · rw [hlen]; decide
  · rw [hlen]; decide
  · rw [List.filter_eq_self.2 (by intro a _; simp), hlen]; decide

end Verif.Cache
