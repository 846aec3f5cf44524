import Verif.Db.Deep
import Verif.Cache.Hollow

/-!
# A cache file that takes no more files (C138)
-/

namespace Verif.Cache

open Verif.Page Verif.Db

/-- The files of the witness. -/
def tallFiles : List (Bytes × Bytes) := (List.range 34).map fun i => (tallKey i, tallVal)

/-- **C138**, of the cache: 34 files with paths of 1500 bytes are entered into a new cache.  From then on no record can be entered or replaced, of any file, in this run or, once it has committed,
in the next, however large the map is. -/
theorem cache_full {mapPages fuel : Nat} (hm : 1000 ≤ mapPages) (vis : List Bytes) :
    ∃ env c1 c2 c3 c4, envCreate mapPages = .ok env ∧ beginWrite ⟨env, none, vis⟩ = some (.success, c1) ∧ upserts c1 (fuel + 1) tallFiles = .ok (List.replicate 34 .success, c2) ∧
      (∀ path record : Bytes, path.length < 65536 → ∀ f, upsert c2 f path record = .ok (.general, c2)) ∧
      commitWrite c2 (fuel + 1) none 1 1 = .ok (.success, c3) ∧ beginWrite c3 = some (.success, c4) ∧
      ∀ path record : Bytes, path.length < 65536 → ∀ f, upsert c4 f path record = .ok (.general, c4) := by
  obtain ⟨env, env1, t, t', env', env2, t2, h1, h2, h3, -, h5, h6, h7, -, h9⟩ := long_keys_fill (fuel := fuel) hm
  have hw : t'.rdonly = false := by
    cases hr : t'.rdonly with
    | false => rfl
    | true =>
      have := (h5 [] [] (by decide) 0).1
      unfold put putWith at this
      rw [if_pos hr] at this
      cases this
  refine ⟨env, ⟨env1, some t, vis⟩, ⟨env1, some t', vis⟩, ⟨env', none, vis⟩, ⟨env2, some t2, vis⟩, h1, ?_, ?_, fun path record hp f => ?_, ?_, ?_, fun path record hp f => ?_⟩
  · unfold beginWrite
    simp only []
    rw [h2]
  · refine upserts_steps tallFiles ?_
    have e : tallFiles.map (fun e => KvOp.put e.1 e.2) = tallLoad := by unfold tallFiles tallLoad; rw [List.map_map]; rfl
    rw [e]; exact h3
  · unfold upsert
    simp only []
    rw [(h5 path record hp f).1, Res.ok_bind]
  · unfold commitWrite
    simp only []
    rw [if_neg (by rw [hw]; simp)]
    have h6' : commitWith (alloc env1 (fuel + 1)) none env1 t' = .ok (.success, env') := h6
    rw [h6', Res.ok_bind]
  · unfold beginWrite
    simp only []
    rw [h7]
  · unfold upsert
    simp only []
    rw [(h9 path record hp f).1, Res.ok_bind]

end Verif.Cache
