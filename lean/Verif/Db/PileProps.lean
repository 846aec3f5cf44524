import Verif.Db.Pile

/-!
# Properties of histories described by lists

A lookup after successful `put`s that reads outside its page (C122), and the refinement of the byte-level tree to the lists of `Verif.Db.Pile`.
-/

namespace Verif.Db

open Verif.Page

/-- Every history that the lists describe ends, with the answers that the lists give; `get` then says what the lists say. -/
theorem pile_refines {env : Env} {fuel : Nat} {s : Pile} {t : Txn} (R : Piled s t) {ops : List KvOp} {y : List Status × Pile} (h : s.steps ops = some y) :
    ∃ t', steps env (fuel + 1) t ops = .ok (y.1, t') ∧ Piled y.2 t' ∧
      ∀ k d, k.length < 65536 → y.2.root ≠ 0 →
        (∀ r, y.2.find k d y.2.root = some r → get env t' d k = .ok (said r)) ∧
        (y.2.falls k d y.2.root = true → ∀ e, get env t' (d + e) k = .ub) := by
  obtain ⟨t', e, R'⟩ := R.steps (env := env) (fuel := fuel) h
  exact ⟨t', e, R', fun k d hk h0 => ⟨fun r hr => (R'.seen env).get hk h0 hr, fun hf x => (R'.seen env).get_falls hk h0 (Pile.falls_add hf x)⟩⟩

/-- The keys of the witness: 1340 bytes. -/
def bigKey (c : UInt8) : Bytes := c :: List.replicate 1339 0

/-- Six `put`s that all succeed on a new database. -/
def hollowing : List KvOp :=
  [.put (bigKey 104) (List.replicate 300 1), .put (bigKey 102) (List.replicate 300 1), .put (bigKey 106) (List.replicate 300 1),
    .put (bigKey 103) (List.replicate 300 1), .put (bigKey 99) [], .put (bigKey 100) []]

theorem bigKey_length (c : UInt8) : (bigKey c).length = 1340 := by
  unfold bigKey
  rw [List.length_cons, List.length_replicate]

/-- **C122** is false: six successful `put`s into a new database; then the lookup of the key put fifth, and of the key put sixth, reads outside its page:
the split of a branch page with one entry has left an empty branch page on their way. -/
theorem lookup_undefined_witness : ∃ t', steps env0 3 txn0 hollowing = .ok (List.replicate 6 .success, t') ∧
    ∀ fuel, get env0 t' (fuel + 4) (bigKey 99) = .ub ∧ get env0 t' (fuel + 4) (bigKey 100) = .ub := by
  have hdec : ((Pile.steps ⟨0, 1, []⟩ hollowing).map fun a => (a.1, a.2.root != 0, a.2.falls (bigKey 99) 4 a.2.root, a.2.falls (bigKey 100) 4 a.2.root)) =
      some (List.replicate 6 .success, true, true, true) := by decide +kernel
  cases hy : Pile.steps ⟨0, 1, []⟩ hollowing with
  | none => rw [hy] at hdec; cases hdec
  | some y =>
    rw [hy] at hdec
    simp only [Option.map_some, Option.some.injEq, Prod.mk.injEq] at hdec
    obtain ⟨t', e, -, hget⟩ := pile_refines (env := env0) (fuel := 2) piled_txn0 hy
    refine ⟨t', by rw [e, hdec.1], fun fuel => ?_⟩
    have h0 : y.2.root ≠ 0 := by simpa using hdec.2.1
    rw [Nat.add_comm]
    exact ⟨(hget _ 4 (by rw [bigKey_length]; decide) h0).2 hdec.2.2.1 fuel, (hget _ 4 (by rw [bigKey_length]; decide) h0).2 hdec.2.2.2 fuel⟩

end Verif.Db
