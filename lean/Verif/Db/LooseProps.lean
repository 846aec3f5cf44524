import Verif.Db.Loose

/-!
# What lookups may answer after any history (C122, C123)

The properties of `put`, `del` and `get` hold for histories whose splits the code gets right (`Verif.Db.Props`).  Here nothing is asked of the
history: not that the operations succeed, not that keys are different, not that the pages have room.
-/

namespace Verif.Db

open Verif.Page

/-- Operations one after the other: their answers and the transaction after them. -/
def steps (env : Env) (fuel : Nat) (t : Txn) : List KvOp → Res (List Status × Txn)
  | [] => .ok ([], t)
  | op :: ops => do
    let a ← runOp env fuel t op
    let b ← steps env fuel a.2 ops
    .ok (a.1 :: b.1, b.2)

theorem steps_sound {env : Env} {fuel : Nat} {A : Bytes → Bytes → Prop} : ∀ {ops : List KvOp} {t t' : Txn} {sts : List Status}, Sane env A t →
    t.newLast + 33 * ops.length < 2 ^ 64 → (∀ k v, KvOp.put k v ∈ ops → A k v) → steps env (fuel + 1) t ops = .ok (sts, t') → Sane env A t' := by
  have hal : Extends (alloc env (fuel + 1)) := fun t ht => (ext_noFree env fuel).ext t ht
  intro ops
  induction ops with
  | nil => intro t t' sts S _ _ e; cases e; exact S
  | cons op ops ih =>
    intro t t' sts S h64 hA e
    rw [List.length_cons] at h64
    rw [steps] at e
    obtain ⟨a, e1, e⟩ := Res.bind_eq_ok.1 e
    obtain ⟨b, e2, e⟩ := Res.bind_eq_ok.1 e
    cases e
    have hA' : ∀ k v, KvOp.put k v ∈ ops → A k v := fun k v h => hA k v (List.mem_cons_of_mem _ h)
    cases op with
    | put k v =>
      obtain ⟨S', hl⟩ := put_good hal S (hA k v List.mem_cons_self) (by omega) e1
      exact ih S' (by omega) hA' e2
    | del k =>
      obtain ⟨S', hl⟩ := del_good S e1
      exact ih S' (by omega) hA' e2

/-- **C122.**  Begin with any well-formed database that records no free pages and run any operations, whatever they answer.  Afterwards a lookup always comes to an end; it finds nothing or a value that the database held
for this very key at the beginning or that one of the operations put under this very key; and it is defined if no branch page of the tree is empty.  What is missing is that no history leaves an empty branch page
(`lookup_undefined_witness`: some do). -/
theorem lookup_honest_partial {env : Env} {fuel : Nat} {t t' : Txn} {h : Nat} {m : KvMap} {ops : List KvOp} {sts : List Status} (hr : t.rdonly = false)
    (hf : t.freeRoot = 0) (hm : IsMap env t h m) (h64 : t.newLast + 33 * ops.length < 2 ^ 64) (H : steps env (fuel + 1) t ops = .ok (sts, t')) :
    ∃ h', ∀ k fuel', k.length < 65536 →
      (h' < fuel' → get env t' fuel' k ≠ .div) ∧
      (h' < fuel' → (t'.root ≠ 0 → Branching (getPage env t') h' t'.root) → ∃ x, get env t' fuel' k = .ok x) ∧
      ∀ x, get env t' fuel' k = .ok x → x = .error .notfound ∨ ∃ v, x = .ok v ∧ (m k = some v ∨ KvOp.put k v ∈ ops) := by
  have S0 : Sane env (fun k v => m k = some v ∨ KvOp.put k v ∈ ops) t := sound_of_map hr hf hm fun k v h => .inl h
  obtain ⟨lv, h', L, hroot⟩ := steps_sound S0 h64 (fun k v h => .inr h) H
  exact ⟨h', fun k fuel' hk => get_good L hroot hk⟩

/-! ### What is false -/

/-- The answers of the operations on a new database, then the length of what `get` finds. -/
def stepsGet (l : List KvOp) (k : Bytes) : Res (List Status × Option Nat) := do
  let a ← steps env0 3 txn0 l
  match ← get env0 a.2 5 k with
  | .ok v => .ok (a.1, some v.length)
  | .error _ => .ok (a.1, none)

/-- **C123** is false: `e` is stored, stored again with another value, and found with it; two more successful `put`s of other keys, and the first value is back. -/
theorem older_value_returns :
    stepsGet [.put [99] val3, .put [103] val3, .put [100] val3, .put [106] val3, .put [101] val3, .put [101] (1 :: val3)] [101] =
      .ok (List.replicate 6 .success, some 1301) ∧
    stepsGet [.put [99] val3, .put [103] val3, .put [100] val3, .put [106] val3, .put [101] val3, .put [101] (1 :: val3), .put [104] val3, .put [105] val3] [101] =
      .ok (List.replicate 8 .success, some 1300) := by
  decide +kernel

/-- **C123** is false: `e` is not there when it is to be deleted, and not found afterwards; two more successful `put`s of another key, and it is found. -/
theorem absent_key_returns :
    stepsGet [.put [102] val2, .put [98] val2, .put [101] val2, .del [101]] [101] =
      .ok ([.success, .success, .success, .notfound], none) ∧
    stepsGet [.put [102] val2, .put [98] val2, .put [101] val2, .del [101], .put [103] val2, .put [103] val2] [101] =
      .ok ([.success, .success, .success, .notfound, .success, .success], some 1900) := by
  decide +kernel

/-! ### Examples -/

/-- C122's hypotheses: a new database, and a history with operations that fail. -/
example : ∃ t', steps env0 3 txn0 [.put [97] [1], .put [97] [2], .del [98], .del [97]] = .ok ([.success, .exist, .notfound, .success], t') := by
  have run : ∀ (r : Res (List Status × Txn)), (match r with | .ok x => decide (x.1 = [.success, .exist, .notfound, .success]) | _ => false) = true →
      ∃ t', r = .ok ([.success, .exist, .notfound, .success], t') := by
    intro r hr
    split at hr
    · rename_i x
      obtain ⟨a, b⟩ := x
      exact ⟨b, by rw [show a = _ from of_decide_eq_true hr]⟩
    · cases hr
  exact run _ (by decide +kernel)

end Verif.Db
