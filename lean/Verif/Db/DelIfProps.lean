import Verif.Db.Props

/-!
# Deleting a pair only if its value matches (C131)

napr_db.h L231 documents the last parameter of `napr_db_del`: "Optional: if non-NULL, only delete
if value matches".  napr_db.c L1864 discards it.  So the call does what is documented when no
value is given or the given one is the stored one, and removes the pair all the same otherwise.
-/

namespace Verif.Db
open Verif.Page

/-- napr_db.c L1856-1921 `napr_db_del` with its last parameter: `none` for NULL, `some v` for the
bytes of the given value.  L1864 `(void) data` is the only mention of it. -/
def delIf (env : Env) (t : Txn) (key : Bytes) (_data : Option Bytes) : Res (Status × Txn) :=
  del env t key

/-- What is documented, on a map: whether the pair is there and may go. -/
def Matches (m : KvMap) (key : Bytes) (data : Option Bytes) : Prop :=
  ∃ v, m key = some v ∧ (data = none ∨ data = some v)

/-- C131 (partial): if no value is given, or the given value is the stored one, or the key is not
stored, a conditional delete does what is documented: a pair that matches is removed and all others
stay, and a key that is not stored is reported as such, without any change. The case that is left is
`delIf_ignores_value`. -/
theorem delIf_partial {env : Env} {t : Txn} {h : Nat} {m : KvMap} {key : Bytes} {data : Option Bytes} (hw : t.rdonly = false)
    (hm : IsMap env t h m) (hk : key.length < 65536) (hd : h < maxDepth) :
    (m key = none → delIf env t key data = .ok (.notfound, t)) ∧
    (Matches m key data → ∃ t', delIf env t key data = .ok (.success, t') ∧
      (∀ fuel, h < fuel → get env t' fuel key = .ok (.error .notfound)) ∧
      ∀ fuel k, h < fuel → k.length < 65536 → k ≠ key → get env t' fuel k = get env t fuel k) := by
  obtain ⟨h1, h2⟩ := del_refines_partial hw hm hk hd
  refine ⟨h1, ?_⟩
  rintro ⟨v, hv, -⟩
  obtain ⟨t', e, -⟩ := h2 (by rw [hv]; simp)
  exact ⟨t', e, fun fuel hf => (del_then_get_partial (k := key) hw hm hk hd hk hf e).1,
    fun fuel k hf hkl hne => (del_then_get_partial hw hm hk hd hkl hf e).2 hne⟩

/-- C131 is false, of every database and every stored pair: whatever other value is given, the call
reports success and the pair is gone. -/
theorem delIf_ignores_value {env : Env} {t : Txn} {h : Nat} {m : KvMap} {key v w : Bytes} (hw : t.rdonly = false)
    (hm : IsMap env t h m) (hk : key.length < 65536) (hd : h < maxDepth) (hv : m key = some v) (_ : w ≠ v) :
    ∃ t', delIf env t key (some w) = .ok (.success, t') ∧
      ∀ fuel, h < fuel → get env t fuel key = .ok (.ok v) ∧ get env t' fuel key = .ok (.error .notfound) := by
  obtain ⟨t', e, -⟩ := (del_refines_partial hw hm hk hd).2 (by rw [hv]; simp)
  refine ⟨t', e, fun fuel hf => ⟨?_, (del_then_get_partial (k := key) hw hm hk hd hk hf e).1⟩⟩
  rw [get_answers hm hk hf]; simp [KvMap.answer, hv]

/-- Both are met: "a" is stored with `val2`, and deleted given `val2`, given nothing, and given "x". -/
example : ∃ t, t.rdonly = false ∧ Matches (KvMap.put (fun _ => none) [97] val2) [97] (some val2) ∧
    (∃ t', delIf env0 t [97] (some val2) = .ok (.success, t')) ∧
    (∃ t', delIf env0 t [97] (some [120]) = .ok (.success, t') ∧ get env0 t 5 [97] = .ok (.ok val2) ∧
      get env0 t' 5 [97] = .ok (.error .notfound)) := by
  obtain ⟨t1, -, h2, -, h4⟩ := exOne
  have hM : Matches (KvMap.put (fun _ => none) [97] val2) [97] (some val2) := ⟨val2, by simp [KvMap.put], .inr rfl⟩
  obtain ⟨t', e, -⟩ := (delIf_partial h2 h4 (by decide) (by decide)).2 hM
  obtain ⟨t2, e2, h5⟩ := delIf_ignores_value (w := [120]) h2 h4 (key := [97]) (v := val2) (by decide) (by decide) (by simp [KvMap.put])
    (fun hh => absurd (congrArg List.length hh) (by rw [val2_length]; decide))
  exact ⟨t1, h2, hM, ⟨t', e⟩, t2, e2, h5 5 (by decide)⟩

end Verif.Db
