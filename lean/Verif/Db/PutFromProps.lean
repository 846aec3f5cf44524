import Verif.Db.PutFrom

/-!
# Storing a value that was read (C132)

`napr_db_get` gives a pointer "valid only for the lifetime of the transaction" (napr_db.h L28-29), and `napr_db_put` takes
one.  So a program that copies a pair to another key within a transaction passes the one to the other.

* `copied_value_partial`, `copied_value_found_partial`: this is right when the value lies in the map (it was committed before,
  in a page this transaction has not changed), or lies in a leaf that the put does not split, or survives its split.
* `copied_value_damaged`: it is wrong in general.  The leaf is split, the entry of the value moves to the new page, and the
  header of the new node is written over the bytes that the pointer still leads to.  Every call reports success, and
  the value stored differs from the one read.
* `copied_value_undefined`: or `memcpy` is given regions that overlap.
-/

namespace Verif.Db

open Verif.Page

/-- The page a pointer leads to is one of the tree, hence none that a later allocation adds. -/
theorem pointer_in_tree {env : Env} {t : Txn} {h : Nat} {m : KvMap} (hw : t.rdonly = false) (hm : IsMap env t h m) {key : Bytes} (hk : key.length < 65536)
    {fuel : Nat} (hd : h < maxDepth) {x : Ptr} (hx : getPtr env t fuel key = .ok (.ok x)) : x.no ≤ t.newLast := by
  obtain ⟨h0, -⟩ := pointer_leaf hx
  obtain ⟨l, hl, -⟩ := hm
  rcases hl with ⟨e, -⟩ | ⟨-, ht, -⟩
  · exact absurd e h0
  · obtain ⟨path, h1, h3⟩ := findPath_spec hk h ht.wft hd (by
      intro y hy; unfold maxPgno; simpa [hw] using (ht.bound y hy).2)
    have hne : path ≠ [] := by
      obtain ⟨rest, hr, -⟩ := isPath_cons h1; rw [hr]; simp
    have hno : path.getLastD 0 = x.no := by
      unfold getPtr at hx
      rw [if_neg h0] at hx
      obtain ⟨r, hr, hx⟩ := Res.bind_eq_ok.1 hx
      cases r with
      | error e => cases hx
      | ok n =>
        simp only [] at hx
        obtain ⟨q, -, hx⟩ := Res.bind_eq_ok.1 hx
        obtain ⟨f, -, hx⟩ := Res.bind_eq_ok.1 hx
        cases f with
        | notFound i => cases hx
        | found i =>
          simp only [] at hx
          obtain ⟨o, -, hx⟩ := Res.bind_eq_ok.1 hx
          obtain ⟨-, -, hx⟩ := Res.bind_eq_ok.1 hx
          cases hx
          exact findLeafNo_path _ hr h3
    rw [← hno]
    exact (ht.bound _ (isPath_mem h1 _ (getLastD_mem hne))).2

/-- Passing the pointer `x` on to a `put` of key `k` does no harm: the pointer leads into the map, or its leaf has room for
the new entry, or the first half of its leaf lies below the value, or so far above it that the new node does not reach it. -/
def Unharmed (t : Txn) (x : Ptr) (k : Bytes) : Prop :=
  x.dirty = true → ∀ p, t.getDirty x.no = some p → room p < 4 + k.length + x.len + 2 →
    lowestOf p (numKeys p / 2) ≤ x.off ∨ x.off + x.len + (4 + k.length + x.len) ≤ lowestOf p (numKeys p / 2)

/-- C132 (partial): in a write transaction that holds the map `m`, storing under `k` the value that was read for `key` is
storing a copy of that value, if the pointer is `Unharmed`. -/
theorem copied_value_partial {env : Env} {t : Txn} {h : Nat} {m : KvMap} (hw : t.rdonly = false) (hfree : t.freeRoot = 0) (hm : IsMap env t h m) {key v : Bytes}
    (hk : key.length < 65536) {fuel : Nat} (hf : h < fuel) (hd : h < maxDepth) (hv : m key = some v) {k : Bytes} (hs : 4 + k.length + v.length < 65536)
    (h64 : t.newLast + 1 < 2 ^ 64) (fuel' : Nat) :
    ∃ x, getPtr env t fuel key = .ok (.ok x) ∧ deref env t x = .ok v ∧
      (Unharmed t x k → putFrom (alloc env (fuel' + 1)) env t k x = put env (fuel' + 1) t k v) := by
  obtain ⟨x, hx, hdx⟩ := pointer_reads_value hm hk hf hv
  obtain ⟨h0, -⟩ := pointer_leaf hx
  refine ⟨x, hx, hdx, fun hu => ?_⟩
  have hlen := (deref_len hdx).1
  by_cases hb : x.dirty = true
  · obtain ⟨p, i, hp, hown, -, hi, hlf, -, -, hwf⟩ := pointer_place hk hx
    have hpd : t.getDirty x.no = some p := by
      rw [hb, hw] at hown
      obtain ⟨q, hq⟩ := Option.isSome_iff_exists.1 (by simpa using hown.symm : (t.getDirty x.no).isSome = true)
      rw [getPage_dirty hw hq] at hp; cases hp; exact hq
    have wf := pointer_wf hm hf hk hx hp
    exact putFrom_own (fun t ht => (ext_noFree env fuel').ext t ht) hfree h64 h0 hb hdx (by omega) (leads_of_map hw hm (by omega) hd h0)
      (pointer_in_tree hw hm hk hd hx) hpd wf hlf (by omega) (hwf wf).1 (hu hb p hpd)
  · exact putFrom_clean h0 (by simpa using hb) hdx

/-- C132 (partial) in terms of `get`: afterwards the value is found under the new key, and all other keys, the one it was
read from among them, have the values they had.  (`PutSafe` is what C41 requires of a `put`.) -/
theorem copied_value_found_partial {env : Env} {t t' : Txn} {h : Nat} {m : KvMap} (hw : t.rdonly = false) (hfree : t.freeRoot = 0) (hm : IsMap env t h m) {key v : Bytes}
    (hk : key.length < 65536) {fuel : Nat} (hf : h < fuel) (hd : h < maxDepth) (hv : m key = some v) {k : Bytes} (hp : PutSafe env t h m k v)
    (hs : 4 + k.length + v.length < 65536) (h64 : t.newLast + 1 < 2 ^ 64) {fuel' : Nat} {x : Ptr} (hx : getPtr env t fuel key = .ok (.ok x)) (hu : Unharmed t x k)
    (hput : putFrom (alloc env (fuel' + 1)) env t k x = .ok (.success, t')) {fu : Nat} (hfu : h + 1 < fu) :
    get env t' fu k = .ok (.ok v) ∧ ∀ k', k' ≠ k → k'.length < 65536 → get env t' fu k' = get env t fu k' := by
  obtain ⟨y, hy, -, he⟩ := copied_value_partial hw hfree hm hk hf hd hv hs h64 fuel'
  rw [hx] at hy; cases hy
  rw [he hu] at hput
  exact ⟨put_then_get_partial hfree hw hm hp hput hfu, fun k' hne hl => put_keeps_others_partial hfree hw hm hp hput hne hl hfu⟩

/-! ## Where it is false -/

/-- Begin a write transaction, `put` the pairs, `get` the value of `k`, `put` it under `k2`, and `get` it again. -/
def copied (env : Env) (l : List (Bytes × Bytes)) (k k2 : Bytes) : Res (List Status × Bytes × Except Status Bytes) :=
  match beginWrite env with
  | none => .div
  | some (env, t) => do
    let a ← puts env 5 t l
    match ← getPtr env a.2 5 k with
    | .error _ => .div
    | .ok x => do
      let v ← deref env a.2 x
      let b ← putFrom (alloc env 5) env a.2 k2 x
      let w ← get env b.2 5 k2
      .ok (a.1 ++ [b.1], v, w)

/-- Values for "a", "c" and "b", stored in this order; "b" ends up lowest in the page, below "c". -/
def crowded (n : Nat) : List (Bytes × Bytes) := [([97], List.replicate 100 5), ([99], List.replicate n 6), ([98], val2)]

/-- What is looked at: the last byte read for "b", and the last byte found under the new key. -/
def lastBytes (r : List Status × Bytes × Except Status Bytes) : Bool × Option UInt8 × Option UInt8 :=
  (r.1.all (· == .success), r.2.1[1899]?, match r.2.2 with | .ok w => w[1899]? | .error _ => none)

/-- C132 is false: all calls report success, and the value found under "A" afterwards is not the one that was read for "b" and
passed on: its last byte is 108, the low byte of the size 1900. -/
theorem copied_value_damaged : ∃ env sts v w, envCreate 20 = .ok env ∧ copied env (crowded 1897) [98] [65] = .ok (sts, v, w) ∧
    sts.all (· == .success) = true ∧ v[1899]? = some 1 ∧ ∃ w', w = .ok w' ∧ w'[1899]? = some 108 := by
  have h : Res.holds (envCreate 20 >>= fun env => copied env (crowded 1897) [98] [65]) (fun r => lastBytes r == (true, some 1, some 108)) = true := by decide +kernel
  obtain ⟨⟨sts, v, w⟩, h1, h2⟩ := Res.holds_iff h
  obtain ⟨env, e1, e2⟩ := Res.bind_eq_ok.1 h1
  have h3 := beq_iff_eq.1 h2
  refine ⟨env, sts, v, w, e1, e2, congrArg (·.1) h3, congrArg (·.2.1) h3, ?_⟩
  have h4 := congrArg (·.2.2) h3
  cases w with
  | error e => cases h4
  | ok w => exact ⟨w, rfl, h4⟩

/-- C132 is false in another way: with a smaller value for "c" the regions given to `memcpy` overlap. -/
theorem copied_value_undefined : ∃ env, envCreate 20 = .ok env ∧ copied env (crowded 1000) [98] [65] = .ub := by
  have h : Res.holds (envCreate 20) (fun env => match copied env (crowded 1000) [98] [65] with | .ub => true | _ => false) = true := by decide +kernel
  obtain ⟨env, h1, h2⟩ := Res.holds_iff h
  refine ⟨env, h1, ?_⟩
  revert h2
  cases copied env (crowded 1000) [98] [65] with
  | ub => exact fun _ => rfl
  | ok r => exact fun h => nomatch h
  | div => exact fun h => nomatch h

/-- The hypotheses of `copied_value_found_partial` are met: "a" and "c" fill a leaf, and the value of "a" is stored again under
"d", which splits that leaf. -/
example : ∃ t x t', getPtr env0 t 5 [97] = .ok (.ok x) ∧ x.dirty = true ∧ Unharmed t x [100] ∧ putFrom (alloc env0 3) env0 t [100] x = .ok (.success, t') ∧
    get env0 t' 5 [100] = .ok (.ok val2) := by
  obtain ⟨t1, t2, h1, h2, hw, hf, hm, hs⟩ := exTwo
  have hc : (puts env0 3 txn0 [([97], val2), ([99], val2)] >>= fun r => getPtr env0 r.2 5 [97] >>= fun y => match y with
      | .error _ => .div
      | .ok x => Res.ofOption (r.2.getDirty x.no) >>= fun p => putFrom (alloc env0 3) env0 r.2 [100] x >>= fun q =>
        .ok (x.dirty, decide (lowestOf p (numKeys p / 2) ≤ x.off), q.1, r.2.newLast)) = .ok (true, true, .success, 2) := by decide +kernel
  unfold puts puts puts at hc
  rw [h1, Res.ok_bind, h2, Res.ok_bind, Res.ok_bind, Res.ok_bind, Res.ok_bind] at hc
  obtain ⟨y, hy, hc⟩ := Res.bind_eq_ok.1 hc
  cases y with
  | error e => cases hc
  | ok x =>
    simp only [] at hc
    obtain ⟨p, hp, hc⟩ := Res.bind_eq_ok.1 hc
    obtain ⟨⟨st, t'⟩, hq, hc⟩ := Res.bind_eq_ok.1 hc
    have hc := Res.ok.inj hc
    have hx : x.dirty = true := congrArg (·.1) hc
    have hl : lowestOf p (numKeys p / 2) ≤ x.off := of_decide_eq_true (congrArg (·.2.1) hc)
    have hst : st = .success := congrArg (·.2.2.1) hc
    have hlast : t2.newLast = 2 := congrArg (·.2.2.2) hc
    subst hst
    have hu : Unharmed t2 x [100] := by
      intro _ q hq' _
      rw [hq'] at hp; cases hp
      exact .inl hl
    exact ⟨t2, x, t', hy, hx, hu, hq, (copied_value_found_partial (fuel' := 2) (fu := 5) hw hf hm (by decide) (by decide) (by decide) (by simp [KvMap.put]) hs
      (by rw [val2_length]; decide) (by rw [hlast]; decide) hy hu hq (by decide)).1⟩

end Verif.Db
