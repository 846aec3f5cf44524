import Verif.Db.RefusedProps
import Verif.Db.SnapProps
import Verif.Db.TxnExamples

/-!
# What a put does in a database with a Free DB that gives no page back (C41, C42, C76)

`put_exact_partial`, `put_refused_exact` and `refused_put_bound_partial` are about transactions without a Free DB.  Here the
same is shown of every write transaction (`Writing`) in whose database the Free DB has no entry
that may be reused (`Quiet`): there is none, or a reader keeps them all back.
-/

namespace Verif.Db

open Verif.Page

/-- The key of the put is not stored any more after the deletion, and the allocator still extends the file. -/
theorem deleted_spec {F : List Nat} {I : Txn → Prop} {al : Alloc} (hE : Ext al F I) {env : Env} {t t1 : Txn} {h : Nat} {m : KvMap} {l : List (Bytes × Bytes)}
    {key : Bytes} (hI : I t) (hw : t.rdonly = false) (hl : Holds env t h l) (hlm : ∀ x, l.lookup x = m x) (hk : key.length < 65536)
    (hd : h < maxDepth) (hF : t.root ≠ 0 → ∀ x ∈ pagesOf (getPage env t) h t.root, x ∉ F) (hkm : m key ≠ none)
    (hdel : del env t key = .ok (.success, t1)) :
    ∃ l', Holds env t1 h l' ∧ I t1 ∧ t1.rdonly = false ∧ t1.newLast = t.newLast ∧ key ∉ l'.map Prod.fst ∧
      (∀ x, x ≠ key → l'.lookup x = m x) ∧ (t1.root ≠ 0 → ∀ x ∈ pagesOf (getPage env t1) h t1.root, x ∉ F) := by
  rcases del_spec hw hl hk hd with ⟨hn, -⟩ | ⟨A, v, B, t1', a1, a2, a3, a4, a5, a6, a7, a8, a9, a10, -, a11, a12⟩
  · exact absurd ((hlm key).symm.trans hn) hkm
  · rw [hdel] at a4; cases a4
    have h0 : t.root ≠ 0 := by
      intro h0
      rcases hl with ⟨-, rfl⟩ | ⟨hne, -⟩
      · cases A <;> cases a1
      · exact hne h0
    refine ⟨A ++ B, a5, ?_, a6, a9, ?_, ?_, ?_⟩
    · refine a12 F I hE.set (fun t x _ h => hE.freed t _ h) (fun x hx => ⟨hF h0 x hx, ?_⟩) hI
      rcases hl with ⟨hx, -⟩ | ⟨-, ht, -⟩
      · exact absurd hx h0
      · exact (ht.bound x hx).2
    · rw [List.map_append, List.mem_append]
      rintro (hm | hm)
      · obtain ⟨a, ha, e⟩ := List.mem_map.1 hm; exact blt_irrefl _ (e ▸ a2 a ha)
      · obtain ⟨a, ha, e⟩ := List.mem_map.1 hm; exact blt_irrefl _ (e ▸ a3 a ha)
    · intro x hx
      rw [← hlm, a1, lookup_mid (a1 ▸ holds_sorted hl), if_neg hx]
    · intro _; rw [a11]; exact hF h0

/-- A stored key is deleted, then inserted (or there is nothing to delete). -/
theorem put_based {F : List Nat} {I : Txn → Prop} {al : Alloc} (hE : Ext al F I) {env : Env} {t : Txn} {h : Nat} {m : KvMap} {key val : Bytes}
    (hI : I t) (hw : t.rdonly = false) (hm : IsMap env t h m) (hs : PutDivides env t h m key val)
    (hF : t.root ≠ 0 → ∀ x ∈ pagesOf (getPage env t) h t.root, x ∉ F) :
    ∃ t0 l, Base env t m key t0 ∧ putWith al env t key val = putWith al env t0 key val ∧ Holds env t0 h l ∧ I t0 ∧ t0.rdonly = false ∧
      t0.newLast = t.newLast ∧ key ∉ l.map Prod.fst ∧ (∀ x, x ≠ key → l.lookup x = m x) ∧
      (t0.root ≠ 0 → ∀ x ∈ pagesOf (getPage env t0) h t0.root, x ∉ F) ∧
      (t0.root ≠ 0 → Divisible (getPage env t0) key (4 + key.length + val.length) h t0.root) := by
  obtain ⟨l, hl, hlm⟩ := hm
  have hk : key.length < 65536 := by have := hs.size; omega
  by_cases hkm : m key = none
  · exact ⟨t, l, .inl ⟨hkm, rfl⟩, rfl, hl, hI, hw, rfl, lookup_none_iff.1 ((hlm key).trans hkm), fun x _ => hlm x, hF, hs.fresh hkm⟩
  · have hkl : key ∈ l.map Prod.fst := by
      apply Classical.byContradiction; intro hn
      exact hkm ((hlm key).symm.trans (lookup_none_iff.2 hn))
    obtain ⟨hclean, hdiv⟩ := hs.stored hkm
    obtain ⟨t1, d1, d2⟩ := put_replace (al := al) (val := val) hk hw hl hkl hs.depth hclean
    obtain ⟨l', b1, b2, b3, b4, b5, b6, b7⟩ := deleted_spec hE hI hw hl hlm hk hs.depth hF hkm d1
    exact ⟨t1, l', .inr ⟨hkm, d1⟩, d2, b1, b2, b3, b4, b5, b6, b7, fun _ => hdiv t1 d1⟩

/-- C41 and C42, exactly, in a database whose Free DB gives no page back: `put` either reports that there is no space or
succeeds, and after it has succeeded `get` gives for every key the answer of the map with the pair
stored, except for the keys in `Lost`, which are not found.  (Missing of the full property: it is false for the keys in `Lost`;
requirements are collected in `PutDivides`; a Free DB that does give pages back, for which C41 and C42
are false as well: `committed_key_lost`.) -/
theorem put_exact_quiet_partial {env : Env} {id fr r : Nat} {F : List Nat} {t : Txn} {h : Nat} {m : KvMap} {key val : Bytes} {fuel : Nat}
    (hW : Writing env id fr r F t h m) (hq : Quiet env id fr F fuel) (hs : PutDivides env t h m key val) :
    ∃ st t', put env (fuel + 2) t key val = .ok (st, t') ∧ (st = .success ∨ st = .nospc) ∧
      (st = .success → ∀ x fuel', x.length < 65536 → h + 1 < fuel' →
        (Lost env t h m key val x → get env t' fuel' x = .ok (.error .notfound)) ∧
        (¬ Lost env t h m key val x → get env t' fuel' x = .ok ((m.put key val).answer x))) := by
  have hE := ext_clean (al := alloc env (fuel + 2)) (r := r) fun t ht => alloc_quiet hq ht
  have hk : key.length < 65536 := by have := hs.size; omega
  obtain ⟨t0, l, b1, b2, b3, b4, b5, b6, b7, b8, b9, b10⟩ := put_based hE ⟨hW.clean, hW.idle⟩ hW.clean.rdonly hW.map hs hW.apart
  obtain ⟨st, t', h1, h2, h3⟩ := put_stored hE hk hs.size b5 b4 b3 b7 b9 hs.depth b10 (by rw [b6]; exact hs.pages)
  refine ⟨st, t', b2.trans h1, h2, fun hst x fuel' hx hf => ?_⟩
  obtain ⟨h', hst⟩ := h3 hst
  exact stored_answers b1 b8 hst hx hf

/-- C76, exactly, in a database whose Free DB gives no page back: if neither the leaf of the key nor the half of it that the pair
goes to has room, the answer is "no space" and exactly the upper half of the leaf is gone; what is left is a map again, and the
transaction still keeps to itself, so that the theorem applies to the next put. -/
theorem put_refused_quiet {env : Env} {id fr r : Nat} {F : List Nat} {t : Txn} {h : Nat} {m : KvMap} {key val : Bytes} {p : Page} {fuel : Nat}
    (hW : Writing env id fr r F t h m) (hq : Quiet env id fr F fuel) (h0 : t.root ≠ 0) (hkey : m key = none)
    (hsz : 4 + key.length + val.length < 65536) (hd : h < maxDepth) (h64 : t.newLast + 1 < 2 ^ 64)
    (hb : BelongsTo (getPage env t) key h t.root p) (htight : HalfTight p key (4 + key.length + val.length)) :
    ∃ t', put env (fuel + 2) t key val = .ok (.nospc, t') ∧
      IsMap env t' h (fun x => if x ∈ (keys p).drop (numKeys p / 2) then none else m x) ∧ Clean id fr F t' ∧
      ∀ x fuel', x.length < 65536 → h < fuel' →
        (x ∈ (keys p).drop (numKeys p / 2) → get env t' fuel' x = .ok (.error .notfound)) ∧
        (x ∉ (keys p).drop (numKeys p / 2) → get env t' fuel' x = .ok (m.answer x)) := by
  have hE := ext_clean (al := alloc env (fuel + 2)) (r := r) fun t ht => alloc_quiet hq ht
  obtain ⟨l, hl, hlm⟩ := hW.map
  have hnl : key ∉ l.map Prod.fst := lookup_none_iff.1 ((hlm key).trans hkey)
  obtain ⟨t', X, Y, a1, a2, -, -, -, rfl, a6⟩ := put_half_tight hE hsz hW.clean.rdonly ⟨hW.clean, hW.idle⟩ h0 hl hnl (hW.apart h0) hd h64 hb htight
  have hmap : IsMap env t' h (fun x => if x ∈ (keys p).drop (numKeys p / 2) then none else m x) := by
    refine ⟨_, a6, fun x => ?_⟩
    rw [lookup_without (holds_sorted hl), List.map_drop, ← keys_eq_kvs, hlm]
  refine ⟨t', a1, hmap, a2.1, fun x fuel' hx hf => ?_⟩
  rw [get_answers hmap hx hf]
  constructor
  · intro hh; simp only [KvMap.answer, if_pos hh]
  · intro hh; simp only [KvMap.answer, if_neg hh]

/-- C76, the bound, in a database whose Free DB gives no page back: after "no space" every key is not found or has its right
value, the new value for the key of the put. -/
theorem refused_put_bound_quiet_partial {env : Env} {id fr r : Nat} {F : List Nat} {t t' : Txn} {h : Nat} {m : KvMap} {key val : Bytes} {fuel : Nat}
    (hW : Writing env id fr r F t h m) (hq : Quiet env id fr F fuel) (hs : PutDivides env t h m key val)
    (hput : put env (fuel + 2) t key val = .ok (.nospc, t')) {x : Bytes} {fuel' : Nat} (hx : x.length < 65536) (hf : h < fuel') :
    get env t' fuel' x = .ok (.error .notfound) ∨ get env t' fuel' x = .ok ((m.put key val).answer x) := by
  have hE := ext_clean (al := alloc env (fuel + 2)) (r := r) fun t ht => alloc_quiet hq ht
  have hk : key.length < 65536 := by have := hs.size; omega
  obtain ⟨t0, l, b1, b2, b3, b4, b5, b6, b7, b8, b9, b10⟩ := put_based hE ⟨hW.clean, hW.idle⟩ hW.clean.rdonly hW.map hs hW.apart
  obtain ⟨h1, h2⟩ := put_refused_sound hE hk hs.size b5 b4 b3 b7 b9 hs.depth b10 (by rw [b6]; exact hs.pages) (b2.symm.trans hput)
  by_cases h0 : t0.root = 0
  · left
    exact (get_answers (isMap_empty env (h1.trans h0)) hx (by omega)).trans rfl
  · obtain ⟨h3, h4⟩ := h2 h0
    rw [← h1] at h3 h4
    rw [get_sight (by rw [h1]; exact h0) h3 hx hf]
    rcases h4 x with h4 | h4
    · left; rw [h4]; rfl
    · right
      rw [h4]
      unfold upd KvMap.answer KvMap.put
      by_cases hk : x = key
      · simp only [if_pos hk]; rfl
      · simp only [if_neg hk]
        rw [b8 x hk]; unfold found; split <;> rename_i e <;> rw [e]

/-! ## A database with a Free DB and a reader -/

/-- The first put of a write transaction on a database (`DbOk`), with a read transaction open that is not
newer than the entries of the Free DB. -/
theorem first_put_exact_partial {env env1 : Env} {t : Txn} {h hf fuel : Nat} {m : KvMap} {fl : List (Bytes × Bytes)} {key val : Bytes}
    (hdb : DbOk env h hf m fl) (hid : metaTxnid env.liveMeta + 1 < 2 ^ 64) (hb : beginWrite env = some (env1, t))
    (hf1 : hf < fuel) (hf2 : fl.length < fuel) (hr : oldestReader env.readers ≠ 0)
    (hpin : ∀ i, (∃ v, (le 8 i, v) ∈ fl) → i < 2 ^ 64 → oldestReader env.readers ≤ i) (hs : PutDivides env1 t h m key val) :
    ∃ st t', put env1 (fuel + 2) t key val = .ok (st, t') ∧ (st = .success ∨ st = .nospc) ∧
      (st = .success → ∀ x fuel', x.length < 65536 → h + 1 < fuel' →
        (Lost env1 t h m key val x → get env1 t' fuel' x = .ok (.error .notfound)) ∧
        (¬ Lost env1 t h m key val x → get env1 t' fuel' x = .ok ((m.put key val).answer x))) := by
  have hl : env.locked = false := by
    unfold beginWrite at hb
    split at hb
    · cases hb
    · rename_i h; simpa using h
  obtain ⟨env1', t1, b1, rfl, -, b3⟩ := begin_writing hdb hl hid
  rw [hb] at b1; cases b1
  have hq := pinned_quiet (env := { env with locked := true }) (hdb.congr rfl rfl rfl rfl) (metaTxnid env.liveMeta + 1) fuel
    (show metaTxnid env.liveMeta < 2 ^ 64 by omega) hf1 hf2 (.inr fun i hi h64 => by
      show (if oldestReader env.readers = 0 then _ else oldestReader env.readers) ≤ i
      rw [if_neg hr]; exact hpin i hi h64)
  exact put_exact_quiet_partial b3 hq hs

/-- The database after `a` is stored, a reader has begun, and `b` is stored. -/
def readDb : Env := afterPut { afterPut newDb [97] [1] with readers := [⟨1, 1, 2⟩] } [98] [2]

theorem readDb_run : Run 5 newDb (fun _ => none) readDb (KvMap.put (KvMap.put (fun _ => none) [97] [1]) [98] [2]) := by
  have g1 : goodPut newDb [97] [1] = true := by decide +kernel
  have g2 : goodPut { afterPut newDb [97] [1] with readers := [⟨1, 1, 2⟩] } [98] [2] = true := by decide +kernel
  exact run_goodPut g1 (by decide) rfl (.readers _ (run_goodPut g2 (by decide) rfl (.nil _ _)))

/-- In that database the Free DB has one entry, made by transaction 3, which the reader of transaction 2 keeps back.  A put of "c"
meets the conditions; it succeeds, and "a", "b" and "c" are found. -/
example : ∃ h hf fl env1 t st t', DbOk readDb h hf (KvMap.put (KvMap.put (fun _ => none) [97] [1]) [98] [2]) fl ∧ fl ≠ [] ∧
    beginWrite readDb = some (env1, t) ∧ put env1 9 t [99] [3] = .ok (st, t') ∧
    (st = .success → ∀ x, x.length < 65536 → get env1 t' 5 x =
      .ok ((KvMap.put (KvMap.put (KvMap.put (fun _ => none) [97] [1]) [98] [2]) [99] [3]).answer x)) := by
  obtain ⟨env0, e1, -, e2⟩ := create_empty (mapPages := 20) (by decide) (by decide)
  have e0 : envCreate 20 = .ok newDb := rfl
  rw [e0] at e1; cases e1
  obtain ⟨h, hf, fl, hdb⟩ := run_refines_partial readDb_run e2
  have c1 : metaTxnid readDb.liveMeta = 3 ∧ metaRoot readDb.liveMeta = 2 ∧ metaFree readDb.liveMeta = 3 ∧ metaLast readDb.liveMeta = 3 ∧
      oldestReader readDb.readers = 2 ∧ readDb.locked = false := by decide +kernel
  obtain ⟨c1, c2, c3, c4, c5, c6⟩ := c1
  have c7 : (mapPage readDb 3 >>= fun p => .ok (isLeaf p, kvs p)) = .ok (true, [(le 8 3, le 8 2)]) := by decide +kernel
  have c8 : (mapPage readDb 2 >>= fun p => .ok (isLeaf p, decide (8 ≤ room p))) = .ok (true, true) := by decide +kernel
  obtain ⟨p, p1, p2⟩ := Res.bind_eq_ok.1 c7
  obtain ⟨q, q1, q2⟩ := Res.bind_eq_ok.1 c8
  have p2 := Res.ok.inj p2
  have q2 := Res.ok.inj q2
  simp only [Prod.mk.injEq, decide_eq_true_eq] at p2 q2
  have hfree := hdb.free
  rw [c3] at hfree
  have hff : hf = 0 ∧ fl = [(le 8 3, le 8 2)] := by
    rcases hfree with ⟨h0, -⟩ | ⟨-, w1, -, -, w4⟩
    · cases h0
    · cases hf with
      | zero => rw [contents_zero p1, p2.2] at w4; exact ⟨rfl, w4.symm⟩
      | succ hf =>
        obtain ⟨p', a, -, -, b, -⟩ := w1
        rw [p1] at a; cases a; rw [p2.1] at b; cases b
  obtain ⟨rfl, rfl⟩ := hff
  have hh : h = 0 := by
    obtain ⟨l, hl, -⟩ := hdb.main
    rcases hl with ⟨h0, -⟩ | ⟨-, ht, -⟩
    · rw [show (readTxn readDb).root = 2 from c2] at h0; cases h0
    · cases h with
      | zero => rfl
      | succ h =>
        obtain ⟨q', a, -, -, b, -⟩ := ht.wft
        rw [show (readTxn readDb).root = 2 from c2] at a
        have a' : mapPage readDb 2 = .ok q' := a
        rw [q1] at a'; cases a'; rw [q2.1] at b; cases b
  subst hh
  obtain ⟨env1, t, b1, rfl, b3, b4⟩ := begin_writing hdb c6 (by rw [c1]; decide)
  have hroot : t.root = 2 := by rw [b4.idle (by
    have := b1; unfold beginWrite at this; rw [if_neg (by simp [c6])] at this; cases this; rfl), c2]
  have hg : getPage { readDb with locked := true } t t.root = .ok q := by
    rw [hroot]
    unfold getPage
    have hd : t.getDirty 2 = none := by
      have := b1; unfold beginWrite at this; rw [if_neg (by simp [c6])] at this; cases this; rfl
    rw [b4.clean.rdonly, hd]
    exact q1
  have hs : PutDivides { readDb with locked := true } t 0 (KvMap.put (KvMap.put (fun _ => none) [97] [1]) [98] [2]) [99] [3] := by
    refine ⟨by decide, by decide, by rw [b3, c4]; decide, fun _ _ q' hq' hr => ?_, fun hn => absurd rfl hn⟩
    rw [hg] at hq'; cases hq'
    have := q2.2
    simp at hr; omega
  obtain ⟨st, t', d1, d2, d3⟩ := first_put_exact_partial (fuel := 7) hdb (by rw [c1]; decide) b1 (by decide) (by decide) (by rw [c5]; decide)
    (fun i ⟨v, hi⟩ h64 => by
      rw [List.mem_singleton, Prod.mk.injEq] at hi
      have := le8_inj h64 (by decide) hi.1
      rw [c5, this]; decide) hs
  refine ⟨0, 0, _, _, t, st, t', hdb, by simp, b1, d1, fun hst x hx => (d3 hst x 5 hx (by decide)).2 ?_⟩
  rintro ⟨t0, hb, -, hlost⟩
  rcases hb with ⟨-, rfl⟩ | ⟨hn, -⟩
  · rcases hlost with hu | ⟨-, q', hq', hr, -⟩
    · exact hu
    · rw [hg] at hq'; cases hq'
      have := q2.2
      simp at hr; omega
  · exact hn rfl

end Verif.Db
