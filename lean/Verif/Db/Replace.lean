import Verif.Db.Put

/-!
# Helper lemmas: replacing a value, allocation without a Free DB
-/

namespace Verif.Db

open Verif.Page

theorem findPath_congr {env : Env} {t t' : Txn} {key : Bytes} (hm : maxPgno env t' = maxPgno env t) (d : Nat) :
    ∀ {n : Nat} {path : List Nat}, findPath env t key d n = .ok (.ok path) →
    (∀ x ∈ path, x ≠ path.getLastD 0 → getPage env t' x = getPage env t x) → path.Nodup →
    (∃ q, getPage env t' (path.getLastD 0) = .ok q ∧ isLeaf q = true) →
    findPath env t' key d n = .ok (.ok path) := by
  induction d with
  | zero => intro n path h; simp [findPath] at h
  | succ d ih =>
    intro n path h hag hnd hq
    rw [findPath] at h ⊢
    rw [hm]
    by_cases hc : maxPgno env t < n
    · rw [if_pos hc] at h; cases h
    · rw [if_neg hc] at h ⊢
      obtain ⟨p, h1, h⟩ := Res.bind_eq_ok.1 h
      by_cases hl : isLeaf p = true
      · rw [if_pos hl] at h
        cases h
        obtain ⟨q, q1, q2⟩ := hq
        have : getPage env t' n = .ok q := q1
        rw [this, Res.ok_bind, if_pos q2]
      · rw [if_neg hl] at h
        by_cases hb : (!isBranch p) = true
        · rw [if_pos hb] at h; cases h
        · rw [if_neg hb] at h
          obtain ⟨i, h2, h⟩ := Res.bind_eq_ok.1 h
          obtain ⟨c, h3, h⟩ := Res.bind_eq_ok.1 h
          obtain ⟨e, h4, h⟩ := Res.bind_eq_ok.1 h
          cases e with
          | error e => cases h
          | ok rest =>
            cases h
            have hne : rest ≠ [] := by
              rintro rfl
              cases d with
              | zero => simp [findPath] at h4
              | succ d =>
                rw [findPath] at h4
                by_cases hc : maxPgno env t < c
                · rw [if_pos hc] at h4; cases h4
                · rw [if_neg hc] at h4
                  obtain ⟨p, -, h⟩ := Res.bind_eq_ok.1 h4
                  by_cases hl : isLeaf p = true
                  · rw [if_pos hl] at h; cases h
                  · rw [if_neg hl] at h
                    by_cases hb : (!isBranch p) = true
                    · rw [if_pos hb] at h; cases h
                    · rw [if_neg hb] at h
                      obtain ⟨i, -, h⟩ := Res.bind_eq_ok.1 h
                      obtain ⟨c, -, h⟩ := Res.bind_eq_ok.1 h
                      obtain ⟨e, -, h⟩ := Res.bind_eq_ok.1 h
                      cases e <;> cases h
            rw [getLastD_cons hne] at hag hq
            have hn : n ≠ rest.getLastD 0 := by
              rintro rfl
              exact (List.nodup_cons.1 hnd).1 (getLastD_mem hne)
            rw [hag n List.mem_cons_self hn, h1, Res.ok_bind, if_neg hl, if_neg hb, h2, Res.ok_bind, h3, Res.ok_bind,
              ih h4 (fun x hx hxn => hag x (List.mem_cons_of_mem _ hx) hxn) (List.nodup_cons.1 hnd).2 hq, Res.ok_bind]

theorem isPath_nodup {g : View} {key : Bytes} {h : Nat} : ∀ {n : Nat} {path : List Nat}, IsPath g key h n path →
    (pagesOf g h n).Nodup → path.Nodup := by
  induction h with
  | zero => intro n path hp _; rw [show path = [n] from hp]; simp
  | succ h ih =>
    rintro n path ⟨p, A, k, c, B, path', h1, h2, h3, rfl⟩ hnd
    rw [pagesOf_succ h1, h2.1, List.flatMap_append, List.flatMap_cons] at hnd
    simp only [List.nodup_cons, List.nodup_append, List.mem_append, not_or] at hnd
    exact List.nodup_cons.2 ⟨fun hx => hnd.1.2.1 (isPath_mem h3 n hx), ih h3 hnd.2.2.1.1⟩

theorem cowAll_dirty {env : Env} {t : Txn} (L : List Nat) (h : ∀ n ∈ L, ∃ p, t.getDirty n = some p) :
    cowAll env t L = .ok t := by
  induction L with
  | nil => rfl
  | cons n L ih =>
    obtain ⟨p, hp⟩ := h n List.mem_cons_self
    rw [cowAll, cow, hp]
    exact ih fun m hm => h m (List.mem_cons_of_mem _ hm)

theorem cowPath_dirty {env : Env} {t : Txn} {path : List Nat} (hne : path ≠ [])
    (h : ∀ n ∈ path, ∃ p, t.getDirty n = some p) : cowPath env t path.reverse = .ok (path.getLastD 0, t) := by
  have hsplit : path.reverse = path.getLastD 0 :: path.dropLast.reverse := by
    rcases List.eq_nil_or_concat path with rfl | ⟨L, b, rfl⟩
    · exact absurd rfl hne
    · rw [List.concat_eq_append]; simp [List.getLastD_eq_getLast?]
  rw [hsplit, cowPath]
  obtain ⟨p, hp⟩ := h _ (getLastD_mem hne)
  rw [cow, hp]
  simp only [Res.ok_bind]
  rw [cowAll_dirty _ fun n hn => h n (List.dropLast_subset _ (List.mem_reverse.1 hn))]
  rfl

theorem setDirty_twice (t : Txn) (n : Nat) (p q : Page) : (t.setDirty n p).setDirty n q = t.setDirty n q := by
  unfold Txn.setDirty
  simp

/-- The leaf a key leads to has not been touched in this transaction. -/
def LeafClean (env : Env) (t : Txn) (h : Nat) (key : Bytes) : Prop :=
  ∀ path, IsPath (getPage env t) key h t.root path → t.getDirty (path.getLastD 0) = none

/-- Replacing a value in an untouched leaf is deleting and inserting. -/
theorem put_replace {al : Alloc} {env : Env} {t : Txn} {h : Nat} {l : List (Bytes × Bytes)} {key val : Bytes}
    (hk : key.length < 65536) (hr : t.rdonly = false) (hh : Holds env t h l) (hkey : key ∈ l.map Prod.fst)
    (hd : h < maxDepth) (hclean : LeafClean env t h key) :
    ∃ t1, del env t key = .ok (.success, t1) ∧ putWith al env t key val = putWith al env t1 key val := by
  rcases hh with ⟨h0, rfl⟩ | ⟨h0, ht, rfl⟩
  · simp at hkey
  · obtain ⟨path, p1, p2⟩ := findPath_spec hk h ht.wft hd (by
      intro x hx; unfold maxPgno; simpa [hr] using (ht.bound x hx).2)
    obtain ⟨lo', hi', p, A, B, i1, i2, i3, i4, i5, i6, -⟩ := leaf_focus h ht.wft p1 (inRange_none key)
    obtain ⟨q, j1, j2, j3, j4, j5, j6⟩ := i2
    rw [i1] at j1; cases j1
    have hne : path ≠ [] := by
      obtain ⟨rest, hr, -⟩ := isPath_cons p1; rw [hr]; simp
    have hkp : key ∈ keys p := by
      rw [i4, List.map_append, List.map_append, ← keys_eq_kvs] at hkey
      rcases List.mem_append.1 hkey with hm | hm
      · rcases List.mem_append.1 hm with hm | hm
        · obtain ⟨a, ha, e⟩ := List.mem_map.1 hm
          exact absurd (e ▸ i5 a ha) (blt_irrefl _)
        · exact hm
      · obtain ⟨a, ha, e⟩ := List.mem_map.1 hm
        exact absurd (e ▸ i6 a ha) (blt_irrefl _)
    obtain ⟨f, hf, A', B', hA, hB, hsp⟩ := probe_spec j3 j5 hk
    obtain ⟨it, hit, hik, rfl⟩ : ∃ it, items p = A' ++ it :: B' ∧ it.key = key ∧ f = .found A'.length := by
      rcases hsp with hx | ⟨e1, -⟩
      · exact hx
      · exfalso
        unfold keys at hkp
        obtain ⟨i, hi, e⟩ := List.mem_map.1 hkp
        rw [e1] at hi
        rcases List.mem_append.1 hi with hi | hi
        · exact absurd (e ▸ hA i hi) (blt_irrefl _)
        · exact absurd (e ▸ hB i hi) (blt_irrefl _)
    obtain ⟨t1, c1, c2, c3, -⟩ := cowPath_spec (env := env) hr hne (by
      intro n hn
      exact wft_pages h ht.wft n (isPath_mem p1 n hn))
    have hr1 : t1.rdonly = false := by rw [c2.rdonly, hr]
    have hd1 : t1.getDirty (path.getLastD 0) = some p := by
      obtain ⟨p', hp'⟩ := c3 _ (getLastD_mem hne)
      have : getPage env t1 (path.getLastD 0) = .ok p' := getPage_dirty hr1 hp'
      rw [c2.view, i1] at this; cases this; exact hp'
    have hlen : A'.length < numKeys p := by rw [← items_length, hit]; simp
    obtain ⟨q, d1, d2, d3, d4, d5, -⟩ := delete_removes_exactly_one j3 hlen
    have hiq : items q = A' ++ B' := by
      rw [d3, hit, List.eraseIdx_append_of_length_le (Nat.le_refl _)]; simp
    have hsq : Sorted (keys q) := by
      unfold keys at j5 ⊢
      rw [hit, List.map_append, List.map_cons, sorted_append, sorted_cons] at j5
      rw [hiq, List.map_append, sorted_append]
      exact ⟨j5.1, j5.2.1.2, fun x hx y hy => j5.2.2 x hx y (List.mem_cons_of_mem _ hy)⟩
    let t2 := t1.setDirty (path.getLastD 0) q
    have hr2 : t2.rdonly = false := hr1
    have hv2 : ∀ x, getPage env t2 x = if x = path.getLastD 0 then .ok q else getPage env t x := by
      intro x
      show getPage env (t1.setDirty (path.getLastD 0) q) x = _
      rw [getPage_set hr1, c2.view]
    have hlq : isLeaf q = true := by rw [isLeaf_congr d5, j4]
    have hq2 : getPage env t2 (path.getLastD 0) = .ok q := by rw [hv2, if_pos rfl]
    have hdq : t2.getDirty (path.getLastD 0) = some q := by
      show (t1.setDirty (path.getLastD 0) q).getDirty _ = _
      rw [getDirty_set, if_pos rfl]
    have hmax : maxPgno env t2 = maxPgno env t := by
      unfold maxPgno; rw [hr2, hr]; exact c2.newLast
    have hfp : findPath env t2 key maxDepth t2.root = .ok (.ok path) := by
      rw [show t2.root = t.root from c2.root]
      exact findPath_congr hmax _ p2 (fun x _ hx => by rw [hv2, if_neg hx]) (isPath_nodup p1 ht.nodup) ⟨q, hq2, hlq⟩
    have hpq : probe q key = .ok (.notFound A'.length) := probe_at d2 hsq hk hiq hA hB
    have hdel : del env t key = .ok (.success, t2) := by
      unfold del
      rw [if_neg (by simp [hr]), if_neg h0, p2, Res.ok_bind]
      simp only []
      rw [i1, Res.ok_bind, hf, Res.ok_bind]
      simp only [Found.hit, if_true, Found.idx]
      rw [c1, Res.ok_bind]
      simp only [hd1]
      rw [d1]; rfl
    refine ⟨t2, hdel, ?_⟩
    have hcow2 : cowPath env t2 path.reverse = .ok (path.getLastD 0, t2) := by
      apply cowPath_dirty hne
      intro n hn
      by_cases hx : n = path.getLastD 0
      · subst hx; exact ⟨q, hdq⟩
      · obtain ⟨p', hp'⟩ := c3 n hn
        refine ⟨p', ?_⟩
        show (t1.setDirty (path.getLastD 0) q).getDirty _ = _
        rw [getDirty_set, if_neg hx, hp']
    have htw : t2.setDirty (path.getLastD 0) q = t2 := setDirty_twice _ _ _ _
    unfold putWith
    rw [if_neg (by simp [hr]), if_neg h0, p2, Res.ok_bind, if_neg (by simp [hr2]), if_neg (by rw [show t2.root = t.root from c2.root]; exact h0),
      hfp, Res.ok_bind]
    simp only []
    rw [i1, Res.ok_bind, hf, Res.ok_bind, hq2, Res.ok_bind, hpq, Res.ok_bind, hclean path p1]
    simp only [Found.hit, Option.isSome_none, Bool.and_false, Bool.false_eq_true, if_false, Bool.false_and, if_true]
    rw [c1, hcow2, Res.ok_bind, Res.ok_bind]
    simp only [hd1, hdq, Res.ofOption_some, Res.ok_bind, Found.idx]
    rw [d1, Res.ok_bind]
    simp only []
    rw [htw]

/-- A second write to a touched leaf: an existing key is refused. -/
theorem put_exist {al : Alloc} {env : Env} {t : Txn} {h : Nat} {l : List (Bytes × Bytes)} {key val : Bytes}
    (hk : key.length < 65536) (hr : t.rdonly = false) (hh : Holds env t h l) (hkey : key ∈ l.map Prod.fst)
    (hd : h < maxDepth)
    (hdirty : ∀ path, IsPath (getPage env t) key h t.root path → (t.getDirty (path.getLastD 0)).isSome = true) :
    putWith al env t key val = .ok (.exist, t) := by
  rcases hh with ⟨h0, rfl⟩ | ⟨h0, ht, rfl⟩
  · simp at hkey
  · obtain ⟨path, p1, p2⟩ := findPath_spec hk h ht.wft hd (by
      intro x hx; unfold maxPgno; simpa [hr] using (ht.bound x hx).2)
    obtain ⟨lo', hi', p, A, B, i1, i2, i3, i4, i5, i6, -⟩ := leaf_focus h ht.wft p1 (inRange_none key)
    obtain ⟨q, j1, j2, j3, j4, j5, j6⟩ := i2
    rw [i1] at j1; cases j1
    have hkp : key ∈ keys p := by
      rw [i4, List.map_append, List.map_append, ← keys_eq_kvs] at hkey
      rcases List.mem_append.1 hkey with hm | hm
      · rcases List.mem_append.1 hm with hm | hm
        · obtain ⟨a, ha, e⟩ := List.mem_map.1 hm
          exact absurd (e ▸ i5 a ha) (blt_irrefl _)
        · exact hm
      · obtain ⟨a, ha, e⟩ := List.mem_map.1 hm
        exact absurd (e ▸ i6 a ha) (blt_irrefl _)
    obtain ⟨f, hf, A', B', hA, hB, hsp⟩ := probe_spec j3 j5 hk
    obtain ⟨it, hit, hik, rfl⟩ : ∃ it, items p = A' ++ it :: B' ∧ it.key = key ∧ f = .found A'.length := by
      rcases hsp with hx | ⟨e1, -⟩
      · exact hx
      · exfalso
        unfold keys at hkp
        obtain ⟨i, hi, e⟩ := List.mem_map.1 hkp
        rw [e1] at hi
        rcases List.mem_append.1 hi with hi | hi
        · exact absurd (e ▸ hA i hi) (blt_irrefl _)
        · exact absurd (e ▸ hB i hi) (blt_irrefl _)
    unfold putWith
    rw [if_neg (by simp [hr]), if_neg h0, p2, Res.ok_bind]
    simp only []
    rw [i1, Res.ok_bind, hf, Res.ok_bind, hdirty path p1]
    rfl

/-- Without a Free DB the allocator extends the file. -/
theorem ext_noFree (env : Env) (fuel : Nat) : Ext (alloc env (fuel + 1)) [] (fun t => t.freeRoot = 0) where
  ext := by
    intro t h
    rw [alloc, reclaim, if_pos h]; rfl
  set := fun _ _ _ h _ _ _ _ => h
  grow := fun _ h => h
  last := by simp
  freed := fun _ _ h => h
  root := fun _ _ h _ => h

end Verif.Db
