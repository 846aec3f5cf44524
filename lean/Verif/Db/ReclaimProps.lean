import Verif.Db.Reclaim
import Verif.Db.Witness
import Verif.Db.TxnExamples

/-!
# Property theorems about the reuse of pages: C85; shorter values: C48
-/

namespace Verif.Db

open Verif.Page

/-! ## What is recorded as free -/

/-- A list of page numbers of eight bytes each. -/
def pageNos (v : Bytes) : List Nat := (List.range (v.length / 8)).map fun i => leVal ((v.drop (8 * i)).take 8)

/-- The pages recorded in a Free DB, each with the transaction that has freed it. -/
def recorded (fl : List (Bytes × Bytes)) : List (Nat × Nat) := fl.flatMap fun kv => (pageNos kv.2).map fun n => (leVal kv.1, n)

theorem pageNos_cons {v : Bytes} (h : 8 ≤ v.length) : pageNos v = leVal (v.take 8) :: pageNos (v.drop 8) := by
  unfold pageNos
  have : v.length / 8 = (v.drop 8).length / 8 + 1 := by rw [List.length_drop]; omega
  rw [this, List.range_succ_eq_map, List.map_cons, List.map_map]
  congr 1
  apply List.map_congr_left
  intro i _
  simp only [Function.comp, List.drop_drop]
  rw [show 8 * (i + 1) = 8 + 8 * i by omega]

/-- The reading of a list of page numbers is the inverse of what a commit writes. -/
theorem pageNos_written {ns : List Nat} (h : ∀ n ∈ ns, n < 2 ^ 64) : pageNos (ns.flatMap (le 8)) = ns := by
  induction ns with
  | nil => rfl
  | cons n ns ih =>
    have hv : leVal (le 8 n) = n := by
      rw [leVal_le]; exact Nat.mod_eq_of_lt (h n List.mem_cons_self)
    have hlen : (le 8 n).length = 8 := le_length ..
    rw [List.flatMap_cons]
    generalize le 8 n = b at hlen hv
    rw [pageNos_cons (by rw [List.length_append]; omega), List.take_left' hlen, List.drop_left' hlen, hv,
      ih fun m hm => h m (List.mem_cons_of_mem _ hm)]

theorem recorded_taken {A B : List (Bytes × Bytes)} {kv : Bytes × Bytes} (h : kv.2.length % 8 = 0) (h0 : 0 < kv.2.length) :
    ∃ Y, recorded (A ++ kv :: B) = recorded A ++ (leVal kv.1, leVal (kv.2.take 8)) :: Y ∧ recorded (A ++ restOf kv ++ B) = recorded A ++ Y := by
  refine ⟨((pageNos (kv.2.drop 8)).map fun n => (leVal kv.1, n)) ++ recorded B, ?_, ?_⟩
  · unfold recorded
    rw [List.flatMap_append, List.flatMap_cons, pageNos_cons (by omega)]; rfl
  · unfold recorded restOf
    by_cases h8 : kv.2.length = 8
    · rw [if_pos h8, List.append_nil, List.flatMap_append]
      have : pageNos (kv.2.drop 8) = [] := by
        unfold pageNos; rw [List.length_drop, h8]; rfl
      rw [this]; rfl
    · rw [if_neg h8, List.flatMap_append, List.flatMap_append]
      simp

/-- Up to which transaction (exclusively) freed pages may be used again: that of the oldest reader, or the writer's own. -/
def limit (env : Env) (t : Txn) : Nat := if oldestReader env.readers = 0 then t.txnid else oldestReader env.readers

theorem no_entry {env : Env} {t : Txn} {fl : List (Bytes × Bytes)}
    (h : ∀ e ∈ recorded fl, ¬ e.1 < limit env t) :
    ∀ kv ∈ fl, reclaimable (if oldestReader env.readers = 0 then t.txnid else oldestReader env.readers) kv = false := by
  intro kv hkv
  apply Classical.byContradiction; intro hr
  have hr : reclaimable (limit env t) kv = true := by unfold limit; simpa using hr
  unfold reclaimable at hr
  simp only [Bool.and_eq_true, beq_iff_eq, decide_eq_true_eq] at hr
  refine h (leVal kv.1, leVal (kv.2.take 8)) ?_ hr.1.1.2
  unfold recorded
  rw [List.mem_flatMap]
  refine ⟨kv, hkv, ?_⟩
  rw [pageNos_cons (by omega)]
  exact List.mem_cons_self

theorem an_entry {env : Env} {t : Txn} {fl : List (Bytes × Bytes)} (hk : ∀ kv ∈ fl, kv.1.length = 8) (h8 : ∀ kv ∈ fl, kv.2.length % 8 = 0)
    (h : ∃ e ∈ recorded fl, e.1 < limit env t) :
    ∃ A kv B, fl = A ++ kv :: B ∧ (∀ e ∈ recorded A, ¬ e.1 < limit env t) ∧
      (∀ e ∈ A, reclaimable (if oldestReader env.readers = 0 then t.txnid else oldestReader env.readers) e = false) ∧
      reclaimable (if oldestReader env.readers = 0 then t.txnid else oldestReader env.readers) kv = true := by
  induction fl with
  | nil => obtain ⟨e, he, -⟩ := h; cases he
  | cons a fl ih =>
    by_cases ha : reclaimable (if oldestReader env.readers = 0 then t.txnid else oldestReader env.readers) a = true
    · exact ⟨[], a, fl, rfl, (by intro e he; cases he), (by simp), ha⟩
    · have hna : ∀ e ∈ recorded [a], ¬ e.1 < limit env t := by
        intro e he hlt
        unfold recorded at he
        simp only [List.flatMap_cons, List.flatMap_nil, List.append_nil] at he
        obtain ⟨n, hn, rfl⟩ := List.mem_map.1 he
        apply ha
        show reclaimable (limit env t) a = true
        unfold reclaimable
        simp only [Bool.and_eq_true, beq_iff_eq, decide_eq_true_eq]
        refine ⟨⟨⟨hk a List.mem_cons_self, hlt⟩, h8 a List.mem_cons_self⟩, ?_⟩
        apply Classical.byContradiction; intro h0
        have : a.2.length = 0 := by omega
        unfold pageNos at hn
        rw [this] at hn; cases hn
      obtain ⟨A, kv, B, h1, h2, h3, h4⟩ := ih (fun kv h => hk kv (List.mem_cons_of_mem _ h)) (fun kv h => h8 kv (List.mem_cons_of_mem _ h)) (by
        obtain ⟨e, he, hlt⟩ := h
        refine ⟨e, ?_, hlt⟩
        have : e ∈ recorded [a] ∨ e ∈ recorded fl := by
          unfold recorded at he ⊢
          rw [List.flatMap_cons] at he
          simpa using he
        rcases this with h | h
        · exact absurd hlt (hna e h)
        · exact h)
      refine ⟨a :: A, kv, B, by rw [h1]; rfl, ?_, ?_, h4⟩
      · intro e he
        have : e ∈ recorded [a] ∨ e ∈ recorded A := by
          unfold recorded at he ⊢
          rw [List.flatMap_cons] at he
          simpa using he
        rcases this with h | h
        · exact hna e h
        · exact h2 e h
      · intro e he
        rcases List.mem_cons.1 he with rfl | he
        · simpa using ha
        · exact h3 e he

/-! ## C85 -/

/-- C85, in the course of a write transaction: as long as the transaction has not touched the Free DB, or if no entry has more than one page, an allocation takes the first
recorded page that was freed before `limit`, and this page alone is no longer recorded; the file is not extended and no page
outside the Free DB changes.  (What is missing: a second allocation in the same transaction, see `free_page_lost`.) -/
theorem free_page_reused_once_partial {env : Env} {t : Txn} {hf fuel : Nat} {fl : List (Bytes × Bytes)}
    (hw : t.rdonly = false) (hdb : Holds env { t with root := t.freeRoot } hf fl)
    (hfull : t.freeRoot ≠ 0 → Full (getPage env t) hf t.freeRoot) (hd : hf < maxDepth) (hfuel : hf < fuel) (hfuel2 : fl.length < fuel)
    (hclean : (∀ x ∈ pagesOf (getPage env t) hf t.freeRoot, t.getDirty x = none) ∨ ∀ kv ∈ fl, kv.2.length ≤ 8)
    (hk : ∀ kv ∈ fl, kv.1.length = 8) (h8 : ∀ kv ∈ fl, kv.2.length % 8 = 0) (h : ∃ e ∈ recorded fl, e.1 < limit env t) :
    ∃ i n X Y t' fl', recorded fl = X ++ (i, n) :: Y ∧ i < limit env t ∧ (∀ e ∈ X, ¬ e.1 < limit env t) ∧
      alloc env (fuel + 1) t = .ok (n, t') ∧ Holds env { t' with root := t'.freeRoot } hf fl' ∧ recorded fl' = X ++ Y ∧
      t'.rdonly = false ∧ t'.root = t.root ∧ t'.freeRoot = t.freeRoot ∧ t'.newLast = t.newLast ∧ t'.txnid = t.txnid ∧
      (∀ x, x ∉ pagesOf (getPage env t) hf t.freeRoot → getPage env t' x = getPage env t x) := by
  obtain ⟨A, kv, B, rfl, h2, h3, h4⟩ := an_entry hk h8 h
  rcases hdb with ⟨-, hx⟩ | ⟨h0, ht, hcon⟩
  · simp at hx
  obtain ⟨t', a1, a2, a3, a4, a5, a6, a7, a8, -, -⟩ := reclaim_some (al := alloc env fuel) hw h0 ht hcon (hfull h0) hd hfuel
    (by simp at hfuel2; omega) h3 h4 (fun hl => by
      rcases hclean with hc | hc
      · exact hc
      · have := hc kv (by simp); omega)
  have hm8 : leVal kv.1 < limit env t ∧ kv.2.length % 8 = 0 ∧ 0 < kv.2.length := by
    have : reclaimable (limit env t) kv = true := h4
    unfold reclaimable at this; simp only [Bool.and_eq_true, beq_iff_eq, decide_eq_true_eq] at this; exact ⟨this.1.1.2, this.1.2, this.2⟩
  obtain ⟨Y, r1, r2⟩ := recorded_taken (A := A) (B := B) hm8.2.1 hm8.2.2
  refine ⟨leVal kv.1, leVal (kv.2.take 8), recorded A, Y, t', _, r1, hm8.1, h2, ?_, a2, r2, a3, a4, a5, a6, a7, a8⟩
  rw [alloc, a1]; rfl

/-- C85: with no such page recorded, the file is extended by one page and nothing else changes. -/
theorem no_free_page_extends {env : Env} {t : Txn} {hf fuel : Nat} {fl : List (Bytes × Bytes)}
    (hdb : Holds env { t with root := t.freeRoot } hf fl)
    (hfull : t.freeRoot ≠ 0 → Full (getPage env t) hf t.freeRoot) (hd : hf < maxDepth) (hfuel : hf < fuel) (hfuel2 : fl.length < fuel)
    (h : ∀ e ∈ recorded fl, ¬ e.1 < limit env t) :
    alloc env (fuel + 1) t = .ok (t.newLast + 1, { t with newLast := t.newLast + 1 }) := by
  have hy := no_entry h
  have : reclaim (alloc env fuel) env fuel t = .ok (none, t) := by
    unfold reclaim
    rcases hdb with ⟨h0, -⟩ | ⟨h0, ht, hcon⟩
    · rw [if_pos h0]
    · rw [if_neg h0]
      obtain ⟨st, kv, B, a1, a2⟩ := seek_first (t := { t with root := t.freeRoot }) (H := hf) (fuel := fuel) hd hfuel h0
        ((shape_of_wft hf ht.wft).2 (hfull h0))
      have hc := (at_contents a2).symm.trans hcon
      simp only [List.nil_append] at hc
      simp only []
      rw [cursorGet_seek a1 a2, Res.ok_bind, findEntry_none (H := hf) hd hfuel B a2 (by rw [hc]; exact hy) (by rw [← hc] at hfuel2; simpa using hfuel2)]
      rfl
  rw [alloc, this]
  rfl

/-- C85, at the beginning of a write transaction on a database that is in order; what it holds stays. -/
theorem first_allocation_partial {env env1 : Env} {t : Txn} {h hf fuel : Nat} {m : KvMap} {fl : List (Bytes × Bytes)} (hdb : DbOk env h hf m fl)
    (hb : beginWrite env = some (env1, t)) (hfuel : hf < fuel) (hfuel2 : fl.length < fuel) (h8 : ∀ kv ∈ fl, kv.2.length % 8 = 0) :
    ((∃ e ∈ recorded fl, e.1 < limit env1 t) → ∃ i n X Y t' fl', recorded fl = X ++ (i, n) :: Y ∧ i < limit env1 t ∧
      alloc env1 (fuel + 1) t = .ok (n, t') ∧ t'.newLast = t.newLast ∧ Holds env1 { t' with root := t'.freeRoot } hf fl' ∧
      recorded fl' = X ++ Y ∧ IsMap env1 t' h m) ∧
    ((∀ e ∈ recorded fl, ¬ e.1 < limit env1 t) →
      alloc env1 (fuel + 1) t = .ok (t.newLast + 1, { t with newLast := t.newLast + 1 })) := by
  obtain ⟨he1, hw, hd0, hroot, hfr, hlast⟩ : env1 = { env with locked := true } ∧ t.rdonly = false ∧ t.dirty = [] ∧ t.root = metaRoot env.liveMeta ∧
      t.freeRoot = metaFree env.liveMeta ∧ t.newLast = metaLast env.liveMeta := by
    unfold beginWrite at hb
    split at hb
    · cases hb
    · injection hb with hb
      injection hb with h1 h2
      subst h1; subst h2
      exact ⟨rfl, rfl, rfl, rfl, rfl, rfl⟩
  clear hb
  have hview : getPage env1 t = mapPage env := by
    funext x
    unfold getPage Txn.getDirty
    rw [hw, hd0, he1]; rfl
  have hfree := hdb.free
  have hgv : getPage env1 { t with root := t.freeRoot } = getPage env1 t := by funext x; rfl
  have hholds : Holds env1 { t with root := t.freeRoot } hf fl := by
    rcases hfree with ⟨h0, rfl⟩ | ⟨h0, k1, k2, k3, k4⟩
    · exact .inl ⟨hfr.trans h0, rfl⟩
    · refine .inr ⟨by rw [hfr]; exact h0, ⟨?_, ?_, ?_⟩, ?_⟩
      · rw [hgv, hview, hfr]; exact k1
      · rw [hgv, hview, hfr]; exact k3
      · intro n hn
        rw [hgv, hview] at hn
        simp only [hfr] at hn
        have := hdb.apart n (by unfold treePages; rw [if_neg h0]; exact hn)
        refine ⟨by omega, ?_⟩
        show n ≤ t.newLast
        rw [hlast]; exact this.2.1
      · rw [hgv, hview, hfr]; exact k4
  have hfull : t.freeRoot ≠ 0 → Full (getPage env1 t) hf t.freeRoot := by
    intro h0
    rw [hview, hfr]
    rcases hfree with ⟨h1, -⟩ | ⟨-, -, k2, -⟩
    · exact absurd (hfr.trans h1) h0
    · exact k2
  refine ⟨fun he => ?_, fun he => no_free_page_extends hholds hfull hdb.depth hfuel hfuel2 he⟩
  obtain ⟨i, n, X, Y, t', fl', a1, a2, -, a4, a5, a6, a7, a8, a9, a10, a11, a12⟩ := free_page_reused_once_partial hw hholds hfull hdb.depth hfuel hfuel2
    (.inl fun x _ => by unfold Txn.getDirty; rw [hd0]; rfl) (fun kv hkv => by obtain ⟨i, -, e⟩ := hdb.ids kv hkv; rw [e, le_length]) h8 he
  refine ⟨i, n, X, Y, t', fl', a1, a2, a4, a10, a5, a6, ?_⟩
  have hrv : getPage env (readTxn env) = mapPage env := by funext x; rfl
  have hm : IsMap env1 t h m := (isMap_frame hdb.main hroot (Nat.le_of_eq hlast.symm) fun x _ => by rw [hview, hrv]).1
  refine (isMap_frame hm a8 (Nat.le_of_eq a10.symm) ?_).1
  intro x hx
  apply a12
  intro hx'
  have h0 : metaFree env.liveMeta ≠ 0 := by
    rcases hfree with ⟨h1, rfl⟩ | ⟨h0, -⟩
    · obtain ⟨e, he, -⟩ := he; cases he
    · exact h0
  rw [hview, hfr] at hx'
  rw [hview, hroot] at hx
  exact (hdb.apart x (by unfold treePages; rw [if_neg h0]; exact hx')).2.2 hx

/-- C85 is false: two write transactions, all of whose operations succeed, leave three pages recorded as free by transaction 3.  A
transaction that allocates two pages gets two of them; the third is then recorded under a transaction id above 2^48, and a
third allocation extends the file. -/
theorem free_page_lost :
    ∃ sts env env1 t n1 t1 n2 t2 n3 t3, demo [[([97], val2), ([98], val2), ([99], val2)], [([97, 97], [1]), ([100], [1])]] = .ok (sts, env) ∧
      (∀ s ∈ sts, s = .success) ∧ beginWrite env = some (env1, t) ∧
      recorded (contents (getPage env1 t) 0 t.freeRoot) = [(3, 2), (3, 4), (3, 3)] ∧
      alloc env1 5 t = .ok (n1, t1) ∧ n1 = 2 ∧ alloc env1 5 t1 = .ok (n2, t2) ∧ n2 = 4 ∧
      recorded (contents (getPage env1 t2) 0 t2.freeRoot) = [(3 + 8 * 2 ^ 32 + 8 * 2 ^ 48, 3)] ∧
      alloc env1 5 t2 = .ok (n3, t3) ∧ n3 = t.newLast + 1 := by
  have h : Res.holds (demo [[([97], val2), ([98], val2), ([99], val2)], [([97, 97], [1]), ([100], [1])]])
      (fun r => r.1.all (· == .success) && match beginWrite r.2 with
        | none => false
        | some p => decide (recorded (contents (getPage p.1 p.2) 0 p.2.freeRoot) = [(3, 2), (3, 4), (3, 3)]) &&
          Res.holds (alloc p.1 5 p.2) fun a => a.1 == 2 && Res.holds (alloc p.1 5 a.2) fun b => b.1 == 4 &&
            decide (recorded (contents (getPage p.1 b.2) 0 b.2.freeRoot) = [(3 + 8 * 2 ^ 32 + 8 * 2 ^ 48, 3)]) &&
            Res.holds (alloc p.1 5 b.2) fun c => c.1 == p.2.newLast + 1) = true := by decide +kernel
  obtain ⟨⟨sts, env⟩, h1, h2⟩ := Res.holds_iff h
  simp only [Bool.and_eq_true, List.all_eq_true, beq_iff_eq] at h2
  obtain ⟨h2, h3⟩ := h2
  split at h3
  · cases h3
  · rename_i p hp
    simp only [Bool.and_eq_true, decide_eq_true_eq] at h3
    obtain ⟨h3, h4⟩ := h3
    obtain ⟨⟨n1, t1⟩, a1, a2⟩ := Res.holds_iff h4
    simp only [Bool.and_eq_true, beq_iff_eq] at a2
    obtain ⟨a2, a3⟩ := a2
    obtain ⟨⟨n2, t2⟩, b1, b2⟩ := Res.holds_iff a3
    simp only [Bool.and_eq_true, beq_iff_eq, decide_eq_true_eq] at b2
    obtain ⟨⟨b2, b3⟩, b4⟩ := b2
    obtain ⟨⟨n3, t3⟩, c1, c2⟩ := Res.holds_iff b4
    simp only [beq_iff_eq] at c2
    exact ⟨sts, env, p.1, p.2, n1, t1, n2, t2, n3, t3, h1, h2, hp, h3, a1, a2, b1, b2, b3, c1, c2⟩

/-- The conditions of `first_allocation_partial`: a state of a database with entries in its Free DB. -/
example : ∃ env env1 t h hf m fl, DbOk env h hf m fl ∧ beginWrite env = some (env1, t) ∧ metaFree env.liveMeta ≠ 0 ∧ fl ≠ [] := by
  obtain ⟨env, h, hf, fl, hdb, h0⟩ := demo_state
  have hlock : ({ env with locked := false } : Env).locked = false := rfl
  have hdb' : DbOk { env with locked := false } h hf _ fl := hdb.congr rfl rfl rfl rfl
  refine ⟨_, _, _, h, hf, _, fl, hdb', rfl, h0, ?_⟩
  rcases hdb.free with ⟨h1, -⟩ | ⟨-, k1, k2, -, rfl⟩
  · exact absurd h1 h0
  · exact shape_nonempty ((shape_of_wft hf k1).2 k2)

/-! ## C48: values that do not grow -/

/-- C48: in a leaf that the transaction has not touched, `put` of a stored key with a value that is not longer than the stored one
succeeds whatever the state of the file and of the Free DB: it needs no page.  Exactly that pair changes. -/
theorem put_not_longer_partial {al : Alloc} {env : Env} {t : Txn} {h : Nat} {m : KvMap} {key v val : Bytes} (hk : key.length < 65536)
    (hw : t.rdonly = false) (hm : IsMap env t h m) (hkey : m key = some v) (hd : h < maxDepth) (hclean : LeafClean env t h key)
    (hle : val.length ≤ v.length) :
    ∃ t', putWith al env t key val = .ok (.success, t') ∧ IsMap env t' h (m.put key val) ∧ t'.newLast = t.newLast ∧
      t'.root = t.root ∧ t'.freeRoot = t.freeRoot := by
  obtain ⟨l, hl, hlm⟩ := hm
  obtain ⟨A, B, rfl⟩ : ∃ A B, l = A ++ (key, v) :: B := by
    rcases del_spec hw hl hk hd with ⟨hn, -⟩ | ⟨A, v', B, t1, a1, -⟩
    · rw [hlm, hkey] at hn; cases hn
    · subst a1
      have := hlm key
      rw [lookup_mid (holds_sorted hl), if_pos rfl, hkey] at this
      cases this
      exact ⟨A, B, rfl⟩
  obtain ⟨-, t', -, -, b3, b4, -, b6, b7, b8, -⟩ := put_shorter (al := al) (val := val) hk hw hl hd hclean hle
  refine ⟨t', b3, ⟨_, b4, fun x => ?_⟩, b8, b6, b7⟩
  have h1 := hlm x
  rw [lookup_mid (holds_sorted hl)] at h1
  rw [lookup_mid (holds_sorted b4)]
  unfold KvMap.put
  by_cases hx : x = key
  · subst hx; simp
  · rw [if_neg hx] at h1 ⊢
    rw [h1]; simp [hx]

end Verif.Db
