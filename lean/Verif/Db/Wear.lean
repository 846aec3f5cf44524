import Verif.Db.HonestProps
import Verif.Db.Sheet
import Verif.Db.Small

/-!
# A small database, changed again and again

The Free DB of a database of one leaf page gets one entry with each transaction, and none of them is ever used, as nothing is allocated.  When its own page is full, it is split; the pages for
this are taken from the Free DB, which records the page of the only leaf.
-/

namespace Verif.Db.Wear

open Verif.Page Verif.Db.Honest

/-- The entry of a transaction that freed page 2. -/
def record (i : Nat) : Item := .leaf (le 8 i) (le 8 2)

/-- A Free DB with the entries of `m` transactions, the first of which has the number 3. -/
def ledger (m : Nat) : Sheet :=
  ⟨true, (List.range m).map fun i => record (i + 3), (List.range m).map fun i => 4096 - 20 * (i + 1), 4096 - 20 * m⟩

theorem le8 (n : Nat) : (le 8 n).length = 8 := by simp

theorem record_size (i : Nat) : (record i).size = 20 := by
  unfold record
  simp [Item.size]

theorem ledger_insert {m : Nat} (h : m < 185) : (ledger m).insert m (record (m + 3)) = some (ledger (m + 1)) := by
  unfold Sheet.insert Sheet.room
  rw [record_size, if_neg (by simp [ledger]; omega)]
  congr 1
  unfold ledger
  simp only [List.range_succ, List.map_append, List.map_cons, List.map_nil]
  congr 1
  · have := List.insertIdx_length_self (l := (List.range m).map fun i => record (i + 3)) (x := record (m + 3))
    simp only [List.length_map, List.length_range] at this
    exact this
  · have := List.insertIdx_length_self (l := (List.range m).map fun i => 4096 - 20 * (i + 1)) (x := 4096 - 20 * m - 20)
    simp only [List.length_map, List.length_range] at this
    rw [this, show 4096 - 20 * m - 20 = 4096 - 20 * (m + 1) by omega]

theorem ledger_full : (ledger 185).insert 185 (record 188) = none := by
  unfold Sheet.insert Sheet.room
  rw [record_size, if_pos (by simp [ledger])]

theorem ledger_probe {m : Nat} (h : m < 186) : (ledger m).probe (le 8 (m + 3)) = .notFound m := by
  have : ∀ m < 186, (ledger m).probe (le 8 (m + 3)) = .notFound m := by decide +kernel
  exact this m h

/-- A transaction has copied the only leaf. -/
def copied (id fr last : Nat) (q : Page) : Txn := ⟨false, id, 2, fr, last, [(2, q)], [2]⟩

theorem findPath_leaf {env : Env} {t : Txn} {key : Bytes} {n d : Nat} {p : Page} (h : n ≤ maxPgno env t) (hp : getPage env t n = .ok p) (hl : isLeaf p = true) :
    findPath env t key (d + 1) n = .ok (.ok [n]) := by
  rw [findPath, if_neg (by omega), hp, Res.ok_bind, if_pos hl]

/-- After a commit the page that it wrote is the one that `napr_db_env_open` will choose. -/
theorem select_new {env env' : Env} {a b c d : Nat} (hlive : env.live < 2) (h1 : env'.file (staleMeta env) = metaPage a b c d) (h2 : env'.file env.live = env.liveMeta)
    (hv : validMeta env.liveMeta = true) (ht : metaTxnid env.liveMeta < a % 2 ^ 64) : selectLive (env'.file 0) (env'.file 1) = some (staleMeta env) := by
  rcases (by omega : env.live = 0 ∨ env.live = 1) with e | e
  · have hs : staleMeta env = 1 := by simp [staleMeta, e]
    rw [hs] at h1 ⊢
    rw [e] at h2
    rw [h1, h2]
    simp [selectLive, hv, metaPage_valid, metaPage_txnid]
    omega
  · have hs : staleMeta env = 0 := by simp [staleMeta, e]
    rw [hs] at h1 ⊢
    rw [e] at h2
    rw [h1, h2]
    simp [selectLive, hv, metaPage_valid, metaPage_txnid, ht]

/-- The file operations of a commit after the Free DB has taken its entry. -/
theorem commitActs_of {env : Env} {t t1 : Txn} {fuel free : Nat} (hp : populate (alloc env fuel) env t = .ok (t1, .ok free))
    (hw : ∀ n p, (n, p) ∈ t1.dirty → 2 ≤ n ∧ pgno p = n ∧ WF p) (hu : (t1.dirty.map Prod.fst).Nodup) :
    commitActs (alloc env fuel) env t = .ok (.ok (allActs env t1 t1.root free)) := by
  have hid : ∀ n, newPgno t1 n = n := by
    intro n
    unfold newPgno
    cases hd : t1.getDirty n with
    | none => rfl
    | some p => exact (hw n p ((getDirty_mem hu).1 hd)).2.1
  unfold commitActs
  rw [hp, Res.ok_bind]
  simp only []
  rw [remapAll_id hid _ fun x hx => ⟨(hw x.1 x.2 hx).2.2, (hw x.1 x.2 hx).2.1⟩, Res.ok_bind, hid]
  rfl

/-- A commit after the Free DB has taken its entry. -/
theorem commit_of {env : Env} {t t1 : Txn} {fuel free : Nat} (h2 : 2 ≤ env.filePages) (hd : t.dirty ≠ []) (hp : populate (alloc env fuel) env t = .ok (t1, .ok free))
    (hw : ∀ n p, (n, p) ∈ t1.dirty → 2 ≤ n ∧ pgno p = n ∧ WF p) (hu : (t1.dirty.map Prod.fst).Nodup) :
    ∃ env', commit env fuel t = .ok (.success, env') ∧ env'.liveMeta = metaPage t1.txnid t1.root t1.newLast free ∧ env'.live < 2 ∧ env'.locked = false ∧
      env'.readers = env.readers ∧ env'.mapPages = env.mapPages ∧ env.filePages ≤ env'.filePages ∧
      (∀ n p, (n, p) ∈ t1.dirty → env'.file n = p ∧ n < env'.filePages) ∧
      (env.live < 2 → validMeta env.liveMeta = true → metaTxnid env.liveMeta < t1.txnid % 2 ^ 64 → selectLive (env'.file 0) (env'.file 1) = some env'.live) := by
  obtain ⟨a1, a2, a3, -⟩ := acts_file (env := env) (t := t1) (root := t1.root) (free := free) (fun n p h => (hw n p h).1) hu h2
  have hk := runActs_kept (allActs env t1 t1.root free) env
  refine ⟨{ runActs env (allActs env t1 t1.root free) with locked := false, live := staleMeta env }, ?_, a1, stale_lt env, rfl, hk.readers, hk.map, hk.file,
    fun n p h => a3 n p ((getDirty_mem hu).2 h), fun hlive hv ht => select_new hlive a1 (a2 env.live hlive (stale_ne env).symm) hv ht⟩
  unfold commit commitWith
  rw [if_neg hd, commitActs_of hp hw hu, Res.ok_bind]

/-- A database whose tree is one leaf, after `m` transactions that entered something into the Free DB. -/
structure Worn (K : List Bytes) (cap m : Nat) (env : Env) (kv : KvMap) : Prop where
  live : env.live < 2
  pages : 4 ≤ env.filePages
  map : 4 ≤ env.mapPages
  readers : oldestReader env.readers = 0
  top : env.liveMeta = metaPage (m + 2) 2 3 3
  leaf : Small K cap (env.file 2) kv
  leafNo : pgno (env.file 2) = 2
  led : Rep (env.file 3) (ledger m)
  ledNo : pgno (env.file 3) = 3

theorem copied_get {id fr last : Nat} {q : Page} {n : Nat} (h : n ≠ 2) : (copied id fr last q).getDirty n = none := by
  unfold copied Txn.getDirty
  rw [List.lookup_cons, show (n == 2) = false by simpa using h]; rfl

/-- The way of a Free DB of one page. -/
theorem insertFree_one {env : Env} {al : Alloc} {q p3 : Page} {id : Nat} {key val : Bytes} {i : Nat} (h3 : mapPage env 3 = .ok p3) (hl : isLeaf p3 = true) (hn : pgno p3 = 3)
    (hp : probe p3 key = .ok (.notFound i)) {st : St} {p3' : Page} (hi : Verif.Page.insert p3 i (.leaf key val) = .ok (st, p3')) :
    insertFree al env (copied id 3 3 q) key val = match st with
      | .ok => .ok (⟨false, id, 2, 3, 3, [(3, p3'), (2, q)], [2, 3]⟩, .ok 3)
      | .inval => .ok (⟨false, id, 2, 3, 3, [(3, p3), (2, q)], [2, 3]⟩, .error .inval)
      | .nospc => pageSplit al ⟨false, id, 2, 3, 3, [(3, p3), (2, q)], [2, 3]⟩ 3 [3] key val := by
  have hg : getPage env (copied id 3 3 q) 3 = .ok p3 := by
    unfold getPage
    rw [if_neg (by simp [copied]), copied_get (by decide)]; exact h3
  unfold insertFree
  rw [show (copied id 3 3 q).freeRoot = 3 from rfl, show maxDepth = 31 + 1 from rfl, findPath_leaf (by exact Nat.le_refl 3) hg hl, Res.ok_bind]
  simp only [show ([3] : List Nat).getLastD 0 = 3 from rfl]
  rw [hg, Res.ok_bind, hp, Res.ok_bind]
  have hc : cowPath env (copied id 3 3 q) [3].reverse = .ok (3, ⟨false, id, 2, 3, 3, [(3, p3), (2, q)], [2, 3]⟩) := by
    simp only [List.reverse_singleton, cowPath, cow, copied_get (show (3 : Nat) ≠ 2 by decide), getWritable, h3, Res.ok_bind, hn, cowAll]
    rfl
  simp only [Found.hit, Bool.false_eq_true, if_false]
  rw [hc, Res.ok_bind]
  simp only [Txn.getDirty, List.lookup_cons, beq_self_eq_true, Res.ofOption_some, Res.ok_bind, Found.idx, hi]
  cases st <;> rfl

theorem Worn.map2 {K : List Bytes} {cap m : Nat} {env : Env} {kv : KvMap} (W : Worn K cap m env kv) : mapPage env 2 = .ok (env.file 2) := by
  unfold mapPage
  rw [if_pos ⟨by have := W.map; omega, by have := W.pages; omega⟩]

theorem Worn.map3 {K : List Bytes} {cap m : Nat} {env : Env} {kv : KvMap} (W : Worn K cap m env kv) : mapPage env 3 = .ok (env.file 3) := by
  unfold mapPage
  rw [if_pos ⟨by have := W.map; omega, by have := W.pages; omega⟩]

theorem populate_copied {env : Env} {al : Alloc} {q : Page} {id : Nat} : populate al env (copied id 3 3 q) = insertFree al env (copied id 3 3 q) (le 8 id) (le 8 2) := by
  unfold populate
  rw [if_neg (by simp [copied]), if_neg (by simp [copied, maxPgno])]
  simp [copied]

theorem one_page {q : Page} (hq : WF q) (hn : pgno q = 2) : ∀ n p, (n, p) ∈ [((2 : Nat), q)] → 2 ≤ n ∧ pgno p = n ∧ WF p := by
  intro n p h
  simp only [List.mem_cons, Prod.mk.injEq, List.not_mem_nil, or_false] at h
  obtain ⟨rfl, rfl⟩ := h
  exact ⟨by omega, hn, hq⟩

theorem two_pages {p3 q : Page} (h3 : WF p3) (n3 : pgno p3 = 3) (hq : WF q) (hn : pgno q = 2) : ∀ n p, (n, p) ∈ [((3 : Nat), p3), (2, q)] → 2 ≤ n ∧ pgno p = n ∧ WF p := by
  intro n p h
  simp only [List.mem_cons, Prod.mk.injEq, List.not_mem_nil, or_false] at h
  rcases h with ⟨rfl, rfl⟩ | ⟨rfl, rfl⟩
  · exact ⟨by omega, n3, h3⟩
  · exact ⟨by omega, hn, hq⟩

/-- The entry that one more transaction makes in the Free DB. -/
theorem Worn.populate {K : List Bytes} {cap m : Nat} {env : Env} {kv : KvMap} (W : Worn K cap m env kv) (hm : m < 185) : ∃ p3, Rep p3 (ledger (m + 1)) ∧ pgno p3 = 3 ∧ ∀ (al : Alloc) (q : Page),
    Db.populate al env (copied (m + 3) 3 3 q) = .ok (⟨false, m + 3, 2, 3, 3, [(3, p3), (2, q)], [2, 3]⟩, .ok 3) := by
  obtain ⟨p3, e1, r1, n1⟩ := (insert_rep W.led (i := m) (by simp [ledger]) (it := record (m + 3)) rfl (by rw [record_size]; omega) (by simp [Item.child, record])).2 _ (ledger_insert hm)
  exact ⟨p3, r1, n1.trans W.ledNo, fun al q => by
    rw [populate_copied, insertFree_one W.map3 W.led.kind W.ledNo (by rw [probe_rep W.led (by simp), ledger_probe (by omega)]) e1]⟩

/-- One more transaction, as long as its entry finds room. -/
theorem commit_worn {K : List Bytes} {cap m : Nat} {env : Env} {kv kv' : KvMap} (W : Worn K cap m env kv) (hm : m < 185) {q : Page} (hq : Small K cap q kv') (hn : pgno q = 2) (fuel : Nat) :
    ∃ env', commit env fuel (copied (m + 3) 3 3 q) = .ok (.success, env') ∧ Worn K cap (m + 1) env' kv' ∧ env'.locked = false ∧ selectLive (env'.file 0) (env'.file 1) = some env'.live := by
  obtain ⟨p3, r1, n1, hp⟩ := W.populate hm
  obtain ⟨env', c1, c2, c3, c4, c5, c6, c7, c8, c9⟩ := commit_of (by have := W.pages; omega) (by simp [copied]) (hp _ q) (two_pages r1.wf n1 hq.wf hn) (by simp)
  obtain ⟨d2, -⟩ := c8 2 q (by simp)
  obtain ⟨d3, -⟩ := c8 3 p3 (by simp)
  exact ⟨env', c1, ⟨c3, by have := W.pages; omega, by rw [c6]; exact W.map, by rw [c5]; exact W.readers, c2, by rw [d2]; exact hq, by rw [d2]; exact hn,
    by rw [d3]; exact r1, by rw [d3]; exact n1⟩, c4, c9 W.live (by rw [W.top]; exact metaPage_valid _ _ _ _) (by rw [W.top, metaPage_txnid]; show _ < (m + 3) % _; omega)⟩

/-- A page is taken from the first entry of a Free DB of one page: it is always page 2. -/
theorem alloc_two {env : Env} {t : Txn} {p : Page} {a : Sheet} {j : Nat} {rest : List Item} (hro : t.rdonly = false) (hf : t.freeRoot = 3) (hlast : 3 ≤ t.newLast)
    (hr : oldestReader env.readers = 0) (hd : t.getDirty 3 = some p) (hp : Rep p a) (hl : a.leaf = true) (hi : a.its = record j :: rest) (hb : a.probe (le 8 j) = .found 0)
    (hj : j < t.txnid) (hj' : j < 2 ^ 64) (f : Nat) : ∃ p', alloc env (f + 2) t = .ok (2, t.setDirty 3 p') ∧ Rep p' (a.delete 0) ∧ pgno p' = pgno p := by
  obtain ⟨p', e1, r1, n1⟩ := delete_rep hp (i := 0) (by rw [hi]; simp)
  refine ⟨p', ?_, r1, n1⟩
  obtain ⟨ro, id, root, fr, last, dirty, freed⟩ := t
  simp only [] at hro hf hlast hj
  subst hro hf
  generalize ht : (⟨false, id, root, 3, last, dirty, freed⟩ : Txn) = t at *
  have hro : t.rdonly = false := by rw [← ht]
  have hid : t.txnid = id := by rw [← ht]
  have hlast : 3 ≤ t.newLast := by rw [← ht]; exact hlast
  have hn : numKeys p ≠ 0 := by rw [hp.len, hi]; simp
  have hleaf : isLeaf p = true := hp.kind.trans hl
  have hg : getPage env { t with root := 3 } 3 = .ok p := by
    unfold getPage
    rw [if_neg (by simp [hro]), show ({ t with root := 3 } : Txn).getDirty 3 = some p from hd]
  have hkv : leafNode p 0 = .ok (le 8 j, le 8 2) := by
    refine leafNode_spec hp.wf hleaf ?_
    unfold kvs
    rw [hp.its, hi]; rfl
  have hcur : cursorGet env { t with root := 3 } (f + 1) Cursor.opened (.seek .first) = .ok (⟨[(p, 0)], false⟩, .ok (le 8 j, le 8 2)) := by
    unfold cursorGet
    simp only [move]
    unfold seek
    rw [if_neg (by simp), seekDown, hg, Res.ok_bind, if_pos hleaf, Res.ok_bind]
    simp only [push, List.length_nil, if_pos (show 0 < maxDepth by decide), if_true, leafIdx, Res.ok_bind, if_neg hn]
    unfold atCursor
    simp only [Bool.false_eq_true, if_false, if_neg (show ¬ numKeys p ≤ 0 by omega), hkv, Res.ok_bind]
  have hrec : reclaimable id (le 8 j, le 8 2) = true := by
    unfold reclaimable
    rw [leVal_le, Nat.mod_eq_of_lt (by simpa using hj')]
    simp [hj]
  have hdel : del env { t with root := 3 } (le 8 j) = .ok (.success, { t.setDirty 3 p' with root := 3 }) := by
    unfold del
    rw [if_neg (by simp [hro]), if_neg (by simp)]
    rw [show maxDepth = 31 + 1 from rfl, findPath_leaf (by unfold maxPgno; rw [if_neg (by simp [hro])]; exact hlast) hg hleaf, Res.ok_bind]
    simp only [show ([3] : List Nat).getLastD 0 = 3 from rfl]
    rw [hg, Res.ok_bind, probe_rep hp (by simp), Res.ok_bind, hb]
    have hc : cowPath env { t with root := 3 } [3].reverse = .ok (3, { t with root := 3 }) := by
      simp only [List.reverse_singleton, cowPath, cow, show ({ t with root := 3 } : Txn).getDirty 3 = some p from hd, Res.ok_bind, cowAll]
    simp only [Found.hit, if_true, Found.idx]
    rw [hc, Res.ok_bind]
    simp only [show ({ t with root := 3 } : Txn).getDirty 3 = some p from hd]
    rw [e1, Res.ok_bind]
    rfl
  rw [alloc]
  have : reclaim (alloc env (f + 1)) env (f + 1) t = .ok (some 2, t.setDirty 3 p') := by
    subst ht
    unfold reclaim
    rw [if_neg (by simp)]
    simp only [hr, if_true]
    rw [hcur, Res.ok_bind, findEntry]
    simp only [hrec, if_true, Res.ok_bind]
    unfold updateEntry
    rw [if_pos (by simp), hdel, Res.ok_bind]
    simp only [if_true]
    rfl
  rw [this, Res.ok_bind]

/-- The Free DB after its first entry has been used. -/
def spent : Sheet := (ledger 185).delete 0

theorem spent_facts : (ledger 185).its = record 3 :: (ledger 185).its.tail ∧ (ledger 185).probe (le 8 3) = .found 0 ∧ spent.leaf = true ∧ spent.its ≠ [] ∧
    spent.left.its = record 4 :: spent.left.its.tail ∧ spent.left.its.length = 92 ∧ spent.left.probe (le 8 4) = .found 0 ∧ spent.left.probe (le 8 188) = .notFound 92 ∧
    spent.right.its.length = 92 ∧ spent.right.probe (le 8 188) = .notFound 92 ∧ (spent.right.insert 92 (record 188)).isSome = true ∧ spent.right.its[0]?.map Item.key = some (le 8 96) ∧
    (spent.left.delete 0).its = record 5 :: (spent.left.delete 0).its.tail ∧ (∀ it ∈ (spent.left.delete 0).its, it.key.length = 8) := by
  decide +kernel

/-- The new root of the Free DB: one child is the old leaf, the other one is the new root itself. -/
def loop : Sheet := ⟨false, [.branch (le 8 5) 3, .branch (le 8 96) 2], [4078, 4060], 4060⟩

theorem loop_facts : (Sheet.empty false).insert 0 (.branch (le 8 5) 3) = some ⟨false, [.branch (le 8 5) 3], [4078], 4078⟩ ∧
    (⟨false, [.branch (le 8 5) 3], [4078], 4078⟩ : Sheet).insert 1 (.branch (le 8 96) 2) = some loop := ⟨rfl, rfl⟩

/-- The Free DB is split when it is full. -/
theorem split_last {K : List Bytes} {cap : Nat} {env : Env} {kv : KvMap} (W : Worn K cap 185 env kv) (q : Page) (f : Nat) :
    ∃ br p3, pageSplit (alloc env (f + 2)) ⟨false, 188, 2, 3, 3, [(3, env.file 3), (2, q)], [2, 3]⟩ 3 [3] (le 8 188) (le 8 2) =
      .ok (⟨false, 188, 2, 3, 3, [(2, br), (3, p3)], [2, 3]⟩, .ok 2) ∧ Rep br loop ∧ pgno br = 2 ∧ Rep p3 (spent.left.delete 0) ∧ pgno p3 = 3 := by
  obtain ⟨f1, f2, f3, f4, f5, f6, f7, f8, f9, f10, f11, f12, f13, f14⟩ := spent_facts
  obtain ⟨p1, e1, r1, n1⟩ := alloc_two (t := ⟨false, 188, 2, 3, 3, [(3, env.file 3), (2, q)], [2, 3]⟩) rfl rfl (Nat.le_refl 3) W.readers rfl W.led rfl f1 f2 (show 3 < 188 by decide) (by decide) f
  have n1 : pgno p1 = 3 := n1.trans W.ledNo
  obtain ⟨s, e2, r2, r3, n2, n3, hdiv⟩ := split_rep (a := spent) r1 f4 (no := 2) (by decide)
  rw [f3, if_pos rfl] at e2
  obtain ⟨R', hR'⟩ := Option.isSome_iff_exists.1 f11
  obtain ⟨r', e3, r4, n4⟩ := (insert_rep r3 (i := 92) (by rw [f9]; exact Nat.le_refl _) (it := record 188) (by exact f3.symm) (by rw [record_size]; omega) (by simp [Item.child, record])).2 _ hR'
  rw [f12] at hdiv
  have hdiv : s.divider = le 8 96 := Option.some.inj hdiv
  obtain ⟨p4, e4, r5, n5⟩ := alloc_two (t := ⟨false, 188, 2, 3, 3, [(2, r'), (3, s.left)], [2, 3]⟩) rfl rfl (Nat.le_refl 3) W.readers rfl r2 (by exact f3) f5 f7 (show 4 < 188 by decide) (by decide) f
  have n5 : pgno p4 = 3 := n5.trans (n2.trans n1)
  obtain ⟨b1, e5, r6, n6⟩ := (insert_rep (empty_rep false (no := 2) (by decide)) (i := 0) (Nat.zero_le _) (it := .branch (le 8 5) 3) rfl (by decide) (by decide)).2 _ loop_facts.1
  obtain ⟨br, e6, r7, n7⟩ := (insert_rep r6 (i := 1) (Nat.le_refl _) (it := .branch (le 8 96) 2) rfl (by decide) (by decide)).2 _ loop_facts.2
  refine ⟨br, p4, ?_, r7, by rw [n7, n6]; exact (emptyPage_fields false 2 (by decide)).2.2.2.2, r5, n5⟩
  have hs : splitTxn (alloc env (f + 2)) true ⟨false, 188, 2, 3, 3, [(3, env.file 3), (2, q)], [2, 3]⟩ 3 =
      .ok (⟨false, 188, 2, 3, 3, [(2, s.right), (3, s.left)], [2, 3]⟩, .ok ⟨2, s.left, s.right, s.divider⟩) := by
    unfold splitTxn
    simp only [Txn.getDirty, List.lookup_cons, beq_self_eq_true, Res.ofOption_some, Res.ok_bind, if_true]
    rw [show isLeaf (env.file 3) = true from W.led.kind]
    simp only [Bool.not_true, Bool.false_eq_true, if_false]
    rw [e1, Res.ok_bind]
    simp only [Txn.setDirty, List.lookup_cons, beq_self_eq_true, Res.ofOption_some, Res.ok_bind]
    rw [e2, Res.ok_bind]
    rfl
  have hh : insertHalf ⟨false, 188, 2, 3, 3, [(2, s.right), (3, s.left)], [2, 3]⟩ 3 ⟨2, s.left, s.right, s.divider⟩ (.leaf (le 8 188) (le 8 2)) =
      .ok (.success, ⟨false, 188, 2, 3, 3, [(2, r'), (3, s.left)], [2, 3]⟩) := by
    unfold insertHalf
    simp only [Item.key]
    rw [probe_rep r2 (by simp), Res.ok_bind, f8, r2.len, f6]
    rw [if_pos (show (!(Found.notFound 92).hit && decide (92 ≤ (Found.notFound 92).idx)) = true from rfl), probe_rep r3 (by simp), Res.ok_bind, f10,
      show (Found.notFound 92).idx = 92 from rfl, show Item.leaf (le 8 188) (le 8 2) = record 188 from rfl, e3, Res.ok_bind]
    rfl
  unfold pageSplit
  rw [hs, Res.ok_bind]
  simp only []
  rw [hh, Res.ok_bind, if_pos rfl, dividerNow_pos (by show numKeys s.right ≠ 0; rw [r3.len, f9]; decide), Res.ok_bind]
  simp only [show ([3] : List Nat).dropLast.reverse = [] from rfl, propagate, Res.ok_bind, show ([3] : List Nat).headD 0 = 3 from rfl]
  rw [if_neg (by decide), if_pos trivial]
  unfold rootSplit
  rw [e4, Res.ok_bind]
  simp only [show (Txn.setDirty ⟨false, 188, 2, 3, 3, [(2, r'), (3, s.left)], [2, 3]⟩ 3 p4).getDirty 3 = some p4 from rfl]
  rw [firstKey_rep r5 f13, Res.ok_bind, show (record 5).key = le 8 5 from rfl, e5, Res.ok_bind, if_pos rfl, hdiv, e6, Res.ok_bind, if_pos rfl]
  rfl

end Verif.Db.Wear
