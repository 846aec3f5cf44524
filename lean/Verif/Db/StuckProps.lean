import Verif.Db.WearProps

/-!
# A small database after a commit that failed (C129)

The commit writes the page of the Free DB, with the entry of the transaction, over the page that is in use.  If it then fails, the meta page is the old one, so the next transaction gets the
number of the failed one, and its entry is there already.
-/

namespace Verif.Db

open Verif.Page

/-! ### What is to be expected -/

/-- A write transaction whose commit is told by the system that file operation number `i` failed. -/
def failing (fuel i : Nat) (env : Env) (ops : List KvOp) : Res (List Status × Status × Env) :=
  match beginWrite env with
  | none => .div
  | some (env, t) => do
    let a ← steps env fuel t ops
    let c ← commitWith (alloc env fuel) (some i) env a.2
    .ok (a.1, c.1, c.2)

/-- The answers to transactions none of which has an effect: those that would change something are refused. -/
def refusals (m : KvMap) (ts : List (List KvOp)) : List (List Status × Status) :=
  ts.map fun ops => ((answers m false ops).1, if (answers m false ops).2.2 then .exist else .success)

end Verif.Db

namespace Verif.Db.Wear

open Verif.Page Verif.Db.Honest

/-- A database of one leaf whose Free DB has the entry of a transaction that did not come to its end. -/
structure Stuck (K : List Bytes) (cap m : Nat) (env : Env) (kv : KvMap) : Prop where
  live : env.live < 2
  pages : 4 ≤ env.filePages
  map : 4 ≤ env.mapPages
  top : env.liveMeta = metaPage (m + 2) 2 3 3
  leaf : Small K cap (env.file 2) kv
  leafNo : pgno (env.file 2) = 2
  led : Rep (env.file 3) (ledger (m + 1))
  ledNo : pgno (env.file 3) = 3

theorem ledger_hit {m : Nat} (h : m < 185) : (ledger (m + 1)).probe (le 8 (m + 3)) = .found m := by
  have : ∀ m < 185, (ledger (m + 1)).probe (le 8 (m + 3)) = .found m := by decide +kernel
  exact this m h

theorem Stuck.mapped {K : List Bytes} {cap m : Nat} {env : Env} {kv : KvMap} (W : Stuck K cap m env kv) {n : Nat} (hn : n < 4) : mapPage env n = .ok (env.file n) := by
  unfold mapPage
  rw [if_pos ⟨by have := W.map; omega, by have := W.pages; omega⟩]

theorem Stuck.lock {K : List Bytes} {cap m : Nat} {env : Env} {kv : KvMap} (W : Stuck K cap m env kv) : Stuck K cap m { env with locked := true } kv :=
  ⟨W.live, W.pages, W.map, W.top, W.leaf, W.leafNo, W.led, W.ledNo⟩

/-- The commit of a transaction that has copied the leaf. -/
theorem commit_stuck {K : List Bytes} {cap m : Nat} {env : Env} {kv : KvMap} (W : Stuck K cap m env kv) (hm : m < 185) (q : Page) (fuel : Nat) :
    commit env fuel (copied (m + 3) 3 3 q) = .ok (.exist, { env with locked := false }) := by
  have hg : getPage env (copied (m + 3) 3 3 q) 3 = .ok (env.file 3) := by
    unfold getPage
    rw [if_neg (by simp [copied]), copied_get (by decide)]; exact W.mapped (by decide)
  unfold commit commitWith
  rw [if_neg (by simp [copied])]
  unfold commitActs
  rw [populate_copied]
  unfold insertFree
  rw [show (copied (m + 3) 3 3 q).freeRoot = 3 from rfl, show maxDepth = 31 + 1 from rfl, findPath_leaf (by exact Nat.le_refl 3) hg W.led.kind, Res.ok_bind]
  simp only [show ([3] : List Nat).getLastD 0 = 3 from rfl]
  rw [hg, Res.ok_bind, probe_rep W.led (by simp), ledger_hit hm, Res.ok_bind]
  simp only [Found.hit, if_true, Res.ok_bind]

theorem turn_stuck {K : List Bytes} {cap m fuel : Nat} (hK : need K cap ≤ 4078) {env : Env} {kv : KvMap} (W : Stuck K cap m env kv) (hm : m < 185) (hl : env.locked = false) {ops : List KvOp}
    (hw : Within K cap ops) : ∃ t t', beginWrite env = some ({ env with locked := true }, t) ∧ steps { env with locked := true } fuel t ops = .ok ((answers kv false ops).1, t') ∧
      commit { env with locked := true } fuel t' = .ok (if (answers kv false ops).2.2 then .exist else .success, env) := by
  have hb := begin_at hl W.top (by omega) (by decide) (by decide) (by decide)
  have h2 := W.lock.mapped (n := 2) (by decide)
  obtain ⟨t', e, M⟩ := steps_mid (env := { env with locked := true }) (fuel := fuel) (ops := ops) (t0 := ⟨false, m + 2 + 1, 2, 3, 3, [], []⟩) (m0 := kv) (m := kv) (b := false) hK (by decide)
    (fun k v hk hv => put_clean hK (by decide) W.leaf h2 W.leafNo hk hv) (fun k h16 => del_clean (by decide) W.leaf h2 W.leafNo h16) (.inl ⟨rfl, rfl, rfl⟩) hw
  refine ⟨_, t', hb, e, ?_⟩
  generalize hA : answers kv false ops = A at *
  obtain ⟨sts, m', b⟩ := A
  rcases M with ⟨rfl, rfl, rfl⟩ | ⟨rfl, q, rfl, S, hq⟩
  · exact commit_none hl rfl
  · exact (commit_stuck W.lock hm q fuel).trans (by rw [unlocked hl]; rfl)

theorem transactions_stuck {K : List Bytes} {cap m fuel : Nat} (hK : need K cap ≤ 4078) {env : Env} {kv : KvMap} (W : Stuck K cap m env kv) (hm : m < 185) (hl : env.locked = false) :
    ∀ {ts : List (List KvOp)}, (∀ ops ∈ ts, Within K cap ops) → transactions fuel env ts = .ok (refusals kv ts, env) := by
  intro ts
  induction ts with
  | nil => intro _; rfl
  | cons ops ts ih =>
    intro hw
    obtain ⟨t, t', hb, hs, hc⟩ := turn_stuck (fuel := fuel) hK W hm hl (hw ops List.mem_cons_self)
    exact transactions_cons hb hs hc (ih fun o ho => hw o (List.mem_cons_of_mem _ ho))

theorem get_stuck {K : List Bytes} {cap m : Nat} {env : Env} {kv : KvMap} (W : Stuck K cap m env kv) {k : Bytes} (hk : k.length < 65536) (fuel : Nat) :
    get env (readTxn env) (fuel + 1) k = .ok (kv.answer k) :=
  get_small (by rw [W.top, metaPage_root]) (W.mapped (by decide)) W.leaf hk fuel

/-! ### Opening the file again -/

/-- The environment that `napr_db_env_open` makes, with the same meta page. -/
def again (env : Env) (mapPages : Nat) : Env := ⟨env.file, env.filePages, mapPages, env.live, false, List.replicate maxReaders noSlot⟩

theorem open_again {env : Env} {mapPages : Nat} (hs : selectLive (env.file 0) (env.file 1) = some env.live) (h2 : 2 ≤ env.filePages) (hm : 4 ≤ mapPages) :
    envOpen env.file env.filePages mapPages = .ok (.ok (again env mapPages)) := by
  unfold envOpen
  rw [if_neg (by omega), hs]
  rfl

theorem Stuck.again {K : List Bytes} {cap m : Nat} {env : Env} {kv : KvMap} (W : Stuck K cap m env kv) {mapPages : Nat} (hm : 4 ≤ mapPages) : Stuck K cap m (again env mapPages) kv :=
  ⟨W.live, W.pages, hm, W.top, W.leaf, W.leafNo, W.led, W.ledNo⟩

theorem no_readers : oldestReader (List.replicate maxReaders noSlot) = 0 := by decide +kernel

theorem stage_again {K : List Bytes} {cap n : Nat} {env : Env} {kv : KvMap} (H : Stage K cap n env kv) {mapPages : Nat} (hm : 4 ≤ mapPages) : Stage K cap n (again env mapPages) kv :=
  match n, H with
  | 0, H => ⟨H.live, H.pages, hm, no_readers, H.top, H.kv⟩
  | 1, H => ⟨H.live, H.pages, hm, no_readers, H.top, H.leaf, H.leafNo⟩
  | _ + 2, H => ⟨H.live, H.pages, hm, no_readers, H.top, H.leaf, H.leafNo, H.led, H.ledNo⟩

theorem stage_pages {K : List Bytes} {cap n : Nat} {env : Env} {kv : KvMap} (H : Stage K cap n env kv) : 2 ≤ env.filePages :=
  match n, H with
  | 0, H => H.pages
  | 1, H => Nat.le_trans (by decide) H.pages
  | _ + 2, H => Nat.le_trans (by decide) H.pages

theorem stage_live {K : List Bytes} {cap n : Nat} {env : Env} {kv : KvMap} (H : Stage K cap n env kv) : env.live < 2 :=
  match n, H with
  | 0, H => H.live
  | 1, H => H.live
  | _ + 2, H => H.live

/-! ### The commit that fails -/

theorem acts_length {env : Env} {t : Txn} {root free : Nat} (h : t.dirty ≠ []) : 4 ≤ (allActs env t root free).length := by
  have := List.length_pos_iff.2 h
  simp [allActs, writeActs, metaActs]
  omega

theorem commitWith_of {env : Env} {t t1 : Txn} {fuel free i : Nat} (hd : t.dirty ≠ []) (hp : populate (alloc env fuel) env t = .ok (t1, .ok free))
    (hw : ∀ n p, (n, p) ∈ t1.dirty → 2 ≤ n ∧ pgno p = n ∧ WF p) (hu : (t1.dirty.map Prod.fst).Nodup) (hi : i < (allActs env t1 t1.root free).length) :
    commitWith (alloc env fuel) (some i) env t = .ok (.general, { runActs env ((allActs env t1 t1.root free).take i) with locked := false }) := by
  unfold commitWith
  rw [if_neg hd, commitActs_of hp hw hu, Res.ok_bind]
  simp only []
  rw [if_pos hi]

theorem write_in {env : Env} {n : Nat} (h : n < env.filePages) (p : Page) : writeFile env n p = { env with file := fun m => if m = n then p else env.file m } := by
  unfold writeFile growFile
  rw [if_neg (by omega)]

/-- The file operations of a commit in a database of one leaf with a Free DB. -/
theorem worn_acts {K : List Bytes} {cap m : Nat} {env : Env} {kv : KvMap} (W : Worn K cap m env kv) (p3 q : Page) :
    allActs env ⟨false, m + 3, 2, 3, 3, [(3, p3), (2, q)], [2, 3]⟩ 2 3 = [.write 3 p3, .write 2 q, .sync, .write (staleMeta env) (metaPage (m + 3) 2 3 3), .sync] := by
  unfold allActs extendActs writeActs metaActs
  rw [W.top, metaPage_last, if_neg (show ¬ 3 % 2 ^ 64 < 3 by decide)]
  rfl

/-- What the file holds after the failure, by the number of the operation that failed. -/
theorem fail_worn {K : List Bytes} {cap m : Nat} {env : Env} {kv kv' : KvMap} (W : Worn K cap m env kv) (hl : env.locked = false) (hm : m < 185) {q : Page} (hq : Small K cap q kv') (hn : pgno q = 2) (fuel : Nat) {i : Nat} (hi : i < 5) :
    ∃ env', commitWith (alloc { env with locked := true } fuel) (some i) { env with locked := true } (copied (m + 3) 3 3 q) = .ok (.general, env') ∧ env'.locked = false ∧
      (i = 0 → env' = env) ∧
      (1 ≤ i → Stuck K cap m env' (if i = 1 then kv else kv')) ∧
      (i ≤ 3 → env'.file 0 = env.file 0 ∧ env'.file 1 = env.file 1 ∧ env'.live = env.live) := by
  obtain ⟨p3, r1, n1, hp⟩ := W.lock.populate hm
  have ha := worn_acts W.lock p3 q
  refine ⟨_, commitWith_of (by simp [copied]) (hp _ q) (two_pages r1.wf n1 hq.wf hn) (by simp) (by rw [ha]; exact hi), rfl, ?_⟩
  rw [ha]
  have hpg := W.pages
  have hlv := W.live
  have hst := stale_lt { env with locked := true }
  have hne := stale_ne { env with locked := true }
  have hmeta : ∀ f : Nat → Page, f env.live = env.file env.live → f env.live = metaPage (m + 2) 2 3 3 := fun f h => h.trans W.top
  match i, hi with
  | 0, _ => exact ⟨fun _ => unlocked hl, fun h => absurd h (by decide), fun _ => ⟨rfl, rfl, rfl⟩⟩
  | 1, _ =>
    refine ⟨fun h => absurd h (by decide), fun _ => ?_, fun _ => ?_⟩
    all_goals simp only [List.take_succ_cons, List.take_zero, runActs, List.foldl_cons, List.foldl_nil, Act.run]
    all_goals rw [write_in (by exact hpg)]
    · exact ⟨hlv, hpg, W.map, (if_neg (by show env.live ≠ 3; omega)).trans W.top, W.leaf, W.leafNo, r1, n1⟩
    · exact ⟨rfl, rfl, rfl⟩
  | 2, _ =>
    refine ⟨fun h => absurd h (by decide), fun _ => ?_, fun _ => ?_⟩
    all_goals simp only [List.take_succ_cons, List.take_zero, runActs, List.foldl_cons, List.foldl_nil, Act.run]
    all_goals rw [write_in (n := 3) (by exact hpg), write_in (n := 2) (by exact (by omega : 2 < env.filePages))]
    · exact ⟨hlv, hpg, W.map, (if_neg (by show env.live ≠ 2; omega)).trans ((if_neg (by show env.live ≠ 3; omega)).trans W.top), hq, hn, r1, n1⟩
    · exact ⟨rfl, rfl, rfl⟩
  | 3, _ =>
    refine ⟨fun h => absurd h (by decide), fun _ => ?_, fun _ => ?_⟩
    all_goals simp only [List.take_succ_cons, List.take_zero, runActs, List.foldl_cons, List.foldl_nil, Act.run]
    all_goals rw [write_in (n := 3) (by exact hpg), write_in (n := 2) (by exact (by omega : 2 < env.filePages))]
    · exact ⟨hlv, hpg, W.map, (if_neg (by show env.live ≠ 2; omega)).trans ((if_neg (by show env.live ≠ 3; omega)).trans W.top), hq, hn, r1, n1⟩
    · exact ⟨rfl, rfl, rfl⟩
  | 4, _ =>
    refine ⟨fun h => absurd h (by decide), fun _ => ?_, fun h => absurd h (by decide)⟩
    simp only [List.take_succ_cons, List.take_zero, runActs, List.foldl_cons, List.foldl_nil, Act.run]
    rw [write_in (n := 3) (by exact hpg), write_in (n := 2) (by exact (by omega : 2 < env.filePages)), write_in (by exact (by omega : staleMeta { env with locked := true } < env.filePages))]
    refine ⟨hlv, hpg, W.map, ?_, ?_, ?_, ?_, ?_⟩
    · exact (if_neg (fun h => hne h.symm)).trans ((if_neg (by show env.live ≠ 2; omega)).trans ((if_neg (by show env.live ≠ 3; omega)).trans W.top))
    all_goals simp only [] at hst ⊢
    · rw [if_neg (by omega)]; exact hq
    · rw [if_neg (by omega)]; exact hn
    · rw [if_neg (by omega)]; exact r1
    · rw [if_neg (by omega)]; exact n1

/-- When the last operation fails, which comes after the new meta page was written, the file is the one of the complete commit. -/
theorem fail_last {K : List Bytes} {cap m : Nat} {env env' : Env} {kv kv' : KvMap} (W : Worn K cap m env kv) (hm : m < 185) {q : Page} (hq : Small K cap q kv') (hn : pgno q = 2) {fuel : Nat}
    (h : commitWith (alloc { env with locked := true } fuel) (some 4) { env with locked := true } (copied (m + 3) 3 3 q) = .ok (.general, env')) {mapPages : Nat} (hmap : 4 ≤ mapPages) :
    ∃ env3, envOpen env'.file env'.filePages mapPages = .ok (.ok env3) ∧ Worn K cap (m + 1) env3 kv' ∧ env3.locked = false := by
  obtain ⟨p3, r1, n1, hp⟩ := W.lock.populate hm
  have ha := worn_acts W.lock p3 q
  have h1 := commitWith_of (i := 4) (by simp [copied]) (hp (alloc { env with locked := true } fuel) q) (two_pages r1.wf n1 hq.wf hn) (by simp) (by rw [ha]; exact (by decide : 4 < 5))
  rw [h1] at h
  obtain ⟨env2, c1, c2, c3, c4⟩ := commit_worn W.lock hm hq hn fuel
  unfold commit commitWith at c1
  rw [if_neg (by simp [copied]), commitActs_of (hp _ q) (two_pages r1.wf n1 hq.wf hn) (by simp), Res.ok_bind] at c1
  have e1 := (Prod.mk.inj (Res.ok.inj h)).2
  have e2 := (Prod.mk.inj (Res.ok.inj c1)).2
  rw [ha] at e1 e2
  have f1 : env2.file = env'.file := by rw [← e1, ← e2]; rfl
  have f2 : env2.filePages = env'.filePages := by rw [← e1, ← e2]; rfl
  rw [← f1, ← f2]
  exact ⟨again env2 mapPages, open_again c4 (by have := c2.pages; omega) hmap, stage_again (n := m + 2) c2 hmap, rfl⟩

/-- A commit of a database without a Free DB that fails leaves it as it was, or with the new leaf. -/
theorem stopped_first {K : List Bytes} {cap : Nat} {env : Env} {kv kv' : KvMap} (F : First K cap env kv) {q p3 : Page} (hq : Small K cap q kv') (hn : pgno q = 2) (i : Nat) :
    First K cap { runActs { env with locked := true } ((allActs { env with locked := true } ⟨false, 3, 2, 0, 3, [(3, p3), (2, q)], [2]⟩ 2 3).take i) with locked := false } kv ∨
    First K cap { runActs { env with locked := true } ((allActs { env with locked := true } ⟨false, 3, 2, 0, 3, [(3, p3), (2, q)], [2]⟩ 2 3).take i) with locked := false } kv' := by
  generalize hacts : allActs { env with locked := true } ⟨false, 3, 2, 0, 3, [(3, p3), (2, q)], [2]⟩ 2 3 = acts
  have hk := runActs_kept (acts.take i) { env with locked := true }
  have hpg := F.pages
  have hlv := F.live
  have hwr : ∀ n p, Act.write n p ∈ acts.take i → (n = 3 ∨ n = 2 ∧ p = q) ∨ n = staleMeta { env with locked := true } := by
    intro n p h
    have h := List.mem_of_mem_take h
    rw [← hacts] at h
    unfold allActs metaActs at h
    rw [List.mem_append, List.mem_append, mem_writeActs] at h
    rcases h with (h | h) | h
    · exact absurd h mem_extendActs
    · simp only [List.mem_cons, Prod.mk.injEq, List.not_mem_nil, or_false] at h
      rcases h with ⟨h, -⟩ | h
      · exact .inl (.inl h)
      · exact .inl (.inr h)
    · simp at h; exact .inr h.1
  have hst := stale_lt { env with locked := true }
  have hne := stale_ne { env with locked := true }
  have hf : ∀ n, n < 3 → n < (runActs { env with locked := true } (acts.take i)).filePages := fun n h => Nat.lt_of_lt_of_le (by exact (by omega : n < env.filePages)) hk.file
  have htop : (runActs { env with locked := true } (acts.take i)).file env.live = env.file env.live := by
    rcases runActs_page (acts.take i) (hf env.live (by omega)) with ⟨-, h⟩ | ⟨h, -⟩ | ⟨p, h, -⟩
    · exact h
    · have h : env.filePages ≤ env.live := h
      omega
    · rcases hwr _ p h with (h | h) | h
      · omega
      · omega
      · exact absurd h.symm hne
  have mk : ∀ m, Small K cap ((runActs { env with locked := true } (acts.take i)).file 2) m → pgno ((runActs { env with locked := true } (acts.take i)).file 2) = 2 →
      First K cap { runActs { env with locked := true } (acts.take i) with locked := false } m := by
    intro m h1 h2
    refine ⟨?_, hf 2 (by decide), ?_, ?_, ?_, h1, h2⟩
    · show (runActs { env with locked := true } (acts.take i)).live < 2
      rw [hk.live]; exact hlv
    · show 4 ≤ (runActs { env with locked := true } (acts.take i)).mapPages
      rw [hk.map]; exact F.map
    · show oldestReader (runActs { env with locked := true } (acts.take i)).readers = 0
      rw [hk.readers]; exact F.readers
    · show (runActs { env with locked := true } (acts.take i)).file (runActs { env with locked := true } (acts.take i)).live = _
      rw [hk.live]; exact htop.trans F.top
  rcases runActs_page (acts.take i) (hf 2 (by decide)) with ⟨-, h⟩ | ⟨h, -⟩ | ⟨p, h, e⟩
  · exact .inl (mk kv (by rw [h]; exact F.leaf) (by rw [h]; exact F.leafNo))
  · have h : env.filePages ≤ 2 := h
    omega
  · rcases hwr _ p h with (h | ⟨-, h⟩) | h
    · cases h
    · exact .inr (mk kv' (by rw [e, h]; exact hq) (by rw [e, h]; exact hn))
    · omega

/-- A commit of a database without a tree that fails leaves it as it was. -/
theorem stopped_new {env : Env} {kv : KvMap} (N : New env kv) {q : Page} (i : Nat) :
    New { runActs { env with locked := true } ((allActs { env with locked := true } ⟨false, 2, 2, 0, 2, [(2, q)], []⟩ 2 0).take i) with locked := false } kv := by
  generalize hacts : allActs { env with locked := true } ⟨false, 2, 2, 0, 2, [(2, q)], []⟩ 2 0 = acts
  have hk := runActs_kept (acts.take i) { env with locked := true }
  have hpg := N.pages
  have hlv := N.live
  have htop : (runActs { env with locked := true } (acts.take i)).file env.live = env.file env.live := by
    refine untouched _ (by exact (by omega : env.live < env.filePages)) ?_
    intro p h
    have h := List.mem_of_mem_take h
    rw [← hacts] at h
    unfold allActs metaActs at h
    rw [List.mem_append, List.mem_append, mem_writeActs] at h
    rcases h with (h | h) | h
    · exact absurd h mem_extendActs
    · simp only [List.mem_cons, Prod.mk.injEq, List.not_mem_nil, or_false] at h
      omega
    · simp at h; exact stale_ne { env with locked := true } h.1.symm
  refine ⟨?_, Nat.le_trans hpg hk.file, ?_, ?_, ?_, N.kv⟩
  · show (runActs { env with locked := true } (acts.take i)).live < 2
    rw [hk.live]; exact hlv
  · show 4 ≤ (runActs { env with locked := true } (acts.take i)).mapPages
    rw [hk.map]; exact N.map
  · show oldestReader (runActs { env with locked := true } (acts.take i)).readers = 0
    rw [hk.readers]; exact N.readers
  · show (runActs { env with locked := true } (acts.take i)).file (runActs { env with locked := true } (acts.take i)).live = _
    rw [hk.live]; exact htop.trans N.top

end Verif.Db.Wear

namespace Verif.Db

open Verif.Page Wear

/-- One transaction whose commit fails, taken apart. -/
theorem Wear.failing_eq {fuel i : Nat} {env env' : Env} {t t' : Txn} {ops : List KvOp} {sts : List Status} {st : Status} (hb : beginWrite env = some ({ env with locked := true }, t))
    (hs : steps { env with locked := true } fuel t ops = .ok (sts, t')) (hc : commitWith (alloc { env with locked := true } fuel) (some i) { env with locked := true } t' = .ok (st, env')) :
    failing fuel i env ops = .ok (sts, st, env') := by
  unfold failing
  rw [hb]
  simp only []
  rw [hs, Res.ok_bind, hc, Res.ok_bind]

/-- **C129 is false.**  A small database in which 2 to 185 transactions have changed something; a further one changes something, and its commit reports an error after its pages
were written, because one of the three file operations that follow fails.  From then on every transaction that changes something is refused with `APR_EEXIST`, in the same process and, unless it was the very last operation that failed, in all later ones
too.  Lookups give what the failed transaction stored.  (In the model the operations number 0 and 1 write the two pages; in the program their order is that of a hash table, and does not matter here.) -/
theorem commits_refused_forever {mapPages : Nat} {env : Env} (hm : 4 ≤ mapPages) (hc : envCreate mapPages = .ok env) {K : List Bytes} {cap : Nat} (hK : (K.map fun k => 6 + k.length + cap).sum ≤ 4078)
    {ts : List (List KvOp)} {ops : List KvOp} (hw : ∀ o ∈ ts ++ [ops], Within K cap o) (hn : 2 ≤ (story (fun _ => none) ts).2.2) (hn' : (story (fun _ => none) ts).2.2 ≤ 185)
    (hch : (answers (story (fun _ => none) ts).2.1 false ops).2.2 = true) {i : Nat} (h2 : 2 ≤ i) (h5 : i < 5) (fuel : Nat) :
    ∃ env1 env2 kv, transactions (fuel + 2) env ts = .ok ((story (fun _ => none) ts).1, env1) ∧
      failing (fuel + 2) i env1 ops = .ok ((answers (story (fun _ => none) ts).2.1 false ops).1, .general, env2) ∧
      kv = (answers (story (fun _ => none) ts).2.1 false ops).2.1 ∧
      (∀ k fuel', k.length < 65536 → get env2 (readTxn env2) (fuel' + 1) k = .ok (kv.answer k)) ∧
      (∀ us fuel', (∀ o ∈ us, Within K cap o) → transactions fuel' env2 us = .ok (refusals kv us, env2)) ∧
      (i < 4 → ∀ mapPages', 4 ≤ mapPages' → ∃ env3, envOpen env2.file env2.filePages mapPages' = .ok (.ok env3) ∧
        (∀ k fuel', k.length < 65536 → get env3 (readTxn env3) (fuel' + 1) k = .ok (kv.answer k)) ∧
        ∀ us fuel', (∀ o ∈ us, Within K cap o) → transactions fuel' env3 us = .ok (refusals kv us, env3)) := by
  obtain ⟨N, hl, hsel⟩ := create_new hm hc
  obtain ⟨env1, e, hl1, H, hs1⟩ := transactions_stage (fuel := fuel) hK (n := 0) (kv := fun _ => none) N hl (fun o h => hw o (List.mem_append_left _ h)) (by omega)
  obtain ⟨m, hm1⟩ : ∃ m, 0 + (story (fun _ => none) ts).2.2 = m + 2 := ⟨(story (fun _ => none) ts).2.2 - 2, by omega⟩
  rw [hm1] at H
  have W : Worn K cap (m + 1) env1 _ := H
  have hb := begin_at hl1 W.top (by omega) (by decide) (by decide) (by decide)
  obtain ⟨t', es, M⟩ := steps_worn (fuel := fuel + 2) hK W (hw ops (by simp))
  rcases M with ⟨h, -, -⟩ | ⟨-, q, rfl, S, hq⟩
  · rw [hch] at h; cases h
  · obtain ⟨env2, c1, c2, -, c3, c4⟩ := fail_worn W hl1 (by omega) S hq (fuel + 2) h5
    have U := c3 (by omega)
    rw [if_neg (by omega)] at U
    refine ⟨env1, env2, _, e, failing_eq hb es c1, rfl, fun k f hk => get_stuck U hk f, fun us f hu => transactions_stuck hK U (by omega) c2 hu, fun h4 mp hmp => ?_⟩
    obtain ⟨f0, f1, f2⟩ := c4 (by omega)
    have U' := U.again hmp
    refine ⟨again env2 mp, open_again (by rw [f0, f1, f2]; exact hs1 hsel) (by have := U.pages; omega) hmp, fun k f hk => get_stuck U' hk f, fun us f hu => transactions_stuck hK U' (by omega) rfl hu⟩

/-- When everything was synced, only one content of the file is possible. -/
theorem Wear.crash_file {env : Env} {acts : List Act} {file : Nat → Page} (h : Crash env acts file) (hs : synced acts = acts) (hu : unsynced acts = []) : file = (runActs env acts).file := by
  funext n
  by_cases h2 : 2 ≤ n
  · funext b
    rcases h.data n b h2 with h | ⟨p, h, -⟩
    · rw [h, hs]
    · rw [hu] at h; cases h
  · rcases h.head n (by omega) with h | ⟨p, h, -⟩
    · rw [h, hs]
    · rw [hu] at h; cases h

/-- **C129, when the machine stops.**  The same happens when the machine stops during the commit, after the pages were synced and before the meta page was written: whatever the file then holds, opened again
the database gives what the unfinished transaction stored, and refuses every change from then on. -/
theorem crash_freezes_database {mapPages : Nat} {env : Env} (hm : 4 ≤ mapPages) (hc : envCreate mapPages = .ok env) {K : List Bytes} {cap : Nat} (hK : (K.map fun k => 6 + k.length + cap).sum ≤ 4078)
    {ts : List (List KvOp)} {ops : List KvOp} (hw : ∀ o ∈ ts ++ [ops], Within K cap o) (hn : 2 ≤ (story (fun _ => none) ts).2.2) (hn' : (story (fun _ => none) ts).2.2 ≤ 185)
    (hch : (answers (story (fun _ => none) ts).2.1 false ops).2.2 = true) (fuel : Nat) :
    ∃ env1 env2 t t' acts kv, transactions (fuel + 2) env ts = .ok ((story (fun _ => none) ts).1, env1) ∧ beginWrite env1 = some (env2, t) ∧
      steps env2 (fuel + 2) t ops = .ok ((answers (story (fun _ => none) ts).2.1 false ops).1, t') ∧ commitActs (alloc env2 (fuel + 2)) env2 t' = .ok (.ok acts) ∧
      kv = (answers (story (fun _ => none) ts).2.1 false ops).2.1 ∧
      ∀ file, Crash env2 (acts.take 3) file → ∀ mapPages', 4 ≤ mapPages' → ∃ env3, envOpen file (runActs env2 (acts.take 3)).filePages mapPages' = .ok (.ok env3) ∧
        (∀ k fuel', k.length < 65536 → get env3 (readTxn env3) (fuel' + 1) k = .ok (kv.answer k)) ∧
        ∀ us fuel', (∀ o ∈ us, Within K cap o) → transactions fuel' env3 us = .ok (refusals kv us, env3) := by
  obtain ⟨N, hl, hsel⟩ := create_new hm hc
  obtain ⟨env1, e, hl1, H, hs1⟩ := transactions_stage (fuel := fuel) hK (n := 0) (kv := fun _ => none) N hl (fun o h => hw o (List.mem_append_left _ h)) (by omega)
  obtain ⟨m, hm1⟩ : ∃ m, 0 + (story (fun _ => none) ts).2.2 = m + 2 := ⟨(story (fun _ => none) ts).2.2 - 2, by omega⟩
  rw [hm1] at H
  have W : Worn K cap (m + 1) env1 _ := H
  have hb := begin_at hl1 W.top (by omega) (by decide) (by decide) (by decide)
  obtain ⟨t', es, M⟩ := steps_worn (fuel := fuel + 2) hK W (hw ops (by simp))
  rcases M with ⟨h, -, -⟩ | ⟨-, q, rfl, S, hq⟩
  · rw [hch] at h; cases h
  · obtain ⟨p3, r1, n1, hp⟩ := W.lock.populate (by omega)
    have ha := worn_acts W.lock p3 q
    obtain ⟨env2, c1, c2, -, c3, c4⟩ := fail_worn W hl1 (by omega) S hq (fuel + 2) (i := 3) (by decide)
    have c1' := commitWith_of (i := 3) (by simp [copied]) (hp (alloc { env1 with locked := true } (fuel + 2)) q) (two_pages r1.wf n1 S.wf hq) (by simp) (by rw [ha]; exact (by decide : 3 < 5))
    have U := c3 (by decide)
    have he := (Prod.mk.inj (Res.ok.inj (c1'.symm.trans c1))).2
    refine ⟨env1, _, _, _, _, _, e, hb, es, commitActs_of (hp _ q) (two_pages r1.wf n1 S.wf hq) (by simp), rfl, fun file hcr mp hmp => ?_⟩
    have hfile := crash_file hcr (by rw [ha]; rfl) (by rw [ha]; rfl)
    have e1 : env2.file = _ := (congrArg Env.file he).symm
    have e2 : env2.filePages = _ := (congrArg Env.filePages he).symm
    obtain ⟨f0, f1, f2⟩ := c4 (by decide)
    have U' := U.again hmp
    refine ⟨again env2 mp, ?_, fun k f hk => get_stuck U' hk f, fun us f hu => transactions_stuck hK U' (by omega) rfl hu⟩
    rw [hfile]
    refine Eq.trans ?_ (open_again (by rw [f0, f1, f2]; exact hs1 hsel) (by have := U.pages; omega) hmp)
    rw [e1, e2]

/-- **C129.**  When a commit fails in a database in which at most one transaction has changed something yet, or fails with its first file operation, or when its last operation fails and the file is opened
again, nothing is broken: the database holds what it held before or what the transaction stored, and later transactions answer as they should.  (Missing: all other failures, where it is false, and
databases of more than one leaf.) -/
theorem failed_commit_harmless_partial {mapPages : Nat} {env : Env} (hm : 4 ≤ mapPages) (hc : envCreate mapPages = .ok env) {K : List Bytes} {cap : Nat} (hK : (K.map fun k => 6 + k.length + cap).sum ≤ 4078)
    {ts : List (List KvOp)} {ops : List KvOp} (hw : ∀ o ∈ ts ++ [ops], Within K cap o) (hn : (story (fun _ => none) ts).2.2 ≤ 185)
    (hch : (answers (story (fun _ => none) ts).2.1 false ops).2.2 = true) {i : Nat} (fuel : Nat) :
    ∃ env1 env2 st, transactions (fuel + 2) env ts = .ok ((story (fun _ => none) ts).1, env1) ∧
      failing (fuel + 2) i env1 ops = .ok ((answers (story (fun _ => none) ts).2.1 false ops).1, st, env2) ∧
      (i < 4 → st = .general) ∧
      (st = .general → (story (fun _ => none) ts).2.2 ≤ 1 ∨ i = 0 →
        ∃ kv, (kv = (story (fun _ => none) ts).2.1 ∨ kv = (answers (story (fun _ => none) ts).2.1 false ops).2.1) ∧
          ∀ us, (∀ o ∈ us, Within K cap o) → (story (fun _ => none) ts).2.2 + (story kv us).2.2 ≤ 186 → ∀ fuel', ∃ env3, transactions (fuel' + 2) env2 us = .ok ((story kv us).1, env3) ∧
            ∀ k fuel', k.length < 65536 → get env3 (readTxn env3) (fuel' + 1) k = .ok ((story kv us).2.1.answer k)) ∧
      (2 ≤ (story (fun _ => none) ts).2.2 → i = 4 → ∀ mapPages', 4 ≤ mapPages' → ∃ env', envOpen env2.file env2.filePages mapPages' = .ok (.ok env') ∧
          ∀ us, (∀ o ∈ us, Within K cap o) → (story (fun _ => none) ts).2.2 + 1 + (story (answers (story (fun _ => none) ts).2.1 false ops).2.1 us).2.2 ≤ 186 → ∀ fuel',
            ∃ env3, transactions (fuel' + 2) env' us = .ok ((story (answers (story (fun _ => none) ts).2.1 false ops).2.1 us).1, env3) ∧
              ∀ k fuel', k.length < 65536 → get env3 (readTxn env3) (fuel' + 1) k = .ok ((story (answers (story (fun _ => none) ts).2.1 false ops).2.1 us).2.1.answer k)) := by
  obtain ⟨N, hl, hsel⟩ := create_new hm hc
  obtain ⟨env1, e, hl1, H, -⟩ := transactions_stage (fuel := fuel) hK (n := 0) (kv := fun _ => none) N hl (fun o h => hw o (List.mem_append_left _ h)) (by omega)
  rw [Nat.zero_add] at H
  generalize story (fun _ => none) ts = st0 at *
  obtain ⟨sts0, kv0, n⟩ := st0
  simp only [] at *
  have hwo := hw ops (by simp)
  have after : ∀ {n kv env2}, Stage K cap n env2 kv → env2.locked = false → ∀ us, (∀ o ∈ us, Within K cap o) → n + (story kv us).2.2 ≤ 186 → ∀ fuel', ∃ env3,
      transactions (fuel' + 2) env2 us = .ok ((story kv us).1, env3) ∧ ∀ k fuel', k.length < 65536 → get env3 (readTxn env3) (fuel' + 1) k = .ok ((story kv us).2.1.answer k) := by
    intro n kv env2 H hl us hu hn f
    obtain ⟨env3, e, -, H3, -⟩ := transactions_stage (fuel := f) hK H hl hu hn
    exact ⟨env3, e, fun k f hk => get_stage H3 hk f⟩
  match n, H with
  | 0, H =>
    have hb := begin_at hl1 H.top (by decide) (by decide) (by decide) (by decide)
    have hkv := H.kv
    subst hkv
    obtain ⟨t', es, M⟩ := steps_new (env := { env1 with locked := true }) (fuel := fuel) hK hwo
    rcases M with ⟨h, -, -⟩ | ⟨-, q, rfl, S, hq⟩
    · rw [hch] at h; cases h
    · by_cases hi : i < (allActs { env1 with locked := true } ⟨false, 2, 2, 0, 2, [(2, q)], []⟩ 2 0).length
      · have hcm := commitWith_of (i := i) (env := { env1 with locked := true }) (fuel := fuel + 2) (t := ⟨false, 2, 2, 0, 2, [(2, q)], []⟩) (by simp)
          (t1 := ⟨false, 2, 2, 0, 2, [(2, q)], []⟩) (free := 0) (by unfold populate; rw [if_pos rfl]) (one_page S.wf hq) (by simp) hi
        exact ⟨env1, _, _, e, failing_eq hb es hcm, fun _ => rfl, fun _ _ => ⟨_, .inl rfl, after (n := 0) (stopped_new H i) rfl⟩, fun h => absurd h (by decide)⟩
      · have hcm : ∃ env2, commitWith (alloc { env1 with locked := true } (fuel + 2)) (some i) { env1 with locked := true } ⟨false, 2, 2, 0, 2, [(2, q)], []⟩ = .ok (.success, env2) := by
          unfold commitWith
          rw [if_neg (by simp), commitActs_of (t1 := ⟨false, 2, 2, 0, 2, [(2, q)], []⟩) (free := 0) (by unfold populate; rw [if_pos rfl]) (one_page S.wf hq) (by simp), Res.ok_bind]
          simp only []
          rw [if_neg hi]
          exact ⟨_, rfl⟩
        obtain ⟨env2, hcm⟩ := hcm
        exact ⟨env1, env2, .success, e, failing_eq hb es hcm, fun h => absurd (Nat.lt_of_lt_of_le h (acts_length (by simp))) hi, (fun h => by cases h), fun h => absurd h (by decide)⟩
  | 1, H =>
    have hb := begin_at hl1 H.top (by decide) (by decide) (by decide) (by decide)
    obtain ⟨t', es, M⟩ := steps_first (fuel := fuel + 2) hK H hwo
    rcases M with ⟨h, -, -⟩ | ⟨-, q, rfl, S, hq⟩
    · rw [hch] at h; cases h
    · obtain ⟨p3, r1, n1, hpop⟩ := populate_first
      by_cases hi : i < (allActs { env1 with locked := true } ⟨false, 3, 2, 0, 3, [(3, p3), (2, q)], [2]⟩ 2 3).length
      · have hcm := commitWith_of (i := i) (env := { env1 with locked := true }) (fuel := fuel + 2) (t := copied 3 0 2 q) (by simp [copied]) (hpop _ fuel q) (two_pages r1.wf n1 S.wf hq) (by simp) hi
        refine ⟨env1, _, _, e, failing_eq hb es hcm, fun _ => rfl, fun _ _ => ?_, fun h => absurd h (by decide)⟩
        rcases stopped_first (p3 := p3) H S hq i with F | F
        · exact ⟨_, .inl rfl, after (n := 1) F rfl⟩
        · exact ⟨_, .inr rfl, after (n := 1) F rfl⟩
      · have hcm : ∃ env2, commitWith (alloc { env1 with locked := true } (fuel + 2)) (some i) { env1 with locked := true } (copied 3 0 2 q) = .ok (.success, env2) := by
          unfold commitWith
          rw [if_neg (by simp [copied]), commitActs_of (hpop _ fuel q) (two_pages r1.wf n1 S.wf hq) (by simp), Res.ok_bind]
          simp only []
          rw [if_neg hi]
          exact ⟨_, rfl⟩
        obtain ⟨env2, hcm⟩ := hcm
        exact ⟨env1, env2, .success, e, failing_eq hb es hcm, fun h => absurd (Nat.lt_of_lt_of_le h (acts_length (by simp))) hi, (fun h => by cases h), fun h => absurd h (by decide)⟩
  | m + 2, H =>
    have W : Worn K cap (m + 1) env1 _ := H
    have hb := begin_at hl1 W.top (by omega) (by decide) (by decide) (by decide)
    obtain ⟨t', es, M⟩ := steps_worn (fuel := fuel + 2) hK W hwo
    rcases M with ⟨h, -, -⟩ | ⟨-, q, rfl, S, hq⟩
    · rw [hch] at h; cases h
    · by_cases hi : i < 5
      · obtain ⟨env2, c1, c2, c0, -, -⟩ := fail_worn W hl1 (by omega) S hq (fuel + 2) hi
        refine ⟨env1, env2, _, e, failing_eq hb es c1, fun _ => rfl, fun _ h => ?_, fun _ h4 mp hmp => ?_⟩
        · rcases h with h | h
          · omega
          · rw [c0 h]
            exact ⟨_, .inl rfl, after (n := m + 2) H hl1⟩
        · subst h4
          obtain ⟨env3, o, W3, l3⟩ := fail_last W (by omega) S hq c1 hmp
          exact ⟨env3, o, after (n := m + 3) W3 l3⟩
      · obtain ⟨p3, r1, n1, hp⟩ := W.lock.populate (by omega)
        have ha := worn_acts W.lock p3 q
        have hcm : ∃ env2, commitWith (alloc { env1 with locked := true } (fuel + 2)) (some i) { env1 with locked := true } (copied (m + 1 + 3) 3 3 q) = .ok (.success, env2) := by
          unfold commitWith
          rw [if_neg (by simp [copied]), commitActs_of (hp _ q) (two_pages r1.wf n1 S.wf hq) (by simp), Res.ok_bind]
          simp only []
          rw [if_neg (by rw [ha]; exact hi)]
          exact ⟨_, rfl⟩
        obtain ⟨env2, hcm⟩ := hcm
        exact ⟨env1, env2, .success, e, failing_eq hb es hcm, (fun h => by omega), (fun h => by cases h), fun _ h4 => by omega⟩

/-- Three transactions and the failing one, as both theorems have them; and what later ones are told. -/
example : (story (fun _ => none) [[.put [97] [1]], [.put [98] [2]], [.put [97] [3]]]).2.2 = 3 ∧
    (answers (story (fun _ => none) [[.put [97] [1]], [.put [98] [2]], [.put [97] [3]]]).2.1 false [.put [97] [4]]).2.2 = true ∧
    refusals (fun k => if k = [97] then some [4] else none) [[.put [98] [7]], [.del [99]], [.del [97]]] = [([.success], .exist), ([.notfound], .success), ([.success], .exist)] := by
  decide

example : ∀ o ∈ [[KvOp.put [97] [1]], [.put [98] [2]], [.put [97] [3]], [.put [97] [4]], [.put [98] [7]], [.del [99]], [.del [97]]], Within [[97], [98]] 10 o := by
  intro o ho
  simp only [List.mem_cons, List.not_mem_nil, or_false] at ho
  rcases ho with rfl | rfl | rfl | rfl | rfl | rfl | rfl
  all_goals refine ⟨fun k v h => ?_, fun k h => ?_⟩
  all_goals simp at h
  all_goals first | (obtain ⟨rfl, rfl⟩ := h; simp) | (subst h; decide)

/-! ### Closing and opening the file between transactions -/

/-- Programs that one after the other open the database, carry out their transactions and close it. -/
def programs (fuel mapPages : Nat) (env : Env) : List (List (List KvOp)) → Res (Except Status (List (List Status × Status) × Env))
  | [] => .ok (.ok ([], env))
  | ts :: ps => do
    match ← envOpen env.file env.filePages mapPages with
    | .error e => .ok (.error e)
    | .ok env => do
      let a ← transactions fuel env ts
      match ← programs fuel mapPages a.2 ps with
      | .error e => .ok (.error e)
      | .ok r => .ok (.ok (a.1 ++ r.1, r.2))

theorem Wear.story_join : ∀ (ts us : List (List KvOp)) (m : KvMap), story m (ts ++ us) =
    ((story m ts).1 ++ (story (story m ts).2.1 us).1, (story (story m ts).2.1 us).2.1, (story m ts).2.2 + (story (story m ts).2.1 us).2.2) := by
  intro ts
  induction ts with
  | nil => intro us m; simp [story]
  | cons o ts ih =>
    intro us m
    rw [List.cons_append, story_cons, story_cons, ih]
    simp only [List.cons_append]
    cases (answers m false o).2.2
    · rfl
    · simp only [if_true]; congr 2; omega

theorem Wear.programs_stage {K : List Bytes} {cap fuel mapPages : Nat} (hK : need K cap ≤ 4078) (hm : 4 ≤ mapPages) : ∀ {ps : List (List (List KvOp))} {n : Nat} {env : Env} {kv : KvMap},
    Stage K cap n env kv → selectLive (env.file 0) (env.file 1) = some env.live → (∀ ts ∈ ps, ∀ o ∈ ts, Within K cap o) → n + (story kv ps.flatten).2.2 ≤ 186 →
    ∃ env', programs (fuel + 2) mapPages env ps = .ok (.ok ((story kv ps.flatten).1, env')) ∧ Stage K cap (n + (story kv ps.flatten).2.2) env' (story kv ps.flatten).2.1 := by
  intro ps
  induction ps with
  | nil => intro n env kv H _ _ _; exact ⟨env, rfl, H⟩
  | cons ts ps ih =>
    intro n env kv H hs hw hn
    rw [List.flatten_cons, story_join] at hn ⊢
    simp only [] at hn ⊢
    obtain ⟨env1, e1, -, H1, s1⟩ := transactions_stage (fuel := fuel) hK (stage_again H hm) rfl (hw ts List.mem_cons_self) (by omega)
    obtain ⟨env2, e2, H2⟩ := ih H1 (s1 hs) (fun ts h => hw ts (List.mem_cons_of_mem _ h)) (by omega)
    refine ⟨env2, ?_, by rw [← Nat.add_assoc]; exact H2⟩
    rw [programs, open_again hs (stage_pages H) hm, Res.ok_bind]
    simp only []
    rw [e1, Res.ok_bind]
    simp only []
    rw [e2, Res.ok_bind]

/-- **C125, across programs.**  The same when the transactions are spread over any number of programs that open the file one after the other: every transaction answers as it should, and lookups find what was
stored, in this program and in the next, as long as no more than 186 of the transactions change something. -/
theorem small_database_programs_partial {mapPages : Nat} {env : Env} (hm : 4 ≤ mapPages) (hc : envCreate mapPages = .ok env) {K : List Bytes} {cap : Nat} (hK : (K.map fun k => 6 + k.length + cap).sum ≤ 4078)
    {ps : List (List (List KvOp))} (hw : ∀ ts ∈ ps, ∀ o ∈ ts, Within K cap o) (hn : (story (fun _ => none) ps.flatten).2.2 ≤ 186) (fuel : Nat) :
    ∃ env', programs (fuel + 2) mapPages env ps = .ok (.ok ((story (fun _ => none) ps.flatten).1, env')) ∧
      ∀ k fuel', k.length < 65536 → get env' (readTxn env') (fuel' + 1) k = .ok ((story (fun _ => none) ps.flatten).2.1.answer k) := by
  obtain ⟨N, -, hs⟩ := create_new hm hc
  obtain ⟨env', e, H⟩ := programs_stage (fuel := fuel) hK hm (n := 0) (kv := fun _ => none) N hs hw (by omega)
  exact ⟨env', e, fun k fuel' hk => get_stage H hk fuel'⟩

/-- Two programs, the second of which finds what the first one stored. -/
example : (story (fun _ => none) [[[KvOp.put [97] [1]], [.put [98] [2]]], [[.del [97]]]].flatten).1 = [([.success], .success), ([.success], .success), ([.success], .success)] := by
  decide

end Verif.Db
