import Verif.Db.Wear
import Verif.Db.Pile

/-!
# A small database, changed again and again (C125)
-/

namespace Verif.Db

open Verif.Page

/-! ### What is to be expected -/

/-- What the operations of a transaction answer and what the database holds after them.  The flag says whether the transaction has changed something yet: from then on no entry is replaced any more (C48). -/
def answers : KvMap → Bool → List KvOp → List Status × KvMap × Bool
  | m, b, [] => ([], m, b)
  | m, b, .put k v :: ops =>
    if b && (m k).isSome then ((.exist :: (answers m b ops).1), (answers m b ops).2)
    else ((.success :: (answers (m.put k v) true ops).1), (answers (m.put k v) true ops).2)
  | m, b, .del k :: ops =>
    if (m k).isSome then ((.success :: (answers (m.del k) true ops).1), (answers (m.del k) true ops).2)
    else ((.notfound :: (answers m b ops).1), (answers m b ops).2)

/-- The same for transactions in a row, each with the answer of its commit; and how many of them have changed something. -/
def story : KvMap → List (List KvOp) → List (List Status × Status) × KvMap × Nat
  | m, [] => ([], m, 0)
  | m, ops :: ts =>
    let a := answers m false ops
    let r := story a.2.1 ts
    ((a.1, .success) :: r.1, r.2.1, if a.2.2 then r.2.2 + 1 else r.2.2)

/-- Write transactions in a row: begin, the operations, commit. -/
def transactions (fuel : Nat) (env : Env) : List (List KvOp) → Res (List (List Status × Status) × Env)
  | [] => .ok ([], env)
  | ops :: ts =>
    match beginWrite env with
    | none => .div
    | some (env, t) => do
      let a ← steps env fuel t ops
      let c ← commit env fuel a.2
      let r ← transactions fuel c.2 ts
      .ok ((a.1, c.1) :: r.1, r.2)

/-- The operations are about certain keys, with values of limited size. -/
def Within (K : List Bytes) (cap : Nat) (ops : List KvOp) : Prop :=
  (∀ k v, KvOp.put k v ∈ ops → k ∈ K ∧ v.length ≤ cap) ∧ ∀ k, KvOp.del k ∈ ops → k.length < 65536

/-- Three transactions on two keys, as small_database_partial has them: the second one cannot replace two entries. -/
example : (story (fun _ => none) [[.put [97] [1], .put [98] [2]], [.put [97] [3], .put [98] [4], .del [99]], [.del [97], .put [97] [5]]]).1 =
    [([.success, .success], .success), ([.success, .exist, .notfound], .success), ([.success, .success], .success)] := by
  decide

end Verif.Db

namespace Verif.Db.Wear

open Verif.Page Verif.Db.Honest

/-! ### One transaction -/

theorem need_key {K : List Bytes} {cap : Nat} {k : Bytes} (h : k ∈ K) : 6 + k.length + cap ≤ need K cap := by
  have := sum_le (f := fun k => 6 + k.length + cap) (l := [k]) (K := K) (by simp) (by simp [h])
  unfold need
  simpa using this

/-- The transaction has not changed anything yet (`t0`), or its only copy is that of page 2. -/
def Mid (K : List Bytes) (cap id fr last : Nat) (fz : List Nat) (t0 : Txn) (m0 m : KvMap) (b : Bool) (t : Txn) : Prop :=
  (b = false ∧ t = t0 ∧ m = m0) ∨ (b = true ∧ ∃ q, t = ⟨false, id, 2, fr, last, [(2, q)], fz⟩ ∧ Small K cap q m ∧ pgno q = 2)

theorem put_dirty {K : List Bytes} {cap id fr last fuel : Nat} {fz : List Nat} {env : Env} (hK : need K cap ≤ 4078) (hlast : 2 ≤ last) {m : KvMap} {q : Page} (S : Small K cap q m) (hn : pgno q = 2)
    {k v : Bytes} (hk : k ∈ K) (hv : v.length ≤ cap) :
    ((m k).isSome = true → put env fuel ⟨false, id, 2, fr, last, [(2, q)], fz⟩ k v = .ok (.exist, ⟨false, id, 2, fr, last, [(2, q)], fz⟩)) ∧
    ((m k).isSome = false → ∃ q', put env fuel ⟨false, id, 2, fr, last, [(2, q)], fz⟩ k v = .ok (.success, ⟨false, id, 2, fr, last, [(2, q')], fz⟩) ∧ Small K cap q' (m.put k v) ∧ pgno q' = 2) := by
  have h16 := need_key (cap := cap) hk
  obtain ⟨f, hf, hh, -, h2⟩ := small_put hK S hk hv (by omega)
  have hg : getPage env ⟨false, id, 2, fr, last, [(2, q)], fz⟩ 2 = .ok q := rfl
  have e : put env fuel ⟨false, id, 2, fr, last, [(2, q)], fz⟩ k v = putWith (alloc env fuel) env ⟨false, id, 2, fr, last, [(2, q)], fz⟩ k v := rfl
  rw [e]
  unfold putWith
  simp only [Bool.false_eq_true, if_false, if_neg (show ¬ (2 : Nat) = 0 by decide)]
  rw [show maxDepth = 31 + 1 from rfl, findPath_leaf (by exact hlast) hg S.leaf, Res.ok_bind]
  simp only [show ([2] : List Nat).getLastD 0 = 2 from rfl]
  rw [hg, Res.ok_bind, hf, Res.ok_bind]
  constructor
  · intro hs
    rw [hh, hs]; rfl
  · intro hs
    rw [hs] at hh
    obtain ⟨q', e2, n2, S2⟩ := h2 hh
    refine ⟨q', ?_, S2, n2.trans hn⟩
    have hc : cowPath env ⟨false, id, 2, fr, last, [(2, q)], fz⟩ [2].reverse = .ok (2, ⟨false, id, 2, fr, last, [(2, q)], fz⟩) :=
      cowPath_dirty (path := [2]) (by simp) (fun n h => by simp only [List.mem_singleton] at h; subst h; exact ⟨q, rfl⟩)
    rw [hh, if_neg (by simp), hc, Res.ok_bind]
    simp only [Txn.getDirty, List.lookup_cons, beq_self_eq_true, Res.ofOption_some, Res.ok_bind, hh, Bool.false_eq_true, if_false, if_true, e2]
    simp [Txn.setDirty]

theorem put_clean {K : List Bytes} {cap id fr last fuel : Nat} {env : Env} (hK : need K cap ≤ 4078) (hlast : 2 ≤ last) {m : KvMap} {p : Page} (S : Small K cap p m) (hp : mapPage env 2 = .ok p)
    (hn : pgno p = 2) {k v : Bytes} (hk : k ∈ K) (hv : v.length ≤ cap) :
    ∃ q, put env fuel ⟨false, id, 2, fr, last, [], []⟩ k v = .ok (.success, copied id fr last q) ∧ Small K cap q (m.put k v) ∧ pgno q = 2 := by
  have h16 := need_key (cap := cap) hk
  obtain ⟨f, hf, hh, h1, h2⟩ := small_put hK S hk hv (by omega)
  have hg : getPage env ⟨false, id, 2, fr, last, [], []⟩ 2 = .ok p := hp
  have e : put env fuel ⟨false, id, 2, fr, last, [], []⟩ k v = putWith (alloc env fuel) env ⟨false, id, 2, fr, last, [], []⟩ k v := rfl
  rw [e]
  unfold putWith
  simp only [Bool.false_eq_true, if_false, if_neg (show ¬ (2 : Nat) = 0 by decide)]
  rw [show maxDepth = 31 + 1 from rfl, findPath_leaf (by exact hlast) hg S.leaf, Res.ok_bind]
  simp only [show ([2] : List Nat).getLastD 0 = 2 from rfl]
  rw [hg, Res.ok_bind, hf, Res.ok_bind]
  simp only [Txn.getDirty, List.lookup_nil, Option.isSome_none, Bool.and_false, Bool.false_eq_true, if_false]
  have hc : cowPath env ⟨false, id, 2, fr, last, [], []⟩ [2].reverse = .ok (2, ⟨false, id, 2, fr, last, [(2, p)], [2]⟩) := by
    simp only [List.reverse_singleton, cowPath, cow, Txn.getDirty, List.lookup_nil, getWritable, hp, Res.ok_bind, hn, cowAll, Txn.setDirty, List.filter_nil, List.nil_append]
  rw [hc, Res.ok_bind]
  cases hb : f.hit with
  | true =>
    obtain ⟨p1, q, e1, e2, n, S'⟩ := h1 hb
    refine ⟨q, ?_, S', n.trans hn⟩
    simp only [List.lookup_cons, beq_self_eq_true, Res.ofOption_some, Res.ok_bind, if_true, e1, e2]
    simp [Txn.setDirty, copied]
  | false =>
    obtain ⟨q, e2, n, S'⟩ := h2 hb
    refine ⟨q, ?_, S', n.trans hn⟩
    simp only [List.lookup_cons, beq_self_eq_true, Res.ofOption_some, Res.ok_bind, Bool.false_eq_true, if_false, if_true, e2]
    simp [Txn.setDirty, copied]

theorem del_dirty {K : List Bytes} {cap id fr last : Nat} {fz : List Nat} {env : Env} (hlast : 2 ≤ last) {m : KvMap} {q : Page} (S : Small K cap q m) (hn : pgno q = 2) {k : Bytes}
    (h16 : k.length < 65536) :
    ((m k).isSome = true → ∃ q', del env ⟨false, id, 2, fr, last, [(2, q)], fz⟩ k = .ok (.success, ⟨false, id, 2, fr, last, [(2, q')], fz⟩) ∧ Small K cap q' (m.del k) ∧ pgno q' = 2) ∧
    ((m k).isSome = false → del env ⟨false, id, 2, fr, last, [(2, q)], fz⟩ k = .ok (.notfound, ⟨false, id, 2, fr, last, [(2, q)], fz⟩)) := by
  obtain ⟨f, hf, hh, h1⟩ := small_del S h16
  have hg : getPage env ⟨false, id, 2, fr, last, [(2, q)], fz⟩ 2 = .ok q := rfl
  unfold del
  simp only [Bool.false_eq_true, if_false, if_neg (show ¬ (2 : Nat) = 0 by decide)]
  rw [show maxDepth = 31 + 1 from rfl, findPath_leaf (by exact hlast) hg S.leaf, Res.ok_bind]
  simp only [show ([2] : List Nat).getLastD 0 = 2 from rfl]
  rw [hg, Res.ok_bind, hf, Res.ok_bind]
  constructor
  · intro hs
    rw [hs] at hh
    obtain ⟨q', e2, n2, S2⟩ := h1 hh
    refine ⟨q', ?_, S2, n2.trans hn⟩
    have hc : cowPath env ⟨false, id, 2, fr, last, [(2, q)], fz⟩ [2].reverse = .ok (2, ⟨false, id, 2, fr, last, [(2, q)], fz⟩) :=
      cowPath_dirty (path := [2]) (by simp) (fun n h => by simp only [List.mem_singleton] at h; subst h; exact ⟨q, rfl⟩)
    rw [if_pos hh, hc, Res.ok_bind]
    simp only [Txn.getDirty, List.lookup_cons, beq_self_eq_true, Res.ok_bind, e2]
    simp [Txn.setDirty, ofSt]
  · intro hs
    rw [hh, hs, if_neg (by simp)]

theorem del_clean {K : List Bytes} {cap id fr last : Nat} {env : Env} (hlast : 2 ≤ last) {m : KvMap} {p : Page} (S : Small K cap p m) (hp : mapPage env 2 = .ok p) (hn : pgno p = 2) {k : Bytes}
    (h16 : k.length < 65536) :
    ((m k).isSome = true → ∃ q, del env ⟨false, id, 2, fr, last, [], []⟩ k = .ok (.success, copied id fr last q) ∧ Small K cap q (m.del k) ∧ pgno q = 2) ∧
    ((m k).isSome = false → del env ⟨false, id, 2, fr, last, [], []⟩ k = .ok (.notfound, ⟨false, id, 2, fr, last, [], []⟩)) := by
  obtain ⟨f, hf, hh, h1⟩ := small_del S h16
  have hg : getPage env ⟨false, id, 2, fr, last, [], []⟩ 2 = .ok p := hp
  unfold del
  simp only [Bool.false_eq_true, if_false, if_neg (show ¬ (2 : Nat) = 0 by decide)]
  rw [show maxDepth = 31 + 1 from rfl, findPath_leaf (by exact hlast) hg S.leaf, Res.ok_bind]
  simp only [show ([2] : List Nat).getLastD 0 = 2 from rfl]
  rw [hg, Res.ok_bind, hf, Res.ok_bind]
  constructor
  · intro hs
    rw [hs] at hh
    obtain ⟨q, e2, n2, S2⟩ := h1 hh
    refine ⟨q, ?_, S2, n2.trans hn⟩
    have hc : cowPath env ⟨false, id, 2, fr, last, [], []⟩ [2].reverse = .ok (2, ⟨false, id, 2, fr, last, [(2, p)], [2]⟩) := by
      simp only [List.reverse_singleton, cowPath, cow, Txn.getDirty, List.lookup_nil, getWritable, hp, Res.ok_bind, hn, cowAll, Txn.setDirty, List.filter_nil, List.nil_append]
    rw [if_pos hh, hc, Res.ok_bind]
    simp only [Txn.getDirty, List.lookup_cons, beq_self_eq_true, Res.ok_bind, e2]
    simp [Txn.setDirty, ofSt, copied]
  · intro hs
    rw [hh, hs, if_neg (by simp)]

/-- The operations of a transaction on a database of one leaf, or of none. -/
theorem steps_mid {K : List Bytes} {cap id fr last fuel : Nat} {fz : List Nat} {env : Env} (hK : need K cap ≤ 4078) (hlast : 2 ≤ last) {t0 : Txn} {m0 : KvMap}
    (hput : ∀ k v, k ∈ K → v.length ≤ cap → ∃ q, put env fuel t0 k v = .ok (.success, ⟨false, id, 2, fr, last, [(2, q)], fz⟩) ∧ Small K cap q (m0.put k v) ∧ pgno q = 2)
    (hdel : ∀ k, k.length < 65536 → ((m0 k).isSome = true → ∃ q, del env t0 k = .ok (.success, ⟨false, id, 2, fr, last, [(2, q)], fz⟩) ∧ Small K cap q (m0.del k) ∧ pgno q = 2) ∧
      ((m0 k).isSome = false → del env t0 k = .ok (.notfound, t0))) :
    ∀ {ops : List KvOp} {m : KvMap} {b : Bool} {t : Txn}, Mid K cap id fr last fz t0 m0 m b t → Within K cap ops →
      ∃ t', steps env fuel t ops = .ok ((answers m b ops).1, t') ∧ Mid K cap id fr last fz t0 m0 (answers m b ops).2.1 (answers m b ops).2.2 t' := by
  intro ops
  induction ops with
  | nil => intro m b t M _; exact ⟨t, rfl, M⟩
  | cons op ops ih =>
    intro m b t M hw
    have hw' : Within K cap ops := ⟨fun k v h => hw.1 k v (List.mem_cons_of_mem _ h), fun k h => hw.2 k (List.mem_cons_of_mem _ h)⟩
    have go : ∀ {t1 m1 b1 st}, runOp env fuel t op = .ok (st, t1) → Mid K cap id fr last fz t0 m0 m1 b1 t1 →
        ∃ t', steps env fuel t (op :: ops) = .ok (st :: (answers m1 b1 ops).1, t') ∧ Mid K cap id fr last fz t0 m0 (answers m1 b1 ops).2.1 (answers m1 b1 ops).2.2 t' := by
      intro t1 m1 b1 st e M1
      obtain ⟨t', e', M'⟩ := ih M1 hw'
      exact ⟨t', by rw [steps, e, Res.ok_bind, e', Res.ok_bind], M'⟩
    cases op with
    | put k v =>
      obtain ⟨hk, hv⟩ := hw.1 k v List.mem_cons_self
      rw [answers]
      rcases M with ⟨rfl, rfl, rfl⟩ | ⟨rfl, q, rfl, S, hn⟩
      · rw [if_neg (by simp)]
        obtain ⟨q, e, S, hn⟩ := hput k v hk hv
        exact go e (.inr ⟨rfl, q, rfl, S, hn⟩)
      · obtain ⟨h1, h2⟩ := put_dirty (env := env) (fuel := fuel) (id := id) (fr := fr) (fz := fz) hK hlast S hn hk hv
        cases hs : (m k).isSome with
        | true =>
          rw [if_pos (by rfl)]
          exact go (h1 hs) (.inr ⟨rfl, q, rfl, S, hn⟩)
        | false =>
          rw [if_neg (by simp)]
          obtain ⟨q', e, S', hn'⟩ := h2 hs
          exact go e (.inr ⟨rfl, q', rfl, S', hn'⟩)
    | del k =>
      have h16 := hw.2 k List.mem_cons_self
      rw [answers]
      rcases M with ⟨rfl, rfl, rfl⟩ | ⟨rfl, q, rfl, S, hn⟩
      · obtain ⟨h1, h2⟩ := hdel k h16
        cases hs : (m k).isSome with
        | true =>
          rw [if_pos (by rfl)]
          obtain ⟨q', e, S', hn'⟩ := h1 hs
          exact go e (.inr ⟨rfl, q', rfl, S', hn'⟩)
        | false =>
          rw [if_neg (by simp)]
          exact go (h2 hs) (.inl ⟨rfl, rfl, rfl⟩)
      · obtain ⟨h1, h2⟩ := del_dirty (env := env) (id := id) (fr := fr) (fz := fz) hlast S hn h16
        cases hs : (m k).isSome with
        | true =>
          rw [if_pos (by rfl)]
          obtain ⟨q', e, S', hn'⟩ := h1 hs
          exact go e (.inr ⟨rfl, q', rfl, S', hn'⟩)
        | false =>
          rw [if_neg (by simp)]
          exact go (h2 hs) (.inr ⟨rfl, q, rfl, S, hn⟩)

/-! ### The stages of the database -/

/-- The database before anything was stored. -/
structure New (env : Env) (kv : KvMap) : Prop where
  live : env.live < 2
  pages : 2 ≤ env.filePages
  map : 4 ≤ env.mapPages
  readers : oldestReader env.readers = 0
  top : env.liveMeta = metaPage 1 0 1 0
  kv : kv = fun _ => none

/-- The database after the first change. -/
structure First (K : List Bytes) (cap : Nat) (env : Env) (kv : KvMap) : Prop where
  live : env.live < 2
  pages : 3 ≤ env.filePages
  map : 4 ≤ env.mapPages
  readers : oldestReader env.readers = 0
  top : env.liveMeta = metaPage 2 2 2 0
  leaf : Small K cap (env.file 2) kv
  leafNo : pgno (env.file 2) = 2

/-- The database after `n` changes. -/
def Stage (K : List Bytes) (cap : Nat) : Nat → Env → KvMap → Prop
  | 0 => New
  | 1 => First K cap
  | m + 2 => Worn K cap (m + 1)

theorem begin_at {env : Env} (hl : env.locked = false) {a b c d : Nat} (h : env.liveMeta = metaPage a b c d) (ha : a < 2 ^ 63) (hb : b < 2 ^ 64) (hc : c < 2 ^ 64) (hd : d < 2 ^ 64) :
    beginWrite env = some ({ env with locked := true }, ⟨false, a + 1, b, d, c, [], []⟩) := by
  unfold beginWrite
  rw [if_neg (by simp [hl]), h, metaPage_txnid, metaPage_root, metaPage_free, metaPage_last, Nat.mod_eq_of_lt (show a < 2 ^ 64 by omega), Nat.mod_eq_of_lt (show a + 1 < 2 ^ 64 by omega),
    Nat.mod_eq_of_lt hb, Nat.mod_eq_of_lt hc, Nat.mod_eq_of_lt hd]

theorem alloc_fresh {env : Env} {t : Txn} (h : t.freeRoot = 0) (fuel : Nat) : alloc env (fuel + 1) t = .ok (t.newLast + 1, { t with newLast := t.newLast + 1 }) := by
  rw [alloc]
  unfold reclaim
  rw [if_pos h, Res.ok_bind]
  rfl

/-- One transaction, as the first of several. -/
theorem transactions_cons {env env1 env2 : Env} {fuel : Nat} {t t' : Txn} {ops : List KvOp} {sts : List Status} {st : Status} {ts : List (List KvOp)} {r : List (List Status × Status)}
    (hb : beginWrite env = some ({ env with locked := true }, t)) (hs : steps { env with locked := true } fuel t ops = .ok (sts, t'))
    (hc : commit { env with locked := true } fuel t' = .ok (st, env1)) (hr : transactions fuel env1 ts = .ok (r, env2)) :
    transactions fuel env (ops :: ts) = .ok ((sts, st) :: r, env2) := by
  rw [transactions, hb]
  simp only []
  rw [hs, Res.ok_bind, hc, Res.ok_bind, hr, Res.ok_bind]

theorem unlocked {env : Env} (hl : env.locked = false) : { { env with locked := true } with locked := false } = env := by
  obtain ⟨a, b, c, d, e, f⟩ := env
  cases hl; rfl

theorem commit_none {env : Env} {t : Txn} {fuel : Nat} (hl : env.locked = false) (h : t.dirty = []) : commit { env with locked := true } fuel t = .ok (.success, env) := by
  unfold commit commitWith
  rw [if_pos h, unlocked hl]

/-- What one transaction does: the next stage, or the same one. -/
def Turns (K : List Bytes) (cap n fuel : Nat) (env : Env) (kv : KvMap) (ops : List KvOp) : Prop :=
  ∃ t t' env', beginWrite env = some ({ env with locked := true }, t) ∧ steps { env with locked := true } fuel t ops = .ok ((answers kv false ops).1, t') ∧
    commit { env with locked := true } fuel t' = .ok (.success, env') ∧ env'.locked = false ∧
    Stage K cap (if (answers kv false ops).2.2 then n + 1 else n) env' (answers kv false ops).2.1 ∧
    (selectLive (env.file 0) (env.file 1) = some env.live → selectLive (env'.file 0) (env'.file 1) = some env'.live)

theorem small_new {K : List Bytes} {cap : Nat} (hK : need K cap ≤ 4078) {k v : Bytes} (hk : k ∈ K) (hv : v.length ≤ cap) :
    ∃ q, Verif.Page.insert (emptyPage true 2) 0 (.leaf k v) = .ok (.ok, q) ∧ Small K cap q (KvMap.put (fun _ => none) k v) ∧ pgno q = 2 := by
  have S := small_empty K cap (no := 2) (by decide)
  have hi := emptyPage_items true 2 (by decide)
  obtain ⟨q, e, n, S'⟩ := small_insert hK S.wf S.leaf (A := []) (B := []) hi (by exact List.Pairwise.nil) (by simp) (by have := S.full; rw [hi] at this; exact this) hk hv (by simp) (by simp)
    (m := fun _ => none) (by simp)
  exact ⟨q, e, S', n.trans (emptyPage_fields true 2 (by decide)).2.2.2.2⟩

theorem steps_new {K : List Bytes} {cap fuel : Nat} (hK : need K cap ≤ 4078) {env : Env} {ops : List KvOp} (hw : Within K cap ops) :
    ∃ t', steps env (fuel + 2) ⟨false, 2, 0, 0, 1, [], []⟩ ops = .ok ((answers (fun _ => none) false ops).1, t') ∧
      Mid K cap 2 0 2 [] ⟨false, 2, 0, 0, 1, [], []⟩ (fun _ => none) (answers (fun _ => none) false ops).2.1 (answers (fun _ => none) false ops).2.2 t' :=
  steps_mid hK (by decide)
    (fun k v hk hv => by
      obtain ⟨q, e1, S, hn⟩ := small_new hK hk hv
      refine ⟨q, ?_, S, hn⟩
      unfold put putWith
      simp only [Bool.false_eq_true, if_false, if_true]
      unfold newTree
      rw [alloc_fresh rfl, Res.ok_bind]
      simp only []
      rw [e1, Res.ok_bind, if_pos rfl, Res.ok_bind]
      rfl)
    (fun k _ => ⟨(fun h => by cases h), (fun _ => by unfold del; simp only [Bool.false_eq_true, if_false, if_true])⟩)
    (.inl ⟨rfl, rfl, rfl⟩) hw

theorem turn_new {K : List Bytes} {cap fuel : Nat} (hK : need K cap ≤ 4078) {env : Env} {kv : KvMap} (N : New env kv) (hl : env.locked = false) {ops : List KvOp} (hw : Within K cap ops) :
    Turns K cap 0 (fuel + 2) env kv ops := by
  obtain ⟨hlive, hpages, hmap, hread, htop, rfl⟩ := N
  have hb := begin_at hl htop (by decide) (by decide) (by decide) (by decide)
  obtain ⟨t', e, M⟩ := steps_new (env := { env with locked := true }) (fuel := fuel) hK hw
  refine ⟨⟨false, 1 + 1, 0, 0, 1, [], []⟩, t', ?_⟩
  generalize hA : answers (fun _ => none) false ops = A at *
  obtain ⟨sts, m, b⟩ := A
  rcases M with ⟨rfl, rfl, rfl⟩ | ⟨rfl, q, rfl, S, hn⟩
  · exact ⟨env, hb, e, commit_none hl rfl, hl, ⟨hlive, hpages, hmap, hread, htop, rfl⟩, id⟩
  · obtain ⟨env', c1, c2, c3, c4, c5, c6, c7, c8, c9⟩ := commit_of (env := { env with locked := true }) (fuel := fuel + 2) (t := ⟨false, 2, 2, 0, 2, [(2, q)], []⟩) hpages (by simp)
      (t1 := ⟨false, 2, 2, 0, 2, [(2, q)], []⟩) (free := 0) (by unfold populate; rw [if_pos rfl]) (one_page S.wf hn) (by simp)
    obtain ⟨d1, d2⟩ := c8 2 q (by simp)
    exact ⟨env', hb, e, c1, c4, ⟨c3, d2, by rw [c6]; exact hmap, by rw [c5]; exact hread, c2, by rw [d1]; exact S, by rw [d1]; exact hn⟩, fun _ =>
      c9 hlive (by rw [show Env.liveMeta { env with locked := true } = _ from htop]; exact metaPage_valid _ _ _ _) (by rw [show Env.liveMeta { env with locked := true } = _ from htop, metaPage_txnid]; exact (by decide : 1 % 2 ^ 64 < 2 % 2 ^ 64))⟩

theorem ledger_one : (Sheet.empty true).insert 0 (record 3) = some (ledger 1) := rfl

theorem steps_first {K : List Bytes} {cap fuel : Nat} (hK : need K cap ≤ 4078) {env : Env} {kv : KvMap} (F : First K cap env kv) {ops : List KvOp} (hw : Within K cap ops) :
    ∃ t', steps { env with locked := true } fuel ⟨false, 3, 2, 0, 2, [], []⟩ ops = .ok ((answers kv false ops).1, t') ∧
      Mid K cap 3 0 2 [2] ⟨false, 3, 2, 0, 2, [], []⟩ kv (answers kv false ops).2.1 (answers kv false ops).2.2 t' := by
  have hp2 : mapPage { env with locked := true } 2 = .ok (env.file 2) := by
    unfold mapPage
    rw [if_pos ⟨by have := F.map; exact (by omega : 2 < env.mapPages), by have := F.pages; exact (by omega : 2 < env.filePages)⟩]
  exact steps_mid hK (by decide)
    (fun k v hk hv => put_clean hK (by decide) F.leaf hp2 F.leafNo hk hv)
    (fun k h16 => del_clean (by decide) F.leaf hp2 F.leafNo h16)
    (.inl ⟨rfl, rfl, rfl⟩) hw

/-- The first entry of the Free DB. -/
theorem populate_first : ∃ p3, Rep p3 (ledger 1) ∧ pgno p3 = 3 ∧ ∀ (env : Env) (fuel : Nat) (q : Page),
    populate (alloc env (fuel + 2)) env (copied 3 0 2 q) = .ok (⟨false, 3, 2, 0, 3, [(3, p3), (2, q)], [2]⟩, .ok 3) := by
  obtain ⟨p3, e1, r1, n1⟩ := (insert_rep (empty_rep true (no := 3) (by decide)) (i := 0) (Nat.zero_le _) (it := record 3) rfl (by rw [record_size]; decide) (by decide)).2 _ ledger_one
  refine ⟨p3, r1, n1.trans (emptyPage_fields true 3 (by decide)).2.2.2.2, fun env fuel q => ?_⟩
  unfold populate
  rw [if_neg (by simp [copied]), if_pos (by simp [copied])]
  unfold newTree
  rw [alloc_fresh rfl, Res.ok_bind]
  simp only [show (copied 3 0 2 q).freed.flatMap (le 8) = le 8 2 from rfl, show (copied 3 0 2 q).txnid = 3 from rfl, show (copied 3 0 2 q).newLast + 1 = 3 from rfl]
  rw [show Item.leaf (le 8 3) (le 8 2) = record 3 from rfl, e1, Res.ok_bind, if_pos rfl]
  rfl

theorem turn_first {K : List Bytes} {cap fuel : Nat} (hK : need K cap ≤ 4078) {env : Env} {kv : KvMap} (F : First K cap env kv) (hl : env.locked = false) {ops : List KvOp} (hw : Within K cap ops) :
    Turns K cap 1 (fuel + 2) env kv ops := by
  have hb := begin_at hl F.top (by decide) (by decide) (by decide) (by decide)
  obtain ⟨t', e, M⟩ := steps_first (fuel := fuel + 2) hK F hw
  refine ⟨⟨false, 2 + 1, 2, 0, 2, [], []⟩, t', ?_⟩
  generalize hA : answers kv false ops = A at *
  obtain ⟨sts, m, b⟩ := A
  rcases M with ⟨rfl, rfl, rfl⟩ | ⟨rfl, q, rfl, S, hn⟩
  · exact ⟨env, hb, e, commit_none hl rfl, hl, F, id⟩
  · obtain ⟨p3, r1, n1, hpop⟩ := populate_first
    obtain ⟨env', c1, c2, c3, c4, c5, c6, c7, c8, c9⟩ := commit_of (env := { env with locked := true }) (fuel := fuel + 2) (t := copied 3 0 2 q) (by have := F.pages; exact (by omega : 2 ≤ env.filePages)) (by simp [copied]) (hpop _ fuel q) (two_pages r1.wf n1 S.wf hn) (by simp)
    obtain ⟨d2, -⟩ := c8 2 q (by simp)
    obtain ⟨d3, d4⟩ := c8 3 p3 (by simp)
    exact ⟨env', hb, e, c1, c4, ⟨c3, d4, by rw [c6]; exact F.map, by rw [c5]; exact F.readers, c2, by rw [d2]; exact S, by rw [d2]; exact hn, by rw [d3]; exact r1, by rw [d3]; exact n1⟩, fun _ =>
      c9 F.live (by rw [show Env.liveMeta { env with locked := true } = _ from F.top]; exact metaPage_valid _ _ _ _) (by rw [show Env.liveMeta { env with locked := true } = _ from F.top, metaPage_txnid]; exact (by decide : 2 % 2 ^ 64 < 3 % 2 ^ 64))⟩

theorem Worn.lock {K : List Bytes} {cap m : Nat} {env : Env} {kv : KvMap} (W : Worn K cap m env kv) : Worn K cap m { env with locked := true } kv :=
  ⟨W.live, W.pages, W.map, W.readers, W.top, W.leaf, W.leafNo, W.led, W.ledNo⟩

theorem steps_worn {K : List Bytes} {cap m fuel : Nat} (hK : need K cap ≤ 4078) {env : Env} {kv : KvMap} (W : Worn K cap m env kv) {ops : List KvOp} (hw : Within K cap ops) :
    ∃ t', steps { env with locked := true } fuel ⟨false, m + 3, 2, 3, 3, [], []⟩ ops = .ok ((answers kv false ops).1, t') ∧
      Mid K cap (m + 3) 3 3 [2] ⟨false, m + 3, 2, 3, 3, [], []⟩ kv (answers kv false ops).2.1 (answers kv false ops).2.2 t' :=
  steps_mid hK (by decide) (fun k v hk hv => put_clean hK (by decide) W.leaf W.lock.map2 W.leafNo hk hv) (fun k h16 => del_clean (by decide) W.leaf W.lock.map2 W.leafNo h16)
    (.inl ⟨rfl, rfl, rfl⟩) hw

theorem turn_worn {K : List Bytes} {cap n fuel : Nat} (hK : need K cap ≤ 4078) {env : Env} {kv : KvMap} (W : Worn K cap (n + 1) env kv) (hl : env.locked = false) {ops : List KvOp} (hw : Within K cap ops)
    (hn : (answers kv false ops).2.2 = true → n < 184) : Turns K cap (n + 2) fuel env kv ops := by
  by_cases h63 : n + 3 < 2 ^ 63
  · have hb := begin_at hl W.top h63 (by decide) (by decide) (by decide)
    obtain ⟨t', e, M⟩ := steps_worn (fuel := fuel) hK W hw
    refine ⟨⟨false, n + 3 + 1, 2, 3, 3, [], []⟩, t', ?_⟩
    generalize hA : answers kv false ops = A at *
    obtain ⟨sts, m, b⟩ := A
    rcases M with ⟨rfl, rfl, rfl⟩ | ⟨rfl, q, rfl, S, hq⟩
    · exact ⟨env, hb, e, commit_none hl rfl, hl, W, id⟩
    · obtain ⟨env', c1, c2, c3, c4⟩ := commit_worn W.lock (by have := hn rfl; omega) S hq fuel
      exact ⟨env', hb, e, c1, c3, c2, fun _ => c4⟩
  · exfalso
    have h := W.led.wf
    have h1 := h.low
    have h2 := h.gap
    have h3 := h.top
    rw [W.led.len] at h1
    simp only [ledger, List.length_map, List.length_range, hdrSize, pageSize] at h1 h3
    omega

theorem turn {K : List Bytes} {cap n fuel : Nat} (hK : need K cap ≤ 4078) {env : Env} {kv : KvMap} (H : Stage K cap n env kv) (hl : env.locked = false) {ops : List KvOp} (hw : Within K cap ops)
    (hn : (answers kv false ops).2.2 = true → n < 186) : Turns K cap n (fuel + 2) env kv ops :=
  match n, H, hn with
  | 0, H, _ => turn_new hK H hl hw
  | 1, H, _ => turn_first hK H hl hw
  | _ + 2, H, hn => turn_worn hK H hl hw (fun h => by have := hn h; omega)

theorem story_cons (m : KvMap) (ops : List KvOp) (ts : List (List KvOp)) : story m (ops :: ts) =
    (((answers m false ops).1, .success) :: (story (answers m false ops).2.1 ts).1, (story (answers m false ops).2.1 ts).2.1,
      if (answers m false ops).2.2 then (story (answers m false ops).2.1 ts).2.2 + 1 else (story (answers m false ops).2.1 ts).2.2) := rfl

theorem transactions_stage {K : List Bytes} {cap fuel : Nat} (hK : need K cap ≤ 4078) : ∀ {ts : List (List KvOp)} {n : Nat} {env : Env} {kv : KvMap}, Stage K cap n env kv → env.locked = false →
    (∀ ops ∈ ts, Within K cap ops) → n + (story kv ts).2.2 ≤ 186 →
    ∃ env', transactions (fuel + 2) env ts = .ok ((story kv ts).1, env') ∧ env'.locked = false ∧ Stage K cap (n + (story kv ts).2.2) env' (story kv ts).2.1 ∧
      (selectLive (env.file 0) (env.file 1) = some env.live → selectLive (env'.file 0) (env'.file 1) = some env'.live) := by
  intro ts
  induction ts with
  | nil => intro n env kv H hl _ _; exact ⟨env, rfl, hl, H, id⟩
  | cons ops ts ih =>
    intro n env kv H hl hw hn
    rw [story_cons] at hn ⊢
    obtain ⟨t, t', env1, hb, hs, hc, hl1, H1, s1⟩ := turn (fuel := fuel) hK H hl (hw ops List.mem_cons_self) (fun h => by rw [h] at hn; simp only [if_true] at hn; omega)
    have hn1 : (if (answers kv false ops).2.2 then n + 1 else n) + (story (answers kv false ops).2.1 ts).2.2 =
        n + (if (answers kv false ops).2.2 then (story (answers kv false ops).2.1 ts).2.2 + 1 else (story (answers kv false ops).2.1 ts).2.2) := by
      cases (answers kv false ops).2.2
      · rfl
      · simp only [if_true]; omega
    obtain ⟨env2, hr, hl2, H2, s2⟩ := ih H1 hl1 (fun o ho => hw o (List.mem_cons_of_mem _ ho)) (by rw [hn1]; exact hn)
    exact ⟨env2, transactions_cons hb hs hc hr, hl2, by rw [← hn1]; exact H2, fun h => s2 (s1 h)⟩

/-! ### One change too many -/

/-- What is left after the Free DB has been split. -/
structure Ruined (env : Env) : Prop where
  live : env.live < 2
  pages : 4 ≤ env.filePages
  map : 4 ≤ env.mapPages
  top : env.liveMeta = metaPage 188 2 3 2
  root : Rep (env.file 2) loop
  low : Rep (env.file 3) (spent.left.delete 0)

theorem turn_last {K : List Bytes} {cap fuel : Nat} (hK : need K cap ≤ 4078) {env : Env} {kv : KvMap} (W : Worn K cap 185 env kv) (hl : env.locked = false) {ops : List KvOp} (hw : Within K cap ops)
    (hch : (answers kv false ops).2.2 = true) :
    ∃ t t' env', beginWrite env = some ({ env with locked := true }, t) ∧ steps { env with locked := true } (fuel + 2) t ops = .ok ((answers kv false ops).1, t') ∧
      commit { env with locked := true } (fuel + 2) t' = .ok (.success, env') ∧ Ruined env' := by
  have hb := begin_at hl W.top (by decide) (by decide) (by decide) (by decide)
  obtain ⟨t', e, M⟩ := steps_worn (fuel := fuel + 2) hK W hw
  refine ⟨⟨false, 187 + 1, 2, 3, 3, [], []⟩, t', ?_⟩
  generalize hA : answers kv false ops = A at *
  obtain ⟨sts, m, b⟩ := A
  rcases M with ⟨rfl, rfl, rfl⟩ | ⟨rfl, q, rfl, hq, hn⟩
  · cases hch
  obtain ⟨br, p3, e1, r1, n1, r2, n2⟩ := split_last W.lock q fuel
  have hpop : populate (alloc { env with locked := true } (fuel + 2)) { env with locked := true } (copied 188 3 3 q) = .ok (⟨false, 188, 2, 3, 3, [(2, br), (3, p3)], [2, 3]⟩, .ok 2) := by
    have hi := (insert_rep W.led (i := 185) (by simp [ledger]) (it := record 188) rfl (by rw [record_size]; decide) (by decide)).1 ledger_full
    rw [populate_copied, insertFree_one W.lock.map3 W.led.kind W.ledNo (by rw [show ({ env with locked := true } : Env).file = env.file from rfl, probe_rep W.led (by simp), ledger_probe (by decide)]) hi]
    exact e1
  obtain ⟨env', c1, c2, c3, c4, c5, c6, c7, c8, c9⟩ := commit_of (by have := W.pages; exact (by omega : 2 ≤ env.filePages)) (by simp [copied]) hpop (fun n p h => by
    simp only [List.mem_cons, Prod.mk.injEq, List.not_mem_nil, or_false] at h
    rcases h with ⟨rfl, rfl⟩ | ⟨rfl, rfl⟩
    · exact ⟨by omega, n1, r1.wf⟩
    · exact ⟨by omega, n2, r2.wf⟩) (by simp)
  obtain ⟨d2, -⟩ := c8 2 br (by simp)
  obtain ⟨d3, -⟩ := c8 3 p3 (by simp)
  exact ⟨env', hb, e, c1, c3, by have := W.pages; exact Nat.le_trans this c7, by rw [c6]; exact W.map, c2, by rw [d2]; exact r1, by rw [d3]; exact r2⟩

/-! ### Lookups -/

theorem get_small {K : List Bytes} {cap : Nat} {env : Env} {kv : KvMap} (hr : metaRoot env.liveMeta = 2) (h2 : mapPage env 2 = .ok (env.file 2)) (S : Small K cap (env.file 2) kv) {k : Bytes}
    (hk : k.length < 65536) (fuel : Nat) : get env (readTxn env) (fuel + 1) k = .ok (kv.answer k) := by
  unfold get
  rw [show (readTxn env).root = 2 from hr, if_neg (by decide), findLeaf]
  show (mapPage env 2 >>= _) >>= _ = _
  rw [h2, Res.ok_bind, if_pos S.leaf, Res.ok_bind]
  simp only []
  obtain ⟨f, hf, h⟩ := small_get S hk
  rw [hf, Res.ok_bind]
  unfold KvMap.answer
  rcases h with ⟨i, rfl, hm⟩ | ⟨i, v, rfl, hm, hn⟩
  · rw [hm]
  · rw [hm]
    simp only []
    rw [hn, Res.ok_bind]

theorem get_stage {K : List Bytes} {cap n : Nat} {env : Env} {kv : KvMap} (H : Stage K cap n env kv) {k : Bytes} (hk : k.length < 65536) (fuel : Nat) :
    get env (readTxn env) (fuel + 1) k = .ok (kv.answer k) := by
  match n, H with
  | 0, H =>
    rw [H.kv]
    unfold get
    rw [if_pos (by show metaRoot env.liveMeta = 0; rw [H.top, metaPage_root])]
    rfl
  | 1, H =>
    refine get_small (by rw [H.top, metaPage_root]) ?_ H.leaf hk fuel
    unfold mapPage
    rw [if_pos ⟨by have := H.map; omega, by have := H.pages; omega⟩]
  | n + 2, H => exact get_small (by rw [H.top, metaPage_root]) H.map2 H.leaf hk fuel

/-- In the ruined database, a key below the separator leads to the Free DB, any other key leads back to the root. -/
theorem loop_child {p : Page} (R : Rep p loop) {k : Bytes} (hk : k.length < 65536) :
    ∃ i, childIdx p k = .ok i ∧ child p i = .ok (if k < le 8 96 then 3 else 2) := by
  unfold childIdx
  rw [probe_rep R hk, Res.ok_bind, R.len]
  unfold Sheet.probe
  rw [show loop.its.map Item.key = [le 8 5, le 8 96] from rfl, show loop.its.length = 2 from rfl]
  simp only [bsearch, show (0 + (2 - 0) / 2) = 1 from rfl, show (0 : Nat) < 2 from by decide, if_true]
  rw [show ([le 8 5, le 8 96] : List Bytes).getD 1 [] = le 8 96 from rfl]
  cases hc : keyCompare k (le 8 96) with
  | eq =>
    have hn : ¬ k < le 8 96 := by
      intro h; rw [(keyCompare_lt _ _).2 h] at hc; cases hc
    exact ⟨1, rfl, by rw [if_neg hn]; exact child_rep R (i := 1) (it := .branch (le 8 96) 2) rfl rfl⟩
  | gt =>
    have hn : ¬ k < le 8 96 := by
      intro h; rw [(keyCompare_lt _ _).2 h] at hc; cases hc
    exact ⟨1, rfl, by rw [if_neg hn]; exact child_rep R (i := 1) (it := .branch (le 8 96) 2) rfl rfl⟩
  | lt =>
    have hn := (keyCompare_lt _ _).1 hc
    refine ⟨0, ?_, by rw [if_pos hn]; exact child_rep R (i := 0) (it := .branch (le 8 5) 3) rfl rfl⟩
    simp only [show (0 : Nat) < 1 from by decide, if_true]
    cases keyCompare k (([le 8 5, le 8 96] : List Bytes).getD (0 + (1 - 0) / 2) []) <;> rfl

theorem get_ruined {env : Env} (U : Ruined env) {k : Bytes} (hk : k.length < 65536) :
    (le 8 96 ≤ k → ∀ fuel, get env (readTxn env) fuel k = .div) ∧ (k < le 8 96 → k.length ≠ 8 → ∀ fuel, get env (readTxn env) (fuel + 2) k = .ok (.error .notfound)) := by
  have h2 : getPage env (readTxn env) 2 = .ok (env.file 2) := by
    show mapPage env 2 = _
    unfold mapPage
    rw [if_pos ⟨by have := U.map; omega, by have := U.pages; omega⟩]
  have h3 : getPage env (readTxn env) 3 = .ok (env.file 3) := by
    show mapPage env 3 = _
    unfold mapPage
    rw [if_pos ⟨by have := U.map; omega, by have := U.pages; omega⟩]
  have hr : (readTxn env).root = 2 := by
    show metaRoot env.liveMeta = 2
    rw [U.top, metaPage_root]
  have hl : isLeaf (env.file 2) = false := U.root.kind
  have hb : isBranch (env.file 2) = true := U.root.wf.not_leaf hl
  obtain ⟨i, hi, hc⟩ := loop_child U.root hk
  have hstep : ∀ fuel, findLeaf env (readTxn env) k (fuel + 1) 2 = findLeaf env (readTxn env) k fuel (if k < le 8 96 then 3 else 2) := by
    intro fuel
    rw [findLeaf, h2, Res.ok_bind, if_neg (by rw [hl]; decide), if_neg (by rw [hb]; decide), hi, Res.ok_bind, hc, Res.ok_bind]
  constructor
  · intro hge fuel
    have hnl : ¬ k < le 8 96 := fun h => absurd hge (by simpa using h)
    have : ∀ fuel, findLeaf env (readTxn env) k fuel 2 = .div := by
      intro fuel
      induction fuel with
      | zero => rfl
      | succ fuel ih => rw [hstep, if_neg hnl]; exact ih
    unfold get
    rw [hr, if_neg (by decide), this]; rfl
  · intro hlt h8 fuel
    have hlf : isLeaf (env.file 3) = true := U.low.kind
    unfold get
    rw [hr, if_neg (by decide), hstep, if_pos hlt, findLeaf, h3, Res.ok_bind, if_pos hlf, Res.ok_bind]
    simp only []
    have hpr := probe_rep U.low hk
    cases hf : (spent.left.delete 0).probe k with
    | notFound j => rw [hpr, hf]; rfl
    | found j =>
      rw [hf] at hpr
      obtain ⟨hlt, he⟩ := (probe_any U.low.wf hpr).2 j rfl
      rw [Nat.mod_eq_of_lt hk, List.take_length] at he
      refine absurd ?_ h8
      rw [← he]
      exact spent_facts.2.2.2.2.2.2.2.2.2.2.2.2.2 _ (by rw [← U.low.its]; exact List.getElem_mem _)

theorem low_found : ∀ n < 96, 5 ≤ n → (spent.left.delete 0).probe (le 8 n) = .found (n - 5) ∧ (spent.left.delete 0).its[n - 5]? = some (record n) := by
  decide +kernel

/-- Entries of the Free DB are found under their keys. -/
theorem get_never_stored {env : Env} (U : Ruined env) {b : UInt8} (h1 : 5 ≤ b.toNat) (h2 : b.toNat < 96) (fuel : Nat) :
    get env (readTxn env) (fuel + 2) [b, 0, 0, 0, 0, 0, 0, 0] = .ok (.ok [2, 0, 0, 0, 0, 0, 0, 0]) := by
  have hb : ([b, 0, 0, 0, 0, 0, 0, 0] : Bytes) = le 8 b.toNat := by
    obtain ⟨b⟩ := b
    revert b
    decide +kernel
  have hk : (le 8 b.toNat).length < 65536 := by rw [le8]; decide
  have hlt : le 8 b.toNat < le 8 96 := by
    have : ∀ n < 96, le 8 n < le 8 96 := by decide +kernel
    exact this _ h2
  obtain ⟨hpr, hit⟩ := low_found _ h2 h1
  have hm2 : getPage env (readTxn env) 2 = .ok (env.file 2) := by
    show mapPage env 2 = _
    unfold mapPage
    rw [if_pos ⟨by have := U.map; omega, by have := U.pages; omega⟩]
  have hm3 : getPage env (readTxn env) 3 = .ok (env.file 3) := by
    show mapPage env 3 = _
    unfold mapPage
    rw [if_pos ⟨by have := U.map; omega, by have := U.pages; omega⟩]
  have hr : (readTxn env).root = 2 := by
    show metaRoot env.liveMeta = 2
    rw [U.top, metaPage_root]
  have hl : isLeaf (env.file 2) = false := U.root.kind
  have hbr : isBranch (env.file 2) = true := U.root.wf.not_leaf hl
  have hlf : isLeaf (env.file 3) = true := U.low.kind
  obtain ⟨i, hi, hc⟩ := loop_child U.root hk
  rw [if_pos hlt] at hc
  unfold get
  rw [hr, if_neg (by decide), hb, findLeaf, hm2, Res.ok_bind, if_neg (by rw [hl]; decide), if_neg (by rw [hbr]; decide), hi, Res.ok_bind, hc, Res.ok_bind, findLeaf, hm3, Res.ok_bind, if_pos hlf,
    Res.ok_bind]
  simp only []
  rw [probe_rep U.low hk, hpr, Res.ok_bind]
  simp only []
  rw [leafNode_spec U.low.wf hlf (kv := (le 8 b.toNat, le 8 2)) (by unfold kvs; rw [U.low.its, List.getElem?_map, hit]; rfl), Res.ok_bind]
  rfl

end Verif.Db.Wear

namespace Verif.Db

open Verif.Page Wear

theorem Wear.create_new {mapPages : Nat} {env : Env} (hm : 4 ≤ mapPages) (hc : envCreate mapPages = .ok env) : New env (fun _ => none) ∧ env.locked = false ∧ selectLive (env.file 0) (env.file 1) = some env.live := by
  unfold envCreate at hc
  rw [if_neg (by omega)] at hc
  cases hc
  exact ⟨⟨show 1 < 2 by decide, Nat.le_refl 2, hm, by show oldestReader (List.replicate maxReaders noSlot) = 0; decide +kernel, rfl, rfl⟩, rfl, by show selectLive (metaPage 0 0 1 0) (metaPage 1 0 1 0) = some 1; decide +kernel⟩

theorem Wear.transactions_append {fuel : Nat} {env1 env2 : Env} {us : List (List KvOp)} {b : List (List Status × Status)} (h2 : transactions fuel env1 us = .ok (b, env2)) :
    ∀ {ts : List (List KvOp)} {env : Env} {a : List (List Status × Status)}, transactions fuel env ts = .ok (a, env1) → transactions fuel env (ts ++ us) = .ok (a ++ b, env2) := by
  intro ts
  induction ts with
  | nil => intro env a h1; cases h1; exact h2
  | cons ops ts ih =>
    intro env a h1
    rw [transactions] at h1
    rw [List.cons_append, transactions]
    cases hb : beginWrite env with
    | none => rw [hb] at h1; cases h1
    | some x =>
      rw [hb] at h1
      simp only [] at h1 ⊢
      obtain ⟨s, e1, h1⟩ := Res.bind_eq_ok.1 h1
      obtain ⟨c, e2, h1⟩ := Res.bind_eq_ok.1 h1
      obtain ⟨r, e3, h1⟩ := Res.bind_eq_ok.1 h1
      cases h1
      rw [e1, Res.ok_bind, e2, Res.ok_bind, ih e3, Res.ok_bind]
      rfl

theorem Wear.story_append (ops : List KvOp) : ∀ (ts : List (List KvOp)) (m : KvMap), (story m (ts ++ [ops])).1 = (story m ts).1 ++ [((answers (story m ts).2.1 false ops).1, .success)] := by
  intro ts
  induction ts with
  | nil => intro m; rfl
  | cons o ts ih => intro m; rw [List.cons_append, story_cons, story_cons]; simp only []; rw [ih]; rfl

/-- Transactions of one `put` each: all succeed, all count, and the value stored last is there. -/
theorem Wear.story_puts : ∀ (l : List (Bytes × Bytes)) (m : KvMap), (story m (l.map fun e => [.put e.1 e.2])).1 = List.replicate l.length ([.success], .success) ∧
    (story m (l.map fun e => [.put e.1 e.2])).2.2 = l.length ∧ (story m (l.map fun e => [.put e.1 e.2])).2.1 = l.foldl (fun m e => m.put e.1 e.2) m := by
  intro l
  induction l with
  | nil => intro m; exact ⟨rfl, rfl, rfl⟩
  | cons e l ih =>
    intro m
    obtain ⟨h1, h2, h3⟩ := ih (m.put e.1 e.2)
    rw [List.map_cons, story_cons]
    have ha : answers m false [.put e.1 e.2] = ([.success], m.put e.1 e.2, true) := rfl
    simp only [ha]
    exact ⟨by rw [h1]; rfl, by rw [h2]; rfl, by rw [h3]; rfl⟩

/-- **C125.**  In a new database whose entries together fit one page, any transactions answer as they should, and lookups find what was stored, as long as no more than 186 of the transactions change something.
(Missing: more than that, where it is false.) -/
theorem small_database_partial {mapPages : Nat} {env : Env} (hm : 4 ≤ mapPages) (hc : envCreate mapPages = .ok env) {K : List Bytes} {cap : Nat} (hK : (K.map fun k => 6 + k.length + cap).sum ≤ 4078)
    {ts : List (List KvOp)} (hw : ∀ ops ∈ ts, Within K cap ops) (hn : (story (fun _ => none) ts).2.2 ≤ 186) (fuel : Nat) :
    ∃ env', transactions (fuel + 2) env ts = .ok ((story (fun _ => none) ts).1, env') ∧
      ∀ k fuel', k.length < 65536 → get env' (readTxn env') (fuel' + 1) k = .ok ((story (fun _ => none) ts).2.1.answer k) := by
  obtain ⟨N, hl, -⟩ := create_new hm hc
  obtain ⟨env', e, -, H, -⟩ := transactions_stage (fuel := fuel) hK (n := 0) (kv := fun _ => none) N hl hw (by omega)
  exact ⟨env', e, fun k fuel' hk => get_stage H hk fuel'⟩

/-- **C125 is false beyond that.**  The transaction that changes something for the 187th time answers like all the others, and the database is ruined: a lookup does not end if the key is
`[96, 0, 0, 0, 0, 0, 0, 0]` or greater, and otherwise finds nothing unless the key has eight bytes; and under keys of eight bytes values are found that were never stored. -/
theorem small_database_ruined {mapPages : Nat} {env : Env} (hm : 4 ≤ mapPages) (hc : envCreate mapPages = .ok env) {K : List Bytes} {cap : Nat} (hK : (K.map fun k => 6 + k.length + cap).sum ≤ 4078)
    {ts : List (List KvOp)} {ops : List KvOp} (hw : ∀ o ∈ ts ++ [ops], Within K cap o) (hn : (story (fun _ => none) ts).2.2 = 186) (hch : (answers (story (fun _ => none) ts).2.1 false ops).2.2 = true)
    (fuel : Nat) :
    ∃ env', transactions (fuel + 2) env (ts ++ [ops]) = .ok ((story (fun _ => none) (ts ++ [ops])).1, env') ∧
      (∀ k fuel', k.length < 65536 → [96, 0, 0, 0, 0, 0, 0, 0] ≤ k → get env' (readTxn env') fuel' k = .div) ∧
      (∀ k fuel', k.length < 65536 → k < [96, 0, 0, 0, 0, 0, 0, 0] → k.length ≠ 8 → get env' (readTxn env') (fuel' + 2) k = .ok (.error .notfound)) ∧
      (∀ b fuel', 5 ≤ b.toNat → b.toNat < 96 → get env' (readTxn env') (fuel' + 2) [b, 0, 0, 0, 0, 0, 0, 0] = .ok (.ok [2, 0, 0, 0, 0, 0, 0, 0])) := by
  obtain ⟨N, hl, -⟩ := create_new hm hc
  obtain ⟨env1, e, hl1, H, -⟩ := transactions_stage (fuel := fuel) hK (n := 0) (kv := fun _ => none) N hl (fun o h => hw o (List.mem_append_left _ h)) (by omega)
  rw [hn] at H
  obtain ⟨t, t', env', hb, hs, hcm, U⟩ := turn_last (fuel := fuel) hK (show Worn K cap 185 env1 _ from H) hl1 (hw ops (by simp)) hch
  refine ⟨env', ?_, fun k f hk h => (get_ruined U hk).1 h f, fun k f hk h h8 => (get_ruined U hk).2 h h8 f, fun b f h1 h2 => get_never_stored U h1 h2 f⟩
  rw [story_append]
  exact transactions_append (transactions_cons hb hs hcm (ts := []) (r := []) rfl) e

/-- One key of one byte, stored 187 times with values of one byte, in a database whose map has 256 pages: all calls succeed, the key is looked up forever, and another one is found that was never stored (which is why
C124 is about keys that do not have eight bytes). -/
theorem unstored_value_found : ∃ env env' sts, envCreate 256 = .ok env ∧ transactions 2 env (List.replicate 187 [.put [97] [1]]) = .ok (sts, env') ∧ (∀ s ∈ sts, s = ([.success], .success)) ∧
    (∀ fuel, get env' (readTxn env') fuel [97] = .div) ∧ ∀ fuel, get env' (readTxn env') (fuel + 2) [5, 0, 0, 0, 0, 0, 0, 0] = .ok (.ok [2, 0, 0, 0, 0, 0, 0, 0]) := by
  have h : List.replicate 187 [KvOp.put [97] [1]] = (List.replicate 186 ([97], [1])).map (fun e => [KvOp.put e.1 e.2]) ++ [[.put [97] [1]]] := by
    rw [List.map_replicate, show 187 = 186 + 1 from rfl, List.replicate_succ']
  obtain ⟨h1, h2, -⟩ := story_puts (List.replicate 186 ([97], [1])) (fun _ => none)
  obtain ⟨env', e, h3, -, h4⟩ := small_database_ruined (mapPages := 256) (by decide) rfl (K := [[97]]) (cap := 1) (by decide) (ops := [.put [97] [1]]) (fun o ho => by
    rw [← h] at ho
    rw [List.eq_of_mem_replicate ho]
    refine ⟨fun k v hkv => ?_, fun k hk => ?_⟩
    · simp only [List.mem_singleton, KvOp.put.injEq] at hkv
      obtain ⟨rfl, rfl⟩ := hkv
      decide
    · simp at hk) (by rw [h2, List.length_replicate]) rfl 0
  refine ⟨_, env', _, rfl, by rw [h]; exact e, ?_, fun fuel => h3 _ fuel (by decide) (by decide), fun fuel => h4 5 fuel (by decide) (by decide)⟩
  rw [story_append, h1]
  intro s hs
  rcases List.mem_append.1 hs with hs | hs
  · exact List.eq_of_mem_replicate hs
  · simp only [List.mem_singleton] at hs
    exact hs

/-- Three transactions on two keys, as small_database_partial has them: the second one cannot replace two entries. -/
example : (story (fun _ => none) [[.put [97] [1], .put [98] [2]], [.put [97] [3], .put [98] [4], .del [99]], [.del [97], .put [97] [5]]]).1 =
    [([.success, .success], .success), ([.success, .exist, .notfound], .success), ([.success, .success], .success)] := by
  decide

end Verif.Db
