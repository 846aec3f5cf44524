import Verif.Cache.Props
import Verif.Db.LockProps

/-!
# Property theorems for the cache: C60, and histories of cache operations
-/

namespace Verif.Cache

open Verif.Page Verif.Db

/-- What a lookup of a path is to answer in a cache with the given entries: the record, if there is
one of the right size; `general` if the value is no record; `notfound` otherwise. -/
def answer (m : KvMap) (path : Bytes) : Except Status Bytes :=
  match m path with
  | none => .error .notfound
  | some v => if v.length = 40 then .ok v else .error .general

/-- All values are records. -/
def Records (m : KvMap) : Prop := ∀ k v, m k = some v → v.length = 40

theorem lookup_of_get {c : Cache} {t : Txn} {m : KvMap} {fuel : Nat} {path : Bytes} (ht : c.txn = some t)
    (h : get c.env t fuel path = .ok (m.answer path)) : lookup c fuel path = .ok (answer m path) := by
  unfold lookup
  rw [ht]
  simp only [h, Res.ok_bind]
  unfold KvMap.answer answer
  cases m path with
  | none => rfl
  | some v =>
    simp only [entrySize]
    by_cases hv : v.length = 40
    · simp [hv]
    · simp [hv]

/-- C60 inside a transaction, reading or writing: the lookup answers from the entries that the
transaction sees.  No assumption on the sizes of the values. -/
theorem lookup_answers {c : Cache} {t : Txn} {h : Nat} {m : KvMap} {fuel : Nat} {path : Bytes} (ht : c.txn = some t) (hm : IsMap c.env t h m)
    (hk : path.length < 65536) (hf : h < fuel) : lookup c fuel path = .ok (answer m path) := by
  exact lookup_of_get ht (get_answers hm hk hf)

/-- C60: a lookup never gives a record of the wrong size, whatever the database holds. -/
theorem lookup_size {c : Cache} {fuel : Nat} {path v : Bytes} (h : lookup c fuel path = .ok (.ok v)) : v.length = 40 := by
  unfold lookup at h
  split at h
  · cases h
  · obtain ⟨r, -, h⟩ := Res.bind_eq_ok.1 h
    cases r with
    | error e => cases h
    | ok w =>
      simp only at h
      split at h
      · cases h
      · rename_i hn
        cases h
        unfold entrySize at hn; omega

/-- Outside a transaction nothing is read or written. -/
theorem no_transaction {c : Cache} (ht : c.txn = none) (fuel : Nat) (path e : Bytes) (fail : Option Nat) (pid tid : Nat) :
    lookup c fuel path = .ok (.error .inval) ∧ upsert c fuel path e = .ok (.inval, c) ∧ commitWrite c fuel fail pid tid = .ok (.inval, c) ∧
      abort c pid tid = (.inval, c) := by
  refine ⟨?_, ?_, ?_, ?_⟩ <;> simp [lookup, upsert, commitWrite, abort, ht]

/-- C54, C60: a read transaction that is ended (either way) by the thread that began it leaves the reader
table with the same entries as before, and the cache without a transaction. -/
theorem read_and_end {c c1 : Cache} {pid tid fuel : Nat} {fail : Option Nat} (hid : metaTxnid c.env.liveMeta ≠ 0)
    (hb : beginRead c pid tid = (.success, c1)) :
    ∃ c2, abort c1 pid tid = (.success, c2) ∧ commitWrite c1 fuel fail pid tid = .ok (.success, c2) ∧ c2.txn = none ∧ c2.visited = c.visited ∧
      c2.env = { c.env with readers := c2.env.readers } ∧
      (c2.env.readers.filter Slot.used).Perm (c.env.readers.filter Slot.used) ∧ c2.env.readers.length = c.env.readers.length := by
  unfold beginRead Db.beginRead at hb
  cases hr : register ⟨pid, tid, (readTxn c.env).txnid⟩ c.env.readers with
  | none => rw [hr] at hb; cases hb
  | some rs =>
    rw [hr] at hb
    cases hb
    have hu : Slot.used ⟨pid, tid, (readTxn c.env).txnid⟩ = true := by
      simpa [Slot.used, readTxn] using hid
    obtain ⟨r1, r2⟩ := register_perm hu hr
    have hm : (⟨pid, tid, (readTxn c.env).txnid⟩ : Slot) ∈ rs :=
      (List.mem_filter.1 (r1.mem_iff.2 List.mem_cons_self)).1
    obtain ⟨u1, u2⟩ := unregister_perm hu hm
    exact ⟨_, rfl, rfl, rfl, rfl, rfl, (List.perm_cons _).1 (u1.trans r1), u2.trans r2⟩

theorem answer_records {m : KvMap} (h : Records m) (path : Bytes) :
    answer m path = match m path with | none => .error .notfound | some v => .ok v := by
  unfold answer
  cases hm : m path with
  | none => rfl
  | some v => simp [h path v hm]

theorem records_put {m : KvMap} (h : Records m) {k v : Bytes} (hv : v.length = 40) : Records (m.put k v) := by
  intro k' v' hk
  unfold KvMap.put at hk
  split at hk
  · cases hk; exact hv
  · exact h k' v' hk

theorem records_kept {m : KvMap} (h : Records m) (vis : List Bytes) : Records (kept m vis) := by
  intro k v hk
  unfold kept at hk
  split at hk
  · exact h k v hk
  · cases hk

/-- Records stored one after the other; the statuses in order. -/
def upserts (c : Cache) (fuel : Nat) : List (Bytes × Bytes) → Res (List Status × Cache)
  | [] => .ok ([], c)
  | (k, v) :: l => do
    let a ← upsert c fuel k v
    let b ← upserts a.2 fuel l
    .ok (a.1 :: b.1, b.2)

/-- The entries after storing records. -/
def stored (m : KvMap) (l : List (Bytes × Bytes)) : KvMap := l.foldl (fun m kv => m.put kv.1 kv.2) m

/-- Under the conditions of `Body` all records are stored. -/
theorem upserts_body {env : Env} {fuel id fr : Nat} {F : List Nat} (l : List (Bytes × Bytes)) : ∀ {c : Cache} {t t' : Txn} {m : KvMap},
    c.env = env → c.txn = some t → Body env fuel id fr F t m (l.map fun kv => .put kv.1 kv.2) t' →
    upserts c (fuel + 2) l = .ok (l.map fun _ => .success, { c with txn := some t' }) := by
  induction l with
  | nil =>
    intro c t t' m he ht hb
    cases hb
    rw [upserts, ← ht]; rfl
  | cons kv l ih =>
    intro c t t' m he ht hb
    obtain ⟨k, v⟩ := kv
    cases hb with
    | @put _ t1 _ _ _ _ _ hs hq hrun rest =>
      rw [upserts]
      have : upsert c (fuel + 2) k v = .ok (.success, { c with txn := some t1 }) := by
        unfold upsert
        rw [ht]
        simp only [he, hrun, Res.ok_bind]
      rw [this]
      simp only [Res.ok_bind]
      rw [ih (c := { c with txn := some t1 }) he rfl rest]
      rfl

theorem stored_ops (l : List (Bytes × Bytes)) : ∀ m : KvMap, (l.map fun kv => KvOp.put kv.1 kv.2).foldl KvOp.apply m = stored m l := by
  induction l with
  | nil => intro m; rfl
  | cons kv l ih => intro m; exact ih _

/-- A history of a cache without a transaction open between its steps: transactions that store
records and commit, transactions that are given up, marks, sweeps, readers, and closing and opening
again.  The third and sixth argument are the entries.  Only the conditions that make
`commit_saves_partial` and `sweep_keeps_visited_partial` apply are asked for; that the steps succeed
is proved. -/
inductive History (fuel : Nat) : Cache → KvMap → Cache → KvMap → Prop
  | nil (c m) : History fuel c m c m
  | load {c c1 c2 c3 c' : Cache} {t t' : Txn} {m m' : KvMap} {l : List (Bytes × Bytes)} {pid tid : Nat} {sts : List Status} {st : Status}
      (hid : metaTxnid c.env.liveMeta + 1 < 2 ^ 64)
      (hb : beginWrite c = some (.success, c1)) (ht : c1.txn = some t)
      (hl : ∀ kv ∈ l, kv.2.length = 40)
      (hops : ∀ h hf fl, DbOk c.env h hf m fl →
        Body c1.env fuel (metaTxnid c.env.liveMeta + 1) (metaFree c.env.liveMeta) (offLimits c.env hf) t m (l.map fun kv => .put kv.1 kv.2) t' ∧
        FreeRoom c.env (metaTxnid c.env.liveMeta + 1) (metaFree c.env.liveMeta) hf t')
      (hmap : t'.newLast + 1 < c.env.mapPages)
      (hu : upserts c1 (fuel + 2) l = .ok (sts, c2))
      (hc : commitWrite c2 (fuel + 2) none pid tid = .ok (st, c3))
      (rest : History fuel c3 (stored m l) c' m') : History fuel c m c' m'
  | giveUp {c c1 c' : Cache} {m m' : KvMap} {pid tid : Nat} (t' : Txn) (hb : beginWrite c = some (.success, c1)) (hro : t'.rdonly = false)
      (rest : History fuel (abort { c1 with txn := some t' } pid tid).2 m c' m') : History fuel c m c' m'
  | mark {c c' : Cache} {m m' : KvMap} (path : Bytes) (rest : History fuel (markVisited c path) m c' m') : History fuel c m c' m'
  | sweep {c c1 c' : Cache} {m m' : KvMap} {fuel' pid tid : Nat} {st : Status} (hl : c.env.locked = false) (hid : metaTxnid c.env.liveMeta + 1 < 2 ^ 64)
      (hok : ∀ h hf fl, DbOk c.env h hf m fl → (metaRoot c.env.liveMeta = 0 → h = 0) → h < 32 ∧ (metaRoot c.env.liveMeta ≠ 0 → Full (mapPage c.env) h (metaRoot c.env.liveMeta)) ∧
        SweepRoom c.env h hf ∧ sweepSteps c.env h ≤ fuel') (hmap : metaLast c.env.liveMeta + 1 < c.env.mapPages)
      (hs : sweep c fuel' none pid tid = .ok (st, c1)) (rest : History fuel c1 (kept m c.visited) c' m') : History fuel c m c' m'
  | reopen {c c' : Cache} {env1 : Env} {m m' : KvMap} {mapPages : Nat} (hmap : metaLast c.env.liveMeta < mapPages) (hcap : mapPages < 2 ^ 52)
      (ho : envOpen c.env.file c.env.filePages mapPages = .ok (.ok env1)) (rest : History fuel ⟨env1, none, []⟩ m c' m') : History fuel c m c' m'
  | readers {c c' : Cache} {m m' : KvMap} (rs : List Slot) (rest : History fuel { c with env := { c.env with readers := rs } } m c' m') :
      History fuel c m c' m'

theorem records_stored (l : List (Bytes × Bytes)) : ∀ {m : KvMap}, Records m → (∀ kv ∈ l, kv.2.length = 40) → Records (stored m l) := by
  induction l with
  | nil => intro m h _; exact h
  | cons kv l ih =>
    intro m h hl
    exact ih (records_put h (hl kv (by simp))) (fun kv' h' => hl kv' (by simp [h']))

theorem history_ok {fuel : Nat} {c c' : Cache} {m m' : KvMap} (H : History fuel c m c' m') : ∀ {h hf : Nat} {fl : List (Bytes × Bytes)},
    DbOk c.env h hf m fl → Records m → (∃ h' hf' fl', DbOk c'.env h' hf' m' fl') ∧ Records m' := by
  induction H with
  | nil c m => intro h hf fl hdb hr; exact ⟨⟨_, _, _, hdb⟩, hr⟩
  | @load c c1 c2 c3 c' t t' m m' l pid tid sts st hid hb ht hl hops hmap hu hc _ ih =>
    intro h hf fl hdb hr
    have hlk : c.env.locked = false := by
      unfold beginWrite Db.beginWrite at hb
      split at hb
      · cases hb
      · rename_i h
        split at h
        · cases h
        · rename_i hn; simpa using hn
    obtain ⟨env1, t1, b1, b2, -, b3⟩ := begin_writing hdb hlk hid
    unfold beginWrite at hb
    rw [b1] at hb
    cases hb
    cases ht
    obtain ⟨o1, o2⟩ := hops h hf fl hdb
    rw [upserts_body l rfl rfl o1] at hu
    cases hu
    obtain ⟨h', hW⟩ := body_writing o1 b3
    subst b2
    obtain ⟨env2, h2, hf2, fl2, k1, k2, -⟩ := commit_saves_partial fuel (env := { c.env with locked := true })
      (hdb.congr rfl rfl rfl rfl) hid hW ⟨o2.fresh, o2.leaf⟩ hmap
    have hro : t'.rdonly = false := hW.clean.rdonly
    have : commitWrite { env := { c.env with locked := true }, txn := some t', visited := c.visited } (fuel + 2) none pid tid =
        .ok (.success, ⟨env2, none, c.visited⟩) := by
      unfold commitWrite
      simp only [hro, Bool.false_eq_true, if_false]
      unfold commit at k1
      rw [k1]; rfl
    rw [this] at hc
    cases hc
    rw [stored_ops] at k2
    exact ih k2 (records_stored l hr hl)
  | @giveUp c c1 c' m m' pid tid t' hb hro _ ih =>
    intro h hf fl hdb hr
    unfold beginWrite at hb
    split at hb
    · cases hb
    · rename_i env1 t1 hb'
      cases hb
      refine ih (h := h) (hf := hf) (fl := fl) ?_ hr
      have : abortWrite env1 = c.env := abort_restores hb'
      simp only [abort, abortTxn, hro, Bool.false_eq_true, if_false, this]
      exact hdb
  | mark path _ ih => intro h hf fl hdb hr; exact ih hdb hr
  | @sweep c c1 c' m m' fuel' pid tid st hl hid hok hmap hs _ ih =>
    intro h hf fl hdb hr
    obtain ⟨h, hdb, hz⟩ : ∃ h, DbOk c.env h hf m fl ∧ (metaRoot c.env.liveMeta = 0 → h = 0) := by
      by_cases h0 : metaRoot c.env.liveMeta = 0
      · obtain ⟨h', hm, hz⟩ := isMap_height hdb.main
        have hp : ∀ h, treePages (mapPage c.env) h (metaRoot c.env.liveMeta) = [] := fun h => by unfold treePages; rw [if_pos h0]
        have ha : ∀ x ∈ treePages (mapPage c.env) hf (metaFree c.env.liveMeta), 2 ≤ x ∧ x ≤ metaLast c.env.liveMeta ∧
            x ∉ treePages (mapPage c.env) h' (metaRoot c.env.liveMeta) := fun x hx => by
          have := hdb.apart x hx
          rw [hp] at this ⊢; exact this
        exact ⟨h', { hdb with main := hm, low := (by rw [hp]; simp), apart := ha }, hz⟩
      · exact ⟨h, hdb, fun h => absurd h h0⟩
    obtain ⟨o1, o2, o3, o4⟩ := hok h hf fl hdb hz
    obtain ⟨c2, h', hf', fl', e1, e2, -⟩ := sweep_keeps_visited_partial pid tid hdb hl hid o1 o2 o3 hmap o4
    rw [hs] at e1
    cases e1
    exact ih e2 (records_kept hr _)
  | reopen hmap hcap ho _ ih =>
    intro h hf fl hdb hr
    obtain ⟨env1', o1, -, -, -, o2⟩ := reopen_keeps hdb hmap hcap
    rw [ho] at o1; cases o1
    exact ih o2 hr
  | readers rs _ ih =>
    intro h hf fl hdb hr
    exact ih (hdb.congr rfl rfl rfl rfl) hr

/-- C60 from the creation of the cache on: a read transaction begun after any such history finds for
each path the record last stored for it, and nothing if there is none or a sweep has removed it.
Partial because of the conditions of `History`. -/
theorem history_of_cache_partial {fuel mapPages : Nat} {env : Env} {vis : List Bytes} {c' : Cache} {m' : KvMap} (h2 : 2 ≤ mapPages) (hcap : mapPages < 2 ^ 52)
    (hc : envCreate mapPages = .ok env) (H : History fuel ⟨env, none, vis⟩ (fun _ => none) c' m') :
    ∃ N, ∀ pid tid c'', beginRead c' pid tid = (.success, c'') → ∀ path fuel', path.length < 65536 → N ≤ fuel' →
      lookup c'' fuel' path = .ok (match m' path with | none => .error .notfound | some v => .ok v) := by
  obtain ⟨env0, e1, -, e2⟩ := create_empty h2 hcap
  rw [hc] at e1; cases e1
  obtain ⟨⟨h, hf, fl, hdb⟩, hr⟩ := history_ok H e2 (by intro k v h; cases h)
  refine ⟨h + 1, fun pid tid c'' hb path fuel' hk hf' => ?_⟩
  unfold beginRead at hb
  split at hb
  · rename_i e he
    exfalso
    cases hb
    unfold Db.beginRead at he
    split at he <;> cases he
  · rename_i env'' t hb'
    cases hb
    rw [← answer_records hr]
    have := reader_sees_committed hdb hb' hk hf'
    exact lookup_of_get rfl this

end Verif.Cache
