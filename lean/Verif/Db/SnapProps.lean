import Verif.Db.LockProps
import Verif.Db.CrashProps

/-!
# Properties of snapshots (C52) and of page allocation (C55)
-/

namespace Verif.Db

open Verif.Page

/-! ## C52 -/

/-- What may happen while a read transaction is open, as far as the pages `S` of its tree are not
written: commits with any outcome, and anything that leaves the file and the map alone (beginning
and aborting transactions). -/
inductive Later (S : List Nat) : Env → Env → Prop
  | refl (env) : Later S env env
  | commit {env env1 env2 al fail t st} (h : Later S env env1) (hc : commitWith al fail env1 t = .ok (st, env2))
      (hS : ∀ acts, commitActs al env1 t = .ok (.ok acts) → ∀ x ∈ S, ∀ p, Act.write x p ∉ acts) : Later S env env2
  | other {env env1} (env2) (h : Later S env env1) (hf : env2.file = env1.file) (hp : env2.filePages = env1.filePages)
      (hm : env2.mapPages = env1.mapPages) : Later S env env2

theorem later_keeps {S : List Nat} {env env' : Env} (H : Later S env env') : env'.mapPages = env.mapPages ∧ env.filePages ≤ env'.filePages ∧
    ∀ x ∈ S, x < env.filePages → env'.file x = env.file x := by
  induction H with
  | refl => exact ⟨rfl, Nat.le_refl _, fun _ _ _ => rfl⟩
  | @commit env1 env2 al fail t st _ hc hS ih =>
    obtain ⟨i1, i2, i3⟩ := ih
    by_cases hd : t.dirty = []
    · unfold commitWith at hc
      rw [if_pos hd] at hc
      cases hc; exact ⟨i1, i2, i3⟩
    · rcases commitWith_cases hd hc with ⟨_, _, _, rfl⟩ | ⟨acts, k, ha, _, _, _, rfl⟩ | ⟨acts, ha, _, _, rfl⟩
      · exact ⟨i1, i2, i3⟩
      · refine ⟨(runActs_kept _ _).map.trans i1, Nat.le_trans i2 (runActs_kept _ _).file, fun x hx hb => ?_⟩
        refine Eq.trans ?_ (i3 x hx hb)
        exact untouched _ (by omega) fun p hp => hS acts ha x hx p (List.mem_of_mem_take hp)
      · refine ⟨(runActs_kept _ _).map.trans i1, Nat.le_trans i2 (runActs_kept _ _).file, fun x hx hb => ?_⟩
        refine Eq.trans ?_ (i3 x hx hb)
        exact untouched _ (by omega) fun p hp => hS acts ha x hx p hp
  | other env2 _ hf hp hm ih =>
    obtain ⟨i1, i2, i3⟩ := ih
    exact ⟨hm.trans i1, by omega, fun x hx hb => by rw [hf]; exact i3 x hx hb⟩

/-- C52 as far as it holds: while the commits do not write the pages of its tree, a read transaction
answers what was committed when it began.  Commits write such pages as soon as they change the
tree (`snapshot_changes`, `snapshot_loses_key`), so what this leaves are commits of transactions
that began on an empty tree, failed and aborted ones. -/
theorem snapshot_kept_partial {env : Env} {h hf : Nat} {m : KvMap} {fl : List (Bytes × Bytes)} (hdb : DbOk env h hf m fl) {pid tid : Nat}
    {env1 env' : Env} {r : Txn} (hb : beginRead env pid tid = .ok (env1, r))
    (H : Later (treePages (mapPage env) h (metaRoot env.liveMeta)) env1 env') {key : Bytes} (hk : key.length < 65536) {fuel : Nat} (hf' : h < fuel) :
    get env' r fuel key = .ok (m.answer key) := by
  unfold beginRead at hb
  split at hb
  · cases hb
  · rename_i rs hrs
    cases hb
    obtain ⟨k1, k2, k3⟩ := later_keeps H
    have := isMap_frame (env' := env') (t' := readTxn env) hdb.main rfl (Nat.le_refl _) (by
      intro x hx
      have hx' : x ∈ treePages (mapPage env) h (metaRoot env.liveMeta) := hx
      have hle : x ≤ metaLast env.liveMeta := by
        unfold treePages at hx
        by_cases hr : (readTxn env).root = 0
        · rw [if_pos hr] at hx; cases hx
        · rw [if_neg hr] at hx
          obtain ⟨l, hl, -⟩ := hdb.main
          rcases hl with ⟨hx, -⟩ | ⟨-, ht, -⟩
          · exact absurd hx hr
          · exact (ht.bound x hx).2
      have h1 := hdb.file
      have h2 := hdb.map
      have k1' : env'.mapPages = env.mapPages := k1
      have k2' : env.filePages ≤ env'.filePages := k2
      show mapPage env' x = mapPage env x
      unfold mapPage
      rw [if_pos ⟨by omega, by omega⟩, if_pos ⟨by omega, by omega⟩]
      exact congrArg _ (k3 x hx' (by show x < env.filePages; omega)))
    exact get_answers this.1 hk hf'

/-- C52 for a read transaction on an empty database: whatever happens, it finds nothing. -/
theorem empty_snapshot_kept {env env' : Env} (h0 : metaRoot env.liveMeta = 0) (fuel : Nat) (key : Bytes) :
    get env' (readTxn env) fuel key = .ok (.error .notfound) := by
  unfold get
  rw [if_pos (show (readTxn env).root = 0 from h0)]

/-! ## C55 -/

/-- An open read transaction whose snapshot is not newer than any entry of the Free DB keeps all
entries back. -/
theorem pinned_quiet {env : Env} {h hf : Nat} {m : KvMap} {fl : List (Bytes × Bytes)} (hdb : DbOk env h hf m fl) (id fuel : Nat)
    (hid : metaTxnid env.liveMeta < 2 ^ 64)
    (hf1 : hf < fuel) (hf2 : fl.length < fuel)
    (hpin : metaFree env.liveMeta = 0 ∨ ∀ i, (∃ v, (le 8 i, v) ∈ fl) → i < 2 ^ 64 →
      (if oldestReader env.readers = 0 then id else oldestReader env.readers) ≤ i) :
    Quiet env id (metaFree env.liveMeta) (offLimits env hf) fuel := by
  rcases hdb.free with ⟨h0, -⟩ | ⟨h0, w1, w2, w3, w4⟩
  · exact .none h0
  · rcases hpin with hp | hp
    · exact absurd hp h0
    · refine .pinned hf h0 w1 w2 hdb.depth hf1 (by rw [w4]; exact hf2) ?_ ?_
      · intro x hx
        unfold offLimits treePages
        rw [if_neg h0]
        exact List.mem_cons_of_mem _ (List.mem_cons_of_mem _ hx)
      · rw [w4]
        intro kv hkv
        obtain ⟨i, hi, e⟩ := hdb.ids kv hkv
        have := hp i ⟨kv.2, by rw [← e]; exact hkv⟩ (by omega)
        unfold reclaimable
        rw [e, leVal_le, Nat.mod_eq_of_lt (by omega : i < 256 ^ 8)]
        rw [decide_eq_false (by omega)]
        simp

/-- C55 as far as it holds: with no Free DB, or with an open read transaction that keeps all its entries
back, a page that is allocated is beyond the last page; so it is not one of the meta pages, of
the transaction's tree, of the Free DB, of its copied pages, or of the tree of a read
transaction.  In general the property is false: `live_page_handed_out`,
`reader_page_handed_out`. -/
theorem pages_fresh_partial {env : Env} {id fr r : Nat} {F : List Nat} {t : Txn} {h : Nat} {m : KvMap} {fuel : Nat}
    (hW : Writing env id fr r F t h m) (hq : Quiet env id fr F fuel) :
    ∃ n t', alloc env (fuel + 2) t = .ok (n, t') ∧ (t.root ≠ 0 → n ∉ pagesOf (getPage env t) h t.root) ∧ n ∉ F ∧ t.getDirty n = none ∧
      ∀ (env0 : Env) (h0 : Nat) (m0 : KvMap), IsMap env0 (readTxn env0) h0 m0 → metaLast env0.liveMeta ≤ t.newLast →
        n ∉ treePages (mapPage env0) h0 (metaRoot env0.liveMeta) := by
  refine ⟨t.newLast + 1, { t with newLast := t.newLast + 1 }, alloc_quiet hq hW.clean, ?_, ?_, ?_, ?_⟩
  · intro h0 hn
    obtain ⟨l, hl, -⟩ := hW.map
    rcases hl with ⟨hx, -⟩ | ⟨-, ht, -⟩
    · exact absurd hx h0
    · have := (ht.bound _ hn).2; omega
  · intro hn
    have := hW.clean.last _ hn
    omega
  · cases hd : t.getDirty (t.newLast + 1) with
    | none => rfl
    | some p =>
      have := (hW.clean.dirty _ p hd).2.2.2
      omega
  · intro env0 h0 m0 hm hle hn
    unfold treePages at hn
    by_cases hr : metaRoot env0.liveMeta = 0
    · rw [if_pos hr] at hn; cases hn
    · rw [if_neg hr] at hn
      obtain ⟨l, hl, -⟩ := hm
      rcases hl with ⟨hx, -⟩ | ⟨-, ht, -⟩
      · exact absurd hx hr
      · have : (t.newLast + 1) ≤ metaLast env0.liveMeta := (ht.bound _ hn).2
        omega

/-- C55: the last page never shrinks inside a transaction, so it is at least that of every snapshot
that was committed when the transaction began. -/
theorem last_grows {env env1 : Env} {t t' : Txn} (hb : beginWrite env = some (env1, t)) (hops : Ops env1 t t') :
    metaLast env.liveMeta ≤ t'.newLast := by
  refine ops_inv (closed_last env1 _) hops ?_
  unfold beginWrite at hb
  split at hb
  · cases hb
  · cases hb; exact Nat.le_refl _

end Verif.Db
