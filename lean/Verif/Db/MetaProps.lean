import Verif.Db.Inv
import Verif.Db.TxnProps

/-!
# Properties of the meta pages (C56)
-/

namespace Verif.Db

open Verif.Page

/-- Any operations inside a write transaction, whatever they return. -/
inductive Ops (env : Env) : Txn → Txn → Prop
  | nil (t) : Ops env t t
  | put {t t1 t2 fuel k v st} (h : put env fuel t k v = .ok (st, t1)) (rest : Ops env t1 t2) : Ops env t t2
  | del {t t1 t2 k st} (h : del env t k = .ok (st, t1)) (rest : Ops env t1 t2) : Ops env t t2

theorem ops_inv {P : Txn → Prop} {env : Env} (hP : Closed env P) {t t' : Txn} (H : Ops env t t') : P t → P t' := by
  induction H with
  | nil t => exact fun h => h
  | @put t t1 t2 fuel k v st h _ ih =>
    intro ht
    exact ih (putWith_inv hP (alloc_inv hP fuel) h ht)
  | del h _ ih => intro ht; exact ih (del_inv hP h ht)

/-- C56: of the meta pages with the right magic and version the one with the larger transaction id
is selected. -/
theorem live_is_newest {m : Nat → Page} {l : Nat} (h : selectLive (m 0) (m 1) = some l) :
    l < 2 ∧ validMeta (m l) = true ∧ ∀ j < 2, validMeta (m j) = true → metaTxnid (m j) ≤ metaTxnid (m l) := by
  unfold selectLive at h
  have two : ∀ {Q : Nat → Prop}, Q 0 → Q 1 → ∀ j < 2, Q j := by
    intro Q h0 h1 j hj
    rcases (by omega : j = 0 ∨ j = 1) with rfl | rfl <;> assumption
  split at h
  · cases h
  · split at h
    · rename_i h1
      simp at h1
      cases h
      refine ⟨by omega, h1.1, two (fun _ => Nat.le_refl _) fun hv => ?_⟩
      rw [h1.2] at hv; cases hv
    · split at h
      · rename_i h1
        simp at h1
        cases h
        refine ⟨by omega, h1.2, two (fun hv => ?_) fun _ => Nat.le_refl _⟩
        rw [h1.1] at hv; cases hv
      · rename_i h1 h2 h3
        simp at h1 h2 h3
        have v0 : validMeta (m 0) = true := by
          cases e : validMeta (m 0)
          · rw [h3 e] at h1; exact absurd (h1 e) (by simp)
          · rfl
        have v1 := h2 v0
        split at h
        · cases h; exact ⟨by omega, v0, two (fun _ => Nat.le_refl _) fun _ => by omega⟩
        · cases h; exact ⟨by omega, v1, two (fun _ => by omega) fun _ => Nat.le_refl _⟩

/-- C56: opening fails, with `APR_EINVAL`, exactly if neither meta page has the right magic and
version. -/
theorem open_fails_iff {file : Nat → Page} {fp mp : Nat} (h1 : 2 ≤ fp) (h2 : 2 ≤ mp) :
    envOpen file fp mp = .ok (.error .inval) ↔
      ¬ ∃ n < 2, ule (file n) 0 4 = 0xDECAFBAD ∧ ule (file n) 4 4 = 1 := by
  have hv : ∀ p : Page, validMeta p = true ↔ ule p 0 4 = 0xDECAFBAD ∧ ule p 4 4 = 1 := by
    intro p; simp [validMeta, dbMagic, dbVersion]
  have e : (∃ n < 2, ule (file n) 0 4 = 0xDECAFBAD ∧ ule (file n) 4 4 = 1) ↔ (validMeta (file 0) = true ∨ validMeta (file 1) = true) := by
    constructor
    · rintro ⟨n, hn, h⟩
      rcases (by omega : n = 0 ∨ n = 1) with rfl | rfl
      · exact .inl ((hv _).2 h)
      · exact .inr ((hv _).2 h)
    · rintro (h | h)
      · exact ⟨0, by omega, (hv _).1 h⟩
      · exact ⟨1, by omega, (hv _).1 h⟩
  rw [e]
  unfold envOpen
  rw [if_neg (by omega)]
  unfold selectLive
  cases e0 : validMeta (file 0) <;> cases e1 : validMeta (file 1) <;> simp
  by_cases hc : metaTxnid (file 1) < metaTxnid (file 0) <;> simp [hc]

/-- C56: opening succeeds otherwise; the live meta page is the newest valid one, and nobody holds
the writer lock or a slot of the reader table. -/
theorem open_selects {file : Nat → Page} {fp mp : Nat} (h1 : 2 ≤ fp) (h2 : 2 ≤ mp)
    (hv : ∃ n < 2, ule (file n) 0 4 = 0xDECAFBAD ∧ ule (file n) 4 4 = 1) :
    ∃ env, envOpen file fp mp = .ok (.ok env) ∧ env.file = file ∧ env.filePages = fp ∧ env.mapPages = mp ∧ env.locked = false ∧
      (∀ s ∈ env.readers, s.txnid = 0) ∧ env.live < 2 ∧ validMeta env.liveMeta = true ∧
      ∀ j < 2, validMeta (file j) = true → metaTxnid (file j) ≤ metaTxnid env.liveMeta := by
  have hn : ¬ envOpen file fp mp = .ok (.error .inval) := fun h => ((open_fails_iff h1 h2).1 h) hv
  unfold envOpen at hn ⊢
  rw [if_neg (by omega)] at hn ⊢
  split at hn
  · exact absurd rfl hn
  · rename_i l hl
    obtain ⟨l1, l2, l3⟩ := live_is_newest (m := file) hl
    refine ⟨_, rfl, rfl, rfl, rfl, rfl, ?_, l1, l2, l3⟩
    intro s hs
    rw [List.eq_of_mem_replicate hs]; rfl

/-- The outcomes of a commit. -/
theorem commitWith_cases {al : Alloc} {fail : Option Nat} {env env' : Env} {t : Txn} {st : Status} (hd : t.dirty ≠ [])
    (hc : commitWith al fail env t = .ok (st, env')) :
    (∃ e, commitActs al env t = .ok (.error e) ∧ st = e ∧ env' = { env with locked := false }) ∨
    (∃ acts k, commitActs al env t = .ok (.ok acts) ∧ fail = some k ∧ k < acts.length ∧ st = .general ∧
      env' = { runActs env (acts.take k) with locked := false }) ∨
    (∃ acts, commitActs al env t = .ok (.ok acts) ∧ (∀ k, fail = some k → acts.length ≤ k) ∧ st = .success ∧
      env' = { runActs env acts with locked := false, live := staleMeta env }) := by
  unfold commitWith at hc
  rw [if_neg hd] at hc
  obtain ⟨r, h1, hc⟩ := Res.bind_eq_ok.1 hc
  rw [h1]
  cases r with
  | error e => cases hc; exact .inl ⟨_, rfl, rfl, rfl⟩
  | ok acts =>
    right
    cases fail with
    | none => cases hc; exact .inr ⟨acts, rfl, by simp, rfl, rfl⟩
    | some k =>
      simp only at hc
      split at hc
      · cases hc; exact .inl ⟨acts, k, rfl, rfl, by assumption, rfl, rfl⟩
      · cases hc; exact .inr ⟨acts, rfl, (by rintro k' h; cases h; omega), rfl, rfl⟩

theorem commitActs_err {al : Alloc} {env : Env} {t : Txn} {e : Status} (h : commitActs al env t = .ok (.error e)) : e ≠ .success := by
  unfold commitActs at h
  obtain ⟨r, h1, h⟩ := Res.bind_eq_ok.1 h
  split at h
  · rename_i e' he
    cases h
    exact populate_err (t' := r.1) (by rw [h1, ← he])
  · obtain ⟨ps, -, h⟩ := Res.bind_eq_ok.1 h
    cases h

/-- The list of file operations ends with the new meta page, which carries the id of the transaction. -/
theorem commitActs_meta {al : Alloc} {env : Env} {t : Txn} {acts : List Act} (ha : AllocInv (fun x => x.txnid = t.txnid) al)
    (h : commitActs al env t = .ok (.ok acts)) :
    ∃ A root last free, acts = A ++ [.write (staleMeta env) (metaPage t.txnid root last free), .sync] := by
  unfold commitActs at h
  obtain ⟨r, h1, h⟩ := Res.bind_eq_ok.1 h
  have e : r.1.txnid = t.txnid := populate_inv (closed_txnid env t.txnid) ha h1 rfl
  split at h
  · cases h
  · rename_i free hfree
    obtain ⟨ps, -, h⟩ := Res.bind_eq_ok.1 h
    cases h
    refine ⟨extendActs env r.1 ++ writeActs ps, newPgno r.1 r.1.root, r.1.newLast, free, ?_⟩
    rw [← e]
    rfl

/-- C56: a commit that succeeds and has changed something makes the other meta page live; it is
valid and carries an id that is larger by one. -/
theorem commit_writes_newer {env env1 env' : Env} {t t' : Txn} {fuel : Nat} {fail : Option Nat}
    (hid : metaTxnid env.liveMeta + 1 < 2 ^ 64) (hb : beginWrite env = some (env1, t)) (hops : Ops env1 t t')
    (hc : commitWith (alloc env1 fuel) fail env1 t' = .ok (.success, env')) (hd : t'.dirty ≠ []) :
    env'.live < 2 ∧ env'.live ≠ env.live ∧ validMeta env'.liveMeta = true ∧ metaTxnid env'.liveMeta = metaTxnid env.liveMeta + 1 := by
  have hlive : env1.live = env.live := by
    unfold beginWrite at hb; split at hb <;> cases hb; rfl
  have ht : t.txnid = metaTxnid env.liveMeta + 1 := by
    unfold beginWrite at hb; split at hb
    · cases hb
    · cases hb; exact Nat.mod_eq_of_lt hid
  have ht' : t'.txnid = metaTxnid env.liveMeta + 1 := ops_inv (closed_txnid _ _) hops ht
  rcases commitWith_cases hd hc with ⟨e, h1, h2, -⟩ | ⟨_, _, _, _, _, h, _⟩ | ⟨acts, h1, -, -, rfl⟩
  · exact absurd h2.symm (commitActs_err h1)
  · cases h
  · obtain ⟨A, root, last, free, rfl⟩ := commitActs_meta (alloc_inv (closed_txnid _ _) fuel) h1
    have hw := (written (env := env1) (A := A) (B := [Act.sync]) (p := metaPage t'.txnid root last free) (n := staleMeta env1) (by simp)).1
    have hl : ({ runActs env1 (A ++ [Act.write (staleMeta env1) (metaPage t'.txnid root last free), .sync]) with
        locked := false, live := staleMeta env1 } : Env).liveMeta = metaPage t'.txnid root last free := hw
    refine ⟨stale_lt env1, ?_, ?_, ?_⟩
    · show staleMeta env1 ≠ env.live
      unfold staleMeta; rw [hlive]; split <;> omega
    · rw [hl]; exact metaPage_valid _ _ _ _
    · rw [hl, metaPage_txnid, ht', Nat.mod_eq_of_lt hid]

/-- C56: a commit that fails leaves the same meta page live. -/
theorem commit_fails_same {al : Alloc} {fail : Option Nat} {env env' : Env} {t : Txn} {st : Status}
    (hc : commitWith al fail env t = .ok (st, env')) (hst : st ≠ .success) : env'.live = env.live := by
  by_cases hd : t.dirty = []
  · unfold commitWith at hc
    rw [if_pos hd] at hc
    cases hc; rfl
  · rcases commitWith_cases hd hc with ⟨_, _, _, rfl⟩ | ⟨_, _, _, _, _, _, rfl⟩ | ⟨_, _, _, h, _⟩
    · rfl
    · exact (runActs_kept _ _).live
    · exact absurd h hst

end Verif.Db
