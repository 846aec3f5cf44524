import Verif.Db.HandleProps
import Verif.Db.TxnExamples

/-!
# Several handles on one database (C95)

Each handle has its own pointer to the live meta page, which only its own commits move (napr_db.c L1179), its own reader table, and its own writer lock: the lock is
made without a name (napr_db.c L283), so two openings share nothing.
-/

namespace Verif.Db

open Verif.Page

/-- One write transaction through a handle, with something to write, that meets the conditions of C50. -/
def Step (fuel : Nat) (env env' : Env) : Prop :=
  ∃ env1 t t' ops h hf m fl, DbOk env h hf m fl ∧ metaTxnid env.liveMeta + 1 < 2 ^ 64 ∧ beginWrite env = some (env1, t) ∧
    Body env1 fuel (metaTxnid env.liveMeta + 1) (metaFree env.liveMeta) (offLimits env hf) t m ops t' ∧
    FreeRoom env (metaTxnid env.liveMeta + 1) (metaFree env.liveMeta) hf t' ∧ t'.newLast + 1 < env.mapPages ∧ t'.dirty ≠ [] ∧
    commit env1 (fuel + 2) t' = .ok (.success, env')

/-- A number of such commits, one after the other. -/
inductive Commits (fuel : Nat) (env : Env) : Nat → Env → Prop
  | nil : Commits fuel env 0 env
  | snoc {n env1 env'} (first : Commits fuel env n env1) (last : Step fuel env1 env') : Commits fuel env (n + 1) env'

theorem Step.facts {fuel : Nat} {env env' : Env} (s : Step fuel env env') :
    env.live < 2 ∧ env'.live < 2 ∧ env'.live ≠ env.live ∧ env'.file env.live = env.liveMeta ∧ metaTxnid env'.liveMeta = metaTxnid env.liveMeta + 1 := by
  obtain ⟨env1, t, t', ops, h, hf, m, fl, hdb, hid, hb, hops, hroom, hmap, hd, hc⟩ := s
  have hl : env.locked = false := by
    unfold beginWrite at hb
    split at hb
    · cases hb
    · rename_i h; simpa using h
  obtain ⟨env1', t1, b1, b2, -, b3⟩ := begin_writing hdb hl hid
  rw [hb] at b1; cases b1
  obtain ⟨h', hW⟩ := body_writing hops b3
  subst b2
  obtain ⟨env2, h2, hf2, fl2, c1, c2, -, -, -, -, c3, -⟩ := commit_saves_partial fuel (env := { env with locked := true })
    (hdb.congr rfl rfl rfl rfl) hid hW ⟨hroom.fresh, hroom.leaf⟩ hmap
  rw [hc] at c1; cases c1
  obtain ⟨d1, d2, d3⟩ := c3 hd
  exact ⟨hdb.live, c2.live, d2, d3, d1⟩

theorem step_goodPut {env : Env} {m : KvMap} {h hf : Nat} {fl : List (Bytes × Bytes)} {k v : Bytes} (hdb : DbOk env h hf m fl) (hg : goodPut env k v = true)
    (hsz : 4 + k.length + v.length < 65536) (hm : m k = none)
    (hd : (match beginWrite env with | none => false | some (env1, t) => Res.holds (put env1 7 t k v) fun r => !r.2.dirty.isEmpty) = true) :
    Step 5 env (afterPut env k v) := by
  unfold goodPut at hg
  simp only [Bool.and_eq_true, decide_eq_true_eq, beq_iff_eq] at hg
  obtain ⟨⟨h1, h2⟩, h3⟩ := hg
  cases hb : beginWrite env with
  | none => rw [hb] at h3; cases h3
  | some r =>
    obtain ⟨env1, t⟩ := r
    rw [hb] at h3 hd
    simp only [Bool.and_eq_true, decide_eq_true_eq, beq_iff_eq, Bool.or_eq_true] at h3 hd
    obtain ⟨⟨h4, h5⟩, h6⟩ := h3
    obtain ⟨⟨st, t1⟩, g1, g2⟩ := Res.holds_iff h6
    simp only [Bool.and_eq_true, decide_eq_true_eq, beq_iff_eq] at g2
    obtain ⟨⟨⟨rfl, g3⟩, g4⟩, g5⟩ := g2
    obtain ⟨⟨st2, env2⟩, c1, c2⟩ := Res.holds_iff g5
    simp only [beq_iff_eq] at c2
    subst c2
    have : afterPut env k v = env2 := by unfold afterPut; rw [hb]; simp only; rw [g1]; simp only; rw [c1]
    rw [this]
    refine ⟨env1, t, t1, [.put k v], h, hf, m, fl, hdb, h1, hb, ?_, ⟨fun _ _ => g4, fun _ h => absurd h2 h⟩, g3, ?_, c1⟩
    · refine body_one h2 hsz h4 hm ?_ g1
      rcases h5 with h5 | h5
      · exact .inl h5
      · obtain ⟨p, e1, e2⟩ := Res.holds_iff h5
        simp only [Bool.and_eq_true, decide_eq_true_eq] at e2
        exact .inr ⟨p, e1, e2.1, e2.2⟩
    · rw [g1] at hd
      intro e
      simp [Res.holds, e] at hd

/-- C95, what holds: after an even number of commits through the first handle, a second one that was opened before them is at the same state. After an odd number it is at the state
before the last commit, however long ago that was. -/
theorem other_handle_partial {fuel n : Nat} {env env' o : Env} (H : Commits fuel env n env') (hl : env.live < 2) (ho : o.live = env.live) :
    (n % 2 = 0 → o.live = env'.live ∧ readTxn (onFile o env') = readTxn env') ∧
    (n % 2 = 1 → ∃ prev, Commits fuel env (n - 1) prev ∧ Step fuel prev env' ∧ readTxn (onFile o env') = readTxn prev ∧
      (readTxn (onFile o env')).txnid + 1 = (readTxn env').txnid) := by
  have key : ∀ {n env'}, Commits fuel env n env' → env'.live < 2 ∧ (n % 2 = 0 → o.live = env'.live) ∧ (n % 2 = 1 → o.live ≠ env'.live) := by
    intro n env' H
    induction H with
    | nil => exact ⟨hl, fun _ => ho, fun h => by omega⟩
    | @snoc n env1 env' first last ih =>
      obtain ⟨i1, i2, i3⟩ := ih
      obtain ⟨f1, f2, f3, -⟩ := last.facts
      have h1 : o.live < 2 := by rw [ho]; exact hl
      refine ⟨f2, fun h => ?_, fun h => ?_⟩
      · have := i3 (by omega); omega
      · have := i2 (by omega); omega
  refine ⟨fun h => ?_, fun h => ?_⟩
  · have hk := (key H).2.1 h
    refine ⟨hk, ?_⟩
    have e : (onFile o env').liveMeta = env'.liveMeta := by unfold Env.liveMeta onFile; simp only; rw [hk]
    unfold readTxn
    rw [e]
  · cases H with
    | nil => omega
    | @snoc n env1 _ first last =>
      have hk := (key first).2.1 (by omega)
      obtain ⟨f1, f2, f3, f4, f5⟩ := last.facts
      have e : (onFile o env').liveMeta = env1.liveMeta := by
        unfold onFile; show env'.file o.live = _; rw [hk]; exact f4
      refine ⟨env1, first, last, ?_, ?_⟩
      · unfold readTxn; rw [e]
      · show metaTxnid (onFile o env').liveMeta + 1 = metaTxnid env'.liveMeta
        rw [e, f5]

/-- C95 is false: a commit through the first handle, then a transaction of a second handle that was opened before. The second one starts from the state before the commit, under
the very id of that commit, and its own commit overwrites the meta page of the first. -/
theorem other_handle_overwrites {fuel fuel' : Nat} {env env1 o o1 o2 : Env} {t t' : Txn} (s : Step fuel env env1) (ho : o.live = env.live)
    (hb : beginWrite (onFile o env1) = some (o1, t)) (hops : Ops o1 t t') (hd : t'.dirty ≠ [])
    (hid : metaTxnid env1.liveMeta < 2 ^ 64) (hc : commit o1 fuel' t' = .ok (.success, o2)) :
    t.root = metaRoot env.liveMeta ∧ t.txnid = metaTxnid env1.liveMeta ∧
    metaTxnid o2.liveMeta = metaTxnid env1.liveMeta ∧ o2.live = env1.live ∧ readTxn (onFile env1 o2) = readTxn o2 := by
  obtain ⟨f1, f2, f3, f4, f5⟩ := s.facts
  have hlm : (onFile o env1).liveMeta = env.liveMeta := by
    unfold onFile; show env1.file o.live = _; rw [ho]; exact f4
  have ht : t.txnid = metaTxnid env1.liveMeta ∧ t.root = metaRoot env.liveMeta ∧ o1.live = o.live := by
    unfold beginWrite at hb
    split at hb
    · cases hb
    · cases hb
      refine ⟨?_, ?_, rfl⟩
      · simp only [hlm]; rw [f5] at hid ⊢; exact Nat.mod_eq_of_lt hid
      · simp only [hlm]
  obtain ⟨ht1, ht2, ht3⟩ := ht
  have ht' : t'.txnid = metaTxnid env1.liveMeta := ops_inv (closed_txnid _ _) hops ht1
  have hst : staleMeta o1 = env1.live := by
    unfold staleMeta; rw [ht3, ho]; split <;> omega
  unfold commit at hc
  rcases commitWith_cases hd hc with ⟨e, h1, h2, -⟩ | ⟨_, _, _, _, _, h, _⟩ | ⟨acts, h1, -, -, rfl⟩
  · exact absurd h2.symm (commitActs_err h1)
  · cases h
  · obtain ⟨A, root, last, free, rfl⟩ := commitActs_meta (alloc_inv (closed_txnid _ _) fuel') h1
    have hw := (written (env := o1) (A := A) (B := [Act.sync]) (p := metaPage t'.txnid root last free) (n := staleMeta o1) (by simp)).1
    have hl : ({ runActs o1 (A ++ [Act.write (staleMeta o1) (metaPage t'.txnid root last free), .sync]) with
        locked := false, live := staleMeta o1 } : Env).liveMeta = metaPage t'.txnid root last free := hw
    refine ⟨ht2, ht1, ?_, hst, ?_⟩
    · rw [hl, metaPage_txnid, ht', Nat.mod_eq_of_lt hid]
    · unfold readTxn onFile Env.liveMeta
      simp only [hst]

/-- A second handle can begin to write while the first one writes. -/
theorem two_writers {env env1 o : Env} {t : Txn} (_ : beginWrite env = some (env1, t)) (ho : o.locked = false) : ∃ o1 t', beginWrite (onFile o env1) = some (o1, t') := by
  unfold beginWrite
  rw [if_neg (by unfold onFile; simp [ho])]
  exact ⟨_, _, rfl⟩

/-- C95 is false: two handles are opened on a new database; one stores `a`, the other `b`, one after the other, and all calls report success. Opened again, the database has no `a`. -/
theorem update_lost :
    ∃ sts env1 sts' env2 env3, envCreate 20 = .ok newDb ∧ session newDb [([97], [1])] = .ok (sts, env1) ∧ session (onFile newDb env1) [([98], [2])] = .ok (sts', env2) ∧
      (∀ s ∈ sts ++ sts', s = .success) ∧ look env1 [97] = .ok (.ok [1]) ∧ look (onFile newDb env1) [97] = .ok (.error .notfound) ∧
      envOpen env2.file env2.filePages 20 = .ok (.ok env3) ∧ look env3 [97] = .ok (.error .notfound) ∧ look env3 [98] = .ok (.ok [2]) := by
  have h : Res.holds (session newDb [([97], [1])]) (fun a => a.1.all (· == .success) && Res.holds (look a.2 [97]) (fun x => match x with | .ok v => v == [1] | _ => false) &&
      Res.absent (look (onFile newDb a.2) [97]) && Res.holds (session (onFile newDb a.2) [([98], [2])]) fun b => b.1.all (· == .success) &&
        Res.holds (envOpen b.2.file b.2.filePages 20) fun x => match x with
          | .error _ => false
          | .ok e => Res.absent (look e [97]) && Res.holds (look e [98]) (fun x => match x with | .ok v => v == [2] | _ => false)) = true := by decide +kernel
  have hv : ∀ {r : Res (Except Status Bytes)} {v}, Res.holds r (fun x => match x with | .ok w => w == v | _ => false) = true → r = .ok (.ok v) := by
    intro r v h
    obtain ⟨x, e1, e2⟩ := Res.holds_iff h
    cases x with
    | error e => cases e2
    | ok w => simp only [beq_iff_eq] at e2; rw [e1, e2]
  obtain ⟨⟨sts, env1⟩, h1, h2⟩ := Res.holds_iff h
  simp only [Bool.and_eq_true] at h2
  obtain ⟨⟨⟨h2, h3⟩, h4⟩, h5⟩ := h2
  obtain ⟨⟨sts', env2⟩, h6, h7⟩ := Res.holds_iff h5
  simp only [Bool.and_eq_true] at h7
  obtain ⟨h7, h8⟩ := h7
  obtain ⟨x, h9, h10⟩ := Res.holds_iff h8
  cases x with
  | error e => cases h10
  | ok env3 =>
    simp only [Bool.and_eq_true] at h10
    refine ⟨sts, env1, sts', env2, env3, rfl, h1, h6, ?_, hv h3, Res.absent_iff h4, h9, Res.absent_iff h10.1, hv h10.2⟩
    simp only [List.all_eq_true, beq_iff_eq] at h2 h7
    intro s hs
    rcases List.mem_append.mp hs with hs | hs
    · exact h2 s hs
    · exact h7 s hs

theorem newDb_step : Step 5 newDb (afterPut newDb [97] [1]) := by
  obtain ⟨env0, e1, -, e2⟩ := create_empty (mapPages := 20) (by omega) (by omega)
  cases e1
  exact step_goodPut e2 (by decide +kernel) (by decide) rfl (by decide +kernel)

/-- `other_handle_partial` applies: the second handle does not see the commit. -/
example : (readTxn (onFile newDb (afterPut newDb [97] [1]))).txnid + 1 = (readTxn (afterPut newDb [97] [1])).txnid := by
  obtain ⟨-, h⟩ := other_handle_partial (o := newDb) (.snoc .nil newDb_step) (by decide) rfl
  obtain ⟨prev, -, -, -, h⟩ := h rfl
  exact h

/-! ## Examples for `Verif.Db.HandleProps` -/

def exHandle : Handle := (setMapsize newHandle 81920).2

/-- Creation with all calls succeeding, with a mapping that fails, and a second try after that. -/
example : ∃ s1 h1, openHandle calm ⟨false, true⟩ ⟨none, 3, 0⟩ exHandle = .ok (.ok, s1, h1) ∧ s1.fds = 4 ∧ s1.path = some emptyDisk := by
  obtain ⟨s1, h1, e, e2⟩ := (open_missing (fl := ⟨false, true⟩) (s := ⟨none, 3, 0⟩) (h := exHandle) (by decide) rfl).1 rfl rfl
  obtain ⟨-, ⟨-, f, -⟩ | ⟨f, -⟩⟩ := open_all_or_nothing ⟨rfl, rfl, rfl⟩ e
  · exact ⟨s1, h1, e, f, e2⟩
  · exact absurd rfl f

example : ∃ s1 h1, openHandle (· == .map) ⟨false, true⟩ ⟨none, 3, 0⟩ exHandle = .ok (.os .map, s1, h1) ∧ s1.fds = 3 ∧
    ∃ s2 h2, openHandle calm ⟨false, true⟩ s1 exHandle = .ok (.inval, s2, h2) := by
  refine ⟨_, _, rfl, rfl, ?_⟩
  exact (open_existing (by decide) rfl).2.1 (by decide) (zeros_not_recognised _)

/-- A history of a handle: a creation that fails late, a second opening, closing. -/
example : ∃ s' h', Lives ⟨none, 3, 0⟩ newHandle [.size 81920, .opens (· == .lock) ⟨false, true⟩, .opens calm ⟨true, false⟩, .close] s' h' := by
  have h0 : ∃ s1 h1, openHandle (· == .lock) ⟨false, true⟩ ⟨none, 3, 0⟩ exHandle = .ok (.os .lock, s1, h1) := by
    obtain ⟨env, e, -⟩ := create_opened (mp := pagesIn exHandle.mapsize) (by decide)
    simp [openHandle, fileOpen, mapFile, initMeta, exHandle, setMapsize, newHandle] at e ⊢
    rw [e]
    exact ⟨_, _, rfl⟩
  obtain ⟨s1, h1, e1⟩ := h0
  obtain ⟨e4, ⟨e, -⟩ | ⟨-, -, -, e2, -⟩⟩ := open_all_or_nothing ⟨rfl, rfl, rfl⟩ e1
  · cases e
  obtain ⟨-, h⟩ | ⟨-, h⟩ | ⟨-, h⟩ | ⟨e3, -⟩ := failed_creation rfl e1 (by simp)
  · simp at h
  · simp at h
  · simp at h
  obtain ⟨s2, h2, e5⟩ := (open_existing (fl := ⟨true, false⟩) (by rw [e4]; decide) e3).1 (by decide) emptyDisk_recognised
  exact ⟨_, _, .size (.opens ⟨rfl, rfl, rfl⟩ e1 (.opens e2 e5 (.close (.nil _ _))))⟩

/-- A transaction on a handle opened read-only stores a key and cannot be committed. -/
example : ∃ env1 t t' env', beginWrite newDb = some (env1, t) ∧ put env1 7 t [97] [1] = .ok (.success, t') ∧ t'.dirty ≠ [] ∧
    commitOn false (alloc env1 7) env1 t' = .ok (.general, env') := by
  have h : (match beginWrite newDb with
    | none => false
    | some (env1, t) => Res.holds (put env1 7 t [97] [1]) fun r => r.1 == .success && !r.2.dirty.isEmpty &&
        Res.holds (commitOn false (alloc env1 7) env1 r.2) fun c => c.1 == .general) = true := by decide +kernel
  cases hb : beginWrite newDb with
  | none => rw [hb] at h; cases h
  | some r =>
    obtain ⟨env1, t⟩ := r
    rw [hb] at h
    obtain ⟨⟨st, t'⟩, h1, h2⟩ := Res.holds_iff h
    simp only [Bool.and_eq_true, beq_iff_eq] at h2
    obtain ⟨⟨rfl, h3⟩, h4⟩ := h2
    obtain ⟨⟨st2, env'⟩, h5, h6⟩ := Res.holds_iff h4
    simp only [beq_iff_eq] at h6
    subst h6
    exact ⟨env1, t, t', env', rfl, h1, (by intro e; simp [e] at h3), h5⟩

end Verif.Db
