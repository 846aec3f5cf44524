import Verif.Db.SnapProps
import Verif.Db.Witness

/-!
# Histories that meet the conditions of the transaction properties
-/

namespace Verif.Db

open Verif.Page

/-- One `put` into an empty tree, or into a single leaf with room for it, while there is no Free DB. -/
theorem body_one {env : Env} {fuel id fr : Nat} {F : List Nat} {t t1 : Txn} {m : KvMap} {k v : Bytes} (hq : fr = 0)
    (hsz : 4 + k.length + v.length < 65536) (hl : t.newLast + 2 < 2 ^ 64) (hm : m k = none)
    (hleaf : t.root = 0 ∨ ∃ p, getPage env t t.root = .ok p ∧ isLeaf p = true ∧ 4 + k.length + v.length + 2 ≤ room p)
    (hrun : put env (fuel + 2) t k v = .ok (.success, t1)) : Body env fuel id fr F t m [.put k v] t1 := by
  refine .put (fun h hh => ?_) (.inl (.none hq)) hrun (.nil _ _)
  have h0 : h = 0 := by
    rcases hleaf with h0 | ⟨p, hp, hl, -⟩
    · exact hh.2 h0
    · exact height_zero hh hp hl
  subst h0
  refine ⟨hsz, by decide, by omega, fun _ hr => ?_, fun h => absurd hm h⟩
  rcases hleaf with h0 | ⟨p, hp, -, hroom⟩
  · exact absurd h0 hr
  · intro q hq hr
    rw [hp] at hq; cases hq
    omega

/-- A check that one `put` in a new write transaction, and its commit, meet the conditions. -/
def goodPut (env : Env) (k v : Bytes) : Bool :=
  decide (metaTxnid env.liveMeta + 1 < 2 ^ 64) && metaFree env.liveMeta == 0 && match beginWrite env with
  | none => false
  | some (env1, t) => decide (t.newLast + 2 < 2 ^ 64) &&
    (t.root == 0 || Res.holds (getPage env1 t t.root) fun p => isLeaf p && decide (4 + k.length + v.length + 2 ≤ room p)) &&
    Res.holds (put env1 7 t k v) fun r => r.1 == .success && decide (r.2.newLast + 1 < env.mapPages) &&
      decide (8 * r.2.freed.length + 14 ≤ 4078) && Res.holds (commit env1 7 r.2) fun c => c.1 == .success

/-- The environment after it. -/
def afterPut (env : Env) (k v : Bytes) : Env :=
  match beginWrite env with
  | none => env
  | some (env1, t) => match put env1 7 t k v with
    | .ok r => match commit env1 7 r.2 with
      | .ok c => c.2
      | _ => env
    | _ => env

theorem run_goodPut {env env' : Env} {m m' : KvMap} {k v : Bytes} (h : goodPut env k v = true) (hsz : 4 + k.length + v.length < 65536)
    (hm : m k = none) (rest : Run 5 (afterPut env k v) (m.put k v) env' m') : Run 5 env m env' m' := by
  unfold goodPut at h
  simp only [Bool.and_eq_true, decide_eq_true_eq, beq_iff_eq] at h
  obtain ⟨⟨h1, h2⟩, h3⟩ := h
  cases hb : beginWrite env with
  | none => rw [hb] at h3; cases h3
  | some r =>
    obtain ⟨env1, t⟩ := r
    rw [hb] at h3
    simp only [Bool.and_eq_true, decide_eq_true_eq, beq_iff_eq, Bool.or_eq_true] at h3
    obtain ⟨⟨h4, h5⟩, h6⟩ := h3
    obtain ⟨⟨st, t1⟩, g1, g2⟩ := Res.holds_iff h6
    simp only [Bool.and_eq_true, decide_eq_true_eq, beq_iff_eq] at g2
    obtain ⟨⟨⟨rfl, g3⟩, g4⟩, g5⟩ := g2
    obtain ⟨⟨st2, env2⟩, c1, c2⟩ := Res.holds_iff g5
    simp only [beq_iff_eq] at c2
    subst c2
    have : afterPut env k v = env2 := by unfold afterPut; rw [hb]; simp only; rw [g1]; simp only; rw [c1]
    rw [this] at rest
    refine .commit (ops := [.put k v]) h1 hb (fun h hf fl _ => ⟨?_, fun _ _ => g4, fun _ h => absurd h2 h⟩) g3 c1 rest
    refine body_one h2 hsz h4 hm ?_ g1
    rcases h5 with h5 | h5
    · exact .inl h5
    · obtain ⟨p, e1, e2⟩ := Res.holds_iff h5
      simp only [Bool.and_eq_true, decide_eq_true_eq] at e2
      exact .inr ⟨p, e1, e2.1, e2.2⟩

/-- A new database with room for 20 pages. -/
def newDb : Env :=
  ⟨fun n => if n = 0 then metaPage 0 0 1 0 else if n = 1 then metaPage 1 0 1 0 else zeroPage, 2, 20, 1, false, List.replicate maxReaders noSlot⟩

/-- A history that meets the conditions of `history_of_database_partial`: two write transactions store
`a` and `b`, the second one into the leaf of the first, which is then listed in the Free DB; a
transaction is aborted; the environment is closed and opened again. -/
theorem demo_run : ∃ env', envCreate 20 = .ok newDb ∧
    Run 5 newDb (fun _ => none) env' (KvMap.put (KvMap.put (fun _ => none) [97] [1]) [98] [2]) ∧ metaFree env'.liveMeta ≠ 0 := by
  have g1 : goodPut newDb [97] [1] = true := by decide +kernel
  have g2 : goodPut (afterPut newDb [97] [1]) [98] [2] = true := by decide +kernel
  have g3 : Res.holds (envOpen (afterPut (afterPut newDb [97] [1]) [98] [2]).file (afterPut (afterPut newDb [97] [1]) [98] [2]).filePages 20) (fun x =>
    match x with | .error _ => false | .ok e => metaFree e.liveMeta != 0 && metaLast (afterPut (afterPut newDb [97] [1]) [98] [2]).liveMeta < 20 &&
      !(afterPut (afterPut newDb [97] [1]) [98] [2]).locked) = true := by decide +kernel
  obtain ⟨x, x1, x2⟩ := Res.holds_iff g3
  cases x with
  | error e => cases x2
  | ok env' =>
    simp only [Bool.and_eq_true, bne_iff_ne, decide_eq_true_eq, Bool.not_eq_true'] at x2
    obtain ⟨⟨x2, x3⟩, x4⟩ := x2
    refine ⟨env', rfl, run_goodPut g1 (by decide) rfl (run_goodPut g2 (by decide) rfl ?_), x2⟩
    generalize afterPut (afterPut newDb [97] [1]) [98] [2] = e at *
    have hb : beginWrite e = some ({ e with locked := true },
        ⟨false, (metaTxnid e.liveMeta + 1) % 2 ^ 64, metaRoot e.liveMeta, metaFree e.liveMeta, metaLast e.liveMeta, [], []⟩) := by
      unfold beginWrite; rw [if_neg (by simp [x4])]
    refine .abort hb ?_
    rw [abort_restores hb]
    exact .reopen x3 (by decide) x1 (.nil _ _)

/-- The conditions of `crash_first_load_partial`: the first transaction stores `a`. -/
example : ∃ env1 t t' acts, beginWrite newDb = some (env1, t) ∧ Body env1 5 2 0 [0, 1] t (fun _ => none) [.put [97] [1]] t' ∧
    t'.newLast + 1 < 20 ∧ t'.dirty ≠ [] ∧ commitActs (alloc env1 7) env1 t' = .ok (.ok acts) ∧ acts.length = 6 ∧
    Crash env1 (acts.take 4) (runActs env1 (acts.take 4)).file := by
  have h : (match beginWrite newDb with
    | none => false
    | some (env1, t) => t.root == 0 && decide (t.newLast + 2 < 2 ^ 64) && Res.holds (put env1 7 t [97] [1]) fun r => r.1 == .success &&
      decide (r.2.newLast + 1 < 20) && !r.2.dirty.isEmpty && Res.holds (commitActs (alloc env1 7) env1 r.2) fun c => match c with
        | .error _ => false
        | .ok acts => decide (acts.length = 6) && (match (acts.take 4).getLast? with | some .sync => true | _ => false)) = true := by decide +kernel
  cases hb : beginWrite newDb with
  | none => rw [hb] at h; cases h
  | some r =>
    obtain ⟨env1, t⟩ := r
    rw [hb] at h
    simp only [Bool.and_eq_true, decide_eq_true_eq, beq_iff_eq] at h
    obtain ⟨⟨h1, h2⟩, h3⟩ := h
    obtain ⟨⟨st, t'⟩, g1, g2⟩ := Res.holds_iff h3
    simp only [Bool.and_eq_true, decide_eq_true_eq, beq_iff_eq, Bool.not_eq_true'] at g2
    obtain ⟨⟨⟨rfl, g3⟩, g4⟩, g5⟩ := g2
    obtain ⟨c, c1, c2⟩ := Res.holds_iff g5
    cases c with
    | error e => cases c2
    | ok acts =>
      simp only [Bool.and_eq_true, decide_eq_true_eq] at c2
      refine ⟨env1, t, t', acts, rfl, body_one rfl (by decide) h2 rfl (.inl h1) g1, g3, (by intro h; rw [h] at g4; cases g4), c1, c2.1, ?_⟩
      have c3 := c2.2
      split at c3
      · rename_i hl
        obtain ⟨l, hl⟩ := List.getLast?_eq_some_iff.1 hl
        rw [hl]; exact crash_synced
      · cases c3

/-- A state with two keys and a Free DB, as the hypotheses of the properties have it. -/
theorem demo_state : ∃ env h hf fl, DbOk env h hf (KvMap.put (KvMap.put (fun _ => none) [97] [1]) [98] [2]) fl ∧ metaFree env.liveMeta ≠ 0 := by
  obtain ⟨env', h1, h2, h3⟩ := demo_run
  obtain ⟨env0, e1, -, e2⟩ := create_empty (mapPages := 20) (by decide) (by decide)
  rw [h1] at e1; cases e1
  obtain ⟨h, hf, fl, hdb⟩ := run_refines_partial h2 e2
  exact ⟨env', h, hf, fl, hdb, h3⟩

/-- `snapshot_kept_partial`: a reader of that state, while a write transaction is begun and aborted. -/
example : ∃ env h hf m fl, DbOk env h hf m fl ∧ m [97] = some [1] ∧ ∀ env1 r, beginRead env 1 1 = .ok (env1, r) →
    Later (treePages (mapPage env) h (metaRoot env.liveMeta)) env1 (abortWrite { env1 with locked := true }) := by
  obtain ⟨env, h, hf, fl, hdb, -⟩ := demo_state
  exact ⟨env, h, hf, _, fl, hdb, by decide, fun env1 r _ => .other _ (.refl _) rfl rfl rfl⟩

/-- `snapshot_kept_partial` with a commit that writes: a reader of an empty database, while a write
transaction on it commits. -/
example {t : Txn} {st : Status} {env1 env2 : Env} (hc : commit env1 7 t = .ok (st, env2)) : Later [] env1 env2 :=
  .commit (.refl _) hc (by simp)

/-- `pages_fresh_partial` on a new database. -/
example : ∃ env env1 t, envCreate 20 = .ok env ∧ beginWrite env = some (env1, t) ∧ Writing env1 2 0 0 [0, 1] t 0 (fun _ => none) ∧
    Quiet env1 2 0 [0, 1] 5 := by
  obtain ⟨env0, e1, e2, e3⟩ := create_empty (mapPages := 20) (by decide) (by decide)
  have e0 : envCreate 20 = .ok newDb := rfl
  rw [e0] at e1; cases e1
  have hid : metaTxnid newDb.liveMeta = 1 := metaPage_txnid _ _ _ _
  have hfr : metaFree newDb.liveMeta = 0 := metaPage_free _ _ _ _
  have hrt : metaRoot newDb.liveMeta = 0 := metaPage_root _ _ _ _
  have hoff : offLimits newDb 0 = [0, 1] := by unfold offLimits treePages; rw [hfr]; rfl
  obtain ⟨env1, t, b1, -, -, b3⟩ := begin_writing e3 e2 (by rw [hid]; decide)
  rw [hid, hfr, hrt, hoff] at b3
  exact ⟨newDb, env1, t, rfl, b1, b3, .none rfl⟩

end Verif.Db
