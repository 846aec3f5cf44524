import Verif.Db.Props
import Verif.Db.TxnModel

/-!
# Sessions on a small database: where the properties of transactions fail

Concrete histories on which C50, C51, C52 and C55 are false.  All operations in them report success.
-/

namespace Verif.Db

open Verif.Page

/-- One write transaction: begin, `put` each pair, commit.  The statuses in order. -/
def session (env : Env) (l : List (Bytes × Bytes)) : Res (List Status × Env) :=
  match beginWrite env with
  | none => .div
  | some (env, t) => do
    let a ← puts env 5 t l
    let c ← commit env 5 a.2
    .ok (a.1 ++ [c.1], c.2)

/-- Write transactions one after the other. -/
def sessions (env : Env) : List (List (Bytes × Bytes)) → Res (List Status × Env)
  | [] => .ok ([], env)
  | l :: rest => do
    let a ← session env l
    let b ← sessions a.2 rest
    .ok (a.1 ++ b.1, b.2)

/-- A new database with room for 20 pages, and write transactions on it. -/
def demo (ls : List (List (Bytes × Bytes))) : Res (List Status × Env) := do
  let e ← envCreate 20
  sessions e ls

/-- What a new read transaction finds for a key. -/
def look (env : Env) (k : Bytes) : Res (Except Status Bytes) := get env (readTxn env) 5 k

def Res.holds (r : Res α) (p : α → Bool) : Bool :=
  match r with
  | .ok a => p a
  | _ => false

theorem Res.holds_iff {r : Res α} {p : α → Bool} (h : Res.holds r p = true) : ∃ a, r = .ok a ∧ p a = true := by
  cases r with
  | ok a => exact ⟨a, rfl, h⟩
  | ub => cases h
  | div => cases h

/-- Not found? -/
def Res.absent (r : Res (Except Status Bytes)) : Bool := Res.holds r fun x => match x with | .error .notfound => true | _ => false

theorem Res.absent_iff {r : Res (Except Status Bytes)} (h : Res.absent r = true) : r = .ok (.error .notfound) := by
  obtain ⟨x, rfl, hx⟩ := Res.holds_iff h
  revert hx
  cases x with
  | ok v => intro h; cases h
  | error e => cases e <;> intro h <;> first | rfl | cases h

/-- Found? -/
def Res.found (r : Res (Except Status Bytes)) : Bool := Res.holds r fun x => match x with | .ok _ => true | _ => false

theorem Res.found_iff {r : Res (Except Status Bytes)} (h : Res.found r = true) : ∃ v, r = .ok (.ok v) := by
  obtain ⟨x, rfl, hx⟩ := Res.holds_iff h
  revert hx
  cases x with
  | ok v => intro _; exact ⟨v, rfl⟩
  | error e => intro h; cases h

/-- C50 is false in general: three write transactions, each storing one value of 1900 bytes, all report
success; after the third one the key of the first is gone. -/
theorem committed_key_lost :
    ∃ sts env, demo [[([97], val2)], [([98], val2)], [([99], val2)]] = .ok (sts, env) ∧ (∀ s ∈ sts, s = .success) ∧
      look env [97] = .ok (.error .notfound) := by
  have h : Res.holds (demo [[([97], val2)], [([98], val2)], [([99], val2)]])
      (fun r => r.1.all (· == .success) && Res.absent (look r.2 [97])) = true := by decide +kernel
  obtain ⟨⟨sts, env⟩, h1, h2⟩ := Res.holds_iff h
  simp only [Bool.and_eq_true, List.all_eq_true, beq_iff_eq] at h2
  exact ⟨sts, env, h1, h2.1, Res.absent_iff h2.2⟩


/-! ## Lookups that never end -/

/-- The child of page `n` on the way to `key`, if `n` is a branch. -/
def descend (env : Env) (t : Txn) (key : Bytes) (n : Nat) : Option Nat :=
  match getPage env t n with
  | .ok p => if isLeaf p then none else if !isBranch p then none else
    match childIdx p key with
    | .ok i => match child p i with
      | .ok c => some c
      | _ => none
    | _ => none
  | _ => none

theorem findLeaf_descend {env : Env} {t : Txn} {key : Bytes} {n c : Nat} (h : descend env t key n = some c) (fuel : Nat) :
    findLeaf env t key (fuel + 1) n = findLeaf env t key fuel c := by
  unfold descend at h
  rw [findLeaf]
  split at h
  · rename_i p hp
    rw [hp, Res.ok_bind]
    split at h
    · cases h
    · rename_i h1
      rw [if_neg h1]
      split at h
      · cases h
      · rename_i h2
        rw [if_neg h2]
        split at h
        · rename_i i hi
          rw [hi, Res.ok_bind]
          split at h
          · rename_i c' hc
            cases h
            rw [hc, Res.ok_bind]
          · cases h
        · cases h
  · cases h

/-- A set of pages that the way to `key` never leaves. -/
def trap (env : Env) (t : Txn) (key : Bytes) (S : List Nat) : Bool :=
  S.all fun n => match descend env t key n with | some c => S.contains c | none => false

/-- From such a page the lookup takes more steps than any bound. -/
theorem trap_diverges {env : Env} {t : Txn} {key : Bytes} {S : List Nat} (h : trap env t key S = true) (fuel : Nat) :
    ∀ n ∈ S, findLeaf env t key fuel n = .div := by
  induction fuel with
  | zero => intro n _; rfl
  | succ f ih =>
    intro n hn
    unfold trap at h
    have := List.all_eq_true.1 h n hn
    split at this
    · rename_i c hc
      rw [findLeaf_descend hc]
      exact ih c (by simpa using this)
    · cases this

theorem get_diverges {env : Env} {t : Txn} {key : Bytes} {S : List Nat} (h : trap env t key S = true) (h0 : t.root ≠ 0) (hr : t.root ∈ S)
    (fuel : Nat) : get env t fuel key = .div := by
  unfold get
  rw [if_neg h0, trap_diverges h fuel _ hr]
  rfl

/-- C50 is false in a second way: after these four write transactions, all successful, looking up a
stored key does not end. -/
theorem committed_key_unreachable :
    ∃ sts env, demo [[([97], val2)], [([98], val2)], [([99], [1])], [([100], val2)]] = .ok (sts, env) ∧ (∀ s ∈ sts, s = .success) ∧
      ∀ fuel, get env (readTxn env) fuel [97] = .div := by
  have h : Res.holds (demo [[([97], val2)], [([98], val2)], [([99], [1])], [([100], val2)]])
      (fun r => r.1.all (· == .success) && (readTxn r.2).root == 2 && trap r.2 (readTxn r.2) [97] [2]) = true := by decide +kernel
  obtain ⟨⟨sts, env⟩, h1, h2⟩ := Res.holds_iff h
  simp only [Bool.and_eq_true, List.all_eq_true, beq_iff_eq] at h2
  exact ⟨sts, env, h1, h2.1.1, get_diverges h2.2 (by rw [h2.1.2]; decide) (by rw [h2.1.2]; simp)⟩

/-! ## A page in use is handed out -/

/-- C55 is false: after two transactions of one `put` each, the first page that a third one allocates
is the root of its own tree. -/
theorem live_page_handed_out :
    ∃ sts env env' t n t', demo [[([97], [1])], [([98], [2])]] = .ok (sts, env) ∧ (∀ s ∈ sts, s = .success) ∧
      beginWrite env = some (env', t) ∧ alloc env' 5 t = .ok (n, t') ∧ t.root ≠ 0 ∧ n = t.root ∧ n = (readTxn env).root := by
  have h : Res.holds (demo [[([97], [1])], [([98], [2])]])
      (fun r => r.1.all (· == .success) && match beginWrite r.2 with
        | none => false
        | some p => p.2.root != 0 && p.2.root == (readTxn r.2).root && Res.holds (alloc p.1 5 p.2) fun a => a.1 == p.2.root) = true := by decide +kernel
  obtain ⟨⟨sts, env⟩, h1, h2⟩ := Res.holds_iff h
  simp only [Bool.and_eq_true, List.all_eq_true, beq_iff_eq] at h2
  obtain ⟨h2, h3⟩ := h2
  split at h3
  · cases h3
  · rename_i p hp
    simp only [Bool.and_eq_true, beq_iff_eq, bne_iff_ne] at h3
    obtain ⟨⟨h3, h4⟩, h5⟩ := h3
    obtain ⟨⟨n, t'⟩, h6, h7⟩ := Res.holds_iff h5
    simp only [beq_iff_eq] at h7
    exact ⟨sts, env, p.1, p.2, n, t', h1, h2, hp, h6, h3, h7, h7.trans h4⟩

/-- C55 is false also with a reader: the page that is handed out is the root of the snapshot of the
read transaction that is open. -/
theorem reader_page_handed_out :
    ∃ sts env env' r env'' t n t', demo [[([97], [1])], [([98], [2])], [([97], [3])]] = .ok (sts, env) ∧ (∀ s ∈ sts, s = .success) ∧
      beginRead env 1 1 = .ok (env', r) ∧ beginWrite env' = some (env'', t) ∧ oldestReader env''.readers = r.txnid ∧
      alloc env'' 5 t = .ok (n, t') ∧ r.root ≠ 0 ∧ n = r.root := by
  have h : Res.holds (demo [[([97], [1])], [([98], [2])], [([97], [3])]])
      (fun r => r.1.all (· == .success) && match beginRead r.2 1 1 with
        | .error _ => false
        | .ok q => match beginWrite q.1 with
          | none => false
          | some p => oldestReader p.1.readers == q.2.txnid && q.2.root != 0 && Res.holds (alloc p.1 5 p.2) fun a => a.1 == q.2.root) = true := by decide +kernel
  obtain ⟨⟨sts, env⟩, h1, h2⟩ := Res.holds_iff h
  simp only [Bool.and_eq_true, List.all_eq_true, beq_iff_eq] at h2
  obtain ⟨h2, h3⟩ := h2
  split at h3
  · cases h3
  · rename_i q hq
    split at h3
    · cases h3
    · rename_i p hp
      simp only [Bool.and_eq_true, beq_iff_eq, bne_iff_ne] at h3
      obtain ⟨⟨h3, h4⟩, h5⟩ := h3
      obtain ⟨⟨n, t'⟩, h6, h7⟩ := Res.holds_iff h5
      simp only [beq_iff_eq] at h7
      exact ⟨sts, env, q.1, q.2, p.1, p.2, n, t', h1, h2, hq, hp, h3, h6, h4, h7⟩

/-! ## A snapshot changes -/

/-- C52 is false: a read transaction begins when only `a` is stored; a write transaction then stores `b`
and commits; the read transaction, still open, now finds `b`. -/
theorem snapshot_changes :
    ∃ sts env env1 r sts' env2, demo [[([97], [1])]] = .ok (sts, env) ∧ beginRead env 1 1 = .ok (env1, r) ∧
      get env1 r 5 [98] = .ok (.error .notfound) ∧
      session env1 [([98], [2])] = .ok (sts', env2) ∧ (∀ s ∈ sts ++ sts', s = .success) ∧ ∃ v, get env2 r 5 [98] = .ok (.ok v) := by
  have h : Res.holds (demo [[([97], [1])]])
      (fun d => match beginRead d.2 1 1 with
        | .error _ => false
        | .ok q => Res.absent (get q.1 q.2 5 [98]) && Res.holds (session q.1 [([98], [2])]) fun e =>
          (d.1 ++ e.1).all (· == .success) && Res.found (get e.2 q.2 5 [98])) = true := by decide +kernel
  obtain ⟨⟨sts, env⟩, h1, h2⟩ := Res.holds_iff h
  simp only at h2
  split at h2
  · cases h2
  · rename_i q hq
    simp only [Bool.and_eq_true] at h2
    obtain ⟨h2, h3⟩ := h2
    obtain ⟨⟨sts', env2⟩, h4, h5⟩ := Res.holds_iff h3
    simp only [Bool.and_eq_true, List.all_eq_true, beq_iff_eq] at h5
    exact ⟨sts, env, q.1, q.2, sts', env2, h1, hq, Res.absent_iff h2, h4, h5.1, Res.found_iff h5.2⟩

/-- C52 is false in a second way: a read transaction that has found `b` no longer finds it after
another transaction has stored `c` (the leaf was split in place). -/
theorem snapshot_loses_key :
    ∃ sts env env1 r sts' env2, demo [[([97], val2), ([98], val2)]] = .ok (sts, env) ∧ beginRead env 1 1 = .ok (env1, r) ∧
      (∃ v, get env1 r 5 [98] = .ok (.ok v)) ∧
      session env1 [([99], val2)] = .ok (sts', env2) ∧ (∀ s ∈ sts ++ sts', s = .success) ∧ get env2 r 5 [98] = .ok (.error .notfound) := by
  have h : Res.holds (demo [[([97], val2), ([98], val2)]])
      (fun d => match beginRead d.2 1 1 with
        | .error _ => false
        | .ok q => Res.found (get q.1 q.2 5 [98]) && Res.holds (session q.1 [([99], val2)]) fun e =>
          (d.1 ++ e.1).all (· == .success) && Res.absent (get e.2 q.2 5 [98])) = true := by decide +kernel
  obtain ⟨⟨sts, env⟩, h1, h2⟩ := Res.holds_iff h
  simp only at h2
  split at h2
  · cases h2
  · rename_i q hq
    simp only [Bool.and_eq_true] at h2
    obtain ⟨h2, h3⟩ := h2
    obtain ⟨⟨sts', env2⟩, h4, h5⟩ := Res.holds_iff h3
    simp only [Bool.and_eq_true, List.all_eq_true, beq_iff_eq] at h5
    exact ⟨sts, env, q.1, q.2, sts', env2, h1, hq, Res.found_iff h2, h4, h5.1, Res.absent_iff h5.2⟩

/-! ## A crash -/

theorem crash_synced {env : Env} {acts : List Act} : Crash env (acts ++ [.sync]) (runActs env (acts ++ [.sync])).file := by
  have : synced (acts ++ [.sync]) = acts ++ [.sync] := by simp [synced, Act.isSync]
  exact ⟨fun n b _ => .inl (by rw [this]), fun n _ => .inl (by rw [this])⟩

/-- C51 is false: `a` and `b` are stored, a write transaction stores `c`, and the machine stops after the
pages have been written and synced, before the meta page is.  Opened again, the database is
without `b`: neither the state before (`a`, `b`) nor the state after (`a`, `b`, `c`). -/
theorem crash_loses_key :
    ∃ sts env env1 t sts1 t' acts file fp env', demo [[([97], val2), ([98], val2)]] = .ok (sts, env) ∧ (∃ v, look env [98] = .ok (.ok v)) ∧
      beginWrite env = some (env1, t) ∧ puts env1 5 t [([99], val2)] = .ok (sts1, t') ∧ (∀ s ∈ sts ++ sts1, s = .success) ∧
      commitActs (alloc env1 5) env1 t' = .ok (.ok acts) ∧ Crash env1 (acts.take (acts.length - 2)) file ∧
      envOpen file fp env.mapPages = .ok (.ok env') ∧ look env' [98] = .ok (.error .notfound) := by
  have h : Res.holds (demo [[([97], val2), ([98], val2)]])
      (fun d => Res.found (look d.2 [98]) && match beginWrite d.2 with
        | none => false
        | some p => Res.holds (puts p.1 5 p.2 [([99], val2)]) fun e => (d.1 ++ e.1).all (· == .success) &&
          Res.holds (commitActs (alloc p.1 5) p.1 e.2) fun c => match c with
            | .error _ => false
            | .ok acts => (match (acts.take (acts.length - 2)).getLast? with | some .sync => true | _ => false) &&
              Res.holds (envOpen (runActs p.1 (acts.take (acts.length - 2))).file (runActs p.1 (acts.take (acts.length - 2))).filePages d.2.mapPages) fun f =>
              match f with
              | .error _ => false
              | .ok env' => Res.absent (look env' [98])) = true := by decide +kernel
  obtain ⟨⟨sts, env⟩, h1, h2⟩ := Res.holds_iff h
  simp only [Bool.and_eq_true] at h2
  obtain ⟨h2, h3⟩ := h2
  split at h3
  · cases h3
  · rename_i p hp
    obtain ⟨⟨sts1, t'⟩, h4, h5⟩ := Res.holds_iff h3
    simp only [Bool.and_eq_true, List.all_eq_true, beq_iff_eq] at h5
    obtain ⟨h5, h6⟩ := h5
    obtain ⟨c, h7, h8⟩ := Res.holds_iff h6
    cases c with
    | error e => cases h8
    | ok acts =>
      simp only [Bool.and_eq_true] at h8
      obtain ⟨h8, h9⟩ := h8
      obtain ⟨f, h10, h11⟩ := Res.holds_iff h9
      cases f with
      | error e => cases h11
      | ok env' =>
        split at h8
        · rename_i hl
          obtain ⟨l, hl⟩ := List.getLast?_eq_some_iff.1 hl
          refine ⟨sts, env, p.1, p.2, sts1, t', acts, _, _, env', h1, Res.found_iff h2, hp, h4, h5, h7, ?_, h10, Res.absent_iff h11⟩
          rw [hl]; exact crash_synced
        · cases h8

end Verif.Db
