import Verif.Db.HonestProps
import Verif.Db.Witness

/-!
# Values after a commit that did not come to its end

A commit writes its pages one after another and then the meta page.  A file operation can report an error in between, and the machine can stop; then some of the pages are the new ones
and some the old ones.  Because the allocator hands out pages that are still in use (`live_page_handed_out`), the file then need not hold any one state of the database (C51).  What can still be
said of the values: a lookup gives a value only if it was stored under this key.
-/

namespace Verif.Db

open Verif.Page Honest

/-- A lookup in what a commit has left that did not come to its end. -/
theorem Honest.get_stopped {B : Bytes → Bytes → Prop} {S : Nat → Prop} {env env' : Env} {t : Txn} (W : Part B S env) (F : t.newLast < lim → Fair B S t) {fuel : Nat} {acts : List Act}
    (e1 : commitActs (alloc env fuel) env t = .ok (.ok acts)) (hN : (runActs env acts).filePages ≤ lim) (H : Stopped env acts env') {k v : Bytes}
    (hk : k.length < 65536) (hk8 : k.length ≠ 8) {fuel' : Nat} (e : get env' (readTxn env') fuel' k = .ok (.ok v)) : B k v := by
  obtain ⟨t1, free, rfl, F1, hfree, hlast⟩ := commitActs_fair W F e1 hN
  have hmem : ∀ n p, (n, p) ∈ t1.dirty → t1.getDirty n = some p := fun n p h => (getDirty_mem F1.uniq).2 h
  have hz : ¬ (isLeaf zeroPage = true ∨ isBranch zeroPage = true) := by decide
  have := get_fine (A := May B (Has S t1)) (U := Has S t1) (env := env') (t := readTxn env') (fun n p hn hp hb => by
    unfold getPage at hp
    rw [if_pos (show (readTxn env').rdonly = true from rfl)] at hp
    unfold mapPage at hp
    split at hp
    · rename_i hlen
      rw [← Res.ok.inj hp] at hb ⊢
      have h2 : 2 ≤ n := by
        rcases hn with hn | hn
        · exact (W.base.page n hn).1
        · cases hd : t1.getDirty n with
          | none => rw [hd] at hn; cases hn
          | some q => exact (F1.dirty n q hd).1
      rcases H.page n (by omega) with ⟨h, hf⟩ | ⟨h, hf⟩ | ⟨q, h, hf⟩
      · rw [hf] at hb ⊢
        by_cases hS : S n
        · rcases (W.base.page n hS).2.2 h with h | h
          · rw [h] at hb; exact absurd hb hz
          · exact h.2.mono (fun _ _ m => m.mono fun _ => Or.inl) fun _ => Or.inl
        · rw [W.rest n h2 h hS] at hb; exact absurd hb hz
      · rw [hf] at hb; exact absurd hb hz
      · rw [hf]
        unfold allActs metaActs at h
        rw [List.mem_append, List.mem_append, mem_writeActs] at h
        rcases h with (h | h) | h
        · exact absurd h mem_extendActs
        · exact (F1.dirty n q (hmem n q h)).2.2.2
        · have := stale_lt env
          simp at h; omega
    · cases hp) (by
    have hj := H.live
    have key : ∀ q, env'.file env'.live = q → metaRoot q = 0 ∨ Has S t1 (metaRoot q) := by
      intro q hq
      rcases H.page env'.live (by have := H.two; omega) with ⟨h, hf⟩ | ⟨h, hf⟩ | ⟨p, h, hf⟩
      · rw [← hq, hf]; exact (W.metas _ hj).1.imp_right .inl
      · have := W.two; omega
      · rw [← hq, hf]
        unfold allActs metaActs at h
        rw [List.mem_append, List.mem_append, mem_writeActs] at h
        rcases h with (h | h) | h
        · exact absurd h mem_extendActs
        · have := (F1.dirty _ p (hmem _ p h)).1; omega
        · simp at h
          rw [h.2, metaPage_root]
          rcases F1.root with h | h
          · left; rw [show t1.root = 0 from h]
          · right
            have h : Has S t1 t1.root := h
            rw [Nat.mod_eq_of_lt (lim64 (F1.bound W.base h).2)]; exact h
    exact key _ rfl) hk e
  unfold May at this
  rw [if_neg hk8] at this
  exact this

/-- **C124, commits that do not come to their end.**  After any history of transactions, a further one whose commit stops somewhere, so that some of its pages are in the file and some are not: a
value that a lookup finds in what is left, through either of the two meta pages, was stored under this very key. -/
theorem values_after_stop_partial {ops more : List KvOp} {env env1 env' : Env} (H : Past ops env) (h8 : ∀ k v, KvOp.put k v ∈ ops ++ more → k.length ≠ 8) {t t' : Txn} {fuel fuel' : Nat}
    {sts : List Status} (hb : beginWrite env = some (env1, t)) (hs : steps env1 fuel t more = .ok (sts, t')) {acts : List Act} (hc : commitActs (alloc env1 fuel') env1 t' = .ok (.ok acts))
    (hsize : (runActs env1 acts).filePages ≤ 2 ^ 19) (stop : Stopped env1 acts env') {k v : Bytes} (hk : k.length < 65536) (hk8 : k.length ≠ 8) (fuel'' : Nat)
    (e : get env' (readTxn env') fuel'' k = .ok (.ok v)) : KvOp.put k v ∈ ops ++ more := by
  obtain ⟨S, W⟩ := past_whole H fun k v h => h8 k v (List.mem_append_left _ h)
  have W' : Whole (fun k v => KvOp.put k v ∈ ops ++ more) S env := W.weaken fun k v h => List.mem_append_left _ h
  obtain ⟨W1, F⟩ := begin_fair W' hb
  exact get_stopped W1.part (fun hN => steps_fair W1.base F (fun k v h => ⟨h8 k v (List.mem_append_right _ h), List.mem_append_right _ h⟩) hs hN) hc (by rw [lim_eq]; exact hsize) stop hk hk8 e

/-- **C124, commits that fail.**  The file operation number `i` of the commit reports an error, the commit answers so, and the handle stays open or the file is opened again: a value that a lookup
finds was stored under this very key. -/
theorem values_after_failure_partial {ops more : List KvOp} {env env1 env2 : Env} (H : Past ops env) (h8 : ∀ k v, KvOp.put k v ∈ ops ++ more → k.length ≠ 8) {t t' : Txn} {fuel fuel' i : Nat}
    {sts : List Status} (hb : beginWrite env = some (env1, t)) (hs : steps env1 fuel t more = .ok (sts, t')) {st : Status} (hc : commitWith (alloc env1 fuel') (some i) env1 t' = .ok (st, env2))
    (hsize : ∀ acts, commitActs (alloc env1 fuel') env1 t' = .ok (.ok acts) → (runActs env1 acts).filePages ≤ 2 ^ 19) {k v : Bytes} (hk : k.length < 65536) (hk8 : k.length ≠ 8) (fuel'' : Nat) :
    (get env2 (readTxn env2) fuel'' k = .ok (.ok v) → KvOp.put k v ∈ ops ++ more) ∧
    ∀ mapPages env3, envOpen env2.file env2.filePages mapPages = .ok (.ok env3) → get env3 (readTxn env3) fuel'' k = .ok (.ok v) → KvOp.put k v ∈ ops ++ more := by
  obtain ⟨S, W⟩ := past_whole H fun k v h => h8 k v (List.mem_append_left _ h)
  have W' : Whole (fun k v => KvOp.put k v ∈ ops ++ more) S env := W.weaken fun k v h => List.mem_append_left _ h
  obtain ⟨W1, F⟩ := begin_fair W' hb
  have done : Whole (fun k v => KvOp.put k v ∈ ops ++ more) S env2 → (get env2 (readTxn env2) fuel'' k = .ok (.ok v) → KvOp.put k v ∈ ops ++ more) ∧
      ∀ mapPages env3, envOpen env2.file env2.filePages mapPages = .ok (.ok env3) → get env3 (readTxn env3) fuel'' k = .ok (.ok v) → KvOp.put k v ∈ ops ++ more :=
    fun W2 => ⟨fun e => get_read (t := readTxn env2) W2 rfl (W2.metas env2.live W2.live).1 hk hk8 e, fun _ env3 ho e => by
      have W3 : Whole (fun k v => KvOp.put k v ∈ ops ++ more) S env3 := open_whole W2 ho
      exact get_read (t := readTxn env3) W3 rfl (W3.metas env3.live W3.live).1 hk hk8 e⟩
  unfold commitWith at hc
  split at hc
  · have he := (Prod.mk.inj (Res.ok.inj hc)).2
    exact done (by rw [← he]; exact W1.congr rfl rfl W1.live)
  · obtain ⟨x, e1, hc⟩ := Res.bind_eq_ok.1 hc
    cases x with
    | error s =>
      have he := (Prod.mk.inj (Res.ok.inj hc)).2
      exact done (by rw [← he]; exact W1.congr rfl rfl W1.live)
    | ok acts =>
      have hst : Stopped env1 acts env2 := by
        simp only [] at hc
        split at hc
        · have he := (Prod.mk.inj (Res.ok.inj hc)).2
          rw [← he]
          refine ⟨fun n hn => ?_, Nat.le_trans W1.part.two (runActs_kept _ _).file, ?_⟩
          · rcases runActs_page (acts.take i) hn with h | h | ⟨p, h, hp⟩
            · exact .inl h
            · exact .inr (.inl h)
            · exact .inr (.inr ⟨p, List.mem_of_mem_take h, hp⟩)
          · show (runActs env1 (acts.take i)).live < 2
            rw [(runActs_kept _ _).live]; exact W1.live
        · have he := (Prod.mk.inj (Res.ok.inj hc)).2
          rw [← he]
          exact ⟨fun n hn => runActs_page acts hn, Nat.le_trans W1.part.two (runActs_kept _ _).file, stale_lt env1⟩
      have key := fun env' (h : Stopped env1 acts env') => values_after_stop_partial H h8 hb hs e1 (hsize acts e1) h hk hk8 fuel'' (v := v)
      refine ⟨key _ hst, fun mapPages env3 ho => ?_⟩
      unfold envOpen at ho
      split at ho
      · cases ho
      · split at ho
        · cases ho
        · rename_i l hl
          have he := Except.ok.inj (Res.ok.inj ho)
          rw [← he]
          refine key _ ⟨hst.page, hst.two, ?_⟩
          exact selectLive_lt hl

/-- A commit that fails and yet changes what is found: `a` and `b` are stored, a third transaction stores `c` and something else under `a`, and the commit reports an error when it syncs its pages.
The handle now finds what this transaction stored, because its page is the one that was the root before. -/
example : ∃ env env1 env2 t t' sts, Past [.put [97] [1], .put [98] [2]] env ∧ beginWrite env = some (env1, t) ∧ steps env1 5 t [.put [97] [7, 7], .put [99] [3]] = .ok (sts, t') ∧
    commitWith (alloc env1 5) (some 2) env1 t' = .ok (.general, env2) ∧ (∀ acts, commitActs (alloc env1 5) env1 t' = .ok (.ok acts) → (runActs env1 acts).filePages ≤ 2 ^ 19) ∧
    get env (readTxn env) 5 [97] = .ok (.ok [1]) ∧ get env2 (readTxn env2) 5 [97] = .ok (.ok [7, 7]) := by
  have h : Res.holds (envCreate 20) (fun e => Res.holds (session e [([97], [1])]) fun r => decide (r.2.filePages ≤ 2 ^ 19) && Res.holds (session r.2 [([98], [2])]) fun s =>
      decide (s.2.filePages ≤ 2 ^ 19) && (match beginWrite s.2 with
        | none => false
        | some p => Res.holds (steps p.1 5 p.2 [.put [97] [7, 7], .put [99] [3]]) fun a => Res.holds (commitActs (alloc p.1 5) p.1 a.2) (fun c => match c with
            | .ok acts => decide ((runActs p.1 acts).filePages ≤ 2 ^ 19)
            | .error _ => false) && Res.holds (commitWith (alloc p.1 5) (some 2) p.1 a.2) fun c => decide (c.1 = .general) &&
              Res.holds (look c.2 [97]) fun x => match x with | .ok v => v == [7, 7] | _ => false) && Res.holds (look s.2 [97]) fun x => match x with | .ok v => v == [1] | _ => false) = true := by
    decide +kernel
  obtain ⟨e, h1, h⟩ := Res.holds_iff h
  obtain ⟨⟨s1, e1⟩, h2, h⟩ := Res.holds_iff h
  simp only [Bool.and_eq_true, decide_eq_true_eq] at h
  obtain ⟨h3, h⟩ := h
  obtain ⟨⟨s2, e2⟩, h4, h⟩ := Res.holds_iff h
  simp only [Bool.and_eq_true, decide_eq_true_eq] at h
  obtain ⟨⟨h5, h6⟩, h7⟩ := h
  split at h6
  · cases h6
  · rename_i p hp
    obtain ⟨⟨sts, t'⟩, h8, h9⟩ := Res.holds_iff h6
    simp only [Bool.and_eq_true] at h9
    obtain ⟨ha, hc⟩ := h9
    obtain ⟨⟨st, env2⟩, hd, hc⟩ := Res.holds_iff hc
    simp only [Bool.and_eq_true, decide_eq_true_eq] at hc
    obtain ⟨hst, hc⟩ := hc
    refine ⟨e2, p.1, env2, p.2, t', sts, session_past (session_past (.create h1) h2 h3) h4 h5, hp, h8, by rw [hd, hst], fun acts hx => ?_, ?_, ?_⟩
    · obtain ⟨c, hy, hz⟩ := Res.holds_iff ha
      rw [hx] at hy
      have hy := Res.ok.inj hy
      subst hy
      simpa using hz
    · obtain ⟨x, h8, h9⟩ := Res.holds_iff h7
      unfold look at h8
      rw [h8]
      cases x with
      | error e => cases h9
      | ok v => simp only [beq_iff_eq] at h9; rw [h9]
    · obtain ⟨x, h8, h9⟩ := Res.holds_iff hc
      unfold look at h8
      rw [h8]
      cases x with
      | error e => cases h9
      | ok v => simp only [beq_iff_eq] at h9; rw [h9]

/-! ### Histories that go on after such commits -/

/-- The header of the first page of the file has a small transaction number and a small root, and the file has at most `2 ^ 19` pages. -/
structure Young (env : Env) : Prop where
  txnid : metaTxnid (env.file 0) < 2 ^ 16
  root : metaRoot (env.file 0) < 2 ^ 16
  pages : env.filePages ≤ 2 ^ 19

theorem Honest.young_calm {env : Env} (hv : validMeta (env.file 0) = true) (y : Young env) : Calm env.file env.filePages := by
  have h1 : u16 (env.file 0) 8 + 65536 * (u16 (env.file 0) 10 + 65536 * ule (env.file 0) 12 4) < 65536 := by rw [← u64_halves]; exact y.txnid
  have h2 : u16 (env.file 0) 16 + 65536 * (u16 (env.file 0) 18 + 65536 * ule (env.file 0) 20 4) < 65536 := by rw [← u64_halves]; exact y.root
  have hm : ule (env.file 0) 0 4 = dbMagic := by
    unfold validMeta at hv
    simp only [Bool.and_eq_true, beq_iff_eq] at hv
    exact hv.1
  have h3 : dbMagic ≤ u64 (env.file 0) 0 := by
    rw [← hm]
    show (env.file 0 0).toNat + 256 * ((env.file 0 1).toNat + 256 * ((env.file 0 2).toNat + 256 * ((env.file 0 3).toNat + 256 * 0))) ≤
      (env.file 0 0).toNat + 256 * ((env.file 0 1).toNat + 256 * ((env.file 0 2).toNat + 256 * ((env.file 0 3).toNat + 256 * ule (env.file 0) 4 4)))
    omega
  refine ⟨by show u16 (env.file 0) 10 = 0; omega, fun c hc => ?_⟩
  unfold child at hc
  obtain ⟨o, e1, hc⟩ := Res.bind_eq_ok.1 hc
  obtain ⟨_, -, hc⟩ := Res.bind_eq_ok.1 hc
  unfold rdSlot at e1
  obtain ⟨_, -, e1⟩ := Res.bind_eq_ok.1 e1
  have ho : o = 0 := by
    rw [← Res.ok.inj e1]
    show u16 (env.file 0) 18 = 0
    omega
  have hc := Res.ok.inj hc
  rw [ho] at hc
  have := y.pages
  rw [lim_eq, ← hc]
  have hd : 2 ^ 19 ≤ dbMagic := by decide
  omega

/-- A database that came about as in `Past`, but with commits that stop in the middle too, after which it was used further, in the same process or not.  After each commit and each stop the
database is young. -/
inductive Rough : List KvOp → Env → Prop
  | create {mapPages : Nat} {env : Env} (h : envCreate mapPages = .ok env) : Rough [] env
  | commit {ops more : List KvOp} {env env1 env2 : Env} {t t' : Txn} {fuel fuel' : Nat} {sts : List Status} {st : Status} (past : Rough ops env)
      (hb : beginWrite env = some (env1, t)) (hs : steps env1 fuel t more = .ok (sts, t')) (hc : commit env1 fuel' t' = .ok (st, env2)) (hy : Young env2) : Rough (ops ++ more) env2
  | stop {ops more : List KvOp} {env env1 env' : Env} {t t' : Txn} {fuel fuel' : Nat} {sts : List Status} {acts : List Act} (past : Rough ops env)
      (hb : beginWrite env = some (env1, t)) (hs : steps env1 fuel t more = .ok (sts, t')) (hc : commitActs (alloc env1 fuel') env1 t' = .ok (.ok acts))
      (hsize : (runActs env1 acts).filePages ≤ 2 ^ 19) (stop : Stopped env1 acts env') (hy : Young env') : Rough (ops ++ more) env'
  | abort {ops : List KvOp} {env env1 : Env} {t : Txn} (past : Rough ops env) (hb : beginWrite env = some (env1, t)) : Rough ops (abortWrite env1)
  | reopen {ops : List KvOp} {env env1 : Env} {mapPages : Nat} (past : Rough ops env) (ho : envOpen env.file env.filePages mapPages = .ok (.ok env1)) : Rough ops env1
  | readers {ops : List KvOp} {env : Env} (rs : List Slot) (past : Rough ops env) : Rough ops { env with readers := rs }

theorem Rough.sane {ops : List KvOp} {env : Env} (H : Rough ops env) : 2 ≤ env.filePages ∧ env.live < 2 := by
  have hbegin : ∀ {env env1 : Env} {t : Txn}, beginWrite env = some (env1, t) → 2 ≤ env.filePages ∧ env.live < 2 → 2 ≤ env1.filePages ∧ env1.live < 2 := by
    intro env env1 t hb h
    unfold beginWrite at hb
    split at hb
    · cases hb
    · cases hb; exact h
  induction H with
  | create h => exact ⟨(create_whole (B := fun _ _ => True) h).part.two, (create_whole (B := fun _ _ => True) h).part.live⟩
  | @commit ops more env env1 env2 t t' fuel fuel' sts st past hb hs hc hy ih =>
    have h1 := hbegin hb ih
    unfold Db.commit commitWith at hc
    split at hc
    · rw [← (Prod.mk.inj (Res.ok.inj hc)).2]; exact h1
    · obtain ⟨x, e1, hc⟩ := Res.bind_eq_ok.1 hc
      cases x with
      | error s => rw [← (Prod.mk.inj (Res.ok.inj hc)).2]; exact h1
      | ok acts =>
        rw [← (Prod.mk.inj (Res.ok.inj hc)).2]
        exact ⟨Nat.le_trans h1.1 (runActs_kept _ _).file, stale_lt env1⟩
  | stop past hb hs hc hsize stop hy ih => exact ⟨stop.two, stop.live⟩
  | abort past hb ih => exact (hbegin hb ih : _ ∧ _)
  | reopen past ho ih =>
    unfold envOpen at ho
    split at ho
    · cases ho
    · split at ho
      · cases ho
      · rename_i l hl
        cases ho
        exact ⟨ih.1, selectLive_lt hl⟩
  | readers rs past ih => exact ih

/-- A commit whose file operation number `i` reports an error is such a stop, or writes nothing. -/
theorem Rough.failed {ops more : List KvOp} {env env1 env2 : Env} {t t' : Txn} {fuel fuel' i : Nat} {sts : List Status} {st : Status} (past : Rough ops env)
    (hb : beginWrite env = some (env1, t)) (hs : steps env1 fuel t more = .ok (sts, t')) (hc : commitWith (alloc env1 fuel') (some i) env1 t' = .ok (st, env2))
    (hsize : ∀ acts, commitActs (alloc env1 fuel') env1 t' = .ok (.ok acts) → (runActs env1 acts).filePages ≤ 2 ^ 19)
    (hy : Young env2) : Rough (ops ++ more) env2 ∨ Rough ops env2 := by
  have hb' : 2 ≤ env1.filePages ∧ env1.live < 2 := by
    unfold beginWrite at hb
    split at hb
    · cases hb
    · cases hb; exact past.sane
  unfold commitWith at hc
  split at hc
  · have he := (Prod.mk.inj (Res.ok.inj hc)).2
    exact .inr (by rw [← he]; exact .abort past hb)
  · obtain ⟨x, e1, hc⟩ := Res.bind_eq_ok.1 hc
    cases x with
    | error s =>
      have he := (Prod.mk.inj (Res.ok.inj hc)).2
      exact .inr (by rw [← he]; exact .abort past hb)
    | ok acts =>
      refine .inl (.stop past hb hs e1 (hsize acts e1) ?_ hy)
      simp only [] at hc
      split at hc
      · have he := (Prod.mk.inj (Res.ok.inj hc)).2
        rw [← he]
        refine ⟨fun n hn => ?_, Nat.le_trans hb'.1 (runActs_kept _ _).file, ?_⟩
        · rcases runActs_page (acts.take i) hn with h | h | ⟨p, h, hp⟩
          · exact .inl h
          · exact .inr (.inl h)
          · exact .inr (.inr ⟨p, List.mem_of_mem_take h, hp⟩)
        · show (runActs env1 (acts.take i)).live < 2
          rw [(runActs_kept _ _).live]; exact hb'.2
      · have he := (Prod.mk.inj (Res.ok.inj hc)).2
        rw [← he]
        exact ⟨fun n hn => runActs_page acts hn, Nat.le_trans hb'.1 (runActs_kept _ _).file, stale_lt env1⟩

theorem rough_part {ops : List KvOp} {env : Env} (H : Rough ops env) : (∀ k v, KvOp.put k v ∈ ops → k.length ≠ 8) →
    ∃ S, Part (fun k v => KvOp.put k v ∈ ops) S env := by
  induction H with
  | create h =>
    intro _
    exact ⟨_, (create_whole h).part⟩
  | @commit ops more env env1 env2 t t' fuel fuel' sts st past hb hs hc hy ih =>
    intro h8
    obtain ⟨S, W⟩ := ih fun k v h => h8 k v (List.mem_append_left _ h)
    have W' : Part (fun k v => KvOp.put k v ∈ ops ++ more) S env := W.weaken fun k v h => List.mem_append_left _ h
    obtain ⟨W1, F, -⟩ := begin_part W' hb
    exact commit_part W1 (fun hN => steps_fair W1.base F (fun k v h => ⟨h8 k v (List.mem_append_right _ h), List.mem_append_right _ h⟩) hs hN) hc
      (by rw [lim_eq]; exact hy.pages) fun hv => young_calm hv hy
  | @stop ops more env env1 env' t t' fuel fuel' sts acts past hb hs hc hsize stop hy ih =>
    intro h8
    obtain ⟨S, W⟩ := ih fun k v h => h8 k v (List.mem_append_left _ h)
    have W' : Part (fun k v => KvOp.put k v ∈ ops ++ more) S env := W.weaken fun k v h => List.mem_append_left _ h
    obtain ⟨W1, F, -⟩ := begin_part W' hb
    obtain ⟨t1, free, rfl, F1, hfree, hlast⟩ := commitActs_fair W1 (fun hN => steps_fair W1.base F (fun k v h => ⟨h8 k v (List.mem_append_right _ h), List.mem_append_right _ h⟩) hs hN) hc
      (by rw [lim_eq]; exact hsize)
    exact ⟨_, stopped_part W1 F1 hfree hlast stop (.inr (young_calm (stopped_valid W1 F1 stop 0 (by omega)) hy))⟩
  | abort past hb ih =>
    intro h8
    obtain ⟨S, W⟩ := ih h8
    obtain ⟨W1, -⟩ := begin_part W hb
    exact ⟨S, W1.congr rfl rfl W1.live⟩
  | reopen past ho ih =>
    intro h8
    obtain ⟨S, W⟩ := ih h8
    exact ⟨S, (open_part W ho).1⟩
  | readers rs past ih =>
    intro h8
    obtain ⟨S, W⟩ := ih h8
    exact ⟨S, W.congr rfl rfl W.live⟩

/-- **C124, histories with commits that stop.**  After any history of transactions, some of whose commits did not come to their end, a value that a lookup finds, between transactions or inside a
further one, was stored under this very key by one of the operations.  What is missing: keys of eight bytes, databases that are not young, and pages that are written in part (for these the
statement is false, `torn_page_invents_value`). -/
theorem values_after_stops_partial {ops : List KvOp} {env : Env} (H : Rough ops env) (h8 : ∀ k v, KvOp.put k v ∈ ops → k.length ≠ 8) {k v : Bytes} (hk : k.length < 65536) (hk8 : k.length ≠ 8) :
    (∀ fuel, get env (readTxn env) fuel k = .ok (.ok v) → KvOp.put k v ∈ ops) ∧
    ∀ fuel fuel' env1 t t' more sts, beginWrite env = some (env1, t) → (∀ k v, KvOp.put k v ∈ more → k.length ≠ 8) → steps env1 fuel t more = .ok (sts, t') → t'.newLast < 2 ^ 19 →
      get env1 t' fuel' k = .ok (.ok v) → KvOp.put k v ∈ ops ++ more := by
  obtain ⟨S, W⟩ := rough_part H h8
  constructor
  · intro fuel e
    exact get_part (t := readTxn env) W rfl (W.metas env.live W.live).1 hk hk8 e
  · intro fuel fuel' env1 t t' more sts hb hm hs hN e
    have W' : Part (fun k v => KvOp.put k v ∈ ops ++ more) S env := W.weaken fun k v h => List.mem_append_left _ h
    obtain ⟨W1, F, -⟩ := begin_part W' hb
    have F' := steps_fair W1.base F (fun k v h => ⟨hm k v h, List.mem_append_right _ h⟩) hs (by rw [lim_eq]; exact hN)
    exact get_inside W1 F' hk hk8 e

/-- Storing of pairs in a transaction that is committed, and what is needed to add it to a history. -/
theorem session_rough {ops : List KvOp} {env env2 : Env} {l : List (Bytes × Bytes)} {sts : List Status} (H : Rough ops env) (e : session env l = .ok (sts, env2))
    (hy : Young env2) : Rough (ops ++ l.map fun kv => KvOp.put kv.1 kv.2) env2 := by
  unfold session at e
  split at e
  · cases e
  · rename_i env1 t hb
    obtain ⟨a, e1, e⟩ := Res.bind_eq_ok.1 e
    obtain ⟨c, e2, e⟩ := Res.bind_eq_ok.1 e
    cases e
    exact .commit H hb (puts_steps e1) e2 hy

/-- A history that goes on: `a` is stored, the commit of a second transaction reports an error when it syncs its pages, and a third transaction stores `d` and is committed.  Under `a`
is then found what the second one stored. -/
example : ∃ env, Rough ([.put [97] [1], .put [97] [7, 7], .put [99] [3], .put [100] [4]]) env ∧
    get env (readTxn env) 5 [97] = .ok (.ok [7, 7]) ∧ get env (readTxn env) 5 [100] = .ok (.ok [4]) := by
  let yes : Env → Bool := fun e => decide (metaTxnid (e.file 0) < 2 ^ 16 ∧ metaRoot (e.file 0) < 2 ^ 16 ∧ e.filePages ≤ 2 ^ 19)
  have hyes : ∀ e, yes e = true → Young e := fun e h => ⟨(of_decide_eq_true h).1, (of_decide_eq_true h).2.1, (of_decide_eq_true h).2.2⟩
  have h : Res.holds (envCreate 20) (fun e => Res.holds (session e [([97], [1])]) fun s =>
      yes s.2 && (match beginWrite s.2 with
        | none => false
        | some p => Res.holds (steps p.1 5 p.2 [.put [97] [7, 7], .put [99] [3]]) fun a => Res.holds (commitActs (alloc p.1 5) p.1 a.2) fun c => match c with
            | .ok acts => decide ((runActs p.1 acts).filePages ≤ 2 ^ 19) && decide (4 < acts.length) && decide (a.2.dirty ≠ []) &&
              Res.holds (commitWith (alloc p.1 5) (some 4) p.1 a.2) fun c => yes c.2 && Res.holds (session c.2 [([100], [4])]) fun u => yes u.2 &&
              Res.holds (get u.2 (readTxn u.2) 5 [97]) (fun x => match x with | .ok v => decide (v = [7, 7]) | _ => false) &&
              Res.holds (get u.2 (readTxn u.2) 5 [100]) fun x => match x with | .ok v => decide (v = [4]) | _ => false
            | .error _ => false)) = true := by
    decide +kernel
  obtain ⟨e, h1, h⟩ := Res.holds_iff h
  obtain ⟨⟨sts, s⟩, h2, h⟩ := Res.holds_iff h
  rw [Bool.and_eq_true] at h
  obtain ⟨y1, h⟩ := h
  split at h
  · cases h
  · rename_i p hp
    obtain ⟨⟨sts1, t'⟩, h3, h⟩ := Res.holds_iff h
    obtain ⟨c, h4, h⟩ := Res.holds_iff h
    cases c with
    | error _ => cases h
    | ok acts =>
      simp only [Bool.and_eq_true, decide_eq_true_eq] at h
      obtain ⟨⟨⟨g1, g2⟩, g3⟩, h⟩ := h
      obtain ⟨⟨st, env2⟩, h5, h⟩ := Res.holds_iff h
      rw [Bool.and_eq_true] at h
      obtain ⟨y2, h⟩ := h
      obtain ⟨⟨sts2, env3⟩, h6, h⟩ := Res.holds_iff h
      simp only [Bool.and_eq_true] at h
      obtain ⟨⟨y3, h7⟩, h8⟩ := h
      obtain ⟨x, h7, h⟩ := Res.holds_iff h7
      obtain ⟨y, h8, h'⟩ := Res.holds_iff h8
      cases x with
      | error _ => cases h
      | ok v =>
        cases y with
        | error _ => cases h'
        | ok w =>
          have e1 := of_decide_eq_true h
          have e2 := of_decide_eq_true h'
          subst e1 e2
          have R1 := session_rough (.create h1) h2 (hyes _ y1)
          have h5' := h5
          unfold commitWith at h5'
          rw [if_neg (by simpa using g3), h4, Res.ok_bind] at h5'
          simp only [] at h5'
          rw [if_pos g2] at h5'
          have R2 : Rough _ env2 := .stop R1 hp h3 h4 g1 (by
            have hb := R1.sane
            have hb1 : 2 ≤ p.1.filePages ∧ p.1.live < 2 := by
              unfold beginWrite at hp
              split at hp
              · cases hp
              · cases hp; exact hb
            rw [← (Prod.mk.inj (Res.ok.inj h5')).2]
            refine ⟨fun n hn => ?_, Nat.le_trans hb1.1 (runActs_kept _ _).file, ?_⟩
            · rcases runActs_page (acts.take 4) hn with h | h | ⟨p, h, hp⟩
              · exact .inl h
              · exact .inr (.inl h)
              · exact .inr (.inr ⟨p, List.mem_of_mem_take h, hp⟩)
            · show (runActs p.1 (acts.take 4)).live < 2
              rw [(runActs_kept _ _).live]; exact hb1.2) (hyes _ y2)
          exact ⟨env3, session_rough R2 h6 (hyes _ y3), h7, h8⟩

/-- The file when of the page `n2` only the bytes below 3584, that is the first seven of eight sectors, have been written, and of the page `n3` all of them. -/
def tornFile (old : Nat → Page) (n3 : Nat) (p3 : Page) (n2 : Nat) (p2 : Page) : Nat → Page :=
  fun n b => if n = n2 then (if 3584 ≤ b then old n b else p2 b) else if n = n3 then p3 b else old n b

/-- **C124 is false when pages are written in part.**  `a` and `b` are stored, a third transaction stores 600 bytes under `c`, and the machine stops before the pages are synced, with the last
sector of one page not written.  Each sector of the file is one from before the commit or one that the commit wrote.  Opened again, the database gives under `c` a value that nobody stored. -/
theorem torn_page_invents_value :
    ∃ sts env env1 t sts1 t' acts file env' v, demo [[([97], [1])], [([98], [2])]] = .ok (sts, env) ∧ beginWrite env = some (env1, t) ∧
      puts env1 5 t [([99], List.replicate 600 3)] = .ok (sts1, t') ∧ (∀ s ∈ sts ++ sts1, s = .success) ∧
      commitActs (alloc env1 5) env1 t' = .ok (.ok acts) ∧ Crash env1 (acts.take (acts.length - 3)) file ∧
      (∀ n i, ∃ p, (p = env1.file n ∨ Act.write n p ∈ acts) ∧ ∀ b, b / 512 = i → file n b = p b) ∧
      envOpen file env1.filePages env.mapPages = .ok (.ok env') ∧ look env' [99] = .ok (.ok v) ∧ v ∉ [[1], [2], List.replicate 600 3] := by
  have h : Res.holds (demo [[([97], [1])], [([98], [2])]])
      (fun d => match beginWrite d.2 with
        | none => false
        | some p => Res.holds (puts p.1 5 p.2 [([99], List.replicate 600 3)]) fun e => (d.1 ++ e.1).all (· == .success) &&
          Res.holds (commitActs (alloc p.1 5) p.1 e.2) fun c => match c with
            | .ok [.write n3 p3, .write n2 p2, .sync, .write _ _, .sync] => decide (n3 ≠ n2 ∧ 2 ≤ n2 ∧ 2 ≤ n3) &&
              Res.holds (envOpen (tornFile p.1.file n3 p3 n2 p2) p.1.filePages d.2.mapPages) fun f =>
              match f with
              | .error _ => false
              | .ok env' => Res.holds (look env' [99]) fun x => match x with | .ok v => decide (v ∉ [[1], [2], List.replicate 600 3]) | _ => false
            | _ => false) = true := by decide +kernel
  obtain ⟨⟨sts, env⟩, h1, h⟩ := Res.holds_iff h
  simp only [] at h
  split at h
  · cases h
  · rename_i p hp
    obtain ⟨⟨sts1, t'⟩, h4, h⟩ := Res.holds_iff h
    simp only [Bool.and_eq_true, List.all_eq_true, beq_iff_eq] at h
    obtain ⟨h5, h⟩ := h
    obtain ⟨c, h7, h⟩ := Res.holds_iff h
    split at h
    · rename_i n3 p3 n2 p2 m pm
      simp only [Bool.and_eq_true, decide_eq_true_eq] at h
      obtain ⟨⟨hn, g2, g3⟩, h⟩ := h
      obtain ⟨f, h8, h⟩ := Res.holds_iff h
      cases f with
      | error e => cases h
      | ok env' =>
        obtain ⟨x, h9, h⟩ := Res.holds_iff h
        cases x with
        | error e => cases h
        | ok v =>
          refine ⟨sts, env, p.1, p.2, sts1, t', _, tornFile p.1.file n3 p3 n2 p2, env', v, h1, hp, h4, h5, h7, ⟨fun n b hb => ?_, fun n hb => ?_⟩, fun n i => ?_, h8, h9, of_decide_eq_true h⟩
          · have hs : synced [Act.write n3 p3, .write n2 p2] = [] := by simp [synced, Act.isSync]
            have hu : unsynced [Act.write n3 p3, .write n2 p2] = [Act.write n2 p2, .write n3 p3] := by simp [unsynced, Act.isSync]
            simp only [List.length_cons, List.length_nil, List.take_succ_cons, List.take_zero, hs, hu]
            show _ = p.1.file n b ∨ _
            unfold tornFile
            by_cases hx : n = n2
            · rw [if_pos hx]
              split
              · exact .inl rfl
              · exact .inr ⟨p2, by simp [hx], rfl⟩
            · rw [if_neg hx]
              by_cases hy : n = n3
              · rw [if_pos hy]; exact .inr ⟨p3, by simp [hy], rfl⟩
              · rw [if_neg hy]; exact .inl rfl
          · left
            have hs : synced [Act.write n3 p3, .write n2 p2] = [] := by simp [synced, Act.isSync]
            simp only [List.length_cons, List.length_nil, List.take_succ_cons, List.take_zero, hs]
            show _ = p.1.file n
            funext b
            unfold tornFile
            rw [if_neg (by omega), if_neg (by omega)]
          · by_cases hx : n = n2
            · by_cases hi : 7 ≤ i
              · refine ⟨p.1.file n, .inl rfl, fun b hb => ?_⟩
                unfold tornFile
                rw [if_pos hx, if_pos (by omega)]
              · refine ⟨p2, .inr (by simp [hx]), fun b hb => ?_⟩
                unfold tornFile
                rw [if_pos hx, if_neg (by omega)]
            · by_cases hy : n = n3
              · refine ⟨p3, .inr (by simp [hy]), fun b hb => ?_⟩
                unfold tornFile
                rw [if_neg hx, if_pos hy]
              · refine ⟨p.1.file n, .inl rfl, fun b hb => ?_⟩
                unfold tornFile
                rw [if_neg hx, if_neg hy]
    · cases h

end Verif.Db
