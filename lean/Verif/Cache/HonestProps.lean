import Verif.Cache.Hist
import Verif.Db.HonestProps

/-!
# What the cache may answer after any history of calls (C124)
-/

namespace Verif.Cache

open Verif.Page Verif.Db Verif.Db.Honest

/-- Any calls of the interface of the cache, in any order and with any answers: the records that were handed to transactions that were committed, those handed to the transaction
that is open, and the cache.  A commit or a sweep leaves a file of at most `2 ^ 19` pages. -/
inductive Calls : List (Bytes × Bytes) → List (Bytes × Bytes) → Cache → Prop
  | create {mapPages : Nat} {env : Env} (h : envCreate mapPages = .ok env) : Calls [] [] ⟨env, none, []⟩
  | reopen {done pend : List (Bytes × Bytes)} {c : Cache} {mapPages : Nat} {env : Env} (H : Calls done pend c)
      (h : envOpen c.env.file c.env.filePages mapPages = .ok (.ok env)) : Calls done [] ⟨env, none, []⟩
  | beginRead {done pend : List (Bytes × Bytes)} {c c' : Cache} {pid tid : Nat} (H : Calls done pend c) (h : beginRead c pid tid = (.success, c')) : Calls done [] c'
  | beginWrite {done pend : List (Bytes × Bytes)} {c c' : Cache} {st : Status} (H : Calls done pend c) (h : beginWrite c = some (st, c')) : Calls done [] c'
  | abort {done pend : List (Bytes × Bytes)} {c : Cache} (pid tid : Nat) (H : Calls done pend c) : Calls done [] (abort c pid tid).2
  | commit {done pend : List (Bytes × Bytes)} {c c' : Cache} {st : Status} {fuel pid tid : Nat} (H : Calls done pend c) (h : commitWrite c fuel none pid tid = .ok (st, c'))
      (hsize : c'.env.filePages ≤ 2 ^ 19) : Calls (done ++ pend) [] c'
  | upsert {done pend : List (Bytes × Bytes)} {c c' : Cache} {st : Status} {fuel : Nat} {path entry : Bytes} (H : Calls done pend c) (h : upsert c fuel path entry = .ok (st, c')) :
      Calls done (pend ++ [(path, entry)]) c'
  | mark {done pend : List (Bytes × Bytes)} {c : Cache} (path : Bytes) (H : Calls done pend c) : Calls done pend (markVisited c path)
  | sweep {done pend : List (Bytes × Bytes)} {c c' : Cache} {st : Status} {fuel pid tid : Nat} (H : Calls done pend c) (h : sweep c fuel none pid tid = .ok (st, c'))
      (hsize : c'.env.filePages ≤ 2 ^ 19) : Calls done [] c'

/-- Records of a list, as a relation. -/
def In (l : List (Bytes × Bytes)) (k v : Bytes) : Prop := (k, v) ∈ l

/-- What the calls keep. -/
structure Held (done pend : List (Bytes × Bytes)) (S : Nat → Prop) (c : Cache) : Prop where
  env : Whole (In done) S c.env
  txn : (∀ r ∈ pend, r.1.length ≠ 8) → ∀ t, c.txn = some t → (t.rdonly = true ∧ (t.root = 0 ∨ S t.root)) ∨ (t.rdonly = false ∧ (t.newLast < lim → Fair (In (done ++ pend)) S t))

theorem held_none {done pend : List (Bytes × Bytes)} {S : Nat → Prop} {c : Cache} (W : Whole (In done) S c.env) (h : c.txn = none) : Held done pend S c :=
  ⟨W, fun _ t ht => by rw [h] at ht; cases ht⟩

/-- The loop of the sweep deletes. -/
theorem sweepFrom_fair {B : Bytes → Bytes → Prop} {S : Nat → Prop} {env : Env} {vis : List Bytes} {fuel : Nat} (hb : Base B S env.file env.filePages) :
    ∀ {n : Nat} {t : Txn} {x : Cursor × Except Status (Bytes × Bytes)} {r : Status × Txn}, Fair B S t → sweepFrom env vis fuel n t x = .ok r → Fair B S r.2 := by
  intro n
  induction n with
  | zero => intro t x r F e; cases e
  | succ n ih =>
    intro t x r F e
    rw [sweepFrom] at e
    split at e
    · cases e; exact F
    · cases e; exact F
    · split at e
      · cases e
      · split at e
        · obtain ⟨y, e1, e⟩ := Res.bind_eq_ok.1 e
          exact ih F e
        · obtain ⟨d, e1, e⟩ := Res.bind_eq_ok.1 e
          have F1 := (del_fair hb F e1).1
          split at e
          · obtain ⟨y, e2, e⟩ := Res.bind_eq_ok.1 e
            exact ih F1 e
          · cases e; exact F1

theorem closed_rdonly (env : Env) (b : Bool) : Closed env fun t => t.rdonly = b := by
  refine ⟨fun _ _ _ h => h, ?_, fun _ h => h, fun _ _ h => h⟩
  intro t n r h ht
  obtain ⟨p, -, -, h | h⟩ := getWritable_cases h
  · rw [h.1]; exact ht
  · rw [h]; exact ht

theorem calls_held {done pend : List (Bytes × Bytes)} {c : Cache} (H : Calls done pend c) : (∀ r ∈ done, r.1.length ≠ 8) → ∃ S, Held done pend S c := by
  induction H with
  | create h => intro _; exact ⟨_, held_none (create_whole h) rfl⟩
  | reopen H h ih =>
    intro h8
    obtain ⟨S, I⟩ := ih h8
    exact ⟨S, held_none (open_whole I.env h) rfl⟩
  | @beginRead done pend c c' pid tid H h ih =>
    intro h8
    obtain ⟨S, I⟩ := ih h8
    refine ⟨S, ?_⟩
    unfold Cache.beginRead Db.beginRead at h
    cases hr : register ⟨pid, tid, (readTxn c.env).txnid⟩ c.env.readers with
    | none => rw [hr] at h; cases h
    | some rs =>
      rw [hr] at h
      cases h
      exact ⟨I.env.congr rfl rfl I.env.live, fun _ t ht => by cases ht; exact .inl ⟨rfl, (I.env.metas _ I.env.live).1⟩⟩
  | @beginWrite done pend c c' st H h ih =>
    intro h8
    obtain ⟨S, I⟩ := ih h8
    refine ⟨S, ?_⟩
    unfold Cache.beginWrite at h
    split at h
    · cases h
    · rename_i env1 t hb
      cases h
      obtain ⟨W, F⟩ := begin_fair I.env hb
      exact ⟨W, fun _ t' ht => by cases ht; exact .inr ⟨F.rdonly, fun _ => F.weaken fun k v h => List.mem_append_left _ h⟩⟩
  | @abort done pend c pid tid H ih =>
    intro h8
    obtain ⟨S, I⟩ := ih h8
    refine ⟨S, ?_⟩
    unfold Cache.abort
    split
    · rename_i ht
      exact held_none I.env ht
    · refine held_none ?_ rfl
      show Whole _ _ (abortTxn c.env _ pid tid)
      unfold abortTxn
      split
      · exact I.env.congr rfl rfl I.env.live
      · exact I.env.congr rfl rfl I.env.live
  | @commit done pend c c' st fuel pid tid H h hsize ih =>
    intro h8
    obtain ⟨S, I⟩ := ih fun r hr => h8 r (List.mem_append_left _ hr)
    have hp : ∀ r ∈ pend, r.1.length ≠ 8 := fun r hr => h8 r (List.mem_append_right _ hr)
    have W : Whole (In (done ++ pend)) S c.env := I.env.weaken fun k v h => List.mem_append_left _ h
    unfold commitWrite at h
    split at h
    · rename_i ht
      cases h
      exact ⟨S, held_none W ht⟩
    · rename_i t ht
      split at h
      · cases h
        exact ⟨S, held_none (W.congr rfl rfl W.live) rfl⟩
      · rename_i hro
        obtain ⟨r, e1, h⟩ := Res.bind_eq_ok.1 h
        cases h
        obtain ⟨S', -, W'⟩ := commit_whole W (fun hN => by
          rcases I.txn hp t ht with ⟨h, -⟩ | ⟨-, h⟩
          · exact absurd h hro
          · exact h hN) e1 (by rw [lim_eq]; exact hsize)
        exact ⟨S', held_none W' rfl⟩
  | @upsert done pend c c' st fuel path entry H h ih =>
    intro h8
    obtain ⟨S, I⟩ := ih h8
    refine ⟨S, ?_⟩
    unfold Cache.upsert at h
    split at h
    · rename_i ht
      cases h
      exact held_none I.env ht
    · rename_i t ht
      obtain ⟨r, e1, h⟩ := Res.bind_eq_ok.1 h
      cases h
      refine ⟨I.env, fun hp t' ht' => ?_⟩
      cases ht'
      have hp' : ∀ r ∈ pend, r.1.length ≠ 8 := fun r hr => hp r (List.mem_append_left _ hr)
      have hp2 : path.length ≠ 8 := hp (path, entry) (by simp)
      rcases I.txn hp' t ht with ⟨a, b⟩ | ⟨a, b⟩
      · unfold put putWith at e1
        rw [if_pos a] at e1
        cases e1
        exact .inl ⟨a, b⟩
      · have hro := putWith_inv (closed_rdonly c.env false) (alloc_inv (closed_rdonly c.env false) fuel) e1 a
        refine .inr ⟨hro, fun hN => ?_⟩
        have hl : t.newLast ≤ r.2.newLast := putWith_inv (closed_last c.env t.newLast) ((mono_alloc c.env fuel).last _) e1 (Nat.le_refl _)
        have W : Whole (In (done ++ (pend ++ [(path, entry)]))) S c.env := I.env.weaken fun k v h => List.mem_append_left _ h
        have F : Fair (In (done ++ (pend ++ [(path, entry)]))) S t := (b (by omega)).weaken fun k v h => by
          rcases List.mem_append.1 h with h | h
          · exact List.mem_append_left _ h
          · exact List.mem_append_right _ (List.mem_append_left _ h)
        refine putWith_fair (gives_alloc W.base fuel) W.base F ?_ e1 hN
        unfold May
        rw [if_neg hp2]
        exact List.mem_append_right _ (List.mem_append_right _ (List.mem_singleton.2 rfl))
  | mark path H ih =>
    intro h8
    obtain ⟨S, I⟩ := ih h8
    exact ⟨S, I.env, I.txn⟩
  | @sweep done pend c c' st fuel pid tid H h hsize ih =>
    intro h8
    obtain ⟨S, I⟩ := ih h8
    unfold Cache.sweep Cache.beginWrite at h
    cases hb : Db.beginWrite c.env with
    | none => rw [hb] at h; cases h
    | some x =>
      obtain ⟨env1, t⟩ := x
      rw [hb] at h
      obtain ⟨W, F⟩ := begin_fair I.env hb
      obtain ⟨y, e1, h⟩ := Res.bind_eq_ok.1 h
      obtain ⟨s, e2, h⟩ := Res.bind_eq_ok.1 h
      have F' := sweepFrom_fair W.base F e2
      split at h
      · obtain ⟨k, e3, h⟩ := Res.bind_eq_ok.1 h
        have hk : c'.env = k.2.env ∧ c'.txn = k.2.txn := by
          split at h
          · cases h; exact ⟨rfl, rfl⟩
          · cases h; exact ⟨rfl, rfl⟩
        rw [hk.1] at hsize
        unfold commitWrite at e3
        simp only [F'.rdonly, Bool.false_eq_true, if_false] at e3
        obtain ⟨z, e4, e3⟩ := Res.bind_eq_ok.1 e3
        cases e3
        obtain ⟨S', -, W'⟩ := commit_whole W (fun _ => F') e4 (by rw [lim_eq]; exact hsize)
        exact ⟨S', held_none (by rw [hk.1]; exact W') hk.2⟩
      · cases h
        refine ⟨S, held_none ?_ rfl⟩
        show Whole _ _ (abortTxn env1 s.2 pid tid)
        unfold abortTxn
        rw [F'.rdonly]
        exact W.congr rfl rfl W.live

/-- **C124.**  After any calls, a record that the cache finds for a path was stored for this very path, by a transaction that was committed or by the one that is open; never by one that was given up.  What is missing: paths of
eight bytes, files of more than two gigabytes, and commits that stop in the middle. -/
theorem cache_answers_stored_partial {done pend : List (Bytes × Bytes)} {c : Cache} (H : Calls done pend c) (h8 : ∀ r ∈ done ++ pend, r.1.length ≠ 8)
    (hsize : ∀ t, c.txn = some t → t.newLast < 2 ^ 19) {fuel : Nat} {path v : Bytes} (hp : path.length < 65536) (hp8 : path.length ≠ 8)
    (e : lookup c fuel path = .ok (.ok v)) : (path, v) ∈ done ++ pend := by
  obtain ⟨S, I⟩ := calls_held H fun r hr => h8 r (List.mem_append_left _ hr)
  unfold lookup at e
  split at e
  · cases e
  · rename_i t ht
    obtain ⟨x, e1, e⟩ := Res.bind_eq_ok.1 e
    cases x with
    | error s => cases e
    | ok w =>
      simp only [] at e
      split at e
      · cases e
      · cases e
        rcases I.txn (fun r hr => h8 r (List.mem_append_right _ hr)) t ht with ⟨a, b⟩ | ⟨a, b⟩
        · exact List.mem_append_left _ (get_read I.env a b hp hp8 e1)
        · have W : Whole (In (done ++ pend)) S c.env := I.env.weaken fun k v h => List.mem_append_left _ h
          exact get_write W (b (by rw [lim_eq]; exact hsize t ht)) hp hp8 e1

/-- A record of forty bytes is stored and committed, a second one only stored, and the transaction is given up: the first one is found, the second one is not. -/
example : ∃ c, Calls [([97], List.replicate 40 1)] [] c ∧ (∃ t, c.txn = some t) ∧ lookup c 5 [97] = .ok (.ok (List.replicate 40 1)) ∧ lookup c 5 [98] = .ok (.error .notfound) := by
  have h : Res.holds (envCreate 20) (fun e => match beginWrite ⟨e, none, []⟩ with
    | none => false
    | some a => Res.holds (upsert a.2 5 [97] (List.replicate 40 1)) fun b => Res.holds (commitWrite b.2 5 none 1 1) fun d => decide (d.2.env.filePages ≤ 2 ^ 19) &&
      match beginWrite d.2 with
      | none => false
      | some f => Res.holds (upsert f.2 5 [98] (List.replicate 40 2)) fun g => let r := beginRead (abort g.2 1 1).2 1 1
        r.1 == .success && r.2.txn.isSome && (Res.holds (lookup r.2 5 [97]) fun x => match x with | .ok v => v == List.replicate 40 1 | _ => false) && Res.absent (lookup r.2 5 [98])) = true := by
    decide +kernel
  obtain ⟨e, h1, h⟩ := Res.holds_iff h
  split at h
  · cases h
  · rename_i a ha
    obtain ⟨b, h2, h⟩ := Res.holds_iff h
    obtain ⟨d, h3, h⟩ := Res.holds_iff h
    simp only [Bool.and_eq_true, decide_eq_true_eq] at h
    obtain ⟨h4, h⟩ := h
    split at h
    · cases h
    · rename_i f hf
      obtain ⟨g, h5, h⟩ := Res.holds_iff h
      simp only [Bool.and_eq_true, beq_iff_eq] at h
      obtain ⟨⟨⟨h6, h7⟩, h8⟩, h9⟩ := h
      have C1 : Calls [([97], List.replicate 40 1)] [] d.2 := .commit (.upsert (.beginWrite (.create h1) ha) h2) h3 h4
      have C2 := Calls.abort 1 1 (.upsert (.beginWrite C1 hf) h5)
      refine ⟨_, .beginRead (pid := 1) (tid := 1) C2 (Prod.ext h6 rfl), ?_, ?_, Res.absent_iff h9⟩
      · cases ht : (beginRead (abort g.2 1 1).2 1 1).2.txn with
        | none => rw [ht] at h7; cases h7
        | some t => exact ⟨t, rfl⟩
      · obtain ⟨x, h10, h11⟩ := Res.holds_iff h8
        rw [h10]
        cases x with
        | error e => cases h11
        | ok v => simp only [beq_iff_eq] at h11; rw [h11]

end Verif.Cache
