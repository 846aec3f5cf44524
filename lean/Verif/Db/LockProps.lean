import Verif.Db.MetaProps

/-!
# Properties of the writer lock and the reader table (C53, C54)
-/

namespace Verif.Db

open Verif.Page

/-! ## C53: one writer -/

/-- An environment and the write transactions that are open in it, of any number of threads. -/
structure Writers where
  env : Env
  active : List Txn

/-- What threads may do: begin (only where `napr_db_txn_begin` returns; a thread that waits for the
lock takes no step), operate, commit (with any outcome), abort, and begin or end read
transactions. -/
inductive WStep : Writers → Writers → Prop
  | begin {s env t} (h : beginWrite s.env = some (env, t)) : WStep s ⟨env, t :: s.active⟩
  | ops {env A B t t'} (h : Ops env t t') : WStep ⟨env, A ++ t :: B⟩ ⟨env, A ++ t' :: B⟩
  | commit {env env' A B t fuel fail st} (h : commitWith (alloc env fuel) fail env t = .ok (st, env')) :
      WStep ⟨env, A ++ t :: B⟩ ⟨env', A ++ B⟩
  | abort {env A B} (t) : WStep ⟨env, A ++ t :: B⟩ ⟨abortWrite env, A ++ B⟩
  | readers (s) (rs : List Slot) : WStep s ⟨{ s.env with readers := rs }, s.active⟩

/-- Any number of steps. -/
inductive WExec : Writers → Writers → Prop
  | refl (s) : WExec s s
  | tail {a b c} (h : WExec a b) (hs : WStep b c) : WExec a c

/-- Every outcome of a commit frees the lock. -/
theorem commit_unlocks {al : Alloc} {fail : Option Nat} {env env' : Env} {t : Txn} {st : Status}
    (hc : commitWith al fail env t = .ok (st, env')) : env'.locked = false := by
  by_cases hd : t.dirty = []
  · unfold commitWith at hc
    rw [if_pos hd] at hc
    cases hc; rfl
  · rcases commitWith_cases hd hc with ⟨_, _, _, rfl⟩ | ⟨_, _, _, _, _, _, rfl⟩ | ⟨_, _, _, _, rfl⟩ <;> rfl

/-- C53: with the lock free and no transaction at the start, at every moment the lock is held exactly
if a write transaction is open, and never are two open. -/
theorem one_writer {env : Env} (h0 : env.locked = false) {s : Writers} (H : WExec ⟨env, []⟩ s) :
    s.active.length = if s.env.locked then 1 else 0 := by
  induction H with
  | refl => simp [h0]
  | tail _ hs ih =>
    cases hs with
    | begin h =>
      unfold beginWrite at h
      split at h
      · cases h
      · rename_i hl
        cases h
        rw [if_neg hl] at ih
        simp [ih]
    | ops h => simpa using ih
    | commit h =>
      rw [commit_unlocks h]
      simp only at ih
      rw [List.length_append, List.length_cons] at ih
      simp only [Bool.false_eq_true, if_false, List.length_append]
      split at ih <;> omega
    | abort t =>
      unfold abortWrite
      simp only at ih ⊢
      rw [List.length_append, List.length_cons] at ih
      simp only [Bool.false_eq_true, if_false, List.length_append]
      split at ih <;> omega
    | readers rs => exact ih

/-- C53: beginning a write transaction waits exactly while one is open. -/
theorem begin_waits_iff {env : Env} (h0 : env.locked = false) {s : Writers} (H : WExec ⟨env, []⟩ s) :
    beginWrite s.env = none ↔ s.active ≠ [] := by
  have h := one_writer h0 H
  unfold beginWrite
  cases hl : s.env.locked <;> rw [hl] at h <;> simp at h ⊢
  · exact h
  · intro hn; rw [hn] at h; simp at h

/-! ## C54: the reader table -/

/-- Is the slot in use? -/
def Slot.used (s : Slot) : Bool := s.txnid != 0

theorem register_perm {s : Slot} (hs : s.used = true) {L L' : List Slot} (h : register s L = some L') :
    (L'.filter Slot.used).Perm (s :: L.filter Slot.used) ∧ L'.length = L.length := by
  induction L generalizing L' with
  | nil => simp [register] at h
  | cons x L ih =>
    rw [register] at h
    split at h
    · rename_i hx
      cases h
      have hu : x.used = false := by simp [Slot.used, hx]
      simp [hs, hu]
    · rename_i hx
      have hu : x.used = true := by simp [Slot.used, hx]
      cases hr : register s L with
      | none => rw [hr] at h; simp at h
      | some l =>
        rw [hr] at h; cases h
        obtain ⟨h1, h2⟩ := ih hr
        simp only [List.filter_cons, hu, if_true, List.length_cons]
        exact ⟨(h1.cons x).trans (.swap _ _ _), by omega⟩

theorem register_none {s : Slot} {L : List Slot} : register s L = none ↔ ∀ x ∈ L, x.used = true := by
  induction L with
  | nil => simp [register]
  | cons x L ih =>
    rw [register]
    by_cases hx : x.txnid = 0
    · simp [hx, Slot.used]
    · rw [if_neg hx, Option.map_eq_none_iff, ih]
      simp [Slot.used, hx]

theorem unregister_perm {s : Slot} (hs : s.used = true) {L : List Slot} (h : s ∈ L) :
    (s :: (unregister s.pid s.tid s.txnid L).filter Slot.used).Perm (L.filter Slot.used) ∧
      (unregister s.pid s.tid s.txnid L).length = L.length := by
  induction L with
  | nil => cases h
  | cons x L ih =>
    rw [unregister]
    split
    · rename_i hx
      have : x = s := by
        obtain ⟨a, b, c⟩ := x; obtain ⟨a', b', c'⟩ := s
        simp at hx ⊢; omega
      subst this
      have hn : noSlot.used = false := rfl
      simp [hs, hn]
    · rename_i hx
      have hne : s ≠ x := by rintro rfl; exact hx ⟨rfl, rfl, rfl⟩
      have hm : s ∈ L := by
        rcases List.mem_cons.1 h with h | h
        · exact absurd h hne
        · exact h
      obtain ⟨h1, h2⟩ := ih hm
      refine ⟨?_, by simp [h2]⟩
      rw [List.filter_cons, List.filter_cons]
      split
      · exact (List.Perm.swap _ _ _).trans (h1.cons x)
      · exact h1

/-- A read transaction that is open, with the process and thread that began it. -/
structure Reader where
  pid : Nat
  tid : Nat
  txn : Txn

/-- What is entered for it. -/
def Reader.slot (r : Reader) : Slot := ⟨r.pid, r.tid, r.txn.txnid⟩

/-- An environment and the open read transactions. -/
structure Readers where
  env : Env
  active : List Reader

/-- What may happen: a thread begins a read transaction on a state with a non-zero id, a thread ends
one that it began (by commit or abort), or something else changes the environment but not the
reader table (write transactions do not touch it). -/
inductive RStep : Readers → Readers → Prop
  | begin {s env t} (pid tid : Nat) (hid : metaTxnid s.env.liveMeta ≠ 0) (h : beginRead s.env pid tid = .ok (env, t)) :
      RStep s ⟨env, ⟨pid, tid, t⟩ :: s.active⟩
  | finish {env A B} (r : Reader) : RStep ⟨env, A ++ r :: B⟩ ⟨endRead env r.txn r.pid r.tid, A ++ B⟩
  | other (s env) (h : env.readers = s.env.readers) : RStep s ⟨env, s.active⟩

/-- Any number of steps. -/
inductive RExec : Readers → Readers → Prop
  | refl (s) : RExec s s
  | tail {a b c} (h : RExec a b) (hs : RStep b c) : RExec a c

/-- The reader table is that of the open read transactions. -/
structure Tracks (s : Readers) : Prop where
  ids : ∀ r ∈ s.active, r.txn.txnid ≠ 0
  slots : (s.env.readers.filter Slot.used).Perm (s.active.map Reader.slot)
  size : s.env.readers.length = maxReaders

theorem tracks_exec {a s : Readers} (H : RExec a s) (ha : Tracks a) : Tracks s := by
  induction H with
  | refl => exact ha
  | tail _ hs ih =>
    obtain ⟨i1, i2, i3⟩ := ih
    cases hs with
    | begin pid tid hid h =>
      unfold beginRead at h
      split at h
      · cases h
      · rename_i rs hrs
        cases h
        obtain ⟨p1, p2⟩ := register_perm (s := ⟨pid, tid, (readTxn _).txnid⟩) (by simpa [Slot.used, readTxn] using hid) hrs
        refine ⟨?_, ?_, p2.trans i3⟩
        · intro r hr
          rcases List.mem_cons.1 hr with rfl | hr
          · exact hid
          · exact i1 r hr
        · exact p1.trans (i2.cons _)
    | @finish env A B r =>
      have hm : r ∈ A ++ r :: B := by simp
      have hu : r.slot.used = true := by simpa [Slot.used, Reader.slot] using i1 r hm
      have hin : r.slot ∈ env.readers := by
        have := (i2.mem_iff (a := r.slot)).2 (List.mem_map_of_mem hm)
        exact (List.mem_filter.1 this).1
      obtain ⟨u1, u2⟩ := unregister_perm hu hin
      refine ⟨fun x hx => i1 x ?_, ?_, u2.trans i3⟩
      · rcases List.mem_append.1 hx with h | h
        · exact List.mem_append_left _ h
        · exact List.mem_append_right _ (List.mem_cons_of_mem _ h)
      · have h2 : ((A ++ r :: B).map Reader.slot).Perm (r.slot :: (A ++ B).map Reader.slot) :=
          List.perm_middle.map Reader.slot
        exact ((u1.trans i2).trans h2).cons_inv
    | other _ _ h =>
      exact ⟨i1, by rw [h]; exact i2, by rw [h]; exact i3⟩

/-- The oldest-reader query over any table. -/
theorem oldest_spec (L : List Slot) :
    (oldestReader L = 0 ↔ ∀ s ∈ L, s.txnid = 0) ∧
    (oldestReader L ≠ 0 → ∃ s ∈ L, s.txnid = oldestReader L) ∧
    ∀ s ∈ L, s.txnid ≠ 0 → oldestReader L ≤ s.txnid := by
  have gen : ∀ (L : List Slot) (o : Nat), let r := L.foldl (fun o s => if 0 < s.txnid ∧ (o = 0 ∨ s.txnid < o) then s.txnid else o) o
      (r = 0 ↔ o = 0 ∧ ∀ s ∈ L, s.txnid = 0) ∧ (r ≠ 0 → r = o ∨ ∃ s ∈ L, s.txnid = r) ∧ (o ≠ 0 → r ≤ o) ∧
      ∀ s ∈ L, s.txnid ≠ 0 → r ≤ s.txnid := by
    intro L
    induction L with
    | nil => intro o; simp
    | cons x L ih =>
      intro o
      simp only [List.foldl_cons]
      obtain ⟨a, b, c, d⟩ := ih (if 0 < x.txnid ∧ (o = 0 ∨ x.txnid < o) then x.txnid else o)
      by_cases hx : 0 < x.txnid ∧ (o = 0 ∨ x.txnid < o)
      · simp only [if_pos hx] at a b c d ⊢
        refine ⟨?_, ?_, ?_, ?_⟩
        · rw [a]
          constructor
          · intro h; omega
          · intro h; have := h.2 x List.mem_cons_self; omega
        · intro hr
          rcases b hr with h | ⟨s, hs, h⟩
          · exact .inr ⟨x, List.mem_cons_self, h.symm⟩
          · exact .inr ⟨s, List.mem_cons_of_mem _ hs, h⟩
        · intro ho; have := c (by omega); omega
        · intro s hs hne
          rcases List.mem_cons.1 hs with rfl | hs
          · exact c hne
          · exact d s hs hne
      · simp only [if_neg hx] at a b c d ⊢
        refine ⟨?_, ?_, c, ?_⟩
        · rw [a]
          constructor
          · intro h
            refine ⟨h.1, fun s hs => ?_⟩
            rcases List.mem_cons.1 hs with rfl | hs
            · omega
            · exact h.2 s hs
          · intro h; exact ⟨h.1, fun s hs => h.2 s (List.mem_cons_of_mem _ hs)⟩
        · intro hr
          rcases b hr with h | ⟨s, hs, h⟩
          · exact .inl h
          · exact .inr ⟨s, List.mem_cons_of_mem _ hs, h⟩
        · intro s hs hne
          rcases List.mem_cons.1 hs with rfl | hs
          · have : o ≠ 0 := by omega
            have := c this
            omega
          · exact d s hs hne
  obtain ⟨a, b, -, d⟩ := gen L 0
  refine ⟨by simpa [oldestReader] using a, fun h => ?_, d⟩
  rcases b h with h' | h'
  · exact absurd h' h
  · exact h'

/-- C54, where every read transaction is ended by the thread that began it: the slots in use are
exactly those of the open read transactions, of which there are at most 126; the oldest-reader
query answers 0 if none is open and otherwise the smallest snapshot id; and another read
transaction can begin exactly if less than 126 are open. -/
theorem reader_table_partial {env : Env} (h0 : env.readers = List.replicate maxReaders noSlot) {s : Readers} (H : RExec ⟨env, []⟩ s) :
    (s.env.readers.filter Slot.used).Perm (s.active.map Reader.slot) ∧ s.active.length ≤ 126 ∧
    (oldestReader s.env.readers = 0 ↔ s.active = []) ∧
    (∀ r ∈ s.active, oldestReader s.env.readers ≤ r.txn.txnid) ∧
    (s.active ≠ [] → ∃ r ∈ s.active, r.txn.txnid = oldestReader s.env.readers) ∧
    ∀ pid tid, (beginRead s.env pid tid = .error .nomem ↔ s.active.length = 126) ∧
      (s.active.length < 126 → ∃ env', beginRead s.env pid tid = .ok (env', readTxn s.env)) := by
  have hf : (List.replicate maxReaders noSlot).filter Slot.used = [] := by decide
  obtain ⟨i1, i2, i3⟩ := tracks_exec H ⟨by simp, by simp only [h0, hf]; exact .refl _, by simp [h0]⟩
  obtain ⟨o1, o2, o3⟩ := oldest_spec s.env.readers
  have mem : ∀ r ∈ s.active, r.slot ∈ s.env.readers := fun r hr =>
    (List.mem_filter.1 ((i2.mem_iff (a := r.slot)).2 (List.mem_map_of_mem hr))).1
  have mem' : ∀ x ∈ s.env.readers, x.txnid ≠ 0 → ∃ r ∈ s.active, r.slot = x := by
    intro x hx hne
    have := (i2.mem_iff (a := x)).1 (List.mem_filter.2 ⟨hx, by simpa [Slot.used] using hne⟩)
    simpa using this
  have hlen : (s.env.readers.filter Slot.used).length = s.active.length := by simpa using i2.length_eq
  have hle := List.length_filter_le Slot.used s.env.readers
  have hz : oldestReader s.env.readers = 0 ↔ s.active = [] := by
    rw [o1]
    constructor
    · intro h
      cases ha : s.active with
      | nil => rfl
      | cons r l =>
        have hr : r ∈ s.active := by rw [ha]; exact List.mem_cons_self
        exact absurd (h _ (mem r hr)) (i1 r hr)
    · intro h x hx
      apply Decidable.byContradiction
      intro hne
      obtain ⟨r, hr, -⟩ := mem' x hx hne
      rw [h] at hr; cases hr
  have hnone : ∀ x : Slot, register x s.env.readers = none ↔ s.active.length = 126 := by
    intro x
    rw [register_none, ← hlen]
    constructor
    · intro h
      rw [List.filter_eq_self.2 h, i3]; rfl
    · intro h
      exact List.filter_eq_self.1 (List.filter_sublist.eq_of_length (by rw [h, i3]; rfl))
  refine ⟨i2, by rw [i3] at hle; unfold maxReaders at hle; omega, hz, fun r hr => o3 _ (mem r hr) (i1 r hr), ?_, ?_⟩
  · intro hne
    obtain ⟨x, hx, e⟩ := o2 (fun h => hne (hz.1 h))
    obtain ⟨r, hr, rfl⟩ := mem' x hx (by rw [e]; exact fun h => hne (hz.1 h))
    exact ⟨r, hr, e⟩
  · intro pid tid
    unfold beginRead
    constructor
    · rw [← hnone ⟨pid, tid, (readTxn s.env).txnid⟩]
      split <;> rename_i hx <;> simp [hx]
    · intro hl
      split
      · rename_i hx
        rw [hnone] at hx; omega
      · exact ⟨_, rfl⟩

theorem unregister_none {p q id : Nat} (hid : id ≠ 0) (l : List Slot) (hl : ∀ s ∈ l, s.txnid = 0) : unregister p q id l = l := by
  induction l with
  | nil => rfl
  | cons x l ih =>
    have hx := hl x List.mem_cons_self
    rw [unregister, if_neg (by rw [hx]; intro h; exact hid h.1.symm), ih fun s hs => hl s (List.mem_cons_of_mem _ hs)]

/-- Entering one reader, and ending it in its own thread or another one. -/
theorem one_slot {pid tid tid' id : Nat} {rest : List Slot} (hid : id ≠ 0) (ht : tid' ≠ tid) (hn : ∀ s ∈ rest, s.txnid = 0) :
    register ⟨pid, tid, id⟩ (noSlot :: rest) = some (⟨pid, tid, id⟩ :: rest) ∧
    oldestReader (unregister pid tid id (⟨pid, tid, id⟩ :: rest)) = 0 ∧
    unregister pid tid' id (⟨pid, tid, id⟩ :: rest) = ⟨pid, tid, id⟩ :: rest ∧
    oldestReader (⟨pid, tid, id⟩ :: rest) = id := by
  refine ⟨?_, ?_, ?_, ?_⟩
  · rw [register, if_pos (show noSlot.txnid = 0 from rfl)]
  · rw [(oldest_spec _).1]
    intro s hs
    simp only [unregister, and_self, if_true] at hs
    rcases List.mem_cons.1 hs with rfl | hs
    · rfl
    · exact hn s hs
  · rw [unregister, if_neg (by intro h; exact ht h.2.2.symm), unregister_none hid rest hn]
  · obtain ⟨o1, o2, o3⟩ := oldest_spec (⟨pid, tid, id⟩ :: rest)
    have hne : oldestReader (⟨pid, tid, id⟩ :: rest) ≠ 0 := fun h => hid (o1.1 h _ List.mem_cons_self)
    obtain ⟨s, hs, e⟩ := o2 hne
    rcases List.mem_cons.1 hs with rfl | hs
    · exact e.symm
    · rw [hn s hs] at e; exact absurd e.symm hne

/-- C54 is false without that condition: a read transaction that another thread ends leaves its slot
in use for ever. -/
theorem slot_left_behind {env : Env} {rest : List Slot} (hr : env.readers = noSlot :: rest) (hn : ∀ s ∈ rest, s.txnid = 0)
    (hid : metaTxnid env.liveMeta ≠ 0) {pid tid tid' : Nat} (ht : tid' ≠ tid) :
    ∃ env' t, beginRead env pid tid = .ok (env', t) ∧ oldestReader (endRead env' t pid tid).readers = 0 ∧
      (endRead env' t pid tid').readers = env'.readers ∧ oldestReader env'.readers = metaTxnid env.liveMeta := by
  obtain ⟨h1, h2, h3, h4⟩ := one_slot (pid := pid) hid ht hn
  refine ⟨{ env with readers := ⟨pid, tid, metaTxnid env.liveMeta⟩ :: rest }, readTxn env, ?_, by simp only [endRead, readTxn]; exact h2,
    by simp only [endRead, readTxn]; exact h3, h4⟩
  unfold beginRead
  rw [hr]
  simp only [readTxn]
  rw [h1]

/-! ## Examples -/

/-- A new environment meets the conditions of `one_writer` and `reader_table_partial`; two readers and
a writer in it. -/
example {env : Env} (h : envCreate 4 = .ok env) :
    env.locked = false ∧ env.readers = List.replicate maxReaders noSlot ∧
    (∃ env' t, beginWrite env = some (env', t) ∧ beginWrite env' = none) ∧
    ∃ s, RExec ⟨env, []⟩ s ∧ s.active.length = 2 := by
  unfold envCreate at h
  rw [if_neg (by omega)] at h
  cases h
  refine ⟨rfl, rfl, ⟨_, _, rfl, rfl⟩, ?_⟩
  have hid : metaTxnid (metaPage 1 0 1 0) ≠ 0 := by rw [metaPage_txnid]; decide
  exact ⟨_, .tail (.tail (.refl _) (.begin 1 1 hid rfl)) (.begin 1 2 hid rfl), rfl⟩

end Verif.Db
