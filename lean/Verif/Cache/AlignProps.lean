import Verif.Cache.Model
import Verif.Db.PointerProps
import Verif.Db.HonestProps

/-!
# Properties of the place of a record (C133)

`napr_cache_lookup_in_txn` gives a `const napr_cache_entry_t *` into the page.  The caller reads `mtime`, `ctime`, `size` and `hash` through it, numbers
of eight bytes.  A read of such a number at an address that is not a multiple of eight is undefined (C11 6.3.2.3 p7); the structures of the pages are declared
`packed` for this reason (napr_db_internal.h L155), this one is not (napr_cache.h L47-53).
-/

namespace Verif.Cache

open Verif.Page Verif.Db

/-- napr_cache.h L47-53: the alignment of `napr_cache_entry_t`. -/
def entryAlign : Nat := 8

/-- napr_cache.c L291-329 `napr_cache_lookup_in_txn`: the pointer stored in `*entry_ptr`. -/
def lookupPtr (c : Cache) (fuel : Nat) (path : Bytes) : Res (Except Status Ptr) :=
  match c.txn with
  | none => .ok (.error .inval)
  | some t => do
    match ← getPtr c.env t fuel path with
    | .error e => .ok (.error e)
    | .ok x => if x.len ≠ entrySize then .ok (.error .general) else .ok (.ok x)

/-- The caller reads the record through the pointer.  The map begins at a multiple of the page size (`apr_mmap_create`), buffers at a multiple of eight
(`apr_palloc`), so that the position on the page decides. -/
def readEntry (env : Env) (t : Txn) (x : Ptr) : Res Bytes :=
  if x.off % entryAlign ≠ 0 then .ub else deref env t x

/-- `lookup` is what reading the bytes through the pointer gives, one by one. -/
theorem lookup_through_pointer (c : Cache) (t : Txn) (ht : c.txn = some t) (fuel : Nat) (path v : Bytes) :
    lookup c fuel path = .ok (.ok v) ↔ ∃ x, lookupPtr c fuel path = .ok (.ok x) ∧ deref c.env t x = .ok v := by
  unfold lookup lookupPtr
  rw [ht]
  simp only []
  rw [get_through_pointer]
  cases getPtr c.env t fuel path with
  | ub => simp
  | div => simp
  | ok r =>
    cases r with
    | error e => simp
    | ok x =>
      simp only [Res.ok_bind]
      cases hd : deref c.env t x with
      | ub => by_cases hx : x.len = entrySize <;> simp [hx, hd]
      | div => by_cases hx : x.len = entrySize <;> simp [hx, hd]
      | ok w =>
        have hw : w.length = x.len := by
          unfold deref at hd
          obtain ⟨p, -, hd⟩ := Res.bind_eq_ok.1 hd
          obtain ⟨-, -, hd⟩ := Res.bind_eq_ok.1 hd
          cases hd; exact slice_length _ _ _
        by_cases hx : x.len = entrySize <;> simp [hx, hd, hw]

/-- An error of `lookup` is the error reported when the pointer is asked for; also without a transaction. -/
theorem lookup_error_pointer {c : Cache} {fuel : Nat} {path : Bytes} {e : Status} (h : lookup c fuel path = .ok (.error e)) : lookupPtr c fuel path = .ok (.error e) := by
  unfold lookup at h
  unfold lookupPtr
  cases ht : c.txn with
  | none => rw [ht] at h; rw [← Except.error.inj (Res.ok.inj h)]
  | some t =>
    rw [ht] at h
    simp only [] at h ⊢
    rw [get_through_pointer] at h
    cases hg : getPtr c.env t fuel path with
    | ub => rw [hg] at h; cases h
    | div => rw [hg] at h; cases h
    | ok r =>
      rw [hg] at h
      simp only [Res.ok_bind] at h ⊢
      cases r with
      | error e' => simp only [Res.ok_bind] at h ⊢; rw [Except.error.inj (Res.ok.inj h)]
      | ok x =>
        simp only [] at h ⊢
        cases hd : deref c.env t x with
        | ub => rw [hd] at h; cases h
        | div => rw [hd] at h; cases h
        | ok w =>
          have hw : w.length = x.len := by
            unfold deref at hd
            obtain ⟨p, -, hd⟩ := Res.bind_eq_ok.1 hd
            obtain ⟨-, -, hd⟩ := Res.bind_eq_ok.1 hd
            cases hd; exact slice_length _ _ _
          rw [hd] at h
          simp only [Res.ok_bind, hw] at h
          by_cases hx : x.len = entrySize
          · simp [hx] at h
          · simpa [hx] using h

/-- When the record can be read. -/
theorem readEntry_iff (env : Env) (t : Txn) (x : Ptr) (v : Bytes) : readEntry env t x = .ok v ↔ 8 ∣ x.off ∧ deref env t x = .ok v := by
  unfold readEntry entryAlign
  by_cases h : x.off % 8 = 0
  · rw [if_neg (by simpa using h)]; exact ⟨fun e => ⟨Nat.dvd_of_mod_eq_zero h, e⟩, fun e => e.2⟩
  · rw [if_pos h]; exact ⟨fun e => (nomatch e), fun e => absurd (Nat.mod_eq_zero_of_dvd e.1) h⟩

/-- Where a value comes to lie when it is stored in a leaf: it ends where the entries stored before begin. -/
theorem value_place {p q : Page} (wf : WF p) (hl : isLeaf p = true) {i : Nat} (hi : i ≤ numKeys p) {k v : Bytes} (hs : 4 + k.length + v.length < 65536)
    (e : insert p i (.leaf k v) = .ok (.ok, q)) :
    slot q i + 4 + nodeKs q true (slot q i) = upper p - v.length ∧ upper q = upper p - (4 + k.length + v.length) ∧ 4 + k.length + v.length ≤ upper p := by
  have hk : (Item.leaf k v).hasData = isLeaf p := hl.symm
  have hsz : (Item.leaf k v).size = 4 + k.length + v.length := rfl
  by_cases hr : room p < (Item.leaf k v).size + 2
  · rw [insert_nospc wf hk (by rw [Nat.mod_eq_of_lt (hsz ▸ hs)]; exact hr)] at e; cases e
  · obtain ⟨q', e', ha, hit⟩ := insert_added wf hi hk hs (by show 0 < 2 ^ 64; decide) (by omega)
    rw [e'] at e; cases e
    have hsl : slot q i = upper p - (Item.leaf k v).size := by rw [ha.sl i hi, if_neg (by omega), if_pos rfl]
    have hks : nodeKs q true (slot q i) = k.length := by
      have := congrArg (fun it => it.key.length) hit
      rw [hl] at this
      rw [hsl]
      simpa [itemAt, nodeKs, ksOff, Item.key, slice_length] using this
    have hus := ha.us
    have hup := ha.up
    rw [hks, hsl, hsz]
    rw [hsz] at hus hup
    omega

/-- Of two records stored one after the other in a leaf, the second lies aligned if the first does and the length of the first path is four more than a multiple of eight,
and not otherwise.  (`v` and `w` are records, or lists of free pages: the keys of these have eight bytes, so of two lists written one after the other one is not aligned.) -/
theorem next_aligned {p q r : Page} (wf : WF p) (hl : isLeaf p = true) {i j : Nat} (hi : i ≤ numKeys p) (hj : j ≤ numKeys q) {k v l w : Bytes}
    (hs : 4 + k.length + v.length < 65536) (hs' : 4 + l.length + w.length < 65536) (hv : 8 ∣ v.length) (hw : 8 ∣ w.length)
    (e : insert p i (.leaf k v) = .ok (.ok, q)) (e' : insert q j (.leaf l w) = .ok (.ok, r)) (ha : 8 ∣ slot q i + 4 + nodeKs q true (slot q i)) :
    8 ∣ slot r j + 4 + nodeKs r true (slot r j) ↔ k.length % 8 = 4 := by
  obtain ⟨a1, a2, a3⟩ := value_place wf hl hi hs e
  have hq : WF q ∧ isLeaf q = true := by
    by_cases hr : room p < (Item.leaf k v).size + 2
    · rw [insert_nospc (it := .leaf k v) wf hl.symm (by rw [Nat.mod_eq_of_lt (show (Item.leaf k v).size < 65536 from hs)]; exact hr)] at e; cases e
    · obtain ⟨q', e1, w1, -, -, hf, -⟩ := (insert_keeps_entries_partial wf hi (it := .leaf k v) hl.symm hs (by show 0 < 2 ^ 64; decide)).2 (by omega)
      rw [e1] at e; cases e
      exact ⟨w1, (isLeaf_congr hf).trans hl⟩
  obtain ⟨b1, b2, b3⟩ := value_place hq.1 hq.2 hj hs' e'
  rw [a1] at ha
  rw [b1, a2]
  omega

/-! ### Histories -/

theorem ptr_lies {env : Env} {A : Bytes → Bytes → Prop} {U : Nat → Prop} {t : Txn} (hv : ∀ n p, U n → getPage env t n = .ok p → isLeaf p = true ∨ isBranch p = true → Honest.Fine A U p)
    (hr : t.root = 0 ∨ U t.root) {m : Nat} (hm : m ∣ 4) (hd : ∀ k v, A k v → m ∣ k.length ∧ m ∣ v.length) {key : Bytes} (hk : key.length < 65536) (hmk : m ∣ key.length) {fuel : Nat} {x : Ptr}
    (e : getPtr env t fuel key = .ok (.ok x)) : m ∣ x.off := by
  have hm' : m ∣ 4096 := Nat.dvd_trans hm (by decide)
  have hd' : ∀ k v, A k v → m ∣ 4 + k.length + v.length := fun k v h => Nat.dvd_add (Nat.dvd_add hm (hd k v h).1) (hd k v h).2
  unfold getPtr at e
  split at e
  · cases e
  · rename_i hz
    obtain ⟨r, e1, e⟩ := Res.bind_eq_ok.1 e
    cases r with
    | error s => cases e
    | ok n =>
      simp only [] at e
      obtain ⟨p, e2, e⟩ := Res.bind_eq_ok.1 e
      have hf : findLeaf env t key fuel t.root = .ok (.ok p) := by rw [findLeaf_no, e1, Res.ok_bind]; simp only []; rw [e2]; rfl
      obtain ⟨f, hl⟩ := Honest.findLeaf_fine hv (hr.resolve_left hz) hf
      obtain ⟨y, e3, e⟩ := Res.bind_eq_ok.1 e
      cases y with
      | notFound i => cases e
      | found i =>
        simp only [] at e
        obtain ⟨o, e4, e⟩ := Res.bind_eq_ok.1 e
        obtain ⟨-, -, e⟩ := Res.bind_eq_ok.1 e
        cases e
        have ho : o = slot p i := by
          unfold rdSlot at e4
          obtain ⟨-, -, e4⟩ := Res.bind_eq_ok.1 e4
          cases e4; rfl
        subst ho
        obtain ⟨hi, hki⟩ := (probe_any f.wf e3).2 i rfl
        rw [Nat.mod_eq_of_lt hk, List.take_length] at hki
        have hks : nodeKs p true (slot p i) = key.length := by
          rw [← hki, items_getElem, hl]
          simp [itemAt, nodeKs, ksOff, Item.key, slice_length]
        show m ∣ slot p i + 4 + nodeKs p true (slot p i)
        rw [hks]
        exact Nat.dvd_add (Nat.dvd_add ((f.lie hl m hm' hd').offs i hi) hm) hmk

theorem may_lengths {B : Bytes → Bytes → Prop} {S : Nat → Prop} {m : Nat} (hm : m ∣ 4) (hd : ∀ k v, B k v → m ∣ k.length ∧ m ∣ v.length) : ∀ k v, Honest.May B S k v → m ∣ k.length ∧ m ∣ v.length := by
  intro k v h
  have h8 : m ∣ 8 := Nat.dvd_trans hm (by decide)
  unfold Honest.May at h
  split at h
  · rename_i hk
    obtain ⟨l, -, rfl⟩ := h
    refine ⟨by rw [hk]; exact h8, ?_⟩
    induction l with
    | nil => exact Nat.dvd_zero m
    | cons n l ih =>
      rw [List.flatMap_cons, List.length_append]
      exact Nat.dvd_add (by simpa using h8) ih
  · exact hd k v h

/-- **C133.**  If all paths and values stored since the database was created have lengths that are multiples of `m`, which is 2 or 4, then after any history of transactions all pointers
handed out, between transactions or inside one, are multiples of `m`.  What is missing: `m = 8`, which is needed and fails (`record_misaligned`). -/
theorem record_aligned_partial {ops : List KvOp} {env : Env} (H : Past ops env) {m : Nat} (hm : m ∣ 4) (h8 : ∀ k v, KvOp.put k v ∈ ops → k.length ≠ 8 ∧ m ∣ k.length ∧ m ∣ v.length)
    {path : Bytes} (hp : path.length < 65536) (hp8 : m ∣ path.length) :
    (∀ fuel x, lookupPtr ⟨env, some (readTxn env), []⟩ fuel path = .ok (.ok x) → m ∣ x.off) ∧
    ∀ fuel fuel' env1 t t' more sts x, Db.beginWrite env = some (env1, t) → (∀ k v, KvOp.put k v ∈ more → k.length ≠ 8 ∧ m ∣ k.length ∧ m ∣ v.length) →
      steps env1 fuel t more = .ok (sts, t') → t'.newLast < 2 ^ 19 → lookupPtr ⟨env1, some t', []⟩ fuel' path = .ok (.ok x) → m ∣ x.off := by
  have hptr : ∀ {env : Env} {t : Txn} {fuel : Nat} {x : Ptr}, lookupPtr ⟨env, some t, []⟩ fuel path = .ok (.ok x) → getPtr env t fuel path = .ok (.ok x) := by
    intro env t fuel x e
    unfold lookupPtr at e
    simp only [] at e
    obtain ⟨r, e1, e⟩ := Res.bind_eq_ok.1 e
    cases r with
    | error s => cases e
    | ok y =>
      simp only [] at e
      split at e
      · cases e
      · cases e; exact e1
  obtain ⟨S, W⟩ := past_whole H fun k v h => (h8 k v h).1
  constructor
  · intro fuel x e
    refine ptr_lies (A := Honest.May (fun k v => KvOp.put k v ∈ ops) S) (U := S) (fun n p hn hpg hkind => ?_) (W.metas env.live W.live).1 hm
      (may_lengths hm fun k v h => (h8 k v h).2) hp hp8 (hptr e)
    unfold getPage at hpg
    rw [if_pos (show (readTxn env).rdonly = true from rfl)] at hpg
    unfold mapPage at hpg
    split at hpg
    · rename_i hlen
      rw [← Res.ok.inj hpg] at hkind ⊢
      rcases (W.base.page n hn).2.2 hlen.2 with h | h
      · rw [h] at hkind; exact absurd hkind Honest.zero_kind
      · exact h.2
    · cases hpg
  · intro fuel fuel' env1 t t' more sts x hb hmore hs hN e
    have W' : Honest.Whole (fun k v => KvOp.put k v ∈ ops ++ more) S env := W.weaken fun k v h => List.mem_append_left _ h
    obtain ⟨W1, F⟩ := Honest.begin_fair W' hb
    have F' := Honest.steps_fair W1.base F (fun k v h => ⟨(hmore k v h).1, List.mem_append_right _ h⟩) hs (by rw [Honest.lim_eq]; exact hN)
    refine ptr_lies (fun n p hn hpg hkind => (F'.got W1.base hn hpg hkind).2) F'.root hm (may_lengths hm fun k v h => ?_) hp hp8 (hptr e)
    rcases List.mem_append.1 h with h | h
    · exact (h8 k v h).2
    · exact (hmore k v h).2

/-- The record of an empty file. -/
def exRecord : Bytes := List.replicate 40 0

/-- A new cache in which two records are stored, under `/a` and `/b`. -/
def exRecords : Res (Cache × Cache) := do
  let env ← envCreate 20
  match beginWrite ⟨env, none, []⟩ with
  | none => .div
  | some (_, c) => do
    let a ← upsert c 5 [47, 97] exRecord
    let b ← upsert a.2 5 [47, 98] exRecord
    let d ← commitWrite b.2 5 none 1 1
    .ok (b.2, (beginRead d.2 1 1).2)

/-- What the caller gets for a path: the bytes of the record, and what reading the record does. -/
def fetch (c : Cache) (path : Bytes) : Res Bytes × Res Bytes :=
  (lookup c 5 path >>= fun r => match r with | .ok v => .ok v | .error _ => .div,
   lookupPtr c 5 path >>= fun r => match r, c.txn with | .ok x, some t => readEntry c.env t x | _, _ => .div)

/-- **C133** fails: two records stored under `/a` and `/b` in a new cache.  Both are found, before and after the commit; the one of `/a` can be read, reading the one of `/b` is undefined. -/
theorem record_misaligned : ∃ c c', exRecords = .ok (c, c') ∧ fetch c [47, 97] = (.ok exRecord, .ok exRecord) ∧ fetch c [47, 98] = (.ok exRecord, .ub) ∧
    fetch c' [47, 97] = (.ok exRecord, .ok exRecord) ∧ fetch c' [47, 98] = (.ok exRecord, .ub) := by
  have h : Res.holds exRecords (fun r => decide (fetch r.1 [47, 97] = (.ok exRecord, .ok exRecord)) && decide (fetch r.1 [47, 98] = (.ok exRecord, .ub)) &&
      decide (fetch r.2 [47, 97] = (.ok exRecord, .ok exRecord)) && decide (fetch r.2 [47, 98] = (.ok exRecord, .ub))) = true := by decide +kernel
  obtain ⟨⟨c, c'⟩, h1, h⟩ := Res.holds_iff h
  simp only [Bool.and_eq_true, decide_eq_true_eq] at h
  exact ⟨c, c', h1, h.1.1.1, h.1.1.2, h.1.2, h.2⟩

/-- A database that meets the hypotheses of `record_aligned_partial` for `m = 4`: two paths of sixteen bytes.  The second record does not lie at a multiple of eight. -/
example : ∃ env x, Past [.put (List.replicate 16 97) exRecord, .put (List.replicate 16 98) exRecord] env ∧
    lookupPtr ⟨env, some (readTxn env), []⟩ 5 (List.replicate 16 98) = .ok (.ok x) ∧ 4 ∣ x.off ∧ ¬ 8 ∣ x.off := by
  have h : Res.holds (envCreate 20) (fun e => Res.holds (session e [(List.replicate 16 97, exRecord), (List.replicate 16 98, exRecord)]) fun r => decide (r.2.filePages ≤ 2 ^ 19) &&
      Res.holds (lookupPtr ⟨r.2, some (readTxn r.2), []⟩ 5 (List.replicate 16 98)) fun x => match x with | .ok x => decide (x.off % 8 = 4) | _ => false) = true := by decide +kernel
  obtain ⟨e, h1, h⟩ := Res.holds_iff h
  obtain ⟨⟨s, e2⟩, h2, h⟩ := Res.holds_iff h
  simp only [Bool.and_eq_true, decide_eq_true_eq] at h
  obtain ⟨h3, h⟩ := h
  obtain ⟨x, h4, h⟩ := Res.holds_iff h
  cases x with
  | error e => cases h
  | ok x =>
    simp only [decide_eq_true_eq] at h
    have past := session_past (.create h1) h2 h3
    refine ⟨e2, x, past, h4, ?_, by omega⟩
    refine (record_aligned_partial past (m := 4) (by decide) ?_ (by decide) (by decide)).1 5 x h4
    intro k v hk
    simp only [List.map_cons, List.map_nil, List.nil_append, List.mem_cons, List.not_mem_nil, or_false, KvOp.put.injEq] at hk
    rcases hk with ⟨rfl, rfl⟩ | ⟨rfl, rfl⟩ <;> decide

/-- A page and two insertions that meet the hypotheses of `next_aligned`: two lists of free pages.  The second is not aligned. -/
example : ∃ q r, insert (emptyPage true 2) 0 (.leaf (le 8 1) (le 8 5)) = .ok (.ok, q) ∧ insert q 1 (.leaf (le 8 2) (le 8 6)) = .ok (.ok, r) ∧
    8 ∣ slot q 0 + 4 + nodeKs q true (slot q 0) ∧ ¬ 8 ∣ slot r 1 + 4 + nodeKs r true (slot r 1) := by
  have h : Res.holds (insert (emptyPage true 2) 0 (.leaf (le 8 1) (le 8 5))) (fun a => decide (a.1 = .ok) && decide (numKeys a.2 = 1) && decide ((slot a.2 0 + 4 + nodeKs a.2 true (slot a.2 0)) % 8 = 0) &&
      Res.holds (insert a.2 1 (.leaf (le 8 2) (le 8 6))) fun b => decide (b.1 = .ok)) = true := by decide +kernel
  obtain ⟨⟨s, q⟩, h1, h⟩ := Res.holds_iff h
  simp only [Bool.and_eq_true, decide_eq_true_eq] at h
  obtain ⟨⟨⟨rfl, hn⟩, h2⟩, h⟩ := h
  obtain ⟨⟨s, r⟩, h3, h⟩ := Res.holds_iff h
  simp only [decide_eq_true_eq] at h
  subst h
  refine ⟨q, r, h1, h3, Nat.dvd_of_mod_eq_zero h2, fun h => ?_⟩
  have := (next_aligned (emptyPage_wf true 2 (by decide)) (emptyPage_isLeaf true 2 (by decide)) (Nat.zero_le _) (by omega) (by decide) (by decide) (by decide) (by decide) h1 h3
    (Nat.dvd_of_mod_eq_zero h2)).1 h
  exact absurd this (by decide)

end Verif.Cache
