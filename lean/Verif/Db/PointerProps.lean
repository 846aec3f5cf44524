import Verif.Db.Pointer
import Verif.Db.PointerSplit
import Verif.Db.SnapProps
import Verif.Db.Witness
import Verif.Db.TxnExamples

/-!
# Properties of the pointers handed out (C121)

`napr_db.h` L28-29 and L202-203: the data pointer points into the memory map and "the data is valid only for the
lifetime of the transaction".  So the bytes read through it at any time before the transaction ends should be the
value that was found.
-/

namespace Verif.Db

open Verif.Page

/-- The pointer and `get` agree: reading through the pointer at once gives what `get` gives, in any state. -/
theorem get_through_pointer (env : Env) (t : Txn) (fuel : Nat) (key : Bytes) :
    get env t fuel key = (getPtr env t fuel key >>= fun r => match r with
      | .error e => .ok (.error e)
      | .ok x => deref env t x >>= fun b => .ok (.ok b)) := by
  unfold get getPtr
  split
  · rfl
  · rw [findLeaf_no]
    cases hn : findLeafNo env t key fuel t.root with
    | ub => rfl
    | div => rfl
    | ok r =>
      cases r with
      | error e => rfl
      | ok n =>
        simp only [Res.ok_bind]
        cases hp : getPage env t n with
        | ub => rfl
        | div => rfl
        | ok p =>
          simp only [Res.ok_bind]
          cases probe p key with
          | ub => rfl
          | div => rfl
          | ok f =>
            cases f with
            | notFound i => rfl
            | found i =>
              simp only [Res.ok_bind, leafNode]
              cases rdSlot p i with
              | ub => rfl
              | div => rfl
              | ok o =>
                simp only [Res.ok_bind]
                cases chk o 4 with
                | ub => rfl
                | div => rfl
                | ok _ =>
                  rw [getPage_home] at hp
                  simp only [Res.ok_bind, deref, hp]
                  unfold chk
                  by_cases hc : o + 4 + (nodeKs p true o + nodeDs p true o) ≤ pageSize
                  · rw [if_pos hc, if_pos (by omega)]; rfl
                  · rw [if_neg hc, if_neg (by omega)]; rfl

/-- Where the pointer points: a leaf the transaction sees, and in a well-formed leaf a place inside one of its nodes. -/
theorem pointer_place {env : Env} {t : Txn} {fuel : Nat} {key : Bytes} (hk : key.length < 65536) {x : Ptr} (h : getPtr env t fuel key = .ok (.ok x)) :
    ∃ p i, getPage env t x.no = .ok p ∧ x.dirty = (!t.rdonly && (t.getDirty x.no).isSome) ∧ probe p key = .ok (.found i) ∧ i < numKeys p ∧
      isLeaf p = true ∧ x.off = slot p i + 4 + nodeKs p true (slot p i) ∧ x.len = nodeDs p true (slot p i) ∧
      (WF p → upper p ≤ x.off ∧ x.off + x.len = slot p i + nodeSize p true (slot p i) ∧ x.off + x.len ≤ 4096) := by
  unfold getPtr at h
  split at h
  · cases h
  · obtain ⟨r, hr, h⟩ := Res.bind_eq_ok.1 h
    cases r with
    | error e => cases h
    | ok n =>
      simp only [] at h
      obtain ⟨p, hp, h⟩ := Res.bind_eq_ok.1 h
      obtain ⟨f, hf, h⟩ := Res.bind_eq_ok.1 h
      cases f with
      | notFound i => cases h
      | found i =>
        simp only [] at h
        obtain ⟨o, ho, h⟩ := Res.bind_eq_ok.1 h
        obtain ⟨-, -, h⟩ := Res.bind_eq_ok.1 h
        cases h
        have ho' : o = slot p i := by
          unfold rdSlot at ho
          obtain ⟨-, -, ho⟩ := Res.bind_eq_ok.1 ho
          cases ho; rfl
        subst ho'
        have hi := (probe_bound hk hf).2 rfl
        have hl := findLeafNo_leaf fuel hr hp
        refine ⟨p, i, hp, rfl, hf, hi, hl, rfl, rfl, fun wf => ?_⟩
        have := wf.inside i hi
        rw [hl] at this
        have hsz : nodeSize p true (slot p i) = 4 + nodeKs p true (slot p i) + nodeDs p true (slot p i) := by
          simp [nodeSize, baseSize]
        simp only [pageSize] at this
        dsimp only
        omega

/-- **C121**, pointers into the map: whatever the transaction itself does (`t'`), and whatever happens to the
database without writing that page, the bytes stay.  `Later [x.no] env env'`: commits of any transaction that do not
write page `x.no`, and anything that leaves the file alone. -/
theorem mapped_pointer_kept_partial {env env' : Env} {t : Txn} {x : Ptr} {v : Bytes} (hx : x.dirty = false) (h : deref env t x = .ok v)
    (H : Later [x.no] env env') (t' : Txn) : deref env' t' x = .ok v := by
  obtain ⟨k1, k2, k3⟩ := later_keeps H
  unfold deref at h ⊢
  rw [hx] at h ⊢
  simp only [Bool.false_eq_true, if_false] at h ⊢
  unfold mapPage at h ⊢
  split at h
  · rename_i hb
    rw [if_pos (by omega), k3 _ (by simp) hb.2]; exact h
  · cases h

/-- What a write transaction may do without disturbing the bytes behind `x`: `put`s that allocate no page, whatever
they report; `put`s that add pages at the end, splitting other leaves or this one, as long as one of the entries that
stay in this leaf (the first half of them) lies at the pointer or below; and `del`s of keys that are in another leaf or
whose node lies below the pointer. -/
inductive Calm (env : Env) (x : Ptr) : Txn → Txn → Prop
  | refl (t) : Calm env x t t
  | put {t t1 t2 key val st} (h : Calm env x t t1) (hs : 4 + key.length + val.length < 65536) (hno : Leads env t1 key)
      (hput : putWith (fun _ => .ub) env t1 key val = .ok (st, t2)) : Calm env x t t2
  | grow {t t1 t2 key val st fuel} (h : Calm env x t t1) (hs : 4 + key.length + val.length < 65536) (hno : Leads env t1 key)
      (hf : t1.freeRoot = 0) (h64 : t1.newLast + 1 < 2 ^ 64) (hle : x.no ≤ t1.newLast)
      (hlow : ∀ p, t1.getDirty x.no = some p → isLeaf p = true ∧ lowestOf p (numKeys p / 2) ≤ x.off)
      (hput : put env (fuel + 1) t1 key val = .ok (st, t2)) : Calm env x t t2
  | del {t t1 t2 key st} (h : Calm env x t t1) (hk : key.length < 65536) (hx : Spares env t1 x key)
      (hdel : del env t1 key = .ok (st, t2)) : Calm env x t t2

/-- The condition of `Calm.put` is one about the real `put`: if it succeeds with an allocator that never returns, then
it does the same with any other. -/
theorem put_allocates_nothing {env : Env} {t : Txn} {key val : Bytes} {r : Status × Txn} (h : putWith (fun _ => .ub) env t key val = .ok r) (fuel : Nat) :
    put env fuel t key val = .ok r := put_noalloc h _

/-- **C121**, pointers into a buffer of the write transaction: kept through any number of operations that are `Calm`. -/
theorem own_pointer_kept_partial {env : Env} {t t' : Txn} {fuel : Nat} {key v : Bytes} (hk : key.length < 65536) {x : Ptr}
    (hg : getPtr env t fuel key = .ok (.ok x)) (hd : x.dirty = true) (hv : deref env t x = .ok v)
    (hwf : ∀ p, t.getDirty x.no = some p → WF p) (H : Calm env x t t') : deref env t' x = .ok v := by
  obtain ⟨p0, i, hp0, hx, -, -, -, -, -, hpl⟩ := pointer_place hk hg
  rw [hd] at hx
  have hr : t.rdonly = false := by
    cases h : t.rdonly with
    | false => rfl
    | true => rw [h] at hx; cases hx
  have hsome : (t.getDirty x.no).isSome = true := by simpa [hr] using hx.symm
  obtain ⟨p, hp⟩ := Option.isSome_iff_exists.1 hsome
  have : p0 = p := by
    unfold getPage at hp0; rw [hp] at hp0; simp [hr] at hp0; exact hp0.symm
  subst this
  have wf := hwf _ hp
  obtain ⟨u1, -, u3⟩ := hpl wf
  have hval : v = slice p0 x.off x.len := by
    unfold deref at hv; rw [hd, hp] at hv
    obtain ⟨_, -, hv⟩ := Res.bind_eq_ok.1 (show (chk x.off x.len >>= fun _ => Res.ok (slice p0 x.off x.len)) = .ok v from hv)
    cases hv; rfl
  have main : ∃ p', t'.getDirty x.no = some p' ∧ WF p' ∧ upper p' ≤ x.off ∧ ∀ j, x.off ≤ j → j < pageSize → p' j = p0 j := by
    clear hg hx hv hp0 hsome hwf hpl hr
    induction H with
    | refl => exact ⟨p0, hp, wf, u1, fun _ _ _ => rfl⟩
    | put _ hs hno hput ih =>
      obtain ⟨q, q1, q2, q3, q4⟩ := ih
      obtain ⟨q', a1, a2⟩ := put_above hs hno hput q1 q2
      have := a2.up
      exact ⟨q', a1, a2.wf, by omega, fun j hj hj2 => (a2.hi j (by omega) hj2).trans (q4 j hj hj2)⟩
    | @grow t1 t2 key val st fuel _ hs hno hf h64 hle hlow hput ih =>
      obtain ⟨q, q1, q2, q3, q4⟩ := ih
      obtain ⟨l1, l2⟩ := hlow q q1
      obtain ⟨q', a1, a2⟩ := put_from (fun t ht => (ext_noFree env fuel).ext t ht) hf h64 hs hno hput q1 q2 l1 hle
      rcases a2 with a2 | a2
      · have := a2.up
        exact ⟨q', a1, a2.wf, by omega, fun j hj hj2 => (a2.hi j (by omega) hj2).trans (q4 j hj hj2)⟩
      · have := a2.up
        exact ⟨q', a1, a2.wf, by omega, fun j hj hj2 => (a2.hi j (by omega) hj2).trans (q4 j hj hj2)⟩
    | del _ hk hx hdel ih =>
      obtain ⟨q, q1, q2, q3, q4⟩ := ih
      obtain ⟨q', a1, a2, a3, a4⟩ := del_above hk hdel hx q1 q2 q3
      exact ⟨q', a1, a2, a3, fun j hj hj2 => (a4 j hj hj2).trans (q4 j hj hj2)⟩
  obtain ⟨p', h1, -, -, h4⟩ := main
  unfold deref
  rw [hd, h1, hval, ← slice_above h4 (by simp only [pageSize]; exact u3)]
  show (chk x.off x.len >>= fun _ => Res.ok (slice p' x.off x.len)) = _
  rw [chk_iff.2 (by simp only [pageSize]; exact u3)]; rfl

/-- **C121**, what a deletion from the same leaf does otherwise: if the node deleted lies above the pointer (or holds
the value itself), the bytes behind the pointer become those that lay lower by the size of that node. -/
theorem own_pointer_moved {env : Env} {t t' : Txn} {key : Bytes} (hk : key.length < 65536) {x : Ptr} {path : List Nat} {p : Page} {i : Nat}
    (hr : t.rdonly = false) (h0 : t.root ≠ 0)
    (hd : x.dirty = true) (hpath : findPath env t key maxDepth t.root = .ok (.ok path)) (hlast : path.getLastD 0 = x.no) (hp : t.getDirty x.no = some p) (wf : WF p)
    (hf : probe p key = .ok (.found i)) (hlo : upper p + (4 + nodeKs p true (slot p i) + nodeDs p true (slot p i)) ≤ x.off)
    (hhi : x.off + x.len ≤ slot p i + (4 + nodeKs p true (slot p i) + nodeDs p true (slot p i))) {st : Status} (h : del env t key = .ok (st, t')) :
    st = .success ∧ deref env t' x = .ok (slice p (x.off - (4 + nodeKs p true (slot p i) + nodeDs p true (slot p i))) x.len) := by
  obtain ⟨-, leaf, hleaf, hl⟩ := findPath_leaf _ hpath
  rw [hlast] at hleaf
  have hgp : getPage env t x.no = .ok p := by unfold getPage; rw [hp]; simp [hr]
  rw [hgp] at hleaf; cases hleaf
  have hi := (probe_bound hk hf).2 rfl
  simp only [Found.idx] at hi
  have hsz : nodeSize p (isLeaf p) (slot p i) = 4 + nodeKs p true (slot p i) + nodeDs p true (slot p i) := by
    rw [hl]; simp [nodeSize, baseSize]
  have hin := wf.inside i hi
  simp only [pageSize] at hin
  unfold del at h
  rw [if_neg (by simp [hr]), if_neg h0, hpath, Res.ok_bind] at h
  simp only [hlast, hgp, Res.ok_bind, hf, Found.hit, if_true, Found.idx] at h
  obtain ⟨c, hc, h⟩ := Res.bind_eq_ok.1 h
  have hn1 := (cowPath_keep hc).1 _ _ hp
  simp only [hn1] at h
  obtain ⟨q, e, hrem⟩ := delete_removed wf hi
  rw [e] at h
  cases h
  refine ⟨rfl, ?_⟩
  unfold deref
  rw [if_pos hd, getDirty_setDirty, if_pos rfl]
  show (chk x.off x.len >>= fun _ => Res.ok (slice q x.off x.len)) = _
  rw [chk_iff.2 (by simp only [pageSize]; omega), Res.ok_bind]
  congr 1
  apply List.ext_getElem
  · simp only [slice_length]
  · intro j h1 h2
    rw [slice_getElem, slice_getElem]
    rw [slice_length] at h1
    have := hrem.by1 (x.off - nodeSize p (isLeaf p) (slot p i) + j) (by omega) (by omega)
    rw [hsz] at this
    rw [← this]; congr 1; omega

/-! ## The states of C41 and C50 -/

/-- In a write transaction that holds the map `m` the pointer for a stored key is handed out and reads the value. -/
theorem pointer_reads_value {env : Env} {t : Txn} {h : Nat} {m : KvMap} (hm : IsMap env t h m) {key v : Bytes} (hk : key.length < 65536) {fuel : Nat} (hf : h < fuel)
    (hv : m key = some v) : ∃ x, getPtr env t fuel key = .ok (.ok x) ∧ deref env t x = .ok v := by
  obtain ⟨l, hl, hlm⟩ := hm
  have hg := get_spec hl hk hf
  rw [answer_eq hlm, get_through_pointer] at hg
  obtain ⟨r, h1, h2⟩ := Res.bind_eq_ok.1 hg
  unfold KvMap.answer at h2
  rw [hv] at h2
  cases r with
  | error e => cases h2
  | ok x =>
    obtain ⟨b, h3, h4⟩ := Res.bind_eq_ok.1 h2
    cases h4
    exact ⟨x, h1, h3⟩

theorem leads_of_map {env : Env} {t : Txn} {h : Nat} {m : KvMap} (hw : t.rdonly = false) (hm : IsMap env t h m) {key : Bytes} (hk : key.length < 65536) (hd : h < maxDepth)
    (h0 : t.root ≠ 0) : Leads env t key := by
  obtain ⟨l, hl, -⟩ := hm
  rcases hl with ⟨e, -⟩ | ⟨-, ht, -⟩
  · exact absurd e h0
  · obtain ⟨path, h1, h3⟩ := findPath_spec hk h ht.wft hd (by
      intro x hx; unfold maxPgno; simpa [hw] using (ht.bound x hx).2)
    intro path' hp' hnone q hq
    rw [h3] at hp'; cases hp'
    have hne : path ≠ [] := by
      obtain ⟨rest, hr, -⟩ := isPath_cons h1; rw [hr]; simp
    obtain ⟨p, e1, e2, -⟩ := wft_pages h ht.wft _ (isPath_mem h1 _ (getLastD_mem hne))
    unfold getPage at e1
    rw [hnone] at e1
    simp only [hw, Bool.false_eq_true, if_false] at e1
    rw [hq] at e1; cases e1; exact e2

theorem pointer_leaf {env : Env} {t : Txn} {fuel : Nat} {key : Bytes} {x : Ptr} (h : getPtr env t fuel key = .ok (.ok x)) :
    t.root ≠ 0 ∧ ∀ p, getPage env t x.no = .ok p → findLeaf env t key fuel t.root = .ok (.ok p) := by
  unfold getPtr at h
  split at h
  · cases h
  · rename_i h0
    refine ⟨h0, fun p hp => ?_⟩
    obtain ⟨r, hr, h⟩ := Res.bind_eq_ok.1 h
    cases r with
    | error e => cases h
    | ok n =>
      simp only [] at h
      obtain ⟨q, hq, h⟩ := Res.bind_eq_ok.1 h
      obtain ⟨f, -, h⟩ := Res.bind_eq_ok.1 h
      cases f with
      | notFound i => cases h
      | found i =>
        simp only [] at h
        obtain ⟨o, -, h⟩ := Res.bind_eq_ok.1 h
        obtain ⟨-, -, h⟩ := Res.bind_eq_ok.1 h
        cases h
        rw [findLeaf_no, hr, Res.ok_bind]
        simp only []
        rw [hp]; rfl

theorem pointer_wf {env : Env} {t : Txn} {h : Nat} {m : KvMap} (hm : IsMap env t h m) {fuel : Nat} (hf : h < fuel) {key : Bytes} (hk : key.length < 65536) {x : Ptr}
    (hg : getPtr env t fuel key = .ok (.ok x)) {p : Page} (hp : getPage env t x.no = .ok p) : WF p := by
  obtain ⟨h0, hl⟩ := pointer_leaf hg
  obtain ⟨l, hh, -⟩ := hm
  rcases hh with ⟨e, -⟩ | ⟨-, ht, -⟩
  · exact absurd e h0
  · obtain ⟨path, q, h1, h2, h3⟩ := findLeaf_spec hk h ht.wft hf
    rw [hl p hp] at h3; cases h3
    obtain ⟨lo', hi', p', A, B, i1, i2, -⟩ := leaf_focus h ht.wft h1 (inRange_none key)
    obtain ⟨q, j1, j2, j3, -⟩ := i2
    rw [h2] at j1; cases j1; exact j3

/-- **C121** in terms of the map: in a write transaction that holds `m`, the pointer for a stored key still reads its
value after a `put` of any other key, or of the same one, for which the leaf has room. -/
theorem pointer_kept_put_partial {env : Env} {t : Txn} {h : Nat} {m : KvMap} (hw : t.rdonly = false) (hm : IsMap env t h m) {key v : Bytes} (hk : key.length < 65536)
    {fuel : Nat} (hf : h < fuel) (hv : m key = some v) {k w : Bytes} (hs : PutSafe env t h m k w) (hfit : PutFits env t h m k w) (fuel' : Nat) :
    ∃ x st t', getPtr env t fuel key = .ok (.ok x) ∧ deref env t x = .ok v ∧ put env fuel' t k w = .ok (st, t') ∧ (st = .success ∨ st = .nospc) ∧ deref env t' x = .ok v := by
  obtain ⟨x, hx, hd⟩ := pointer_reads_value hm hk hf hv
  have hE : Ext (fun t => .ok (extend t)) [] (fun _ => True) :=
    ⟨fun _ _ => rfl, fun _ _ _ _ _ _ _ _ => trivial, fun _ _ => trivial, fun _ _ _ h => (by cases h), fun _ _ _ => trivial, fun _ _ _ _ => trivial⟩
  obtain ⟨st, t', h1, h2, -⟩ := put_step hE trivial hw hm hs (fun _ _ _ h => by cases h)
  rw [put_alloc_irrelevant (al' := fun _ => .ub) hw hm hs hfit] at h1
  refine ⟨x, st, t', hx, hd, put_allocates_nothing h1 fuel', h2, ?_⟩
  by_cases hb : x.dirty = true
  · refine own_pointer_kept_partial hk hx hb hd ?_ (.put (.refl t) hs.size (leads_of_map hw hm (by have := hs.size; omega) hs.depth hfit.root) h1)
    intro p hp
    exact pointer_wf hm hf hk hx (getPage_dirty hw hp)
  · exact mapped_pointer_kept_partial (by simpa using hb) hd (.refl env) t'

theorem findLeafNo_path {env : Env} {t : Txn} {key : Bytes} : ∀ (d : Nat) {n m : Nat}, findLeafNo env t key d n = .ok (.ok m) →
    ∀ {path : List Nat} {d' : Nat}, findPath env t key d' n = .ok (.ok path) → path.getLastD 0 = m := by
  intro d
  induction d with
  | zero => intro n m h; cases h
  | succ d ih =>
    intro n m h path d' hp
    cases d' with
    | zero => cases hp
    | succ d' =>
      rw [findLeafNo] at h
      rw [findPath] at hp
      split at hp
      · cases hp
      obtain ⟨p, h1, hp⟩ := Res.bind_eq_ok.1 hp
      rw [h1, Res.ok_bind] at h
      split at hp
      · rename_i hl
        rw [if_pos hl] at h
        cases hp; cases h; rfl
      · rename_i hl
        rw [if_neg hl] at h
        split at hp
        · cases hp
        rename_i hb
        rw [if_neg hb] at h
        obtain ⟨i, h2, hp⟩ := Res.bind_eq_ok.1 hp
        rw [h2, Res.ok_bind] at h
        obtain ⟨c, h3, hp⟩ := Res.bind_eq_ok.1 hp
        rw [h3, Res.ok_bind] at h
        obtain ⟨r, hr, hp⟩ := Res.bind_eq_ok.1 hp
        cases r with
        | error e => cases hp
        | ok path' =>
          cases hp
          have := ih h hr
          cases path' with
          | nil => exact absurd rfl (findPath_leaf _ hr).1
          | cons a l => simpa [List.getLastD_cons] using this

/-- **C121** in terms of the map, for any `put`: in a write transaction that holds `m`, the pointer for a stored key
still reads its value after a `put` that adds pages, however many pages that splits, unless the pointer is one into a
buffer of the transaction and all entries of the first half of that leaf lie above it. -/
theorem pointer_kept_split_partial {env : Env} {t : Txn} {h : Nat} {m : KvMap} (hw : t.rdonly = false) (hfree : t.freeRoot = 0) (hm : IsMap env t h m) {key v : Bytes}
    (hk : key.length < 65536) {fuel : Nat} (hf : h < fuel) (hd : h < maxDepth) (hv : m key = some v) {k w : Bytes} (hs : 4 + k.length + w.length < 65536)
    (h64 : t.newLast + 1 < 2 ^ 64) {fuel' : Nat} {st : Status} {t' : Txn} (hput : put env (fuel' + 1) t k w = .ok (st, t')) :
    ∃ x, getPtr env t fuel key = .ok (.ok x) ∧ deref env t x = .ok v ∧
      ((x.dirty = true → ∀ p, t.getDirty x.no = some p → lowestOf p (numKeys p / 2) ≤ x.off) → deref env t' x = .ok v) := by
  obtain ⟨x, hx, hdx⟩ := pointer_reads_value hm hk hf hv
  refine ⟨x, hx, hdx, fun hc => ?_⟩
  obtain ⟨h0, -⟩ := pointer_leaf hx
  by_cases hb : x.dirty = true
  · refine own_pointer_kept_partial hk hx hb hdx (fun p hp => pointer_wf hm hf hk hx (getPage_dirty hw hp))
      (.grow (.refl t) hs (leads_of_map hw hm (by omega) hd h0) hfree h64 ?_ (fun p hp => ⟨?_, hc hb p hp⟩) hput)
    · -- the page is one of the tree
      obtain ⟨l, hl, -⟩ := hm
      rcases hl with ⟨e, -⟩ | ⟨-, ht, -⟩
      · exact absurd e h0
      · obtain ⟨path, h1, h3⟩ := findPath_spec hk h ht.wft hd (by
          intro y hy; unfold maxPgno; simpa [hw] using (ht.bound y hy).2)
        have hne : path ≠ [] := by
          obtain ⟨rest, hr, -⟩ := isPath_cons h1; rw [hr]; simp
        have hno : path.getLastD 0 = x.no := by
          unfold getPtr at hx
          rw [if_neg h0] at hx
          obtain ⟨r, hr, hx⟩ := Res.bind_eq_ok.1 hx
          cases r with
          | error e => cases hx
          | ok n =>
            simp only [] at hx
            obtain ⟨q, -, hx⟩ := Res.bind_eq_ok.1 hx
            obtain ⟨f, -, hx⟩ := Res.bind_eq_ok.1 hx
            cases f with
            | notFound i => cases hx
            | found i =>
              simp only [] at hx
              obtain ⟨o, -, hx⟩ := Res.bind_eq_ok.1 hx
              obtain ⟨-, -, hx⟩ := Res.bind_eq_ok.1 hx
              cases hx
              exact findLeafNo_path _ hr h3
        rw [← hno]
        exact (ht.bound _ (isPath_mem h1 _ (getLastD_mem hne))).2
    · obtain ⟨p0, i, hp0, -, -, -, hlf, -⟩ := pointer_place hk hx
      rw [getPage_dirty hw hp] at hp0; cases hp0; exact hlf
  · exact mapped_pointer_kept_partial (by simpa using hb) hdx (.refl env) t'

/-! ## Where it is false -/

/-- Begin a write transaction, `put` the pairs, take the pointer for `k`, run `f`, and read through the pointer. -/
def later (env : Env) (l : List (Bytes × Bytes)) (k : Bytes) (f : Env → Txn → Res (List Status × Txn)) : Res (List Status × Ptr × Bytes × Bytes) :=
  match beginWrite env with
  | none => .div
  | some (env, t) => do
    let a ← puts env 5 t l
    match ← getPtr env a.2 5 k with
    | .error _ => .div
    | .ok x => do
      let v ← deref env a.2 x
      let b ← f env a.2
      let w ← deref env b.2 x
      .ok (a.1 ++ b.1, x, v, w)

/-- Another value of 1900 bytes. -/
def otherVal : Bytes := List.replicate 1900 3

/-- C121 is false in general: deleting another key of the same leaf puts another value behind the pointer. -/
theorem pointer_broken_by_del : ∃ env sts x, envCreate 20 = .ok env ∧
    later env [([97], [1]), ([98], [2]), ([99], [3])] [98] (fun env t => do let r ← del env t [97]; .ok ([r.1], r.2)) = .ok (sts, x, [2], [3]) ∧
      ∀ s ∈ sts, s = .success := by
  have h : Res.holds (envCreate 20 >>= fun env => later env [([97], [1]), ([98], [2]), ([99], [3])] [98] (fun env t => do let r ← del env t [97]; .ok ([r.1], r.2)))
      (fun r => r.1.all (· == .success) && (r.2.2.1 == [2]) && (r.2.2.2 == [3])) = true := by decide +kernel
  obtain ⟨⟨sts, x, v, w⟩, h1, h2⟩ := Res.holds_iff h
  obtain ⟨env, e1, e2⟩ := Res.bind_eq_ok.1 h1
  simp only [Bool.and_eq_true, List.all_eq_true, beq_iff_eq] at h2
  obtain ⟨⟨h3, rfl⟩, rfl⟩ := h2
  exact ⟨env, sts, x, e1, e2, h3⟩

/-- Nor does a `put` keep it: the first one splits the leaf, the second one writes over the bytes of the moved entry.
The first byte of the value was 1 and is 3. -/
theorem pointer_broken_by_put : ∃ env sts x v w, envCreate 20 = .ok env ∧
    later env [([97], val2), ([98], val2)] [98] (fun env t => puts env 5 t [([99], val2), ([97, 97], otherVal)]) = .ok (sts, x, v, w) ∧
      (∀ s ∈ sts, s = .success) ∧ v.head? = some 1 ∧ w.head? = some 3 := by
  have h : Res.holds (envCreate 20 >>= fun env => later env [([97], val2), ([98], val2)] [98] (fun env t => puts env 5 t [([99], val2), ([97, 97], otherVal)]))
      (fun r => r.1.all (· == .success) && (r.2.2.1.head? == some 1) && (r.2.2.2.head? == some 3)) = true := by decide +kernel
  obtain ⟨⟨sts, x, v, w⟩, h1, h2⟩ := Res.holds_iff h
  obtain ⟨env, e1, e2⟩ := Res.bind_eq_ok.1 h1
  simp only [Bool.and_eq_true, List.all_eq_true, beq_iff_eq] at h2
  exact ⟨env, sts, x, v, w, e1, e2, h2.1.1, h2.1.2, h2.2⟩

/-- And a commit of another transaction puts its own value behind the pointer of a read transaction still open. -/
theorem pointer_broken_by_commit : ∃ env env1 env2 x sts sts2, demo [[([97], [1])]] = .ok (sts, env) ∧ getPtr env (readTxn env) 5 [97] = .ok (.ok x) ∧
    x.dirty = false ∧ deref env (readTxn env) x = .ok [1] ∧ beginRead env 1 1 = .ok (env1, readTxn env) ∧ session env1 [([97], [2])] = .ok (sts2, env2) ∧
      (∀ s ∈ sts2, s = .success) ∧ deref env2 (readTxn env) x = .ok [2] := by
  have h : Res.holds (demo [[([97], [1])]]) (fun r => Res.holds (getPtr r.2 (readTxn r.2) 5 [97]) (fun y => match y with
      | .error _ => false
      | .ok x => !x.dirty && (deref r.2 (readTxn r.2) x == .ok [1]) && (match beginRead r.2 1 1 with
        | .error _ => false
        | .ok b => Res.holds (session b.1 [([97], [2])]) (fun c => c.1.all (· == .success) && (deref c.2 (readTxn r.2) x == .ok [2]))))) = true := by decide +kernel
  obtain ⟨⟨sts, env⟩, h1, h⟩ := Res.holds_iff h
  obtain ⟨y, h2, h⟩ := Res.holds_iff h
  cases y with
  | error e => cases h
  | ok x =>
    simp only [Bool.and_eq_true, Bool.not_eq_true', beq_iff_eq] at h
    obtain ⟨⟨h3, h4⟩, h⟩ := h
    obtain ⟨⟨env1, r⟩, h5⟩ : ∃ b, beginRead env 1 1 = .ok b := by
      cases hb : beginRead env 1 1 with
      | error e => rw [hb] at h; cases h
      | ok b => exact ⟨b, rfl⟩
    rw [h5] at h
    obtain ⟨⟨sts2, env2⟩, h6, h7⟩ := Res.holds_iff h
    simp only [Bool.and_eq_true, List.all_eq_true, beq_iff_eq] at h7
    have hr : r = readTxn env := by
      unfold beginRead at h5
      split at h5
      · cases h5
      · cases h5; rfl
    subst hr
    exact ⟨env, env1, env2, x, sts, sts2, h1, h2, h3, h4, h5, h6, h7.1, h7.2⟩

/-! ## The hypotheses can be met -/

/-- `own_pointer_kept_partial`: a new key is put into the same leaf, then the key whose node lies lowest is deleted. -/
example : ∃ env sts x, envCreate 20 = .ok env ∧
    later env [([97], [1]), ([98], [2])] [97] (fun env t => do
      let a ← putWith (fun _ => .ub) env t [99] [3]
      let b ← del env a.2 [98]
      .ok ([a.1, b.1], b.2)) = .ok (sts, x, [1], [1]) ∧ x.dirty = true ∧ ∀ s ∈ sts, s = .success := by
  have h : Res.holds (envCreate 20 >>= fun env => later env [([97], [1]), ([98], [2])] [97] (fun env t => do
      let a ← putWith (fun _ => .ub) env t [99] [3]
      let b ← del env a.2 [98]
      .ok ([a.1, b.1], b.2)))
      (fun r => r.1.all (· == .success) && r.2.1.dirty && (r.2.2.1 == [1]) && (r.2.2.2 == [1])) = true := by decide +kernel
  obtain ⟨⟨sts, x, v, w⟩, h1, h2⟩ := Res.holds_iff h
  obtain ⟨env, e1, e2⟩ := Res.bind_eq_ok.1 h1
  simp only [Bool.and_eq_true, List.all_eq_true, beq_iff_eq] at h2
  obtain ⟨⟨⟨h3, h4⟩, rfl⟩, rfl⟩ := h2
  exact ⟨env, sts, x, e1, e2, h4, h3⟩

/-- `pointer_kept_put_partial`: after "a", the leaf has room for "c". -/
example : ∃ t1 x st t2, put env0 3 txn0 [97] val2 = .ok (.success, t1) ∧ getPtr env0 t1 5 [97] = .ok (.ok x) ∧ put env0 3 t1 [99] val2 = .ok (st, t2) ∧
    deref env0 t2 x = .ok val2 := by
  obtain ⟨t1, h1, h2, h3, h4⟩ := exOne
  have hroom : (put env0 3 txn0 [97] val2 >>= fun r => getPage env0 r.2 r.2.root >>= fun p =>
      .ok (room p, r.2.newLast, r.2.root)) = .ok (2171, 2, 2) := by decide +kernel
  rw [h1, Res.ok_bind] at hroom
  obtain ⟨p, hp1, hp2⟩ := Res.bind_eq_ok.1 hroom
  have hp2 := Res.ok.inj hp2
  have hlast : t1.newLast = 2 := congrArg (fun x => x.2.1) hp2
  have hroot : t1.root = 2 := congrArg (fun x => x.2.2) hp2
  have hroom : room p = 2171 := congrArg Prod.fst hp2
  obtain ⟨x, st, t2, a1, -, a3, -, a5⟩ := pointer_kept_put_partial (key := [97]) (k := [99]) (w := val2) (fuel := 5) h2 h4 (by decide) (by decide) rfl
    ⟨by rw [val2_length]; decide, by decide, by rw [hlast]; decide, fun _ _ q hq hr => by
      rw [hp1] at hq; cases hq; rw [hroom, val2_length] at hr; exact absurd hr (by decide), fun hh => absurd rfl hh⟩
    ⟨by rw [hroot]; decide, fun _ q hq => by rw [hp1] at hq; cases hq; rw [hroom, val2_length]; decide, fun hh => absurd rfl hh⟩ 3
  exact ⟨t1, x, st, t2, h1, a1, a3, a5⟩

/-- `pointer_kept_split_partial`: the leaf with "a" and "c" is split for a third pair, and the pointer for "a" is kept. -/
example : ∃ t1 t2 x st t3 p, put env0 3 txn0 [97] val2 = .ok (.success, t1) ∧ put env0 3 t1 [99] val2 = .ok (.success, t2) ∧ getPtr env0 t2 5 [97] = .ok (.ok x) ∧
    x.dirty = true ∧ t2.getDirty x.no = some p ∧ lowestOf p (numKeys p / 2) ≤ x.off ∧ put env0 3 t2 [98] val2 = .ok (st, t3) ∧ t2.newLast < t3.newLast ∧
    deref env0 t3 x = .ok val2 := by
  obtain ⟨t1, t2, h1, h2, h3, h4, h5, -⟩ := exTwo
  have hc : Res.holds (put env0 3 txn0 [97] val2 >>= fun a => put env0 3 a.2 [99] val2) (fun b => Res.holds (put env0 3 b.2 [98] val2) (fun c =>
      (b.2.newLast == 2) && (c.2.newLast == 4) && Res.holds (getPtr env0 b.2 5 [97]) (fun y => match y with
        | .error _ => false
        | .ok x => x.dirty && (match b.2.getDirty x.no with
          | none => false
          | some p => decide (lowestOf p (numKeys p / 2) ≤ x.off))))) = true := by decide +kernel
  rw [h1, Res.ok_bind, h2] at hc
  replace hc : Res.holds (put env0 3 t2 [98] val2) (fun c =>
      (t2.newLast == 2) && (c.2.newLast == 4) && Res.holds (getPtr env0 t2 5 [97]) (fun y => match y with
        | .error _ => false
        | .ok x => x.dirty && (match t2.getDirty x.no with
          | none => false
          | some p => decide (lowestOf p (numKeys p / 2) ≤ x.off)))) = true := hc
  obtain ⟨⟨st, t3⟩, h6, hc⟩ := Res.holds_iff hc
  simp only [Bool.and_eq_true, beq_iff_eq] at hc
  obtain ⟨⟨l2, l3⟩, hc⟩ := hc
  obtain ⟨y, hy, hc⟩ := Res.holds_iff hc
  obtain ⟨x, a1, -, a3⟩ := pointer_kept_split_partial (key := [97]) (k := [98]) (w := val2) (fuel := 5) h3 h4 h5 (by decide) (by decide) (by decide) rfl
    (by rw [val2_length]; decide) (by rw [l2]; decide) h6
  rw [a1] at hy; cases hy
  simp only [Bool.and_eq_true] at hc
  cases hp : t2.getDirty x.no with
  | none => rw [hp] at hc; exact nomatch hc.2
  | some p =>
    rw [hp] at hc
    have hlow : lowestOf p (numKeys p / 2) ≤ x.off := of_decide_eq_true hc.2
    exact ⟨t1, t2, x, st, t3, p, h1, h2, a1, hc.1, hp, hlow, h6, by omega, a3 (fun _ q hq => by rw [hp] at hq; cases hq; exact hlow)⟩

end Verif.Db
