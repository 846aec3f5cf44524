import Verif.Page.Damage
import Verif.Page.Props
import Verif.Db.Model

/-!
# The data pointer of `napr_db_get`

`get` of `Verif.Db.Model` gives the bytes of the value at once.  The C function gives a pointer into the page
and a size, and the caller reads the bytes later.  Here the pointer is kept, so that a later read can be stated.
-/

namespace Verif.Db

open Verif.Page

/-- napr_db.c L1363-1367: what `napr_db_get` stores in `data`.  A pointer into page `no` of the map, or (`dirty`)
into the transaction's own buffer for that page number; offset in the page and number of bytes. -/
structure Ptr where
  no : Nat
  dirty : Bool
  off : Nat
  len : Nat
  deriving Repr, DecidableEq

/-- napr_db_tree.c L172-238 `db_find_leaf_page_in_tree`: the number of the page found. -/
def findLeafNo (env : Env) (t : Txn) (key : Bytes) : Nat → Nat → Res (Except Status Nat)
  | 0, _ => .div
  | fuel + 1, n => do
    let p ← getPage env t n
    if isLeaf p then .ok (.ok n)
    else if !isBranch p then .ok (.error .inval)
    else do
      let i ← childIdx p key
      let c ← child p i
      findLeafNo env t key fuel c

/-- napr_db_tree.c L143-157 `db_get_page`: is the page the transaction's own buffer? -/
def ownBuffer (t : Txn) (n : Nat) : Bool := !t.rdonly && (t.getDirty n).isSome

/-- napr_db.c L1329-1370 `napr_db_get`: the pointer and the size stored. -/
def getPtr (env : Env) (t : Txn) (fuel : Nat) (key : Bytes) : Res (Except Status Ptr) :=
  if t.root = 0 then .ok (.error .notfound)
  else do
    match ← findLeafNo env t key fuel t.root with
    | .error e => .ok (.error e)
    | .ok n => do
      let p ← getPage env t n
      match ← probe p key with
      | .notFound _ => .ok (.error .notfound)
      | .found i => do
        let o ← rdSlot p i
        chk o 4
        .ok (.ok ⟨n, ownBuffer t n, o + 4 + nodeKs p true o, nodeDs p true o⟩)

/-- The caller reads the bytes behind the pointer.  `t` is the transaction at that time, `env` the map. -/
def deref (env : Env) (t : Txn) (x : Ptr) : Res Bytes := do
  let p ← (if x.dirty then Res.ofOption (t.getDirty x.no) else mapPage env x.no)
  chk x.off x.len
  .ok (slice p x.off x.len)

/-! ## Helper lemmas -/

theorem findLeaf_no (env : Env) (t : Txn) (key : Bytes) (fuel : Nat) : ∀ n, findLeaf env t key fuel n =
    (findLeafNo env t key fuel n >>= fun r => match r with
      | .error e => .ok (.error e)
      | .ok m => getPage env t m >>= fun p => .ok (.ok p)) := by
  induction fuel with
  | zero => intro n; rfl
  | succ fuel ih =>
    intro n
    rw [findLeaf, findLeafNo]
    cases hp : getPage env t n with
    | ub => rfl
    | div => rfl
    | ok p =>
      simp only [Res.ok_bind]
      by_cases h1 : isLeaf p = true
      · simp only [if_pos h1, Res.ok_bind, hp]
      · rw [if_neg h1, if_neg h1]
        by_cases h2 : (!isBranch p) = true
        · simp only [if_pos h2, Res.ok_bind]
        · rw [if_neg h2, if_neg h2]
          cases childIdx p key with
          | ub => rfl
          | div => rfl
          | ok i =>
            simp only [Res.ok_bind]
            cases child p i with
            | ub => rfl
            | div => rfl
            | ok c => simp only [Res.ok_bind]; exact ih c

theorem findLeafNo_leaf {env : Env} {t : Txn} {key : Bytes} (fuel : Nat) : ∀ {n m : Nat}, findLeafNo env t key fuel n = .ok (.ok m) →
    ∀ {p : Page}, getPage env t m = .ok p → isLeaf p = true := by
  induction fuel with
  | zero => intro n m h; cases h
  | succ fuel ih =>
    intro n m h p hp
    rw [findLeafNo] at h
    obtain ⟨q, hq, h⟩ := Res.bind_eq_ok.1 h
    split at h
    · rename_i hl
      cases h
      rw [hq] at hp; cases hp; exact hl
    · split at h
      · cases h
      · obtain ⟨i, -, h⟩ := Res.bind_eq_ok.1 h
        obtain ⟨c, -, h⟩ := Res.bind_eq_ok.1 h
        exact ih h hp

theorem getPage_home {env : Env} {t : Txn} {n : Nat} :
    getPage env t n = if ownBuffer t n then Res.ofOption (t.getDirty n) else mapPage env n := by
  unfold getPage ownBuffer
  cases t.rdonly <;> cases h : t.getDirty n <;> simp [Res.ofOption]

theorem chk_iff {o n : Nat} : chk o n = .ok () ↔ o + n ≤ pageSize := by
  unfold chk; split <;> simp_all

/-! ### What copying for writing keeps -/

theorem getDirty_setDirty (t : Txn) (n m : Nat) (p : Page) : (t.setDirty n p).getDirty m = if m = n then some p else t.getDirty m := by
  unfold Txn.getDirty Txn.setDirty
  by_cases h : m = n
  · subst h; simp
  · rw [if_neg h]
    show List.lookup m ((n, p) :: _) = _
    rw [List.lookup_cons, show (m == n) = false by simpa using h]
    simp only []
    induction t.dirty with
    | nil => rfl
    | cons e l ih =>
      obtain ⟨a, q⟩ := e
      rw [List.filter_cons]
      by_cases ha : a = n
      · subst ha
        rw [if_neg (by simp), List.lookup_cons, show (m == a) = false by simpa using h]; exact ih
      · rw [if_pos (by simpa using ha), List.lookup_cons, List.lookup_cons, ih]

theorem cow_keep {env : Env} {t : Txn} {n : Nat} {r : Nat × Txn} (h : cow env t n = .ok r) :
    (∀ m p, t.getDirty m = some p → r.2.getDirty m = some p) ∧
    (∀ p, t.getDirty n = some p → r.1 = n) ∧ (t.getDirty n = none → ∃ q, mapPage env n = .ok q ∧ r.1 = pgno q) := by
  unfold cow at h
  cases hd : t.getDirty n with
  | some p => rw [hd] at h; cases h; exact ⟨fun _ _ h => h, fun _ _ => rfl, fun h => (by cases h)⟩
  | none =>
    rw [hd] at h
    simp only [] at h
    unfold getWritable at h
    obtain ⟨q, hq, h⟩ := Res.bind_eq_ok.1 h
    refine ⟨fun m p hm => ?_, fun p h => (by cases h), fun _ => ⟨q, hq, ?_⟩⟩
    · cases hg : t.getDirty (pgno q) with
      | some p' => rw [hg] at h; simp only [Res.ok.injEq] at h; rw [← h]; exact hm
      | none =>
        rw [hg] at h; simp only [Res.ok.injEq] at h; rw [← h]
        show (t.setDirty (pgno q) q).getDirty m = some p
        rw [getDirty_setDirty, if_neg (by rintro rfl; rw [hg] at hm; cases hm)]; exact hm
    · cases hg : t.getDirty (pgno q) with
      | some p' => rw [hg] at h; simp only [Res.ok.injEq] at h; rw [← h]
      | none => rw [hg] at h; simp only [Res.ok.injEq] at h; rw [← h]

theorem cowAll_keep {env : Env} (L : List Nat) : ∀ {t t' : Txn}, cowAll env t L = .ok t' → ∀ m p, t.getDirty m = some p → t'.getDirty m = some p := by
  induction L with
  | nil => intro t t' h m p hm; cases h; exact hm
  | cons n L ih =>
    intro t t' h m p hm
    rw [cowAll] at h
    obtain ⟨r, h1, h2⟩ := Res.bind_eq_ok.1 h
    exact ih h2 m p ((cow_keep h1).1 m p hm)

theorem cowPath_keep {env : Env} {t : Txn} {path : List Nat} {c : Nat × Txn} (h : cowPath env t path.reverse = .ok c) :
    (∀ m p, t.getDirty m = some p → c.2.getDirty m = some p) ∧
    (∀ p, t.getDirty (path.getLastD 0) = some p → c.1 = path.getLastD 0) ∧
    (t.getDirty (path.getLastD 0) = none → ∃ q, mapPage env (path.getLastD 0) = .ok q ∧ c.1 = pgno q) := by
  rcases List.eq_nil_or_concat path with rfl | ⟨L, b, rfl⟩
  · cases h
  · rw [List.concat_eq_append] at h ⊢
    have hl : (L ++ [b]).getLastD 0 = b := by simp [List.getLastD_eq_getLast?]
    rw [hl]
    rw [List.reverse_append, List.reverse_cons, List.reverse_nil, List.nil_append, List.singleton_append, cowPath] at h
    obtain ⟨r, h1, h⟩ := Res.bind_eq_ok.1 h
    obtain ⟨t1, h2, h⟩ := Res.bind_eq_ok.1 h
    cases h
    obtain ⟨k1, k2, k3⟩ := cow_keep h1
    exact ⟨fun m p hm => cowAll_keep _ h2 m p (k1 m p hm), k2, k3⟩

/-! ### Insertion and deletion keep what lies above -/

theorem probe_bound {p : Page} {key : Bytes} (hk : key.length < 65536) {f : Found} (h : probe p key = .ok f) : f.idx ≤ numKeys p ∧ (f.hit = true → f.idx < numKeys p) := by
  unfold probe at h
  rcases (search_any p key hk).1 with ⟨-, e⟩ | ⟨r, e, h1, h2⟩ | ⟨e, -⟩
  · rw [e] at h; cases h; exact ⟨Nat.zero_le _, fun h => (by cases h)⟩
  · rw [e] at h; cases h
    refine ⟨h1, fun hh => ?_⟩
    cases f with
    | found i => exact (h2 i rfl).1
    | notFound i => cases hh
  · rw [e] at h; cases h

theorem insert_above {p q : Page} (wf : WF p) (hl : isLeaf p = true) {index : Nat} (hi : index ≤ numKeys p) {key val : Bytes}
    (hs : 4 + key.length + val.length < 65536) (h : insert p index (.leaf key val) = .ok (.ok, q)) :
    WF q ∧ upper q ≤ upper p ∧ ∀ j, upper p ≤ j → j < pageSize → q j = p j := by
  have hsz : (Item.leaf key val).size = 4 + key.length + val.length := rfl
  have hk : (Item.leaf key val).hasData = isLeaf p := by rw [hl]; rfl
  by_cases hr : room p < (Item.leaf key val).size % 65536 + 2
  · rw [insert_nospc wf hk hr] at h; cases h
  · rw [Nat.mod_eq_of_lt (by omega)] at hr
    obtain ⟨q', e, ha, -⟩ := insert_added wf hi hk (by omega) (by show 0 < _; decide) (by omega)
    rw [e] at h; cases h
    exact ⟨ha.wf wf hi, by rw [ha.up]; omega, ha.hi⟩

theorem findPath_leaf {env : Env} {t : Txn} {key : Bytes} (d : Nat) : ∀ {n : Nat} {path : List Nat}, findPath env t key d n = .ok (.ok path) →
    path ≠ [] ∧ ∃ p, getPage env t (path.getLastD 0) = .ok p ∧ isLeaf p = true := by
  induction d with
  | zero => intro n path h; cases h
  | succ d ih =>
    intro n path h
    rw [findPath] at h
    split at h
    · cases h
    · obtain ⟨p, hp, h⟩ := Res.bind_eq_ok.1 h
      split at h
      · rename_i hl
        cases h
        exact ⟨by simp, p, hp, hl⟩
      · split at h
        · cases h
        · obtain ⟨i, -, h⟩ := Res.bind_eq_ok.1 h
          obtain ⟨c, -, h⟩ := Res.bind_eq_ok.1 h
          obtain ⟨r, hr, h⟩ := Res.bind_eq_ok.1 h
          cases r with
          | error e => cases h
          | ok path' =>
            cases h
            obtain ⟨h1, q, h2, h3⟩ := ih hr
            refine ⟨by simp, q, ?_, h3⟩
            cases path' with
            | nil => exact absurd rfl h1
            | cons a l => simpa [List.getLastD_cons] using h2

/-- If the leaf a key leads to is a page of the map, it has its own number in its header. -/
def Leads (env : Env) (t : Txn) (key : Bytes) : Prop :=
  ∀ path, findPath env t key maxDepth t.root = .ok (.ok path) → t.getDirty (path.getLastD 0) = none → ∀ q, mapPage env (path.getLastD 0) = .ok q → pgno q = path.getLastD 0

/-- Page `no` of the transaction still has what lies in `[lo, 4096)`. -/
structure Above (p p' : Page) : Prop where
  wf : WF p'
  up : upper p' ≤ upper p
  hi : ∀ j, upper p ≤ j → j < pageSize → p' j = p j

theorem Above.refl {p : Page} (wf : WF p) : Above p p := ⟨wf, Nat.le_refl _, fun _ _ _ => rfl⟩

theorem splitTxn_noalloc {leaf : Bool} {t : Txn} {lk : Nat} {r : Txn × Except Status SplitTxn} (h : splitTxn (fun _ => .ub) leaf t lk = .ok r) :
    r.1 = t ∧ ∃ e, r.2 = .error e := by
  unfold splitTxn at h
  obtain ⟨p, -, h⟩ := Res.bind_eq_ok.1 h
  generalize (if leaf = true then isLeaf p else isBranch p) = b at h
  cases b with
  | false => cases h; exact ⟨rfl, _, rfl⟩
  | true => cases h

theorem splitTxn_any {leaf : Bool} {t : Txn} {lk : Nat} {r : Txn × Except Status SplitTxn} (h : splitTxn (fun _ => .ub) leaf t lk = .ok r) (al : Alloc) :
    splitTxn al leaf t lk = .ok r := by
  unfold splitTxn at h ⊢
  obtain ⟨p, hp, h⟩ := Res.bind_eq_ok.1 h
  rw [hp, Res.ok_bind]
  generalize (if leaf = true then isLeaf p else isBranch p) = b at h
  cases b with
  | false => exact h
  | true => cases h

theorem put_noalloc {env : Env} {t : Txn} {key val : Bytes} {r : Status × Txn} (h : putWith (fun _ => .ub) env t key val = .ok r) (al : Alloc) :
    putWith al env t key val = .ok r := by
  unfold putWith at h ⊢
  by_cases hr : t.rdonly = true
  · rw [if_pos hr] at h ⊢; exact h
  rw [if_neg hr] at h ⊢
  by_cases h0 : t.root = 0
  · rw [if_pos h0] at h; cases h
  rw [if_neg h0] at h ⊢
  obtain ⟨fp, hfp, h⟩ := Res.bind_eq_ok.1 h
  rw [hfp, Res.ok_bind]
  cases fp with
  | error e => exact h
  | ok path =>
    simp only [] at h ⊢
    obtain ⟨leaf, hleaf, h⟩ := Res.bind_eq_ok.1 h
    rw [hleaf, Res.ok_bind]
    obtain ⟨f, hf, h⟩ := Res.bind_eq_ok.1 h
    rw [hf, Res.ok_bind]
    split at h
    · rename_i hx; rw [if_pos hx]; exact h
    rename_i hx
    rw [if_neg hx]
    obtain ⟨c, hc, h⟩ := Res.bind_eq_ok.1 h
    rw [hc, Res.ok_bind]
    obtain ⟨p1, hp1, h⟩ := Res.bind_eq_ok.1 h
    rw [hp1, Res.ok_bind]
    obtain ⟨d, hd, h⟩ := Res.bind_eq_ok.1 h
    rw [hd, Res.ok_bind]
    split at h
    · rename_i hd1
      rw [if_pos hd1]
      obtain ⟨q, hins, h⟩ := Res.bind_eq_ok.1 h
      rw [hins, Res.ok_bind]
      obtain ⟨rs, rp⟩ := q
      cases rs with
      | ok => exact h
      | inval => exact h
      | nospc =>
        simp only [] at h ⊢
        obtain ⟨q, hsp, h⟩ := Res.bind_eq_ok.1 h
        unfold pageSplit at hsp ⊢
        obtain ⟨sp, h1, h2⟩ := Res.bind_eq_ok.1 hsp
        obtain ⟨e1, e, e2⟩ := splitTxn_noalloc h1
        rw [splitTxn_any h1 al, Res.ok_bind, e2]
        rw [e2] at h2
        simp only [] at h2 ⊢
        rw [h2, Res.ok_bind]; exact h
    · rename_i hd1
      rw [if_neg hd1]; exact h

theorem put_above {env : Env} {t t' : Txn} {key val : Bytes} {st : Status} (hs : 4 + key.length + val.length < 65536) (hno : Leads env t key)
    (h : putWith (fun _ => .ub) env t key val = .ok (st, t')) {no : Nat} {p : Page} (hp : t.getDirty no = some p) (wf : WF p) :
    ∃ p', t'.getDirty no = some p' ∧ Above p p' := by
  unfold putWith at h
  by_cases hr : t.rdonly = true
  · rw [if_pos hr] at h; cases h; exact ⟨p, hp, .refl wf⟩
  rw [if_neg hr] at h
  by_cases h0 : t.root = 0
  · rw [if_pos h0] at h; cases h
  rw [if_neg h0] at h
  obtain ⟨fp, hfp, h⟩ := Res.bind_eq_ok.1 h
  cases fp with
  | error e => cases h; exact ⟨p, hp, .refl wf⟩
  | ok path =>
    simp only [] at h
    obtain ⟨hne, leaf, hleaf, hl⟩ := findPath_leaf _ hfp
    rw [hleaf, Res.ok_bind] at h
    obtain ⟨f, hf, h⟩ := Res.bind_eq_ok.1 h
    obtain ⟨hb1, hb2⟩ := probe_bound (by omega) hf
    split at h
    · cases h; exact ⟨p, hp, .refl wf⟩
    rename_i hx
    obtain ⟨c, hc, h⟩ := Res.bind_eq_ok.1 h
    obtain ⟨k1, k2, k3⟩ := cowPath_keep hc
    obtain ⟨lk, t1⟩ := c
    simp only [] at h k1 k2 k3
    obtain ⟨p1, hp1, h⟩ := Res.bind_eq_ok.1 h
    obtain ⟨d, hd, h⟩ := Res.bind_eq_ok.1 h
    have hn1 := k1 _ _ hp
    -- either the leaf is the page looked at, and not changed before the insertion, or it is another page
    have key2 : (no = lk ∧ d = (St.ok, p) ∧ isLeaf p = true ∧ f.idx ≤ numKeys p) ∨ no ≠ lk := by
      by_cases hcl : (t.getDirty (path.getLastD 0)).isSome = true
      · obtain ⟨q, hq⟩ := Option.isSome_iff_exists.1 hcl
        have hlk := k2 q hq
        by_cases hnn : no = lk
        · left
          have hqp : q = p := by rw [hnn, hlk, hq] at hp; cases hp; rfl
          have hlp : leaf = p := by
            unfold getPage at hleaf
            rw [if_neg hr, hq] at hleaf
            cases hleaf; exact hqp
          subst hlp
          have hh : f.hit = false := by
            rw [hcl] at hx; simpa using hx
          rw [hh] at hd
          rw [hnn] at hn1; rw [hn1] at hp1; cases hp1
          simp only [Bool.false_eq_true, if_false, Res.ok.injEq] at hd
          exact ⟨hnn, hd.symm, hl, hb1⟩
        · exact .inr hnn
      · right
        have hnone : t.getDirty (path.getLastD 0) = none := by simpa using hcl
        obtain ⟨q, hq, hlk⟩ := k3 hnone
        rw [hlk, hno _ hfp hnone _ hq]
        rintro rfl; rw [hnone] at hp; cases hp
    -- the transaction after the deletion
    have hset : ∀ q, no ≠ lk → (t1.setDirty lk q).getDirty no = some p := fun q hh => by rw [getDirty_setDirty, if_neg hh]; exact hn1
    have hkept : ∃ p', (t1.setDirty lk d.2).getDirty no = some p' ∧ Above p p' := by
      rcases key2 with ⟨rfl, rfl, -, -⟩ | hh
      · exact ⟨p, by rw [getDirty_setDirty, if_pos rfl], .refl wf⟩
      · exact ⟨p, hset _ hh, .refl wf⟩
    split at h
    · obtain ⟨r, hins, h⟩ := Res.bind_eq_ok.1 h
      obtain ⟨rs, rp⟩ := r
      cases rs with
      | ok =>
        cases h
        rw [getDirty_setDirty]
        rcases key2 with ⟨rfl, rfl, hl', hi⟩ | hh
        · rw [if_pos rfl]
          obtain ⟨a, b, c⟩ := insert_above wf hl' hi hs hins
          exact ⟨rp, rfl, a, b, c⟩
        · rw [if_neg hh]; exact ⟨p, hset _ hh, .refl wf⟩
      | inval => cases h; exact hkept
      | nospc =>
        simp only [] at h
        obtain ⟨r, hsp, h⟩ := Res.bind_eq_ok.1 h
        unfold pageSplit at hsp
        obtain ⟨sp, h1, h2⟩ := Res.bind_eq_ok.1 hsp
        obtain ⟨e1, e, e2⟩ := splitTxn_noalloc h1
        rw [e2] at h2
        cases h2
        cases h
        show ∃ p', sp.1.getDirty no = some p' ∧ _
        rw [e1]; exact hkept
    · cases h; exact hkept

/-- The key is not in the page the pointer points into, or its node lies below the pointer. -/
def Spares (env : Env) (t : Txn) (x : Ptr) (key : Bytes) : Prop :=
  ∀ path, findPath env t key maxDepth t.root = .ok (.ok path) → path.getLastD 0 = x.no →
    ∀ p, getPage env t x.no = .ok p → ∀ i, probe p key = .ok (.found i) → slot p i + nodeSize p true (slot p i) ≤ x.off

theorem del_above {env : Env} {t t' : Txn} {key : Bytes} {st : Status} (hk : key.length < 65536) (h : del env t key = .ok (st, t'))
    {x : Ptr} (hx : Spares env t x key) {p : Page} (hp : t.getDirty x.no = some p) (wf : WF p) (hup : upper p ≤ x.off) :
    ∃ p', t'.getDirty x.no = some p' ∧ WF p' ∧ upper p' ≤ x.off ∧ ∀ j, x.off ≤ j → j < pageSize → p' j = p j := by
  unfold del at h
  by_cases hr : t.rdonly = true
  · rw [if_pos hr] at h; cases h; exact ⟨p, hp, wf, hup, fun _ _ _ => rfl⟩
  rw [if_neg hr] at h
  by_cases h0 : t.root = 0
  · rw [if_pos h0] at h; cases h; exact ⟨p, hp, wf, hup, fun _ _ _ => rfl⟩
  rw [if_neg h0] at h
  obtain ⟨fp, hfp, h⟩ := Res.bind_eq_ok.1 h
  cases fp with
  | error e => cases h; exact ⟨p, hp, wf, hup, fun _ _ _ => rfl⟩
  | ok path =>
    simp only [] at h
    obtain ⟨hne, leaf, hleaf, hl⟩ := findPath_leaf _ hfp
    rw [hleaf, Res.ok_bind] at h
    obtain ⟨f, hf, h⟩ := Res.bind_eq_ok.1 h
    obtain ⟨hb1, hb2⟩ := probe_bound hk hf
    split at h
    · rename_i hhit
      obtain ⟨c, hc, h⟩ := Res.bind_eq_ok.1 h
      obtain ⟨k1, -, -⟩ := cowPath_keep hc
      have hn1 := k1 _ _ hp
      by_cases hn : path.getLastD 0 = x.no
      · rw [hn] at h hleaf
        have hlp : leaf = p := by
          unfold getPage at hleaf
          rw [if_neg hr, hp] at hleaf
          cases hleaf; rfl
        subst hlp
        simp only [hn1] at h
        obtain ⟨q, e, hrem⟩ := delete_removed wf (hb2 hhit)
        rw [e] at h
        cases h
        have hsp : slot leaf f.idx + nodeSize leaf true (slot leaf f.idx) ≤ x.off := by
          refine hx path hfp hn leaf ?_ f.idx ?_
          · unfold getPage; rw [if_neg hr, hp]
          · rw [hf]; cases f with
            | found i => rfl
            | notFound i => cases hhit
        have hin := wf.inside f.idx (hb2 hhit)
        refine ⟨q, by rw [getDirty_setDirty, if_pos rfl], hrem.wf wf (hb2 hhit), ?_, fun j hj hj2 => hrem.by2 j ?_ hj2⟩
        · rw [hrem.up, hl]; omega
        · rw [hl]; omega
      · split at h
        · cases h; exact ⟨p, hn1, wf, hup, fun _ _ _ => rfl⟩
        · obtain ⟨d, -, h⟩ := Res.bind_eq_ok.1 h
          cases h
          exact ⟨p, by rw [getDirty_setDirty, if_neg (fun e => hn e.symm)]; exact hn1, wf, hup, fun _ _ _ => rfl⟩
    · cases h; exact ⟨p, hp, wf, hup, fun _ _ _ => rfl⟩

theorem slice_above {p q : Page} {o n : Nat} (h : ∀ j, o ≤ j → j < pageSize → q j = p j) (hb : o + n ≤ pageSize) : slice q o n = slice p o n := by
  apply List.ext_getElem
  · simp only [slice_length]
  · intro i h1 h2
    rw [slice_getElem, slice_getElem]
    rw [slice_length] at h1
    exact h _ (by omega) (by omega)

end Verif.Db
