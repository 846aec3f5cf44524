import Verif.Db.Sheet
import Verif.Db.Commit
import Verif.Db.LooseProps

/-!
# A write transaction as a pile of lists

`put`, `del` and `get` of a transaction in which every page is dirty and no free pages are recorded, with pages described by lists
(`Verif.Db.Sheet`).  `none` stands for the few cases that the description does not cover: entries of 65536 bytes and more, the split of
an empty page, the separator of an empty page, and page numbers above 64 bits.  In all other cases the pile does exactly what the transaction does.
-/

namespace Verif.Db

open Verif.Page

/-- The pages of a transaction, described. -/
structure Pile where
  root : Nat
  last : Nat
  sheets : List (Nat × Sheet)

/-- The entry of a number in a list. -/
def entryOf (n : Nat) : List (Nat × Sheet) → Option Sheet
  | [] => none
  | e :: l => bif Nat.beq n e.1 then some e.2 else entryOf n l

/-- Enter or replace an entry, larger numbers first, so that new pages come to the front. -/
def enterAt (n : Nat) (a : Sheet) : List (Nat × Sheet) → List (Nat × Sheet)
  | [] => [(n, a)]
  | e :: l => bif Nat.beq n e.1 then (n, a) :: l else bif Nat.ble e.1 n then (n, a) :: e :: l else e :: enterAt n a l

/-- The page with a number. -/
def Pile.get (s : Pile) (n : Nat) : Option Sheet := entryOf n s.sheets

/-- Enter or replace a page. -/
def Pile.set (s : Pile) (n : Nat) (a : Sheet) : Pile := { s with sheets := enterAt n a s.sheets }

/-- Insertion where the description covers it (`Verif.Page.insert`). -/
def Sheet.enter (a : Sheet) (it : Item) (i : Nat) : Option (Option Sheet) :=
  if it.size < 65536 ∧ it.hasData = a.leaf ∧ it.child < 2 ^ 64 ∧ i ≤ a.its.length then some (a.insert i it) else none

/-- A split: the number of the new page, both halves, and the divider (`splitTxn`). -/
def Pile.split (s : Pile) (leaf : Bool) (n : Nat) : Option (Pile × Nat × Sheet × Sheet × Bytes) := do
  let a ← s.get n
  let d ← a.right.its.head?
  if a.leaf = leaf ∧ n ≤ s.last ∧ s.last + 1 < 2 ^ 64 then
    some ((({ s with last := s.last + 1 } : Pile).set n a.left).set (s.last + 1) a.right, s.last + 1, a.left, a.right, d.key)
  else none

/-- The entry goes into one of the halves: whether it found room (`insertHalf`). -/
def Pile.half (s : Pile) (n no : Nat) (l r : Sheet) (it : Item) : Option (Bool × Pile) :=
  if !(l.probe it.key).hit && l.its.length ≤ (l.probe it.key).idx then do
    match ← r.enter it (r.probe it.key).idx with
    | none => some (false, s.set no r)
    | some b => some (true, s.set no b)
  else do
    match ← l.enter it (l.probe it.key).idx with
    | none => some (false, s.set n l)
    | some b => some (true, s.set n b)

/-- A new separator and page go up the path (`propagate`). -/
def Pile.up : List Nat → Pile → Bytes → Nat → Option (Pile × Status × Bytes × Nat)
  | [], s, k, c => some (s, .success, k, c)
  | n :: rest, s, k, c => do
    let a ← s.get n
    match ← a.enter (.branch k c) (a.probe k).idx with
    | some b => some (s.set n b, .incomplete, k, c)
    | none => do
      let x ← s.split false n
      let y ← x.1.half n x.2.1 x.2.2.1 x.2.2.2.1 (.branch k c)
      if y.1 then Pile.up rest y.2 x.2.2.2.2 x.2.1
      else some (y.2, .nospc, k, c)

/-- A new root (`rootSplit`). -/
def Pile.newRoot (s : Pile) (old right : Nat) (d : Bytes) : Option (Pile × Option Nat) := do
  let a ← s.get old
  let f ← a.its.head?
  if s.last + 1 < 2 ^ 64 then
    match ← (Sheet.empty false).enter (.branch f.key old) 0 with
    | none => some ({ s with last := s.last + 1 }, none)
    | some b =>
      match ← b.enter (.branch d right) 1 with
      | none => some ({ s with last := s.last + 1 }, none)
      | some b => some (({ s with last := s.last + 1 } : Pile).set (s.last + 1) b, some (s.last + 1))
  else none

/-- The way to a leaf (`findPath`). -/
def Pile.path (s : Pile) (key : Bytes) : Nat → Nat → Option (List Nat)
  | 0, _ => none
  | d + 1, n => do
    let a ← s.get n
    if s.last < n then none
    else if a.leaf then some [n]
    else do
      let i := match a.probe key with
        | .found i => i
        | .notFound i => if 0 < i then i - 1 else i
      let it ← a.its[if a.its.length ≤ i then a.its.length - 1 else i]?
      let r ← Pile.path s key d it.child
      some (n :: r)

/-- Split the leaf, insert, and go up (`pageSplit`). -/
def Pile.grow (s : Pile) (path : List Nat) (key val : Bytes) : Option (Status × Pile) := do
  let x ← s.split true (path.getLastD 0)
  let y ← x.1.half (path.getLastD 0) x.2.1 x.2.2.1 x.2.2.2.1 (.leaf key val)
  if y.1 then do
    let z ← Pile.up path.dropLast.reverse y.2 x.2.2.2.2 x.2.1
    if z.2.1 = .incomplete then some (.success, { z.1 with root := path.headD 0 })
    else if z.2.1 = .success then do
      let w ← z.1.newRoot (path.headD 0) z.2.2.2 z.2.2.1
      match w.2 with
      | none => some (.nospc, w.1)
      | some n => some (.success, { w.1 with root := n })
    else some (z.2.1, z.1)
  else some (.nospc, y.2)

/-- napr_db.c L1436-1540 `napr_db_put` (`putWith`). -/
def Pile.put (s : Pile) (key val : Bytes) : Option (Status × Pile) :=
  if s.root = 0 then
    if s.last + 1 < 2 ^ 64 then do
      match ← (Sheet.empty true).enter (.leaf key val) 0 with
      | none => some (.nospc, { s with last := s.last + 1 })
      | some b => some (.success, { ({ s with last := s.last + 1 } : Pile).set (s.last + 1) b with root := s.last + 1 })
    else none
  else if key.length < 65536 then do
    let path ← s.path key maxDepth s.root
    let a ← s.get (path.getLastD 0)
    if (a.probe key).hit then some (.exist, s)
    else do
      match ← a.enter (.leaf key val) (a.probe key).idx with
      | some b => some (.success, s.set (path.getLastD 0) b)
      | none => s.grow path key val
  else none

/-- napr_db.c L1856-1921 `napr_db_del` (`Verif.Db.del`). -/
def Pile.del (s : Pile) (key : Bytes) : Option (Status × Pile) :=
  if s.root = 0 then some (.notfound, s)
  else if key.length < 65536 then do
    let path ← s.path key maxDepth s.root
    let a ← s.get (path.getLastD 0)
    if (a.probe key).hit then some (.success, s.set (path.getLastD 0) (a.delete (a.probe key).idx))
    else some (.notfound, s)
  else none

/-- napr_db.c L1329-1370 `napr_db_get` (`Verif.Db.get`): `none` if the way leads to an empty branch page, outside of which the next step reads. -/
def Pile.find (s : Pile) (key : Bytes) : Nat → Nat → Option (Option Bytes)
  | 0, _ => none
  | d + 1, n => do
    let a ← s.get n
    if a.leaf then
      if (a.probe key).hit then some (a.its[(a.probe key).idx]?.map Item.val) else some none
    else do
      let i := match a.probe key with
        | .found i => i
        | .notFound i => if 0 < i then i - 1 else i
      let it ← a.its[if a.its.length ≤ i then a.its.length - 1 else i]?
      Pile.find s key d it.child

/-- The way to the leaf of a key leads to an empty branch page. -/
def Pile.falls (s : Pile) (key : Bytes) : Nat → Nat → Bool
  | 0, _ => false
  | d + 1, n =>
    match s.get n with
    | none => false
    | some a =>
      if a.leaf then false
      else
        let i := match a.probe key with
          | .found i => i
          | .notFound i => if 0 < i then i - 1 else i
        match a.its[if a.its.length ≤ i then a.its.length - 1 else i]? with
        | none => true
        | some it => Pile.falls s key d it.child

/-- Operations one after the other. -/
def Pile.steps (s : Pile) : List KvOp → Option (List Status × Pile)
  | [] => some ([], s)
  | .put k v :: ops => do
    let a ← s.put k v
    let b ← a.2.steps ops
    some (a.1 :: b.1, b.2)
  | .del k :: ops => do
    let a ← s.del k
    let b ← a.2.steps ops
    some (a.1 :: b.1, b.2)

/-! ### Helper lemmas: the transaction does what the pile does -/

theorem beq_cases (m n : Nat) : (m = n ∧ Nat.beq m n = true) ∨ (m ≠ n ∧ Nat.beq m n = false) := by
  cases h : Nat.beq m n with
  | true => exact .inl ⟨Nat.eq_of_beq_eq_true h, rfl⟩
  | false => exact .inr ⟨Nat.ne_of_beq_eq_false h, rfl⟩

theorem Pile.get_set (s : Pile) (n : Nat) (a : Sheet) (m : Nat) : (s.set n a).get m = if m = n then some a else s.get m := by
  show entryOf m (enterAt n a s.sheets) = if m = n then some a else entryOf m s.sheets
  generalize s.sheets = l
  have front : ∀ l, entryOf m ((n, a) :: l) = if m = n then some a else entryOf m l := by
    intro l
    rw [entryOf]
    rcases beq_cases m n with ⟨h, e⟩ | ⟨h, e⟩
    · rw [e, if_pos h]; rfl
    · rw [e, if_neg h]; rfl
  induction l with
  | nil => exact front []
  | cons e l ih =>
    rw [enterAt]
    rcases beq_cases n e.1 with ⟨h, hb⟩ | ⟨h, hb⟩
    · rw [hb, cond_true, front]
      by_cases hm : m = n
      · rw [if_pos hm, if_pos hm]
      · rw [if_neg hm, if_neg hm, entryOf]
        rcases beq_cases m e.1 with ⟨h', hb'⟩ | ⟨h', hb'⟩
        · exact absurd (h'.trans h.symm) hm
        · rw [hb', cond_false]
    · rw [hb, cond_false]
      cases Nat.ble e.1 n with
      | true => exact front (e :: l)
      | false =>
        rw [cond_false, entryOf, entryOf, ih]
        rcases beq_cases m e.1 with ⟨h', hb'⟩ | ⟨h', hb'⟩
        · rw [hb', cond_true, cond_true, if_neg (fun hm => h (hm.symm.trans h'))]
        · rw [hb', cond_false, cond_false]

theorem opt_bind {α β : Type} {x : Option α} {f : α → Option β} {b : β} (h : (x >>= f) = some b) : ∃ a, x = some a ∧ f a = some b := by
  cases x with
  | none => cases h
  | some a => exact ⟨a, rfl, h⟩

/-- The transaction is as the pile says. -/
structure Piled (s : Pile) (t : Txn) : Prop where
  rdonly : t.rdonly = false
  free : t.freeRoot = 0
  root : t.root = s.root
  last : t.newLast = s.last
  page : ∀ n a, s.get n = some a → ∃ p, t.getDirty n = some p ∧ pgno p = n ∧ Rep p a
  clean : Clean t.txnid 0 [0, 1] t
  freed : t.freed = []
  low : ∀ n a, s.get n = some a → 2 ≤ n ∧ n ≤ s.last

theorem Piled.two {s : Pile} {t : Txn} (R : Piled s t) : 1 ≤ s.last := by rw [← R.last]; exact R.clean.last 1 (by simp)

theorem Piled.dirt {s : Pile} {t : Txn} (R : Piled s t) {n : Nat} {p : Page} {a : Sheet} (hn : 2 ≤ n ∧ n ≤ s.last) (hp : pgno p = n) (h : Rep p a) :
    Clean t.txnid 0 [0, 1] (t.setDirty n p) :=
  R.clean.set (by simp; omega) hp h.wf (by rw [R.last]; exact hn.2)

theorem Piled.set {s : Pile} {t : Txn} (R : Piled s t) {n : Nat} {p : Page} {a : Sheet} (hn : 2 ≤ n ∧ n ≤ s.last) (hp : pgno p = n) (h : Rep p a) :
    Piled (s.set n a) (t.setDirty n p) := by
  refine ⟨R.rdonly, R.free, R.root, R.last, fun m b hm => ?_, R.dirt hn hp h, R.freed, fun m b hm => ?_⟩
  rotate_left
  · rw [Pile.get_set] at hm
    by_cases e : m = n
    · rw [e]; exact hn
    · rw [if_neg e] at hm; exact R.low m b hm
  rw [Pile.get_set] at hm
  rw [getDirty_set]
  by_cases e : m = n
  · rw [if_pos e] at hm ⊢; cases hm; exact ⟨p, rfl, hp.trans e.symm, h⟩
  · rw [if_neg e] at hm ⊢; exact R.page m b hm

theorem Piled.same {s : Pile} {t : Txn} (R : Piled s t) {n : Nat} {p : Page} {a : Sheet} (hp : pgno p = n) (h : Rep p a) (hs : s.get n = some a) :
    Piled s (t.setDirty n p) := by
  refine ⟨R.rdonly, R.free, R.root, R.last, fun m b hm => ?_, R.dirt (R.low n a hs) hp h, R.freed, R.low⟩
  rw [getDirty_set]
  by_cases e : m = n
  · rw [if_pos e]; rw [e, hs] at hm; cases hm; exact ⟨p, rfl, hp.trans e.symm, h⟩
  · rw [if_neg e]; exact R.page m b hm

theorem Piled.extend {s : Pile} {t : Txn} (R : Piled s t) : Piled { s with last := s.last + 1 } (extend t).2 :=
  ⟨R.rdonly, R.free, R.root, by show t.newLast + 1 = _; rw [R.last], R.page, R.clean.grow, R.freed,
    fun n a h => by have := R.low n a h; exact ⟨this.1, Nat.le_succ_of_le this.2⟩⟩

theorem Piled.root' {s : Pile} {t : Txn} (R : Piled s t) (r : Nat) : Piled { s with root := r } { t with root := r } :=
  ⟨R.rdonly, R.free, rfl, R.last, R.page, R.clean.root r, R.freed, R.low⟩

theorem enter_rep {p : Page} {a : Sheet} (h : Rep p a) {it : Item} {i : Nat} {r : Option Sheet} (he : a.enter it i = some r) :
    (r = none → Verif.Page.insert p i it = .ok (.nospc, p)) ∧ (∀ b, r = some b → ∃ q, Verif.Page.insert p i it = .ok (.ok, q) ∧ Rep q b ∧ pgno q = pgno p) := by
  unfold Sheet.enter at he
  split at he
  · rename_i hc
    cases he
    exact insert_rep h hc.2.2.2 hc.2.1 hc.1 hc.2.2.1
  · cases he

theorem key_lt {a : Sheet} {it : Item} {i : Nat} {r : Option Sheet} (he : a.enter it i = some r) : it.key.length < 65536 := by
  unfold Sheet.enter at he
  split at he
  · rename_i hc
    have := hc.1
    cases it <;> simp only [Item.size, Item.key] at * <;> omega
  · cases he

theorem Piled.split {al : Alloc} (hal : ∀ t, t.freeRoot = 0 → al t = .ok (Verif.Db.extend t)) {s : Pile} {t : Txn} (R : Piled s t) {leaf : Bool} {n : Nat}
    {x : Pile × Nat × Sheet × Sheet × Bytes} (h : s.split leaf n = some x) :
    ∃ t' q, splitTxn al leaf t n = .ok (t', .ok q) ∧ Piled x.1 t' ∧ q.no = x.2.1 ∧ q.divider = x.2.2.2.2 ∧ Rep q.left x.2.2.1 ∧ Rep q.right x.2.2.2.1 ∧
      pgno q.left = n ∧ pgno q.right = x.2.1 ∧ x.2.1 ≠ n ∧ x.1.get n = some x.2.2.1 ∧ x.1.get x.2.1 = some x.2.2.2.1 := by
  unfold Pile.split at h
  obtain ⟨a, ha, h⟩ := opt_bind h
  obtain ⟨d, hd, h⟩ := opt_bind h
  split at h
  case isFalse => cases h
  case isTrue hc =>
  obtain ⟨hl, hn, hlast⟩ := hc
  cases h
  obtain ⟨p, hp, hpn, hr⟩ := R.page n a ha
  have h0 : a.its ≠ [] := by
    intro e
    unfold Sheet.right at hd
    rw [e] at hd; cases hd
  obtain ⟨q, e, r1, r2, n1, n2, hdiv⟩ := split_rep hr h0 (no := s.last + 1) hlast
  have hkind : (if leaf then isLeaf p else isBranch p) = true := by
    rw [← hl]
    cases hk : a.leaf with
    | true => rw [if_pos rfl]; exact hr.kind.trans hk
    | false => rw [if_neg (by simp)]; exact hr.wf.not_leaf (hr.kind.trans hk)
  have hne : s.last + 1 ≠ n := by omega
  refine ⟨((Verif.Db.extend t).2.setDirty n q.left).setDirty (s.last + 1) q.right, ⟨s.last + 1, q.left, q.right, q.divider⟩, ?_, ?_, rfl, ?_, r1, r2, n1.trans hpn, n2, hne, ?_, ?_⟩
  · unfold splitTxn
    rw [hp]
    show (if !(if leaf then isLeaf p else isBranch p) then _ else _) = _
    rw [hkind, if_neg (by simp), hal t R.free, Res.ok_bind]
    show ((Res.ofOption (t.getDirty n)) >>= _) = _
    rw [hp]
    show (if leaf then splitLeaf p (t.newLast + 1) else splitBranch p (t.newLast + 1)) >>= _ = _
    rw [R.last, ← hl, e, Res.ok_bind]
    show Res.ok (((Verif.Db.extend t).2.setDirty n q.left).setDirty (t.newLast + 1) q.right, Except.ok (SplitTxn.mk (t.newLast + 1) q.left q.right q.divider)) = _
    rw [R.last]
  · have hlo := R.low n a ha
    exact (R.extend.set ⟨hlo.1, Nat.le_succ_of_le hlo.2⟩ (n1.trans hpn) r1).set ⟨by have := R.two; omega, Nat.le_refl _⟩ n2 r2
  · have hd' : a.right.its[0]? = some d := by rw [← List.head?_eq_getElem?]; exact hd
    rw [hd'] at hdiv
    exact Option.some.inj hdiv
  · rw [Pile.get_set, if_neg (Ne.symm hne), Pile.get_set, if_pos rfl]
  · rw [Pile.get_set, if_pos rfl]

theorem Pile.split_right {s : Pile} {leaf : Bool} {n : Nat} {x : Pile × Nat × Sheet × Sheet × Bytes} (h : s.split leaf n = some x) : x.2.2.2.1.its ≠ [] := by
  unfold Pile.split at h
  obtain ⟨a, ha, h⟩ := opt_bind h
  obtain ⟨d, hd, h⟩ := opt_bind h
  split at h
  case isFalse => cases h
  case isTrue hc =>
  cases h
  intro e
  have e : a.right.its = [] := e
  rw [e] at hd; cases hd

theorem Piled.half {s : Pile} {t : Txn} (R : Piled s t) {n : Nat} {q : SplitTxn} {l r : Sheet} (hl : Rep q.left l) (hr : Rep q.right r) (n1 : pgno q.left = n)
    (n2 : pgno q.right = q.no) (hne : q.no ≠ n) (g1 : s.get n = some l) (g2 : s.get q.no = some r) {it : Item} {y : Bool × Pile} (hk : it.key.length < 65536) (h : s.half n q.no l r it = some y) :
    ∃ t', insertHalf t n q it = .ok (if y.1 then .success else .nospc, t') ∧ Piled y.2 t' := by
  unfold Pile.half at h
  unfold insertHalf
  rw [probe_rep hl hk, Res.ok_bind, hl.len]
  split at h
  · rename_i hc
    rw [if_pos hc, probe_rep hr hk, Res.ok_bind]
    obtain ⟨o, ho, h⟩ := opt_bind h
    obtain ⟨e1, e2⟩ := enter_rep hr ho
    cases o with
    | none =>
      cases h
      rw [e1 rfl, Res.ok_bind]
      exact ⟨_, rfl, R.set (R.low _ _ g2) n2 hr⟩
    | some b =>
      cases h
      obtain ⟨p, hp, hrep, hno⟩ := e2 b rfl
      rw [hp, Res.ok_bind]
      exact ⟨_, rfl, R.set (R.low _ _ g2) (hno.trans n2) hrep⟩
  · rename_i hc
    rw [if_neg hc]
    obtain ⟨o, ho, h⟩ := opt_bind h
    obtain ⟨e1, e2⟩ := enter_rep hl ho
    cases o with
    | none =>
      cases h
      rw [e1 rfl, Res.ok_bind, if_neg hne]
      exact ⟨_, rfl, R.set (R.low _ _ g1) n1 hl⟩
    | some b =>
      cases h
      obtain ⟨p, hp, hrep, hno⟩ := e2 b rfl
      rw [hp, Res.ok_bind, if_neg hne]
      exact ⟨_, rfl, R.set (R.low _ _ g1) (hno.trans n1) hrep⟩

theorem Piled.up {al : Alloc} (hal : ∀ t, t.freeRoot = 0 → al t = .ok (Verif.Db.extend t)) : ∀ (L : List Nat) {s : Pile} {t : Txn} (_ : Piled s t) {k : Bytes} {c : Nat}
    {z : Pile × Status × Bytes × Nat}, Pile.up L s k c = some z → ∃ t', propagate al L t k c = .ok (t', z.2) ∧ Piled z.1 t' := by
  intro L
  induction L with
  | nil => intro s t R k c z h; cases h; exact ⟨t, rfl, R⟩
  | cons n L ih =>
    intro s t R k c z h
    rw [Pile.up] at h
    obtain ⟨a, ha, h⟩ := opt_bind h
    obtain ⟨o, ho, h⟩ := opt_bind h
    obtain ⟨p, hp, hpn, hr⟩ := R.page n a ha
    have hk : k.length < 65536 := key_lt ho
    obtain ⟨e1, e2⟩ := enter_rep hr ho
    rw [propagate, hp]
    simp only []
    rw [probe_rep hr hk, Res.ok_bind]
    cases o with
    | some b =>
      cases h
      obtain ⟨q, hq, hrep, hno⟩ := e2 b rfl
      rw [hq, Res.ok_bind]
      exact ⟨_, rfl, R.set (R.low _ _ ha) (hno.trans hpn) hrep⟩
    | none =>
      rw [e1 rfl, Res.ok_bind]
      simp only [] at h ⊢
      obtain ⟨x, hx, h⟩ := opt_bind h
      obtain ⟨y, hy, h⟩ := opt_bind h
      obtain ⟨t1, q, g1, R1, g2, g3, r1, r2, n1, n2, hne, k1, k2⟩ := R.split hal hx
      rw [g1, Res.ok_bind]
      simp only []
      obtain ⟨t2, g4, R2⟩ := R1.half (q := q) r1 r2 n1 (n2.trans g2.symm) (by rw [g2]; exact hne) k1 (by rw [g2]; exact k2) (it := .branch k c) hk (by rw [g2]; exact hy)
      rw [g4, Res.ok_bind]
      cases hb : y.1 with
      | true =>
        rw [hb, if_pos rfl] at h
        obtain ⟨t3, g5, R3⟩ := ih R2 h
        refine ⟨t3, ?_, R3⟩
        simp only [if_true]
        rw [g3, g2, g5]
      | false =>
        rw [hb, if_neg (by simp)] at h
        cases h
        exact ⟨t2, rfl, R2⟩

theorem Piled.newRoot {al : Alloc} (hal : ∀ t, t.freeRoot = 0 → al t = .ok (Verif.Db.extend t)) {s : Pile} {t : Txn} (R : Piled s t) {old right : Nat} {d : Bytes}
    {w : Pile × Option Nat} (h : s.newRoot old right d = some w) :
    ∃ t', rootSplit al t old right d = .ok (t', match w.2 with | none => .error .nospc | some n => .ok n) ∧ Piled w.1 t' := by
  unfold Pile.newRoot at h
  obtain ⟨a, ha, h⟩ := opt_bind h
  obtain ⟨f, hf, h⟩ := opt_bind h
  split at h
  case isFalse => cases h
  case isTrue hlast =>
  obtain ⟨o, ho, h⟩ := opt_bind h
  obtain ⟨p, hp, -, hr⟩ := R.page old a ha
  obtain ⟨l, hl⟩ := List.head?_eq_some_iff.1 hf
  have hemp := empty_rep false hlast
  have hf2 := emptyPage_fields false (s.last + 1) hlast
  obtain ⟨e1, e2⟩ := enter_rep hemp ho
  unfold rootSplit
  rw [hal t R.free, Res.ok_bind]
  simp only []
  rw [show (Verif.Db.extend t).2.getDirty old = some p from hp]
  simp only []
  rw [firstKey_rep hr hl, Res.ok_bind, show (Verif.Db.extend t).1 = s.last + 1 by rw [← R.last]; rfl]
  cases o with
  | none =>
    cases h
    rw [e1 rfl, Res.ok_bind]
    exact ⟨_, rfl, R.extend⟩
  | some b =>
    obtain ⟨q, hq, hrep, hno⟩ := e2 b rfl
    rw [hq, Res.ok_bind]
    obtain ⟨o, ho, h⟩ := opt_bind h
    obtain ⟨e1, e2⟩ := enter_rep hrep ho
    simp only [if_true]
    cases o with
    | none =>
      cases h
      rw [e1 rfl, Res.ok_bind]
      exact ⟨_, rfl, R.extend⟩
    | some b =>
      cases h
      obtain ⟨q', hq', hrep', hno'⟩ := e2 b rfl
      rw [hq', Res.ok_bind]
      exact ⟨_, rfl, R.extend.set ⟨by have := R.two; omega, Nat.le_refl _⟩ ((hno'.trans hno).trans hf2.2.2.2.2) hrep'⟩

theorem childIdx_rep {p : Page} {a : Sheet} (h : Rep p a) {key : Bytes} (hk : key.length < 65536) :
    childIdx p key = .ok (if a.its.length ≤ (match a.probe key with | .found i => i | .notFound i => if 0 < i then i - 1 else i) then (a.its.length + 65535) % 65536
      else (match a.probe key with | .found i => i | .notFound i => if 0 < i then i - 1 else i)) := by
  unfold childIdx
  rw [probe_rep h hk, Res.ok_bind, h.len]
  rfl

theorem child_rep {p : Page} {a : Sheet} (h : Rep p a) (hl : a.leaf = false) {i : Nat} {it : Item} (hi : a.its[i]? = some it) : child p i = .ok it.child := by
  obtain ⟨hlt, he⟩ := List.getElem?_eq_some_iff.1 hi
  have hsplit : entries p = ((entries p).take i) ++ (it.key, it.child) :: (entries p).drop (i + 1) := by
    have hi' : i < (entries p).length := by simpa [entries, h.its] using hlt
    have : (entries p)[i] = (it.key, it.child) := by simp [entries, h.its, he]
    rw [← this, ← List.drop_eq_getElem_cons hi', List.take_append_drop]
  have hlen : ((entries p).take i).length = i := by
    rw [List.length_take]
    have hi' : i < (entries p).length := by simpa [entries, h.its] using hlt
    omega
  have := child_spec h.wf (h.kind.trans hl) hsplit
  rwa [hlen] at this

/-- The child at the end of the step: it exists unless the page is empty. -/
theorem down_rep {p : Page} {a : Sheet} (h : Rep p a) (hl : a.leaf = false) {key : Bytes} (hk : key.length < 65536) :
    (childIdx p key >>= child p) =
      match a.its[if a.its.length ≤ (match a.probe key with | .found i => i | .notFound i => if 0 < i then i - 1 else i) then a.its.length - 1
        else (match a.probe key with | .found i => i | .notFound i => if 0 < i then i - 1 else i)]? with
      | none => .ub
      | some it => .ok it.child := by
  rw [childIdx_rep h hk, Res.ok_bind]
  generalize (match a.probe key with | .found i => i | .notFound i => if 0 < i then i - 1 else i) = i
  have hn : numKeys p < 65536 := u16_lt _ _
  rw [h.len] at hn
  by_cases h0 : a.its.length = 0
  · have hnil : a.its = [] := List.length_eq_zero_iff.1 h0
    rw [hnil]
    rfl
  · have hidx : (if a.its.length ≤ i then (a.its.length + 65535) % 65536 else i) = (if a.its.length ≤ i then a.its.length - 1 else i) := by
      split
      · omega
      · rfl
    rw [hidx]
    have hlt : (if a.its.length ≤ i then a.its.length - 1 else i) < a.its.length := by split <;> omega
    rw [List.getElem?_eq_getElem hlt]
    exact child_rep h hl (List.getElem?_eq_getElem hlt)

theorem Piled.page' {env : Env} {s : Pile} {t : Txn} (R : Piled s t) {n : Nat} {a : Sheet} (h : s.get n = some a) : ∃ p, getPage env t n = .ok p ∧ t.getDirty n = some p ∧
    pgno p = n ∧ Rep p a := by
  obtain ⟨p, hp, r⟩ := R.page n a h
  refine ⟨p, ?_, hp, r⟩
  unfold getPage
  rw [R.rdonly, hp]; rfl

theorem Piled.path {env : Env} {s : Pile} {t : Txn} (R : Piled s t) {key : Bytes} (hk : key.length < 65536) : ∀ (d n : Nat) {L : List Nat}, s.path key d n = some L →
    findPath env t key d n = .ok (.ok L) ∧ L ≠ [] ∧ ∀ m ∈ L, (t.getDirty m).isSome := by
  intro d
  induction d with
  | zero => intro n L h; cases h
  | succ d ih =>
    intro n L h
    rw [Pile.path] at h
    obtain ⟨a, ha, h⟩ := opt_bind h
    obtain ⟨p, hp, hd, -, hr⟩ := R.page' (env := env) ha
    split at h
    · cases h
    rename_i hlast
    have hm : ¬ maxPgno env t < n := by unfold maxPgno; rw [R.rdonly, if_neg (by simp), R.last]; exact hlast
    rw [findPath, if_neg hm, hp, Res.ok_bind]
    split at h
    · rename_i hl
      cases h
      rw [if_pos (hr.kind.trans hl)]
      refine ⟨rfl, by simp, fun m hm => ?_⟩
      rw [List.mem_singleton.1 hm, hd]; rfl
    · rename_i hl
      have hl' : a.leaf = false := by simpa using hl
      obtain ⟨it, hi, h⟩ := opt_bind h
      obtain ⟨L', hL, h⟩ := opt_bind h
      cases h
      have hdn := down_rep hr hl' hk
      rw [hi] at hdn
      simp only [] at hdn
      obtain ⟨j, hj, hc⟩ := Res.bind_eq_ok.1 hdn
      obtain ⟨e, hne, hall⟩ := ih it.child hL
      rw [if_neg (by rw [hr.kind, hl']; simp), hr.wf.not_leaf (hr.kind.trans hl'), if_neg (by simp), hj, Res.ok_bind, hc, Res.ok_bind, e, Res.ok_bind]
      refine ⟨rfl, by simp, fun m hm => ?_⟩
      rcases List.mem_cons.1 hm with rfl | hm
      · rw [hd]; rfl
      · exact hall m hm

theorem Piled.grow {al : Alloc} (hal : ∀ t, t.freeRoot = 0 → al t = .ok (Verif.Db.extend t)) {s : Pile} {t : Txn} (R : Piled s t) {path : List Nat} {key val : Bytes}
    (hk : key.length < 65536) {y : Status × Pile} (h : s.grow path key val = some y) :
    ∃ r, pageSplit al t (path.getLastD 0) path key val = .ok r ∧ (withRoot r).1 = y.1 ∧ Piled y.2 (withRoot r).2 := by
  unfold Pile.grow at h
  obtain ⟨x, hx, h⟩ := opt_bind h
  obtain ⟨u, hu, h⟩ := opt_bind h
  obtain ⟨t1, q, g1, R1, g2, g3, r1, r2, n1, n2, hne, k1, k2⟩ := R.split hal hx
  obtain ⟨t2, g4, R2⟩ := R1.half (q := q) r1 r2 n1 (n2.trans g2.symm) (by rw [g2]; exact hne) k1 (by rw [g2]; exact k2) (it := .leaf key val) hk (by rw [g2]; exact hu)
  unfold pageSplit
  rw [g1, Res.ok_bind]
  simp only []
  rw [g4, Res.ok_bind]
  cases hb : u.1 with
  | false =>
    rw [hb, if_neg (by simp)] at h
    cases h
    exact ⟨_, rfl, rfl, R2⟩
  | true =>
    rw [hb, if_pos rfl] at h
    obtain ⟨z, hz, h⟩ := opt_bind h
    obtain ⟨t3, g5, R3⟩ := R2.up hal _ hz
    simp only [if_true]
    rw [dividerNow_pos (by rw [r2.len]; exact fun h0 => Pile.split_right hx (List.eq_nil_of_length_eq_zero h0)), Res.ok_bind, g3, g2, g5, Res.ok_bind]
    simp only []
    split at h
    · rename_i hi
      cases h
      rw [if_pos hi]
      exact ⟨_, rfl, rfl, R3.root' _⟩
    · rename_i hi
      rw [if_neg hi]
      split at h
      · rename_i hs
        rw [if_pos hs]
        obtain ⟨w, hw, h⟩ := opt_bind h
        obtain ⟨t4, g6, R4⟩ := R3.newRoot hal hw
        rw [g6]
        refine ⟨_, rfl, ?_⟩
        cases hw2 : w.2 with
        | none => rw [hw2] at h; cases h; exact ⟨rfl, R4⟩
        | some n => rw [hw2] at h; cases h; exact ⟨rfl, R4.root' _⟩
      · rename_i hs
        cases h
        rw [if_neg hs]
        exact ⟨_, rfl, rfl, R3⟩

theorem Piled.put {al : Alloc} (hal : ∀ t, t.freeRoot = 0 → al t = .ok (Verif.Db.extend t)) {env : Env} {s : Pile} {t : Txn} (R : Piled s t) {key val : Bytes}
    {y : Status × Pile} (h : s.put key val = some y) : ∃ t', putWith al env t key val = .ok (y.1, t') ∧ Piled y.2 t' := by
  unfold Pile.put at h
  unfold putWith
  rw [R.rdonly, if_neg (by simp), R.root]
  split at h
  · rename_i h0
    rw [if_pos h0]
    split at h
    case isFalse => cases h
    case isTrue hlast =>
    obtain ⟨o, ho, h⟩ := opt_bind h
    obtain ⟨e1, e2⟩ := enter_rep (empty_rep true hlast) ho
    unfold newTree
    rw [hal t R.free, Res.ok_bind, show (Verif.Db.extend t).1 = s.last + 1 by rw [← R.last]; rfl]
    cases o with
    | none =>
      cases h
      rw [e1 rfl, Res.ok_bind]
      exact ⟨_, rfl, R.extend⟩
    | some b =>
      cases h
      obtain ⟨q, hq, hrep, hno⟩ := e2 b rfl
      rw [hq, Res.ok_bind]
      have R' := R.extend.set (n := s.last + 1) ⟨by have := R.two; omega, Nat.le_refl _⟩ (hno.trans (emptyPage_fields true (s.last + 1) hlast).2.2.2.2) hrep
      exact ⟨_, rfl, R'.root' _⟩
  · rename_i h0
    rw [if_neg h0]
    split at h
    case isFalse => cases h
    case isTrue hk =>
    obtain ⟨L, hL, h⟩ := opt_bind h
    obtain ⟨a, ha, h⟩ := opt_bind h
    obtain ⟨e, hne, hall⟩ := R.path (env := env) hk _ _ hL
    obtain ⟨p, hp, hd, hpn, hr⟩ := R.page' (env := env) ha
    rw [e, Res.ok_bind]
    simp only []
    rw [hp, Res.ok_bind, probe_rep hr hk, Res.ok_bind, hd]
    split at h
    · rename_i hh
      cases h
      rw [hh]
      exact ⟨_, rfl, R⟩
    · rename_i hh
      have hh' : (a.probe key).hit = false := by simpa using hh
      obtain ⟨o, ho, h⟩ := opt_bind h
      obtain ⟨e1, e2⟩ := enter_rep hr ho
      rw [hh', Bool.false_and, if_neg (by simp), cowPath_dirty hne fun m hm => Option.isSome_iff_exists.1 (hall m hm), Res.ok_bind]
      simp only []
      rw [hd]
      rw [show Res.ofOption (some p) = Res.ok p from rfl, Res.ok_bind, if_neg (by simp), Res.ok_bind]
      simp only [if_true]
      have R1 := R.same hpn hr ha
      cases o with
      | some b =>
        cases h
        obtain ⟨q, hq, hrep, hno⟩ := e2 b rfl
        rw [hq, Res.ok_bind]
        exact ⟨_, rfl, R1.set (R.low _ _ ha) (hno.trans hpn) hrep⟩
      | none =>
        rw [e1 rfl, Res.ok_bind]
        obtain ⟨r, hr, hs, R2⟩ := R1.grow hal hk h
        simp only []
        rw [hr, Res.ok_bind]
        exact ⟨_, by rw [← hs], R2⟩

theorem Piled.del {env : Env} {s : Pile} {t : Txn} (R : Piled s t) {key : Bytes} {y : Status × Pile} (h : s.del key = some y) :
    ∃ t', Verif.Db.del env t key = .ok (y.1, t') ∧ Piled y.2 t' := by
  unfold Pile.del at h
  unfold Verif.Db.del
  rw [R.rdonly, if_neg (by simp), R.root]
  split at h
  · rename_i h0
    cases h
    rw [if_pos h0]
    exact ⟨_, rfl, R⟩
  · rename_i h0
    rw [if_neg h0]
    split at h
    case isFalse => cases h
    case isTrue hk =>
    obtain ⟨L, hL, h⟩ := opt_bind h
    obtain ⟨a, ha, h⟩ := opt_bind h
    obtain ⟨e, hne, hall⟩ := R.path (env := env) hk _ _ hL
    obtain ⟨p, hp, hd, hpn, hr⟩ := R.page' (env := env) ha
    rw [e, Res.ok_bind]
    simp only []
    rw [hp, Res.ok_bind, probe_rep hr hk, Res.ok_bind]
    split at h
    · rename_i hh
      cases h
      obtain ⟨q, hq, hrep, hno⟩ := delete_rep hr ((a.probe_bound key).2 hh)
      rw [if_pos hh, cowPath_dirty hne fun m hm => Option.isSome_iff_exists.1 (hall m hm), Res.ok_bind]
      simp only []
      rw [hd]
      simp only []
      rw [hq, Res.ok_bind]
      exact ⟨_, rfl, R.set (R.low _ _ ha) (hno.trans hpn) hrep⟩
    · rename_i hh
      cases h
      rw [if_neg hh]
      exact ⟨_, rfl, R⟩

theorem Piled.steps {env : Env} {fuel : Nat} : ∀ {ops : List KvOp} {s : Pile} {t : Txn} (_ : Piled s t) {y : List Status × Pile}, s.steps ops = some y →
    ∃ t', Verif.Db.steps env (fuel + 1) t ops = .ok (y.1, t') ∧ Piled y.2 t' := by
  have hal : ∀ t, t.freeRoot = 0 → alloc env (fuel + 1) t = .ok (Verif.Db.extend t) := fun t ht => (ext_noFree env fuel).ext t ht
  intro ops
  induction ops with
  | nil => intro s t R y h; cases h; exact ⟨t, rfl, R⟩
  | cons op ops ih =>
    intro s t R y h
    cases op with
    | put k v =>
      rw [Pile.steps] at h
      obtain ⟨a, ha, h⟩ := opt_bind h
      obtain ⟨b, hb, h⟩ := opt_bind h
      cases h
      obtain ⟨t1, e1, R1⟩ := R.put hal (env := env) ha
      obtain ⟨t2, e2, R2⟩ := ih R1 hb
      refine ⟨t2, ?_, R2⟩
      rw [Verif.Db.steps, show runOp env (fuel + 1) t (.put k v) = .ok (a.1, t1) from e1, Res.ok_bind, e2, Res.ok_bind]
    | del k =>
      rw [Pile.steps] at h
      obtain ⟨a, ha, h⟩ := opt_bind h
      obtain ⟨b, hb, h⟩ := opt_bind h
      cases h
      obtain ⟨t1, e1, R1⟩ := R.del (env := env) ha
      obtain ⟨t2, e2, R2⟩ := ih R1 hb
      refine ⟨t2, ?_, R2⟩
      rw [Verif.Db.steps, show runOp env (fuel + 1) t (.del k) = .ok (a.1, t1) from e1, Res.ok_bind, e2, Res.ok_bind]

/-- Lookups in the transaction see the pages of the pile. -/
structure Seen (env : Env) (s : Pile) (t : Txn) : Prop where
  root : t.root = s.root
  page : ∀ n a, s.get n = some a → ∃ p, getPage env t n = .ok p ∧ Rep p a

theorem Piled.seen {s : Pile} {t : Txn} (R : Piled s t) (env : Env) : Seen env s t :=
  ⟨R.root, fun n a h => by obtain ⟨p, hp, -, -, hr⟩ := R.page' (env := env) h; exact ⟨p, hp, hr⟩⟩

theorem Seen.find {env : Env} {s : Pile} {t : Txn} (R : Seen env s t) {key : Bytes} (hk : key.length < 65536) : ∀ (d n : Nat) {r : Option Bytes}, s.find key d n = some r →
    ∃ p, findLeaf env t key d n = .ok (.ok p) ∧ ∃ a, Rep p a ∧ a.leaf = true ∧
      r = if (a.probe key).hit then a.its[(a.probe key).idx]?.map Item.val else none := by
  intro d
  induction d with
  | zero => intro n r h; cases h
  | succ d ih =>
    intro n r h
    rw [Pile.find] at h
    obtain ⟨a, ha, h⟩ := opt_bind h
    obtain ⟨p, hp, hr⟩ := R.page _ _ ha
    rw [findLeaf, hp, Res.ok_bind]
    split at h
    · rename_i hl
      rw [if_pos (hr.kind.trans hl)]
      refine ⟨p, rfl, a, hr, hl, ?_⟩
      split at h <;> cases h <;> simp [*]
    · rename_i hl
      have hl' : a.leaf = false := by simpa using hl
      obtain ⟨it, hi, h⟩ := opt_bind h
      have hdn := down_rep hr hl' hk
      rw [hi] at hdn
      simp only [] at hdn
      obtain ⟨j, hj, hc⟩ := Res.bind_eq_ok.1 hdn
      rw [if_neg (by rw [hr.kind, hl']; simp), hr.wf.not_leaf (hr.kind.trans hl'), if_neg (by simp), hj, Res.ok_bind, hc, Res.ok_bind]
      exact ih _ h

theorem Seen.falls {env : Env} {s : Pile} {t : Txn} (R : Seen env s t) {key : Bytes} (hk : key.length < 65536) : ∀ (d n : Nat), s.falls key d n = true →
    findLeaf env t key d n = .ub := by
  intro d
  induction d with
  | zero => intro n h; cases h
  | succ d ih =>
    intro n h
    rw [Pile.falls] at h
    cases ha : s.get n with
    | none => rw [ha] at h; cases h
    | some a =>
      rw [ha] at h
      simp only [] at h
      obtain ⟨p, hp, hr⟩ := R.page _ _ ha
      rw [findLeaf, hp, Res.ok_bind]
      split at h
      · cases h
      · rename_i hl
        have hl' : a.leaf = false := by simpa using hl
        rw [if_neg (by rw [hr.kind, hl']; simp), hr.wf.not_leaf (hr.kind.trans hl'), if_neg (by simp)]
        have hdn := down_rep hr hl' hk
        rw [childIdx_rep hr hk, Res.ok_bind] at hdn ⊢
        rw [hdn]
        split at h
        · rename_i hi
          rw [hi]; rfl
        · rename_i it hi
          rw [hi]
          exact ih _ h

theorem Pile.falls_more {s : Pile} {key : Bytes} : ∀ (d n : Nat), s.falls key d n = true → s.falls key (d + 1) n = true := by
  intro d
  induction d with
  | zero => intro n h; cases h
  | succ d ih =>
    intro n h
    rw [Pile.falls] at h ⊢
    cases ha : s.get n with
    | none => rw [ha] at h; cases h
    | some a =>
      rw [ha] at h
      simp only [] at h ⊢
      split at h
      · cases h
      · rename_i hl
        rw [if_neg hl]
        split at h
        · rfl
        · exact ih _ h

theorem Pile.falls_add {s : Pile} {key : Bytes} {d n : Nat} (h : s.falls key d n = true) : ∀ e, s.falls key (d + e) n = true
  | 0 => h
  | e + 1 => Pile.falls_more _ _ (Pile.falls_add h e)

theorem Seen.get_falls {env : Env} {s : Pile} {t : Txn} (R : Seen env s t) {key : Bytes} (hk : key.length < 65536) (h0 : s.root ≠ 0) {d : Nat}
    (h : s.falls key d s.root = true) : Verif.Db.get env t d key = .ub := by
  unfold Verif.Db.get
  rw [R.root, if_neg h0, R.falls hk _ _ h]; rfl

/-- What `get` says about the result. -/
def said : Option Bytes → Except Status Bytes
  | none => .error .notfound
  | some v => .ok v

/-- The lookup, described. -/
theorem Seen.get {env : Env} {s : Pile} {t : Txn} (R : Seen env s t) {key : Bytes} (hk : key.length < 65536) (h0 : s.root ≠ 0) {d : Nat} {r : Option Bytes}
    (h : s.find key d s.root = some r) : Verif.Db.get env t d key = .ok (said r) := by
  obtain ⟨p, e, a, hr, hl, rfl⟩ := R.find hk _ _ h
  unfold Verif.Db.get
  rw [R.root, if_neg h0, e, Res.ok_bind]
  simp only []
  rw [probe_rep hr hk, Res.ok_bind]
  have hb := a.probe_bound key
  cases hp : a.probe key with
  | notFound i => rfl
  | found i =>
    rw [hp] at hb
    have hi : i < a.its.length := hb.2 rfl
    have hkv : (kvs p)[i]? = some ((a.its[i]).key, (a.its[i]).val) := by
      unfold kvs
      rw [hr.its]; simp [hi]
    simp only []
    rw [leafNode_spec hr.wf (hr.kind.trans hl) hkv, Res.ok_bind]
    simp [Found.hit, Found.idx, hi, said]

theorem piled_txn0 : Piled ⟨0, 1, []⟩ txn0 := ⟨rfl, rfl, rfl, rfl, fun n a h => (by cases h), ⟨rfl, rfl, rfl, fun n p h => (by cases h), by simp [txn0], fun x hx => by simp at hx; rcases hx with rfl | rfl <;> decide⟩,
  rfl, fun n a h => (by cases h)⟩

/-- The commit of a transaction as the pile says writes its pages, and every later reader sees them. -/
theorem Piled.commit {env : Env} {s : Pile} {t : Txn} (R : Piled s t) (hd : t.dirty ≠ []) (hl : metaLast env.liveMeta < env.filePages) (h2 : 2 ≤ env.filePages)
    (hm : t.newLast < env.mapPages) (h64 : s.root < 2 ^ 64) (fuel : Nat) :
    ∃ env', Verif.Db.commit env fuel t = .ok (.success, env') ∧ env'.readers = env.readers ∧ Seen env' s (readTxn env') := by
  refine ⟨committed env t s.root 0, ?_, (runActs_kept _ _).readers, ?_⟩
  · unfold Verif.Db.commit commitWith
    rw [if_neg hd]
    unfold commitActs populate
    rw [if_pos R.freed, Res.ok_bind]
    simp only []
    rw [clean_remap R.clean, Res.ok_bind, Res.ok_bind, clean_newPgno R.clean, R.root, R.free]
    rfl
  · obtain ⟨a0, -, a1, -, a3, -⟩ := committed_file (root := s.root) (free := 0) R.clean (by simp) (by simp) hl h2
    have hlive : (committed env t s.root 0).liveMeta = metaPage t.txnid s.root t.newLast 0 := a0
    refine ⟨?_, fun n a hn => ?_⟩
    · show metaRoot _ = _
      rw [hlive, metaPage_root, Nat.mod_eq_of_lt h64]
    · obtain ⟨p, hp, -, hr⟩ := R.page n a hn
      refine ⟨p, ?_, hr⟩
      have hmp : (committed env t s.root 0).mapPages = env.mapPages := (runActs_kept _ _).map
      have hlo := R.low n a hn
      rw [← R.last] at hlo
      show mapPage _ n = _
      unfold mapPage
      rw [hmp, if_pos ⟨by omega, by omega⟩, a1 n p hp]

end Verif.Db
