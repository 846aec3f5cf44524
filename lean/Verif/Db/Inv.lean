import Verif.Db.TxnModel

/-!
# Helper lemmas: what every operation inside a transaction preserves

A property of transactions that is closed under the elementary changes (entering a page into the
table, taking a page of the file into it, the last page, the root) is kept by every operation, whatever the
pages contain.
-/

namespace Verif.Db

open Verif.Page

/-- Closed under the elementary changes of a transaction. -/
structure Closed (env : Env) (P : Txn → Prop) : Prop where
  set : ∀ t n p, P t → P (t.setDirty n p)
  take : ∀ t n r, getWritable env t n = .ok r → P t → P r.2
  last : ∀ t, P t → P { t with newLast := t.newLast + 1 }
  root : ∀ t n, P t → P { t with root := n }

variable {P : Txn → Prop} {al : Alloc} {env : Env}

theorem cow_inv (hP : Closed env P) {t : Txn} {n : Nat} {r : Nat × Txn} (h : cow env t n = .ok r) (ht : P t) : P r.2 := by
  unfold cow at h
  split at h
  · cases h; exact ht
  · exact hP.take _ _ _ h ht

theorem cowAll_inv (hP : Closed env P) (L : List Nat) : ∀ {t t' : Txn}, cowAll env t L = .ok t' → P t → P t' := by
  induction L with
  | nil => intro t t' h ht; cases h; exact ht
  | cons n L ih =>
    intro t t' h ht
    rw [cowAll] at h
    obtain ⟨r, h1, h⟩ := Res.bind_eq_ok.1 h
    exact ih h (cow_inv hP h1 ht)

theorem cowPath_inv (hP : Closed env P) {L : List Nat} {t : Txn} {r : Nat × Txn} (h : cowPath env t L = .ok r) (ht : P t) : P r.2 := by
  cases L with
  | nil => cases h
  | cons n L =>
    rw [cowPath] at h
    obtain ⟨r1, h1, h⟩ := Res.bind_eq_ok.1 h
    obtain ⟨t2, h2, h⟩ := Res.bind_eq_ok.1 h
    cases h
    exact cowAll_inv hP L h2 (cow_inv hP h1 ht)

/-- The allocator keeps the property. -/
def AllocInv (P : Txn → Prop) (al : Alloc) : Prop := ∀ t r, al t = .ok r → P t → P r.2

theorem splitTxn_inv (hP : Closed env P) (ha : AllocInv P al) {leaf : Bool} {t : Txn} {lk : Nat} {r : Txn × Except Status SplitTxn}
    (h : splitTxn al leaf t lk = .ok r) (ht : P t) : P r.1 := by
  unfold splitTxn at h
  obtain ⟨p, -, h⟩ := Res.bind_eq_ok.1 h
  cases leaf <;> simp only [Bool.false_eq_true, if_false, if_true] at h
  all_goals
    split at h
    · cases h; exact ht
    · obtain ⟨a, h1, h⟩ := Res.bind_eq_ok.1 h
      obtain ⟨p, -, h⟩ := Res.bind_eq_ok.1 h
      obtain ⟨s, -, h⟩ := Res.bind_eq_ok.1 h
      have := ha _ _ h1 ht
      split at h
      · cases h; exact this
      · cases h; exact hP.set _ _ _ (hP.set _ _ _ this)

theorem insertHalf_inv (hP : Closed env P) {t : Txn} {lk : Nat} {s : SplitTxn} {it : Item} {r : Status × Txn}
    (h : insertHalf t lk s it = .ok r) (ht : P t) : P r.2 := by
  unfold insertHalf at h
  obtain ⟨f, -, h⟩ := Res.bind_eq_ok.1 h
  split at h
  · obtain ⟨g, -, h⟩ := Res.bind_eq_ok.1 h
    obtain ⟨q, -, h⟩ := Res.bind_eq_ok.1 h
    cases h; exact hP.set _ _ _ ht
  · obtain ⟨q, -, h⟩ := Res.bind_eq_ok.1 h
    cases h
    show P (if _ then _ else _)
    split
    · exact ht
    · exact hP.set _ _ _ ht

theorem propagate_inv (hP : Closed env P) (ha : AllocInv P al) (L : List Nat) : ∀ {t : Txn} {k : Bytes} {c : Nat} {r : Txn × Status × Bytes × Nat},
    propagate al L t k c = .ok r → P t → P r.1 := by
  induction L with
  | nil => intro t k c r h ht; rw [propagate] at h; cases h; exact ht
  | cons pg L ih =>
    intro t k c r h ht
    rw [propagate] at h
    split at h
    · cases h; exact ht
    · obtain ⟨f, -, h⟩ := Res.bind_eq_ok.1 h
      obtain ⟨q, -, h⟩ := Res.bind_eq_ok.1 h
      split at h
      · cases h; exact hP.set _ _ _ ht
      · cases h; exact ht
      · obtain ⟨sp, h1, h⟩ := Res.bind_eq_ok.1 h
        have hsp := splitTxn_inv hP ha h1 ht
        split at h
        · cases h; exact hsp
        · obtain ⟨x, h2, h⟩ := Res.bind_eq_ok.1 h
          have hx := insertHalf_inv hP h2 hsp
          split at h
          · exact ih h hx
          · cases h; exact hx

theorem rootSplit_inv (hP : Closed env P) (ha : AllocInv P al) {t : Txn} {a b : Nat} {d : Bytes} {r : Txn × Except Status Nat}
    (h : rootSplit al t a b d = .ok r) (ht : P t) : P r.1 := by
  unfold rootSplit at h
  obtain ⟨x, h1, h⟩ := Res.bind_eq_ok.1 h
  have hx := ha _ _ h1 ht
  dsimp only at h
  split at h
  · cases h; exact hx
  · obtain ⟨y, -, h⟩ := Res.bind_eq_ok.1 h
    obtain ⟨z, -, h⟩ := Res.bind_eq_ok.1 h
    split at h
    · obtain ⟨w, -, h⟩ := Res.bind_eq_ok.1 h
      split at h
      · cases h; exact hP.set _ _ _ hx
      · cases h; exact hx
    · cases h; exact hx

theorem pageSplit_inv (hP : Closed env P) (ha : AllocInv P al) {t : Txn} {lk : Nat} {path : List Nat} {key val : Bytes} {r : Txn × Except Status Nat}
    (h : pageSplit al t lk path key val = .ok r) (ht : P t) : P r.1 := by
  unfold pageSplit at h
  obtain ⟨sp, h1, h⟩ := Res.bind_eq_ok.1 h
  have hsp := splitTxn_inv hP ha h1 ht
  split at h
  · cases h; exact hsp
  · obtain ⟨x, h2, h⟩ := Res.bind_eq_ok.1 h
    have hx := insertHalf_inv hP h2 hsp
    split at h
    · obtain ⟨d, -, h⟩ := Res.bind_eq_ok.1 h
      obtain ⟨y, h3, h⟩ := Res.bind_eq_ok.1 h
      have hy := propagate_inv hP ha _ h3 hx
      split at h
      · cases h; exact hy
      · split at h
        · exact rootSplit_inv hP ha h hy
        · cases h; exact hy
    · cases h; exact hx

theorem newTree_inv (hP : Closed env P) (ha : AllocInv P al) {t : Txn} {key val : Bytes} {r : Txn × Except Status Nat}
    (h : newTree al t key val = .ok r) (ht : P t) : P r.1 := by
  unfold newTree at h
  obtain ⟨a, h1, h⟩ := Res.bind_eq_ok.1 h
  obtain ⟨q, -, h⟩ := Res.bind_eq_ok.1 h
  have := ha _ _ h1 ht
  split at h
  · cases h; exact hP.set _ _ _ this
  · cases h; exact this

theorem withRoot_inv (hP : Closed env P) {r : Txn × Except Status Nat} (hr : P r.1) : P (withRoot r).2 := by
  unfold withRoot
  split
  · exact hP.root _ _ hr
  · exact hr

theorem putWith_inv (hP : Closed env P) (ha : AllocInv P al) {t : Txn} {key val : Bytes} {r : Status × Txn}
    (h : putWith al env t key val = .ok r) (ht : P t) : P r.2 := by
  unfold putWith at h
  split at h
  · cases h; exact ht
  · split at h
    · obtain ⟨x, h1, h⟩ := Res.bind_eq_ok.1 h
      cases h
      exact withRoot_inv hP (newTree_inv hP ha h1 ht)
    · obtain ⟨path, -, h⟩ := Res.bind_eq_ok.1 h
      split at h
      · cases h; exact ht
      · obtain ⟨leaf, -, h⟩ := Res.bind_eq_ok.1 h
        obtain ⟨f, -, h⟩ := Res.bind_eq_ok.1 h
        split at h
        · cases h; exact ht
        · obtain ⟨c, h1, h⟩ := Res.bind_eq_ok.1 h
          have hc := cowPath_inv hP h1 ht
          obtain ⟨p, -, h⟩ := Res.bind_eq_ok.1 h
          obtain ⟨d, -, h⟩ := Res.bind_eq_ok.1 h
          have hd := hP.set c.2 c.1 d.2 hc
          split at h
          · obtain ⟨q, -, h⟩ := Res.bind_eq_ok.1 h
            split at h
            · cases h; exact hP.set _ _ _ hd
            · cases h; exact hd
            · obtain ⟨x, h2, h⟩ := Res.bind_eq_ok.1 h
              cases h
              exact withRoot_inv hP (pageSplit_inv hP ha h2 hd)
          · cases h; exact hd

theorem del_inv (hP : Closed env P) {t : Txn} {key : Bytes} {r : Status × Txn} (h : del env t key = .ok r) (ht : P t) : P r.2 := by
  unfold del at h
  split at h
  · cases h; exact ht
  · split at h
    · cases h; exact ht
    · obtain ⟨path, -, h⟩ := Res.bind_eq_ok.1 h
      split at h
      · cases h; exact ht
      · obtain ⟨leaf, -, h⟩ := Res.bind_eq_ok.1 h
        obtain ⟨f, -, h⟩ := Res.bind_eq_ok.1 h
        split at h
        · obtain ⟨c, h1, h⟩ := Res.bind_eq_ok.1 h
          have hc := cowPath_inv hP h1 ht
          dsimp only at h
          split at h
          · cases h; exact hc
          · obtain ⟨d, -, h⟩ := Res.bind_eq_ok.1 h
            cases h; exact hP.set _ _ _ hc
        · cases h; exact ht

theorem putThrough_inv (hP : Closed env P) (ha : AllocInv P al) {t : Txn} {n off : Nat} {key val : Bytes} {r : Status × Txn}
    (h : putThrough al env t n off key val = .ok r) (ht : P t) : P r.2 := by
  unfold putThrough at h
  obtain ⟨path, -, h⟩ := Res.bind_eq_ok.1 h
  split at h
  · cases h; exact ht
  · split at h
    · obtain ⟨p, -, h⟩ := Res.bind_eq_ok.1 h
      obtain ⟨f, -, h⟩ := Res.bind_eq_ok.1 h
      split at h
      · cases h; exact ht
      · obtain ⟨i, -, h⟩ := Res.bind_eq_ok.1 h
        split at h
        · obtain ⟨c, h1, h⟩ := Res.bind_eq_ok.1 h
          obtain ⟨k, -, h⟩ := Res.bind_eq_ok.1 h
          obtain ⟨j, -, h⟩ := Res.bind_eq_ok.1 h
          cases h
          exact hP.set _ _ _ (cowPath_inv hP h1 ht)
        · exact putWith_inv hP ha h ht
    · exact putWith_inv hP ha h ht

theorem putRest_inv (hP : Closed env P) (ha : AllocInv P al) {t t1 : Txn} {c : Cursor} {kv : Bytes × Bytes} {r : Status × Txn}
    (h : putRest al env t t1 c kv = .ok r) (ht : P t1) : P r.2 := by
  unfold putRest at h
  obtain ⟨x, -, h⟩ := Res.bind_eq_ok.1 h
  split at h
  · exact putWith_inv hP ha h ht
  · obtain ⟨p, -, h⟩ := Res.bind_eq_ok.1 h
    exact putThrough_inv hP ha h ht

theorem reclaim_inv (hP : Closed env P) (ha : AllocInv P al) {fuel : Nat} {t : Txn} {r : Option Nat × Txn}
    (h : reclaim al env fuel t = .ok r) (ht : P t) : P r.2 := by
  unfold reclaim at h
  split at h
  · cases h; exact ht
  · obtain ⟨x, -, h⟩ := Res.bind_eq_ok.1 h
    obtain ⟨y, -, h⟩ := Res.bind_eq_ok.1 h
    split at h
    · cases h; exact ht
    · obtain ⟨u, h1, h⟩ := Res.bind_eq_ok.1 h
      have hu : P u.2 := by
        unfold updateEntry at h1
        have h0 := hP.root t t.freeRoot ht
        split at h1
        · exact del_inv hP h1 h0
        · obtain ⟨d, h2, h1⟩ := Res.bind_eq_ok.1 h1
          have := del_inv hP h2 h0
          split at h1
          · exact putRest_inv hP ha h1 this
          · cases h1; exact this
      have hu' := hP.root u.2 t.root hu
      split at h <;> (cases h; exact hu')

/-- The allocator of the library. -/
theorem alloc_inv (hP : Closed env P) (fuel : Nat) : AllocInv P (alloc env fuel) := by
  induction fuel with
  | zero => intro t r h; simp [alloc] at h
  | succ fuel ih =>
    intro t r h ht
    rw [alloc] at h
    obtain ⟨x, h1, h⟩ := Res.bind_eq_ok.1 h
    have := reclaim_inv hP ih h1 ht
    split at h
    · cases h; exact this
    · cases h; exact hP.last _ this

theorem populate_inv (hP : Closed env P) (ha : AllocInv P al) {t : Txn} {r : Txn × Except Status Nat}
    (h : populate al env t = .ok r) (ht : P t) : P r.1 := by
  unfold populate at h
  split at h
  · cases h; exact ht
  · split at h
    · exact newTree_inv hP ha h ht
    · unfold insertFree at h
      obtain ⟨path, -, h⟩ := Res.bind_eq_ok.1 h
      split at h
      · exact newTree_inv hP ha h ht
      · obtain ⟨leaf, -, h⟩ := Res.bind_eq_ok.1 h
        obtain ⟨f, -, h⟩ := Res.bind_eq_ok.1 h
        split at h
        · cases h; exact ht
        · obtain ⟨c, h1, h⟩ := Res.bind_eq_ok.1 h
          have hc := cowPath_inv hP h1 ht
          obtain ⟨p, -, h⟩ := Res.bind_eq_ok.1 h
          obtain ⟨q, -, h⟩ := Res.bind_eq_ok.1 h
          split at h
          · cases h; exact hP.set _ _ _ hc
          · cases h; exact hc
          · exact pageSplit_inv hP ha h hc

/-! ## Errors are errors -/

theorem ofSt_ne {st : St} (h : st ≠ .ok) : ofSt st ≠ .success := by cases st <;> simp_all [ofSt]

theorem splitTxn_err {leaf : Bool} {t t' : Txn} {lk : Nat} {e : Status} (h : splitTxn al leaf t lk = .ok (t', .error e)) : e ≠ .success := by
  unfold splitTxn at h
  obtain ⟨p, -, h⟩ := Res.bind_eq_ok.1 h
  cases leaf <;> simp only [Bool.false_eq_true, if_false, if_true] at h
  all_goals
    split at h
    · cases h; simp
    · obtain ⟨a, h1, h⟩ := Res.bind_eq_ok.1 h
      obtain ⟨p, -, h⟩ := Res.bind_eq_ok.1 h
      obtain ⟨s, -, h⟩ := Res.bind_eq_ok.1 h
      split at h
      · cases h; simp
      · cases h

theorem newTree_err {t t' : Txn} {key val : Bytes} {e : Status} (h : newTree al t key val = .ok (t', .error e)) : e ≠ .success := by
  unfold newTree at h
  obtain ⟨a, h1, h⟩ := Res.bind_eq_ok.1 h
  obtain ⟨q, -, h⟩ := Res.bind_eq_ok.1 h
  split at h
  · cases h
  · cases h; exact ofSt_ne (by assumption)

theorem rootSplit_err {t t' : Txn} {a b : Nat} {d : Bytes} {e : Status} (h : rootSplit al t a b d = .ok (t', .error e)) : e ≠ .success := by
  unfold rootSplit at h
  obtain ⟨x, h1, h⟩ := Res.bind_eq_ok.1 h
  dsimp only at h
  split at h
  · cases h; simp
  · obtain ⟨y, -, h⟩ := Res.bind_eq_ok.1 h
    obtain ⟨z, -, h⟩ := Res.bind_eq_ok.1 h
    split at h
    · obtain ⟨w, -, h⟩ := Res.bind_eq_ok.1 h
      split at h
      · cases h
      · cases h; exact ofSt_ne (by assumption)
    · cases h; exact ofSt_ne (by assumption)

theorem pageSplit_err {t t' : Txn} {lk : Nat} {path : List Nat} {key val : Bytes} {e : Status}
    (h : pageSplit al t lk path key val = .ok (t', .error e)) : e ≠ .success := by
  unfold pageSplit at h
  obtain ⟨sp, h1, h⟩ := Res.bind_eq_ok.1 h
  split at h
  · rename_i e' he
    cases h
    exact splitTxn_err (t' := sp.1) (by rw [h1, ← he])
  · obtain ⟨x, h2, h⟩ := Res.bind_eq_ok.1 h
    split at h
    · obtain ⟨d, -, h⟩ := Res.bind_eq_ok.1 h
      obtain ⟨y, h3, h⟩ := Res.bind_eq_ok.1 h
      split at h
      · cases h
      · split at h
        · exact rootSplit_err h
        · cases h; assumption
    · cases h; assumption

theorem populate_err {t t' : Txn} {e : Status} (h : populate al env t = .ok (t', .error e)) : e ≠ .success := by
  unfold populate at h
  split at h
  · cases h
  · split at h
    · exact newTree_err h
    · unfold insertFree at h
      obtain ⟨path, -, h⟩ := Res.bind_eq_ok.1 h
      split at h
      · exact newTree_err h
      · obtain ⟨leaf, -, h⟩ := Res.bind_eq_ok.1 h
        obtain ⟨f, -, h⟩ := Res.bind_eq_ok.1 h
        split at h
        · cases h; simp
        · obtain ⟨c, h1, h⟩ := Res.bind_eq_ok.1 h
          obtain ⟨p, -, h⟩ := Res.bind_eq_ok.1 h
          obtain ⟨q, -, h⟩ := Res.bind_eq_ok.1 h
          split at h
          · cases h
          · cases h; simp
          · exact pageSplit_err h

theorem getWritable_cases {t : Txn} {n : Nat} {r : Nat × Txn} (h : getWritable env t n = .ok r) :
    ∃ p, mapPage env n = .ok p ∧ r.1 = pgno p ∧
      (r.2 = t ∧ (t.getDirty (pgno p)).isSome ∨ r.2 = { t.setDirty (pgno p) p with freed := t.freed ++ [pgno p] }) := by
  unfold getWritable at h
  obtain ⟨p, h1, h⟩ := Res.bind_eq_ok.1 h
  split at h
  · rename_i q hq
    cases h; exact ⟨p, h1, rfl, .inl ⟨rfl, by rw [hq]; rfl⟩⟩
  · cases h; exact ⟨p, h1, rfl, .inr rfl⟩

/-- The id of a transaction never changes. -/
theorem closed_txnid (env : Env) (c : Nat) : Closed env fun t => t.txnid = c := by
  refine ⟨fun _ _ _ h => h, ?_, fun _ h => h, fun _ _ h => h⟩
  intro t n r h ht
  obtain ⟨p, -, -, h | h⟩ := getWritable_cases h
  · rw [h.1]; exact ht
  · rw [h]; exact ht

/-- The root of the Free DB never changes inside a transaction. -/
theorem closed_freeRoot (env : Env) (c : Nat) : Closed env fun t => t.freeRoot = c := by
  refine ⟨fun _ _ _ h => h, ?_, fun _ h => h, fun _ _ h => h⟩
  intro t n r h ht
  obtain ⟨p, -, -, h | h⟩ := getWritable_cases h
  · rw [h.1]; exact ht
  · rw [h]; exact ht

/-- The last page only grows. -/
theorem closed_last (env : Env) (c : Nat) : Closed env fun t => c ≤ t.newLast := by
  refine ⟨fun _ _ _ h => h, ?_, fun t h => Nat.le_succ_of_le h, fun _ _ h => h⟩
  intro t n r h ht
  obtain ⟨p, -, -, h | h⟩ := getWritable_cases h
  · rw [h.1]; exact ht
  · rw [h]; exact ht

theorem getDirty_set_self (t : Txn) (n : Nat) (p : Page) : (t.setDirty n p).getDirty n = some p := by
  unfold Txn.getDirty Txn.setDirty
  simp

theorem getDirty_set_other (t : Txn) {n x : Nat} (p : Page) (h : x ≠ n) : (t.setDirty n p).getDirty x = t.getDirty x := by
  unfold Txn.getDirty Txn.setDirty
  simp only [List.lookup_cons]
  rw [show (x == n) = false by simpa using h]
  generalize t.dirty = l
  induction l with
  | nil => rfl
  | cons e l ih =>
    obtain ⟨k, q⟩ := e
    rw [List.filter_cons]
    by_cases hk : k = n
    · subst hk
      rw [if_neg (by simp), List.lookup_cons, show (x == k) = false by simpa using h]; exact ih
    · rw [if_pos (by simpa using hk), List.lookup_cons, List.lookup_cons]
      cases x == k
      · exact ih
      · rfl

/-- Every freed page has been copied, and satisfies what holds of the pages of the file. -/
theorem closed_freed (env : Env) (Q : Nat → Prop) (hQ : ∀ n p, mapPage env n = .ok p → Q (pgno p)) :
    Closed env fun t => ∀ x ∈ t.freed, Q x ∧ (t.getDirty x).isSome := by
  have keep : ∀ (t : Txn) n p x, (t.getDirty x).isSome → ((t.setDirty n p).getDirty x).isSome := by
    intro t n p x h
    by_cases hx : x = n
    · subst hx; rw [getDirty_set_self]; rfl
    · rw [getDirty_set_other t p hx]; exact h
  refine ⟨fun t n p h x hx => ⟨(h x hx).1, keep t n p x (h x hx).2⟩, ?_, fun _ h => h, fun _ _ h => h⟩
  intro t n r h ht
  obtain ⟨p, hp, -, h | h⟩ := getWritable_cases h
  · rw [h.1]; exact ht
  · rw [h]
    intro x hx
    rcases List.mem_append.1 hx with hx | hx
    · exact ⟨(ht x hx).1, keep t _ p x (ht x hx).2⟩
    · simp at hx
      subst hx
      refine ⟨hQ n p hp, ?_⟩
      have := getDirty_set_self t (pgno p) p
      unfold Txn.getDirty at this ⊢
      rw [this]; rfl

end Verif.Db
