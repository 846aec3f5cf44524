import Verif.Db.Replace

/-!
# Properties of the tree operations (C41–C43, C48, C57, C76)

The pairs a database holds are described by `Holds` (`Verif.Db.Spec`), which reads them off the
pages and does not mention the operations.  The abstract side is a partial map from keys to
values.
-/

namespace Verif.Db

open Verif.Page

deriving instance DecidableEq for Except

/-! ### The abstract map -/

/-- A finite map from keys to values. -/
abbrev KvMap := Bytes → Option Bytes

/-- Store a pair. -/
def KvMap.put (m : KvMap) (k v : Bytes) : KvMap := fun x => if x = k then some v else m x

/-- Remove a key. -/
def KvMap.del (m : KvMap) (k : Bytes) : KvMap := fun x => if x = k then none else m x

/-- What `get` has to answer. -/
def KvMap.answer (m : KvMap) (k : Bytes) : Except Status Bytes :=
  match m k with
  | some v => .ok v
  | none => .error .notfound

/-- Transaction `t` holds the map `m` in a well-formed tree of height `h`. -/
def IsMap (env : Env) (t : Txn) (h : Nat) (m : KvMap) : Prop :=
  ∃ l, Holds env t h l ∧ ∀ k, l.lookup k = m k

theorem answer_eq {l : List (Bytes × Bytes)} {m : KvMap} (h : ∀ k, l.lookup k = m k) (k : Bytes) :
    answer l k = m.answer k := by
  unfold answer KvMap.answer; rw [h]; cases m k <;> rfl

/-- The conditions under which `put` does what it should: the splits it causes are of the kind
the code gets right (`SplitSafe`), the tree is lower than 32 levels, and a key that is already
stored is in a leaf the transaction has not touched.  For such a key, the splits are those of
inserting after deleting. -/
structure PutSafe (env : Env) (t : Txn) (h : Nat) (m : KvMap) (key val : Bytes) : Prop where
  size : 4 + key.length + val.length < 65536
  depth : h < maxDepth
  pages : t.newLast + h + 2 < 2 ^ 64
  fresh : m key = none → t.root ≠ 0 → SplitSafe (getPage env t) key (4 + key.length + val.length) h t.root
  stored : m key ≠ none → LeafClean env t h key ∧ ∀ t1, del env t key = .ok (.success, t1) →
    SplitSafe (getPage env t1) key (4 + key.length + val.length) h t1.root

theorem lookup_none_iff {l : List (Bytes × Bytes)} {k : Bytes} : l.lookup k = none ↔ k ∉ l.map Prod.fst := by
  induction l with
  | nil => simp
  | cons a l ih =>
    obtain ⟨k', v⟩ := a
    rw [List.lookup_cons]
    by_cases h : k = k'
    · simp [h]
    · rw [show (k == k') = false by simpa using h]
      simp only [List.map_cons, List.mem_cons, h, false_or]
      exact ih

theorem holds_sorted {env : Env} {t : Txn} {h : Nat} {l : List (Bytes × Bytes)} (hh : Holds env t h l) :
    Ascending l := by
  rcases hh with ⟨-, rfl⟩ | ⟨-, ht, rfl⟩
  · exact List.Pairwise.nil
  · exact (wft_range h ht.wft).1

theorem lookup_mid {A B : List (Bytes × Bytes)} {k v : Bytes} (hs : Ascending (A ++ (k, v) :: B)) (x : Bytes) :
    (A ++ (k, v) :: B).lookup x = if x = k then some v else (A ++ B).lookup x := by
  have hA : ∀ a ∈ A, a.1 < k := by
    intro a ha
    unfold Ascending at hs
    rw [List.map_append, List.map_cons, sorted_append] at hs
    exact hs.2.2 a.1 (List.mem_map_of_mem ha) k List.mem_cons_self
  rw [List.lookup_append, List.lookup_append, List.lookup_cons]
  by_cases hx : x = k
  · subst hx
    have : A.lookup x = none := lookup_none_iff.2 fun hm => by
      obtain ⟨a, ha, e⟩ := List.mem_map.1 hm
      exact blt_irrefl _ (e ▸ hA a ha)
    simp [this]
  · rw [show (x == k) = false by simpa using hx, if_neg hx]

theorem put_step {al : Alloc} {F : List Nat} {I : Txn → Prop} (hE : Ext al F I) {env : Env} {t : Txn} {h : Nat} {m : KvMap}
    {key val : Bytes} (hI : I t) (hw : t.rdonly = false) (hm : IsMap env t h m) (hs : PutSafe env t h m key val)
    (hF : t.root ≠ 0 → ∀ x ∈ pagesOf (getPage env t) h t.root, x ∉ F) :
    ∃ st t', putWith al env t key val = .ok (st, t') ∧ (st = .success ∨ st = .nospc) ∧
      (st = .success → t'.rdonly = false ∧ I t' ∧ t'.txnid = t.txnid ∧ ∃ h', h' ≤ h + 1 ∧ IsMap env t' h' (m.put key val) ∧
        t.newLast ≤ t'.newLast ∧ t'.newLast ≤ t.newLast + h + 2 ∧ (∀ x ∈ pagesOf (getPage env t') h' t'.root, x ∉ F) ∧ t'.root ≠ 0 ∧
        (t.root ≠ 0 → ∀ x ∈ pagesOf (getPage env t) h t.root, x ∈ pagesOf (getPage env t') h' t'.root) ∧
        ∀ x ∈ t'.freed, x ∈ t.freed ∨ (t.root ≠ 0 ∧ x ∈ pagesOf (getPage env t) h t.root)) := by
  obtain ⟨l, hl, hlm⟩ := hm
  have hk : key.length < 65536 := by have := hs.size; omega
  by_cases hkm : m key = none
  · have hnl : key ∉ l.map Prod.fst := lookup_none_iff.1 ((hlm key).trans hkm)
    obtain ⟨st, t', h1, h2, h3⟩ := put_absent hE hk hs.size hw hI hl hnl hF hs.depth (hs.fresh hkm) hs.pages
    refine ⟨st, t', h1, h2, fun hst => ?_⟩
    obtain ⟨h', hins⟩ := h3 hst
    refine ⟨hins.rdonly, hins.inv, hins.txnid, h', hins.height, ?_, hins.last, hins.last', fun x hx => ?_, hins.root, hins.keep, hins.freed⟩
    rotate_left
    · rcases hins.pages x hx with ⟨a, b⟩ | b
      · exact hF a x b
      · intro hxF; have := hE.last t hI x hxF; omega
    obtain ⟨X, Y, e1, e2⟩ := hins.ins
    have hh' : Holds env t' h' (X ++ (key, val) :: Y) := .inr ⟨hins.root, hins.tree, e2⟩
    refine ⟨_, hh', fun k => ?_⟩
    rw [lookup_mid (holds_sorted hh'), ← e1, hlm]
    rfl
  · have hkl : key ∈ l.map Prod.fst := by
      apply Classical.byContradiction; intro hn
      exact hkm ((hlm key).symm.trans (lookup_none_iff.2 hn))
    obtain ⟨hclean, hsafe⟩ := hs.stored hkm
    obtain ⟨t1, d1, d2⟩ := put_replace (al := al) (val := val) hk hw hl hkl hs.depth hclean
    rcases del_spec hw hl hk hs.depth with ⟨hn, -⟩ | ⟨A, v, B, t1', a1, a2, a3, a4, a5, a6, a7, a8, a9, a10, -, a11, a12⟩
    · exact absurd ((hlm key).symm.trans hn) hkm
    · rw [d1] at a4; cases a4
      have hroot : t.root ≠ 0 := by
        rintro h0
        rcases hl with ⟨-, rfl⟩ | ⟨hx, -⟩
        · simp at hkl
        · exact hx h0
      have hI1 : I t1 := a12 F I hE.set (fun t x _ h => hE.freed t _ h) (fun x hx => ⟨hF hroot x hx, by
        rcases hl with ⟨hx, -⟩ | ⟨-, ht, -⟩
        · exact absurd hx hroot
        · exact (ht.bound x hx).2⟩) hI
      have hF1 : ∀ x ∈ pagesOf (getPage env t1) h t1.root, x ∉ F := by rw [a11]; exact hF hroot
      have hnl : key ∉ (A ++ B).map Prod.fst := by
        rw [List.map_append, List.mem_append]
        rintro (hm | hm)
        · obtain ⟨a, ha, e⟩ := List.mem_map.1 hm; exact blt_irrefl _ (e ▸ a2 a ha)
        · obtain ⟨a, ha, e⟩ := List.mem_map.1 hm; exact blt_irrefl _ (e ▸ a3 a ha)
      obtain ⟨st, t', h1, h2, h3⟩ := put_absent hE hk hs.size a6 hI1 a5 hnl (fun _ => hF1) hs.depth
        (fun _ => hsafe t1 d1) (by rw [a9]; exact hs.pages)
      refine ⟨st, t', by rw [d2, h1], h2, fun hst => ?_⟩
      obtain ⟨h', hins⟩ := h3 hst
      refine ⟨hins.rdonly, hins.inv, hins.txnid.trans a10, h', hins.height, ?_, a9 ▸ hins.last, a9 ▸ hins.last', fun x hx => ?_, hins.root,
        fun _ x hx => hins.keep (by rw [a7]; exact hroot) x (by rw [a11]; exact hx), fun x hx => ?_⟩
      rotate_left
      · rcases hins.pages x hx with ⟨a, b⟩ | b
        · exact hF1 x b
        · intro hxF; have := hE.last t1 hI1 x hxF; omega
      · rcases hins.freed x hx with hx | hx
        · refine a12 [] (fun t1 => ∀ x ∈ t1.freed, x ∈ t.freed ∨ (t.root ≠ 0 ∧ x ∈ pagesOf (getPage env t) h t.root))
            (fun t1 n p h _ _ _ _ => h) (fun t1 n hn h x hx => ?_) (fun x hx => ⟨by simp, ?_⟩) (fun x hx => .inl hx) x hx
          · rcases List.mem_append.1 hx with hx | hx
            · exact h x hx
            · simp only [List.mem_singleton] at hx; subst hx
              exact .inr ⟨hroot, hn⟩
          · rcases hl with ⟨hx, -⟩ | ⟨-, ht, -⟩
            · exact absurd hx hroot
            · exact (ht.bound x hx).2
        · exact .inr ⟨hroot, by rw [← a11]; exact hx.2⟩
      obtain ⟨X, Y, e1, e2⟩ := hins.ins
      have hh' : Holds env t' h' (X ++ (key, val) :: Y) := .inr ⟨hins.root, hins.tree, e2⟩
      refine ⟨_, hh', fun k => ?_⟩
      rw [lookup_mid (holds_sorted hh'), ← e1]
      unfold KvMap.put
      by_cases hx : k = key
      · rw [if_pos hx, if_pos hx]
      · rw [if_neg hx, if_neg hx, ← hlm, a1, lookup_mid (a1 ▸ holds_sorted hl), if_neg hx]

/-! ### C41, C42 -/

/-- C41 and C42 in one, for transactions without a Free DB and insertions that meet `PutSafe`
(without it the property is false, see `stored_value_lost` and `put_loses_other_key`): `put` either
reports that there is no space or stores the pair, and afterwards the database holds exactly the
old pairs with this one added or replaced. -/
theorem put_refines_partial {env : Env} {t : Txn} {h : Nat} {m : KvMap} {key val : Bytes} (fuel : Nat)
    (hfree : t.freeRoot = 0) (hw : t.rdonly = false) (hm : IsMap env t h m) (hs : PutSafe env t h m key val) :
    ∃ st t', put env (fuel + 1) t key val = .ok (st, t') ∧ (st = .success ∨ st = .nospc) ∧
      (st = .success → t'.rdonly = false ∧ t'.freeRoot = 0 ∧ t'.txnid = t.txnid ∧
        ∃ h', h' ≤ h + 1 ∧ IsMap env t' h' (m.put key val)) := by
  obtain ⟨st, t', h1, h2, h3⟩ := put_step (ext_noFree env fuel) hfree hw hm hs (by simp)
  refine ⟨st, t', h1, h2, fun hst => ?_⟩
  obtain ⟨a1, a2, a3, h', a4, a5, -⟩ := h3 hst
  exact ⟨a1, a2, a3, h', a4, a5⟩

/-- `get` answers what the map says. -/
theorem get_answers {env : Env} {t : Txn} {h : Nat} {m : KvMap} (hm : IsMap env t h m) {key : Bytes}
    (hk : key.length < 65536) {fuel : Nat} (hf : h < fuel) : get env t fuel key = .ok (m.answer key) := by
  obtain ⟨l, hl, hlm⟩ := hm
  rw [get_spec hl hk hf, answer_eq hlm]

/-- C41: after a successful `put`, `get` of that key gives that value. -/
theorem put_then_get_partial {env : Env} {t t' : Txn} {h : Nat} {m : KvMap} {key val : Bytes} {fuel fuel' : Nat}
    (hfree : t.freeRoot = 0) (hw : t.rdonly = false) (hm : IsMap env t h m) (hs : PutSafe env t h m key val)
    (hput : put env (fuel + 1) t key val = .ok (.success, t')) (hf : h + 1 < fuel') :
    get env t' fuel' key = .ok (.ok val) := by
  obtain ⟨st, t'', h1, h2, h3⟩ := put_refines_partial fuel hfree hw hm hs
  rw [hput] at h1; cases h1
  obtain ⟨-, -, -, h', hh, hm'⟩ := h3 rfl
  rw [get_answers hm' (by have := hs.size; omega) (by omega)]
  simp [KvMap.answer, KvMap.put]

/-- C42: after a successful `put`, `get` of every other key answers as before. -/
theorem put_keeps_others_partial {env : Env} {t t' : Txn} {h : Nat} {m : KvMap} {key val k : Bytes} {fuel fuel' : Nat}
    (hfree : t.freeRoot = 0) (hw : t.rdonly = false) (hm : IsMap env t h m) (hs : PutSafe env t h m key val)
    (hput : put env (fuel + 1) t key val = .ok (.success, t')) (hk : k ≠ key) (hkl : k.length < 65536)
    (hf : h + 1 < fuel') : get env t' fuel' k = get env t fuel' k := by
  obtain ⟨st, t'', h1, h2, h3⟩ := put_refines_partial fuel hfree hw hm hs
  rw [hput] at h1; cases h1
  obtain ⟨-, -, -, h', hh, hm'⟩ := h3 rfl
  rw [get_answers hm' hkl (by omega), get_answers hm hkl (by omega)]
  simp [KvMap.answer, KvMap.put, hk]

/-! Concrete databases. -/

/-- An environment with just the two meta pages. -/
def env0 : Env := ⟨fun _ _ => 0, 2, 2, 1, true, []⟩
/-- The first write transaction on it. -/
def txn0 : Txn := ⟨false, 2, 0, 0, 1, [], []⟩

/-- `put` for each pair. -/
def puts (env : Env) (fuel : Nat) (t : Txn) : List (Bytes × Bytes) → Res (List Status × Txn)
  | [] => .ok ([], t)
  | kv :: rest => do
    let a ← put env fuel t kv.1 kv.2
    let b ← puts env fuel a.2 rest
    .ok (a.1 :: b.1, b.2)

/-- Statuses of the `put`s, then the length of what `get` finds. -/
def putsGet (l : List (Bytes × Bytes)) (k : Bytes) : Res (List Status × Option Nat) := do
  let a ← puts env0 3 txn0 l
  match ← get env0 a.2 5 k with
  | .ok v => .ok (a.1, some v.length)
  | .error _ => .ok (a.1, none)

/-- A value of 1900 bytes: two such entries fill a page. -/
def val2 : Bytes := List.replicate 1900 1
theorem val2_length : val2.length = 1900 := List.length_replicate

/-- A value of 1300 bytes: three such entries fill a page. -/
def val3 : Bytes := List.replicate 1300 1

/-- C41 is false of the code: the keys "a", "c", "b" are stored in this order, all with success,
and then "b" is not found.  (The new entry falls on the middle of the split: it goes to the right
page although the separator, "c", sends the search for it to the left page.) -/
theorem stored_value_lost :
    putsGet [([97], val2), ([99], val2), ([98], val2)] [98] = .ok ([.success, .success, .success], none) := by
  decide +kernel

/-- C42 is false of the code: with "m", "n", "o", "p", "b", "c" stored, "b" is found; storing "a" as
well makes "b" disappear, with success throughout.  (The separator of the leftmost page is not
a lower bound of its keys, so the new separator is entered at the wrong place.) -/
theorem put_loses_other_key :
    putsGet [([109], val3), ([110], val3), ([111], val3), ([112], val3), ([98], val3), ([99], val3)] [98] =
      .ok (List.replicate 6 .success, some 1300) ∧
    putsGet [([109], val3), ([110], val3), ([111], val3), ([112], val3), ([98], val3), ([99], val3), ([97], val3)] [98] =
      .ok (List.replicate 7 .success, none) := by
  decide +kernel

/-! ### C76 -/

/-- C76 is false of the code: with "m", "n", "o", "b" stored, "m" is found; storing "a" fails for lack
of space, and afterwards "m" is gone. -/
theorem failed_put_loses_key :
    putsGet [([109], val2), ([110], val2), ([111], val2), ([98], val2)] [109] =
      .ok (List.replicate 4 .success, some 1900) ∧
    putsGet [([109], val2), ([110], val2), ([111], val2), ([98], val2), ([97], val2)] [109] =
      .ok (List.replicate 4 .success ++ [.nospc], none) := by
  decide +kernel

theorem splitTxn_status {al : Alloc} {leaf : Bool} {t t' : Txn} {lk : Nat} {e : Status}
    (h : splitTxn al leaf t lk = .ok (t', .error e)) : e = .inval ∨ e = .general := by
  unfold splitTxn at h
  obtain ⟨p, -, h⟩ := Res.bind_eq_ok.1 h
  generalize (!(if leaf then isLeaf p else isBranch p)) = b at h
  cases b with
  | true => cases h; exact .inl rfl
  | false =>
    obtain ⟨a, -, h⟩ := Res.bind_eq_ok.1 h
    obtain ⟨p, -, h⟩ := Res.bind_eq_ok.1 h
    obtain ⟨s, -, h⟩ := Res.bind_eq_ok.1 h
    cases s with
    | none => cases h; exact .inr rfl
    | some s => cases h

/-- The statuses that say "nothing was done". -/
def Refused (st : Status) : Prop := st = .acces ∨ st = .exist

theorem ofSt_not_refused (s : St) : ¬ Refused (ofSt s) := by
  cases s <;> simp [Refused, ofSt]

theorem insertHalf_status {t t' : Txn} {lk : Nat} {s : SplitTxn} {it : Item} {st : Status}
    (h : insertHalf t lk s it = .ok (st, t')) : ¬ Refused st := by
  unfold insertHalf at h
  obtain ⟨f, -, h⟩ := Res.bind_eq_ok.1 h
  generalize (!f.hit && decide (numKeys s.left ≤ f.idx)) = b at h
  cases b with
  | true =>
    obtain ⟨g, -, h⟩ := Res.bind_eq_ok.1 h
    obtain ⟨r, -, h⟩ := Res.bind_eq_ok.1 h
    cases h; exact ofSt_not_refused _
  | false =>
    obtain ⟨r, -, h⟩ := Res.bind_eq_ok.1 h
    cases h; exact ofSt_not_refused _

theorem propagate_status {al : Alloc} (path : List Nat) : ∀ {t t' : Txn} {k k' : Bytes} {c c' : Nat} {st : Status},
    propagate al path t k c = .ok (t', st, k', c') → ¬ Refused st := by
  induction path with
  | nil => intro t t' k k' c c' st h; cases h; simp [Refused]
  | cons pg rest ih =>
    intro t t' k k' c c' st h
    rw [propagate] at h
    cases hd : t.getDirty pg with
    | none => rw [hd] at h; cases h; simp [Refused]
    | some p =>
      rw [hd] at h
      obtain ⟨f, -, h⟩ := Res.bind_eq_ok.1 h
      obtain ⟨r, -, h⟩ := Res.bind_eq_ok.1 h
      cases hr : r.1 with
      | ok => rw [hr] at h; cases h; simp [Refused]
      | inval => rw [hr] at h; cases h; simp [Refused]
      | nospc =>
        rw [hr] at h
        obtain ⟨⟨t1, sp⟩, hsp, h⟩ := Res.bind_eq_ok.1 h
        cases sp with
        | error e =>
          cases h
          rcases splitTxn_status hsp with h | h <;> (rw [h]; simp [Refused])
        | ok s =>
          obtain ⟨⟨st1, t2⟩, hi, h⟩ := Res.bind_eq_ok.1 h
          by_cases hs : st1 = .success
          · simp only [hs, if_true] at h; exact ih h
          · simp only [hs, if_false] at h; cases h; exact insertHalf_status hi

theorem rootSplit_status {al : Alloc} {t t' : Txn} {o r : Nat} {d : Bytes} {e : Status}
    (h : rootSplit al t o r d = .ok (t', .error e)) : ¬ Refused e := by
  unfold rootSplit at h
  obtain ⟨a, -, h⟩ := Res.bind_eq_ok.1 h
  simp only [] at h
  cases hd : a.2.getDirty o with
  | none => rw [hd] at h; cases h; simp [Refused]
  | some p =>
    rw [hd] at h
    obtain ⟨mk, -, h⟩ := Res.bind_eq_ok.1 h
    obtain ⟨q, -, h⟩ := Res.bind_eq_ok.1 h
    by_cases hq : q.1 = .ok
    · rw [if_pos hq] at h
      obtain ⟨q, -, h⟩ := Res.bind_eq_ok.1 h
      by_cases hq : q.1 = .ok
      · rw [if_pos hq] at h; cases h
      · rw [if_neg hq] at h; cases h; exact ofSt_not_refused _
    · rw [if_neg hq] at h; cases h; exact ofSt_not_refused _

theorem pageSplit_status {al : Alloc} {t t' : Txn} {lk : Nat} {path : List Nat} {key val : Bytes} {e : Status}
    (h : pageSplit al t lk path key val = .ok (t', .error e)) : ¬ Refused e := by
  unfold pageSplit at h
  obtain ⟨⟨t1, sp⟩, hsp, h⟩ := Res.bind_eq_ok.1 h
  cases sp with
  | error e =>
    cases h
    rcases splitTxn_status hsp with h | h <;> (rw [h]; simp [Refused])
  | ok s =>
    obtain ⟨⟨st1, t2⟩, hi, h⟩ := Res.bind_eq_ok.1 h
    by_cases hs : st1 = .success
    · simp only [hs, if_true] at h
      obtain ⟨d, -, h⟩ := Res.bind_eq_ok.1 h
      obtain ⟨⟨t3, st, k, c⟩, hp, h⟩ := Res.bind_eq_ok.1 h
      by_cases h1 : st = .incomplete
      · simp only [h1, if_true] at h; cases h
      · simp only [h1, if_false] at h
        by_cases h2 : st = .success
        · simp only [h2, if_true] at h; exact rootSplit_status h
        · simp only [h2, if_false] at h; cases h; exact propagate_status _ hp
    · simp only [hs, if_false] at h; cases h; exact insertHalf_status hi

theorem newTree_status {al : Alloc} {t t' : Txn} {key val : Bytes} {e : Status}
    (h : newTree al t key val = .ok (t', .error e)) : ¬ Refused e := by
  unfold newTree at h
  obtain ⟨a, -, h⟩ := Res.bind_eq_ok.1 h
  obtain ⟨r, -, h⟩ := Res.bind_eq_ok.1 h
  by_cases hr : r.1 = .ok
  · rw [if_pos hr] at h; cases h
  · rw [if_neg hr] at h; cases h; exact ofSt_not_refused _

theorem withRoot_refused {r : Txn × Except Status Nat} (h : Refused (withRoot r).1) :
    ∃ e, r.2 = .error e ∧ Refused e := by
  unfold withRoot at h
  cases hr : r.2 with
  | ok n => rw [hr] at h; simp [Refused] at h
  | error e => rw [hr] at h; exact ⟨e, rfl, h⟩

/-- C76 for the failures other than "no space" and damaged pages: when `put` refuses a key as
already stored, or because the transaction is read-only, the transaction is as it was, for every
database and allocator (without a precondition). -/
theorem refused_put_changes_nothing_partial {al : Alloc} {env : Env} {t t' : Txn} {key val : Bytes} {st : Status}
    (h : putWith al env t key val = .ok (st, t')) (hst : st = .acces ∨ st = .exist) : t' = t := by
  have hst : Refused st := hst
  unfold putWith at h
  by_cases hr : t.rdonly = true
  · rw [if_pos hr] at h; cases h; rfl
  · rw [if_neg hr] at h
    by_cases h0 : t.root = 0
    · rw [if_pos h0] at h
      obtain ⟨⟨t1, r⟩, hn, h⟩ := Res.bind_eq_ok.1 h
      have hw := Res.ok.inj h
      obtain ⟨e, h1, h2⟩ := withRoot_refused (r := (t1, r)) (by rw [hw]; exact hst)
      simp only [] at h1; subst h1
      exact absurd h2 (newTree_status hn)
    · rw [if_neg h0] at h
      obtain ⟨r, hp, h⟩ := Res.bind_eq_ok.1 h
      cases r with
      | error e => cases h; rfl
      | ok path =>
        obtain ⟨leaf, -, h⟩ := Res.bind_eq_ok.1 h
        obtain ⟨f, -, h⟩ := Res.bind_eq_ok.1 h
        generalize (f.hit && (t.getDirty (path.getLastD 0)).isSome) = b at h
        cases b with
        | true => cases h; rfl
        | false =>
          obtain ⟨c, -, h⟩ := Res.bind_eq_ok.1 h
          obtain ⟨p, -, h⟩ := Res.bind_eq_ok.1 h
          obtain ⟨d, -, h⟩ := Res.bind_eq_ok.1 h
          by_cases hd : d.1 = .ok
          · rw [if_pos hd] at h
            obtain ⟨r, -, h⟩ := Res.bind_eq_ok.1 h
            cases hr : r.1 with
            | ok => rw [hr] at h; cases h; simp [Refused] at hst
            | inval => rw [hr] at h; cases h; simp [Refused] at hst
            | nospc =>
              rw [hr] at h
              obtain ⟨⟨t1, r⟩, hn, h⟩ := Res.bind_eq_ok.1 h
              have hw := Res.ok.inj h
              obtain ⟨e, h1, h2⟩ := withRoot_refused (r := (t1, r)) (by rw [hw]; exact hst)
              simp only [] at h1; subst h1
              exact absurd h2 (pageSplit_status hn)
          · rw [if_neg hd] at h; cases h; exact absurd hst (ofSt_not_refused _)

/-- The hypothesis is met: a second write of the same key in one transaction is refused. -/
example : (puts env0 3 txn0 [([97], [1]), ([97], [2])] >>= fun r => .ok r.1) = .ok [.success, .exist] := by
  decide +kernel

/-- C76 fails already for one oversized value: with "a" and "b" stored, `put` of a value of 5000 bytes
under "c" reports no space, and "b" is gone. -/
theorem oversized_put_loses_key :
    putsGet [([97], [1]), ([98], [2])] [98] = .ok ([.success, .success], some 1) ∧
    putsGet [([97], [1]), ([98], [2]), ([99], List.replicate 5000 3)] [98] =
      .ok ([.success, .success, .nospc], none) := by
  decide +kernel

/-! Instances of the hypotheses of C41, C42, C43 and C48. -/

theorem isMap_empty (env : Env) {t : Txn} (h0 : t.root = 0) : IsMap env t 0 (fun _ => none) :=
  ⟨[], .inl ⟨h0, rfl⟩, fun _ => rfl⟩

theorem isMap_leaf {env : Env} {t : Txn} {h : Nat} {m : KvMap} (hm : IsMap env t h m) {p : Page}
    (hp : getPage env t t.root = .ok p) (hl : isLeaf p = true) : IsMap env t 0 m := by
  obtain ⟨l, hl', hlm⟩ := hm
  rcases hl' with ⟨h0, rfl⟩ | ⟨h0, ht, rfl⟩
  · exact ⟨[], .inl ⟨h0, rfl⟩, hlm⟩
  · cases h with
    | zero => exact ⟨_, .inr ⟨h0, ht, rfl⟩, hlm⟩
    | succ h =>
      obtain ⟨q, h1, -, -, h4, -⟩ := ht.wft
      rw [hp] at h1; cases h1; rw [hl] at h4; cases h4

/-- The transaction after a list of `put`s on the empty database. -/
def after (l : List (Bytes × Bytes)) : Txn :=
  match puts env0 3 txn0 l with
  | .ok r => r.2
  | _ => txn0

/-- The root page of a transaction. -/
def rootPage (t : Txn) : Page :=
  match getPage env0 t t.root with
  | .ok p => p
  | _ => fun _ => 0

theorem exOne : ∃ t, put env0 3 txn0 [97] val2 = .ok (.success, t) ∧ t.rdonly = false ∧ t.freeRoot = 0 ∧
    IsMap env0 t 0 (KvMap.put (fun _ => none) [97] val2) := by
  obtain ⟨st, t, h1, h2, h3⟩ := put_refines_partial (env := env0) (t := txn0) (h := 0) (m := fun _ => none) (key := [97]) (val := val2) 2
    rfl rfl (isMap_empty _ rfl) ⟨by rw [val2_length]; decide, by decide, by decide, fun _ hh => absurd rfl hh, fun hh => absurd rfl hh⟩
  have hst : (put env0 3 txn0 [97] val2 >>= fun r => .ok r.1) = .ok .success := by decide +kernel
  rw [h1, Res.ok_bind] at hst
  have hst : st = .success := Res.ok.inj hst
  subst hst
  obtain ⟨a1, a2, -, h', -, a3⟩ := h3 rfl
  refine ⟨t, h1, a1, a2, ?_⟩
  have hp : (put env0 3 txn0 [97] val2 >>= fun r => getPage env0 r.2 r.2.root >>= fun p => .ok (isLeaf p)) = .ok true := by decide +kernel
  rw [h1, Res.ok_bind] at hp
  obtain ⟨p, hp1, hp2⟩ := Res.bind_eq_ok.1 hp
  exact isMap_leaf a3 hp1 (Res.ok.inj hp2)

/-- C41 and C42 are not vacuous: after "a", storing "c" meets the hypotheses (the leaf has room), and
after both, storing "d" meets them although the leaf has to be split. -/
theorem exTwo : ∃ t1 t2, put env0 3 txn0 [97] val2 = .ok (.success, t1) ∧ put env0 3 t1 [99] val2 = .ok (.success, t2) ∧
    t2.rdonly = false ∧ t2.freeRoot = 0 ∧ IsMap env0 t2 0 (KvMap.put (KvMap.put (fun _ => none) [97] val2) [99] val2) ∧
    PutSafe env0 t2 0 (KvMap.put (KvMap.put (fun _ => none) [97] val2) [99] val2) [100] val2 := by
  obtain ⟨t1, h1, h2, h3, h4⟩ := exOne
  have hroom : (put env0 3 txn0 [97] val2 >>= fun r => getPage env0 r.2 r.2.root >>= fun p =>
      .ok (room p, r.2.newLast)) = .ok (2171, 2) := by decide +kernel
  rw [h1, Res.ok_bind] at hroom
  obtain ⟨p, hp1, hp2⟩ := Res.bind_eq_ok.1 hroom
  have hp2 := Res.ok.inj hp2
  have hlast : t1.newLast = 2 := congrArg Prod.snd hp2
  have hroom : room p = 2171 := congrArg Prod.fst hp2
  obtain ⟨st, t2, b1, b2, b3⟩ := put_refines_partial (key := [99]) (val := val2) 2 h3 h2 h4
    ⟨by rw [val2_length]; decide, by decide, by rw [hlast]; decide, fun _ _ q hq hr => by
      rw [hp1] at hq; cases hq; rw [hroom, val2_length] at hr; exact absurd hr (by decide), fun hh => absurd rfl hh⟩
  have hst : (puts env0 3 txn0 [([97], val2), ([99], val2)] >>= fun r => getPage env0 r.2 r.2.root >>= fun p =>
      .ok (r.1, isLeaf p, numKeys p, (keys p).countP (· < [100]), r.2.newLast)) =
      .ok ([.success, .success], true, 2, 2, 2) := by decide +kernel
  unfold puts puts puts at hst
  rw [h1, Res.ok_bind, b1, Res.ok_bind, Res.ok_bind, Res.ok_bind, Res.ok_bind] at hst
  obtain ⟨q, hq1, hq2⟩ := Res.bind_eq_ok.1 hst
  have hq2 := Res.ok.inj hq2
  have e1 : st = .success := by
    have := congrArg Prod.fst hq2
    simp only [List.cons.injEq] at this
    exact this.2.1
  have e2 : isLeaf q = true := congrArg (fun x => x.2.1) hq2
  have e3 : numKeys q = 2 := congrArg (fun x => x.2.2.1) hq2
  have e4 : (keys q).countP (· < [100]) = 2 := congrArg (fun x => x.2.2.2.1) hq2
  have e5 : t2.newLast = 2 := congrArg (fun x => x.2.2.2.2) hq2
  subst e1
  obtain ⟨c1, c2, -, h', -, c3⟩ := b3 rfl
  refine ⟨t1, t2, h1, b1, c1, c2, isMap_leaf c3 hq1 e2, by rw [val2_length]; decide, by decide, by rw [e5]; decide, ?_, fun hh => absurd rfl hh⟩
  intro _ _ q' hq' _
  rw [hq1] at hq'; cases hq'
  rw [e3, e4]; decide

/-- The instance: "d" is stored with a split, and all three keys are found afterwards. -/
example : ∃ t2 t3, put env0 3 t2 [100] val2 = .ok (.success, t3) ∧ get env0 t3 5 [100] = .ok (.ok val2) ∧
    get env0 t3 5 [97] = get env0 t2 5 [97] := by
  obtain ⟨t1, t2, h1, h2, h3, h4, h5, h6⟩ := exTwo
  have hst : (put env0 3 txn0 [97] val2 >>= fun r => put env0 3 r.2 [99] val2 >>= fun r => put env0 3 r.2 [100] val2 >>= fun r => .ok r.1)
      = .ok .success := by decide +kernel
  rw [h1, Res.ok_bind, h2, Res.ok_bind] at hst
  obtain ⟨⟨st, t3⟩, a1, a2⟩ := Res.bind_eq_ok.1 hst
  cases Res.ok.inj a2
  exact ⟨t2, t3, a1, put_then_get_partial h4 h3 h5 h6 a1 (by decide),
    put_keeps_others_partial h4 h3 h5 h6 a1 (by decide) (by decide) (by decide)⟩

/-! ### C43 -/

/-- C43, for keys shorter than 65536 bytes (see `oversized_del_is_truncated`): on every well-formed
database of at most 32 levels, `del` of a stored key succeeds and
leaves exactly the other pairs; `del` of a key that is not stored reports "not found" and leaves the
transaction untouched. -/
theorem del_refines_partial {env : Env} {t : Txn} {h : Nat} {m : KvMap} {key : Bytes} (hw : t.rdonly = false)
    (hm : IsMap env t h m) (hk : key.length < 65536) (hd : h < maxDepth) :
    (m key = none → del env t key = .ok (.notfound, t)) ∧
    (m key ≠ none → ∃ t', del env t key = .ok (.success, t') ∧ t'.rdonly = false ∧ t'.freeRoot = t.freeRoot ∧
      t'.txnid = t.txnid ∧ t'.newLast = t.newLast ∧ IsMap env t' h (m.del key)) := by
  obtain ⟨l, hl, hlm⟩ := hm
  rcases del_spec hw hl hk hd with ⟨hn, he⟩ | ⟨A, v, B, t', a1, a2, a3, a4, a5, a6, a7, a8, a9, a10, -⟩
  · exact ⟨fun _ => he, fun hh => absurd ((hlm key).symm.trans hn) hh⟩
  · have hx : m key = some v := by
      rw [← hlm, a1, lookup_mid (a1 ▸ holds_sorted hl), if_pos rfl]
    refine ⟨fun hh => (by rw [hx] at hh; cases hh), fun _ => ⟨t', a4, a6, a8, a10, a9, A ++ B, a5, fun k => ?_⟩⟩
    unfold KvMap.del
    by_cases hk' : k = key
    · subst hk'
      rw [if_pos rfl, lookup_none_iff, List.map_append, List.mem_append]
      rintro (hm | hm)
      · obtain ⟨a, ha, e⟩ := List.mem_map.1 hm; exact blt_irrefl _ (e ▸ a2 a ha)
      · obtain ⟨a, ha, e⟩ := List.mem_map.1 hm; exact blt_irrefl _ (e ▸ a3 a ha)
    · rw [if_neg hk', ← hlm, a1, lookup_mid (a1 ▸ holds_sorted hl), if_neg hk']

/-- C43 in terms of `get`. -/
theorem del_then_get_partial {env : Env} {t t' : Txn} {h : Nat} {m : KvMap} {key k : Bytes} {fuel : Nat} (hw : t.rdonly = false)
    (hm : IsMap env t h m) (hk : key.length < 65536) (hd : h < maxDepth) (hkl : k.length < 65536) (hf : h < fuel)
    (hdel : del env t key = .ok (.success, t')) :
    get env t' fuel key = .ok (.error .notfound) ∧ (k ≠ key → get env t' fuel k = get env t fuel k) := by
  obtain ⟨h1, h2⟩ := del_refines_partial hw hm hk hd
  by_cases hx : m key = none
  · rw [h1 hx] at hdel; cases hdel
  · obtain ⟨t1, e1, -, -, -, -, e2⟩ := h2 hx
    rw [hdel] at e1; cases e1
    constructor
    · rw [get_answers e2 hk hf]; simp [KvMap.answer, KvMap.del]
    · intro hne
      rw [get_answers e2 hkl hf, get_answers hm hkl hf]; simp [KvMap.answer, KvMap.del, hne]

/-- What C43 does not cover: a key of 65536 bytes or more is treated as a proper prefix of itself, so
`del` removes another key. -/
theorem oversized_del_is_truncated (env : Env) (t : Txn) (key : Bytes) :
    del env t key = del env t (key.take (key.length % 65536)) := by
  have hp : ∀ p, probe p key = probe p (key.take (key.length % 65536)) := by
    intro p; unfold probe; rw [oversized_key_is_truncated]
  have hc : ∀ p, childIdx p key = childIdx p (key.take (key.length % 65536)) := by
    intro p; unfold childIdx; rw [hp]
  have hf : ∀ d n, findPath env t key d n = findPath env t (key.take (key.length % 65536)) d n := by
    intro d
    induction d with
    | zero => intro n; rfl
    | succ d ih => intro n; rw [findPath, findPath]; simp only [hc, ih]
  unfold del
  simp only [hf, hp]

/-- C43 is not vacuous. -/
example : ∃ t t', IsMap env0 t 0 (KvMap.put (fun _ => none) [97] val2) ∧ t.rdonly = false ∧ del env0 t [97] = .ok (.success, t') ∧
    del env0 t [98] = .ok (.notfound, t) := by
  obtain ⟨t1, h1, h2, h3, h4⟩ := exOne
  obtain ⟨t', e, -⟩ := (del_refines_partial h2 h4 (key := [97]) (by decide) (by decide)).2 (by simp [KvMap.put])
  exact ⟨t1, t', h4, h2, e, (del_refines_partial h2 h4 (key := [98]) (by decide) (by decide)).1 (by simp [KvMap.put])⟩

/-! ### C48 -/

/-- C48: in a leaf the transaction has not touched, `put` of a stored key does what `del` and `put`
do; what it must not do, refuse the key, does not happen. -/
theorem put_replaces_partial {al : Alloc} {env : Env} {t : Txn} {h : Nat} {m : KvMap} {key val : Bytes}
    (hk : key.length < 65536) (hw : t.rdonly = false) (hm : IsMap env t h m) (hkey : m key ≠ none)
    (hd : h < maxDepth) (hclean : LeafClean env t h key) :
    ∃ t1, del env t key = .ok (.success, t1) ∧ IsMap env t1 h (m.del key) ∧
      putWith al env t key val = putWith al env t1 key val := by
  obtain ⟨t1', e1, -, -, -, -, e2⟩ := (del_refines_partial hw hm hk hd).2 hkey
  obtain ⟨l, hl, hlm⟩ := hm
  have hkl : key ∈ l.map Prod.fst := by
    apply Classical.byContradiction; intro hn
    exact hkey ((hlm key).symm.trans (lookup_none_iff.2 hn))
  obtain ⟨t1, d1, d2⟩ := put_replace (al := al) (val := val) hk hw hl hkl hd hclean
  rw [e1] at d1; cases d1
  exact ⟨t1', e1, e2, d2⟩

/-- What is missing from C48, in general: whenever the leaf of a stored key has been touched by the
transaction, `put` refuses the key and nothing changes. -/
theorem put_refused_in_touched_leaf {al : Alloc} {env : Env} {t : Txn} {h : Nat} {m : KvMap} {key val : Bytes}
    (hk : key.length < 65536) (hw : t.rdonly = false) (hm : IsMap env t h m) (hkey : m key ≠ none)
    (hd : h < maxDepth)
    (hdirty : ∀ path, IsPath (getPage env t) key h t.root path → (t.getDirty (path.getLastD 0)).isSome = true) :
    putWith al env t key val = .ok (.exist, t) := by
  obtain ⟨l, hl, hlm⟩ := hm
  refine put_exist hk hw hl ?_ hd hdirty
  apply Classical.byContradiction; intro hn
  exact hkey ((hlm key).symm.trans (lookup_none_iff.2 hn))

theorem holds_congr {env env' : Env} {t t' : Txn} {h : Nat} {l : List (Bytes × Bytes)} (hh : Holds env t h l)
    (hr : t'.root = t.root) (hl : t.newLast ≤ t'.newLast)
    (hv : t.root ≠ 0 → ∀ x ∈ pagesOf (getPage env t) h t.root, getPage env' t' x = getPage env t x) : Holds env' t' h l := by
  rcases hh with ⟨h0, rfl⟩ | ⟨h0, ht, rfl⟩
  · exact .inl ⟨hr.trans h0, rfl⟩
  · obtain ⟨f1, f2, f3⟩ := frame (g' := getPage env' t') h (hv h0)
    refine .inr ⟨by rw [hr]; exact h0, ⟨?_, ?_, ?_⟩, by rw [hr]; exact f1⟩
    · rw [hr]; exact f3 _ _ ht.wft
    · rw [hr, f2]; exact ht.nodup
    · rw [hr, f2]; intro n hn; have := ht.bound n hn; omega

/-- The state of `exOne` after writing its page to the file: C48 is not vacuous, "a" is stored in a
leaf the new transaction has not touched. -/
example : ∃ env t, t.rdonly = false ∧ IsMap env t 0 (KvMap.put (fun _ => none) [97] val2) ∧ LeafClean env t 0 [97] ∧
    KvMap.put (fun _ => none) [97] val2 [97] ≠ none := by
  obtain ⟨t1, h1, h2, h3, l, hl, hlm⟩ := exOne
  have hroot : (put env0 3 txn0 [97] val2 >>= fun r => .ok r.2.root) = .ok 2 := by decide +kernel
  rw [h1, Res.ok_bind] at hroot
  have hroot : t1.root = 2 := Res.ok.inj hroot
  refine ⟨⟨fun n => match getPage env0 t1 n with | .ok p => p | _ => fun _ => 0, 3, 3, 1, true, []⟩,
    ⟨false, 3, 2, 0, t1.newLast, [], []⟩, rfl, ⟨l, holds_congr hl hroot.symm (Nat.le_refl _) ?_, hlm⟩, fun _ _ => rfl, by simp [KvMap.put]⟩
  intro _ x hx
  rw [hroot] at hx
  have hx : x = 2 := List.mem_singleton.1 hx
  subst hx
  rcases hl with ⟨h0, -⟩ | ⟨-, ht, -⟩
  · rw [hroot] at h0; cases h0
  · obtain ⟨p, hp, -⟩ := ht.wft
    rw [hroot] at hp
    rw [hp]
    refine Eq.trans (b := .ok (match getPage env0 t1 2 with | .ok p => p | _ => fun _ => 0)) rfl ?_
    rw [hp]

/-- What the touched case looks like. -/
example : ∃ t, IsMap env0 t 0 (KvMap.put (fun _ => none) [97] val2) ∧
    ∀ path, IsPath (getPage env0 t) [97] 0 t.root path → (t.getDirty (path.getLastD 0)).isSome = true := by
  obtain ⟨t1, h1, h2, h3, h4⟩ := exOne
  refine ⟨t1, h4, fun path hp => ?_⟩
  have : (put env0 3 txn0 [97] val2 >>= fun r => .ok (r.2.getDirty r.2.root).isSome) = .ok true := by decide +kernel
  rw [h1, Res.ok_bind] at this
  rw [show path = [t1.root] from hp]
  exact Res.ok.inj this

/-- C48 is false of the code: the second `put` of a key in one transaction fails, and so does
replacing one key after another that lives in the same leaf. -/
theorem second_put_refused :
    (puts env0 3 txn0 [([97], [1]), ([97], [2])] >>= fun r => .ok r.1) = .ok [.success, .exist] ∧
    (puts env0 3 txn0 [([97], [1]), ([98], [1]), ([97], [2])] >>= fun r => .ok r.1) =
      .ok [.success, .success, .exist] := by
  decide +kernel

/-! ### Histories -/

/-- An operation of a write transaction. -/
inductive KvOp where
  | put (key val : Bytes)
  | del (key : Bytes)

/-- Run one operation. -/
def runOp (env : Env) (fuel : Nat) (t : Txn) : KvOp → Res (Status × Txn)
  | .put k v => Verif.Db.put env fuel t k v
  | .del k => Verif.Db.del env t k

/-- Its effect on the map. -/
def KvOp.apply (m : KvMap) : KvOp → KvMap
  | .put k v => m.put k v
  | .del k => m.del k

/-- An empty tree counts as of height 0. -/
theorem isMap_height {env : Env} {t : Txn} {h : Nat} {m : KvMap} (hm : IsMap env t h m) :
    ∃ h', IsMap env t h' m ∧ (t.root = 0 → h' = 0) := by
  by_cases h0 : t.root = 0
  · obtain ⟨l, hl, hlm⟩ := hm
    rcases hl with ⟨-, rfl⟩ | ⟨hne, -⟩
    · exact ⟨0, ⟨[], .inl ⟨h0, rfl⟩, hlm⟩, fun _ => rfl⟩
    · exact absurd h0 hne
  · exact ⟨h, hm, fun h => absurd h h0⟩

/-- The height of the tree of a transaction (0 if there is no tree). -/
def Height (env : Env) (t : Txn) (m : KvMap) (h : Nat) : Prop := IsMap env t h m ∧ (t.root = 0 → h = 0)

/-- A history: each operation meets the conditions, runs, and does not run out of space. -/
inductive History (env : Env) (fuel : Nat) : Txn → KvMap → List KvOp → Txn → Prop
  | nil (t m) : History env fuel t m [] t
  | put {t t1 t2 m k v ops} (hs : ∀ h, Height env t m h → PutSafe env t h m k v)
      (hrun : runOp env fuel t (.put k v) = .ok (.success, t1))
      (rest : History env fuel t1 (m.put k v) ops t2) : History env fuel t m (.put k v :: ops) t2
  | del {t t1 t2 m k st ops} (hk : k.length < 65536) (hd : ∀ h, Height env t m h → h < maxDepth)
      (hrun : runOp env fuel t (.del k) = .ok (st, t1))
      (rest : History env fuel t1 (m.del k) ops t2) : History env fuel t m (.del k :: ops) t2

/-- C41, C42 and C43 over a whole history of `put` and `del`: the transaction holds the map that the
same operations give on the abstract map, and `get` answers accordingly. -/
theorem history_refines_partial {env : Env} {fuel : Nat} {t t' : Txn} {m : KvMap} {ops : List KvOp}
    (H : History env (fuel + 1) t m ops t') : ∀ {h : Nat}, t.freeRoot = 0 → t.rdonly = false → IsMap env t h m →
    ∃ h', IsMap env t' h' (ops.foldl KvOp.apply m) ∧
      ∀ k fuel', k.length < 65536 → h' < fuel' → get env t' fuel' k = .ok ((ops.foldl KvOp.apply m).answer k) := by
  induction H with
  | nil t m =>
    intro h _ _ hm
    exact ⟨h, hm, fun k fuel' hk hf => get_answers hm hk hf⟩
  | put hs hrun _ ih =>
    intro h hf hw hm
    obtain ⟨h, hm, hz⟩ := isMap_height hm
    obtain ⟨st, t'', h1, h2, h3⟩ := put_refines_partial fuel hf hw hm (hs h ⟨hm, hz⟩)
    rw [show Verif.Db.put env (fuel + 1) _ _ _ = _ from hrun] at h1; cases h1
    obtain ⟨a1, a2, -, h', -, a3⟩ := h3 rfl
    exact ih a2 a1 a3
  | @del t t1 t2 m k st ops hk hd hrun _ ih =>
    intro h hf hw hm
    obtain ⟨h, hm, hz⟩ := isMap_height hm
    obtain ⟨h1, h2⟩ := del_refines_partial hw hm hk (hd h ⟨hm, hz⟩)
    by_cases hx : m k = none
    · rw [show Verif.Db.del env _ _ = _ from hrun] at h1
      cases h1 hx
      have : m.del k = m := by
        funext x; unfold KvMap.del; split
        · rename_i e; rw [e, hx]
        · rfl
      rw [this] at ih
      show ∃ h', IsMap env t2 h' (ops.foldl KvOp.apply (m.del k)) ∧ _
      rw [List.foldl_cons, show KvOp.apply m (.del k) = m from this]
      rw [this]
      exact ih hf hw hm
    · obtain ⟨t1', e, e1, e2, -, -, e3⟩ := h2 hx
      rw [show Verif.Db.del env _ _ = _ from hrun] at e; cases e
      exact ih (e2.trans hf) e1 e3

theorem height_zero {env : Env} {t : Txn} {m : KvMap} {h : Nat} (hh : Height env t m h) {p : Page} (hg : getPage env t t.root = .ok p)
    (hl : isLeaf p = true) : h = 0 := by
  obtain ⟨⟨l, hl', -⟩, hz⟩ := hh
  rcases hl' with ⟨h0, -⟩ | ⟨-, ht, -⟩
  · exact hz h0
  · cases h with
    | zero => rfl
    | succ h =>
      obtain ⟨q, a, -, -, b, -⟩ := ht.wft
      rw [hg] at a; cases a; rw [hl] at b; cases b

/-- The transaction after one `put` into an empty database. -/
def txn1 : Txn := { txn0 with root := 2, newLast := 2, dirty := [(2, leaf1)] }
where leaf1 : Page := match insert (emptyPage true 2) 0 (.leaf [97] [1]) with
  | .ok r => r.2
  | _ => fun _ => 0

/-- The hypotheses of `history_refines_partial` for storing two keys in an empty database, the second
one into the leaf made by the first. -/
example : ∃ t', History env0 5 txn0 (fun _ => none) [.put [97] [1], .put [98] [2]] t' := by
  have run : ∀ r : Res (Status × Txn), (match r with | .ok (.success, _) => true | _ => false) = true → ∃ t', r = .ok (.success, t') := by
    intro r hr
    split at hr
    · exact ⟨_, rfl⟩
    · cases hr
  obtain ⟨t', e⟩ := run (runOp env0 5 txn1 (.put [98] [2])) (by decide +kernel)
  refine ⟨t', .put (t1 := txn1) (fun h hh => ?_) rfl (.put (fun h hh => ?_) e (.nil _ _))⟩
  · cases hh.2 rfl
    exact ⟨by decide, by decide, by decide, fun _ h => absurd rfl h, fun h => absurd rfl h⟩
  · cases height_zero hh (p := txn1.leaf1) rfl (by decide +kernel)
    refine ⟨by decide, by decide, by decide, fun _ _ p hp hr => ?_, fun h => absurd (by decide) h⟩
    have : p = txn1.leaf1 := by
      have hq : getPage env0 txn1 2 = .ok txn1.leaf1 := rfl
      exact Res.ok.inj (hp.symm.trans hq)
    subst this
    exact absurd hr (by decide +kernel)

/-! ### C57 -/

theorem chk_ne_div (o n : Nat) : chk o n ≠ .div := by unfold chk; split <;> simp

theorem bind_ne_div {α β : Type} {x : Res α} {f : α → Res β} (h : x ≠ .div) (h' : ∀ a, f a ≠ .div) : (x >>= f) ≠ .div := by
  cases x with
  | ok a => exact h' a
  | ub => simp
  | div => exact absurd rfl h

theorem cmpAt_ne_div (p : Page) (leaf : Bool) (key : Bytes) (i : Nat) : cmpAt p leaf key i ≠ .div := by
  unfold cmpAt rdSlot
  refine bind_ne_div (bind_ne_div (chk_ne_div _ _) fun _ => by simp) fun _ => bind_ne_div (chk_ne_div _ _) fun _ =>
    bind_ne_div (chk_ne_div _ _) fun _ => by simp

theorem searchLoop_ne_div (p : Page) (leaf : Bool) (key : Bytes) (l r : Nat) (t : List Nat) :
    searchLoop p leaf key l r t ≠ .div := by
  fun_induction searchLoop p leaf key l r t with
  | case1 => simp
  | case2 l r t h mid hm => exact absurd hm (cmpAt_ne_div _ _ _ _)
  | case3 => simp
  | case4 l r t h mid hm ih => exact ih
  | case5 l r t h mid hm ih => exact ih
  | case6 => simp

theorem childIdx_ne_div (p : Page) (key : Bytes) : childIdx p key ≠ .div := by
  have hs : search p key ≠ .div := by
    unfold search searchTrace
    refine bind_ne_div ?_ fun _ => by simp
    split
    · simp
    · split
      · exact bind_ne_div (searchLoop_ne_div _ _ _ _ _ _) fun _ => by simp
      · split
        · exact bind_ne_div (searchLoop_ne_div _ _ _ _ _ _) fun _ => by simp
        · simp
  unfold childIdx probe
  refine bind_ne_div (bind_ne_div hs fun a => ?_) fun _ => by simp
  cases a <;> simp

/-- C57: whatever the pages contain, the descent of a write operation ends; it looks at no more than
32 pages, none beyond the last allocated one (its outcome is the same on every other store that
agrees on these pages), and the path it gives has these bounds too.  Only partial: on damaged pages
the outcome may be undefined behaviour, see `damaged_branch_undefined`. -/
theorem descent_bounded_partial (env : Env) (t : Txn) (key : Bytes) (n : Nat) :
    findPath env t key maxDepth n ≠ .div ∧
    (∃ S : List Nat, S.length ≤ 32 ∧ (∀ x ∈ S, x ≤ maxPgno env t) ∧
      ∀ env' t', maxPgno env' t' = maxPgno env t → (∀ x ∈ S, getPage env' t' x = getPage env t x) →
        findPath env' t' key maxDepth n = findPath env t key maxDepth n) ∧
    (∀ path, findPath env t key maxDepth n = .ok (.ok path) → path.length ≤ 32 ∧ ∀ x ∈ path, x ≤ maxPgno env t) := by
  suffices h : ∀ d n, findPath env t key d n ≠ .div ∧
    (∃ S : List Nat, S.length ≤ d ∧ (∀ x ∈ S, x ≤ maxPgno env t) ∧
      ∀ env' t', maxPgno env' t' = maxPgno env t → (∀ x ∈ S, getPage env' t' x = getPage env t x) →
        findPath env' t' key d n = findPath env t key d n) ∧
    (∀ path, findPath env t key d n = .ok (.ok path) → path.length ≤ d ∧ ∀ x ∈ path, x ≤ maxPgno env t) from h 32 n
  intro d
  induction d with
  | zero =>
    intro n
    refine ⟨by simp [findPath], ⟨[], by simp, by simp, fun _ _ _ _ => rfl⟩, fun path h => by simp [findPath] at h⟩
  | succ d ih =>
    intro n
    by_cases hc : maxPgno env t < n
    · have h1 : findPath env t key (d + 1) n = .ok (.error .inval) := by rw [findPath, if_pos hc]
      refine ⟨by rw [h1]; simp, ⟨[], by simp, by simp, fun env' t' hm _ => ?_⟩, fun path h => by rw [h1] at h; cases h⟩
      rw [h1, findPath, hm, if_pos hc]
    · have hr : ∀ env' t', maxPgno env' t' = maxPgno env t → findPath env' t' key (d + 1) n = (do
          let p ← getPage env' t' n
          if isLeaf p then .ok (.ok [n])
          else if !isBranch p then .ok (.error .inval)
          else do
            let i ← childIdx p key
            let c ← child p i
            match ← findPath env' t' key d c with
            | .error e => .ok (.error e)
            | .ok path => .ok (.ok (n :: path))) := by
        intro env' t' hm; rw [findPath, hm, if_neg hc]; rfl
      cases hg : getPage env t n with
      | div => exfalso; revert hg; unfold getPage mapPage; split <;> (try split) <;> (try split) <;> simp
      | ub =>
        have h1 : findPath env t key (d + 1) n = .ub := by rw [hr _ _ rfl, hg]; rfl
        refine ⟨by rw [h1]; simp, ⟨[n], by simp, by simp; omega, fun env' t' hm hs => ?_⟩, fun path h => by rw [h1] at h; cases h⟩
        rw [h1, hr _ _ hm, hs n (by simp), hg]; rfl
      | ok p =>
        by_cases hl : isLeaf p = true
        · have h1 : findPath env t key (d + 1) n = .ok (.ok [n]) := by rw [hr _ _ rfl, hg, Res.ok_bind, if_pos hl]
          refine ⟨by rw [h1]; simp, ⟨[n], by simp, by simp; omega, fun env' t' hm hs => ?_⟩, fun path h => ?_⟩
          · rw [h1, hr _ _ hm, hs n (by simp), hg, Res.ok_bind, if_pos hl]
          · rw [h1] at h; cases h; simp; omega
        · by_cases hb : (!isBranch p) = true
          · have h1 : findPath env t key (d + 1) n = .ok (.error .inval) := by
              rw [hr _ _ rfl, hg, Res.ok_bind, if_neg hl, if_pos hb]
            refine ⟨by rw [h1]; simp, ⟨[n], by simp, by simp; omega, fun env' t' hm hs => ?_⟩, fun path h => by rw [h1] at h; cases h⟩
            rw [h1, hr _ _ hm, hs n (by simp), hg, Res.ok_bind, if_neg hl, if_pos hb]
          · have hr' : ∀ env' t', maxPgno env' t' = maxPgno env t → getPage env' t' n = .ok p →
                findPath env' t' key (d + 1) n = (childIdx p key >>= fun i => child p i >>= fun c =>
                  findPath env' t' key d c >>= fun r => match r with
                  | .error e => .ok (.error e)
                  | .ok path => .ok (.ok (n :: path))) := by
              intro env' t' hm hp; rw [hr _ _ hm, hp, Res.ok_bind, if_neg hl, if_neg hb]
            cases hi : childIdx p key with
            | div => exact absurd hi (childIdx_ne_div _ _)
            | ub =>
              have h1 : findPath env t key (d + 1) n = .ub := by rw [hr' _ _ rfl hg, hi]; rfl
              refine ⟨by rw [h1]; simp, ⟨[n], by simp, by simp; omega, fun env' t' hm hs => ?_⟩, fun path h => by rw [h1] at h; cases h⟩
              rw [h1, hr' _ _ hm (by rw [hs n (by simp), hg]), hi]; rfl
            | ok i =>
              cases hch : child p i with
              | div =>
                exfalso; revert hch; unfold child rdSlot
                exact bind_ne_div (bind_ne_div (chk_ne_div _ _) fun _ => by simp) fun _ => bind_ne_div (chk_ne_div _ _) fun _ => by simp
              | ub =>
                have h1 : findPath env t key (d + 1) n = .ub := by rw [hr' _ _ rfl hg, hi, Res.ok_bind, hch]; rfl
                refine ⟨by rw [h1]; simp, ⟨[n], by simp, by simp; omega, fun env' t' hm hs => ?_⟩, fun path h => by rw [h1] at h; cases h⟩
                rw [h1, hr' _ _ hm (by rw [hs n (by simp), hg]), hi, Res.ok_bind, hch]; rfl
              | ok c =>
                obtain ⟨i1, ⟨S, s1, s2, s3⟩, i3⟩ := ih c
                have h1 := hr' _ _ rfl hg
                rw [hi, Res.ok_bind, hch, Res.ok_bind] at h1
                refine ⟨?_, ⟨n :: S, by simp; omega, ?_, fun env' t' hm hs => ?_⟩, fun path h => ?_⟩
                · rw [h1]; exact bind_ne_div i1 fun r => by cases r <;> simp
                · intro x hx
                  rcases List.mem_cons.1 hx with rfl | hx
                  · omega
                  · exact s2 x hx
                · rw [h1, hr' _ _ hm (by rw [hs n (by simp), hg]), hi, Res.ok_bind, hch, Res.ok_bind,
                    s3 env' t' hm fun x hx => hs x (List.mem_cons_of_mem _ hx)]
                · rw [h1] at h
                  obtain ⟨r, e1, e2⟩ := Res.bind_eq_ok.1 h
                  cases r with
                  | error e => cases e2
                  | ok path' =>
                    cases e2
                    obtain ⟨j1, j2⟩ := i3 _ e1
                    refine ⟨by simp; omega, fun x hx => ?_⟩
                    rcases List.mem_cons.1 hx with rfl | hx
                    · omega
                    · exact j2 x hx

/-- A page whose header says "branch" and which is zero otherwise. -/
def damaged : Page := put16 (fun _ => 0) 8 1

/-- What C57 does not give: a branch page that claims to have no entries makes the descent read slot
65535, outside the page. -/
theorem damaged_branch_undefined :
    findPath ⟨fun _ => damaged, 3, 3, 1, true, []⟩ ⟨false, 2, 2, 0, 2, [], []⟩ [97] maxDepth 2 = .ub := by
  decide +kernel

/-- A page that is its own child (the separator is empty, the child is page 2). -/
def cyclic : Page := put64 (put16 (put16 (put16 (fun _ => 0) 8 1) 10 1) 18 100) 100 2

/-- C57 on a cycle: the descent gives up after 32 pages. -/
example : findPath ⟨fun _ => cyclic, 3, 3, 1, true, []⟩ ⟨false, 2, 2, 0, 2, [], []⟩ [97] maxDepth 2 = .ok (.error .general) := by
  decide +kernel

/-- Reading, in contrast, never ends on it: `napr_db_get` has no bound on the number of pages. -/
theorem get_loops_on_cycle (fuel : Nat) :
    get ⟨fun _ => cyclic, 3, 3, 1, true, []⟩ ⟨false, 2, 2, 0, 2, [], []⟩ fuel [97] = .div := by
  have h : ∀ fuel, findLeaf ⟨fun _ => cyclic, 3, 3, 1, true, []⟩ ⟨false, 2, 2, 0, 2, [], []⟩ [97] fuel 2 = .div := by
    intro fuel
    induction fuel with
    | zero => rfl
    | succ f ih =>
      have h1 : getPage ⟨fun _ => cyclic, 3, 3, 1, true, []⟩ ⟨false, 2, 2, 0, 2, [], []⟩ 2 = .ok cyclic := rfl
      have h2 : isLeaf cyclic = false := by decide +kernel
      have h3 : isBranch cyclic = true := by decide +kernel
      have h4 : childIdx cyclic [97] = .ok 0 := by decide +kernel
      have h5 : child cyclic 0 = .ok 2 := by decide +kernel
      rw [findLeaf, h1, Res.ok_bind, h2, h3]
      simp only [Bool.false_eq_true, if_false, Bool.not_true]
      rw [h4, Res.ok_bind, h5, Res.ok_bind, ih]
  unfold get
  rw [if_neg (by decide)]
  show (findLeaf _ _ [97] fuel 2 >>= _) = _
  rw [h]; rfl

/-- C78: in a read transaction `put` and `del` are refused and change nothing. -/
theorem readonly_refused {al : Alloc} {env : Env} {t : Txn} (h : t.rdonly = true) (key val : Bytes) :
    putWith al env t key val = .ok (.acces, t) ∧ del env t key = .ok (.inval, t) := by
  unfold putWith del
  rw [if_pos h, if_pos h]
  exact ⟨rfl, rfl⟩

/-- C78: a read transaction on a database with a root. -/
example : (⟨true, 1, 2, 0, 2, [], []⟩ : Txn).rdonly = true ∧ (⟨true, 1, 2, 0, 2, [], []⟩ : Txn).root ≠ 0 := ⟨rfl, by decide⟩

end Verif.Db
