import Verif.Db.Walk

/-!
# Helper lemmas: `get`, copy-on-write of a path, `del`
-/

namespace Verif.Db

open Verif.Page

/-! ## The dirty table -/

theorem lookup_filter {l : List (Nat × Page)} {n m : Nat} :
    (l.filter fun e => e.1 != n).lookup m = if m = n then none else l.lookup m := by
  induction l with
  | nil => simp
  | cons e l ih =>
    obtain ⟨a, p⟩ := e
    by_cases h : a = n
    · subst h
      rw [List.filter_cons_of_neg (by simp), ih]
      by_cases h' : m = a
      · simp [h']
      · rw [if_neg h', if_neg h', List.lookup_cons, show (m == a) = false by simpa using h']
    · rw [List.filter_cons_of_pos (by simpa using h), List.lookup_cons, List.lookup_cons, ih]
      by_cases h' : m = a
      · subst h'; simp [h]
      · rw [show (m == a) = false by simpa using h']

theorem getDirty_set (t : Txn) (n : Nat) (p : Page) (m : Nat) :
    (t.setDirty n p).getDirty m = if m = n then some p else t.getDirty m := by
  unfold Txn.getDirty Txn.setDirty
  rw [List.lookup_cons, lookup_filter]
  by_cases h : m = n
  · simp [h]
  · rw [show (m == n) = false by simpa using h, if_neg h, if_neg h]

theorem getPage_set {env : Env} {t : Txn} (hr : t.rdonly = false) (n : Nat) (p : Page) (m : Nat) :
    getPage env (t.setDirty n p) m = if m = n then .ok p else getPage env t m := by
  unfold getPage
  rw [getDirty_set]
  simp only [Txn.setDirty, hr, Bool.false_eq_true, if_false]
  by_cases h : m = n
  · rw [if_pos h, if_pos h]
  · rw [if_neg h, if_neg h]

theorem getPage_dirty {env : Env} {t : Txn} (hr : t.rdonly = false) {n : Nat} {p : Page} (h : t.getDirty n = some p) :
    getPage env t n = .ok p := by
  unfold getPage; rw [h]; simp [hr]

/-- What copying pages for writing leaves as it was. -/
structure Same (env : Env) (t t' : Txn) : Prop where
  rdonly : t'.rdonly = t.rdonly
  txnid : t'.txnid = t.txnid
  root : t'.root = t.root
  freeRoot : t'.freeRoot = t.freeRoot
  newLast : t'.newLast = t.newLast
  view : ∀ m, getPage env t' m = getPage env t m
  keep : ∀ m p, t.getDirty m = some p → t'.getDirty m = some p

theorem Same.refl (env : Env) (t : Txn) : Same env t t := ⟨rfl, rfl, rfl, rfl, rfl, fun _ => rfl, fun _ _ h => h⟩

theorem Same.trans {env : Env} {a b c : Txn} (h : Same env a b) (h' : Same env b c) : Same env a c :=
  ⟨h'.rdonly.trans h.rdonly, h'.txnid.trans h.txnid, h'.root.trans h.root, h'.freeRoot.trans h.freeRoot,
   h'.newLast.trans h.newLast, fun m => (h'.view m).trans (h.view m), fun m p hm => h'.keep m p (h.keep m p hm)⟩

/-- A statement about transactions that copying the pages `L` for writing keeps. -/
def Keeps (L F : List Nat) (t t' : Txn) : Prop :=
  ∀ I : Txn → Prop, (∀ t n p, I t → n ∉ F → pgno p = n → WF p → n ≤ t.newLast → I (t.setDirty n p)) →
    (∀ t x, x ∈ L → I t → I { t with freed := t.freed ++ [x] }) → (∀ x ∈ L, x ∉ F ∧ x ≤ t.newLast) → I t → I t'

theorem cow_spec {env : Env} {t : Txn} (hr : t.rdonly = false) {n : Nat} {p : Page}
    (hg : getPage env t n = .ok p) (hn : pgno p = n) (hwf : WF p) :
    ∃ t', cow env t n = .ok (n, t') ∧ Same env t t' ∧ t'.getDirty n = some p ∧ ∀ F, Keeps [n] F t t' := by
  unfold cow
  cases hd : t.getDirty n with
  | some q =>
    refine ⟨t, rfl, .refl env t, ?_, fun F I _ _ _ h => h⟩
    rw [getPage_dirty hr hd] at hg; cases hg; exact hd
  | none =>
    have hm : mapPage env n = .ok p := by
      unfold getPage at hg; rw [hd] at hg; simpa [hr] using hg
    simp only []
    unfold getWritable
    rw [hm, Res.ok_bind, hn, hd]
    refine ⟨_, rfl, ⟨rfl, rfl, rfl, rfl, rfl, ?_, ?_⟩, ?_, fun F I h1 h2 h3 h => h2 _ _ (by simp) (h1 _ _ _ h (h3 n (by simp)).1 hn hwf (h3 n (by simp)).2)⟩
    · intro m
      have h2 : getPage env { t.setDirty n p with freed := t.freed ++ [n] } m = getPage env (t.setDirty n p) m := rfl
      rw [h2, getPage_set hr]
      split
      · rename_i h; rw [h, hg]
      · rfl
    · intro m q hq
      show (t.setDirty n p).getDirty m = some q
      rw [getDirty_set, if_neg (by rintro rfl; rw [hd] at hq; cases hq)]; exact hq
    · show (t.setDirty n p).getDirty n = some p
      rw [getDirty_set, if_pos rfl]

theorem cowAll_spec {env : Env} (L : List Nat) : ∀ {t : Txn}, t.rdonly = false →
    (∀ n ∈ L, ∃ p, getPage env t n = .ok p ∧ pgno p = n ∧ WF p) →
    ∃ t', cowAll env t L = .ok t' ∧ Same env t t' ∧ (∀ n ∈ L, ∃ p, t'.getDirty n = some p) ∧
      ∀ F, Keeps L F t t' := by
  induction L with
  | nil => intro t _ _; exact ⟨t, rfl, .refl env t, by simp, fun F I _ _ _ h => h⟩
  | cons n L ih =>
    intro t hr h
    obtain ⟨p, hp, hn, hwf⟩ := h n List.mem_cons_self
    obtain ⟨t1, h1, s1, d1, k1⟩ := cow_spec hr hp hn hwf
    obtain ⟨t2, h2, s2, d2, k2⟩ := ih (t := t1) (by rw [s1.rdonly, hr]) (by
      intro m hm; rw [s1.view]; exact h m (List.mem_cons_of_mem _ hm))
    refine ⟨t2, by rw [cowAll, h1, Res.ok_bind]; exact h2, s1.trans s2, ?_, fun F I e1 e2 e3 e4 =>
      k2 F I e1 (fun t x hx => e2 t x (List.mem_cons_of_mem _ hx)) (fun x hx => by rw [s1.newLast]; exact e3 x (List.mem_cons_of_mem _ hx)) (k1 F I e1 (fun t x hx => e2 t x (by simp only [List.mem_singleton] at hx; subst hx; simp)) (fun x hx => e3 x (by simp only [List.mem_singleton] at hx; subst hx; simp)) e4)⟩
    intro m hm
    rcases List.mem_cons.1 hm with rfl | hm
    · exact ⟨p, s2.keep _ _ d1⟩
    · exact d2 m hm

theorem cowPath_spec {env : Env} {t : Txn} (hr : t.rdonly = false) {path : List Nat} (hne : path ≠ [])
    (h : ∀ n ∈ path, ∃ p, getPage env t n = .ok p ∧ pgno p = n ∧ WF p) :
    ∃ t', cowPath env t path.reverse = .ok (path.getLastD 0, t') ∧ Same env t t' ∧
      (∀ n ∈ path, ∃ p, t'.getDirty n = some p) ∧ ∀ F, Keeps path F t t' := by
  have hsplit : path.reverse = path.getLastD 0 :: path.dropLast.reverse := by
    rcases List.eq_nil_or_concat path with rfl | ⟨L, b, rfl⟩
    · exact absurd rfl hne
    · rw [List.concat_eq_append]; simp [List.getLastD_eq_getLast?]
  rw [hsplit, cowPath]
  obtain ⟨p, hp, hn, hwf⟩ := h _ (getLastD_mem hne)
  obtain ⟨t1, h1, s1, d1, k1⟩ := cow_spec hr hp hn hwf
  have hsub : ∀ n ∈ path.dropLast.reverse, n ∈ path := fun n hn => List.dropLast_subset _ (List.mem_reverse.1 hn)
  obtain ⟨t2, h2, s2, d2, k2⟩ := cowAll_spec path.dropLast.reverse (t := t1) (by rw [s1.rdonly, hr]) (by
    intro m hm; rw [s1.view]; exact h m (hsub m hm))
  refine ⟨t2, by rw [h1, Res.ok_bind]; show (cowAll env t1 _ >>= _) = _; rw [h2]; rfl, s1.trans s2, ?_, fun F I e1 e2 e3 e4 =>
    k2 F I e1 (fun t x hx => e2 t x (hsub x hx)) (fun x hx => by rw [s1.newLast]; exact e3 x (hsub x hx)) (k1 F I e1 (fun t x hx => e2 t x (by simp only [List.mem_singleton] at hx; subst hx; exact getLastD_mem hne)) (fun x hx => e3 x (by simp only [List.mem_singleton] at hx; subst hx; exact getLastD_mem hne)) e4)⟩
  intro m hm
  have hm' : m ∈ path.reverse := List.mem_reverse.2 hm
  rw [hsplit] at hm'
  rcases List.mem_cons.1 hm' with rfl | hm'
  · exact ⟨p, s2.keep _ _ d1⟩
  · exact d2 m hm'

/-! ## Pages of a well-formed tree -/

theorem kids_mem {R : Option Bytes → Option Bytes → Nat → Prop} {lo hi : Option Bytes}
    {B : List (Bytes × Nat)} (h : Kids R lo hi B) {e : Bytes × Nat} (he : e ∈ B) : ∃ l u, R l u e.2 := by
  obtain ⟨A, C, rfl⟩ := List.append_of_mem he
  exact ⟨_, _, (kids_focus (k := e.1) (c := e.2) h).1⟩

theorem wft_pages {g : View} (h : Nat) : ∀ {lo hi : Option Bytes} {n : Nat}, WFT g h lo hi n →
    ∀ x ∈ pagesOf g h n, ∃ p, g x = .ok p ∧ pgno p = x ∧ WF p := by
  induction h with
  | zero =>
    rintro lo hi n ⟨p, h1, h2, h3, -⟩ x hx
    simp only [pagesOf, List.mem_singleton] at hx
    subst hx; exact ⟨p, h1, h2, h3⟩
  | succ h ih =>
    rintro lo hi n ⟨p, h1, h2, h3, h4, h5, h6⟩ x hx
    rw [pagesOf_succ h1] at hx
    rcases List.mem_cons.1 hx with rfl | hx
    · exact ⟨p, h1, h2, h3⟩
    · obtain ⟨e, he, hx⟩ := List.mem_flatMap.1 hx
      obtain ⟨l, u, hw⟩ := kids_mem h6 he
      exact ih hw x hx

theorem inRange_none (k : Bytes) : InRange none none k := ⟨fun _ h => (by cases h), fun _ h => (by cases h)⟩

/-! ## Listings -/

theorem map_eraseIdx' {α β : Type} (f : α → β) (l : List α) (i : Nat) :
    (l.eraseIdx i).map f = (l.map f).eraseIdx i := by
  rw [List.eraseIdx_eq_take_drop_succ, List.eraseIdx_eq_take_drop_succ, List.map_append, List.map_take, List.map_drop]

theorem lookup_append_right {A B : List (Bytes × Bytes)} {key : Bytes} (h : ∀ a ∈ A, a.1 < key) :
    (A ++ B).lookup key = B.lookup key := by
  induction A with
  | nil => rfl
  | cons a A ih =>
    obtain ⟨k, v⟩ := a
    rw [List.cons_append, List.lookup_cons]
    have : (key == k) = false := by
      simp only [beq_eq_false_iff_ne]
      rintro rfl
      exact blt_irrefl _ (h _ List.mem_cons_self)
    rw [this, ih fun a ha => h a (List.mem_cons_of_mem _ ha)]

theorem lookup_gt {B : List (Bytes × Bytes)} {key : Bytes} (h : ∀ b ∈ B, key < b.1) : B.lookup key = none := by
  induction B with
  | nil => rfl
  | cons a B ih =>
    obtain ⟨k, v⟩ := a
    rw [List.lookup_cons]
    have : (key == k) = false := by
      simp only [beq_eq_false_iff_ne]
      rintro rfl
      exact blt_irrefl _ (h _ List.mem_cons_self)
    rw [this]
    exact ih fun a ha => h a (List.mem_cons_of_mem _ ha)

/-- Where a key is in a leaf, in terms of its pairs. -/
theorem leaf_splits {p : Page} (hl : isLeaf p = true) {key : Bytes} {f : Found} (h : Splits p key f) :
    ∃ A B, (∀ a ∈ A, a.1 < key) ∧ (∀ b ∈ B, key < b.1) ∧
    ((∃ v, kvs p = A ++ (key, v) :: B ∧ f = .found A.length) ∨ (kvs p = A ++ B ∧ f = .notFound A.length)) := by
  obtain ⟨A, B, hA, hB, h⟩ := h
  refine ⟨A.map fun it => (it.key, it.val), B.map fun it => (it.key, it.val), ?_, ?_, ?_⟩
  · intro a ha; obtain ⟨it, hi, rfl⟩ := List.mem_map.1 ha; exact hA it hi
  · intro a ha; obtain ⟨it, hi, rfl⟩ := List.mem_map.1 ha; exact hB it hi
  · rcases h with ⟨it, h1, h2, h3⟩ | ⟨h1, h2⟩
    · refine .inl ⟨it.val, ?_, by rw [h3, List.length_map]⟩
      unfold kvs; rw [h1]; simp [h2]
    · refine .inr ⟨?_, by rw [h2, List.length_map]⟩
      unfold kvs; rw [h1]; simp

/-- The answer `get` should give. -/
def answer (l : List (Bytes × Bytes)) (key : Bytes) : Except Status Bytes :=
  match l.lookup key with
  | some v => .ok v
  | none => .error .notfound

theorem get_spec {env : Env} {t : Txn} {h : Nat} {l : List (Bytes × Bytes)} (hh : Holds env t h l)
    {key : Bytes} (hk : key.length < 65536) {fuel : Nat} (hf : h < fuel) :
    get env t fuel key = .ok (answer l key) := by
  rcases hh with ⟨h0, rfl⟩ | ⟨h0, ht, rfl⟩
  · unfold get; rw [if_pos h0]; rfl
  · obtain ⟨path, p, h1, h2, h3⟩ := findLeaf_spec hk h ht.wft hf
    obtain ⟨lo', hi', p', A, B, i1, i2, i3, i4, i5, i6, -⟩ := leaf_focus h ht.wft h1 (inRange_none key)
    rw [h2] at i1; cases i1
    obtain ⟨q, j1, j2, j3, j4, j5, j6⟩ := i2
    rw [h2] at j1; cases j1
    obtain ⟨f, hf1, hf2⟩ := probe_spec j3 j5 hk
    unfold get
    rw [if_neg h0, h3, Res.ok_bind]
    simp only []
    rw [hf1, Res.ok_bind, i4, List.append_assoc]
    unfold answer
    rw [lookup_append_right i5]
    obtain ⟨A', B', hA', hB', hs⟩ := leaf_splits j4 hf2
    rcases hs with ⟨v, e1, e2⟩ | ⟨e1, e2⟩
    · rw [e2]
      simp only []
      rw [leafNode_spec j3 j4 (i := A'.length) (kv := (key, v)) (by rw [e1]; simp), Res.ok_bind, e1, List.append_assoc,
        lookup_append_right hA', List.cons_append, List.lookup_cons, beq_self_eq_true]
    · rw [e2]
      simp only []
      rw [e1, List.append_assoc, lookup_append_right hA', lookup_gt]
      intro b hb
      rcases List.mem_append.1 hb with hb | hb
      · exact hB' b hb
      · exact i6 b hb

/-- What a successful `del` leaves: everything but one pair. -/
theorem del_spec {env : Env} {t : Txn} {h : Nat} {l : List (Bytes × Bytes)} (hw : t.rdonly = false)
    (hh : Holds env t h l) {key : Bytes} (hk : key.length < 65536) (hd : h < maxDepth) :
    (l.lookup key = none ∧ del env t key = .ok (.notfound, t)) ∨
    ∃ A v B t', l = A ++ (key, v) :: B ∧ (∀ a ∈ A, a.1 < key) ∧ (∀ b ∈ B, key < b.1) ∧
      del env t key = .ok (.success, t') ∧ Holds env t' h (A ++ B) ∧
      t'.rdonly = false ∧ t'.root = t.root ∧ t'.freeRoot = t.freeRoot ∧ t'.newLast = t.newLast ∧ t'.txnid = t.txnid ∧
      (∀ x, x ∉ pagesOf (getPage env t) h t.root → getPage env t' x = getPage env t x) ∧
      pagesOf (getPage env t') h t'.root = pagesOf (getPage env t) h t.root ∧
      ∀ F, Keeps (pagesOf (getPage env t) h t.root) F t t' := by
  rcases hh with ⟨h0, rfl⟩ | ⟨h0, ht, rfl⟩
  · exact .inl ⟨rfl, by unfold del; simp [hw, h0]⟩
  · obtain ⟨path, h1, h3⟩ := findPath_spec hk h ht.wft hd (by
      intro x hx; unfold maxPgno; simpa [hw] using (ht.bound x hx).2)
    obtain ⟨lo', hi', p, A, B, i1, i2, i3, i4, i5, i6, i7⟩ := leaf_focus h ht.wft h1 (inRange_none key)
    obtain ⟨q, j1, j2, j3, j4, j5, j6⟩ := i2
    rw [i1] at j1; cases j1
    obtain ⟨f, hf1, hf2⟩ := probe_spec j3 j5 hk
    obtain ⟨A', B', hA', hB', hs⟩ := leaf_splits j4 hf2
    have hdel : del env t key = (getPage env t (path.getLastD 0) >>= fun leaf => probe leaf key >>= fun f =>
      if f.hit then (do
        let c ← cowPath env t path.reverse
        let t := c.2
        match t.getDirty (path.getLastD 0) with
        | none => .ok (.general, t)
        | some p => do
          let d ← delete p f.idx
          .ok (ofSt d.1, t.setDirty (path.getLastD 0) d.2))
      else .ok (.notfound, t)) := by
      unfold del; rw [if_neg (by simp [hw]), if_neg h0, h3, Res.ok_bind]; rfl
    rw [hdel, i1, Res.ok_bind, hf1, Res.ok_bind]
    rcases hs with ⟨v, e1, e2⟩ | ⟨e1, e2⟩
    · right
      have hne : path ≠ [] := by
        obtain ⟨rest, hr, -⟩ := isPath_cons h1; rw [hr]; simp
      obtain ⟨t1, c1, c2, c3, c4⟩ := cowPath_spec (env := env) hw hne (by
        intro n hn
        exact wft_pages h ht.wft n (isPath_mem h1 n hn))
      obtain ⟨p', hp'⟩ := c3 _ (getLastD_mem hne)
      have hw1 : t1.rdonly = false := by rw [c2.rdonly, hw]
      have : getPage env t1 (path.getLastD 0) = .ok p' := getPage_dirty hw1 hp'
      rw [c2.view, i1] at this; cases this
      have hlen : A'.length < numKeys p := by rw [← kvs_length, e1]; simp
      obtain ⟨q, d1, d2, d3, d4, d5, -⟩ := delete_removes_exactly_one j3 hlen
      have hkq : kvs q = A' ++ B' := by
        unfold kvs
        rw [d3, map_eraseIdx', show (items p).map (fun it => (it.key, it.val)) = kvs p from rfl, e1,
          List.eraseIdx_append_of_length_le (Nat.le_refl _)]
        simp
      have hwq : WFT (getPage env (t1.setDirty (path.getLastD 0) q)) 0 lo' hi' (path.getLastD 0) := by
        refine ⟨q, by rw [getPage_set hw1, if_pos rfl], d4.trans j2, d2, by rw [isLeaf_congr d5, j4], ?_, ?_⟩
        · rw [keys_eq_kvs, e1, List.map_append, List.map_cons, sorted_append, sorted_cons] at j5
          rw [keys_eq_kvs, hkq, List.map_append, sorted_append]
          exact ⟨j5.1, j5.2.1.2, fun x hx y hy => j5.2.2 x hx y (List.mem_cons_of_mem _ hy)⟩
        · intro k hkk
          apply j6
          rw [keys_eq_kvs, hkq] at hkk
          rw [keys_eq_kvs, e1]
          simp only [List.map_append, List.map_cons, List.mem_append, List.mem_cons] at hkk ⊢
          rcases hkk with x | x
          · exact .inl x
          · exact .inr (.inr x)
      have hag : ∀ x ∈ pagesOf (getPage env t) h t.root, x ≠ path.getLastD 0 →
          getPage env (t1.setDirty (path.getLastD 0) q) x = getPage env t x := by
        intro x _ hx; rw [getPage_set hw1, if_neg hx, c2.view]
      obtain ⟨w1, w2, w3⟩ := i7 (getPage env (t1.setDirty (path.getLastD 0) q)) ht.nodup hag q
        (by rw [getPage_set hw1, if_pos rfl]) hwq
      refine ⟨A ++ A', v, B' ++ B, t1.setDirty (path.getLastD 0) q, ?_, ?_, ?_, ?_, ?_, hw1, c2.root, c2.freeRoot, c2.newLast, c2.txnid, ?_, ?_, ?_⟩
      · rw [i4, e1]; simp
      · intro a ha
        rcases List.mem_append.1 ha with ha | ha
        · exact i5 a ha
        · exact hA' a ha
      · intro a ha
        rcases List.mem_append.1 ha with ha | ha
        · exact hB' a ha
        · exact i6 a ha
      · rw [e2]
        simp only [Found.hit, if_true, Found.idx]
        rw [c1, Res.ok_bind]
        simp only [hp']
        rw [d1]; rfl
      · right
        refine ⟨by show t1.root ≠ 0; rw [c2.root]; exact h0, ⟨?_, ?_, ?_⟩, ?_⟩
        · show WFT _ h none none t1.root; rw [c2.root]; exact w1
        · show (pagesOf _ h t1.root).Nodup; rw [c2.root, w3]; exact ht.nodup
        · show ∀ n ∈ pagesOf _ h t1.root, 0 < n ∧ n ≤ t1.newLast
          rw [c2.root, w3, c2.newLast]; exact ht.bound
        · show contents _ h t1.root = _
          rw [c2.root, w2, hkq]; simp
      · intro x hx
        rw [getPage_set hw1, if_neg, c2.view]
        rintro rfl
        exact hx (isPath_mem h1 _ (getLastD_mem hne))
      · show pagesOf _ h t1.root = _
        rw [c2.root, w3]
      · intro F I e1 e2 e3 e4
        have hl := e3 _ (isPath_mem h1 _ (getLastD_mem hne))
        exact e1 _ _ _ (c4 F I e1 (fun t x hx => e2 t x (isPath_mem h1 x hx)) (fun x hx => e3 x (isPath_mem h1 x hx)) e4) hl.1 (d4.trans j2) d2 (by rw [c2.newLast]; exact hl.2)
    · left
      rw [e2]
      refine ⟨?_, rfl⟩
      rw [i4, List.append_assoc, lookup_append_right i5, e1, List.append_assoc, lookup_append_right hA', lookup_gt]
      intro b hb
      rcases List.mem_append.1 hb with hb | hb
      · exact hB' b hb
      · exact i6 b hb

end Verif.Db
