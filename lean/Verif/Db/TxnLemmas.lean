import Verif.Db.TxnSpec
import Verif.Db.CursorProps

/-!
# Helper lemmas: allocation while the Free DB gives nothing back, steps of a write transaction
-/

namespace Verif.Db

open Verif.Page

/-! ## Write transactions that leave the pages `F` alone -/

/-- A write transaction with id `id` and Free DB root `fr` whose dirty pages are well formed and
carry their own numbers, none of them in `F`. -/
structure Clean (id fr : Nat) (F : List Nat) (t : Txn) : Prop where
  rdonly : t.rdonly = false
  txnid : t.txnid = id
  free : t.freeRoot = fr
  dirty : ∀ n p, t.getDirty n = some p → n ∉ F ∧ pgno p = n ∧ WF p ∧ n ≤ t.newLast
  nodup : (t.dirty.map Prod.fst).Nodup
  last : ∀ x ∈ F, x ≤ t.newLast

theorem Clean.set {id fr : Nat} {F : List Nat} {t : Txn} (h : Clean id fr F t) {n : Nat} {p : Page} (hn : n ∉ F) (hp : pgno p = n)
    (hwf : WF p) (hl : n ≤ t.newLast) : Clean id fr F (t.setDirty n p) where
  rdonly := h.rdonly
  txnid := h.txnid
  free := h.free
  dirty := by
    intro m q hm
    rw [getDirty_set] at hm
    by_cases e : m = n
    · rw [if_pos e] at hm; cases hm; subst e; exact ⟨hn, hp, hwf, hl⟩
    · rw [if_neg e] at hm; exact h.dirty m q hm
  nodup := by
    unfold Txn.setDirty
    simp only [List.map_cons, List.nodup_cons]
    refine ⟨?_, h.nodup.sublist (List.filter_sublist.map _)⟩
    intro hm
    obtain ⟨e, he, rfl⟩ := List.mem_map.1 hm
    simp at he
  last := h.last

theorem Clean.grow {id fr : Nat} {F : List Nat} {t : Txn} (h : Clean id fr F t) : Clean id fr F (extend t).2 where
  rdonly := h.rdonly
  txnid := h.txnid
  free := h.free
  dirty := fun m q hm => by
    obtain ⟨a, b, c, d⟩ := h.dirty m q hm
    exact ⟨a, b, c, Nat.le_succ_of_le d⟩
  nodup := h.nodup
  last := fun x hx => Nat.le_succ_of_le (h.last x hx)

theorem Clean.root {id fr : Nat} {F : List Nat} {t : Txn} (h : Clean id fr F t) (r : Nat) : Clean id fr F { t with root := r } :=
  ⟨h.rdonly, h.txnid, h.free, h.dirty, h.nodup, h.last⟩

theorem Clean.freed {id fr : Nat} {F : List Nat} {t : Txn} (h : Clean id fr F t) (f : List Nat) : Clean id fr F { t with freed := f } :=
  ⟨h.rdonly, h.txnid, h.free, h.dirty, h.nodup, h.last⟩

theorem Clean.mono {id fr : Nat} {F F' : List Nat} {t : Txn} (h : Clean id fr F t) (hs : ∀ x ∈ F', x ∈ F) : Clean id fr F' t :=
  ⟨h.rdonly, h.txnid, h.free, fun n p hn => by
    obtain ⟨a, b⟩ := h.dirty n p hn
    exact ⟨fun hx => a (hs n hx), b⟩, h.nodup, fun x hx => h.last x (hs x hx)⟩

/-- The pages `F` are seen as they are in the file. -/
theorem Clean.view {id fr : Nat} {F : List Nat} {t : Txn} (h : Clean id fr F t) (env : Env) {x : Nat} (hx : x ∈ F) :
    getPage env t x = mapPage env x := by
  unfold getPage
  rw [h.rdonly]
  simp only [Bool.false_eq_true, if_false]
  cases hd : t.getDirty x with
  | none => rfl
  | some p => exact absurd hx (h.dirty x p hd).1

theorem setDirty_ne (t : Txn) (n : Nat) (p : Page) : (t.setDirty n p).dirty ≠ [] := by simp [Txn.setDirty]

/-- A transaction that has not changed anything still has the root `r` it began with. -/
def Idle (r : Nat) (t : Txn) : Prop := t.dirty = [] → t.root = r

theorem ext_clean {al : Alloc} {id fr r : Nat} {F : List Nat} (hal : ∀ t, Clean id fr F t → al t = .ok (extend t)) :
    Ext al F (fun t => Clean id fr F t ∧ Idle r t) where
  ext := fun t h => hal t h.1
  set := fun _ _ _ h hn hp hwf hl => ⟨h.1.set hn hp hwf hl, fun e => absurd e (setDirty_ne _ _ _)⟩
  grow := fun _ h => ⟨h.1.grow, h.2⟩
  last := fun _ h => h.1.last
  freed := fun _ f h => ⟨h.1.freed f, h.2⟩
  root := fun _ r h hd => ⟨h.1.root r, fun e => absurd e hd⟩

/-! ## When allocation extends the file -/

/-- The Free DB as found in the file gives no page back: there is none, or none of its entries
is older than the oldest reader (or this transaction, if there is no reader).  `F` contains
its pages. -/
inductive Quiet (env : Env) (id fr : Nat) (F : List Nat) (fuel : Nat) : Prop where
  | none (h : fr = 0)
  | pinned (hf : Nat) (h0 : fr ≠ 0) (wft : WFT (mapPage env) hf Option.none Option.none fr) (full : Full (mapPage env) hf fr) (depth : hf < maxDepth)
      (fuel1 : hf < fuel) (fuel2 : (contents (mapPage env) hf fr).length < fuel)
      (pages : ∀ x ∈ pagesOf (mapPage env) hf fr, x ∈ F)
      (young : ∀ kv ∈ contents (mapPage env) hf fr,
        reclaimable (if oldestReader env.readers = 0 then id else oldestReader env.readers) kv = false)

theorem findEntry_none {env : Env} {t : Txn} {H fuel o : Nat} (hH : H < maxDepth) (hf : H < fuel) (B : List (Bytes × Bytes)) :
    ∀ {n : Nat} {st : List (Page × Nat)} {A : List (Bytes × Bytes)} {kv : Bytes × Bytes}, At (getPage env t) True H t.root st A kv B →
    (∀ e ∈ kv :: B, reclaimable o e = false) → B.length + 1 < n → findEntry env t fuel o n (⟨st, false⟩, .ok kv) = .ok none := by
  induction B with
  | nil =>
    intro n st A kv hat hy hn
    obtain ⟨n, rfl⟩ : ∃ m, n = m + 2 := ⟨n - 2, by simp at hn; omega⟩
    have := (next_spec hH hf hat).1 rfl
    rw [findEntry]
    simp only [hy kv List.mem_cons_self, Bool.false_eq_true, if_false]
    rw [cursorGet_fail (op := .next) this (by decide), Res.ok_bind, findEntry]
  | cons b B ih =>
    intro n st A kv hat hy hn
    obtain ⟨n, rfl⟩ : ∃ m, n = m + 1 := ⟨n - 1, by omega⟩
    obtain ⟨st', e1, e2⟩ := (next_spec hH hf hat).2 b B rfl
    rw [findEntry]
    simp only [hy kv List.mem_cons_self, Bool.false_eq_true, if_false]
    rw [cursorGet_move (op := .next) e1 e2, Res.ok_bind]
    exact ih e2 (fun e he => hy e (List.mem_cons_of_mem _ he)) (by simp at hn; omega)

/-- The hypothesis "the allocator extends" of the tree lemmas, for the allocator of the library. -/
theorem alloc_quiet {env : Env} {id fr : Nat} {F : List Nat} {fuel : Nat} (hq : Quiet env id fr F fuel) {t : Txn} (hc : Clean id fr F t) :
    alloc env (fuel + 2) t = .ok (extend t) := by
  rw [alloc]
  have : reclaim (alloc env (fuel + 1)) env (fuel + 1) t = .ok (none, t) := by
    unfold reclaim
    cases hq with
    | none h => rw [if_pos (hc.free.trans h)]
    | pinned hf h0 wft full depth fuel1 fuel2 pages young =>
      rw [if_neg (by rw [hc.free]; exact h0)]
      have hv : ∀ x ∈ pagesOf (mapPage env) hf fr, getPage env { t with root := t.freeRoot } x = mapPage env x :=
        fun x hx => (hc.root t.freeRoot).view env (pages x hx)
      obtain ⟨f1, f2, f3⟩ := frame (g' := getPage env { t with root := t.freeRoot }) hf hv
      have hfull := full_frame (g' := getPage env { t with root := t.freeRoot }) hf hv full
      have hr : ({ t with root := t.freeRoot } : Txn).root = fr := hc.free
      obtain ⟨st, kv, B, a1, a2⟩ := seek_first (t := { t with root := t.freeRoot }) (H := hf) (fuel := fuel + 1) depth (by omega) (by rw [hr]; exact h0)
        (by rw [hr]; exact (shape_of_wft hf (f3 _ _ wft)).2 hfull)
      have hcon := at_contents a2
      rw [hr, f1] at hcon
      simp only []
      rw [cursorGet_seek a1 a2, Res.ok_bind]
      rw [findEntry_none (H := hf) depth (by omega) B a2 (by rw [hcon] at young; rw [hc.txnid]; exact young) (by rw [hcon] at fuel2; simp at fuel2; omega)]
      rfl
  rw [this]
  rfl

theorem extender_ok {id fr : Nat} {F : List Nat} : ∀ t, Clean id fr F t → (fun t => Res.ok (extend t) : Alloc) t = .ok (extend t) :=
  fun _ _ => rfl

/-! ## Insertions that need no page -/

/-- The leaf the key leads to has room for `size` bytes and a slot. -/
def Fits (g : View) (key : Bytes) (size : Nat) : Nat → Nat → Prop
  | 0, n => ∀ p, g n = .ok p → size + 2 ≤ room p
  | h + 1, n => ∀ p A k c B, g n = .ok p → Routes p key A k c B → Fits g key size h c

theorem fits_path {g : View} {key : Bytes} {size : Nat} (h : Nat) : ∀ {n : Nat} {path : List Nat}, Fits g key size h n →
    IsPath g key h n path → ∀ p, g (path.getLastD 0) = .ok p → size + 2 ≤ room p := by
  induction h with
  | zero =>
    intro n path hf hp p hg
    rw [show path = [n] from hp] at hg
    exact hf p hg
  | succ h ih =>
    intro n path hf hp p hg
    obtain ⟨q, A, k, c, B, path', h1, h2, h3, rfl⟩ := hp
    have := ih (hf q A k c B h1 h2) h3 p
    apply this
    rwa [getLastD_cons (by intro e; subst e; cases h <;> simp [IsPath] at h3)] at hg

theorem insert_fits {env : Env} {t : Txn} {r h : Nat} {key val : Bytes} (hk : key.length < 65536) (hsz : 4 + key.length + val.length < 65536)
    (hr : t.rdonly = false) (hw : WFT (getPage env t) h none none r) (hb : ∀ x ∈ pagesOf (getPage env t) h r, x ≤ t.newLast)
    (hkey : key ∉ (contents (getPage env t) h r).map Prod.fst) (hd : h < maxDepth)
    (hfit : Fits (getPage env t) key (4 + key.length + val.length) h r) :
    ∃ path t1 p f q, findPath env t key maxDepth r = .ok (.ok path) ∧ path.headD 0 = r ∧ IsPath (getPage env t) key h r path ∧
      getPage env t (path.getLastD 0) = .ok p ∧
      probe p key = .ok f ∧ f.hit = false ∧ cowPath env t path.reverse = .ok (path.getLastD 0, t1) ∧
      t1.getDirty (path.getLastD 0) = some p ∧ insert p f.idx (.leaf key val) = .ok (.ok, q) ∧ pgno q = path.getLastD 0 ∧
      Same env t t1 ∧ (∀ F, Keeps path F t t1) ∧ WF q ∧
      (∀ x, getPage env (t1.setDirty (path.getLastD 0) q) x = if x = path.getLastD 0 then .ok q else getPage env t x) ∧
      ((pagesOf (getPage env t) h r).Nodup → WFT (getPage env (t1.setDirty (path.getLastD 0) q)) h none none r ∧
        pagesOf (getPage env (t1.setDirty (path.getLastD 0) q)) h r = pagesOf (getPage env t) h r ∧
        (∃ X Y, contents (getPage env t) h r = X ++ Y ∧
          contents (getPage env (t1.setDirty (path.getLastD 0) q)) h r = X ++ (key, val) :: Y) ∧
        (Full (getPage env t) h r → Full (getPage env (t1.setDirty (path.getLastD 0) q)) h r)) := by
  obtain ⟨path, p1, p2⟩ := findPath_spec hk h hw hd (by
    intro x hx; unfold maxPgno; simpa [hr] using hb x hx)
  obtain ⟨lo', hi', p, A, B, i1, i2, i3, i4, i5, i6, i7⟩ := leaf_focus h hw p1 (inRange_none key)
  obtain ⟨q, j1, j2, j3, j4, j5, j6⟩ := i2
  rw [i1] at j1; cases j1
  obtain ⟨rest, hrest, -⟩ := isPath_cons p1
  have hne : path ≠ [] := by rw [hrest]; simp
  have hkp : key ∉ keys p := by
    intro hm; apply hkey; rw [i4, List.map_append, List.map_append, ← keys_eq_kvs]
    exact List.mem_append_left _ (List.mem_append_right _ hm)
  obtain ⟨f, hf, A', B', hA, hB, hsp⟩ := probe_spec j3 j5 hk
  have hsp' : items p = A' ++ B' ∧ f = .notFound A'.length := by
    rcases hsp with ⟨it, e1, e2, -⟩ | hx
    · exfalso; apply hkp; unfold keys; rw [e1]; simp [e2]
    · exact hx
  obtain ⟨hit, rfl⟩ := hsp'
  obtain ⟨t1, c1, c2, c3, c4⟩ := cowPath_spec (env := env) hr hne (by
    intro n hn
    exact wft_pages h hw n (isPath_mem p1 n hn))
  have hr1 : t1.rdonly = false := by rw [c2.rdonly, hr]
  have hd1 : t1.getDirty (path.getLastD 0) = some p := by
    obtain ⟨p', hp'⟩ := c3 _ (getLastD_mem hne)
    have : getPage env t1 (path.getLastD 0) = .ok p' := getPage_dirty hr1 hp'
    rw [c2.view, i1] at this; cases this; exact hp'
  have hroom := fits_path h hfit p1 p i1
  rcases insert_at j3 (show (items p) = A' ++ B' from hit) (it := .leaf key val) (by rw [j4]; rfl) (by simpa [Item.size] using hsz)
    (by simp [Item.child]) with ⟨e1, -⟩ | ⟨e1, q, e2, b3, b4, b5, b6, b7⟩
  · simp only [Item.size] at e1; omega
  · have hv3 : ∀ x, getPage env (t1.setDirty (path.getLastD 0) q) x = if x = path.getLastD 0 then .ok q else getPage env t x := by
      intro x
      rw [getPage_set hr1, c2.view]
    refine ⟨path, t1, p, _, q, p2, by rw [hrest]; rfl, p1, i1, hf, rfl, c1, hd1, e2, b5.trans j2, c2, c4, b3, hv3, fun hnd => ?_⟩
    have hq3 : getPage env (t1.setDirty (path.getLastD 0) q) (path.getLastD 0) = .ok q := by rw [hv3, if_pos rfl]
    have hkv : kvs q = A'.map (fun i => (i.key, i.val)) ++ (key, val) :: B'.map (fun i => (i.key, i.val)) := by
      unfold kvs; rw [b4]; simp [Item.key, Item.val]
    have hkvp : kvs p = A'.map (fun i => (i.key, i.val)) ++ B'.map (fun i => (i.key, i.val)) := by
      unfold kvs; rw [hit]; simp
    have hwq : WFT (getPage env (t1.setDirty (path.getLastD 0) q)) 0 lo' hi' (path.getLastD 0) := by
      refine ⟨q, hq3, b5.trans j2, b3, by rw [b6, j4], ?_, ?_⟩
      · unfold keys; rw [b4]; exact sorted_mid j5 hit (it := .leaf key val) hA hB
      · intro k hk
        unfold keys at hk
        rw [b4, List.map_append, List.map_cons] at hk
        rcases List.mem_append.1 hk with hm | hm
        · apply j6; unfold keys; rw [hit, List.map_append]; exact List.mem_append_left _ hm
        · rcases List.mem_cons.1 hm with rfl | hm
          · exact i3
          · apply j6; unfold keys; rw [hit, List.map_append]; exact List.mem_append_right _ hm
    obtain ⟨w1, w2, w3⟩ := i7 _ hnd (fun x _ hx => by rw [hv3, if_neg hx]) q hq3 hwq
    refine ⟨w1, w3, ⟨A ++ A'.map (fun i => (i.key, i.val)), B'.map (fun i => (i.key, i.val)) ++ B, ?_, ?_⟩, fun hf => ?_⟩
    · rw [i4, hkvp]; simp
    · rw [w2, hkv]; simp
    · refine full_leaf h p1 hnd (fun x _ hx => by rw [hv3, if_neg hx]) ?_ hf
      intro q' hq'
      rw [hq3] at hq'; cases hq'
      rw [b4]; simp

theorem putWith_fits {al : Alloc} {env : Env} {t t1 : Txn} {path : List Nat} {p q : Page} {f : Found} {key val : Bytes} (hr : t.rdonly = false)
    (h0 : t.root ≠ 0) (hp : findPath env t key maxDepth t.root = .ok (.ok path)) (hg : getPage env t (path.getLastD 0) = .ok p)
    (hf : probe p key = .ok f) (hh : f.hit = false) (hc : cowPath env t path.reverse = .ok (path.getLastD 0, t1))
    (hd : t1.getDirty (path.getLastD 0) = some p) (hi : insert p f.idx (.leaf key val) = .ok (.ok, q)) :
    putWith al env t key val = .ok (.success, t1.setDirty (path.getLastD 0) q) := by
  unfold putWith
  rw [if_neg (by simp [hr]), if_neg h0, hp, Res.ok_bind]
  simp only [hg, Res.ok_bind, hf, hh, Bool.false_and, Bool.false_eq_true, if_false, hc, hd, Res.ofOption_some, if_true, hi]
  rw [setDirty_twice]

theorem insertFree_fits {al : Alloc} {env : Env} {t t1 : Txn} {path : List Nat} {p q : Page} {f : Found} {key val : Bytes}
    (hp : findPath env t key maxDepth t.freeRoot = .ok (.ok path)) (hg : getPage env t (path.getLastD 0) = .ok p)
    (hf : probe p key = .ok f) (hh : f.hit = false) (hc : cowPath env t path.reverse = .ok (path.getLastD 0, t1))
    (hd : t1.getDirty (path.getLastD 0) = some p) (hi : insert p f.idx (.leaf key val) = .ok (.ok, q)) :
    insertFree al env t key val = .ok (t1.setDirty (path.getLastD 0) q, .ok (path.headD 0)) := by
  unfold insertFree
  rw [hp, Res.ok_bind]
  simp only [hg, Res.ok_bind, hf, hh, Bool.false_eq_true, if_false, hc, hd, Res.ofOption_some, hi]

theorem fits_safe {g : View} {key : Bytes} {size : Nat} (h : Nat) : ∀ {n : Nat}, Fits g key size h n → SplitSafe g key size h n := by
  have no : ∀ h n d, Fits g key size h n → ¬ Overflows g key size h n d := by
    intro h
    induction h with
    | zero =>
      rintro n d hf ⟨p, h1, h2, -⟩
      have := hf p h1; omega
    | succ h ih =>
      rintro n d hf ⟨p, A, k, c, B, d', h1, h2, h3, -⟩
      exact ih c d' (hf p A k c B h1 h2) h3
  induction h with
  | zero => intro n hf p hp hr; have := hf p hp; omega
  | succ h ih =>
    intro n hf p A k c B hp hr
    exact ⟨ih (hf p A k c B hp hr), fun d hd => absurd hd (no h c d (hf p A k c B hp hr))⟩

/-! ## Steps of a write transaction -/

/-- A write transaction that keeps to itself: it holds the map `m`, and neither its dirty pages
nor its tree meet the pages `F`; as long as there are no dirty pages the root is `r`. -/
structure Writing (env : Env) (id fr r : Nat) (F : List Nat) (t : Txn) (h : Nat) (m : KvMap) : Prop where
  clean : Clean id fr F t
  idle : Idle r t
  map : IsMap env t h m
  apart : t.root ≠ 0 → ∀ x ∈ pagesOf (getPage env t) h t.root, x ∉ F

/-- The insertion (after the deletion of a stored value) fits into the leaf. -/
structure PutFits (env : Env) (t : Txn) (h : Nat) (m : KvMap) (key val : Bytes) : Prop where
  root : t.root ≠ 0
  fresh : m key = none → Fits (getPage env t) key (4 + key.length + val.length) h t.root
  stored : m key ≠ none → ∀ t1, del env t key = .ok (.success, t1) →
    Fits (getPage env t1) key (4 + key.length + val.length) h t1.root

theorem put_alloc_irrelevant {al al' : Alloc} {env : Env} {t : Txn} {h : Nat} {m : KvMap} {key val : Bytes}
    (hw : t.rdonly = false) (hm : IsMap env t h m) (hs : PutSafe env t h m key val) (hf : PutFits env t h m key val) :
    putWith al env t key val = putWith al' env t key val := by
  obtain ⟨l, hl, hlm⟩ := hm
  have hk : key.length < 65536 := by have := hs.size; omega
  have base : ∀ {t : Txn} {l : List (Bytes × Bytes)}, t.rdonly = false → Holds env t h l → key ∉ l.map Prod.fst → t.root ≠ 0 →
      Fits (getPage env t) key (4 + key.length + val.length) h t.root → putWith al env t key val = putWith al' env t key val := by
    intro t l hr hl hn h0 hf
    rcases hl with ⟨hx, -⟩ | ⟨-, ht, rfl⟩
    · exact absurd hx h0
    · obtain ⟨path, t1, p, f, q, a1, -, -, a2, a3, a4, a5, a6, a7, -⟩ := insert_fits hk hs.size hr ht.wft (fun x hx => (ht.bound x hx).2) hn hs.depth hf
      rw [putWith_fits hr h0 a1 a2 a3 a4 a5 a6 a7, putWith_fits hr h0 a1 a2 a3 a4 a5 a6 a7]
  by_cases hkm : m key = none
  · exact base hw hl (lookup_none_iff.1 ((hlm key).trans hkm)) hf.root (hf.fresh hkm)
  · have hkl : key ∈ l.map Prod.fst := by
      apply Classical.byContradiction; intro hn
      exact hkm ((hlm key).symm.trans (lookup_none_iff.2 hn))
    obtain ⟨t1, d1, d2⟩ := put_replace (al := al) (val := val) hk hw hl hkl hs.depth (hs.stored hkm).1
    obtain ⟨t1', d1', d2'⟩ := put_replace (al := al') (val := val) hk hw hl hkl hs.depth (hs.stored hkm).1
    rw [d1] at d1'; cases d1'
    rcases del_spec hw hl hk hs.depth with ⟨hn, -⟩ | ⟨A, v, B, t1', a1, a2, a3, a4, a5, a6, a7, -⟩
    · exact absurd ((hlm key).symm.trans hn) hkm
    · rw [d1] at a4; cases a4
      rw [d2, d2']
      refine base a6 a5 ?_ ?_ (hf.stored hkm t1 d1)
      · rw [List.map_append, List.mem_append]
        rintro (hm | hm)
        · obtain ⟨a, ha, e⟩ := List.mem_map.1 hm; exact blt_irrefl _ (e ▸ a2 a ha)
        · obtain ⟨a, ha, e⟩ := List.mem_map.1 hm; exact blt_irrefl _ (e ▸ a3 a ha)
      · rw [a7]; exact hf.root

theorem put_writing {env : Env} {id fr r : Nat} {F : List Nat} {t : Txn} {h : Nat} {m : KvMap} {key val : Bytes} {fuel : Nat}
    (hW : Writing env id fr r F t h m) (hs : PutSafe env t h m key val)
    (hq : Quiet env id fr F fuel ∨ PutFits env t h m key val) :
    ∃ st t', put env (fuel + 2) t key val = .ok (st, t') ∧ (st = .success ∨ st = .nospc) ∧
      (st = .success → ∃ h', h' ≤ h + 1 ∧ Writing env id fr r F t' h' (m.put key val) ∧ t.newLast ≤ t'.newLast ∧ t'.newLast ≤ t.newLast + h + 2 ∧
        (∀ x ∈ treePages (getPage env t) h t.root, x ∈ treePages (getPage env t') h' t'.root) ∧
        ∀ x ∈ t'.freed, x ∈ t.freed ∨ x ∈ treePages (getPage env t) h t.root) := by
  have main : ∀ al : Alloc, (∀ t, Clean id fr F t → al t = .ok (extend t)) →
      ∃ st t', putWith al env t key val = .ok (st, t') ∧ (st = .success ∨ st = .nospc) ∧
      (st = .success → ∃ h', h' ≤ h + 1 ∧ Writing env id fr r F t' h' (m.put key val) ∧ t.newLast ≤ t'.newLast ∧ t'.newLast ≤ t.newLast + h + 2 ∧
        (∀ x ∈ treePages (getPage env t) h t.root, x ∈ treePages (getPage env t') h' t'.root) ∧
        ∀ x ∈ t'.freed, x ∈ t.freed ∨ x ∈ treePages (getPage env t) h t.root) := by
    intro al hal
    obtain ⟨st, t', h1, h2, h3⟩ := put_step (ext_clean hal) ⟨hW.clean, hW.idle⟩ hW.clean.rdonly hW.map hs hW.apart
    refine ⟨st, t', h1, h2, fun hst => ?_⟩
    obtain ⟨a1, a2, a3, h', a4, a5, a6, a7, a8, a9, a10, a11⟩ := h3 hst
    refine ⟨h', a4, ⟨a2.1, a2.2, a5, fun _ => a8⟩, a6, a7, fun x hx => ?_, fun x hx => ?_⟩
    · unfold treePages at hx ⊢
      rw [if_neg a9]
      by_cases h0 : t.root = 0
      · rw [if_pos h0] at hx; cases hx
      · rw [if_neg h0] at hx; exact a10 h0 x hx
    · refine (a11 x hx).imp (fun h => h) fun hx => ?_
      unfold treePages
      rw [if_neg hx.1]; exact hx.2
  rcases hq with hq | hf
  · exact main _ fun t ht => alloc_quiet hq ht
  · unfold put
    rw [put_alloc_irrelevant (al' := fun t => .ok (extend t)) hW.clean.rdonly hW.map hs hf]
    exact main _ extender_ok

theorem del_writing {env : Env} {id fr r : Nat} {F : List Nat} {t : Txn} {h : Nat} {m : KvMap} {key : Bytes}
    (hW : Writing env id fr r F t h m) (hk : key.length < 65536) (hd : h < maxDepth) :
    (m key = none → del env t key = .ok (.notfound, t)) ∧
    (m key ≠ none → ∃ t', del env t key = .ok (.success, t') ∧ Writing env id fr r F t' h (m.del key) ∧ t'.newLast = t.newLast ∧
      treePages (getPage env t') h t'.root = treePages (getPage env t) h t.root ∧
      ∀ x ∈ t'.freed, x ∈ t.freed ∨ x ∈ treePages (getPage env t) h t.root) := by
  obtain ⟨d1, d2⟩ := del_refines_partial hW.clean.rdonly hW.map hk hd
  refine ⟨d1, fun hx => ?_⟩
  obtain ⟨t', e, e1, e2, -, -, e3⟩ := d2 hx
  refine ⟨t', e, ?_⟩
  obtain ⟨l, hl, hlm⟩ := hW.map
  rcases del_spec hW.clean.rdonly hl hk hd with ⟨hn, -⟩ | ⟨A, v, B, t1', a1, a2, a3, a4, a5, a6, a7, a8, a9, a10, -, a11, a12⟩
  · exact absurd ((hlm key).symm.trans hn) hx
  · rw [e] at a4; cases a4
    have h0 : t.root ≠ 0 := by
      intro h0
      rcases hl with ⟨-, rfl⟩ | ⟨hne, -⟩
      · cases A <;> cases a1
      · exact hne h0
    have hI : Clean id fr F t' ∧ Idle r t' := a12 F (fun t => Clean id fr F t ∧ Idle r t)
      (fun _ _ _ h hn hp hwf hl => ⟨h.1.set hn hp hwf hl, fun e => absurd e (setDirty_ne _ _ _)⟩) (fun t x _ h => ⟨h.1.freed (t.freed ++ [x]), h.2⟩) (fun x hx => ⟨hW.apart h0 x hx, by
      rcases hl with ⟨hx, -⟩ | ⟨-, ht, -⟩
      · exact absurd hx h0
      · exact (ht.bound x hx).2⟩) ⟨hW.clean, hW.idle⟩
    refine ⟨⟨hI.1, hI.2, e3, fun _ => by rw [a11]; exact hW.apart h0⟩, a9, ?_, ?_⟩
    · have h0' : t'.root ≠ 0 := by rw [a7]; exact h0
      unfold treePages; rw [if_neg h0, if_neg h0', a11]
    · refine a12 [] (fun t1 => ∀ x ∈ t1.freed, x ∈ t.freed ∨ x ∈ treePages (getPage env t) h t.root)
        (fun t1 n p h _ _ _ _ => h) (fun t1 n hn h x hx => ?_) (fun x hx => ⟨by simp, ?_⟩) (fun x hx => .inl hx)
      · rcases List.mem_append.1 hx with hx | hx
        · exact h x hx
        · simp only [List.mem_singleton] at hx; subst hx
          right; unfold treePages; rw [if_neg h0]; exact hn
      · rcases hl with ⟨hx, -⟩ | ⟨-, ht, -⟩
        · exact absurd hx h0
        · exact (ht.bound x hx).2

end Verif.Db
