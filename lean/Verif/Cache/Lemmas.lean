import Verif.Cache.Model
import Verif.Db.TxnProps
import Verif.Db.CursorProps
import Verif.Db.Inv

/-!
# Helper lemmas: what a deletion touches, and a cursor over a tree that is being emptied
-/

namespace Verif.Cache

open Verif.Page Verif.Db

theorem item_key_lt {p : Page} {it : Item} (h : it ∈ items p) : it.key.length < 65536 := by
  unfold items at h
  obtain ⟨i, -, rfl⟩ := List.mem_map.1 h
  have key : ∀ o n, (slice p o n).length = n := by intro o n; simp [slice]
  unfold itemAt
  split
  · show (slice _ _ _).length < _
    rw [key]; exact u16_lt _ _
  · show (slice _ _ _).length < _
    rw [key]; exact u16_lt _ _

theorem contents_key_lt {g : View} (h : Nat) : ∀ {n : Nat} {kv : Bytes × Bytes}, kv ∈ contents g h n → kv.1.length < 65536 := by
  induction h with
  | zero =>
    intro n kv hk
    unfold contents at hk
    split at hk
    · unfold kvs at hk
      obtain ⟨it, h1, rfl⟩ := List.mem_map.1 hk
      exact item_key_lt h1
    · cases hk
  | succ h ih =>
    intro n kv hk
    unfold contents at hk
    split at hk
    · obtain ⟨e, -, h2⟩ := List.mem_flatMap.1 hk
      exact ih h2
    · cases hk

/-- The pages of a path other than the last one are branch pages. -/
theorem isPath_branch {g : View} {key : Bytes} (h : Nat) : ∀ {lo hi : Option Bytes} {n : Nat} {path : List Nat}, WFT g h lo hi n →
    IsPath g key h n path → ∀ x ∈ path, x ≠ path.getLastD 0 → ∃ p, g x = .ok p ∧ isLeaf p = false := by
  induction h with
  | zero =>
    intro lo hi n path _ hp x hx hn
    simp only [IsPath] at hp
    subst hp
    simp at hx
    subst hx
    exact absurd rfl hn
  | succ h ih =>
    intro lo hi n path hw hp x hx hn
    obtain ⟨p, A, k, c, B, path', h1, h2, h3, rfl⟩ := hp
    obtain ⟨q, w1, w2, w3, w4, w5, w6⟩ := hw
    rw [h1] at w1; cases w1
    have hne : path' ≠ [] := by obtain ⟨rest, hr, -⟩ := isPath_cons h3; rw [hr]; simp
    rw [getLastD_cons hne] at hn
    rcases List.mem_cons.1 hx with rfl | hx
    · exact ⟨p, h1, w4⟩
    · rw [h2.1] at w6
      exact ih (kids_focus w6).1 h3 x hx hn

/-- What a successful deletion touches: the pages on the way to the key, of which only the leaf
changes. -/
theorem del_touch {env : Env} {t t' : Txn} {h : Nat} {key : Bytes} (hw : t.rdonly = false) (h0 : t.root ≠ 0) (ht : Tree env t h)
    (hk : key.length < 65536) (hd : h < maxDepth) (hdel : del env t key = .ok (.success, t')) :
    ∃ (path : List Nat) (lk : Nat) (p : Page), lk ∈ path ∧ (∀ x ∈ path, x ∈ pagesOf (getPage env t) h t.root) ∧
      (∀ x ∈ path, x ≠ lk → ∃ q, getPage env t x = .ok q ∧ isLeaf q = false) ∧
      getPage env t lk = .ok p ∧ isLeaf p = true ∧ key ∈ (kvs p).map Prod.fst ∧
      (∀ x, x ≠ lk → getPage env t' x = getPage env t x) ∧ (∀ x, x ∉ path → t'.getDirty x = t.getDirty x) ∧
      ∀ x ∈ path, (t'.getDirty x).isSome := by
  obtain ⟨path, h1, h3⟩ := findPath_spec hk h ht.wft hd (by
    intro x hx; unfold maxPgno; simpa [hw] using (ht.bound x hx).2)
  have hne : path ≠ [] := by obtain ⟨rest, hr, -⟩ := isPath_cons h1; rw [hr]; simp
  obtain ⟨lo', hi', p, A, B, i1, i2, -, -, -, -, -⟩ := leaf_focus h ht.wft h1 (inRange_none key)
  obtain ⟨q, j1, j2, j3, j4, j5, j6⟩ := i2
  rw [i1] at j1; cases j1
  obtain ⟨f, hf1, hf2⟩ := probe_spec j3 j5 hk
  obtain ⟨A', B', hA', hB', hs⟩ := leaf_splits j4 hf2
  unfold del at hdel
  rw [if_neg (by simp [hw]), if_neg h0, h3, Res.ok_bind] at hdel
  simp only [i1, hf1, Res.ok_bind] at hdel
  rcases hs with ⟨v, e1, e2⟩ | ⟨e1, e2⟩
  · rw [e2] at hdel
    simp only [Found.hit, if_true, Found.idx] at hdel
    obtain ⟨t1, c1, c2, c3, c4⟩ := cowPath_spec (env := env) hw hne (by
      intro n hn
      exact wft_pages h ht.wft n (isPath_mem h1 n hn))
    rw [c1, Res.ok_bind] at hdel
    have hw1 : t1.rdonly = false := by rw [c2.rdonly, hw]
    obtain ⟨p', hp'⟩ := c3 _ (getLastD_mem hne)
    simp only [hp'] at hdel
    obtain ⟨d, -, hdel⟩ := Res.bind_eq_ok.1 hdel
    simp only [Res.ok.injEq, Prod.mk.injEq] at hdel
    obtain ⟨-, rfl⟩ := hdel
    refine ⟨path, path.getLastD 0, p, getLastD_mem hne, isPath_mem h1, isPath_branch h ht.wft h1, i1, j4, by rw [e1]; simp, ?_, ?_, ?_⟩
    · intro x hx
      rw [getPage_set hw1, if_neg hx, c2.view]
    · intro x hx
      rw [getDirty_set, if_neg (fun (he : x = path.getLastD 0) => hx (he ▸ getLastD_mem hne))]
      refine c4 [x] (fun t => t.getDirty x = _) ?_ (fun _ _ _ h => h) ?_ rfl
      · intro t n p hI hn _ _ _
        rw [getDirty_set, if_neg (fun he => hn (by simp [he]))]; exact hI
      · intro y hy
        exact ⟨by simp; rintro rfl; exact hx hy, (ht.bound y (isPath_mem h1 y hy)).2⟩
    · intro x hx
      rw [getDirty_set]
      split
      · rfl
      · obtain ⟨q, hq⟩ := c3 x hx
        rw [hq]; rfl
  · rw [e2] at hdel
    simp [Found.hit] at hdel

/-! ## The cursor -/

theorem up_pages {g : View} {ne : Prop} {H root : Nat} (st : List (Page × Nat)) : ∀ {h n : Nat} {L R : List (Bytes × Bytes)},
    Up g ne H root h n st L R → ∀ x ∈ pagesOf g h n, x ∈ pagesOf g H root := by
  induction st with
  | nil => rintro h n L R ⟨rfl, rfl, -⟩ x hx; exact hx
  | cons a st ih =>
    rintro h n L R ⟨n', A, k, B, L', R', h1, -, -, h4, -, -, h8, -⟩ x hx
    refine ih h8 x ?_
    rw [pagesOf_succ h1, h4]
    exact List.mem_cons_of_mem _ (List.mem_flatMap.2 ⟨(k, n), by simp, hx⟩)

/-- The leaf pages of a tree hold pairs of the tree. -/
theorem leaf_pairs {g : View} {ne : Prop} (h : Nat) : ∀ {n : Nat}, Shape g ne h n → ∀ x ∈ pagesOf g h n, ∀ p, g x = .ok p →
    isLeaf p = true → ∀ kv ∈ kvs p, kv ∈ contents g h n := by
  induction h with
  | zero =>
    intro n _ x hx p hp _ kv hkv
    simp [pagesOf] at hx
    subst hx
    rw [contents_zero hp]; exact hkv
  | succ h ih =>
    rintro n ⟨q, h1, h2, h3, h4, h5⟩ x hx p hp hl kv hkv
    rw [pagesOf_succ h1] at hx
    rw [contents_succ h1]
    rcases List.mem_cons.1 hx with rfl | hx
    · rw [h1] at hp; cases hp; rw [h3] at hl; cases hl
    · obtain ⟨e, he, hx⟩ := List.mem_flatMap.1 hx
      exact List.mem_flatMap.2 ⟨e, he, ih (h5 e he) x hx p hp hl kv hkv⟩

/-- The pages of the tree at `root` that are branch pages, or leaves with pairs from `R` only, look
the same in `t` as in `g`. -/
def Still (g : View) (H root : Nat) (env : Env) (t : Txn) (R : List (Bytes × Bytes)) : Prop :=
  ∀ x ∈ pagesOf g H root, ∀ p, g x = .ok p → (isLeaf p = true → ∀ kv ∈ kvs p, kv ∈ R) → getPage env t x = .ok p

theorem Still.mono {g : View} {H root : Nat} {env : Env} {t : Txn} {R R' : List (Bytes × Bytes)} (h : Still g H root env t R)
    (hs : ∀ kv ∈ R', kv ∈ R) : Still g H root env t R' := fun x hx p hp hl => h x hx p hp fun h1 kv h2 => hs kv (hl h1 kv h2)

theorem leftmost_still {ne : Prop} {env : Env} {t0 t : Txn} {H root : Nat} {R : List (Bytes × Bytes)} (hS : Still (getPage env t0) H root env t R) (h : Nat) :
    ∀ {n fuel : Nat} {st : List (Page × Nat)}, Shape (getPage env t0) ne h n → (∀ x ∈ pagesOf (getPage env t0) h n, x ∈ pagesOf (getPage env t0) H root) →
    (∀ kv ∈ contents (getPage env t0) h n, kv ∈ R) → h < fuel → leftmost env t fuel st n = leftmost env t0 fuel st n := by
  induction h with
  | zero =>
    rintro n fuel st ⟨p, h1, h2, h3, h4⟩ hp hc hf
    obtain ⟨fuel, rfl⟩ : ∃ f, fuel = f + 1 := ⟨fuel - 1, by omega⟩
    rw [leftmost, leftmost, h1, hS n (hp n (by simp [pagesOf])) p h1 (fun _ kv hkv => hc kv (by rw [contents_zero h1]; exact hkv))]
    simp only [Res.ok_bind, h3, if_true]
  | succ h ih =>
    rintro n fuel st ⟨p, h1, h2, h3, h4, h5⟩ hp hc hf
    obtain ⟨fuel, rfl⟩ : ∃ f, fuel = f + 1 := ⟨fuel - 1, by omega⟩
    rw [leftmost, leftmost, h1, hS n (hp n (by simp [pagesOf])) p h1 (fun hl => by rw [h3] at hl; cases hl)]
    simp only [Res.ok_bind, h3, Bool.false_eq_true, if_false]
    obtain ⟨⟨k, c⟩, E, hE⟩ := List.exists_cons_of_ne_nil h4
    have hch : child p 0 = .ok c := child_spec h2 h3 (A := []) hE
    rw [hch, Res.ok_bind, Res.ok_bind]
    rw [pagesOf_succ h1] at hp
    rw [contents_succ h1] at hc
    have hm : (k, c) ∈ entries p := by rw [hE]; simp
    exact ih (h5 _ hm) (fun x hx => hp x (List.mem_cons_of_mem _ (List.mem_flatMap.2 ⟨_, hm, hx⟩)))
      (fun kv hkv => hc kv (List.mem_flatMap.2 ⟨_, hm, hkv⟩)) (by omega)

theorem nextUp_still {ne : Prop} {env : Env} {t0 t : Txn} {H root fuel : Nat} (hf : H < fuel) (st : List (Page × Nat)) :
    ∀ {h n : Nat} {L R : List (Bytes × Bytes)}, Up (getPage env t0) ne H root h n st L R → Still (getPage env t0) H root env t R →
    nextUp env t fuel st = nextUp env t0 fuel st := by
  induction st with
  | nil => intros; rfl
  | cons a st ih =>
    obtain ⟨p, i⟩ := a
    intro h n L R hu hS
    have hu' := hu
    obtain ⟨n', A, k, B, L', R', h1, h2, h3, h4, h5, h6, h8, rfl, rfl⟩ := hu
    rw [nextUp, nextUp]
    split
    · rename_i hlt
      have hlen : (entries p).length = numKeys p := by unfold entries items; simp
      have hnk := numKeys_lt p
      have hi : (i + 1) % 65536 = i + 1 := by
        rw [h4] at hlen; simp at hlen; omega
      rw [hi] at hlt ⊢
      cases B with
      | nil => rw [h4] at hlen; simp at hlen; omega
      | cons b B =>
        obtain ⟨k', c⟩ := b
        have hch : child p (i + 1) = .ok c := by
          have := child_spec h2 h3 (A := A ++ [(k, n)]) (k := k') (c := c) (B := B) (by rw [h4]; simp)
          rwa [List.length_append, h5] at this
        rw [hch, Res.ok_bind, Res.ok_bind]
        have hm : (k', c) ∈ entries p := by rw [h4]; simp
        have hl := up_length _ hu'
        refine leftmost_still hS h (h6 _ hm) ?_ ?_ (by simp at hl; omega)
        · intro x hx
          refine up_pages st h8 x ?_
          rw [pagesOf_succ h1]
          exact List.mem_cons_of_mem _ (List.mem_flatMap.2 ⟨_, hm, hx⟩)
        · intro kv hkv
          simp only [List.flatMap_cons, List.append_assoc, List.mem_append]
          exact .inl hkv
    · exact ih h8 (hS.mono fun kv hkv => List.mem_append_right _ hkv)

theorem next_still {ne : Prop} {env : Env} {t0 t : Txn} {H root fuel : Nat} (hf : H < fuel) {st : List (Page × Nat)}
    {A B : List (Bytes × Bytes)} {kv : Bytes × Bytes} (h : At (getPage env t0) ne H root st A kv B)
    (hS : Still (getPage env t0) H root env t B) : cursorGet env t fuel ⟨st, false⟩ .next = cursorGet env t0 fuel ⟨st, false⟩ .next := by
  obtain ⟨p, i, rest, n, L, R, X, Y, rfl, h1, h2, h3, h4, h5, rfl, rfl, rfl⟩ := h
  have : next env t fuel ⟨(p, X.length) :: rest, false⟩ = next env t0 fuel ⟨(p, X.length) :: rest, false⟩ := by
    unfold next
    simp only [Bool.false_eq_true, if_false]
    split
    · rfl
    · exact nextUp_still hf rest h4 (hS.mono fun kv hkv => List.mem_append_right _ hkv)
  unfold cursorGet move
  rw [this]

/-! ## The loop of the sweep -/

/-- Every freed page is listed once and has been copied. -/
def FreedOnce (t : Txn) : Prop := t.freed.Nodup ∧ ∀ x ∈ t.freed, (t.getDirty x).isSome

theorem closed_freedOnce (env : Env) : Closed env FreedOnce := by
  have keep : ∀ (t : Txn) n p x, (t.getDirty x).isSome → ((t.setDirty n p).getDirty x).isSome := by
    intro t n p x h
    by_cases hx : x = n
    · subst hx; rw [getDirty_set_self]; rfl
    · rw [getDirty_set_other t p hx]; exact h
  refine ⟨fun t n p h => ⟨h.1, fun x hx => keep t n p x (h.2 x hx)⟩, ?_, fun _ h => h, fun _ _ h => h⟩
  intro t n r h ht
  unfold getWritable at h
  obtain ⟨p, -, h⟩ := Res.bind_eq_ok.1 h
  split at h
  · cases h; exact ht
  · rename_i hn
    cases h
    refine ⟨?_, ?_⟩
    · show (t.freed ++ [pgno p]).Nodup
      rw [List.nodup_append]
      refine ⟨ht.1, by simp, ?_⟩
      intro a ha b hb
      simp at hb
      subst hb
      rintro rfl
      have := ht.2 _ ha
      rw [hn] at this; cases this
    · intro x hx
      have hx : x ∈ t.freed ++ [pgno p] := hx
      show ((t.setDirty (pgno p) p).getDirty x).isSome
      rcases List.mem_append.1 hx with hx | hx
      · exact keep t _ p x (ht.2 x hx)
      · simp at hx
        subst hx
        rw [getDirty_set_self]; rfl

/-- The state of a sweep that began with the pages `g`: the pairs `A` have been looked at, of which
the visited ones are left, `rest` is to come. -/
structure Sweeping (g : View) (env : Env) (H id fr root : Nat) (F : List Nat) (vis : List Bytes) (last : Nat) (t : Txn)
    (A rest : List (Bytes × Bytes)) : Prop where
  writing : ∃ m : KvMap, Writing env id fr root F t H m ∧ ∀ k, (A.filter (fun kv => kv.1 ∈ vis) ++ rest).lookup k = m k
  sorted : Sorted ((A ++ rest).map Prod.fst)
  short : ∀ kv ∈ rest, kv.1.length < 65536
  same : t.root = root
  still : ∀ x ∈ pagesOf g H root, ∀ p, g x = .ok p → isLeaf p = false → getPage env t x = .ok p
  clean : ∀ x ∈ pagesOf g H root, ∀ p, g x = .ok p → isLeaf p = true → (∀ kv ∈ kvs p, kv ∈ rest) → t.getDirty x = none
  pages : pagesOf (getPage env t) H root = pagesOf g H root
  dirty : ∀ x, (t.getDirty x).isSome → x ∈ pagesOf g H root
  freed : FreedOnce t
  noNew : t.newLast = last

theorem Sweeping.toStill {env : Env} {H id fr root : Nat} {F : List Nat} {vis : List Bytes} {last : Nat} {t : Txn}
    {A rest : List (Bytes × Bytes)} (h : Sweeping (mapPage env) env H id fr root F vis last t A rest) : Still (mapPage env) H root env t rest := by
  intro x hx p hp hl
  cases hb : isLeaf p with
  | false => exact h.still x hx p hp hb
  | true =>
    have := h.clean x hx p hp hb (hl hb)
    unfold getPage
    rw [this]
    simpa using hp

theorem lookup_mem {l : List (Bytes × Bytes)} {k v : Bytes} (hs : Sorted (l.map Prod.fst)) (h : (k, v) ∈ l) : l.lookup k = some v := by
  obtain ⟨A, B, rfl⟩ := List.append_of_mem h
  rw [lookup_mid hs, if_pos rfl]

theorem Sweeping.keep {g : View} {env : Env} {H id fr root : Nat} {F : List Nat} {vis : List Bytes} {last : Nat} {t : Txn}
    {A B : List (Bytes × Bytes)} {kv : Bytes × Bytes} (h : Sweeping g env H id fr root F vis last t A (kv :: B)) (hv : kv.1 ∈ vis) :
    Sweeping g env H id fr root F vis last t (A ++ [kv]) B where
  writing := by
    obtain ⟨m, h1, h2⟩ := h.writing
    refine ⟨m, h1, fun k => ?_⟩
    rw [← h2, List.filter_append, List.filter_cons_of_pos (by simpa using hv)]
    simp
  sorted := by have := h.sorted; simpa using this
  short := fun kv hkv => h.short kv (List.mem_cons_of_mem _ hkv)
  same := h.same
  still := h.still
  clean := fun x hx p hp hl hk => h.clean x hx p hp hl fun kv hkv => List.mem_cons_of_mem _ (hk kv hkv)
  pages := h.pages
  dirty := h.dirty
  freed := h.freed
  noNew := h.noNew

theorem Sweeping.drop {env : Env} {H id fr root : Nat} {F : List Nat} {vis : List Bytes} {last : Nat} {t : Txn}
    {A B : List (Bytes × Bytes)} {kv : Bytes × Bytes} (hH : H < maxDepth) (h0 : root ≠ 0)
    (h : Sweeping (mapPage env) env H id fr root F vis last t A (kv :: B)) (hv : kv.1 ∉ vis) :
    ∃ t', del env t kv.1 = .ok (.success, t') ∧ Sweeping (mapPage env) env H id fr root F vis last t' (A ++ [kv]) B := by
  obtain ⟨m, h1, h2⟩ := h.writing
  have hk := h.short kv List.mem_cons_self
  have hs : Sorted ((A.filter (fun kv => kv.1 ∈ vis) ++ kv :: B).map Prod.fst) := by
    have := h.sorted
    unfold Sorted at this ⊢
    refine List.Pairwise.sublist (List.Sublist.map _ ?_) this
    exact List.Sublist.append List.filter_sublist (List.Sublist.refl _)
  have hm : m kv.1 = some kv.2 := by
    rw [← h2]; exact lookup_mem hs (by simp)
  obtain ⟨t', e1, e2, e3, -⟩ := (del_writing h1 hk hH).2 (by rw [hm]; simp)
  have hroot : t.root ≠ 0 := by rw [h.same]; exact h0
  obtain ⟨l, hl, hlm⟩ := h1.map
  have ht : Tree env t H := by
    rcases hl with ⟨hx, -⟩ | ⟨-, ht, -⟩
    · exact absurd hx hroot
    · exact ht
  have hfr : t'.root = root ∧ pagesOf (getPage env t') H root = pagesOf (getPage env t) H root := by
    rcases del_spec h1.clean.rdonly hl hk hH with ⟨-, he⟩ | ⟨A', v, B', t1', a1, a2, a3, a4, a5, a6, a7, a8, a9, a10, -, a11, a12⟩
    · rw [he] at e1; cases e1
    · rw [a4] at e1; cases e1
      rw [a7, h.same] at a11
      exact ⟨a7.trans h.same, a11⟩
  obtain ⟨path, lk, p, p1, p2, p3, p4, p5, p6, p7, p8, p9⟩ := del_touch h1.clean.rdonly hroot ht hk hH e1
  rw [h.same, h.pages] at p2
  have hB : kv.1 ∉ B.map Prod.fst := by
    have := h.sorted
    rw [List.map_append, sorted_append, List.map_cons, sorted_cons] at this
    intro hx
    exact blt_irrefl _ (this.2.1.1 _ hx)
  refine ⟨t', e1, ?_⟩
  constructor
  · refine ⟨m.del kv.1, e2, fun k => ?_⟩
    unfold KvMap.del
    rw [← h2]
    rw [List.filter_append, List.filter_cons_of_neg (by simpa using hv), List.filter_nil, List.append_nil, lookup_mid hs]
    by_cases hkk : k = kv.1
    · subst hkk
      rw [if_pos rfl]
      rw [List.map_append, sorted_append, List.map_cons, sorted_cons] at hs
      rw [lookup_append_right (fun a ha => hs.2.2 _ (List.mem_map_of_mem ha) _ (by simp))]
      exact lookup_gt (fun b hb => hs.2.1.1 _ (List.mem_map_of_mem hb))
    · rw [if_neg hkk, if_neg hkk]
  · have := h.sorted; simpa using this
  · exact fun kv hkv => h.short kv (List.mem_cons_of_mem _ hkv)
  · exact hfr.1
  · intro x hx q hq hb
    have := h.still x hx q hq hb
    rw [p7 x (by rintro rfl; rw [this] at p4; cases p4; rw [hb] at p5; cases p5)]
    exact this
  · intro x hx q hq hb hkv
    have hc := h.clean x hx q hq hb (fun kv' hk' => List.mem_cons_of_mem _ (hkv kv' hk'))
    have hv : getPage env t x = .ok q := h.toStill x hx q hq (fun _ kv' hk' => List.mem_cons_of_mem _ (hkv kv' hk'))
    rw [p8 x ?_]
    · exact hc
    · intro hxp
      by_cases hxl : x = lk
      · subst hxl
        rw [hv] at p4; cases p4
        obtain ⟨kv', k1, k2⟩ := List.mem_map.1 p6
        exact hB (by rw [← k2]; exact List.mem_map_of_mem (hkv kv' k1))
      · obtain ⟨q', q1, q2⟩ := p3 x hxp hxl
        rw [hv] at q1; cases q1; rw [hb] at q2; cases q2
  · rw [hfr.2, h.pages]
  · intro x hx
    by_cases hxp : x ∈ path
    · exact p2 x hxp
    · rw [p8 x hxp] at hx; exact h.dirty x hx
  · exact del_inv (closed_freedOnce env) e1 h.freed
  · rw [e3, h.noNew]

theorem not_onCopy {env : Env} {H id fr root : Nat} {F : List Nat} {vis : List Bytes} {last : Nat} {t : Txn}
    {A B : List (Bytes × Bytes)} {kv : Bytes × Bytes} {st : List (Page × Nat)} {ne : Prop}
    (hw : WFT (mapPage env) H none none root)
    (h : Sweeping (mapPage env) env H id fr root F vis last t A (kv :: B)) (hat : At (mapPage env) ne H root st A kv B) :
    onCopy t ⟨st, false⟩ = false := by
  obtain ⟨p, i, rest, n, L, R, X, Y, rfl, h1, h2, h3, h4, h5, rfl, rfl, rfl⟩ := hat
  unfold onCopy
  cases X with
  | nil =>
    have hn : n ∈ pagesOf (mapPage env) H root := up_pages rest h4 n (by simp [pagesOf])
    obtain ⟨q, q1, q2, -⟩ := wft_pages H hw n hn
    rw [h1] at q1; cases q1
    have := h.clean n hn p h1 h3 (by
      rw [h5]; intro x hx; simp at hx ⊢
      rcases hx with rfl | hx
      · simp
      · exact .inr (.inl hx))
    simp only [List.length_nil, q2, this]
    rfl
  | cons x X => rfl

theorem sweepFrom_spec {env : Env} {t0 : Txn} {H id fr fuel last : Nat} {F : List Nat} {vis : List Bytes} (hd0 : t0.dirty = [])
    (hH : H < maxDepth) (hf : H < fuel) (h0 : t0.root ≠ 0) (hw : WFT (mapPage env) H none none t0.root) (B : List (Bytes × Bytes)) :
    ∀ {n : Nat} {st : List (Page × Nat)} {A : List (Bytes × Bytes)} {kv : Bytes × Bytes} {t : Txn},
    Sweeping (mapPage env) env H id fr t0.root F vis last t A (kv :: B) → At (mapPage env) True H t0.root st A kv B → B.length + 1 < n →
    ∃ t', sweepFrom env vis fuel n t (⟨st, false⟩, .ok kv) = .ok (.success, t') ∧
      Sweeping (mapPage env) env H id fr t0.root F vis last t' (A ++ kv :: B) [] := by
  have hg : getPage env t0 = mapPage env := by
    funext x
    unfold getPage Txn.getDirty
    rw [hd0]
    simp
  induction B with
  | nil =>
    intro n st A kv t hS hat hn
    obtain ⟨n, rfl⟩ : ∃ m, n = m + 2 := ⟨n - 2, by simp at hn; omega⟩
    have hnext : ∀ t, Sweeping (mapPage env) env H id fr t0.root F vis last t (A ++ [kv]) [] →
        cursorGet env t fuel ⟨st, false⟩ .next = .ok (⟨[], true⟩, .error .notfound) := by
      intro t hS
      rw [next_still (t0 := t0) hf (by rw [hg]; exact hat) (by rw [hg]; exact hS.toStill)]
      exact cursorGet_fail (op := .next) ((next_spec hH hf (by rw [hg]; exact hat)).1 rfl) (by decide)
    rw [sweepFrom]
    simp only [not_onCopy hw hS hat, Bool.false_eq_true, if_false]
    by_cases hv : kv.1 ∈ vis
    · have hS' := hS.keep hv
      rw [if_pos hv, hnext t hS', Res.ok_bind, sweepFrom]
      exact ⟨t, rfl, hS'⟩
    · obtain ⟨t', e1, hS'⟩ := hS.drop hH h0 hv
      rw [if_neg hv, e1, Res.ok_bind]
      simp only [if_true]
      rw [hnext t' hS', Res.ok_bind, sweepFrom]
      exact ⟨t', rfl, hS'⟩
  | cons b B ih =>
    intro n st A kv t hS hat hn
    obtain ⟨n, rfl⟩ : ∃ m, n = m + 1 := ⟨n - 1, by omega⟩
    obtain ⟨st', s1, s2⟩ := (next_spec (env := env) (t := t0) hH hf (by rw [hg]; exact hat)).2 b B rfl
    have hnext : ∀ t, Sweeping (mapPage env) env H id fr t0.root F vis last t (A ++ [kv]) (b :: B) →
        cursorGet env t fuel ⟨st, false⟩ .next = .ok (⟨st', false⟩, .ok b) := by
      intro t hS
      rw [next_still (t0 := t0) hf (by rw [hg]; exact hat) (by rw [hg]; exact hS.toStill)]
      exact cursorGet_move (op := .next) s1 s2
    rw [hg] at s2
    rw [sweepFrom]
    simp only [not_onCopy hw hS hat, Bool.false_eq_true, if_false]
    by_cases hv : kv.1 ∈ vis
    · have hS' := hS.keep hv
      rw [if_pos hv, hnext t hS', Res.ok_bind]
      obtain ⟨t'', e1, e2⟩ := ih hS' s2 (by simp at hn; omega)
      exact ⟨t'', e1, by simpa using e2⟩
    · obtain ⟨t', e1, hS'⟩ := hS.drop hH h0 hv
      rw [if_neg hv, e1, Res.ok_bind]
      simp only [if_true]
      rw [hnext t' hS', Res.ok_bind]
      obtain ⟨t'', e1, e2⟩ := ih hS' s2 (by simp at hn; omega)
      exact ⟨t'', e1, by simpa using e2⟩

end Verif.Cache
