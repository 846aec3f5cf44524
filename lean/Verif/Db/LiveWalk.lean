import Verif.Db.Live

/-!
# Helper lemmas: deleting while a cursor is on its way
-/

namespace Verif.Db

open Verif.Page

/-! ### Which page a deletion changes -/

theorem cow_outside {env : Env} {t : Txn} {n : Nat} {r : Nat × Txn} (h : cow env t n = .ok r) (hn : ∀ p, mapPage env n = .ok p → t.getDirty n = none → pgno p = n)
    {x : Nat} (hx : x ≠ n) : r.2.getDirty x = t.getDirty x := by
  unfold cow at h
  cases hd : t.getDirty n with
  | some p => rw [hd] at h; cases h; rfl
  | none =>
    rw [hd] at h
    simp only [] at h
    unfold getWritable at h
    obtain ⟨q, hq, h⟩ := Res.bind_eq_ok.1 h
    have e := hn q hq hd
    cases hg : t.getDirty (pgno q) with
    | some p' => rw [hg] at h; simp only [Res.ok.injEq] at h; rw [← h]
    | none =>
      rw [hg] at h; simp only [Res.ok.injEq] at h; rw [← h]
      show (t.setDirty (pgno q) q).getDirty x = _
      rw [getDirty_setDirty, if_neg (by rw [e]; exact hx)]

theorem cowAll_outside {env : Env} (L : List Nat) : ∀ {t t' : Txn}, t.rdonly = false → cowAll env t L = .ok t' →
    (∀ n ∈ L, ∃ p, getPage env t n = .ok p ∧ pgno p = n ∧ WF p) → ∀ x, x ∉ L → t'.getDirty x = t.getDirty x := by
  induction L with
  | nil => intro t t' hr h hp x hx; cases h; rfl
  | cons n L ih =>
    intro t t' hr h hp x hx
    rw [cowAll] at h
    obtain ⟨r, h1, h2⟩ := Res.bind_eq_ok.1 h
    obtain ⟨p, a1, a2, a3⟩ := hp n List.mem_cons_self
    obtain ⟨t1, e1, s1, -, -⟩ := cow_spec hr a1 a2 a3
    rw [h1] at e1; cases e1
    rw [ih (by rw [s1.rdonly, hr]) h2 (by intro m hm; rw [s1.view]; exact hp m (List.mem_cons_of_mem _ hm)) x
      (fun hm => hx (List.mem_cons_of_mem _ hm))]
    refine cow_outside h1 ?_ (fun e => hx (e ▸ List.mem_cons_self))
    intro q hq hd
    have : getPage env t n = .ok q := by unfold getPage; rw [hd]; simp [hr, hq]
    rw [a1] at this; cases this; exact a2

theorem cowPath_outside {env : Env} {t : Txn} {path : List Nat} {c : Nat × Txn} (hr : t.rdonly = false) (h : cowPath env t path.reverse = .ok c)
    (hp : ∀ n ∈ path, ∃ p, getPage env t n = .ok p ∧ pgno p = n ∧ WF p) {x : Nat} (hx : x ∉ path) : c.2.getDirty x = t.getDirty x := by
  rcases List.eq_nil_or_concat path with rfl | ⟨L, b, rfl⟩
  · cases h
  · rw [List.concat_eq_append] at h hp hx
    rw [List.reverse_append, List.reverse_cons, List.reverse_nil, List.nil_append, List.singleton_append, cowPath] at h
    obtain ⟨r, h1, h⟩ := Res.bind_eq_ok.1 h
    obtain ⟨t1, h2, h⟩ := Res.bind_eq_ok.1 h
    cases h
    have : cowAll env t (b :: L.reverse) = .ok t1 := by rw [cowAll, h1, Res.ok_bind, h2]
    refine cowAll_outside _ hr this ?_ x ?_
    · intro n hn; apply hp; simpa [or_comm] using hn
    · simpa [or_comm] using hx

theorem path_kinds {g : View} {key : Bytes} (h : Nat) : ∀ {lo hi : Option Bytes} {n : Nat} {path : List Nat}, WFT g h lo hi n → IsPath g key h n path →
    ∀ x ∈ path, x ≠ path.getLastD 0 → ∃ p, g x = .ok p ∧ isLeaf p = false := by
  induction h with
  | zero => intro lo hi n path hw hp x hx hn; rw [hp] at hx hn; simp at hx; subst hx; exact absurd rfl hn
  | succ h ih =>
    intro lo hi n path hw hp x hx hn
    obtain ⟨p, h1, h2, h3, h4, h5, h6⟩ := hw
    obtain ⟨p', A, k, c, B, path', e1, e2, e3, rfl⟩ := hp
    rw [h1] at e1; cases e1
    rcases List.mem_cons.1 hx with rfl | hx
    · exact ⟨p, h1, h4⟩
    · obtain ⟨rest, hr, -⟩ := isPath_cons e3
      rw [getLastD_cons (by rw [hr]; simp)] at hn
      rw [e2.1] at h6
      exact ih (kids_focus h6).1 e3 x hx hn

/-- A deletion changes nothing, or it takes pairs out of one leaf, which has the key; the other pages keep their contents, the buffers
stay where they are, and no other leaf gets a buffer. -/
theorem del_where {env : Env} {t : Txn} {h : Nat} {l : List (Bytes × Bytes)} (hw : t.rdonly = false) (hh : Holds env t h l) {key : Bytes}
    (hk : key.length < 65536) (hd : h < maxDepth) {r : Status × Txn} (hdel : del env t key = .ok r) :
    r.2 = t ∨ ∃ m p q, getPage env t m = .ok p ∧ isLeaf p = true ∧ (∃ v, (key, v) ∈ kvs p) ∧ r.2.getDirty m = some q ∧ getPage env r.2 m = .ok q ∧ isLeaf q = true ∧
      (∀ x ∈ kvs q, x ∈ kvs p) ∧ (∀ x, x ≠ m → getPage env r.2 x = getPage env t x) ∧
      (∀ x p, x ≠ m → t.getDirty x = some p → r.2.getDirty x = some p) ∧
      (WF q ∧ Sorted (keys p) ∧ ∃ A v B, (∀ a ∈ A, a.1 < key) ∧ kvs p = A ++ (key, v) :: B ∧ kvs q = A ++ B) ∧
      ∀ x p, x ≠ m → getPage env t x = .ok p → isLeaf p = true → r.2.getDirty x = t.getDirty x := by
  rcases hh with ⟨h0, -⟩ | ⟨h0, ht, -⟩
  · left
    unfold del at hdel
    rw [if_neg (by simp [hw]), if_pos h0] at hdel
    cases hdel; rfl
  · obtain ⟨path, h1, h3⟩ := findPath_spec hk h ht.wft hd (by
      intro x hx; unfold maxPgno; simpa [hw] using (ht.bound x hx).2)
    obtain ⟨lo', hi', p, A, B, i1, i2, -⟩ := leaf_focus h ht.wft h1 (inRange_none key)
    obtain ⟨q, j1, j2, j3, j4, j5, j6⟩ := i2
    rw [i1] at j1; cases j1
    obtain ⟨f, hf1, hf2⟩ := probe_spec j3 j5 hk
    obtain ⟨A', B', hA', hB', hs⟩ := leaf_splits j4 hf2
    unfold del at hdel
    rw [if_neg (by simp [hw]), if_neg h0, h3, Res.ok_bind] at hdel
    simp only [] at hdel
    rw [i1, Res.ok_bind, hf1, Res.ok_bind] at hdel
    rcases hs with ⟨v, e1, e2⟩ | ⟨e1, e2⟩
    · right
      rw [e2] at hdel
      simp only [Found.hit, if_true, Found.idx] at hdel
      have hne : path ≠ [] := by
        obtain ⟨rest, hr, -⟩ := isPath_cons h1; rw [hr]; simp
      have hall : ∀ n ∈ path, ∃ p, getPage env t n = .ok p ∧ pgno p = n ∧ WF p := by
        intro n hn
        exact wft_pages h ht.wft n (isPath_mem h1 n hn)
      obtain ⟨t1, c1, c2, c3, -⟩ := cowPath_spec (env := env) hw hne hall
      obtain ⟨p', hp'⟩ := c3 _ (getLastD_mem hne)
      have hw1 : t1.rdonly = false := by rw [c2.rdonly, hw]
      have hpp : getPage env t1 (path.getLastD 0) = .ok p' := getPage_dirty hw1 hp'
      rw [c2.view, i1] at hpp; cases hpp
      have hlen : A'.length < numKeys p := by rw [← kvs_length, e1]; simp
      obtain ⟨q, d1, d2, d3, d4, d5, -⟩ := delete_removes_exactly_one j3 hlen
      have hkq : kvs q = A' ++ B' := by
        unfold kvs
        rw [d3, map_eraseIdx', show (items p).map (fun it => (it.key, it.val)) = kvs p from rfl, e1,
          List.eraseIdx_append_of_length_le (Nat.le_refl _)]
        simp
      rw [c1, Res.ok_bind] at hdel
      simp only [hp'] at hdel
      rw [d1, Res.ok_bind] at hdel
      cases hdel
      have hkeep := (cowPath_keep c1).1
      refine ⟨path.getLastD 0, p, q, i1, j4, ⟨v, by rw [e1]; simp⟩, ?_, ?_, by rw [isLeaf_congr d5, j4], ?_, ?_, ?_, ⟨d2, j5, A', v, B', hA', e1, hkq⟩, ?_⟩
      · show (t1.setDirty _ q).getDirty _ = _
        rw [getDirty_setDirty, if_pos rfl]
      · show getPage env (t1.setDirty _ q) _ = _
        rw [getPage_set hw1, if_pos rfl]
      · intro x hx; rw [hkq] at hx; rw [e1]
        rcases List.mem_append.1 hx with hx | hx
        · exact List.mem_append_left _ hx
        · exact List.mem_append_right _ (List.mem_cons_of_mem _ hx)
      · intro x hx
        show getPage env (t1.setDirty _ q) _ = _
        rw [getPage_set hw1, if_neg hx, c2.view]
      · intro x p2 hx hp2
        show (t1.setDirty _ q).getDirty x = _
        rw [getDirty_setDirty, if_neg hx]
        exact hkeep x p2 hp2
      · intro x p2 hx hp2 hl2
        show (t1.setDirty _ q).getDirty x = _
        rw [getDirty_setDirty, if_neg hx]
        refine cowPath_outside hw c1 hall (fun hm => ?_)
        obtain ⟨p3, b1, b2⟩ := path_kinds h ht.wft h1 x hm hx
        rw [hp2] at b1; cases b1
        rw [hl2] at b2; cases b2
    · left
      rw [e2] at hdel
      simp only [Found.hit, Bool.false_eq_true, if_false] at hdel
      cases hdel; rfl

/-! ### What deletions leave of the transaction they started from -/

/-- `t1` is `t0` after deletions of keys in `D`. -/
structure Lasting (env : Env) (t0 t1 : Txn) (D : Bytes → Prop) : Prop where
  branch : ∀ m p, getPage env t0 m = .ok p → isLeaf p = false → getPage env t1 m = .ok p
  leaf : ∀ m p, getPage env t0 m = .ok p → isLeaf p = true → ∃ q, getPage env t1 m = .ok q ∧ isLeaf q = true ∧ ∀ x ∈ kvs q, x ∈ kvs p
  fresh : ∀ m p, getPage env t0 m = .ok p → isLeaf p = true → (∀ x ∈ kvs p, ¬ D x.1) → getPage env t1 m = .ok p ∧ t1.getDirty m = t0.getDirty m

theorem Lasting.refl (env : Env) (t : Txn) (D : Bytes → Prop) : Lasting env t t D :=
  ⟨fun _ _ h _ => h, fun _ p h hl => ⟨p, h, hl, fun _ h => h⟩, fun _ _ h _ _ => ⟨h, rfl⟩⟩

theorem Lasting.mono {env : Env} {t0 t1 : Txn} {D D' : Bytes → Prop} (k : Lasting env t0 t1 D) (h : ∀ x, D x → D' x) : Lasting env t0 t1 D' :=
  ⟨k.branch, k.leaf, fun m p a b c => k.fresh m p a b fun x hx hd => c x hx (h _ hd)⟩

/-- The pages behind the pointers; a pointer to a leaf is one into the map. -/
def Firm (env : Env) (t : Txn) : Ref → Page → Prop := fun r p => r.page env t = .ok p ∧ (isLeaf p = true → r.dirty = false)

theorem del_kept {env : Env} {t0 t : Txn} {D : Bytes → Prop} {h : Nat} {l : List (Bytes × Bytes)} (hw : t.rdonly = false) (hh : Holds env t h l) {key : Bytes}
    (hk : key.length < 65536) (hd : h < maxDepth) {r : Status × Txn} (hdel : del env t key = .ok r) (k : Lasting env t0 t D) (hD : D key) :
    Lasting env t0 r.2 D ∧ ∀ x p, Firm env t x p → Firm env r.2 x p := by
  rcases del_where hw hh hk hd hdel with e | ⟨m, p, q, a1, a2, ⟨v, a3⟩, -, a4, a5, a6, a7, a8, -, a9⟩
  · rw [e]; exact ⟨k, fun _ _ h => h⟩
  · refine ⟨⟨?_, ?_, ?_⟩, ?_⟩
    · intro x px hx hl
      have h1 := k.branch x px hx hl
      have hne : x ≠ m := by rintro rfl; rw [a1] at h1; cases h1; rw [a2] at hl; cases hl
      rw [a7 x hne]; exact h1
    · intro x px hx hl
      obtain ⟨q1, b1, b2, b3⟩ := k.leaf x px hx hl
      by_cases hne : x = m
      · subst hne
        rw [a1] at b1; cases b1
        exact ⟨q, a4, a5, fun y hy => b3 y (a6 y hy)⟩
      · exact ⟨q1, by rw [a7 x hne]; exact b1, b2, b3⟩
    · intro x px hx hl hf
      obtain ⟨c1, c2⟩ := k.fresh x px hx hl hf
      have hne : x ≠ m := by
        rintro rfl
        rw [a1] at c1; cases c1
        exact hf _ a3 hD
      exact ⟨by rw [a7 x hne]; exact c1, by rw [a9 x px hne c1 hl]; exact c2⟩
    · rintro ⟨no, dirty⟩ px ⟨h1, h2⟩
      refine ⟨?_, h2⟩
      cases dirty with
      | false => exact h1
      | true =>
        have hl : isLeaf px = false := by
          cases hl : isLeaf px with
          | false => rfl
          | true => exact absurd (h2 hl) (by simp)
        have hg : t.getDirty no = some px := by
          unfold Ref.page at h1
          simp only [if_true] at h1
          cases hx : t.getDirty no with
          | none => rw [hx] at h1; cases h1
          | some y => rw [hx] at h1; cases h1; rfl
        have hne : no ≠ m := by
          rintro rfl
          have := getPage_dirty (env := env) hw hg
          rw [a1] at this; cases this
          rw [a2] at hl; cases hl
        unfold Ref.page
        simp only [if_true]
        rw [a8 no px hne hg]; rfl

/-! ### The cursor goes on over the pages as they were -/

theorem up_mem {g : View} {ne : Prop} {H root : Nat} (st : List (Page × Nat)) : ∀ {h n : Nat} {L R : List (Bytes × Bytes)}, Up g ne H root h n st L R →
    ∀ x ∈ pagesOf g h n, x ∈ pagesOf g H root := by
  induction st with
  | nil => rintro h n L R ⟨rfl, rfl, -, -⟩ x hx; exact hx
  | cons a st ih =>
    rintro h n L R ⟨n', A, k, B, L', R', h1, -, -, h4, -, -, h8, -, -⟩ x hx
    refine ih h8 x ?_
    rw [pagesOf_succ h1, h4]
    exact List.mem_cons_of_mem _ (List.mem_flatMap.2 ⟨(k, n), by simp, hx⟩)

/-- The leaves of the tree are pages of the map. -/
def LeavesMapped (env : Env) (t : Txn) (P : List Nat) : Prop := ∀ m ∈ P, ∀ p, getPage env t m = .ok p → isLeaf p = true → t.getDirty m = none

section
variable {env : Env} {t0 t1 : Txn} {D : Bytes → Prop}

theorem firm_refOf (k : Lasting env t0 t1 D) {n : Nat} {p : Page} (hp : getPage env t0 n = .ok p)
    (hf : isLeaf p = true → (∀ x ∈ kvs p, ¬ D x.1) ∧ t0.getDirty n = none) : Firm env t1 (refOf t1 n) p ∧ (refOf t1 n).page env t1 = .ok p := by
  have h1 : getPage env t1 n = .ok p := by
    cases hl : isLeaf p with
    | false => exact k.branch n p hp hl
    | true => exact (k.fresh n p hp hl (hf hl).1).1
  have h2 := (refOf_page env t1 n).trans h1
  refine ⟨⟨h2, fun hl => ?_⟩, h2⟩
  have := (k.fresh n p hp hl (hf hl).1).2
  rw [(hf hl).2] at this
  simp [refOf, ownBuffer, this]

theorem lleftmost_kept (k : Lasting env t0 t1 D) : ∀ (h : Nat) {fuel : Nat} {l : List (Ref × Nat)} {st : List (Page × Nat)} {n : Nat}, h < fuel →
    Shape (getPage env t0) True h n → (∀ x ∈ contents (getPage env t0) h n, ¬ D x.1) → LeavesMapped env t0 (pagesOf (getPage env t0) h n) →
    Shows (Firm env t1) l st → Alike (Firm env t1) (lleftmost env t1 fuel l n) (leftmost env t0 fuel st n) := by
  intro h
  induction h with
  | zero =>
    rintro fuel l st n hf ⟨p, h1, h2, h3, h4⟩ hD hm hs
    obtain ⟨fuel, rfl⟩ : ∃ f, fuel = f + 1 := ⟨fuel - 1, by omega⟩
    rw [contents_zero h1] at hD
    obtain ⟨q1, q2⟩ := firm_refOf k h1 (fun hl => ⟨hD, hm n (self_mem_pagesOf _ _ _) p h1 hl⟩)
    rw [lleftmost, leftmost, q2, h1, Res.ok_bind, Res.ok_bind, if_pos h3, if_pos h3]
    by_cases h0 : numKeys p = 0
    · rw [if_pos h0, if_pos h0]; exact ⟨rfl, rfl, shows_push hs q1 0⟩
    · rw [if_neg h0, if_neg h0]; exact ⟨rfl, rfl, shows_push hs q1 0⟩
  | succ h ih =>
    rintro fuel l st n hf ⟨p, h1, h2, h3, h4, h5⟩ hD hm hs
    obtain ⟨fuel, rfl⟩ : ∃ f, fuel = f + 1 := ⟨fuel - 1, by omega⟩
    obtain ⟨⟨ky, c⟩, B, hB⟩ := List.exists_cons_of_ne_nil h4
    have hc : child p 0 = .ok c := child_spec h2 h3 (A := []) hB
    obtain ⟨q1, q2⟩ := firm_refOf k h1 (fun hl => by rw [h3] at hl; cases hl)
    have hmem : (ky, c) ∈ entries p := by rw [hB]; exact List.mem_cons_self
    rw [lleftmost, leftmost, q2, h1, Res.ok_bind, Res.ok_bind, if_neg (by simp [h3]), if_neg (by simp [h3]), hc, Res.ok_bind, Res.ok_bind]
    refine ih (by omega) (h5 _ hmem) ?_ ?_ (shows_push hs q1 0)
    · intro x hx; apply hD; rw [contents_succ h1]; exact List.mem_flatMap.2 ⟨_, hmem, hx⟩
    · intro x hx; apply hm; rw [pagesOf_succ h1]; exact List.mem_cons_of_mem _ (List.mem_flatMap.2 ⟨_, hmem, hx⟩)

theorem lnextUp_kept (k : Lasting env t0 t1 D) {H root fuel : Nat} (hf : H < fuel) (hm : LeavesMapped env t0 (pagesOf (getPage env t0) H root)) (st : List (Page × Nat)) :
    ∀ {l : List (Ref × Nat)} {h n : Nat} {L R : List (Bytes × Bytes)}, Up (getPage env t0) True H root h n st L R → (∀ x ∈ R, ¬ D x.1) →
    Shows (Firm env t1) l st → Alike (Firm env t1) (lnextUp env t1 fuel l) (nextUp env t0 fuel st) := by
  induction st with
  | nil =>
    intro l h n L R hu hD hs
    match l, hs with
    | [], _ => exact ⟨rfl, rfl, trivial⟩
  | cons a st ih =>
    obtain ⟨p, i⟩ := a
    intro l h n L R hu hD hs
    have hu0 := hu
    obtain ⟨n', A, ky, B, L', R', h1, h2, h3, h4, rfl, h6, h8, rfl, rfl⟩ := hu
    match l, hs with
    | (x, j) :: l, ⟨s1, s2, s3⟩ =>
      subst s2
      have hlt := numKeys_lt p
      have hlen := up_length _ h8
      have hnk : numKeys p = A.length + 1 + B.length := by rw [← entries_length, h4]; simp; omega
      have hmod : (A.length + 1) % 65536 = A.length + 1 := Nat.mod_eq_of_lt (by omega)
      rw [lnextUp, nextUp, s1.1, Res.ok_bind, hmod]
      cases B with
      | nil =>
        rw [if_neg (by simp at hnk; omega), if_neg (by simp at hnk; omega)]
        exact ih h8 (fun y hy => hD y (by simpa using hy)) s3
      | cons e B =>
        obtain ⟨k', c⟩ := e
        have h4' : entries p = (A ++ [(ky, n)]) ++ (k', c) :: B := by rw [h4]; simp
        have hc := child_spec h2 h3 h4'
        rw [show (A ++ [(ky, n)]).length = A.length + 1 by simp] at hc
        rw [if_pos (by rw [hnk]; simp), if_pos (by rw [hnk]; simp), hc, Res.ok_bind, Res.ok_bind]
        refine lleftmost_kept k h (by omega) (h6 (k', c) (by rw [h4]; simp)) ?_ ?_ ⟨s1, rfl, s3⟩
        · intro y hy; apply hD; simp [hy]
        · intro y hy
          apply hm
          refine up_mem _ h8 y ?_
          rw [pagesOf_succ h1, h4']
          exact List.mem_cons_of_mem _ (List.mem_flatMap.2 ⟨(k', c), by simp, hy⟩)

theorem lnext_kept (k : Lasting env t0 t1 D) {H root fuel : Nat} (hf : H < fuel) (hm : LeavesMapped env t0 (pagesOf (getPage env t0) H root)) {st : List (Page × Nat)}
    {l : List (Ref × Nat)} {A B : List (Bytes × Bytes)} {kv : Bytes × Bytes} (h : At (getPage env t0) True H root st A kv B) (hD : ∀ x ∈ B, ¬ D x.1)
    (hs : Shows (Firm env t1) l st) : Alike (Firm env t1) (lnext env t1 fuel ⟨l, false⟩) (next env t0 fuel ⟨st, false⟩) := by
  obtain ⟨p, i, rest, n, L, R, X, Y, rfl, h1, h2, h3, h4, h5, rfl, rfl, rfl⟩ := h
  match l, hs with
  | (x, j) :: l, ⟨s1, s2, s3⟩ =>
    subst s2
    simp only [lnext, next, Bool.false_eq_true, if_false]
    rw [s1.1, Res.ok_bind]
    by_cases hlt : (X.length + 1) % 65536 < numKeys p
    · rw [if_pos hlt, if_pos hlt]; exact ⟨rfl, rfl, s1, rfl, s3⟩
    · rw [if_neg hlt, if_neg hlt]
      exact lnextUp_kept k hf hm rest h4 (fun y hy => hD y (List.mem_append_right _ hy)) s3

end

end Verif.Db
