import Verif.Db.LiveProps

/-!
# Going backwards while deleting (C136)

Deleting the pair at an index leaves the pairs with smaller indices where they are.  So a loop from the last pair to the first one comes to
every pair, whatever the transaction has done before.
-/

namespace Verif.Db

open Verif.Page

/-- A loop of the caller from the pair under the cursor backwards: look at it, delete it if `pick` says so, step back; until a step fails.  The
pairs seen, the last status and the transaction at the end. -/
def sweepDown (env : Env) (fuel : Nat) (pick : Bytes × Bytes → Bool) : Nat → Txn → LCursor × Except Status (Bytes × Bytes) → Res (List (Bytes × Bytes) × Status × Txn)
  | 0, _, _ => .div
  | n + 1, t, r =>
    match r.2 with
    | .error e => .ok ([], e, t)
    | .ok kv => do
      let t' ← (if pick kv then do
        let d ← del env t kv.1
        .ok d.2
      else .ok t)
      let r' ← lcursorGet env t' fuel r.1 .prev
      let rest ← sweepDown env fuel pick n t' r'
      .ok (kv :: rest.1, rest.2)

/-- The loop from the last pair on, with a new cursor. -/
def sweepBack (env : Env) (fuel n : Nat) (pick : Bytes × Bytes → Bool) (t : Txn) : Res (List (Bytes × Bytes) × Status × Txn) := do
  let r ← lcursorGet env t fuel LCursor.opened (.seek .last)
  sweepDown env fuel pick n t r

section
variable {env : Env} {t0 t1 : Txn} {D : Bytes → Prop}

theorem firm_of_up {g : View} {ne : Prop} {H root : Nat} (st : List (Page × Nat)) : ∀ {l : List (Ref × Nat)} {h n : Nat} {L R : List (Bytes × Bytes)},
    Up g ne H root h n st L R → Shows (Now env t1) l st → Shows (Firm env t1) l st := by
  induction st with
  | nil =>
    intro l h n L R _ hs
    match l, hs with
    | [], _ => trivial
  | cons a st ih =>
    obtain ⟨p, i⟩ := a
    rintro l h n L R ⟨n', A, k, B, L', R', -, -, h3, -, -, -, h8, -, -⟩ hs
    match l, hs with
    | (x, j) :: l, ⟨s1, s2, s3⟩ => exact ⟨⟨s1, fun hl => by rw [h3] at hl; cases hl⟩, s2, ih h8 s3⟩

theorem now_refOf (k : Lasting env t0 t1 D) {n : Nat} {p : Page} (hp : getPage env t0 n = .ok p) (hf : isLeaf p = true → ∀ x ∈ kvs p, ¬ D x.1) :
    (refOf t1 n).page env t1 = .ok p := by
  rw [refOf_page]
  cases hl : isLeaf p with
  | false => exact k.branch n p hp hl
  | true => exact (k.fresh n p hp hl (hf hl)).1

theorem lrightmost_kept (k : Lasting env t0 t1 D) : ∀ (h : Nat) {fuel : Nat} {l : List (Ref × Nat)} {st : List (Page × Nat)} {n : Nat}, h < fuel →
    Shape (getPage env t0) True h n → (∀ x ∈ contents (getPage env t0) h n, ¬ D x.1) →
    Shows (Now env t1) l st → Alike (Now env t1) (lrightmost env t1 fuel l n) (rightmost env t0 fuel st n) := by
  intro h
  induction h with
  | zero =>
    rintro fuel l st n hf ⟨p, h1, h2, h3, h4⟩ hD hs
    obtain ⟨fuel, rfl⟩ : ∃ f, fuel = f + 1 := ⟨fuel - 1, by omega⟩
    rw [contents_zero h1] at hD
    have q2 := now_refOf k h1 (fun _ => hD)
    rw [lrightmost, rightmost, q2, h1, Res.ok_bind, Res.ok_bind]
    by_cases h0 : numKeys p = 0
    · rw [if_pos h0, if_pos h0]; exact ⟨rfl, rfl, hs⟩
    · rw [if_neg h0, if_neg h0, if_pos h3, if_pos h3]; exact ⟨rfl, rfl, shows_push hs q2 _⟩
  | succ h ih =>
    rintro fuel l st n hf ⟨p, h1, h2, h3, h4, h5⟩ hD hs
    obtain ⟨fuel, rfl⟩ : ∃ f, fuel = f + 1 := ⟨fuel - 1, by omega⟩
    have q2 := now_refOf k h1 (fun hl => by rw [h3] at hl; cases hl)
    rcases List.eq_nil_or_concat (entries p) with hB | ⟨A, ⟨ky, c⟩, hB⟩
    · exact absurd hB h4
    · rw [List.concat_eq_append] at hB
      have hnk : numKeys p = A.length + 1 := by rw [← entries_length, hB]; simp
      have hc : child p A.length = .ok c := child_spec h2 h3 hB
      have hmem : (ky, c) ∈ entries p := by rw [hB]; simp
      have n0 : ¬ numKeys p = 0 := by omega
      have n1 : ¬ isLeaf p = true := by rw [h3]; decide
      rw [lrightmost, rightmost, q2, h1, Res.ok_bind, Res.ok_bind, if_neg n0, if_neg n0, if_neg n1, if_neg n1,
        show numKeys p - 1 = A.length by omega, hc, Res.ok_bind, Res.ok_bind]
      refine ih (by omega) (h5 _ hmem) ?_ (shows_push hs q2 _)
      intro x hx; apply hD; rw [contents_succ h1]; exact List.mem_flatMap.2 ⟨_, hmem, hx⟩

theorem lprevUp_kept (k : Lasting env t0 t1 D) {H root fuel : Nat} (hf : H < fuel) (st : List (Page × Nat)) :
    ∀ {l : List (Ref × Nat)} {h n : Nat} {L R : List (Bytes × Bytes)}, Up (getPage env t0) True H root h n st L R → (∀ x ∈ L, ¬ D x.1) →
    Shows (Now env t1) l st → Alike (Now env t1) (lprevUp env t1 fuel l) (prevUp env t0 fuel st) := by
  induction st with
  | nil =>
    intro l h n L R hu hD hs
    match l, hs with
    | [], _ => exact ⟨rfl, rfl, trivial⟩
  | cons a st ih =>
    obtain ⟨p, i⟩ := a
    intro l h n L R hu hD hs
    obtain ⟨n', A, ky, B, L', R', h1, h2, h3, h4, rfl, h6, h8, rfl, rfl⟩ := hu
    have hlen := up_length _ h8
    match l, hs with
    | (x, j) :: l, ⟨s1, s2, s3⟩ =>
      subst s2
      rw [lprevUp, prevUp]
      rcases List.eq_nil_or_concat A with rfl | ⟨A, ⟨k', c⟩, rfl⟩
      · have n0 : ¬ 0 < ([] : List (Bytes × Nat)).length := by simp
        rw [if_neg n0, if_neg n0]
        exact ih h8 (fun x hx => hD x (List.mem_append_left _ hx)) s3
      · rw [List.concat_eq_append] at h4 hD ⊢
        have h4' : entries p = A ++ (k', c) :: (ky, n) :: B := by rw [h4]; simp
        have hc := child_spec h2 h3 h4'
        have n0 : 0 < (A ++ [(k', c)]).length := by simp
        have s1' : x.page env t1 = .ok p := s1
        rw [if_pos n0, if_pos n0, s1', Res.ok_bind, show (A ++ [(k', c)]).length - 1 = A.length by simp, hc, Res.ok_bind, Res.ok_bind]
        refine lrightmost_kept k h (by omega) (h6 (k', c) (by rw [h4]; simp)) ?_ (l := (x, _) :: l) (st := (p, _) :: st) ⟨s1, rfl, s3⟩
        intro y hy
        apply hD
        rw [List.flatMap_append]
        simp only [List.flatMap_cons, List.flatMap_nil, List.append_nil]
        exact List.mem_append_right _ (List.mem_append_right _ hy)

/-- The cursor with pointers stands where `kv` is (or was: `Z` is what the leaf has from there on); `A` and `B` are the pairs before and after it when
the loop began. -/
def LAt (env : Env) (t0 t1 : Txn) (H root : Nat) (l : List (Ref × Nat)) (A : List (Bytes × Bytes)) (kv : Bytes × Bytes) (B Z : List (Bytes × Bytes)) : Prop :=
  ∃ x rest' p rest n L R X Y q, l = (x, X.length) :: rest' ∧ getPage env t0 n = .ok p ∧ WF p ∧ isLeaf p = true ∧
    Up (getPage env t0) True H root 0 n rest L R ∧ kvs p = X ++ kv :: Y ∧ A = L ++ X ∧ B = Y ++ R ∧ Shows (Firm env t1) rest' rest ∧
    x.page env t1 = .ok q ∧ WF q ∧ isLeaf q = true ∧ kvs q = X ++ Z

theorem lat_of_at {H root : Nat} {l : List (Ref × Nat)} {st : List (Page × Nat)} {A B : List (Bytes × Bytes)} {kv : Bytes × Bytes}
    (h : At (getPage env t0) True H root st A kv B) (hs : Shows (Now env t1) l st) : ∃ Z, LAt env t0 t1 H root l A kv B (kv :: Z) := by
  obtain ⟨p, i, rest, n, L, R, X, Y, rfl, h1, h2, h3, h4, h5, rfl, rfl, rfl⟩ := h
  match l, hs with
  | (x, j) :: l, ⟨s1, s2, s3⟩ =>
    subst s2
    exact ⟨Y, x, l, p, rest, n, L, R, X, Y, p, rfl, h1, h2, h3, h4, h5, rfl, rfl, firm_of_up rest h4 s3, s1, h2, h3, h5⟩

theorem lat_shows {H root : Nat} {l : List (Ref × Nat)} {A B Z : List (Bytes × Bytes)} {kv : Bytes × Bytes}
    (h : LAt env t0 t1 H root l A kv B (kv :: Z)) : latCursor env t1 ⟨l, false⟩ = .ok (.ok kv) := by
  obtain ⟨x, rest', p, rest, n, L, R, X, Y, q, rfl, h1, h2, h3, h4, h5, -, -, h6, h7, h8, h9, h10⟩ := h
  have hnk : numKeys q = X.length + 1 + Z.length := by rw [← kvs_len, h10]; simp; omega
  simp only [latCursor, Bool.false_eq_true, if_false]
  have hno : ¬ numKeys q ≤ X.length := by omega
  rw [h7, Res.ok_bind, if_neg hno, leafNode_spec h8 h9 (kv := kv) (by rw [h10]; simp), Res.ok_bind]

/-- Deleting the pair under the cursor leaves what is before it in the leaf. -/
theorem lat_del {H root h : Nat} {l : List (Ref × Nat)} {A B Z m : List (Bytes × Bytes)} {kv : Bytes × Bytes} (hw : t1.rdonly = false) (hh : Holds env t1 h m)
    (hk : kv.1.length < 65536) (hd : h < maxDepth) {r : Status × Txn} (hdel : del env t1 kv.1 = .ok r)
    (H0 : LAt env t0 t1 H root l A kv B (kv :: Z)) : ∃ Z', LAt env t0 r.2 H root l A kv B Z' := by
  obtain ⟨x, rest', p, rest, n, L, R, X, Y, q, h0, h1, h2, h3, h4, h5, e1, e2, h6, h7, h8, h9, h10⟩ := H0
  have hfm := (del_kept (D := fun _ => True) hw hh hk hd hdel (Lasting.refl env t1 _) trivial).2
  have hrest := shows_mono hfm h6
  have same : x.page env r.2 = .ok q → ∃ Z', LAt env t0 r.2 H root l A kv B Z' := fun hx =>
    ⟨kv :: Z, x, rest', p, rest, n, L, R, X, Y, q, h0, h1, h2, h3, h4, h5, e1, e2, hrest, hx, h8, h9, h10⟩
  obtain ⟨no, dirty⟩ := x
  cases dirty with
  | false => exact same h7
  | true =>
    have hg : t1.getDirty no = some q := by
      unfold Ref.page at h7
      simp only [if_true] at h7
      cases hx : t1.getDirty no with
      | none => rw [hx] at h7; cases h7
      | some y => rw [hx] at h7; cases h7; rfl
    rcases del_where hw hh hk hd hdel with e | ⟨w, pw, qw, a1, a2, -, b1, b2, b3, -, -, b5, ⟨c1, c2, A', v, B', c3, c4, c5⟩, -⟩
    · exact same (by rw [e]; exact h7)
    · by_cases hno : no = w
      · subst hno
        have := getPage_dirty (env := env) hw hg
        rw [a1] at this
        cases this
        have hX : ∀ a ∈ X, a.1 < kv.1 := by
          intro a ha
          rw [keys_eq_kvs, h10, List.map_append, List.map_cons, sorted_append] at c2
          exact c2.2.2 _ (List.mem_map_of_mem ha) _ List.mem_cons_self
        have hsp : X = A' ∧ Z = B' := by
          obtain ⟨k, v0⟩ := kv
          exact split_unique (h10.symm.trans c4) hX c3
        refine ⟨B', ⟨no, true⟩, rest', p, rest, n, L, R, X, Y, qw, h0, h1, h2, h3, h4, h5, e1, e2, hrest, ?_, c1, b3, by rw [c5, hsp.1]⟩
        unfold Ref.page
        simp only [if_true]
        rw [b1]; rfl
      · refine same ?_
        unfold Ref.page
        simp only [if_true]
        rw [b5 no q hno hg]; rfl

theorem lat_prev (k : Lasting env t0 t1 D) {H root fuel : Nat} (hH : H < maxDepth) (hf : H < fuel) {l : List (Ref × Nat)} {A B Z : List (Bytes × Bytes)} {kv : Bytes × Bytes}
    (hD : ∀ x ∈ A, ¬ D x.1) (H0 : LAt env t0 t1 H root l A kv B Z) :
    (A = [] → lprev env t1 fuel ⟨l, false⟩ = .ok (.notfound, ⟨[], true⟩)) ∧
    (∀ A' kv', A = A' ++ [kv'] → ∃ l' Z', lprev env t1 fuel ⟨l, false⟩ = .ok (.success, ⟨l', false⟩) ∧ LAt env t0 t1 H root l' A' kv' (kv :: B) (kv' :: Z')) := by
  obtain ⟨x, rest', p, rest, n, L, R, X, Y, q, rfl, h1, h2, h3, h4, h5, rfl, rfl, h6, h7, h8, h9, h10⟩ := H0
  rcases List.eq_nil_or_concat X with rfl | ⟨X, y, rfl⟩
  · have hup : lprev env t1 fuel ⟨(x, ([] : List (Bytes × Bytes)).length) :: rest', false⟩ = lprevUp env t1 fuel rest' := by
      simp [lprev]
    rw [hup]
    have hal := lprevUp_kept k hf rest h4 (fun x hx => hD x (List.mem_append_left _ hx)) (shows_mono (fun _ _ h => h.1) h6)
    obtain ⟨i1, i2⟩ := prevUp_spec hH hf rest h4
    simp only [List.append_nil]
    constructor
    · intro hL
      rw [i1 hL] at hal
      obtain ⟨l', f1, f2⟩ := alike_ok hal
      match l', f2 with
      | [], _ => exact f1
    · intro A' kv' hL
      obtain ⟨st', j1, j2⟩ := i2 A' kv' hL
      rw [j1] at hal
      obtain ⟨l', f1, f2⟩ := alike_ok hal
      rw [contents_zero h1, h5] at j2
      obtain ⟨Z', g⟩ := lat_of_at j2 f2
      exact ⟨l', Z', f1, by simpa using g⟩
  · rw [List.concat_eq_append] at h5 h10 ⊢
    have hup : lprev env t1 fuel ⟨(x, (X ++ [y]).length) :: rest', false⟩ = .ok (.success, ⟨(x, X.length) :: rest', false⟩) := by
      simp [lprev]
    rw [hup]
    refine ⟨fun hA => by simp at hA, fun A' kv' hA => ?_⟩
    rw [← List.append_assoc] at hA
    have := List.append_inj' hA rfl
    simp only [List.cons.injEq, and_true] at this
    obtain ⟨rfl, rfl⟩ := this
    exact ⟨_, Z, rfl, x, rest', p, rest, n, L, R, X, kv :: Y, q, rfl, h1, h2, h3, h4, by rw [h5]; simp, rfl, by simp, h6, h7, h8, h9, by rw [h10]; simp⟩

end

/-- One round of the loop without the step. -/
theorem sweepDown_step {env : Env} {t0 t1 : Txn} {H root : Nat} {pick : Bytes × Bytes → Bool} (hH : H < maxDepth) {A B Z : List (Bytes × Bytes)} {kv : Bytes × Bytes}
    {l : List (Ref × Nat)} (hkey : kv.1.length < 65536)
    (hs : LAt env t0 t1 H root l A kv B (kv :: Z)) (hk : Lasting env t0 t1 (fun k => ∃ x ∈ B, pick x = true ∧ x.1 = k)) (hw : t1.rdonly = false)
    (hh : Holds env t1 H (A ++ kv :: B.filter (fun x => !pick x))) :
    ∃ t2 Z', (if pick kv then (del env t1 kv.1 >>= fun d => .ok d.2) else .ok t1) = .ok t2 ∧ t2.rdonly = false ∧
      Lasting env t0 t2 (fun k => ∃ x ∈ kv :: B, pick x = true ∧ x.1 = k) ∧ LAt env t0 t2 H root l A kv B Z' ∧
      Holds env t2 H (A ++ (kv :: B).filter (fun x => !pick x)) := by
  have hmono := hk.mono (D' := fun k => ∃ x ∈ kv :: B, pick x = true ∧ x.1 = k) (by
    rintro k ⟨x, h1, h2⟩; exact ⟨x, List.mem_cons_of_mem _ h1, h2⟩)
  by_cases hp : pick kv = true
  · rw [if_pos hp]
    have hfil : (kv :: B).filter (fun x => !pick x) = B.filter (fun x => !pick x) := by
      rw [List.filter_cons]; simp [hp]
    rw [hfil]
    have hsrt := holds_sorted hh
    unfold Ascending at hsrt
    rw [List.map_append, List.map_cons, sorted_append, sorted_cons] at hsrt
    rcases del_spec hw hh hkey hH with ⟨hn, -⟩ | ⟨A', v, B', t2, a1, a2, a3, a4, a5, a6, -⟩
    · exfalso
      rw [lookup_none_iff] at hn
      exact hn (by simp)
    · obtain ⟨b1, b2⟩ := del_kept hw hh hkey hH a4 hmono ⟨kv, by simp, hp, rfl⟩
      obtain ⟨Z', b3⟩ := lat_del hw hh hkey hH a4 hs
      obtain ⟨k, v0⟩ := kv
      obtain ⟨rfl, rfl⟩ := split_unique a1 (fun a ha => hsrt.2.2 _ (List.mem_map_of_mem ha) _ List.mem_cons_self) a2
      exact ⟨t2, Z', by rw [a4, Res.ok_bind], a6, b1, b3, a5⟩
  · rw [if_neg hp]
    have hfil : (kv :: B).filter (fun x => !pick x) = kv :: B.filter (fun x => !pick x) := by
      rw [List.filter_cons]; simp [hp]
    rw [hfil]
    exact ⟨t1, kv :: Z, rfl, hw, hmono, hs, hh⟩

theorem sweepDown_spec {env : Env} {t0 : Txn} {H fuel : Nat} {pick : Bytes × Bytes → Bool} (hH : H < maxDepth) (hf : H < fuel) (m : Nat) :
    ∀ {n : Nat} {t1 : Txn} {l : List (Ref × Nat)} {A B Z : List (Bytes × Bytes)} {kv : Bytes × Bytes}, A.length = m → (∀ x ∈ A ++ [kv], x.1.length < 65536) →
    Ascending (A ++ kv :: B) → LAt env t0 t1 H t0.root l A kv B (kv :: Z) → Lasting env t0 t1 (fun k => ∃ x ∈ B, pick x = true ∧ x.1 = k) → t1.rdonly = false →
    Holds env t1 H (A ++ kv :: B.filter (fun x => !pick x)) → A.length + 1 < n →
    ∃ t', sweepDown env fuel pick n t1 (⟨l, false⟩, .ok kv) = .ok (kv :: A.reverse, .notfound, t') ∧ t'.rdonly = false ∧
      Holds env t' H ((A ++ kv :: B).filter fun x => !pick x) := by
  induction m with
  | zero =>
    intro n t1 l A B Z kv hA hshort hsorted hat hk hw hh hn
    obtain rfl : A = [] := List.length_eq_zero_iff.1 hA
    obtain ⟨n, rfl⟩ : ∃ m, n = m + 2 := ⟨n - 2, by simp at hn; omega⟩
    obtain ⟨t2, Z', e1, e2, e3, e4, e5⟩ := sweepDown_step hH (hshort kv (by simp)) hat hk hw hh
    have hprev := (lat_prev e3 hH hf (by simp) e4).1 rfl
    refine ⟨t2, ?_, e2, by simpa using e5⟩
    rw [sweepDown]
    simp only []
    rw [e1, Res.ok_bind]
    have : lcursorGet env t2 fuel ⟨l, false⟩ .prev = .ok (⟨[], true⟩, .error .notfound) := by
      unfold lcursorGet lmove
      simp only []
      rw [hprev, Res.ok_bind]
      rfl
    rw [this, Res.ok_bind, sweepDown]
    rfl
  | succ m ih =>
    intro n t1 l A B Z kv hA hshort hsorted hat hk hw hh hn
    obtain ⟨n, rfl⟩ : ∃ m, n = m + 1 := ⟨n - 1, by omega⟩
    obtain ⟨t2, Z', e1, e2, e3, e4, e5⟩ := sweepDown_step hH (hshort kv (by simp)) hat hk hw hh
    rcases List.eq_nil_or_concat A with rfl | ⟨A, kv', rfl⟩
    · cases hA
    · rw [List.concat_eq_append] at *
      have hdis : ∀ x ∈ A ++ [kv'], ¬ ∃ y ∈ kv :: B, pick y = true ∧ y.1 = x.1 := by
        rintro x hx ⟨y, hy, -, hyx⟩
        unfold Ascending at hsorted
        rw [List.map_append, sorted_append] at hsorted
        have := hsorted.2.2 x.1 (List.mem_map_of_mem hx) y.1 (List.mem_map_of_mem hy)
        rw [hyx] at this
        exact blt_irrefl _ this
      obtain ⟨l', Z2, f1, f2⟩ := (lat_prev e3 hH hf hdis e4).2 A kv' rfl
      obtain ⟨t', g1, g2, g3⟩ := ih (n := n) (by simpa using hA) (fun x hx => hshort x (List.mem_append_left _ hx))
        (by simpa using hsorted) f2 e3 e2 (by simpa using e5) (by simp at hn; omega)
      refine ⟨t', ?_, g2, by simpa using g3⟩
      rw [sweepDown]
      simp only []
      rw [e1, Res.ok_bind]
      have : lcursorGet env t2 fuel ⟨l, false⟩ .prev = .ok (⟨l', false⟩, .ok kv') := by
        unfold lcursorGet lmove
        simp only []
        rw [f1, Res.ok_bind]
        simp only [if_true]
        rw [lat_shows f2, Res.ok_bind]
      rw [this, Res.ok_bind, g1, Res.ok_bind]
      simp

/-- C136 for a loop that goes backwards (NAPR_DB_LAST, NAPR_DB_PREV), whatever the transaction has done before, for trees of at most 32 levels without
empty leaves: the loop sees every pair exactly once, in descending order of the keys, whichever of them it deletes, ends with "not found",
and exactly the pairs it did not pick are left. -/
theorem delete_going_back_partial {env : Env} {t : Txn} {h fuel n : Nat} {l : List (Bytes × Bytes)} (pick : Bytes × Bytes → Bool) (hw : t.rdonly = false)
    (hh : Holds env t h l) (hd : h < 32) (hne : t.root ≠ 0 → Full (getPage env t) h t.root) (hf : h < fuel) (hn : l.length + 1 < n) :
    ∃ t', sweepBack env fuel n pick t = .ok (l.reverse, .notfound, t') ∧ t'.rdonly = false ∧ Holds env t' h (l.filter fun x => !pick x) := by
  have hh' := hh
  have hsrt := holds_sorted hh
  rcases hh with ⟨h0, rfl⟩ | ⟨h0, ht, rfl⟩
  · refine ⟨t, ?_, hw, .inl ⟨h0, rfl⟩⟩
    obtain ⟨n, rfl⟩ : ∃ m, n = m + 1 := ⟨n - 1, by omega⟩
    have : lcursorGet env t fuel LCursor.opened (.seek .last) = .ok (⟨[], true⟩, .error .notfound) := by
      unfold lcursorGet lmove lseek
      simp only [if_pos h0]
      rfl
    unfold sweepBack
    rw [this, Res.ok_bind, sweepDown]
    rfl
  · have hsh := (shape_of_wft h ht.wft).2 (hne h0)
    obtain ⟨st, kv, A, a1, a2⟩ := seek_last (H := h) hd hf h0 hsh
    have hc := at_contents a2
    have hal := lseek_same (env := env) (t := t) fuel .last
    rw [a1] at hal
    obtain ⟨l', f1, f2⟩ := alike_ok hal
    obtain ⟨Z, f3⟩ := lat_of_at a2 f2
    have hshort := contents_short h hsh
    rw [hc] at hshort hsrt hh' hn ⊢
    obtain ⟨t', g1, g2, g3⟩ := sweepDown_spec (pick := pick) hd hf A.length (n := n) rfl hshort hsrt f3
      (Lasting.refl env t _) hw (by simpa using hh') (by simp at hn; omega)
    refine ⟨t', ?_, g2, g3⟩
    have : lcursorGet env t fuel LCursor.opened (.seek .last) = .ok (⟨l', false⟩, .ok kv) := by
      unfold lcursorGet lmove
      simp only []
      rw [f1, Res.ok_bind]
      simp only [if_true]
      rw [lat_shows f3, Res.ok_bind]
    unfold sweepBack
    rw [this, Res.ok_bind, g1, List.reverse_append]
    rfl

/-- The keys stored by a transaction, and a loop backwards in the same transaction: the keys seen, the last status, the keys left. -/
def backDemo (l : List (Bytes × Bytes)) (pick : Bytes × Bytes → Bool) : Res (List (Option UInt8) × Status × List (Option UInt8)) := do
  let a ← puts env0 5 txn0 l
  let r ← sweepBack env0 5 9 pick a.2
  let s ← scan env0 r.2.2 5 9 .first .next
  .ok (r.1.map fun kv => kv.1.head?, r.2.1, s.1.map fun kv => kv.1.head?)

/-- Where the loop forwards misses "b" (`deleting_skips`), the loop backwards does not; with two leaves; with some pairs picked. -/
example : backDemo [([97], [1]), ([98], [1]), ([99], [1])] (fun _ => true) = .ok ([some 99, some 98, some 97], .notfound, []) ∧
    backDemo [([97], val2), ([98], val2), ([99], val2)] (fun _ => true) = .ok ([some 99, some 98, some 97], .notfound, []) ∧
    backDemo [([97], val2), ([98], val2), ([99], val2)] (fun kv => kv.1 == [98]) = .ok ([some 99, some 98, some 97], .notfound, [some 97, some 99]) := by
  decide +kernel

/-- C136 for a transaction that has just begun on a database that holds `m`: the loop backwards sees the pairs of `m`, each once, in descending order, and what
is stored afterwards is `m` without the picked pairs. -/
theorem delete_going_back_begun_partial {env env1 : Env} {t : Txn} {h hf fuel : Nat} {m : KvMap} {fl : List (Bytes × Bytes)} (pick : Bytes × Bytes → Bool)
    (hdb : DbOk env h hf m fl) (hid : metaTxnid env.liveMeta + 1 < 2 ^ 64) (hb : beginWrite env = some (env1, t)) (hd : h < 32)
    (hne : t.root ≠ 0 → Full (getPage env1 t) h t.root) (hfu : h < fuel) :
    ∃ l : List (Bytes × Bytes), (∀ k, l.lookup k = m k) ∧ (l.map Prod.fst).Pairwise (· < ·) ∧ ∀ n, l.length + 1 < n →
      ∃ t', sweepBack env1 fuel n pick t = .ok (l.reverse, .notfound, t') ∧ IsMap env1 t' h fun k => (m k).filter fun v => !pick (k, v) := by
  obtain ⟨a1, a2, a3⟩ := begin_eq hb
  obtain ⟨env', t', b1, -, -, W⟩ := begin_writing hdb a1 hid
  rw [hb] at b1; cases b1
  obtain ⟨l, hl, hlm⟩ := W.map
  have hs := holds_sorted hl
  refine ⟨l, hlm, hs, fun n hn => ?_⟩
  obtain ⟨t', c1, -, c3⟩ := delete_going_back_partial pick W.clean.rdonly hl hd hne hfu hn
  refine ⟨t', c1, _, c3, fun k => ?_⟩
  rw [lookup_picked _ _ hs, hlm]

/-- The database with "a" and "b" meets the conditions: a loop backwards that deletes "a" sees both and leaves "b". -/
example : ∃ env1 t, ∃ l : List (Bytes × Bytes), ∃ t', beginWrite twoDb = some (env1, t) ∧ (∀ k, l.lookup k = KvMap.put (KvMap.put (fun _ => none) [97] [1]) [98] [2] k) ∧
    sweepBack env1 1 (l.length + 2) (fun kv => kv.1 == [97]) t = .ok (l.reverse, .notfound, t') ∧
    IsMap env1 t' 0 fun k => (KvMap.put (KvMap.put (fun _ => none) [97] [1]) [98] [2] k).filter fun _ => !(k == [97]) := by
  obtain ⟨h, hf, fl, env1, t, -, hdb, hb, -, c1, -, c2, -⟩ := twoDb_blocks
  have c8 : (mapPage twoDb 2 >>= fun p => .ok (isLeaf p, decide (numKeys p = 2))) = .ok (true, true) := by decide +kernel
  obtain ⟨q, q1, q2⟩ := Res.bind_eq_ok.1 c8
  have q2 := Res.ok.inj q2
  simp only [Prod.mk.injEq, decide_eq_true_eq] at q2
  obtain ⟨b0, b1, b2⟩ := begin_eq hb
  have hg : getPage env1 t t.root = .ok q := by
    have hr : t.root = 2 := by rw [b2]; exact c2
    rw [hr]
    unfold getPage
    rw [show t.rdonly = false by rw [b2], show t.getDirty 2 = none by rw [b2]; rfl, b1]
    exact q1
  have hroot : t.root ≠ 0 := by rw [b2]; show metaRoot _ ≠ 0; rw [c2]; decide
  have h0 : h = 0 := by
    obtain ⟨env', t', b1, -, -, W⟩ := begin_writing hdb b0 (by rw [c1]; decide)
    rw [hb] at b1; cases b1
    obtain ⟨l, hl, -⟩ := W.map
    rcases hl with ⟨h, -⟩ | ⟨-, ht, -⟩
    · exact absurd h hroot
    · cases h with
      | zero => rfl
      | succ h =>
        obtain ⟨p, p1, -, -, p2, -⟩ := ht.wft
        rw [hg] at p1; cases p1
        rw [q2.1] at p2; cases p2
  subst h0
  obtain ⟨l, l1, -, l3⟩ := delete_going_back_begun_partial (fuel := 1) (fun kv => kv.1 == [97]) hdb (by rw [c1]; decide) hb (by decide) (by
    intro _ p hp
    rw [hg] at hp; cases hp
    intro hi
    have := items_length q
    rw [hi, q2.2] at this
    cases this) (by decide)
  obtain ⟨t', e1, e2⟩ := l3 (l.length + 2) (by omega)
  exact ⟨env1, t, l, t', hb, l1, e1, e2⟩

end Verif.Db
