import Verif.Db.Ops

/-!
# Helper lemmas: cursors

A cursor stack in a well-formed tree stands for a place in the listing: the pairs before, the
pair under the cursor, the pairs after.
-/

namespace Verif.Db

open Verif.Page

/-- Pages have the right kinds; with `ne`, no leaf is empty. -/
def Shape (g : View) (ne : Prop) : Nat → Nat → Prop
  | 0, n => ∃ p, g n = .ok p ∧ WF p ∧ isLeaf p = true ∧ (ne → kvs p ≠ [])
  | h + 1, n => ∃ p, g n = .ok p ∧ WF p ∧ isLeaf p = false ∧ entries p ≠ [] ∧ ∀ e ∈ entries p, Shape g ne h e.2

/-- Subtree `n` of height `h` hangs below the stack `st` in the tree of height `H` at `root`; `L`
and `R` are the pairs to the left and right of it. -/
def Up (g : View) (ne : Prop) (H root : Nat) : Nat → Nat → List (Page × Nat) → List (Bytes × Bytes) → List (Bytes × Bytes) → Prop
  | h, n, [], L, R => h = H ∧ n = root ∧ L = [] ∧ R = []
  | h, n, (p, i) :: st, L, R => ∃ n' A k B L' R', g n' = .ok p ∧ WF p ∧ isLeaf p = false ∧ entries p = A ++ (k, n) :: B ∧
      A.length = i ∧ (∀ e ∈ entries p, Shape g ne h e.2) ∧ Up g ne H root (h + 1) n' st L' R' ∧
      L = L' ++ (A.flatMap fun e => contents g h e.2) ∧ R = (B.flatMap fun e => contents g h e.2) ++ R'

/-- The cursor stack is at pair `kv`, with `A` before and `B` after it. -/
def At (g : View) (ne : Prop) (H root : Nat) (st : List (Page × Nat)) (A : List (Bytes × Bytes)) (kv : Bytes × Bytes)
    (B : List (Bytes × Bytes)) : Prop :=
  ∃ p i rest n L R X Y, st = (p, i) :: rest ∧ g n = .ok p ∧ WF p ∧ isLeaf p = true ∧ Up g ne H root 0 n rest L R ∧
    kvs p = X ++ kv :: Y ∧ X.length = i ∧ A = L ++ X ∧ B = Y ++ R

theorem shape_nonempty {g : View} {h : Nat} : ∀ {n : Nat}, Shape g True h n → contents g h n ≠ [] := by
  induction h with
  | zero =>
    rintro n ⟨p, h1, -, -, h4⟩
    rw [contents_zero h1]; exact h4 trivial
  | succ h ih =>
    rintro n ⟨p, h1, -, -, h4, h5⟩
    rw [contents_succ h1]
    obtain ⟨e, he⟩ := List.exists_mem_of_ne_nil _ h4
    intro hn
    exact ih (h5 e he) (List.flatMap_eq_nil_iff.1 hn e he)

theorem flatMap_nonempty {g : View} {h : Nat} {B : List (Bytes × Nat)} (hB : ∀ e ∈ B, Shape g True h e.2) (h0 : B ≠ []) :
    (B.flatMap fun e => contents g h e.2) ≠ [] := by
  obtain ⟨e, he⟩ := List.exists_mem_of_ne_nil _ h0
  intro hn
  exact shape_nonempty (hB e he) (List.flatMap_eq_nil_iff.1 hn e he)

theorem up_length {g : View} {ne : Prop} {H root : Nat} (st : List (Page × Nat)) : ∀ {h n : Nat} {L R : List (Bytes × Bytes)},
    Up g ne H root h n st L R → st.length + h = H := by
  induction st with
  | nil => rintro h n L R ⟨rfl, -⟩; simp
  | cons a st ih =>
    rintro h n L R ⟨n', A, k, B, L', R', -, -, -, -, -, -, h1, -⟩
    have := ih h1
    simp only [List.length_cons]; omega

theorem up_contents {g : View} {ne : Prop} {H root : Nat} (st : List (Page × Nat)) : ∀ {h n : Nat} {L R : List (Bytes × Bytes)},
    Up g ne H root h n st L R → contents g H root = L ++ contents g h n ++ R := by
  induction st with
  | nil => rintro h n L R ⟨rfl, rfl, rfl, rfl⟩; simp
  | cons a st ih =>
    rintro h n L R ⟨n', A, k, B, L', R', h1, h2, h3, h4, h5, -, h8, rfl, rfl⟩
    rw [ih h8, contents_succ h1, h4]
    simp [List.flatMap_append]

theorem at_contents {g : View} {ne : Prop} {H root : Nat} {st : List (Page × Nat)} {A B : List (Bytes × Bytes)} {kv : Bytes × Bytes}
    (h : At g ne H root st A kv B) : contents g H root = A ++ kv :: B := by
  obtain ⟨p, i, rest, n, L, R, X, Y, rfl, h1, h2, h3, h4, h5, h6, rfl, rfl⟩ := h
  rw [up_contents _ h4, contents_zero h1, h5]; simp

theorem shape_of_wft {g : View} (h : Nat) : ∀ {lo hi : Option Bytes} {n : Nat}, WFT g h lo hi n →
    Shape g False h n ∧ (Full g h n → Shape g True h n) := by
  induction h with
  | zero =>
    rintro lo hi n ⟨p, h1, h2, h3, h4, h5, h6⟩
    refine ⟨⟨p, h1, h3, h4, fun hf => hf.elim⟩, fun hne => ⟨p, h1, h3, h4, fun _ => ?_⟩⟩
    have := hne p h1
    unfold kvs; simpa using this
  | succ h ih =>
    rintro lo hi n ⟨p, h1, h2, h3, h4, h5, h6⟩
    have key : ∀ e ∈ entries p, ∃ lo hi, WFT g h lo hi e.2 := by
      intro e he
      obtain ⟨A, B, hAB⟩ := List.append_of_mem he
      rw [hAB] at h6
      exact ⟨_, _, (kids_focus h6).1⟩
    refine ⟨⟨p, h1, h3, h4, kids_ne_nil h6, fun e he => ?_⟩, fun hne => ⟨p, h1, h3, h4, kids_ne_nil h6, fun e he => ?_⟩⟩
    · obtain ⟨lo, hi, hw⟩ := key e he; exact (ih hw).1
    · obtain ⟨lo, hi, hw⟩ := key e he
      exact (ih hw).2 (hne p h1 e he)

theorem push_ok {st : List (Page × Nat)} {p : Page} {i : Nat} (h : st.length < maxDepth) : push st p i = (p, i) :: st := by
  unfold push; rw [if_pos h]

theorem numKeys_lt (p : Page) : numKeys p < 65536 := by
  unfold numKeys u16
  have := (p 10).toNat_lt
  have := (p (10 + 1)).toNat_lt
  omega

theorem kvs_len (p : Page) : (kvs p).length = numKeys p := by unfold kvs; simp

theorem leftmost_spec {env : Env} {t : Txn} {H root : Nat} (hH : H < maxDepth) (h : Nat) : ∀ {n fuel : Nat} {st : List (Page × Nat)}
    {L R : List (Bytes × Bytes)}, h < fuel → Shape (getPage env t) True h n → Up (getPage env t) True H root h n st L R →
    ∃ st' kv B, leftmost env t fuel st n = .ok (.success, ⟨st', false⟩) ∧ At (getPage env t) True H root st' L kv B ∧
      contents (getPage env t) h n ++ R = kv :: B := by
  induction h with
  | zero =>
    rintro n fuel st L R hf ⟨p, h1, h2, h3, h4⟩ hu
    obtain ⟨fuel, rfl⟩ : ∃ f, fuel = f + 1 := ⟨fuel - 1, by omega⟩
    have hl := up_length _ hu
    obtain ⟨kv, Y, hk⟩ := List.exists_cons_of_ne_nil (h4 trivial)
    have hnk : numKeys p ≠ 0 := by rw [← kvs_len, hk]; simp
    refine ⟨(p, 0) :: st, kv, Y ++ R, ?_, ⟨p, 0, st, n, L, R, [], Y, rfl, h1, h2, h3, hu, hk, rfl, by simp, rfl⟩, ?_⟩
    · rw [leftmost, h1, Res.ok_bind, if_pos h3, if_neg hnk, push_ok (by omega)]
    · rw [contents_zero h1, hk]; rfl
  | succ h ih =>
    rintro n fuel st L R hf ⟨p, h1, h2, h3, h4, h5⟩ hu
    obtain ⟨fuel, rfl⟩ : ∃ f, fuel = f + 1 := ⟨fuel - 1, by omega⟩
    have hl := up_length _ hu
    obtain ⟨⟨k, c⟩, B, hB⟩ := List.exists_cons_of_ne_nil h4
    have hc := child_spec h2 h3 (A := []) hB
    obtain ⟨st', kv, B', a1, a2, a3⟩ := ih (n := c) (fuel := fuel) (st := (p, 0) :: st) (L := L) (R := (B.flatMap fun e => contents (getPage env t) h e.2) ++ R)
      (by omega) (h5 (k, c) (by rw [hB]; exact List.mem_cons_self))
      ⟨n, [], k, B, L, R, h1, h2, h3, hB, rfl, h5, hu, by simp, rfl⟩
    refine ⟨st', kv, B', ?_, a2, ?_⟩
    · rw [leftmost, h1, Res.ok_bind, if_neg (by simp [h3])]
      have hc' : child p 0 = .ok c := hc
      rw [hc', Res.ok_bind, push_ok (by omega), a1]
    · rw [contents_succ h1, hB, List.flatMap_cons, List.append_assoc]; exact a3

theorem rightmost_spec {env : Env} {t : Txn} {H root : Nat} (hH : H < maxDepth) (h : Nat) : ∀ {n fuel : Nat} {st : List (Page × Nat)}
    {L R : List (Bytes × Bytes)}, h < fuel → Shape (getPage env t) True h n → Up (getPage env t) True H root h n st L R →
    ∃ st' kv A, rightmost env t fuel st n = .ok (.success, ⟨st', false⟩) ∧ At (getPage env t) True H root st' A kv R ∧
      L ++ contents (getPage env t) h n = A ++ [kv] := by
  induction h with
  | zero =>
    rintro n fuel st L R hf ⟨p, h1, h2, h3, h4⟩ hu
    obtain ⟨fuel, rfl⟩ : ∃ f, fuel = f + 1 := ⟨fuel - 1, by omega⟩
    have hl := up_length _ hu
    rcases List.eq_nil_or_concat (kvs p) with hk | ⟨X, kv, hk⟩
    · exact absurd hk (h4 trivial)
    rw [List.concat_eq_append] at hk
    have hnk : numKeys p = X.length + 1 := by rw [← kvs_len, hk]; simp
    refine ⟨(p, X.length) :: st, kv, L ++ X, ?_, ⟨p, X.length, st, n, L, R, X, [], rfl, h1, h2, h3, hu, hk, rfl, rfl, by simp⟩, ?_⟩
    · rw [rightmost, h1, Res.ok_bind, if_neg (by omega), if_pos h3, push_ok (by omega), hnk]; rfl
    · rw [contents_zero h1, hk]; simp
  | succ h ih =>
    rintro n fuel st L R hf ⟨p, h1, h2, h3, h4, h5⟩ hu
    obtain ⟨fuel, rfl⟩ : ∃ f, fuel = f + 1 := ⟨fuel - 1, by omega⟩
    have hl := up_length _ hu
    rcases List.eq_nil_or_concat (entries p) with hB | ⟨A, ⟨k, c⟩, hB⟩
    · exact absurd hB h4
    rw [List.concat_eq_append] at hB
    have hc := child_spec h2 h3 hB
    have hnk : numKeys p = A.length + 1 := by rw [← entries_length, hB]; simp
    obtain ⟨st', kv, A', a1, a2, a3⟩ := ih (n := c) (fuel := fuel) (st := (p, A.length) :: st) (R := R) (L := L ++ (A.flatMap fun e => contents (getPage env t) h e.2))
      (by omega) (h5 (k, c) (by rw [hB]; simp))
      ⟨n, A, k, [], L, R, h1, h2, h3, hB, rfl, h5, hu, rfl, by simp⟩
    refine ⟨st', kv, A', ?_, a2, ?_⟩
    · rw [rightmost, h1, Res.ok_bind, if_neg (by omega), if_neg (by simp [h3]), show numKeys p - 1 = A.length by omega, hc, Res.ok_bind,
        push_ok (by omega), a1]
    · rw [contents_succ h1, hB, List.flatMap_append]
      simp only [List.flatMap_cons, List.flatMap_nil, List.append_nil]
      rw [← List.append_assoc]; exact a3

theorem nextUp_spec {env : Env} {t : Txn} {H root fuel : Nat} (hH : H < maxDepth) (hf : H < fuel) (st : List (Page × Nat)) :
    ∀ {h n : Nat} {L R : List (Bytes × Bytes)}, Up (getPage env t) True H root h n st L R →
    (R = [] → nextUp env t fuel st = .ok (.notfound, ⟨[], true⟩)) ∧
    (∀ kv B, R = kv :: B → ∃ st', nextUp env t fuel st = .ok (.success, ⟨st', false⟩) ∧
      At (getPage env t) True H root st' (L ++ contents (getPage env t) h n) kv B) := by
  induction st with
  | nil =>
    rintro h n L R ⟨rfl, rfl, rfl, rfl⟩
    exact ⟨fun _ => rfl, by intro kv B hh; cases hh⟩
  | cons a st ih =>
    obtain ⟨p, i⟩ := a
    rintro h n L R ⟨n', A, k, B, L', R', h1, h2, h3, h4, rfl, h6, h8, rfl, rfl⟩
    have hlt := numKeys_lt p
    have hlen := up_length _ h8
    have hnk : numKeys p = A.length + 1 + B.length := by rw [← entries_length, h4]; simp; omega
    have hmod : (A.length + 1) % 65536 = A.length + 1 := Nat.mod_eq_of_lt (by omega)
    cases B with
    | nil =>
      have hup : nextUp env t fuel ((p, A.length) :: st) = nextUp env t fuel st := by
        rw [nextUp, hmod, if_neg (by simp at hnk; omega)]
      rw [hup]
      obtain ⟨i1, i2⟩ := ih h8
      refine ⟨fun hR => i1 (by simpa using hR), fun kv B hR => ?_⟩
      obtain ⟨st', e1, e2⟩ := i2 kv B (by simpa using hR)
      refine ⟨st', e1, ?_⟩
      have : L' ++ contents (getPage env t) (h + 1) n' = (L' ++ A.flatMap fun e => contents (getPage env t) h e.2) ++ contents (getPage env t) h n := by
        rw [contents_succ h1, h4, List.flatMap_append]; simp
      rw [← this]; exact e2
    | cons e B =>
      obtain ⟨k', c⟩ := e
      have h4' : entries p = (A ++ [(k, n)]) ++ (k', c) :: B := by rw [h4]; simp
      have hc := child_spec h2 h3 h4'
      rw [show (A ++ [(k, n)]).length = A.length + 1 by simp] at hc
      have hup : nextUp env t fuel ((p, A.length) :: st) = leftmost env t fuel ((p, A.length + 1) :: st) c := by
        rw [nextUp, hmod, if_pos (by rw [hnk]; simp), hc, Res.ok_bind]
      rw [hup]
      obtain ⟨st', kv', B', a1, a2, a3⟩ := leftmost_spec hH h (n := c) (fuel := fuel) (st := (p, A.length + 1) :: st)
        (L := (L' ++ A.flatMap fun e => contents (getPage env t) h e.2) ++ contents (getPage env t) h n)
        (R := (B.flatMap fun e => contents (getPage env t) h e.2) ++ R')
        (by omega) (h6 (k', c) (by rw [h4]; simp)) (by
          refine ⟨n', A ++ [(k, n)], k', B, L', R', h1, h2, h3, h4', by simp, h6, h8, ?_, rfl⟩
          simp [List.flatMap_append])
      rw [List.flatMap_cons, List.append_assoc, a3]
      refine ⟨(by intro hh; cases hh), fun kv B hh => ?_⟩
      cases hh
      exact ⟨st', a1, a2⟩

theorem prevUp_spec {env : Env} {t : Txn} {H root fuel : Nat} (hH : H < maxDepth) (hf : H < fuel) (st : List (Page × Nat)) :
    ∀ {h n : Nat} {L R : List (Bytes × Bytes)}, Up (getPage env t) True H root h n st L R →
    (L = [] → prevUp env t fuel st = .ok (.notfound, ⟨[], true⟩)) ∧
    (∀ A kv, L = A ++ [kv] → ∃ st', prevUp env t fuel st = .ok (.success, ⟨st', false⟩) ∧
      At (getPage env t) True H root st' A kv (contents (getPage env t) h n ++ R)) := by
  induction st with
  | nil =>
    rintro h n L R ⟨rfl, rfl, rfl, rfl⟩
    exact ⟨fun _ => rfl, by intro A kv hh; simp at hh⟩
  | cons a st ih =>
    obtain ⟨p, i⟩ := a
    rintro h n L R ⟨n', A, k, B, L', R', h1, h2, h3, h4, rfl, h6, h8, rfl, rfl⟩
    have hlen := up_length _ h8
    rcases List.eq_nil_or_concat A with rfl | ⟨A, ⟨k', c⟩, rfl⟩
    · have hup : prevUp env t fuel ((p, 0) :: st) = prevUp env t fuel st := by
        rw [prevUp, if_neg (by simp)]
      simp only [List.length_nil, List.flatMap_nil, List.append_nil]
      rw [hup]
      obtain ⟨i1, i2⟩ := ih h8
      refine ⟨i1, fun A kv hR => ?_⟩
      obtain ⟨st', e1, e2⟩ := i2 A kv hR
      refine ⟨st', e1, ?_⟩
      have : contents (getPage env t) (h + 1) n' ++ R' = contents (getPage env t) h n ++ ((B.flatMap fun e => contents (getPage env t) h e.2) ++ R') := by
        rw [contents_succ h1, h4]; simp
      rw [← this]; exact e2
    · rw [List.concat_eq_append] at h4 ⊢
      have h4' : entries p = A ++ (k', c) :: (k, n) :: B := by rw [h4]; simp
      have hc := child_spec h2 h3 h4'
      have hup : prevUp env t fuel ((p, (A ++ [(k', c)]).length) :: st) = rightmost env t fuel ((p, A.length) :: st) c := by
        rw [prevUp, if_pos (by simp), show (A ++ [(k', c)]).length - 1 = A.length by simp, hc, Res.ok_bind]
      rw [hup]
      obtain ⟨st', kv', A', a1, a2, a3⟩ := rightmost_spec hH h (n := c) (fuel := fuel) (st := (p, A.length) :: st)
        (L := L' ++ A.flatMap fun e => contents (getPage env t) h e.2)
        (R := contents (getPage env t) h n ++ ((B.flatMap fun e => contents (getPage env t) h e.2) ++ R'))
        (by omega) (h6 (k', c) (by rw [h4]; simp)) (by
          refine ⟨n', A, k', (k, n) :: B, L', R', h1, h2, h3, h4', by simp, h6, h8, rfl, ?_⟩
          simp)
      have hL : L' ++ (A ++ [(k', c)]).flatMap (fun e => contents (getPage env t) h e.2) = A' ++ [kv'] := by
        rw [← a3, List.flatMap_append]; simp
      rw [hL]
      refine ⟨fun hh => absurd hh (by simp), fun A kv hh => ?_⟩
      have := List.append_inj' hh rfl
      simp only [List.cons.injEq, and_true] at this
      obtain ⟨rfl, rfl⟩ := this
      exact ⟨st', a1, a2⟩

theorem next_spec {env : Env} {t : Txn} {H root fuel : Nat} (hH : H < maxDepth) (hf : H < fuel) {st : List (Page × Nat)}
    {A B : List (Bytes × Bytes)} {kv : Bytes × Bytes} (h : At (getPage env t) True H root st A kv B) :
    (B = [] → next env t fuel ⟨st, false⟩ = .ok (.notfound, ⟨[], true⟩)) ∧
    (∀ kv' B', B = kv' :: B' → ∃ st', next env t fuel ⟨st, false⟩ = .ok (.success, ⟨st', false⟩) ∧
      At (getPage env t) True H root st' (A ++ [kv]) kv' B') := by
  obtain ⟨p, i, rest, n, L, R, X, Y, rfl, h1, h2, h3, h4, h5, rfl, rfl, rfl⟩ := h
  have hlt := numKeys_lt p
  have hnk : numKeys p = X.length + 1 + Y.length := by rw [← kvs_len, h5]; simp; omega
  have hmod : (X.length + 1) % 65536 = X.length + 1 := Nat.mod_eq_of_lt (by omega)
  cases Y with
  | nil =>
    have hup : next env t fuel ⟨(p, X.length) :: rest, false⟩ = nextUp env t fuel rest := by
      simp only [next, hmod, Bool.false_eq_true, if_false]
      rw [if_neg (by simp at hnk; omega)]
    rw [hup]
    obtain ⟨i1, i2⟩ := nextUp_spec hH hf rest h4
    refine ⟨fun hR => i1 (by simpa using hR), fun kv' B' hR => ?_⟩
    obtain ⟨st', e1, e2⟩ := i2 kv' B' (by simpa using hR)
    refine ⟨st', e1, ?_⟩
    rw [contents_zero h1, h5] at e2
    simpa using e2
  | cons y Y =>
    have hup : next env t fuel ⟨(p, X.length) :: rest, false⟩ = .ok (.success, ⟨(p, X.length + 1) :: rest, false⟩) := by
      simp only [next, hmod, Bool.false_eq_true, if_false]
      rw [if_pos (by simp at hnk; omega)]
    rw [hup]
    refine ⟨(by intro hh; cases hh), fun kv' B' hh => ?_⟩
    cases hh
    exact ⟨_, rfl, p, X.length + 1, rest, n, L, R, X ++ [kv], Y, rfl, h1, h2, h3, h4, by rw [h5]; simp, by simp, by simp, rfl⟩

theorem prev_spec {env : Env} {t : Txn} {H root fuel : Nat} (hH : H < maxDepth) (hf : H < fuel) {st : List (Page × Nat)}
    {A B : List (Bytes × Bytes)} {kv : Bytes × Bytes} (h : At (getPage env t) True H root st A kv B) :
    (A = [] → prev env t fuel ⟨st, false⟩ = .ok (.notfound, ⟨[], true⟩)) ∧
    (∀ A' kv', A = A' ++ [kv'] → ∃ st', prev env t fuel ⟨st, false⟩ = .ok (.success, ⟨st', false⟩) ∧
      At (getPage env t) True H root st' A' kv' (kv :: B)) := by
  obtain ⟨p, i, rest, n, L, R, X, Y, rfl, h1, h2, h3, h4, h5, rfl, rfl, rfl⟩ := h
  rcases List.eq_nil_or_concat X with rfl | ⟨X, x, rfl⟩
  · have hup : prev env t fuel ⟨(p, 0) :: rest, false⟩ = prevUp env t fuel rest := by
      simp [prev]
    simp only [List.length_nil, List.append_nil]
    rw [hup]
    obtain ⟨i1, i2⟩ := prevUp_spec hH hf rest h4
    refine ⟨i1, fun A' kv' hR => ?_⟩
    obtain ⟨st', e1, e2⟩ := i2 A' kv' hR
    refine ⟨st', e1, ?_⟩
    rw [contents_zero h1, h5] at e2
    simpa using e2
  · rw [List.concat_eq_append] at h5 ⊢
    have hup : prev env t fuel ⟨(p, (X ++ [x]).length) :: rest, false⟩ = .ok (.success, ⟨(p, X.length) :: rest, false⟩) := by
      simp [prev]
    rw [hup]
    refine ⟨fun hh => absurd hh (by simp), fun A' kv' hh => ?_⟩
    rw [← List.append_assoc] at hh
    have := List.append_inj' hh rfl
    simp only [List.cons.injEq, and_true] at this
    obtain ⟨rfl, rfl⟩ := this
    exact ⟨_, rfl, p, X.length, rest, n, L, R, X, kv :: Y, rfl, h1, h2, h3, h4, by rw [h5]; simp, rfl, rfl, rfl⟩

theorem atCursor_spec {g : View} {ne : Prop} {H root : Nat} {st : List (Page × Nat)}
    {A B : List (Bytes × Bytes)} {kv : Bytes × Bytes} (h : At g ne H root st A kv B) : atCursor ⟨st, false⟩ = .ok (.ok kv) := by
  obtain ⟨p, i, rest, n, L, R, X, Y, rfl, h1, h2, h3, h4, h5, rfl, rfl, rfl⟩ := h
  have hnk : numKeys p = X.length + 1 + Y.length := by rw [← kvs_len, h5]; simp; omega
  simp only [atCursor, Bool.false_eq_true, if_false]
  rw [if_neg (by omega), leafNode_spec h2 h3 (kv := kv) (by rw [h5]; simp), Res.ok_bind]

/-- The child a positioning operation follows. -/
theorem seekDown_spec {env : Env} {t : Txn} {H root : Nat} {ne : Prop} (hH : H < maxDepth) (op : Seek)
    (good : Nat → Nat → List (Bytes × Bytes) → List (Bytes × Bytes) → Prop)
    (step : ∀ h n p L R, getPage env t n = .ok p → WF p → isLeaf p = false → entries p ≠ [] → good (h + 1) n L R →
      ∃ A k c B, entries p = A ++ (k, c) :: B ∧ seekIdx op p = .ok A.length ∧
        good h c (L ++ A.flatMap fun e => contents (getPage env t) h e.2) ((B.flatMap fun e => contents (getPage env t) h e.2) ++ R)) (h : Nat) :
    ∀ {n fuel : Nat} {st : List (Page × Nat)} {L R : List (Bytes × Bytes)}, h < fuel → Shape (getPage env t) ne h n →
    Up (getPage env t) ne H root h n st L R → good h n L R →
    ∃ st' L' R' p n', seekDown env t op fuel st n = .ok (.success, (p, 0) :: st') ∧ getPage env t n' = .ok p ∧ WF p ∧ isLeaf p = true ∧
      Up (getPage env t) ne H root 0 n' st' L' R' ∧ good 0 n' L' R' ∧ (ne → kvs p ≠ []) := by
  induction h with
  | zero =>
    rintro n fuel st L R hf ⟨p, h1, h2, h3, h4⟩ hu hg
    obtain ⟨fuel, rfl⟩ : ∃ f, fuel = f + 1 := ⟨fuel - 1, by omega⟩
    have hl := up_length _ hu
    refine ⟨st, L, R, p, n, ?_, h1, h2, h3, hu, hg, h4⟩
    rw [seekDown, h1, Res.ok_bind, if_pos h3, push_ok (by omega)]
  | succ h ih =>
    rintro n fuel st L R hf ⟨p, h1, h2, h3, h4, h5⟩ hu hg
    obtain ⟨fuel, rfl⟩ : ∃ f, fuel = f + 1 := ⟨fuel - 1, by omega⟩
    have hl := up_length _ hu
    obtain ⟨A, k, c, B, a1, a2, a3⟩ := step h n p L R h1 h2 h3 h4 hg
    obtain ⟨st', L', R', p', n', b1, b2⟩ := ih (n := c) (fuel := fuel) (st := (p, A.length) :: st) (by omega)
      (h5 (k, c) (by rw [a1]; simp)) ⟨n, A, k, B, L, R, h1, h2, h3, a1, rfl, h5, hu, rfl, rfl⟩ a3
    refine ⟨st', L', R', p', n', ?_, b2⟩
    rw [seekDown, h1, Res.ok_bind, if_neg (by simp [h3]), if_neg (by simp [wf_isBranch h2 h3]), a2, Res.ok_bind,
      child_spec h2 h3 a1, Res.ok_bind, push_ok (by omega), b1]

theorem seek_first {env : Env} {t : Txn} {H fuel : Nat} (hH : H < maxDepth) (hf : H < fuel) (h0 : t.root ≠ 0)
    (hs : Shape (getPage env t) True H t.root) :
    ∃ st kv B, seek env t fuel .first = .ok (.success, ⟨st, false⟩) ∧ At (getPage env t) True H t.root st [] kv B := by
  obtain ⟨st, L, R, p, n, a1, a2, a3, a4, a5, rfl, a7⟩ := seekDown_spec (ne := True) hH .first (fun _ _ L _ => L = []) (by
    rintro h n p L R - - - h4 rfl
    obtain ⟨⟨k, c⟩, B, hB⟩ := List.exists_cons_of_ne_nil h4
    exact ⟨[], k, c, B, hB, rfl, by simp⟩) H (st := []) hf hs ⟨rfl, rfl, rfl, rfl⟩ rfl
  obtain ⟨kv, Y, hk⟩ := List.exists_cons_of_ne_nil (a7 trivial)
  have hnk : numKeys p ≠ 0 := by rw [← kvs_len, hk]; simp
  refine ⟨(p, 0) :: st, kv, Y ++ R, ?_, p, 0, st, n, [], R, [], Y, rfl, a2, a3, a4, a5, hk, rfl, rfl, rfl⟩
  unfold seek
  rw [if_neg h0, a1, Res.ok_bind]
  simp only [leafIdx, if_true, Res.ok_bind]
  rw [if_neg hnk]

theorem seek_last {env : Env} {t : Txn} {H fuel : Nat} (hH : H < maxDepth) (hf : H < fuel) (h0 : t.root ≠ 0)
    (hs : Shape (getPage env t) True H t.root) :
    ∃ st kv A, seek env t fuel .last = .ok (.success, ⟨st, false⟩) ∧ At (getPage env t) True H t.root st A kv [] := by
  obtain ⟨st, L, R, p, n, a1, a2, a3, a4, a5, rfl, a7⟩ := seekDown_spec (ne := True) hH .last (fun _ _ _ R => R = []) (by
    rintro h n p L R - - - h4 rfl
    rcases List.eq_nil_or_concat (entries p) with hB | ⟨A, ⟨k, c⟩, hB⟩
    · exact absurd hB h4
    · rw [List.concat_eq_append] at hB
      refine ⟨A, k, c, [], hB, ?_, by simp⟩
      have hnk : numKeys p = A.length + 1 := by rw [← entries_length, hB]; simp
      have := numKeys_lt p
      have hm : (numKeys p + 65535) % 65536 = A.length := by omega
      simp only [seekIdx, hm]) H (st := []) hf hs ⟨rfl, rfl, rfl, rfl⟩ rfl
  rcases List.eq_nil_or_concat (kvs p) with hk | ⟨X, kv, hk⟩
  · exact absurd hk (a7 trivial)
  rw [List.concat_eq_append] at hk
  have hnk : numKeys p = X.length + 1 := by rw [← kvs_len, hk]; simp
  refine ⟨(p, X.length) :: st, kv, L ++ X, ?_, p, X.length, st, n, L, [], X, [], rfl, a2, a3, a4, a5, hk, rfl, rfl, rfl⟩
  unfold seek
  rw [if_neg h0, a1, Res.ok_bind]
  simp only [leafIdx, if_true, Res.ok_bind]
  rw [if_neg (by omega), if_pos (by omega), show numKeys p - 1 = X.length by omega]

/-- Where a key leads: everything to the left is smaller, everything to the right is greater. -/
theorem seekDown_key {env : Env} {t : Txn} {H fuel : Nat} {ne : Prop} {key : Bytes} (hk : key.length < 65536) (hH : H < maxDepth) (hf : H < fuel)
    (hw : WFT (getPage env t) H none none t.root) (hs : Shape (getPage env t) ne H t.root) {op : Seek} (hop : op = .set key ∨ op = .range key) :
    ∃ st L R p n, seekDown env t op fuel [] t.root = .ok (.success, (p, 0) :: st) ∧ getPage env t n = .ok p ∧ WF p ∧ isLeaf p = true ∧
      Up (getPage env t) ne H t.root 0 n st L R ∧ Sorted (keys p) ∧ (∀ a ∈ L, a.1 < key) ∧ (∀ b ∈ R, key < b.1) ∧
      ∃ path, IsPath (getPage env t) key H t.root path ∧ path.getLastD 0 = n := by
  obtain ⟨st, L, R, p, n, a1, a2, a3, a4, a5, ⟨⟨lo, hi, b1, b2⟩, b3, b4, b5⟩, -⟩ := seekDown_spec (ne := ne) hH op
    (fun h n L R => (∃ lo hi, WFT (getPage env t) h lo hi n ∧ InRange lo hi key) ∧ (∀ a ∈ L, a.1 < key) ∧ (∀ b ∈ R, key < b.1) ∧
      ∃ pre, ∀ path, IsPath (getPage env t) key h n path → IsPath (getPage env t) key H t.root (pre ++ path)) (by
    rintro h n p L R h1 - - h4 ⟨⟨lo, hi, ⟨p', g1, g2, g3, g4, g5, g6⟩, g7⟩, g8, g9, pre, g10⟩
    rw [h1] at g1; cases g1
    obtain ⟨A, k, c, B, c1, c2, -⟩ := childIdx_spec g3 g4 g5 h4 hk
    have g6' := g6
    rw [c1.1] at g6'
    have hsides := kids_sides (f := fun x => (contents (getPage env t) h x).map Prod.fst) (fun l u x hx => wft_range h hx) g6' c1.2.1 c1.2.2
    refine ⟨A, k, c, B, c1.1, ?_, ⟨_, _, (kids_focus g6').1, inRange_child g7 c1.2.1 c1.2.2⟩, ?_, ?_, pre ++ [n], ?_⟩
    · rcases hop with rfl | rfl <;> exact c2
    · intro a ha
      rcases List.mem_append.1 ha with ha | ha
      · exact g8 a ha
      · apply hsides.1
        obtain ⟨e, he, ha⟩ := List.mem_flatMap.1 ha
        exact List.mem_flatMap.2 ⟨e, he, List.mem_map_of_mem ha⟩
    · intro a ha
      rcases List.mem_append.1 ha with ha | ha
      · apply hsides.2
        obtain ⟨e, he, ha⟩ := List.mem_flatMap.1 ha
        exact List.mem_flatMap.2 ⟨e, he, List.mem_map_of_mem ha⟩
      · exact g9 a ha
    · intro path hp
      rw [List.append_assoc]
      exact g10 _ ⟨p, A, k, c, B, path, h1, c1, hp, rfl⟩) H (st := []) hf hs ⟨rfl, rfl, rfl, rfl⟩
    ⟨⟨none, none, hw, inRange_none key⟩, by simp, by simp, [], by simp⟩
  obtain ⟨p', c1, c2, c3, c4, c5, c6⟩ := b1
  rw [a2] at c1; cases c1
  obtain ⟨pre, b5⟩ := b5
  exact ⟨st, L, R, p, n, a1, a2, a3, a4, a5, c5, b3, b4, pre ++ [n], b5 [n] rfl, by simp⟩

theorem seek_set {env : Env} {t : Txn} {H fuel : Nat} {ne : Prop} {key : Bytes} (hk : key.length < 65536) (hH : H < maxDepth) (hf : H < fuel)
    (h0 : t.root ≠ 0) (hw : WFT (getPage env t) H none none t.root) (hs : Shape (getPage env t) ne H t.root) :
    (∃ st A v B, seek env t fuel (.set key) = .ok (.success, ⟨st, false⟩) ∧ At (getPage env t) ne H t.root st A (key, v) B) ∨
    (key ∉ (contents (getPage env t) H t.root).map Prod.fst ∧ ∃ c, seek env t fuel (.set key) = .ok (.notfound, c)) := by
  obtain ⟨st, L, R, p, n, a1, a2, a3, a4, a5, a6, a7, a8, -⟩ := seekDown_key hk hH hf hw hs (op := .set key) (.inl rfl)
  obtain ⟨f, hf, A', B', hA, hB, hsp⟩ := probe_spec a3 a6 hk
  rcases hsp with ⟨it, e1, e2, rfl⟩ | ⟨e1, rfl⟩
  · left
    have hkv : kvs p = A'.map (fun i => (i.key, i.val)) ++ (key, it.val) :: B'.map (fun i => (i.key, i.val)) := by
      unfold kvs; rw [e1]; simp [e2]
    have hnk : numKeys p ≠ 0 := by rw [← kvs_len, hkv]; simp
    refine ⟨(p, A'.length) :: st, _, it.val, _, ?_, p, A'.length, st, n, L, R, _, _, rfl, a2, a3, a4, a5, hkv, by simp, rfl, rfl⟩
    unfold seek
    rw [if_neg h0, a1, Res.ok_bind]
    simp only [leafIdx, if_true]
    rw [hf, Res.ok_bind]
    simp only [Res.ok_bind]
    rw [if_neg hnk]
  · right
    constructor
    · rw [up_contents _ a5, contents_zero a2]
      intro hm
      rw [List.map_append, List.map_append] at hm
      rcases List.mem_append.1 hm with hm | hm
      · rcases List.mem_append.1 hm with hm | hm
        · obtain ⟨a, ha, e⟩ := List.mem_map.1 hm
          exact blt_irrefl _ (e ▸ a7 a ha)
        · unfold kvs at hm
          rw [e1, List.map_map, List.map_append] at hm
          rcases List.mem_append.1 hm with hm | hm
          · obtain ⟨a, ha, e⟩ := List.mem_map.1 hm
            exact blt_irrefl _ (e ▸ hA a ha)
          · obtain ⟨a, ha, e⟩ := List.mem_map.1 hm
            exact blt_irrefl _ (e ▸ hB a ha)
      · obtain ⟨a, ha, e⟩ := List.mem_map.1 hm
        exact blt_irrefl _ (e ▸ a8 a ha)
    · refine ⟨⟨(p, 0) :: st, false⟩, ?_⟩
      unfold seek
      rw [if_neg h0, a1, Res.ok_bind]
      simp only [leafIdx, if_true]
      rw [hf, Res.ok_bind]
      simp only [Res.ok_bind]

theorem seek_range {env : Env} {t : Txn} {H fuel : Nat} {ne : Prop} {key : Bytes} (hk : key.length < 65536) (hH : H < maxDepth) (hf : H < fuel)
    (h0 : t.root ≠ 0) (hw : WFT (getPage env t) H none none t.root) (hs : Shape (getPage env t) ne H t.root) :
    ∃ path p, IsPath (getPage env t) key H t.root path ∧ getPage env t (path.getLastD 0) = .ok p ∧
      (((∃ k ∈ keys p, ¬ k < key) ∧ ∃ st A kv B, seek env t fuel (.range key) = .ok (.success, ⟨st, false⟩) ∧
        At (getPage env t) ne H t.root st A kv B ∧ (∀ a ∈ A, a.1 < key) ∧ ¬ kv.1 < key) ∨
      ((∀ k ∈ keys p, k < key) ∧ ∃ c, seek env t fuel (.range key) = .ok (.notfound, c))) := by
  obtain ⟨st, L, R, p, n, a1, a2, a3, a4, a5, a6, a7, a8, path, a9, a10⟩ := seekDown_key hk hH hf hw hs (op := .range key) (.inr rfl)
  obtain ⟨f, hf, A', B', hA, hB, hsp⟩ := probe_spec a3 a6 hk
  have hcase : ∃ Y, items p = A' ++ Y ∧ f.idx = A'.length ∧ ∀ y ∈ Y, ¬ y.key < key := by
    rcases hsp with ⟨it, e1, e2, rfl⟩ | ⟨e1, rfl⟩
    · refine ⟨it :: B', e1, rfl, fun y hy => ?_⟩
      rcases List.mem_cons.1 hy with rfl | hy
      · rw [e2]; exact blt_irrefl _
      · exact fun h => blt_irrefl _ (blt_trans h (hB y hy))
    · exact ⟨B', e1, rfl, fun y hy h => blt_irrefl _ (blt_trans h (hB y hy))⟩
  obtain ⟨Y, y1, y2, y3⟩ := hcase
  have hnk : numKeys p = A'.length + Y.length := by rw [← items_length, y1]; simp
  refine ⟨path, p, a9, by rw [a10]; exact a2, ?_⟩
  cases Y with
  | nil =>
    right
    refine ⟨?_, ⟨(p, 0) :: st, false⟩, ?_⟩
    · intro k hkk
      unfold keys at hkk; rw [y1, List.append_nil] at hkk
      obtain ⟨a, ha, rfl⟩ := List.mem_map.1 hkk
      exact hA a ha
    · unfold seek
      rw [if_neg h0, a1, Res.ok_bind]
      simp only [leafIdx, if_true]
      rw [hf, Res.ok_bind, if_pos (by rw [y2, hnk]; simp)]
      simp only [Res.ok_bind]
  | cons y Y =>
    left
    have hkv : kvs p = A'.map (fun i => (i.key, i.val)) ++ (y.key, y.val) :: Y.map (fun i => (i.key, i.val)) := by
      unfold kvs; rw [y1]; simp
    refine ⟨⟨y.key, by unfold keys; rw [y1]; simp, y3 y List.mem_cons_self⟩, (p, A'.length) :: st, _, (y.key, y.val), _, ?_,
      ⟨p, A'.length, st, n, L, R, _, _, rfl, a2, a3, a4, a5, hkv, by simp, rfl, rfl⟩, ?_, y3 y List.mem_cons_self⟩
    · unfold seek
      rw [if_neg h0, a1, Res.ok_bind]
      simp only [leafIdx, if_true]
      rw [hf, Res.ok_bind, if_neg (by rw [y2, hnk]; simp)]
      simp only [Res.ok_bind]
      rw [if_neg (by rw [hnk]; simp), y2]
    · intro a ha
      rcases List.mem_append.1 ha with ha | ha
      · exact a7 a ha
      · obtain ⟨i, hi, rfl⟩ := List.mem_map.1 ha
        exact hA i hi

end Verif.Db
