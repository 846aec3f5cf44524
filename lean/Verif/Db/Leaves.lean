import Verif.Db.CursorProps

/-!
# Cursors in databases with empty leaves: helper lemmas (C45, C46, C77)

As in `CursorLemmas.lean`, but the pairs to the left and to the right of a cursor are kept leaf by leaf, because a cursor stops at the first empty one.
-/

namespace Verif.Db

open Verif.Page

/-- The listings of the leaves from left to right. -/
def leaves (g : View) : Nat → Nat → List (List (Bytes × Bytes))
  | 0, n => match g n with
    | .ok p => [kvs p]
    | _ => []
  | h + 1, n => match g n with
    | .ok p => (entries p).flatMap fun e => leaves g h e.2
    | _ => []

theorem leaves_zero {g : View} {n : Nat} {p : Page} (h : g n = .ok p) : leaves g 0 n = [kvs p] := by rw [leaves, h]

theorem leaves_succ {g : View} {h n : Nat} {p : Page} (hp : g n = .ok p) : leaves g (h + 1) n = (entries p).flatMap fun e => leaves g h e.2 := by
  rw [leaves, hp]

/-- Subtree `n` of height `h` hangs below the stack `st`; `L` and `R` are the leaves to the left and right of it. -/
def UpL (g : View) (H root : Nat) : Nat → Nat → List (Page × Nat) → List (List (Bytes × Bytes)) → List (List (Bytes × Bytes)) → Prop
  | h, n, [], L, R => h = H ∧ n = root ∧ L = [] ∧ R = []
  | h, n, (p, i) :: st, L, R => ∃ n' A k B L' R', g n' = .ok p ∧ WF p ∧ isLeaf p = false ∧ entries p = A ++ (k, n) :: B ∧
      A.length = i ∧ (∀ e ∈ entries p, Shape g False h e.2) ∧ UpL g H root (h + 1) n' st L' R' ∧
      L = L' ++ (A.flatMap fun e => leaves g h e.2) ∧ R = (B.flatMap fun e => leaves g h e.2) ++ R'

/-- The cursor stack is at pair `kv` of a leaf, which has `X` before and `Y` after it; `L` and `R` are the other leaves. -/
def AtL (g : View) (H root : Nat) (st : List (Page × Nat)) (L : List (List (Bytes × Bytes))) (X : List (Bytes × Bytes)) (kv : Bytes × Bytes)
    (Y : List (Bytes × Bytes)) (R : List (List (Bytes × Bytes))) : Prop :=
  ∃ p i rest n, st = (p, i) :: rest ∧ g n = .ok p ∧ WF p ∧ isLeaf p = true ∧ UpL g H root 0 n rest L R ∧ kvs p = X ++ kv :: Y ∧ X.length = i

theorem leaves_contents {g : View} {h : Nat} : ∀ {n : Nat}, Shape g False h n → (leaves g h n).flatten = contents g h n := by
  induction h with
  | zero =>
    rintro n ⟨p, h1, -⟩
    rw [leaves_zero h1, contents_zero h1]; simp
  | succ h ih =>
    rintro n ⟨p, h1, -, -, -, h5⟩
    rw [leaves_succ h1, contents_succ h1]
    have : ∀ es : List (Bytes × Nat), (∀ e ∈ es, Shape g False h e.2) →
        (es.flatMap fun e => leaves g h e.2).flatten = es.flatMap fun e => contents g h e.2 := by
      intro es
      induction es with
      | nil => intro _; rfl
      | cons e es ih' =>
        intro hes
        rw [List.flatMap_cons, List.flatten_append, ih (hes e List.mem_cons_self), ih' (fun x hx => hes x (List.mem_cons_of_mem _ hx)), List.flatMap_cons]
    exact this _ h5

theorem leaves_ne_nil {g : View} {h : Nat} : ∀ {n : Nat}, Shape g False h n → leaves g h n ≠ [] := by
  induction h with
  | zero => rintro n ⟨p, h1, -⟩; rw [leaves_zero h1]; simp
  | succ h ih =>
    rintro n ⟨p, h1, -, -, h4, h5⟩
    rw [leaves_succ h1]
    obtain ⟨e, es, he⟩ := List.exists_cons_of_ne_nil h4
    rw [he, List.flatMap_cons]
    intro hn
    exact ih (h5 e (by rw [he]; exact List.mem_cons_self)) (List.append_eq_nil_iff.1 hn).1

theorem upL_length {g : View} {H root : Nat} (st : List (Page × Nat)) : ∀ {h n : Nat} {L R : List (List (Bytes × Bytes))},
    UpL g H root h n st L R → st.length + h = H := by
  induction st with
  | nil => rintro h n L R ⟨rfl, -⟩; simp
  | cons a st ih =>
    rintro h n L R ⟨n', A, k, B, L', R', -, -, -, -, -, -, h1, -⟩
    have := ih h1
    simp only [List.length_cons]; omega

theorem upL_leaves {g : View} {H root : Nat} (st : List (Page × Nat)) : ∀ {h n : Nat} {L R : List (List (Bytes × Bytes))},
    UpL g H root h n st L R → leaves g H root = L ++ leaves g h n ++ R := by
  induction st with
  | nil => rintro h n L R ⟨rfl, rfl, rfl, rfl⟩; simp
  | cons a st ih =>
    rintro h n L R ⟨n', A, k, B, L', R', h1, h2, h3, h4, h5, -, h8, rfl, rfl⟩
    rw [ih h8, leaves_succ h1, h4]
    simp [List.flatMap_append]

theorem atL_leaves {g : View} {H root : Nat} {st : List (Page × Nat)} {L R : List (List (Bytes × Bytes))} {X Y : List (Bytes × Bytes)} {kv : Bytes × Bytes}
    (h : AtL g H root st L X kv Y R) : leaves g H root = L ++ (X ++ kv :: Y) :: R := by
  obtain ⟨p, i, rest, n, rfl, h1, h2, h3, h4, h5, h6⟩ := h
  rw [upL_leaves _ h4, leaves_zero h1, h5]; simp

/-- Down to the leftmost leaf, which may be empty. -/
theorem leftmost_leaf {env : Env} {t : Txn} {H root : Nat} (hH : H < maxDepth) (h : Nat) : ∀ {n fuel : Nat} {st : List (Page × Nat)}
    {L R : List (List (Bytes × Bytes))}, h < fuel → Shape (getPage env t) False h n → UpL (getPage env t) H root h n st L R →
    ∃ lf rest, leaves (getPage env t) h n = lf :: rest ∧
      (lf = [] → ∃ st', leftmost env t fuel st n = .ok (.notfound, ⟨st', true⟩)) ∧
      (∀ kv Y, lf = kv :: Y → ∃ st', leftmost env t fuel st n = .ok (.success, ⟨st', false⟩) ∧ AtL (getPage env t) H root st' L [] kv Y (rest ++ R)) := by
  induction h with
  | zero =>
    rintro n fuel st L R hf ⟨p, h1, h2, h3, -⟩ hu
    obtain ⟨fuel, rfl⟩ : ∃ f, fuel = f + 1 := ⟨fuel - 1, by omega⟩
    have hl := upL_length _ hu
    refine ⟨kvs p, [], leaves_zero h1, fun hk => ?_, fun kv Y hk => ?_⟩
    · have hnk : numKeys p = 0 := by rw [← kvs_len, hk]; rfl
      exact ⟨push st p 0, by rw [leftmost, h1, Res.ok_bind, if_pos h3, if_pos hnk]⟩
    · have hnk : numKeys p ≠ 0 := by rw [← kvs_len, hk]; simp
      refine ⟨(p, 0) :: st, by rw [leftmost, h1, Res.ok_bind, if_pos h3, if_neg hnk, push_ok (by omega)], p, 0, st, n, rfl, h1, h2, h3, hu, hk, rfl⟩
  | succ h ih =>
    rintro n fuel st L R hf ⟨p, h1, h2, h3, h4, h5⟩ hu
    obtain ⟨fuel, rfl⟩ : ∃ f, fuel = f + 1 := ⟨fuel - 1, by omega⟩
    have hl := upL_length _ hu
    obtain ⟨⟨k, c⟩, B, hB⟩ := List.exists_cons_of_ne_nil h4
    have hc : child p 0 = .ok c := child_spec h2 h3 (A := []) hB
    obtain ⟨lf, rest, a1, a2, a3⟩ := ih (n := c) (fuel := fuel) (st := (p, 0) :: st) (L := L) (R := (B.flatMap fun e => leaves (getPage env t) h e.2) ++ R)
      (by omega) (h5 (k, c) (by rw [hB]; exact List.mem_cons_self))
      ⟨n, [], k, B, L, R, h1, h2, h3, hB, rfl, h5, hu, by simp, rfl⟩
    have e : leftmost env t (fuel + 1) st n = leftmost env t fuel ((p, 0) :: st) c := by
      rw [leftmost, h1, Res.ok_bind, if_neg (by simp [h3]), hc, Res.ok_bind, push_ok (by omega)]
    refine ⟨lf, rest ++ B.flatMap fun e => leaves (getPage env t) h e.2, ?_, fun hk => ?_, fun kv Y hk => ?_⟩
    · rw [leaves_succ h1, hB, List.flatMap_cons, a1]; rfl
    · rw [e]; exact a2 hk
    · rw [e, List.append_assoc]; exact a3 kv Y hk

/-- Down to the rightmost leaf. -/
theorem rightmost_leaf {env : Env} {t : Txn} {H root : Nat} (hH : H < maxDepth) (h : Nat) : ∀ {n fuel : Nat} {st : List (Page × Nat)}
    {L R : List (List (Bytes × Bytes))}, h < fuel → Shape (getPage env t) False h n → UpL (getPage env t) H root h n st L R →
    ∃ rest lf, leaves (getPage env t) h n = rest ++ [lf] ∧
      (lf = [] → ∃ st', rightmost env t fuel st n = .ok (.notfound, ⟨st', true⟩)) ∧
      (∀ X kv, lf = X ++ [kv] → ∃ st', rightmost env t fuel st n = .ok (.success, ⟨st', false⟩) ∧ AtL (getPage env t) H root st' (L ++ rest) X kv [] R) := by
  induction h with
  | zero =>
    rintro n fuel st L R hf ⟨p, h1, h2, h3, -⟩ hu
    obtain ⟨fuel, rfl⟩ : ∃ f, fuel = f + 1 := ⟨fuel - 1, by omega⟩
    have hl := upL_length _ hu
    refine ⟨[], kvs p, leaves_zero h1, fun hk => ?_, fun X kv hk => ?_⟩
    · have hnk : numKeys p = 0 := by rw [← kvs_len, hk]; rfl
      exact ⟨st, by rw [rightmost, h1, Res.ok_bind, if_pos hnk]⟩
    · have hnk : numKeys p = X.length + 1 := by rw [← kvs_len, hk]; simp
      refine ⟨(p, X.length) :: st, ?_, p, X.length, st, n, rfl, h1, h2, h3, by simpa using hu, hk, rfl⟩
      rw [rightmost, h1, Res.ok_bind, if_neg (by omega), if_pos h3, push_ok (by omega), hnk]; rfl
  | succ h ih =>
    rintro n fuel st L R hf ⟨p, h1, h2, h3, h4, h5⟩ hu
    obtain ⟨fuel, rfl⟩ : ∃ f, fuel = f + 1 := ⟨fuel - 1, by omega⟩
    have hl := upL_length _ hu
    rcases List.eq_nil_or_concat (entries p) with hB | ⟨A, ⟨k, c⟩, hB⟩
    · exact absurd hB h4
    rw [List.concat_eq_append] at hB
    have hc := child_spec h2 h3 hB
    have hnk : numKeys p = A.length + 1 := by rw [← entries_length, hB]; simp
    obtain ⟨rest, lf, a1, a2, a3⟩ := ih (n := c) (fuel := fuel) (st := (p, A.length) :: st) (R := R) (L := L ++ (A.flatMap fun e => leaves (getPage env t) h e.2))
      (by omega) (h5 (k, c) (by rw [hB]; simp))
      ⟨n, A, k, [], L, R, h1, h2, h3, hB, rfl, h5, hu, rfl, by simp⟩
    have e : rightmost env t (fuel + 1) st n = rightmost env t fuel ((p, A.length) :: st) c := by
      rw [rightmost, h1, Res.ok_bind, if_neg (by omega), if_neg (by simp [h3]), show numKeys p - 1 = A.length by omega, hc, Res.ok_bind, push_ok (by omega)]
    refine ⟨(A.flatMap fun e => leaves (getPage env t) h e.2) ++ rest, lf, ?_, fun hk => ?_, fun X kv hk => ?_⟩
    · rw [leaves_succ h1, hB, List.flatMap_append]
      simp only [List.flatMap_cons, List.flatMap_nil, List.append_nil]
      rw [a1, List.append_assoc]
    · rw [e]; exact a2 hk
    · rw [e, ← List.append_assoc]; exact a3 X kv hk

theorem nextUp_leaf {env : Env} {t : Txn} {H root fuel : Nat} (hH : H < maxDepth) (hf : H < fuel) (st : List (Page × Nat)) :
    ∀ {h n : Nat} {L R : List (List (Bytes × Bytes))}, UpL (getPage env t) H root h n st L R →
    ((R = [] ∨ ∃ R', R = [] :: R') → ∃ st', nextUp env t fuel st = .ok (.notfound, ⟨st', true⟩)) ∧
    (∀ kv Y R', R = (kv :: Y) :: R' → ∃ st', nextUp env t fuel st = .ok (.success, ⟨st', false⟩) ∧
      AtL (getPage env t) H root st' (L ++ leaves (getPage env t) h n) [] kv Y R') := by
  induction st with
  | nil =>
    rintro h n L R ⟨rfl, rfl, rfl, rfl⟩
    exact ⟨fun _ => ⟨[], rfl⟩, by intro kv Y R' hh; cases hh⟩
  | cons a st ih =>
    obtain ⟨p, i⟩ := a
    rintro h n L R ⟨n', A, k, B, L', R', h1, h2, h3, h4, rfl, h6, h8, rfl, rfl⟩
    have hlt := numKeys_lt p
    have hlen := upL_length _ h8
    have hnk : numKeys p = A.length + 1 + B.length := by rw [← entries_length, h4]; simp; omega
    have hmod : (A.length + 1) % 65536 = A.length + 1 := Nat.mod_eq_of_lt (by omega)
    cases B with
    | nil =>
      have hup : nextUp env t fuel ((p, A.length) :: st) = nextUp env t fuel st := by
        rw [nextUp, hmod, if_neg (by simp at hnk; omega)]
      rw [hup]
      obtain ⟨i1, i2⟩ := ih h8
      refine ⟨fun hR => i1 (by simpa using hR), fun kv Y R'' hR => ?_⟩
      obtain ⟨st', e1, e2⟩ := i2 kv Y R'' (by simpa using hR)
      refine ⟨st', e1, ?_⟩
      have : L' ++ leaves (getPage env t) (h + 1) n' = (L' ++ A.flatMap fun e => leaves (getPage env t) h e.2) ++ leaves (getPage env t) h n := by
        rw [leaves_succ h1, h4, List.flatMap_append]; simp
      rw [← this]; exact e2
    | cons e B =>
      obtain ⟨k', c⟩ := e
      have h4' : entries p = (A ++ [(k, n)]) ++ (k', c) :: B := by rw [h4]; simp
      have hc := child_spec h2 h3 h4'
      rw [show (A ++ [(k, n)]).length = A.length + 1 by simp] at hc
      have hup : nextUp env t fuel ((p, A.length) :: st) = leftmost env t fuel ((p, A.length + 1) :: st) c := by
        rw [nextUp, hmod, if_pos (by rw [hnk]; simp), hc, Res.ok_bind]
      rw [hup]
      obtain ⟨lf, rest, a1, a2, a3⟩ := leftmost_leaf hH h (n := c) (fuel := fuel) (st := (p, A.length + 1) :: st)
        (L := (L' ++ A.flatMap fun e => leaves (getPage env t) h e.2) ++ leaves (getPage env t) h n)
        (R := (B.flatMap fun e => leaves (getPage env t) h e.2) ++ R')
        (by omega) (h6 (k', c) (by rw [h4]; simp)) (by
          refine ⟨n', A ++ [(k, n)], k', B, L', R', h1, h2, h3, h4', by simp, h6, h8, ?_, rfl⟩
          simp [List.flatMap_append])
      rw [List.flatMap_cons, List.append_assoc, a1, List.cons_append]
      refine ⟨fun hR => a2 ?_, fun kv Y R'' hh => ?_⟩
      · rcases hR with hR | ⟨R'', hR⟩
        · cases hR
        · injection hR
      · injection hh with hh1 hh2
        obtain ⟨st', e1, e2⟩ := a3 kv Y hh1
        exact ⟨st', e1, hh2 ▸ e2⟩

theorem prevUp_leaf {env : Env} {t : Txn} {H root fuel : Nat} (hH : H < maxDepth) (hf : H < fuel) (st : List (Page × Nat)) :
    ∀ {h n : Nat} {L R : List (List (Bytes × Bytes))}, UpL (getPage env t) H root h n st L R →
    ((L = [] ∨ ∃ L', L = L' ++ [[]]) → ∃ st', prevUp env t fuel st = .ok (.notfound, ⟨st', true⟩)) ∧
    (∀ L' X kv, L = L' ++ [X ++ [kv]] → ∃ st', prevUp env t fuel st = .ok (.success, ⟨st', false⟩) ∧
      AtL (getPage env t) H root st' L' X kv [] (leaves (getPage env t) h n ++ R)) := by
  induction st with
  | nil =>
    rintro h n L R ⟨rfl, rfl, rfl, rfl⟩
    exact ⟨fun _ => ⟨[], rfl⟩, by intro L' X kv hh; simp at hh⟩
  | cons a st ih =>
    obtain ⟨p, i⟩ := a
    rintro h n L R ⟨n', A, k, B, L', R', h1, h2, h3, h4, rfl, h6, h8, rfl, rfl⟩
    have hlen := upL_length _ h8
    rcases List.eq_nil_or_concat A with rfl | ⟨A, ⟨k', c⟩, rfl⟩
    · have hup : prevUp env t fuel ((p, 0) :: st) = prevUp env t fuel st := by
        rw [prevUp, if_neg (by simp)]
      simp only [List.length_nil, List.flatMap_nil, List.append_nil]
      rw [hup]
      obtain ⟨i1, i2⟩ := ih h8
      refine ⟨i1, fun L'' X kv hR => ?_⟩
      obtain ⟨st', e1, e2⟩ := i2 L'' X kv hR
      refine ⟨st', e1, ?_⟩
      have : leaves (getPage env t) (h + 1) n' ++ R' = leaves (getPage env t) h n ++ ((B.flatMap fun e => leaves (getPage env t) h e.2) ++ R') := by
        rw [leaves_succ h1, h4]; simp
      rw [← this]; exact e2
    · rw [List.concat_eq_append] at h4 ⊢
      have h4' : entries p = A ++ (k', c) :: (k, n) :: B := by rw [h4]; simp
      have hc := child_spec h2 h3 h4'
      have hup : prevUp env t fuel ((p, (A ++ [(k', c)]).length) :: st) = rightmost env t fuel ((p, A.length) :: st) c := by
        rw [prevUp, if_pos (by simp), show (A ++ [(k', c)]).length - 1 = A.length by simp, hc, Res.ok_bind]
      rw [hup]
      obtain ⟨rest, lf, a1, a2, a3⟩ := rightmost_leaf hH h (n := c) (fuel := fuel) (st := (p, A.length) :: st)
        (L := L' ++ A.flatMap fun e => leaves (getPage env t) h e.2)
        (R := leaves (getPage env t) h n ++ ((B.flatMap fun e => leaves (getPage env t) h e.2) ++ R'))
        (by omega) (h6 (k', c) (by rw [h4]; simp)) (by
          refine ⟨n', A, k', (k, n) :: B, L', R', h1, h2, h3, h4', by simp, h6, h8, rfl, ?_⟩
          simp)
      have hL : L' ++ (A ++ [(k', c)]).flatMap (fun e => leaves (getPage env t) h e.2) =
          (L' ++ A.flatMap (fun e => leaves (getPage env t) h e.2) ++ rest) ++ [lf] := by
        rw [List.flatMap_append]; simp [a1]
      rw [hL]
      refine ⟨fun hR => a2 ?_, fun L'' X kv hh => ?_⟩
      · rcases hR with hR | ⟨L'', hR⟩
        · simp at hR
        · have := List.append_inj' hR rfl
          simpa using this.2
      · have := List.append_inj' hh rfl
        obtain ⟨t1, t2⟩ := this
        simp only [List.cons.injEq, and_true] at t2
        obtain ⟨st', e1, e2⟩ := a3 X kv t2
        exact ⟨st', e1, t1 ▸ e2⟩

/-- One step forward. -/
theorem next_leaf {env : Env} {t : Txn} {H root fuel : Nat} (hH : H < maxDepth) (hf : H < fuel) {st : List (Page × Nat)}
    {L R : List (List (Bytes × Bytes))} {X Y : List (Bytes × Bytes)} {kv : Bytes × Bytes} (h : AtL (getPage env t) H root st L X kv Y R) :
    (∀ y Y', Y = y :: Y' → ∃ st', next env t fuel ⟨st, false⟩ = .ok (.success, ⟨st', false⟩) ∧ AtL (getPage env t) H root st' L (X ++ [kv]) y Y' R) ∧
    (Y = [] → (R = [] ∨ ∃ R', R = [] :: R') → ∃ st', next env t fuel ⟨st, false⟩ = .ok (.notfound, ⟨st', true⟩)) ∧
    (Y = [] → ∀ y Y' R', R = (y :: Y') :: R' → ∃ st', next env t fuel ⟨st, false⟩ = .ok (.success, ⟨st', false⟩) ∧
      AtL (getPage env t) H root st' (L ++ [X ++ [kv]]) [] y Y' R') := by
  obtain ⟨p, i, rest, n, rfl, h1, h2, h3, h4, h5, rfl⟩ := h
  have hlt := numKeys_lt p
  have hnk : numKeys p = X.length + 1 + Y.length := by rw [← kvs_len, h5]; simp; omega
  have hmod : (X.length + 1) % 65536 = X.length + 1 := Nat.mod_eq_of_lt (by omega)
  refine ⟨?_, ?_, ?_⟩
  · rintro y Y' rfl
    refine ⟨(p, X.length + 1) :: rest, ?_, p, X.length + 1, rest, n, rfl, h1, h2, h3, h4, by rw [h5]; simp, by simp⟩
    simp only [next, hmod, Bool.false_eq_true, if_false]
    rw [if_pos (by simp at hnk; omega)]
  all_goals
    rintro rfl
    have hup : next env t fuel ⟨(p, X.length) :: rest, false⟩ = nextUp env t fuel rest := by
      simp only [next, hmod, Bool.false_eq_true, if_false]
      rw [if_neg (by simp at hnk; omega)]
    rw [hup]
    obtain ⟨i1, i2⟩ := nextUp_leaf hH hf rest h4
  · exact i1
  · intro y Y' R' hR
    obtain ⟨st', e1, e2⟩ := i2 y Y' R' hR
    refine ⟨st', e1, ?_⟩
    rw [leaves_zero h1, h5] at e2
    exact e2

/-- One step back. -/
theorem prev_leaf {env : Env} {t : Txn} {H root fuel : Nat} (hH : H < maxDepth) (hf : H < fuel) {st : List (Page × Nat)}
    {L R : List (List (Bytes × Bytes))} {X Y : List (Bytes × Bytes)} {kv : Bytes × Bytes} (h : AtL (getPage env t) H root st L X kv Y R) :
    (∀ X' x, X = X' ++ [x] → ∃ st', prev env t fuel ⟨st, false⟩ = .ok (.success, ⟨st', false⟩) ∧ AtL (getPage env t) H root st' L X' x (kv :: Y) R) ∧
    (X = [] → (L = [] ∨ ∃ L', L = L' ++ [[]]) → ∃ st', prev env t fuel ⟨st, false⟩ = .ok (.notfound, ⟨st', true⟩)) ∧
    (X = [] → ∀ L' X' x, L = L' ++ [X' ++ [x]] → ∃ st', prev env t fuel ⟨st, false⟩ = .ok (.success, ⟨st', false⟩) ∧
      AtL (getPage env t) H root st' L' X' x [] ((kv :: Y) :: R)) := by
  obtain ⟨p, i, rest, n, rfl, h1, h2, h3, h4, h5, rfl⟩ := h
  refine ⟨?_, ?_, ?_⟩
  · rintro X' x rfl
    refine ⟨(p, X'.length) :: rest, ?_, p, X'.length, rest, n, rfl, h1, h2, h3, h4, by rw [h5]; simp, rfl⟩
    simp [prev]
  all_goals
    rintro rfl
    have hup : prev env t fuel ⟨(p, ([] : List (Bytes × Bytes)).length) :: rest, false⟩ = prevUp env t fuel rest := by
      simp [prev]
    rw [hup]
    obtain ⟨i1, i2⟩ := prevUp_leaf hH hf rest h4
  · exact i1
  · intro L' X' x hL
    obtain ⟨st', e1, e2⟩ := i2 L' X' x hL
    refine ⟨st', e1, ?_⟩
    rw [leaves_zero h1, h5] at e2
    exact e2

theorem atCursor_leaf {g : View} {H root : Nat} {st : List (Page × Nat)} {L R : List (List (Bytes × Bytes))} {X Y : List (Bytes × Bytes)}
    {kv : Bytes × Bytes} (h : AtL g H root st L X kv Y R) : atCursor ⟨st, false⟩ = .ok (.ok kv) := by
  obtain ⟨p, i, rest, n, rfl, h1, h2, h3, h4, h5, rfl⟩ := h
  have hnk : numKeys p = X.length + 1 + Y.length := by rw [← kvs_len, h5]; simp; omega
  simp only [atCursor, Bool.false_eq_true, if_false]
  rw [if_neg (by omega), leafNode_spec h2 h3 (kv := kv) (by rw [h5]; simp), Res.ok_bind]

/-- Down to the leaf a positioning operation chooses. -/
theorem seekDown_leaf {env : Env} {t : Txn} {H root : Nat} (hH : H < maxDepth) (op : Seek)
    (good : Nat → Nat → List (List (Bytes × Bytes)) → List (List (Bytes × Bytes)) → Prop)
    (step : ∀ h n p L R, getPage env t n = .ok p → WF p → isLeaf p = false → entries p ≠ [] → good (h + 1) n L R →
      ∃ A k c B, entries p = A ++ (k, c) :: B ∧ seekIdx op p = .ok A.length ∧
        good h c (L ++ A.flatMap fun e => leaves (getPage env t) h e.2) ((B.flatMap fun e => leaves (getPage env t) h e.2) ++ R)) (h : Nat) :
    ∀ {n fuel : Nat} {st : List (Page × Nat)} {L R : List (List (Bytes × Bytes))}, h < fuel → Shape (getPage env t) False h n →
    UpL (getPage env t) H root h n st L R → good h n L R →
    ∃ st' L' R' p n', seekDown env t op fuel st n = .ok (.success, (p, 0) :: st') ∧ getPage env t n' = .ok p ∧ WF p ∧ isLeaf p = true ∧
      UpL (getPage env t) H root 0 n' st' L' R' ∧ good 0 n' L' R' := by
  induction h with
  | zero =>
    rintro n fuel st L R hf ⟨p, h1, h2, h3, -⟩ hu hg
    obtain ⟨fuel, rfl⟩ : ∃ f, fuel = f + 1 := ⟨fuel - 1, by omega⟩
    have hl := upL_length _ hu
    refine ⟨st, L, R, p, n, ?_, h1, h2, h3, hu, hg⟩
    rw [seekDown, h1, Res.ok_bind, if_pos h3, push_ok (by omega)]
  | succ h ih =>
    rintro n fuel st L R hf ⟨p, h1, h2, h3, h4, h5⟩ hu hg
    obtain ⟨fuel, rfl⟩ : ∃ f, fuel = f + 1 := ⟨fuel - 1, by omega⟩
    have hl := upL_length _ hu
    obtain ⟨A, k, c, B, a1, a2, a3⟩ := step h n p L R h1 h2 h3 h4 hg
    obtain ⟨st', L', R', p', n', b1, b2⟩ := ih (n := c) (fuel := fuel) (st := (p, A.length) :: st) (by omega)
      (h5 (k, c) (by rw [a1]; simp)) ⟨n, A, k, B, L, R, h1, h2, h3, a1, rfl, h5, hu, rfl, rfl⟩ a3
    refine ⟨st', L', R', p', n', ?_, b2⟩
    rw [seekDown, h1, Res.ok_bind, if_neg (by simp [h3]), if_neg (by simp [wf_isBranch h2 h3]), a2, Res.ok_bind,
      child_spec h2 h3 a1, Res.ok_bind, push_ok (by omega), b1]

theorem seek_first_leaf {env : Env} {t : Txn} {H fuel : Nat} (hH : H < maxDepth) (hf : H < fuel) (h0 : t.root ≠ 0)
    (hs : Shape (getPage env t) False H t.root) :
    ∃ lf R, leaves (getPage env t) H t.root = lf :: R ∧ (lf = [] → ∃ st, seek env t fuel .first = .ok (.notfound, ⟨st, true⟩)) ∧
      (∀ kv Y, lf = kv :: Y → ∃ st, seek env t fuel .first = .ok (.success, ⟨st, false⟩) ∧ AtL (getPage env t) H t.root st [] [] kv Y R) := by
  obtain ⟨st, L, R, p, n, a1, a2, a3, a4, a5, rfl⟩ := seekDown_leaf hH .first (fun _ _ L _ => L = []) (by
    rintro h n p L R - - - h4 rfl
    obtain ⟨⟨k, c⟩, B, hB⟩ := List.exists_cons_of_ne_nil h4
    exact ⟨[], k, c, B, hB, rfl, by simp⟩) H (st := []) hf hs ⟨rfl, rfl, rfl, rfl⟩ rfl
  refine ⟨kvs p, R, by rw [upL_leaves _ a5, leaves_zero a2]; rfl, fun hk => ?_, fun kv Y hk => ?_⟩
  · have hnk : numKeys p = 0 := by rw [← kvs_len, hk]; rfl
    refine ⟨(p, 0) :: st, ?_⟩
    unfold seek
    rw [if_neg h0, a1, Res.ok_bind]
    simp only [leafIdx, if_true, Res.ok_bind]
    rw [if_pos hnk]
  · have hnk : numKeys p ≠ 0 := by rw [← kvs_len, hk]; simp
    refine ⟨(p, 0) :: st, ?_, p, 0, st, n, rfl, a2, a3, a4, a5, hk, rfl⟩
    unfold seek
    rw [if_neg h0, a1, Res.ok_bind]
    simp only [leafIdx, if_true, Res.ok_bind]
    rw [if_neg hnk]

theorem seek_last_leaf {env : Env} {t : Txn} {H fuel : Nat} (hH : H < maxDepth) (hf : H < fuel) (h0 : t.root ≠ 0)
    (hs : Shape (getPage env t) False H t.root) :
    ∃ L lf, leaves (getPage env t) H t.root = L ++ [lf] ∧ (lf = [] → ∃ st, seek env t fuel .last = .ok (.notfound, ⟨st, true⟩)) ∧
      (∀ X kv, lf = X ++ [kv] → ∃ st, seek env t fuel .last = .ok (.success, ⟨st, false⟩) ∧ AtL (getPage env t) H t.root st L X kv [] []) := by
  obtain ⟨st, L, R, p, n, a1, a2, a3, a4, a5, rfl⟩ := seekDown_leaf hH .last (fun _ _ _ R => R = []) (by
    rintro h n p L R - - - h4 rfl
    rcases List.eq_nil_or_concat (entries p) with hB | ⟨A, ⟨k, c⟩, hB⟩
    · exact absurd hB h4
    · rw [List.concat_eq_append] at hB
      refine ⟨A, k, c, [], hB, ?_, by simp⟩
      have hnk : numKeys p = A.length + 1 := by rw [← entries_length, hB]; simp
      have := numKeys_lt p
      have hm : (numKeys p + 65535) % 65536 = A.length := by omega
      simp only [seekIdx, hm]) H (st := []) hf hs ⟨rfl, rfl, rfl, rfl⟩ rfl
  refine ⟨L, kvs p, by rw [upL_leaves _ a5, leaves_zero a2]; simp, fun hk => ?_, fun X kv hk => ?_⟩
  · have hnk : numKeys p = 0 := by rw [← kvs_len, hk]; rfl
    refine ⟨(p, 0) :: st, ?_⟩
    unfold seek
    rw [if_neg h0, a1, Res.ok_bind]
    simp only [leafIdx, if_true, Res.ok_bind]
    rw [if_pos hnk]
  · have hnk : numKeys p = X.length + 1 := by rw [← kvs_len, hk]; simp
    refine ⟨(p, X.length) :: st, ?_, p, X.length, st, n, rfl, a2, a3, a4, a5, hk, rfl⟩
    unfold seek
    rw [if_neg h0, a1, Res.ok_bind]
    simp only [leafIdx, if_true, Res.ok_bind]
    rw [if_neg (by omega), if_pos (by omega), show numKeys p - 1 = X.length by omega]

end Verif.Db
