import Verif.Hash.Props

/-!
# Deleting while iterating

napr_hash.h L160-161 says of an iteration: "There is no restriction on adding or deleting hash
entries during an iteration, but the results may be unpredictable unless only deleting the
current entry." This file models the loop that does only that, and describes what it does to one
bucket.
-/

namespace Verif.Hash

variable {α κ : Type} [DecidableEq κ]

/-- The client loop of napr_hash.h L162-168 with a deletion of the current entry in its body:
`for (i = first; i; i = next(i)) { x = this(i); if (P(x)) remove(x, hash(key(x))); }`
(napr_hash.c L258-294, L338-384). Returns the elements the body saw, in order, and the table
afterwards. -/
def sweep (f : Fns α κ) (P : α → Bool) : Nat → Table α → Option (Nat × Nat) → Res (List α × Table α)
  | _, t, none => .ok ([], t)
  | 0, _, some _ => .div
  | fuel + 1, t, some (b, e) => do
    let x ← this t b e
    let t ← if P x then remove f t x (f.hash (f.key x)) else .ok t
    let r ← sweep f P fuel t (next t b e)
    .ok (x :: r.1, r.2)

/-- What the loop sees of a bucket: after a deletion the last element sits in the hole, behind
the index, and is not seen. -/
def seen (P : α → Bool) : List α → List α
  | [] => []
  | x :: xs => x :: (if P x then seen P xs.dropLast else seen P xs)
termination_by l => l.length
decreasing_by all_goals simp; try omega

/-- What the loop leaves in a bucket. -/
def left (P : α → Bool) : List α → List α
  | [] => []
  | x :: xs => if P x then xs.getLast?.toList ++ left P xs.dropLast else x :: left P xs
termination_by l => l.length
decreasing_by all_goals simp; try omega

omit [DecidableEq κ]

theorem removeAt_mid (pre : List α) (x : α) (xs : List α) :
    removeAt (pre ++ x :: xs) pre.length = pre ++ (xs.getLast?.toList ++ xs.dropLast) := by
  unfold removeAt
  rcases List.eq_nil_or_concat xs with rfl | ⟨ys, z, rfl⟩
  · simp
  · simp only [List.concat_eq_append]
    rw [List.getLast?_append, List.getLast?_cons]
    have h : pre.length ≠ (pre ++ x :: (ys ++ [z])).length - 1 := by simp
    simp only [Option.some_or, h, ne_eq, not_false_eq_true, if_true]
    have : (pre ++ x :: (ys ++ [z])).set pre.length ((ys ++ [z]).getLast?.getD x) = (pre ++ z :: ys) ++ [z] := by
      rw [List.set_append_right _ _ (Nat.le_refl _)]
      simp
    rw [this, List.dropLast_concat]
    simp

variable [DecidableEq κ]

/-- Removing the element at a position of the table acts on that position. -/
theorem remove_at {f : Fns α κ} {t : Table α} {m : κ → Option α} (h : Abs f t m)
    {done todo : List (List α)} {pre xs : List α} {x : α}
    (hb : t.buckets = done ++ (pre ++ x :: xs) :: todo) :
    ∃ t' m', remove f t x (f.hash (f.key x)) = .ok t' ∧ Abs f t' m' ∧ t'.power = t.power ∧
      t'.buckets = done ++ (pre ++ (xs.getLast?.toList ++ xs.dropLast)) :: todo := by
  obtain ⟨t', hr, ha⟩ := remove_abs h x
  refine ⟨t', _, hr, ha, ?_⟩
  have hg : t.buckets[done.length]? = some (pre ++ x :: xs) := by rw [hb]; simp
  have hbk := h.inv.placed.2 _ _ hg x (by simp)
  simp only [remove, hbk, hg] at hr
  have hone : ((pre ++ x :: xs).filter (fun y => decide (f.key x = f.key y))).length ≤ 1 := by
    have := elems_filter h.inv.placed (f.key x) (l := pre ++ x :: xs) (by rw [hbk]; exact hg)
    rw [← this, h.cls]
    cases m (f.key x) <;> simp
  have hpre : ∀ y ∈ pre, f.key x ≠ f.key y := by
    intro y hy he
    have h1 : y ∈ pre.filter (fun y => decide (f.key x = f.key y)) := by simp [hy, he]
    rw [List.filter_append, List.length_append, List.filter_cons, if_pos (by simp)] at hone
    have := List.length_pos_of_mem h1
    simp at hone; omega
  have hfi : (pre ++ x :: xs).findIdx? (fun y => decide (f.key x = f.key y)) = some pre.length := by
    rw [List.findIdx?_eq_some_iff_getElem]
    refine ⟨by simp, by simp, ?_⟩
    intro j hj
    rw [List.getElem_append_left hj]
    have := hpre _ (List.getElem_mem hj)
    simpa using this
  rw [hfi] at hr
  injection hr with hr
  subst hr
  refine ⟨rfl, ?_⟩
  simp only [removeAt_mid, hb]
  rw [List.set_append_right _ _ (Nat.le_refl _)]
  simp

omit [DecidableEq κ] in
/-- Where the iteration goes from the end of a bucket. -/
theorem skip_buckets (t : Table α) : ∀ (n : Nat) (todo done : List (List α)),
    t.buckets = done ++ todo → todo.length ≤ n →
    (skip t n done.length = t.buckets.length ∧ ∀ l ∈ todo, l = []) ∨
    ∃ es l ls, todo = es ++ l :: ls ∧ (∀ e ∈ es, e = []) ∧ l ≠ [] ∧ skip t n done.length = (done ++ es).length := by
  intro n
  induction n with
  | zero =>
    intro todo done hb hn
    have : todo = [] := List.length_eq_zero_iff.mp (by omega)
    subst this
    left; simp [skip, hb]
  | succ n ih =>
    intro todo done hb hn
    cases todo with
    | nil => left; simp [skip, hb]
    | cons l ls =>
      unfold skip
      have hlt : done.length < t.buckets.length := by rw [hb]; simp
      have hfl : filling t done.length = l.length := by simp [filling, hb]
      rw [if_pos hlt, hfl]
      by_cases hl : l = []
      · subst hl
        simp only [List.length_nil, ne_eq, not_true_eq_false, if_false]
        have hb' : t.buckets = (done ++ [[]]) ++ ls := by rw [hb]; simp
        have := ih ls (done ++ [[]]) hb' (by simp at hn; omega)
        simp only [List.length_append, List.length_cons, List.length_nil] at this
        rcases this with ⟨h1, h2⟩ | ⟨es, l, ls', h1, h2, h3, h4⟩
        · left
          refine ⟨h1, ?_⟩
          intro l hl; rcases List.mem_cons.mp hl with rfl | hl
          · rfl
          · exact h2 l hl
        · right
          refine ⟨[] :: es, l, ls', by simp [h1], ?_, h3, ?_⟩
          · intro e he; rcases List.mem_cons.mp he with rfl | he
            · rfl
            · exact h2 e he
          · rw [h4]; simp; omega
      · have : l.length ≠ 0 := fun h => hl (List.length_eq_zero_iff.mp h)
        rw [if_pos this]
        right
        exact ⟨[], l, ls, rfl, by simp, hl, by simp⟩

omit [DecidableEq κ] in
theorem seen_nil (P : α → Bool) : seen P [] = [] := by rw [seen]

omit [DecidableEq κ] in
theorem left_nil (P : α → Bool) : left P [] = [] := by rw [left]

omit [DecidableEq κ] in
theorem seen_empties (P : α → Bool) {es : List (List α)} (h : ∀ e ∈ es, e = []) :
    (es.map (seen P)).flatten = [] := by
  rw [List.flatten_eq_nil_iff]
  intro l hl
  obtain ⟨e, he, rfl⟩ := List.mem_map.mp hl
  rw [h e he, seen_nil]

omit [DecidableEq κ] in
theorem left_empties (P : α → Bool) {es : List (List α)} (h : ∀ e ∈ es, e = []) :
    es.map (left P) = es := by
  conv => rhs; rw [← List.map_id es]
  refine List.map_congr_left (fun e he => ?_)
  rw [h e he, left_nil]; rfl

theorem sweep_none (f : Fns α κ) (P : α → Bool) (fuel : Nat) (t : Table α) :
    sweep f P fuel t none = .ok ([], t) := by cases fuel <;> rfl

/-- From the end of a bucket on, given what happens from the start of a later one. -/
theorem sweep_after (f : Fns α κ) (P : α → Bool) (fuel : Nat)
    (ih : ∀ (t : Table α) (m : κ → Option α) (done todo : List (List α)) (pre : List α) (x : α) (xs : List α),
      Abs f t m → t.buckets = done ++ (pre ++ x :: xs) :: todo → (x :: xs).length + todo.flatten.length ≤ fuel →
      ∃ t' m', sweep f P fuel t (some (done.length, pre.length)) = .ok (seen P (x :: xs) ++ (todo.map (seen P)).flatten, t') ∧
        Abs f t' m' ∧ t'.power = t.power ∧ t'.buckets = done ++ (pre ++ left P (x :: xs)) :: todo.map (left P))
    (t : Table α) (m : κ → Option α) (h : Abs f t m) (done todo : List (List α)) (hb : t.buckets = done ++ todo)
    (n : Nat) (hn : todo.length ≤ n) (hf : todo.flatten.length ≤ fuel) :
    ∃ t' m', sweep f P fuel t
        (if skip t n done.length < t.buckets.length then some (skip t n done.length, 0) else none) =
          .ok ((todo.map (seen P)).flatten, t') ∧
      Abs f t' m' ∧ t'.power = t.power ∧ t'.buckets = done ++ todo.map (left P) := by
  rcases skip_buckets t n todo done hb hn with ⟨h1, h2⟩ | ⟨es, l, ls, rfl, h2, h3, h4⟩
  · rw [h1, if_neg (Nat.lt_irrefl _), sweep_none, seen_empties P h2, left_empties P h2]
    exact ⟨t, m, rfl, h, rfl, hb⟩
  · obtain ⟨x, xs, rfl⟩ : ∃ x xs, l = x :: xs := by cases l with
      | nil => exact absurd rfl h3
      | cons x xs => exact ⟨x, xs, rfl⟩
    rw [h4, if_pos (by rw [hb]; simp)]
    obtain ⟨t', m', e1, e2, e3, e4⟩ := ih t m (done ++ es) ls [] x xs h (by rw [hb]; simp) (by
      simp only [List.flatten_append, List.flatten_cons, List.length_append] at hf; omega)
    refine ⟨t', m', ?_, e2, e3, ?_⟩
    · rw [show (0 : Nat) = ([] : List α).length from rfl, e1]
      simp [seen_empties P h2]
    · rw [e4]; simp [left_empties P h2]

/-- The whole loop from a position on. -/
theorem sweep_from (f : Fns α κ) (P : α → Bool) : ∀ (fuel : Nat) (t : Table α) (m : κ → Option α)
    (done todo : List (List α)) (pre : List α) (x : α) (xs : List α),
      Abs f t m → t.buckets = done ++ (pre ++ x :: xs) :: todo → (x :: xs).length + todo.flatten.length ≤ fuel →
      ∃ t' m', sweep f P fuel t (some (done.length, pre.length)) = .ok (seen P (x :: xs) ++ (todo.map (seen P)).flatten, t') ∧
        Abs f t' m' ∧ t'.power = t.power ∧ t'.buckets = done ++ (pre ++ left P (x :: xs)) :: todo.map (left P) := by
  intro fuel
  induction fuel with
  | zero => intro t m done todo pre x xs h hb hf; simp at hf
  | succ fuel ih =>
    intro t m done todo pre x xs h hb hf
    unfold sweep
    have hthis : this t done.length pre.length = .ok x := by simp [this, hb, Res.ofOption]
    rw [hthis, Res.ok_bind]
    simp only [List.length_cons] at hf
    by_cases hp : P x = true
    · obtain ⟨t1, m1, hr, ha, hpw, hb1⟩ := remove_at h hb
      simp only [hp, if_true]
      rw [hr, Res.ok_bind]
      have hfl : filling t1 done.length = pre.length + xs.length := by
        have : (xs.getLast?.toList ++ xs.dropLast).length = xs.length := by
          cases xs with
          | nil => rfl
          | cons a as => rw [List.getLast?_cons]; simp
        simp [filling, hb1]
        simpa using this
      unfold next
      rw [hfl]
      by_cases hc : pre.length + xs.length ≠ 0 ∧ pre.length < pre.length + xs.length - 1
      · rw [if_pos hc]
        obtain ⟨a, as, b, rfl⟩ : ∃ a as b, xs = a :: (as ++ [b]) := by
          cases xs with
          | nil => simp at hc; omega
          | cons a as =>
            rcases List.eq_nil_or_concat as with rfl | ⟨c, z, rfl⟩
            · simp at hc
            · exact ⟨a, c, z, by simp⟩
        have e1 : (a :: (as ++ [b])).dropLast = a :: as := by
          rw [← List.cons_append, List.dropLast_concat]
        have e2 : (a :: (as ++ [b])).getLast? = some b := by
          rw [← List.cons_append, List.getLast?_concat]
        rw [e1, e2] at hb1
        obtain ⟨t', m', g1, g2, g3, g4⟩ := ih t1 m1 done todo (pre ++ [b]) a as ha (by rw [hb1]; simp) (by
          simp at hf ⊢; omega)
        refine ⟨t', m', ?_, g2, by rw [g3, hpw], ?_⟩
        · rw [show pre.length + 1 = (pre ++ [b]).length from by simp, g1, Res.ok_bind]
          conv => rhs; rw [seen, if_pos hp, e1]
          rfl
        · rw [g4]
          conv => rhs; rw [left, if_pos hp, e1, e2]
          simp
      · rw [if_neg hc]
        have hx1 : xs.length ≤ 1 := by omega
        have ed : xs.dropLast = [] := List.length_eq_zero_iff.mp (by simp; omega)
        rw [ed, List.append_nil] at hb1
        obtain ⟨t', m', g1, g2, g3, g4⟩ := sweep_after f P fuel ih t1 m1 ha (done ++ [pre ++ xs.getLast?.toList]) todo
          (by rw [hb1]; simp) (t1.buckets.length - done.length) (by rw [hb1]; simp) (by omega)
        rw [show (done ++ [pre ++ xs.getLast?.toList]).length = done.length + 1 from by simp] at g1
        refine ⟨t', m', ?_, g2, by rw [g3, hpw], ?_⟩
        · simp only [g1, Res.ok_bind]
          conv => rhs; rw [seen, if_pos hp, ed, seen_nil]
          rfl
        · rw [g4]
          conv => rhs; rw [left, if_pos hp, ed, left_nil]
          simp
    · simp only [hp, Bool.false_eq_true, if_false]
      rw [Res.ok_bind]
      have hfl : filling t done.length = pre.length + xs.length + 1 := by
        simp [filling, hb]; omega
      unfold next
      rw [hfl]
      by_cases hc : pre.length + xs.length + 1 ≠ 0 ∧ pre.length < pre.length + xs.length + 1 - 1
      · rw [if_pos hc]
        obtain ⟨a, as, rfl⟩ : ∃ a as, xs = a :: as := by
          cases xs with
          | nil => simp at hc
          | cons a as => exact ⟨a, as, rfl⟩
        obtain ⟨t', m', g1, g2, g3, g4⟩ := ih t m done todo (pre ++ [x]) a as h (by rw [hb]; simp) (by
          simp at hf ⊢; omega)
        refine ⟨t', m', ?_, g2, g3, ?_⟩
        · rw [show pre.length + 1 = (pre ++ [x]).length from by simp, g1, Res.ok_bind]
          conv => rhs; rw [seen, if_neg hp]
          rfl
        · rw [g4]
          conv => rhs; rw [left, if_neg hp]
          simp
      · rw [if_neg hc]
        have : xs = [] := List.length_eq_zero_iff.mp (by omega)
        subst this
        obtain ⟨t', m', g1, g2, g3, g4⟩ := sweep_after f P fuel ih t m h (done ++ [pre ++ [x]]) todo
          (by rw [hb]; simp) (t.buckets.length - done.length) (by rw [hb]; simp) (by omega)
        rw [show (done ++ [pre ++ [x]]).length = done.length + 1 from by simp] at g1
        refine ⟨t', m', ?_, g2, g3, ?_⟩
        · simp only [g1, Res.ok_bind]
          conv => rhs; rw [seen, if_neg hp, seen_nil]
          rfl
        · rw [g4]
          conv => rhs; rw [left, if_neg hp, left_nil]
          simp

/-- The whole loop: what it sees and what it leaves, bucket by bucket. -/
theorem sweep_all {f : Fns α κ} {t : Table α} {m : κ → Option α} (h : Abs f t m) (P : α → Bool) (fuel : Nat)
    (hf : t.nel ≤ fuel) :
    ∃ t' m', sweep f P fuel t (first t) = .ok ((t.buckets.map (seen P)).flatten, t') ∧ Abs f t' m' ∧
      t'.buckets = t.buckets.map (left P) := by
  have hpos : 0 < t.buckets.length := by rw [h.inv.placed.1]; exact Nat.two_pow_pos _
  have hn := h.inv.nel
  unfold elems at hn
  obtain ⟨l, ls, hb⟩ : ∃ l ls, t.buckets = l :: ls := by
    cases hh : t.buckets with
    | nil => rw [hh] at hpos; simp at hpos
    | cons l ls => exact ⟨l, ls, rfl⟩
  have hfl : filling t 0 = l.length := by simp [filling, hb]
  rw [hb, List.flatten_cons, List.length_append] at hn
  unfold first
  rw [hfl]
  cases l with
  | nil =>
    rw [if_neg (by simp)]
    unfold next
    rw [hfl, if_neg (by simp)]
    obtain ⟨t', m', g1, g2, _, g4⟩ := sweep_after f P fuel (sweep_from f P fuel) t m h [[]] ls (by rw [hb]; rfl)
      (t.buckets.length - 0) (by rw [hb]; simp) (by omega)
    refine ⟨t', m', ?_, g2, ?_⟩
    · simp only [List.length_cons, List.length_nil] at g1
      rw [g1, hb]; simp [seen_nil]
    · rw [g4, hb]; simp [left_nil]
  | cons x xs =>
    rw [if_pos (by simp)]
    obtain ⟨t', m', g1, g2, _, g4⟩ := sweep_from f P fuel t m [] ls [] x xs h (by rw [hb]; rfl) (by omega)
    refine ⟨t', m', ?_, g2, ?_⟩
    · simp only [List.length_nil] at g1
      rw [g1, hb]; simp
    · rw [g4, hb]; simp

end Verif.Hash
