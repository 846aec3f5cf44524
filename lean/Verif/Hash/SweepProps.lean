import Verif.Hash.Sweep

/-!
# Deleting the current entry while iterating (C130)

The header promises that a loop which deletes only its current entry is predictable. What the
code does is predictable, but it is not what the loop says: a deletion moves the last element of
the bucket into the hole, where the index has already been, so that element is passed over.

* `sweep_once`: always, each entry is seen at most once, exactly the seen entries that were to be
  deleted are gone, and everything else is still found.
* `sweep_complete_iff`: every entry is seen exactly when no entry to be deleted is followed by
  another one in its bucket.
* `sweep_partial`: under that condition the loop does what it says.
* `sweep_repeated`: repeating the loop as often as there are entries deletes all that were to be
  deleted, whatever the buckets look like.
* `sweep_passes_over`: the promise itself fails.
-/

namespace Verif.Hash

variable {α κ : Type}

/-! ## One bucket -/

theorem seen_sublist (P : α → Bool) : ∀ l : List α, (seen P l).Sublist l
  | [] => by rw [seen_nil]; exact List.Sublist.refl _
  | x :: xs => by
    rw [seen]
    refine List.Sublist.cons_cons x ?_
    split
    · exact (seen_sublist P xs.dropLast).trans (List.dropLast_sublist xs)
    · exact seen_sublist P xs
termination_by l => l.length
decreasing_by all_goals simp; try omega

theorem last_perm (xs : List α) : (xs.getLast?.toList ++ xs.dropLast).Perm xs := by
  rcases List.eq_nil_or_concat xs with rfl | ⟨ys, z, rfl⟩
  · exact List.Perm.refl _
  · simp only [List.concat_eq_append, List.getLast?_concat, List.dropLast_concat, Option.toList_some]
    exact (List.perm_append_singleton z ys).symm

theorem left_perm (P : α → Bool) : ∀ l : List α, (left P l ++ (seen P l).filter P).Perm l
  | [] => by rw [seen_nil, left_nil]; exact List.Perm.refl _
  | x :: xs => by
    rw [seen, left]
    by_cases h : P x = true
    · rw [if_pos h, if_pos h, List.filter_cons, if_pos h]
      refine List.Perm.trans List.perm_middle (List.Perm.cons x ?_)
      rw [List.append_assoc]
      exact (List.Perm.append_left _ (left_perm P xs.dropLast)).trans (last_perm xs)
    · rw [if_neg h, if_neg h, List.filter_cons, if_neg h, List.cons_append]
      exact List.Perm.cons x (left_perm P xs)
termination_by l => l.length
decreasing_by all_goals simp; try omega

/-- The loop sees all of a bucket exactly when none but the last element is to be deleted. -/
theorem seen_all_iff (P : α → Bool) : ∀ l : List α,
    (seen P l).length = l.length ↔ ∀ x ∈ l.dropLast, P x = false
  | [] => by rw [seen_nil]; simp
  | [x] => by rw [seen]; simp [seen_nil]
  | x :: y :: ys => by
    have ed : (x :: y :: ys).dropLast = x :: (y :: ys).dropLast := rfl
    rw [seen, ed]
    by_cases h : P x = true
    · rw [if_pos h]
      have := (seen_sublist P (y :: ys).dropLast).length_le
      simp only [List.length_dropLast, List.length_cons] at this
      constructor
      · intro e; simp only [List.length_cons] at e; omega
      · intro e; exact absurd (e x (by simp)) (by simp [h])
    · rw [if_neg h]
      have ih := seen_all_iff P (y :: ys)
      simp only [List.length_cons] at ih ⊢
      rw [show ((seen P (y :: ys)).length + 1 = ys.length + 1 + 1 ↔ (seen P (y :: ys)).length = ys.length + 1) from by omega, ih]
      simp only [List.mem_cons, forall_eq_or_imp]
      simp [h]

/-- The first element to be deleted is always reached. -/
theorem seen_first (P : α → Bool) : ∀ l : List α, (∃ x ∈ l, P x = true) → ∃ x ∈ seen P l, P x = true
  | [], h => by obtain ⟨x, hx, _⟩ := h; cases hx
  | x :: xs, h => by
    rw [seen]
    by_cases hp : P x = true
    · exact ⟨x, by simp, hp⟩
    · obtain ⟨y, hy, hpy⟩ := h
      rcases List.mem_cons.mp hy with rfl | hy
      · exact absurd hpy hp
      · obtain ⟨z, hz, hpz⟩ := seen_first P xs ⟨y, hy, hpy⟩
        exact ⟨z, by rw [if_neg hp]; exact List.mem_cons_of_mem _ hz, hpz⟩

/-! ## All buckets -/

theorem seen_flat_sublist (P : α → Bool) : ∀ L : List (List α), (L.map (seen P)).flatten.Sublist L.flatten
  | [] => List.Sublist.refl _
  | l :: L => by
    simp only [List.map_cons, List.flatten_cons]
    exact (seen_sublist P l).append (seen_flat_sublist P L)

theorem left_flat_perm (P : α → Bool) : ∀ L : List (List α),
    ((L.map (left P)).flatten ++ (L.map (seen P)).flatten.filter P).Perm L.flatten
  | [] => List.Perm.refl _
  | l :: L => by
    simp only [List.map_cons, List.flatten_cons, List.filter_append]
    have h1 := left_perm P l
    have h2 := left_flat_perm P L
    refine List.Perm.trans ?_ (h1.append h2)
    simp only [List.append_assoc]
    refine List.Perm.append_left _ ?_
    rw [← List.append_assoc, ← List.append_assoc]
    exact List.Perm.append_right _ List.perm_append_comm

theorem seen_flat_all_iff (P : α → Bool) : ∀ L : List (List α),
    (L.map (seen P)).flatten.length = L.flatten.length ↔ ∀ l ∈ L, ∀ x ∈ l.dropLast, P x = false
  | [] => by simp
  | l :: L => by
    simp only [List.map_cons, List.flatten_cons, List.length_append, List.mem_cons, forall_eq_or_imp]
    rw [← seen_all_iff, ← seen_flat_all_iff P L]
    have h1 := (seen_sublist P l).length_le
    have h2 := (seen_flat_sublist P L).length_le
    omega

variable [DecidableEq κ]

theorem nodup_of_map {β γ : Type} {g : β → γ} {l : List β} (h : (l.map g).Nodup) : l.Nodup := by
  unfold List.Nodup at h ⊢
  rw [List.pairwise_map] at h
  exact h.imp (fun hne he => hne (congrArg g he))

theorem length_of_all {β : Type} {l l' : List β} (h : l.Sublist l') (hn : l'.Nodup) (ha : ∀ x ∈ l', x ∈ l) :
    l'.length ≤ l.length := by
  induction h with
  | slnil => exact Nat.le_refl _
  | cons a h ih =>
    have := h.subset (ha a (by simp))
    exact absurd this (List.nodup_cons.mp hn).1
  | cons_cons a h ih =>
    have hc := List.nodup_cons.mp hn
    have := ih hc.2 (fun x hx => by
      rcases List.mem_cons.mp (ha x (List.mem_cons_of_mem _ hx)) with rfl | h'
      · exact absurd hx hc.1
      · exact h')
    simp only [List.length_cons]; omega

theorem Abs.mem {f : Fns α κ} {t : Table α} {m : κ → Option α} (h : Abs f t m) (k : κ) (x : α) :
    m k = some x ↔ x ∈ elems t ∧ f.key x = k := by
  have hm : x ∈ (elems t).filter (fun y => decide (k = f.key y)) ↔ m k = some x := by
    rw [h.cls]; cases m k <;> simp [eq_comm]
  rw [← hm, List.mem_filter]; simp [eq_comm]

theorem Abs.keys_nodup {f : Fns α κ} {t : Table α} {m : κ → Option α} (h : Abs f t m) :
    ((elems t).map f.key).Nodup := by
  rw [List.nodup_iff_count]
  intro k
  rw [List.count_eq_countP, List.countP_map, List.countP_eq_length_filter]
  have := h.cls k
  have e : (elems t).filter ((fun x => x == k) ∘ f.key) = (elems t).filter (fun y => decide (k = f.key y)) := by
    congr 1; funext y; rw [Bool.eq_iff_iff]; simp only [Function.comp, beq_iff_eq, decide_eq_true_eq]; exact eq_comm
  rw [e, this]
  cases m k <;> simp

/-- What a table built by some history is, with the map it stands for. -/
theorem history_abs (f : Fns α κ) (nel ff fuel : Nat) (hff : 0 < ff) (ops : List (Op α κ))
    {m : κ → Option α} {outs : List (Option α)} (hs : specRun f (fun _ => none) ops = some (m, outs))
    {t : Table α} (hr : run f fuel (makeEx α nel ff) ops = .ok (t, outs)) : Abs f t m := by
  rcases run_abs f fuel ops _ _ _ _ (makeEx_abs f nel hff) hs with e | ⟨t', e, h⟩
  · rw [hr] at e; cases e
  · rw [hr] at e
    injection e with e; injection e with e1 e2
    subst e1; exact h

theorem sweep_abs {f : Fns α κ} {t : Table α} {m : κ → Option α} (h : Abs f t m) (P : α → Bool) (fuel : Nat)
    (hf : t.nel ≤ fuel) :
    ∃ vis t' m', sweep f P fuel t (first t) = .ok (vis, t') ∧ Abs f t' m' ∧ vis.Sublist (elems t) ∧
      (∀ k x, m' k = some x ↔ m k = some x ∧ ¬ (x ∈ vis ∧ P x = true)) ∧
      t'.nel + (vis.filter P).length = t.nel ∧
      (vis.length = t.nel ↔ ∀ l ∈ t.buckets, ∀ x ∈ l.dropLast, P x = false) ∧
      ((∃ k x, m k = some x ∧ P x = true) → ∃ x ∈ vis, P x = true) := by
  obtain ⟨t', m', e1, e2, e3⟩ := sweep_all h P fuel hf
  have hp := left_flat_perm P t.buckets
  have hel : elems t' = (t.buckets.map (left P)).flatten := by unfold elems; rw [e3]
  refine ⟨_, t', m', e1, e2, seen_flat_sublist P t.buckets, ?_, ?_, ?_, ?_⟩
  · intro k x
    rw [e2.mem, h.mem, hel]
    have hnd : ((t.buckets.map (left P)).flatten ++ (t.buckets.map (seen P)).flatten.filter P).Nodup := by
      have := h.keys_nodup
      have h1 : (elems t).Nodup := nodup_of_map this
      exact hp.nodup_iff.mpr h1
    have hmem : x ∈ elems t ↔ x ∈ (t.buckets.map (left P)).flatten ∨ x ∈ (t.buckets.map (seen P)).flatten.filter P := by
      rw [← List.mem_append]; exact hp.mem_iff.symm
    rw [hmem, ← List.mem_filter]
    have hdis := (List.nodup_append.mp hnd).2.2
    constructor
    · rintro ⟨hx, hk⟩
      exact ⟨⟨Or.inl hx, hk⟩, fun hy => hdis x hx x hy rfl⟩
    · rintro ⟨⟨hx | hx, hk⟩, hn⟩
      · exact ⟨hx, hk⟩
      · exact absurd hx hn
  · rw [e2.inv.nel, h.inv.nel, hel, ← List.length_append]
    exact hp.length_eq
  · rw [h.inv.nel]; exact seen_flat_all_iff P t.buckets
  · rintro ⟨k, x, hx, hpx⟩
    have hx := ((h.mem k x).mp hx).1
    unfold elems at hx
    obtain ⟨l, hl, hxl⟩ := List.mem_flatten.mp hx
    obtain ⟨y, hy, hpy⟩ := seen_first P l ⟨x, hxl, hpx⟩
    exact ⟨y, List.mem_flatten.mpr ⟨_, List.mem_map.mpr ⟨l, hl, rfl⟩, hy⟩, hpy⟩

/-! ## The properties -/

/-- **C130, what always holds.** After any history, the loop that deletes its current entry when
`P` holds of it ends; it sees only entries of the map, none twice; afterwards a search finds
exactly the entries that were not both seen and to be deleted; and the element count is the
number of these. -/
theorem sweep_once (f : Fns α κ) (nel ff fuel : Nat) (hff : 0 < ff) (ops : List (Op α κ))
    (m : κ → Option α) (outs : List (Option α)) (hs : specRun f (fun _ => none) ops = some (m, outs))
    (t : Table α) (hr : run f fuel (makeEx α nel ff) ops = .ok (t, outs)) (P : α → Bool) :
    ∃ vis t', (∀ fu, t.nel ≤ fu → sweep f P fu t (first t) = .ok (vis, t')) ∧
      (vis.map f.key).Nodup ∧ (∀ x ∈ vis, m (f.key x) = some x) ∧
      (∀ k x, search f t' k = .ok (some x) ↔ m k = some x ∧ ¬ (x ∈ vis ∧ P x = true)) ∧
      t'.nel + (vis.filter P).length = t.nel := by
  have h := history_abs f nel ff fuel hff ops hs hr
  obtain ⟨vis, t', m', e1, e2, e3, e4, e5, _⟩ := sweep_abs h P t.nel (Nat.le_refl _)
  refine ⟨vis, t', ?_, (e3.map f.key).nodup h.keys_nodup, ?_, ?_, e5⟩
  · intro fu hfu
    obtain ⟨t1, _, a1, _, a3⟩ := sweep_all h P t.nel (Nat.le_refl _)
    obtain ⟨t2, m2, b1, b2, b3⟩ := sweep_all h P fu hfu
    have hgen : ∀ (n k : Nat) (t : Table α) (o : Option (Nat × Nat)) (r : List α × Table α),
        sweep f P n t o = .ok r → n ≤ k → sweep f P k t o = .ok r := by
      intro n
      induction n with
      | zero =>
        intro k t o r hh _
        cases o with
        | none => rw [sweep_none] at hh ⊢; exact hh
        | some p => simp [sweep] at hh
      | succ n ih =>
        intro k t o r hh hk
        cases o with
        | none => rw [sweep_none] at hh ⊢; exact hh
        | some p =>
          obtain ⟨k, rfl⟩ : ∃ j, k = j + 1 := ⟨k - 1, by omega⟩
          unfold sweep at hh ⊢
          obtain ⟨x, hx, hh⟩ := Res.bind_eq_ok.mp hh
          rw [hx, Res.ok_bind]
          by_cases hP : P x = true
          · simp only [hP, if_true] at hh ⊢
            obtain ⟨u, hu, hh⟩ := Res.bind_eq_ok.mp hh
            obtain ⟨q, hq, hh⟩ := Res.bind_eq_ok.mp hh
            rw [hu, Res.ok_bind, ih k u _ q hq (by omega), Res.ok_bind]
            exact hh
          · simp only [hP, Bool.false_eq_true, if_false, Res.ok_bind] at hh ⊢
            obtain ⟨q, hq, hh⟩ := Res.bind_eq_ok.mp hh
            rw [ih k t _ q hq (by omega), Res.ok_bind]
            exact hh
    exact hgen _ _ _ _ _ e1 hfu
  · intro x hx
    exact (h.mem _ _).mpr ⟨e3.subset hx, rfl⟩
  · intro k x
    rw [search_abs e2 k, ← e4 k x]
    constructor
    · intro hh; injection hh
    · intro hh; rw [hh]

/-- **C130, when the loop is complete.** It sees every entry exactly when no entry to be deleted
is followed by another one in its bucket. -/
theorem sweep_complete_iff (f : Fns α κ) (nel ff fuel : Nat) (hff : 0 < ff) (ops : List (Op α κ))
    (m : κ → Option α) (outs : List (Option α)) (hs : specRun f (fun _ => none) ops = some (m, outs))
    (t : Table α) (hr : run f fuel (makeEx α nel ff) ops = .ok (t, outs)) (P : α → Bool) (fu : Nat)
    (vis : List α) (t' : Table α) (hsw : sweep f P fu t (first t) = .ok (vis, t')) (hfu : t.nel ≤ fu) :
    (∀ k x, m k = some x → x ∈ vis) ↔ ∀ l ∈ t.buckets, ∀ x ∈ l.dropLast, P x = false := by
  have h := history_abs f nel ff fuel hff ops hs hr
  obtain ⟨vis', t2, m', e1, e2, e3, e4, e5, e6, _⟩ := sweep_abs h P fu hfu
  rw [hsw] at e1
  injection e1 with e1; injection e1 with e1 _
  subst e1
  rw [← e6]
  constructor
  · intro hall
    have hsub : ∀ x ∈ elems t, x ∈ vis := fun x hx => hall _ x ((h.mem _ x).mpr ⟨hx, rfl⟩)
    have hnd : (elems t).Nodup := nodup_of_map h.keys_nodup
    have h1 : (elems t).length ≤ vis.length := by
      exact length_of_all e3 hnd hsub
    have h2 := e3.length_le
    rw [h.inv.nel]; omega
  · intro hl k x hx
    have : vis = elems t := e3.eq_of_length (by rw [hl, h.inv.nel])
    rw [this]; exact ((h.mem k x).mp hx).1

/-- **C130 (partial).** When no entry to be deleted is followed by another one in its bucket (in
particular when no two entries share a bucket) the loop sees every entry once and leaves exactly
those that were not to be deleted. Without the condition this fails (`sweep_passes_over`). -/
theorem sweep_partial (f : Fns α κ) (nel ff fuel : Nat) (hff : 0 < ff) (ops : List (Op α κ))
    (m : κ → Option α) (outs : List (Option α)) (hs : specRun f (fun _ => none) ops = some (m, outs))
    (t : Table α) (hr : run f fuel (makeEx α nel ff) ops = .ok (t, outs)) (P : α → Bool)
    (hc : ∀ l ∈ t.buckets, ∀ x ∈ l.dropLast, P x = false) (fu : Nat) (hfu : t.nel ≤ fu) :
    ∃ vis t', sweep f P fu t (first t) = .ok (vis, t') ∧ (vis.map f.key).Nodup ∧
      (∀ k x, m k = some x ↔ x ∈ vis ∧ f.key x = k) ∧
      (∀ k x, search f t' k = .ok (some x) ↔ m k = some x ∧ P x = false) := by
  have h := history_abs f nel ff fuel hff ops hs hr
  obtain ⟨vis, t', m', e1, e2, e3, e4, e5, e6, _⟩ := sweep_abs h P fu hfu
  have hv : vis = elems t := e3.eq_of_length (by rw [e6.mpr hc, h.inv.nel])
  refine ⟨vis, t', e1, (e3.map f.key).nodup h.keys_nodup, ?_, ?_⟩
  · intro k x; rw [hv]; exact h.mem k x
  · intro k x
    rw [search_abs e2 k]
    have e := e4 k x
    constructor
    · intro hh
      injection hh with hh
      have := e.mp hh
      refine ⟨this.1, ?_⟩
      cases hP : P x with
      | false => rfl
      | true => exact absurd ⟨by rw [hv]; exact ((h.mem k x).mp this.1).1, hP⟩ this.2
    · rintro ⟨hm, hP⟩
      rw [e.mpr ⟨hm, by rw [hP]; simp⟩]

/-- The loop, run `n` times. -/
def sweeps (f : Fns α κ) (P : α → Bool) (fu : Nat) : Nat → Table α → Res (Table α)
  | 0, t => .ok t
  | n + 1, t => do
    let r ← sweep f P fu t (first t)
    sweeps f P fu n r.2

theorem sweeps_abs (f : Fns α κ) (P : α → Bool) (fu : Nat) : ∀ (n : Nat) (t : Table α) (m : κ → Option α),
    Abs f t m → t.nel ≤ fu → t.nel ≤ n →
    ∃ t' m', sweeps f P fu n t = .ok t' ∧ Abs f t' m' ∧ ∀ k x, m' k = some x ↔ m k = some x ∧ P x = false := by
  intro n
  induction n with
  | zero =>
    intro t m h _ hn
    refine ⟨t, m, rfl, h, ?_⟩
    have : elems t = [] := List.length_eq_zero_iff.mp (by rw [← h.inv.nel]; omega)
    intro k x
    constructor
    · intro hm
      have := ((h.mem k x).mp hm).1
      simp_all
    · exact fun hm => hm.1
  | succ n ih =>
    intro t m h hfu hn
    obtain ⟨vis, t1, m1, e1, e2, e3, e4, e5, _, e7⟩ := sweep_abs h P fu hfu
    unfold sweeps
    rw [e1, Res.ok_bind]
    by_cases hex : ∃ k x, m k = some x ∧ P x = true
    · obtain ⟨y, hy, hpy⟩ := e7 hex
      have hpos : 0 < (vis.filter P).length := List.length_pos_of_mem (List.mem_filter.mpr ⟨hy, hpy⟩)
      obtain ⟨t', m', g1, g2, g3⟩ := ih t1 m1 e2 (by omega) (by omega)
      refine ⟨t', m', g1, g2, ?_⟩
      intro k x
      rw [g3, e4]
      constructor
      · rintro ⟨⟨a, _⟩, b⟩; exact ⟨a, b⟩
      · rintro ⟨a, b⟩; exact ⟨⟨a, by rw [b]; simp⟩, b⟩
    · have hno : ∀ k x, m k = some x → P x = false := by
        intro k x hm
        cases hP : P x with
        | false => rfl
        | true => exact absurd ⟨k, x, hm, hP⟩ hex
      have hsame : ∀ (n : Nat) (t1 : Table α) (m1 : κ → Option α), Abs f t1 m1 → t1.nel ≤ fu →
          (∀ k x, m1 k = some x → P x = false) →
          ∃ t' m', sweeps f P fu n t1 = .ok t' ∧ Abs f t' m' ∧ ∀ k x, m' k = some x ↔ m1 k = some x := by
        intro n
        induction n with
        | zero => intro t1 m1 h1 _ _; exact ⟨t1, m1, rfl, h1, fun _ _ => Iff.rfl⟩
        | succ n ih2 =>
          intro t1 m1 h1 hf1 hn1
          obtain ⟨vis, t2, m2, a1, a2, _, a4, a5, _, _⟩ := sweep_abs h1 P fu hf1
          have heq : ∀ k x, m2 k = some x ↔ m1 k = some x := by
            intro k x
            rw [a4]
            constructor
            · exact fun hm => hm.1
            · intro hm; exact ⟨hm, by rw [hn1 k x hm]; simp⟩
          obtain ⟨t3, m3, b1, b2, b3⟩ := ih2 t2 m2 a2 (by omega) (fun k x hm => hn1 k x ((heq k x).mp hm))
          unfold sweeps
          rw [a1, Res.ok_bind]
          exact ⟨t3, m3, b1, b2, fun k x => (b3 k x).trans (heq k x)⟩
      have heq : ∀ k x, m1 k = some x ↔ m k = some x := by
        intro k x
        rw [e4]
        constructor
        · exact fun hm => hm.1
        · intro hm; exact ⟨hm, by rw [hno k x hm]; simp⟩
      obtain ⟨t', m', g1, g2, g3⟩ := hsame n t1 m1 e2 (by omega) (fun k x hm => hno k x ((heq k x).mp hm))
      refine ⟨t', m', g1, g2, ?_⟩
      intro k x
      rw [g3, heq]
      constructor
      · intro hm; exact ⟨hm, hno k x hm⟩
      · exact fun hm => hm.1

/-- **C130, the way out.** Repeating the loop as often as there are entries leaves exactly the
entries that were not to be deleted. -/
theorem sweep_repeated (f : Fns α κ) (nel ff fuel : Nat) (hff : 0 < ff) (ops : List (Op α κ))
    (m : κ → Option α) (outs : List (Option α)) (hs : specRun f (fun _ => none) ops = some (m, outs))
    (t : Table α) (hr : run f fuel (makeEx α nel ff) ops = .ok (t, outs)) (P : α → Bool) (fu n : Nat)
    (hfu : t.nel ≤ fu) (hn : t.nel ≤ n) :
    ∃ t', sweeps f P fu n t = .ok t' ∧
      ∀ k x, search f t' k = .ok (some x) ↔ m k = some x ∧ P x = false := by
  have h := history_abs f nel ff fuel hff ops hs hr
  obtain ⟨t', m', e1, e2, e3⟩ := sweeps_abs f P fu n t m h hfu hn
  refine ⟨t', e1, ?_⟩
  intro k x
  rw [search_abs e2 k, ← e3 k x]
  constructor
  · intro hh; injection hh
  · intro hh; rw [hh]

/-! ## The promise fails -/

/-- Numbers that are their own keys and hashes. -/
def numFns : Fns Nat Nat := ⟨fun x => x, fun k => UInt32.ofNat k⟩

/-- A table of four buckets given the entries 1, 5 and 2; 1 and 5 share a bucket. -/
def sweepOps : List (Op Nat Nat) := [.set 1, .set 5, .set 2]

/-- The table after `sweepOps`. -/
def sweepTable : Table Nat := ⟨[[], [1, 5], [2], []], 3, 8, 2⟩

theorem sweepTable_reached : run numFns 10 (makeEx Nat 4 8) sweepOps = .ok (sweepTable, []) := rfl

/-- **C130 fails of the code.** The loop that is to delete every entry it sees, and nothing else,
ends with an entry left that it never saw; a second pass deletes it. -/
theorem sweep_passes_over :
    ∃ t', sweep numFns (fun _ => true) 3 sweepTable (first sweepTable) = .ok ([1, 2], t') ∧
      search numFns sweepTable 5 = .ok (some 5) ∧ search numFns t' 5 = .ok (some 5) ∧ t'.nel = 1 ∧
      sweeps numFns (fun _ => true) 3 2 sweepTable = .ok ⟨[[], [], [], []], 0, 8, 2⟩ := by
  exact ⟨_, rfl, rfl, rfl, rfl, rfl⟩

/-- The hypotheses of `sweep_partial` are met by a table with a shared bucket: only 5, the last of
its bucket, and 2 are to be deleted. -/
example : ∃ t', sweep numFns (fun x => x != 1) 3 sweepTable (first sweepTable) = .ok ([1, 5, 2], t') ∧
    (∀ l ∈ sweepTable.buckets, ∀ x ∈ l.dropLast, (x != 1) = false) ∧
    t' = ⟨[[], [1], [], []], 1, 8, 2⟩ :=
  ⟨_, rfl, by decide, rfl⟩

/-- … and those of the other theorems by the witness above. -/
example : specRun numFns (fun _ => none) sweepOps =
    some (fun k => if k = 2 then some 2 else if k = 5 then some 5 else if k = 1 then some 1 else none, []) := by
  rfl

end Verif.Hash
