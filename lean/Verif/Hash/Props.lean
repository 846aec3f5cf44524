import Verif.Hash.Lemmas

/-!
# Properties of the hash table (C04, C05, C06, C07)

Specification: a partial function from keys to elements.
-/

namespace Verif.Hash

variable {α κ : Type} [DecidableEq κ]

/-- What a client may do. `set x` and `remove x` pass the hash of the key of `x`, as every
caller in the program does (`napr_hash_search` returns it). -/
inductive Op (α κ : Type) where
  | set (x : α)
  | remove (x : α)
  | search (k : κ)

/-- Run a history on the model; the outputs are those of the searches. -/
def run (f : Fns α κ) (fuel : Nat) : Table α → List (Op α κ) → Res (Table α × List (Option α))
  | t, [] => .ok (t, [])
  | t, .set x :: ops => do
    let t ← set f fuel t x (f.hash (f.key x))
    run f fuel t ops
  | t, .remove x :: ops => do
    let t ← remove f t x (f.hash (f.key x))
    run f fuel t ops
  | t, .search k :: ops => do
    let o ← search f t k
    let (t, os) ← run f fuel t ops
    .ok (t, o :: os)

/-- Specification: the map as a function; `none` when the client sets a key that is present
(the calling convention of every caller: search first, set only if absent). -/
def specRun (f : Fns α κ) : (κ → Option α) → List (Op α κ) → Option ((κ → Option α) × List (Option α))
  | m, [] => some (m, [])
  | m, .set x :: ops =>
    match m (f.key x) with
    | some _ => none
    | none => specRun f (fun k => if k = f.key x then some x else m k) ops
  | m, .remove x :: ops => specRun f (fun k => if k = f.key x then none else m k) ops
  | m, .search k :: ops => (specRun f m ops).map (fun (m', os) => (m', m k :: os))

/-- The table stores exactly the map `m`, one element per key. -/
structure Abs (f : Fns α κ) (t : Table α) (m : κ → Option α) : Prop where
  inv : Inv f t
  cls : ∀ k, (elems t).filter (fun y => decide (k = f.key y)) = (m k).toList

theorem search_abs {f : Fns α κ} {t : Table α} {m : κ → Option α} (h : Abs f t m) (k : κ) :
    search f t k = .ok (m k) := by
  obtain ⟨l, hl⟩ := bucket_exists h.inv.placed (f.hash k)
  have hf := elems_filter h.inv.placed k hl
  rw [h.cls k] at hf
  have : l.find? (fun x => decide (k = f.key x)) = m k := by
    rw [← List.head?_filter, ← hf]
    cases m k <;> rfl
  simp [search, hl, this]

theorem set_abs {f : Fns α κ} {t t' : Table α} {m : κ → Option α} {x : α} (h : Abs f t m)
    (ha : Added f t [x] t') (hx : m (f.key x) = none) :
    Abs f t' (fun k => if k = f.key x then some x else m k) := by
  refine ⟨ha.inv, ?_⟩
  intro k
  rw [ha.filt, h.cls]
  by_cases hk : k = f.key x
  · subst hk; simp [hx]
  · simp [hk]

omit [DecidableEq κ] in
theorem removeAt_spec (b : List α) (i : Nat) (hi : i < b.length) :
    (b[i] :: removeAt b i).Perm b := by
  unfold removeAt
  rcases List.eq_nil_or_concat b with rfl | ⟨c, z, rfl⟩
  · simp at hi
  · simp only [List.concat_eq_append] at hi ⊢
    rw [List.getLast?_append]
    simp only [List.getLast?_singleton, Option.some_or, List.length_append, List.length_cons, List.length_nil,
      Nat.zero_add, Nat.add_sub_cancel, ne_eq]
    simp at hi
    by_cases h : i = c.length
    · subst h
      simp only [not_true_eq_false, if_false, List.dropLast_concat]
      simp only [List.getElem_append_right (Nat.le_refl _), Nat.sub_self, List.getElem_cons_zero]
      exact (List.perm_append_singleton z c).symm
    · have hic : i < c.length := by omega
      simp only [h, not_false_eq_true, if_true]
      rw [List.set_append_left _ _ hic, List.dropLast_concat, List.getElem_append_left hic]
      refine List.Perm.trans ?_ (List.perm_append_singleton z c).symm
      have := List.set_set_perm (as := z :: c) (i := 0) (j := i + 1) (by simp) (by simpa using hic)
      simpa using this

theorem remove_abs {f : Fns α κ} {t : Table α} {m : κ → Option α} (h : Abs f t m) (x : α) :
    ∃ t', remove f t x (f.hash (f.key x)) = .ok t' ∧ Abs f t' (fun k => if k = f.key x then none else m k) := by
  obtain ⟨l, hl⟩ := bucket_exists h.inv.placed (f.hash (f.key x))
  have hlt : bucketOf t.power (f.hash (f.key x)) < t.buckets.length := by
    rw [h.inv.placed.1]; exact bucketOf_lt _ _
  simp only [remove, hl]
  cases hfi : l.findIdx? (fun y => decide (f.key x = f.key y)) with
  | none =>
    refine ⟨t, rfl, h.inv, ?_⟩
    intro k
    rw [h.cls]
    by_cases hk : k = f.key x
    · subst hk
      have := elems_filter h.inv.placed (f.key x) hl
      rw [h.cls] at this
      have hnil : l.filter (fun y => decide (f.key x = f.key y)) = [] := by
        rw [List.filter_eq_nil_iff]
        intro a ha
        have := List.findIdx?_eq_none_iff.mp hfi a ha
        simpa using this
      rw [hnil] at this
      simp only [if_true, this, Option.toList_none]
    · simp [hk]
  | some i =>
    have hii := List.findIdx?_eq_some_iff_getElem.mp hfi
    obtain ⟨hi, hki, _⟩ := hii
    have hki : f.key x = f.key l[i] := by simpa using hki
    have hp := removeAt_spec l i hi
    have hroom := h.inv.room l (List.mem_of_getElem? hl)
    have hplaced : Placed f { t with buckets := t.buckets.set (bucketOf t.power (f.hash (f.key x))) (removeAt l i), nel := t.nel - 1 } := by
      refine ⟨by simpa using h.inv.placed.1, ?_⟩
      intro b l' hb y hy
      simp only [List.getElem?_set] at hb
      split at hb
      · rename_i hbe
        subst hbe
        injection hb with hb; subst hb
        exact h.inv.placed.2 _ l hl y (hp.subset (List.mem_cons_of_mem _ hy))
      · exact h.inv.placed.2 b l' hb y hy
    refine ⟨_, rfl, ⟨hplaced, ?_, ?_⟩, ?_⟩
    · intro l' hl'
      rcases List.mem_or_eq_of_mem_set hl' with h' | h'
      · exact h.inv.room l' h'
      · subst h'
        have := hp.length_eq
        simp at this
        show (removeAt l i).length < t.ffactor
        omega
    · have hperm := flatten_set_perm (t.buckets.set (bucketOf t.power (f.hash (f.key x))) (removeAt l i))
        (bucketOf t.power (f.hash (f.key x))) (removeAt l i) l l[i] (by simp [hlt]) hp.symm
      rw [List.set_set] at hperm
      have e : t.buckets.set (bucketOf t.power (f.hash (f.key x))) l = t.buckets := by
        rw [List.getElem?_eq_getElem hlt] at hl
        injection hl with hl
        rw [← hl]; exact List.set_getElem_self hlt
      rw [e] at hperm
      have := hperm.length_eq
      have hn := h.inv.nel
      simp only [elems] at hn ⊢
      simp at this hn ⊢; omega
    · intro k
      by_cases hb : bucketOf t.power (f.hash k) = bucketOf t.power (f.hash (f.key x))
      · rw [elems_filter hplaced k (l := removeAt l i) (by simp [hb, hlt])]
        have hc := h.cls k
        rw [elems_filter h.inv.placed k (l := l) (by rw [hb]; exact hl)] at hc
        have hp2 := hp.filter (fun y => decide (k = f.key y))
        rw [hc] at hp2
        by_cases hk : k = f.key x
        · subst hk
          simp only [if_true, Option.toList_none]
          rw [List.filter_cons, if_pos (by simpa using hki)] at hp2
          have := hp2.length_eq
          have hle : (m (f.key x)).toList.length ≤ 1 := by cases m (f.key x) <;> simp
          simp only [List.length_cons] at this
          exact List.length_eq_zero_iff.mp (by omega)
        · have hk' : ¬ k = f.key l[i] := by rw [← hki]; exact hk
          rw [List.filter_cons, if_neg (by simpa using hk')] at hp2
          simp only [hk, if_false]
          cases hm : m k with
          | none => rw [hm] at hp2; simpa using hp2
          | some y => rw [hm] at hp2; simpa using hp2
      · have hk : k ≠ f.key x := by intro hk; subst hk; exact hb rfl
        obtain ⟨l2, hl2⟩ := bucket_exists h.inv.placed (f.hash k)
        rw [elems_filter hplaced k (l := l2) (by
          simp only [List.getElem?_set]; rw [if_neg (Ne.symm hb)]; exact hl2)]
        have hc := h.cls k
        rw [elems_filter h.inv.placed k hl2] at hc
        simp [hk, hc]

theorem run_abs (f : Fns α κ) (fuel : Nat) :
    ∀ (ops : List (Op α κ)) (t : Table α) (m m' : κ → Option α) (outs : List (Option α)), Abs f t m →
      specRun f m ops = some (m', outs) →
      run f fuel t ops = .div ∨ ∃ t', run f fuel t ops = .ok (t', outs) ∧ Abs f t' m' := by
  intro ops
  induction ops with
  | nil =>
    intro t m m' outs h hs
    simp only [specRun, Option.some.injEq, Prod.mk.injEq] at hs
    obtain ⟨rfl, rfl⟩ := hs
    exact Or.inr ⟨t, rfl, h⟩
  | cons op ops ih =>
    intro t m m' outs h hs
    cases op with
    | set x =>
      simp only [specRun] at hs
      cases hm : m (f.key x) with
      | some y => simp [hm] at hs
      | none =>
        simp only [hm] at hs
        rcases set_spec f fuel t x h.inv with e | ⟨t1, e, ha⟩
        · left; simp [run, e]
        · rcases ih t1 _ _ _ (set_abs h ha hm) hs with e2 | ⟨t2, e2, h2⟩
          · left; simp [run, e, e2]
          · right; exact ⟨t2, by simp [run, e, e2], h2⟩
    | remove x =>
      simp only [specRun] at hs
      obtain ⟨t1, e, h1⟩ := remove_abs h x
      rcases ih t1 _ _ _ h1 hs with e2 | ⟨t2, e2, h2⟩
      · left; simp [run, e, e2]
      · right; exact ⟨t2, by simp [run, e, e2], h2⟩
    | search k =>
      simp only [specRun, Option.map_eq_some_iff] at hs
      obtain ⟨⟨m1, os⟩, hs, heq⟩ := hs
      simp only [Prod.mk.injEq] at heq
      obtain ⟨rfl, rfl⟩ := heq
      have e := search_abs h k
      rcases ih t _ _ _ h hs with e2 | ⟨t2, e2, h2⟩
      · left; simp [run, e, e2]
      · right; exact ⟨t2, by simp [run, e, e2], h2⟩

theorem makeEx_abs (f : Fns α κ) (nel : Nat) {ff : Nat} (hff : 0 < ff) :
    Abs f (makeEx α nel ff) (fun _ => none) :=
  ⟨makeEx_inv f nel hff, by intro k; rw [elems_makeEx]; rfl⟩

/-- **C04.** From a fresh table of any size and positive fill factor, whatever the hash
function, a history that sets keys only when absent either does not end (see C06) or answers
every search exactly as the map does; no access is out of bounds, and afterwards every key
still has exactly the map's answer. -/
theorem hash_refines_map (f : Fns α κ) (nel ff fuel : Nat) (hff : 0 < ff) (ops : List (Op α κ))
    (m : κ → Option α) (outs : List (Option α)) (hs : specRun f (fun _ => none) ops = some (m, outs)) :
    run f fuel (makeEx α nel ff) ops = .div ∨
    ∃ t, run f fuel (makeEx α nel ff) ops = .ok (t, outs) ∧ (∀ k, search f t k = .ok (m k)) := by
  rcases run_abs f fuel ops _ _ _ _ (makeEx_abs f nel hff) hs with e | ⟨t, e, h⟩
  · exact Or.inl e
  · exact Or.inr ⟨t, e, search_abs h⟩

/-! ## Iteration (C05) -/

omit [DecidableEq κ] in
theorem skip_le (t : Table α) : ∀ (n b : Nat), b ≤ skip t n b ∧ skip t n b ≤ b + n := by
  intro n
  induction n with
  | zero => intro b; simp [skip]
  | succ n ih =>
    intro b
    unfold skip
    have := ih (b + 1)
    split
    · split <;> omega
    · omega

omit [DecidableEq κ] in
/-- Skipping empty buckets loses no element. -/
theorem skip_spec (t : Table α) : ∀ (n b : Nat), t.buckets.length ≤ b + n →
    (t.buckets.drop b).flatten = (t.buckets.drop (skip t n b)).flatten ∧
    (skip t n b < t.buckets.length → filling t (skip t n b) ≠ 0) := by
  intro n
  induction n with
  | zero =>
    intro b hb
    simp only [skip, true_and]
    intro h; omega
  | succ n ih =>
    intro b hb
    unfold skip
    by_cases h1 : b < t.buckets.length
    · simp only [h1, if_true]
      by_cases h2 : filling t b ≠ 0
      · simp [h2]
      · have h2' : filling t b = 0 := by omega
        simp only [h2', ne_eq, not_true_eq_false, if_false]
        have := ih (b + 1) (by omega)
        refine ⟨?_, this.2⟩
        rw [← this.1]
        rw [List.drop_eq_getElem_cons h1, List.flatten_cons]
        have : t.buckets[b] = [] := by
          unfold filling at h2'
          rw [List.getElem?_eq_getElem h1] at h2'
          exact List.length_eq_zero_iff.mp h2'
        rw [this, List.nil_append]
    · simp [h1]

/-- The elements from position `(b, e)` on, in table order. -/
def rest (t : Table α) (b e : Nat) : List α :=
  ((t.buckets[b]?.getD []).drop e) ++ (t.buckets.drop (b + 1)).flatten

omit [DecidableEq κ] in
theorem rest_zero (t : Table α) (b : Nat) (h : b < t.buckets.length) :
    rest t b 0 = (t.buckets.drop b).flatten := by
  unfold rest
  rw [List.drop_eq_getElem_cons h, List.getElem?_eq_getElem h, List.flatten_cons]
  rfl

omit [DecidableEq κ] in
theorem iterate_from (t : Table α) :
    ∀ (fuel b e : Nat) (l : List α), t.buckets[b]? = some l → e < l.length → (rest t b e).length ≤ fuel →
      iterate t fuel (some (b, e)) = .ok (rest t b e) := by
  intro fuel
  induction fuel with
  | zero =>
    intro b e l hl he hf
    simp [rest, hl] at hf; omega
  | succ fuel ih =>
    intro b e l hl he hf
    unfold iterate
    have hthis : this t b e = .ok l[e] := by simp [this, hl, List.getElem?_eq_getElem he]
    have hrest : rest t b e = l[e] :: rest t b (e + 1) := by
      unfold rest
      rw [hl]
      simp only [Option.getD_some]
      rw [List.drop_eq_getElem_cons he, List.cons_append]
    simp only [hthis, Res.ok_bind]
    rw [hrest] at hf ⊢
    simp only [List.length_cons] at hf
    have hfill : filling t b = l.length := by simp [filling, hl]
    have hblt : b < t.buckets.length := by
      rcases Nat.lt_or_ge b t.buckets.length with h | h
      · exact h
      · rw [List.getElem?_eq_none h] at hl; cases hl
    unfold next
    rw [hfill]
    by_cases h1 : l.length ≠ 0 ∧ e < l.length - 1
    · rw [if_pos h1, ih b (e + 1) l hl (by omega) (by omega)]; rfl
    · rw [if_neg h1]
      have hend : e + 1 = l.length := by omega
      have hr1 : rest t b (e + 1) = (t.buckets.drop (b + 1)).flatten := by
        unfold rest; rw [hl]; simp [hend]
      rw [hr1] at hf ⊢
      have hsk := skip_spec t (t.buckets.length - b) (b + 1) (by omega)
      rw [hsk.1] at hf ⊢
      by_cases h2 : skip t (t.buckets.length - b) (b + 1) < t.buckets.length
      · simp only [h2, if_true]
        have hne := hsk.2 h2
        have hr2 : rest t (skip t (t.buckets.length - b) (b + 1)) 0 =
            (t.buckets.drop (skip t (t.buckets.length - b) (b + 1))).flatten := rest_zero t _ h2
        rw [← hr2] at hf ⊢
        rw [ih _ 0 _ (List.getElem?_eq_getElem h2) (by
          unfold filling at hne; rw [List.getElem?_eq_getElem h2] at hne
          simp only [Option.getD_some] at hne; omega) (by omega)]
        rfl
      · simp only [h2, if_false]
        rw [List.drop_eq_nil_of_le (by omega)]
        cases fuel <;> rfl

omit [DecidableEq κ] in
/-- On any table with at least one bucket, the iteration yields the elements in table order. -/
theorem iterate_elems (t : Table α) (hpos : 0 < t.buckets.length) (fuel : Nat) (hf : (elems t).length ≤ fuel) :
    iterate t fuel (first t) = .ok (elems t) := by
  have hbe : elems t = rest t 0 0 := by
    unfold elems rest
    rw [List.getElem?_eq_getElem hpos]
    conv => lhs; rw [← List.drop_zero (l := t.buckets), List.drop_eq_getElem_cons hpos]
    simp
  unfold first
  by_cases h : filling t 0 > 0
  · rw [if_pos h, hbe]
    rw [hbe] at hf
    refine iterate_from t fuel 0 0 _ (List.getElem?_eq_getElem hpos) ?_ hf
    unfold filling at h; rw [List.getElem?_eq_getElem hpos] at h; simpa using h
  · rw [if_neg h]
    have h0 : filling t 0 = 0 := by omega
    unfold next
    rw [if_neg (by omega)]
    have hsk := skip_spec t (t.buckets.length - 0) (0 + 1) (by omega)
    have hb0 : t.buckets[0] = [] := by
      unfold filling at h0; rw [List.getElem?_eq_getElem hpos] at h0
      exact List.length_eq_zero_iff.mp h0
    have he : elems t = (t.buckets.drop (skip t (t.buckets.length - 0) (0 + 1))).flatten := by
      rw [← hsk.1, hbe]; unfold rest; rw [List.getElem?_eq_getElem hpos]; simp [hb0]
    rw [he] at hf ⊢
    by_cases h2 : skip t (t.buckets.length - 0) (0 + 1) < t.buckets.length
    · simp only [h2, if_true]
      have hne := hsk.2 h2
      have hr2 : rest t (skip t (t.buckets.length - 0) (0 + 1)) 0 =
          (t.buckets.drop (skip t (t.buckets.length - 0) (0 + 1))).flatten := rest_zero t _ h2
      rw [← hr2] at hf ⊢
      exact iterate_from t fuel _ 0 _ (List.getElem?_eq_getElem h2) (by
        unfold filling at hne; rw [List.getElem?_eq_getElem h2] at hne
        simp only [Option.getD_some] at hne; omega) hf
    · simp only [h2, if_false]
      rw [List.drop_eq_nil_of_le (by omega)]
      cases fuel <;> rfl

/-- **C05.** After any history, iterating with first/next yields a list without repetition of
keys that contains exactly the elements of the map, and its length is the element count. -/
theorem hash_iterates_exactly (f : Fns α κ) (nel ff fuel : Nat) (hff : 0 < ff) (ops : List (Op α κ))
    (m : κ → Option α) (outs : List (Option α)) (hs : specRun f (fun _ => none) ops = some (m, outs))
    (t : Table α) (hr : run f fuel (makeEx α nel ff) ops = .ok (t, outs)) :
    ∃ l, (∀ fuel, t.nel ≤ fuel → iterate t fuel (first t) = .ok l) ∧ l.length = t.nel ∧
      (∀ k x, m k = some x ↔ x ∈ l ∧ f.key x = k) ∧ (∀ k, (l.filter (fun x => decide (k = f.key x))).length ≤ 1) := by
  rcases run_abs f fuel ops _ _ _ _ (makeEx_abs f nel hff) hs with e | ⟨t', e, h⟩
  · rw [hr] at e; cases e
  · rw [hr] at e
    injection e with e; injection e with e1 e2
    subst e1
    have hpos : 0 < t.buckets.length := by rw [h.inv.placed.1]; exact Nat.two_pow_pos _
    refine ⟨elems t, ?_, h.inv.nel.symm, ?_, ?_⟩
    · intro fu hf
      exact iterate_elems t hpos fu (by rw [← h.inv.nel]; exact hf)
    · intro k x
      have hm : x ∈ (elems t).filter (fun y => decide (k = f.key y)) ↔ m k = some x := by
        rw [h.cls]; cases m k <;> simp [eq_comm]
      rw [← hm, List.mem_filter]; simp [eq_comm]
    · intro k; rw [h.cls]; cases m k <;> simp

/-! ## Termination (C06) -/

/-- Number of elements of `l` whose full hash value is `v`. -/
def sameHash (f : Fns α κ) (l : List α) (v : UInt32) : Nat := l.countP (fun y => f.hash (f.key y) = v)

theorem set_terminates_from (f : Fns α κ) :
    ∀ (fuel : Nat) (t : Table α) (x : α), Inv f t →
      (∀ v, sameHash f (x :: elems t) v < t.ffactor) → 33 ≤ fuel + min t.power 32 →
      ∃ t', set f fuel t x (f.hash (f.key x)) = .ok t' ∧ Added f t [x] t' := by
  intro fuel
  induction fuel with
  | zero => intro t x _ _ h; omega
  | succ fuel ih =>
    intro t x h hb hf
    obtain ⟨t1, n, e, hpl, hpw, hff, hnel, hperm, hfilt, hroom, hlen⟩ := store_spec h x
    -- fold over the elements of the rebuilt table
    have hfold : ∀ (l : List α) (tmp : Table α), Inv f tmp → tmp.ffactor = t.ffactor → 33 ≤ fuel + min tmp.power 32 →
        (∀ v, sameHash f (l ++ elems tmp) v < t.ffactor) →
        ∃ t', l.foldlM (fun tmp y => set f fuel tmp y (f.hash (f.key y))) tmp = .ok t' := by
      intro l
      induction l with
      | nil => intro tmp _ _ _ _; exact ⟨tmp, rfl⟩
      | cons y ys ihl =>
        intro tmp hi hffe hp hbnd
        rw [List.foldlM_cons]
        obtain ⟨t2, e2, h2⟩ := ih tmp y hi (by
          intro v
          have := hbnd v
          unfold sameHash at this ⊢
          rw [List.cons_append, List.countP_cons, List.countP_append] at this
          rw [List.countP_cons]; omega) hp
        rw [e2]
        apply ihl t2 h2.inv (h2.ff.trans hffe)
        · have := h2.pw
          have : min tmp.power 32 ≤ min t2.power 32 := by omega
          omega
        · intro v
          have := hbnd v
          unfold sameHash at this ⊢
          rw [List.countP_append, h2.perm.countP_eq]
          rw [List.cons_append, List.countP_cons, List.countP_append] at this
          rw [List.cons_append, List.countP_cons, List.nil_append]; omega
    by_cases hc : t1.ffactor ≤ n
    · -- a rebuild happens, so the table has fewer than 2^32 buckets
      have hp32 : t.power < 32 := by
        rcases Nat.lt_or_ge t.power 32 with h' | h'
        · exact h'
        · exfalso
          obtain ⟨l, hl⟩ := bucket_exists hpl (f.hash (f.key x))
          rw [hpw] at hl
          have hln := hlen l hl
          have hall : l.countP (fun y => f.hash (f.key y) = f.hash (f.key x)) = l.length := by
            rw [List.countP_eq_length]
            intro y hy
            have h3 := hpl.2 _ l hl y hy
            rw [hpw, bucketOf_full h', bucketOf_full h'] at h3
            simpa using UInt32.toNat_inj.mp h3
          have hsub : l.Sublist (elems t1) := List.sublist_flatten_of_mem (List.mem_of_getElem? hl)
          have h4 := hb (f.hash (f.key x))
          have h5 := hsub.countP_le (p := fun y => decide (f.hash (f.key y) = f.hash (f.key x)))
          unfold sameHash at h4
          rw [← hperm.countP_eq] at h4
          omega
      have hinv := makeEx_inv f (hashsize (t1.power + 1)) (by rw [hff]; exact h.ff_pos : 0 < t1.ffactor)
      obtain ⟨t2, e2⟩ := hfold (elems t1) _ hinv hff (by
          have := makeEx_power α (t1.power + 1) t1.ffactor
          omega) (by
          intro v; rw [elems_makeEx, List.append_nil]
          have := hb v
          unfold sameHash at this ⊢
          rw [hperm.countP_eq]; exact this)
      rcases set_spec f (fuel + 1) t x h with e3 | h3
      · unfold set at e3
        simp only [e, Res.ok_bind, hc, if_true] at e3
        rw [e2] at e3; cases e3
      · exact h3
    · rcases set_spec f (fuel + 1) t x h with e3 | h3
      · unfold set at e3
        simp only [e, Res.ok_bind, hc, if_false] at e3
        cases e3
      · exact h3

/-- **C06.** On a well-formed table, `set` returns if and only if fewer than fill-factor
elements (counting the new one) share any full 32-bit hash value; 33 nested rebuilds are then
enough, and otherwise no amount of them is. -/
theorem hash_set_terminates_iff (f : Fns α κ) (t : Table α) (x : α) (h : Inv f t) :
    ((∃ fuel t', set f fuel t x (f.hash (f.key x)) = .ok t') ↔ ∀ v, sameHash f (x :: elems t) v < t.ffactor) ∧
    ((∀ v, sameHash f (x :: elems t) v < t.ffactor) → ∃ t', set f 33 t x (f.hash (f.key x)) = .ok t') ∧
    ((∃ v, t.ffactor ≤ sameHash f (x :: elems t) v) → ∀ fuel, set f fuel t x (f.hash (f.key x)) = .div) := by
  have fwd : (∃ fuel t', set f fuel t x (f.hash (f.key x)) = .ok t') →
      ∀ v, sameHash f (x :: elems t) v < t.ffactor := by
    rintro ⟨fuel, t', e⟩ v
    rcases set_spec f fuel t x h with e' | ⟨t2, e2, ha⟩
    · rw [e] at e'; cases e'
    · rw [e] at e2; injection e2 with e2; subst e2
      have hc : sameHash f (x :: elems t) v = sameHash f (elems t') v := by
        unfold sameHash; rw [ha.perm.countP_eq]; rfl
      obtain ⟨l, hl⟩ := bucket_exists ha.inv.placed v
      have hroom := ha.inv.room l (List.mem_of_getElem? hl)
      rw [ha.ff] at hroom
      have : (elems t').filter (fun y => decide (f.hash (f.key y) = v)) = l.filter (fun y => decide (f.hash (f.key y) = v)) := by
        apply flatten_filter_single _ _ _ _ hl
        intro b l' hb hne
        rw [List.filter_eq_nil_iff]
        intro a hal hk
        have hk : f.hash (f.key a) = v := by simpa using hk
        exact hne (by rw [← hk]; exact (ha.inv.placed.2 b l' hb a hal).symm)
      rw [hc]; unfold sameHash
      rw [List.countP_eq_length_filter, this]
      have := List.length_filter_le (fun y => decide (f.hash (f.key y) = v)) l
      omega
  have bwd : (∀ v, sameHash f (x :: elems t) v < t.ffactor) → ∃ t', set f 33 t x (f.hash (f.key x)) = .ok t' := by
    intro hb
    obtain ⟨t', e, _⟩ := set_terminates_from f 33 t x h hb (by omega)
    exact ⟨t', e⟩
  refine ⟨⟨fwd, fun hb => ?_⟩, bwd, ?_⟩
  · obtain ⟨t', e⟩ := bwd hb; exact ⟨33, t', e⟩
  · rintro ⟨v, hv⟩ fuel
    rcases set_spec f fuel t x h with e | ⟨t', e, _⟩
    · exact e
    · have := fwd ⟨fuel, t', e⟩ v; omega

theorem remove_elems {f : Fns α κ} {t t' : Table α} {x : α} {hv : UInt32} (h : remove f t x hv = .ok t') :
    t'.ffactor = t.ffactor ∧ ∀ p : α → Bool, (elems t').countP p ≤ (elems t).countP p := by
  unfold remove at h
  split at h
  · cases h
  · rename_i b hb
    split at h
    · injection h with h; subst h; exact ⟨rfl, fun p => Nat.le_refl _⟩
    · rename_i i hi
      injection h with h; subst h
      refine ⟨rfl, fun p => ?_⟩
      obtain ⟨hlt, he⟩ := List.getElem?_eq_some_iff.mp hb
      obtain ⟨hil, _⟩ := List.findIdx?_eq_some_iff_getElem.mp hi
      have hperm := flatten_set_perm (t.buckets.set (bucketOf t.power hv) (removeAt b i)) (bucketOf t.power hv) (removeAt b i) b b[i]
        (by simp [hlt]) (removeAt_spec b i hil).symm
      rw [List.set_set] at hperm
      have e : t.buckets.set (bucketOf t.power hv) b = t.buckets := by rw [← he]; exact List.set_getElem_self hlt
      rw [e] at hperm
      have := hperm.countP_eq p
      rw [List.countP_cons] at this
      simp only [elems] at this ⊢
      omega

/-- The elements a history sets. -/
def setBy (ops : List (Op α κ)) : List α := ops.filterMap (fun o => match o with | .set x => some x | _ => none)

/-- **C04, C06.** A history that sets keys only when absent, and fewer elements of any one hash value than the fill factor, comes to
an end, with the answers of the map. -/
theorem hash_history_completes (f : Fns α κ) (nel ff fuel : Nat) (hff : 0 < ff) (ops : List (Op α κ))
    (m : κ → Option α) (outs : List (Option α)) (hs : specRun f (fun _ => none) ops = some (m, outs)) (hfuel : 33 ≤ fuel)
    (hh : ∀ v, sameHash f (setBy ops) v < ff) :
    ∃ t, run f fuel (makeEx α nel ff) ops = .ok (t, outs) ∧ ∀ k, search f t k = .ok (m k) := by
  have key : ∀ (ops : List (Op α κ)) (t : Table α) (m m' : κ → Option α) (outs : List (Option α)), Abs f t m →
      (∀ v, sameHash f (setBy ops ++ elems t) v < t.ffactor) → specRun f m ops = some (m', outs) →
      ∃ t', run f fuel t ops = .ok (t', outs) ∧ Abs f t' m' := by
    intro ops
    induction ops with
    | nil =>
      intro t m m' outs h _ hs
      simp only [specRun, Option.some.injEq, Prod.mk.injEq] at hs
      obtain ⟨rfl, rfl⟩ := hs
      exact ⟨t, rfl, h⟩
    | cons op ops ih =>
      intro t m m' outs h hv hs
      cases op with
      | set x =>
        simp only [specRun] at hs
        cases hm : m (f.key x) with
        | some y => simp [hm] at hs
        | none =>
          simp only [hm] at hs
          have hv' : ∀ v, sameHash f (x :: (setBy ops ++ elems t)) v < t.ffactor := hv
          obtain ⟨t1, e, ha⟩ := set_terminates_from f fuel t x h.inv (by
            intro v
            have := hv' v
            unfold sameHash at this ⊢
            rw [List.countP_cons, List.countP_append] at this
            rw [List.countP_cons]; omega) (by omega)
          obtain ⟨t2, e2, h2⟩ := ih t1 _ _ _ (set_abs h ha hm) (by
            intro v
            have := hv' v
            unfold sameHash at this ⊢
            rw [List.countP_append, ha.perm.countP_eq, ha.ff]
            rw [List.countP_cons, List.countP_append] at this
            rw [List.cons_append, List.countP_cons, List.nil_append]; omega) hs
          exact ⟨t2, by simp [run, e, e2], h2⟩
      | remove x =>
        simp only [specRun] at hs
        obtain ⟨t1, e, h1⟩ := remove_abs h x
        obtain ⟨e3, e4⟩ := remove_elems e
        obtain ⟨t2, e2, h2⟩ := ih t1 _ _ _ h1 (by
          intro v
          have h5 : sameHash f (setBy ops ++ elems t) v < t.ffactor := hv v
          have := e4 (fun y => f.hash (f.key y) = v)
          unfold sameHash at h5 ⊢
          rw [List.countP_append] at h5 ⊢
          rw [e3]; omega) hs
        exact ⟨t2, by simp [run, e, e2], h2⟩
      | search k =>
        simp only [specRun, Option.map_eq_some_iff] at hs
        obtain ⟨⟨m1, os⟩, hs, heq⟩ := hs
        simp only [Prod.mk.injEq] at heq
        obtain ⟨rfl, rfl⟩ := heq
        have e := search_abs h k
        obtain ⟨t2, e2, h2⟩ := ih t _ _ _ h hv hs
        exact ⟨t2, by simp [run, e, e2], h2⟩
  obtain ⟨t, e, h⟩ := key ops _ _ _ _ (makeEx_abs f nel hff) (by rw [elems_makeEx, List.append_nil]; exact hh) hs
  exact ⟨t, e, search_abs h⟩

/-! ## Setting an existing key (C07) -/

/-- **C07 is false of the code**: setting a key that is already present never changes what a
search for it returns — for every well-formed table, every element stored under the key and
every new element, the old one keeps being returned, however many rebuilds happen. -/
theorem hash_set_never_updates (f : Fns α κ) (fuel : Nat) (t t' : Table α) (x y : α) (h : Inv f t)
    (hk : f.key y = f.key x) (hs : search f t (f.key x) = .ok (some x))
    (hset : set f fuel t y (f.hash (f.key y)) = .ok t') :
    search f t' (f.key y) = .ok (some x) := by
  rcases set_spec f fuel t y h with e | ⟨t2, e, ha⟩
  · rw [hset] at e; cases e
  · rw [hset] at e; injection e with e; subst e
    obtain ⟨l, hl⟩ := bucket_exists h.placed (f.hash (f.key x))
    obtain ⟨l', hl'⟩ := bucket_exists ha.inv.placed (f.hash (f.key x))
    simp only [search, hl, Res.ok.injEq] at hs
    rw [hk]
    simp only [search, hl', Res.ok.injEq]
    rw [← List.head?_filter] at hs ⊢
    rw [← elems_filter h.placed _ hl] at hs
    rw [← elems_filter ha.inv.placed _ hl', ha.filt]
    rw [List.head?_append, hs]; rfl

/-- The documented update semantics, refuted by a concrete table: two elements with key 7. -/
theorem hash_set_updates_false :
    ∃ (f : Fns (Nat × Nat) Nat) (t1 t2 : Table (Nat × Nat)),
      set f 5 (makeEx _ 4 8) (7, 1) (f.hash 7) = .ok t1 ∧ set f 5 t1 (7, 2) (f.hash 7) = .ok t2 ∧
      search f t2 7 = .ok (some (7, 1)) :=
  ⟨⟨Prod.fst, fun n => UInt32.ofNat n⟩, _, _, rfl, rfl, rfl⟩

/-- **C07, partial.** What holds instead of "inserts or updates": a key that is absent is
inserted (and then found); a stored key can be updated by removing it first. -/
theorem hash_set_inserts_partial (f : Fns α κ) (fuel : Nat) (t t' : Table α) (m : κ → Option α) (x : α)
    (h : Abs f t m) (t0 : Table α) (hrm : remove f t x (f.hash (f.key x)) = .ok t0)
    (hset : set f fuel t0 x (f.hash (f.key x)) = .ok t') :
    search f t' (f.key x) = .ok (some x) ∧ ∀ k, k ≠ f.key x → search f t' k = search f t k := by
  obtain ⟨t1, e, h1⟩ := remove_abs h x
  rw [hrm] at e; injection e with e; subst e
  rcases set_spec f fuel t0 x h1.inv with e | ⟨t2, e, ha⟩
  · rw [hset] at e; cases e
  · rw [hset] at e; injection e with e; subst e
    have h2 := set_abs h1 ha (by simp)
    refine ⟨by rw [search_abs h2]; simp, ?_⟩
    intro k hk
    rw [search_abs h2, search_abs h]; simp [hk]

/-! ## Non-vacuity -/

/-- A fill factor of 2 forces rebuilds: keys 1, 5, 9 collide modulo 4. -/
def exFns : Fns (Nat × Nat) Nat := ⟨Prod.fst, fun n => UInt32.ofNat n⟩

example : (specRun exFns (fun _ => none)
    [.set (1, 10), .set (5, 50), .set (9, 90), .remove (5, 0), .search 1, .search 5, .search 9]).isSome := by decide +kernel

example : (match run exFns 33 (makeEx _ 4 2)
    [.set (1, 10), .set (5, 50), .set (9, 90), .remove (5, 0), .search 1, .search 5, .search 9] with
    | .ok (t, outs) => (t.power, outs)
    | _ => (99, [])) = (4, [some (1, 10), none, some (9, 90)]) := by decide +kernel

example : ∀ v, sameHash exFns (setBy [.set (1, 10), .set (5, 50), .set (9, 90), .remove (5, 0), .search 1, .search 5, .search 9]) v < 2 := by
  intro v
  by_cases h1 : 1 = v
  · subst h1; decide
  by_cases h5 : 5 = v
  · subst h5; decide
  by_cases h9 : 9 = v
  · subst h9; decide
  simp [sameHash, setBy, exFns, h1, h5, h9]

/-- Divergence really happens: a constant hash function and fill factor 2. -/
example : ∀ fuel, set ⟨Prod.fst, fun (_ : Nat) => 0⟩ fuel
    { buckets := [[((1 : Nat), (1 : Nat))]], nel := 1, ffactor := 2, power := 0 } (2, 2) 0 = .div := by
  intro fuel
  refine (hash_set_terminates_iff (⟨Prod.fst, fun (_ : Nat) => 0⟩ : Fns (Nat × Nat) Nat)
    { buckets := [[(1, 1)]], nel := 1, ffactor := 2, power := 0 } (2, 2) ?_).2.2 ⟨0, by decide⟩ fuel
  refine ⟨⟨rfl, ?_⟩, by simp, rfl⟩
  intro b l hb x hx
  match b with
  | 0 => simp [bucketOf, mask, hashsize]
  | b + 1 => simp at hb

end Verif.Hash
