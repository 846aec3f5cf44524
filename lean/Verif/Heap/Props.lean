import Verif.Heap.Lemmas

/-!
# Properties of the heap (C01, C02, C03)

The specification is a bag: `BagRun` says what a user may observe of a history of
insertions and extractions, without mentioning arrays.
-/

namespace Verif.Heap

/-- An operation of a client: insert an element, or extract. -/
inductive Op (α : Type) where
  | ins (a : α)
  | ext

/-- Run a history on the model, collecting what each extraction returned. -/
def run (cmp : α → α → Int) (fuel : Nat) : Heap α → List (Op α) → Res (Heap α × List (Option α))
  | h, [] => .ok (h, [])
  | h, .ins a :: ops => do
    let h ← insert cmp fuel h a
    run cmp fuel h ops
  | h, .ext :: ops => do
    let (o, h) ← extract cmp fuel h
    let (h, os) ← run cmp fuel h ops
    .ok (h, o :: os)

/-- Specification: from bag `b`, history `ops` may produce outputs `outs` and end in a bag.
An extraction from a non-empty bag returns a maximal element and removes it; from an empty
bag it returns nothing. -/
inductive BagRun (cmp : α → α → Int) : List α → List (Op α) → List (Option α) → List α → Prop where
  | nil (b b') : b.Perm b' → BagRun cmp b [] [] b'
  | ins (b a ops outs b') : BagRun cmp (a :: b) ops outs b' → BagRun cmp b (.ins a :: ops) outs b'
  | extSome (b x rest ops outs b') : b.Perm (x :: rest) → (∀ y ∈ b, cmp y x ≤ 0) →
      BagRun cmp rest ops outs b' → BagRun cmp b (.ext :: ops) (some x :: outs) b'
  | extNone (ops outs b') : BagRun cmp [] ops outs b' → BagRun cmp [] (.ext :: ops) (none :: outs) b'

/-- The elements a history inserts. -/
def inserted : List (Op α) → List α
  | [] => []
  | .ins a :: ops => a :: inserted ops
  | .ext :: ops => inserted ops

/-- Representation invariant of a heap holding `t`. -/
structure Holds (h : Heap α) (t : List α) : Prop where
  rep : Rep h.cells t
  count : h.count = t.length
  cap : h.cells.length = h.max
  pos : 0 < h.max
  bound : h.max ≤ 2 ^ 31

theorem growLoop_ok (max : Nat) (hmax : max < 2 ^ 31) :
    ∀ (fuel k : Nat), k ≤ 31 → 31 < fuel + k → ∃ m, growLoop fuel (2 ^ k) max = .ok m ∧ max < m ∧ m ≤ 2 ^ 31 := by
  intro fuel
  induction fuel with
  | zero => intro k hk hf; omega
  | succ fuel ih =>
    intro k hk hf
    unfold growLoop
    have hpk : 2 ^ k ≤ 2 ^ 31 := Nat.pow_le_pow_right (by omega) hk
    by_cases h : 2 ^ k ≤ max
    · have hk' : k < 31 := by
        rcases Nat.lt_or_ge k 31 with h' | h'
        · exact h'
        · have : k = 31 := by omega
          subst this; omega
      have hpk' : 2 ^ (k + 1) ≤ 2 ^ 31 := Nat.pow_le_pow_right (by omega) hk'
      have hu : u32 (2 ^ k * 2) = 2 ^ (k + 1) := by
        unfold u32; rw [Nat.pow_succ] at *; omega
      simp only [h, if_true, hu]
      exact ih (k + 1) (by omega) (by omega)
    · simp only [h, if_false]
      exact ⟨_, rfl, by omega, hpk⟩

theorem grow_spec {h : Heap α} {t : List α} (H : Holds h t) (hl : t.length < 2 ^ 31) {fuel : Nat} (hf : 32 ≤ fuel) :
    ∃ h', grow fuel h = .ok h' ∧ Holds h' t ∧ t.length < h'.max := by
  unfold grow
  have hle : t.length ≤ h.cells.length := H.rep.1
  by_cases hc : h.max ≤ h.count
  · simp only [hc, if_true]
    have hm : h.max < 2 ^ 31 := by have := H.count; omega
    obtain ⟨m, e, h1, h2⟩ := growLoop_ok h.max hm fuel 0 (by omega) (by omega)
    rw [Nat.pow_zero] at e
    have hcnt := H.count
    have hcap := H.cap
    simp only [e, Res.ok_bind]
    rw [if_pos ⟨by omega, by omega⟩]
    refine ⟨_, rfl, ⟨⟨?_, ?_⟩, ?_, ?_, ?_, ?_⟩, ?_⟩
    · simp; omega
    · intro i hi
      show (h.cells.take h.count ++ List.replicate (m - h.count) none)[i]? = _
      rw [List.getElem?_append_left (by simp; omega), List.getElem?_take]
      simp [show i < h.count by omega, H.rep.2 i hi]
    · exact hcnt
    · simp; omega
    · show 0 < m; omega
    · exact h2
    · show t.length < m; omega
  · simp only [hc, if_false]
    exact ⟨h, rfl, H, by have := H.count; omega⟩

theorem insert_spec (cmp : α → α → Int) {h : Heap α} {t : List α} (H : Holds h t) (a : α)
    (hl : t.length < 2 ^ 31) {fuel : Nat} (hf : t.length + 32 ≤ fuel) :
    ∃ h' t', insert cmp fuel h a = .ok h' ∧ Holds h' t' ∧ t'.Perm (a :: t) ∧
      (IsOrder cmp → HeapOrd cmp t → HeapOrd cmp t') := by
  obtain ⟨g, eg, Hg, hg⟩ := grow_spec H hl (by omega : 32 ≤ fuel)
  have hc := Hg.count
  have hcap := Hg.cap
  have hw : wr g.cells g.count (some a) = .ok (g.cells.set g.count (some a)) := by
    unfold wr; rw [if_pos (by omega)]
  have hrep : Rep (g.cells.set g.count (some a)) (t ++ [a]) := by
    refine ⟨by simp; omega, ?_⟩
    intro i hi
    simp at hi
    rw [List.getElem?_set]
    by_cases hci : g.count = i
    · have : i = t.length := by omega
      subst this
      simp [hci]; omega
    · have hi' : i < t.length := by omega
      simp [hci, Hg.rep.2 i hi', List.getElem?_append_left hi']
  obtain ⟨cells', t', e, hr, hp, hlen, hord⟩ :=
    siftUp_spec cmp fuel _ _ g.count hrep (by simp; omega) (by omega)
  have htl : t'.length = t.length + 1 := by have := hp.length_eq; simpa using this
  refine ⟨{ g with cells := cells', count := u32 (g.count + 1) }, t', ?_, ⟨hr, ?_, ?_, Hg.pos, Hg.bound⟩,
    hp.trans (List.perm_append_singleton a t), ?_⟩
  · simp [insert, eg, hw, e]
  · show u32 (g.count + 1) = t'.length
    unfold u32; omega
  · show cells'.length = g.max
    rw [hlen]; simpa using hcap
  · intro ho hh
    apply hord ho
    refine ⟨?_, ?_⟩
    · intro j x y hj hne hx hy
      have hjl : j < t.length := by
        rcases Nat.lt_or_ge j (t ++ [a]).length with h' | h'
        · simp at h'; omega
        · rw [List.getElem?_eq_none h'] at hy; cases hy
      rw [List.getElem?_append_left hjl] at hy
      rw [List.getElem?_append_left (by omega)] at hx
      exact hh j x y hj hx hy
    · intro j x y hj _ hpj _ hy
      rw [List.getElem?_eq_none (by simp; omega)] at hy; cases hy

theorem move_last_perm (t : List α) (h : 0 < t.length) :
    t.Perm (t[0] :: (t.set 0 (t[t.length - 1]'(by omega))).take (t.length - 1)) := by
  match t, h with
  | y :: ys, _ =>
    rcases List.eq_nil_or_concat ys with rfl | ⟨zs, z, rfl⟩
    · simp
    · have e : (y :: (zs ++ [z]))[(y :: (zs ++ [z])).length - 1]'(by simp) = z := by simp
      simp only [List.concat_eq_append, e, List.set_cons_zero, List.getElem_cons_zero]
      simp only [List.length_cons, List.length_append, List.length_nil, Nat.zero_add, Nat.add_sub_cancel,
        List.take_succ_cons, List.take_left']
      exact List.Perm.cons _ (List.perm_append_singleton _ _)

theorem extract_spec (cmp : α → α → Int) {h : Heap α} {t : List α} (H : Holds h t)
    {fuel : Nat} (hf : t.length + 1 ≤ fuel) :
    (t = [] ∧ extract cmp fuel h = .ok (none, h)) ∨
    ∃ x h' t', t[0]? = some x ∧ extract cmp fuel h = .ok (some x, h') ∧ Holds h' t' ∧ t.Perm (x :: t') ∧
      (IsOrder cmp → HeapOrd cmp t → HeapOrd cmp t') := by
  have hc := H.count
  by_cases h0 : t = []
  · left
    subst h0
    refine ⟨rfl, ?_⟩
    simp [extract, hc]
  · right
    have hpos : 0 < t.length := List.length_pos_iff.mpr h0
    have hlast : t.length - 1 < t.length := by omega
    have hle := H.rep.1
    have hcap := H.cap
    have hb := H.bound
    obtain ⟨e1, r1⟩ := wr_rep H.rep hpos t[t.length - 1]
    have e2 : wr (h.cells.set 0 (some t[t.length - 1])) (t.length - 1) none =
        .ok ((h.cells.set 0 (some t[t.length - 1])).set (t.length - 1) none) := by
      unfold wr; rw [if_pos (by simp; omega)]
    -- the list after moving the last element to the root
    have hrep : Rep ((h.cells.set 0 (some t[t.length - 1])).set (t.length - 1) none)
        ((t.set 0 t[t.length - 1]).take (t.length - 1)) := by
      refine ⟨by simp; omega, ?_⟩
      intro i hi
      simp at hi
      rw [List.getElem?_set, if_neg (by omega), r1.2 i (by simp; omega), List.getElem?_take, if_pos (by omega)]
    have hperm : t.Perm (t[0] :: (t.set 0 t[t.length - 1]).take (t.length - 1)) := by
      exact move_last_perm t hpos
    have hl' : ((t.set 0 t[t.length - 1]).take (t.length - 1)).length = t.length - 1 := by simp
    have er : rd h.cells 0 = .ok t[0] := rd_rep H.rep hpos
    have erl : rd h.cells (t.length - 1) = .ok t[t.length - 1] := rd_rep H.rep hlast
    have hnz : t.length ≠ 0 ∧ h.cells.isEmpty = false := ⟨by omega, by rw [List.isEmpty_eq_false_iff]; intro hc0; rw [hc0, List.length_nil] at hle; omega⟩
    by_cases h1 : t.length = 1
    · -- a single element: the loop stops at once
      have esd : siftDown cmp (t.length - 1) fuel
          ((h.cells.set 0 (some t[t.length - 1])).set (t.length - 1) none) 0 =
          .ok ((h.cells.set 0 (some t[t.length - 1])).set (t.length - 1) none) := by
        obtain ⟨f, rfl⟩ : ∃ f, fuel = f + 1 := ⟨fuel - 1, by omega⟩
        unfold siftDown
        have : pick cmp ((h.cells.set 0 (some t[t.length - 1])).set (t.length - 1) none) (t.length - 1) 0 = .ok 0 := by
          unfold pick; rw [if_neg (by omega)]
        simp [this]
      refine ⟨t[0], { h with cells := _, count := t.length - 1 }, _, List.getElem?_eq_getElem hpos, ?_, ⟨hrep, ?_, ?_, H.pos, H.bound⟩, hperm, ?_⟩
      rotate_left
      · show _ = _; rw [hl']
      · simp; exact hcap
      · intro _ _ j a b hj _ hb'
        rw [List.getElem?_eq_none (by rw [hl']; omega)] at hb'; cases hb'
      · rw [extract, hc, if_pos hnz]; simp only [er, erl, e1, e2, Res.ok_bind, esd]
    · have hpos' : 0 < ((t.set 0 t[t.length - 1]).take (t.length - 1)).length := by rw [hl']; omega
      obtain ⟨cells', t', e, hr, hp, hlen, hord⟩ :=
        siftDown_spec cmp fuel _ _ 0 hrep hpos' (by rw [hl']; omega) (by rw [hl']; omega)
      rw [hl'] at e
      refine ⟨t[0], { h with cells := cells', count := t.length - 1 }, t', List.getElem?_eq_getElem hpos, ?_, ⟨hr, ?_, ?_, H.pos, H.bound⟩,
        hperm.trans (List.Perm.cons _ hp.symm), ?_⟩
      rotate_left
      · show t.length - 1 = t'.length
        have := hp.length_eq; rw [hl'] at this; exact this.symm
      · show cells'.length = h.max
        rw [hlen]; simpa using hcap
      · intro ho hh
        apply hord ho
        refine ⟨?_, ?_⟩
        · intro j a b hj hne ha hb'
          rw [List.getElem?_take] at ha hb'
          split at hb'
          · rw [if_pos (by omega), List.getElem?_set, if_neg (by omega)] at ha
            rw [List.getElem?_set, if_neg (by omega)] at hb'
            exact hh j a b hj ha hb'
          · cases hb'
        · intro j a b _ h0' _ _ _; omega
      · rw [extract, hc, if_pos hnz]; simp only [er, erl, e1, e2, Res.ok_bind, e]

theorem make_holds (α : Type) : Holds (make α) [] :=
  ⟨⟨Nat.zero_le _, fun _ h => absurd h (Nat.not_lt_zero _)⟩, rfl, List.length_replicate,
    show 0 < initialMax by decide, show initialMax ≤ 2 ^ 31 by decide⟩

/-- What a client can see of the heap at rest: its size, and `get_nth` enumerating `b`. -/
def Shows (h : Heap α) (b : List α) : Prop :=
  size h = b.length ∧
  (∃ l : List α, l.Perm b ∧ (∀ i, i < l.length → getNth h i = .ok l[i]?) ∧ ∀ i, l.length ≤ i → getNth h i = .ok none)

theorem holds_shows {h : Heap α} {t b : List α} (H : Holds h t) (hp : t.Perm b) : Shows h b := by
  have hc := H.count
  refine ⟨by simp [size, hc, hp.length_eq], t, hp, ?_, ?_⟩
  · intro i hi
    have hle := H.rep.1
    unfold getNth
    rw [if_pos ⟨by omega, by rw [List.isEmpty_eq_false_iff]; intro hc0; rw [hc0, List.length_nil] at hle; omega⟩, H.rep.2 i hi]
  · intro i hi
    unfold getNth
    rw [if_neg (by omega)]

theorem run_from (cmp : α → α → Int) (ho : IsOrder cmp) :
    ∀ (ops : List (Op α)) (h : Heap α) (t b : List α) (fuel : Nat), Holds h t → HeapOrd cmp t → t.Perm b →
      t.length + (inserted ops).length ≤ 2 ^ 31 → t.length + (inserted ops).length + 32 ≤ fuel →
      ∃ h' outs b', run cmp fuel h ops = .ok (h', outs) ∧ BagRun cmp b ops outs b' ∧ Shows h' b' := by
  intro ops
  induction ops with
  | nil =>
    intro h t b fuel H _ hp _ _
    exact ⟨h, [], b, rfl, .nil _ _ (.refl _), holds_shows H hp⟩
  | cons op ops ih =>
    intro h t b fuel H hh hp hl hf
    cases op with
    | ins a =>
      simp only [inserted, List.length_cons] at hl hf
      obtain ⟨h1, t1, e1, H1, hp1, ho1⟩ := insert_spec cmp H a (by omega) (by omega : t.length + 32 ≤ fuel)
      have hlen := hp1.length_eq
      simp only [List.length_cons] at hlen
      obtain ⟨h', outs, b', e, hb, hs⟩ := ih h1 t1 (a :: b) fuel H1 (ho1 ho hh)
        (hp1.trans (List.Perm.cons _ hp)) (by omega) (by omega)
      refine ⟨h', outs, b', ?_, .ins _ _ _ _ _ hb, hs⟩
      simp [run, e1, e]
    | ext =>
      simp only [inserted] at hl hf
      rcases extract_spec cmp H (fuel := fuel) (by omega) with ⟨h0, e1⟩ | ⟨x, h1, t1, hx, e1, H1, hp1, ho1⟩
      · subst h0
        have hb0 : b = [] := List.Perm.eq_nil hp.symm
        subst hb0
        obtain ⟨h', outs, b', e, hb, hs⟩ := ih h [] [] fuel H hh (.refl _) hl hf
        refine ⟨h', none :: outs, b', ?_, .extNone _ _ _ hb, hs⟩
        simp [run, e1, e]
      · have hlen := hp1.length_eq
        simp only [List.length_cons] at hlen
        obtain ⟨h', outs, b', e, hb, hs⟩ := ih h1 t1 t1 fuel H1 (ho1 ho hh) (.refl _) (by omega) (by omega)
        refine ⟨h', some x :: outs, b', ?_, .extSome _ x t1 _ _ _ (hp.symm.trans hp1) ?_ hb, hs⟩
        · simp [run, e1, e]
        · intro y hy
          obtain ⟨j, hj, rfl⟩ := List.getElem_of_mem (hp.symm.subset hy)
          exact root_max ho hh j x _ hx (List.getElem?_eq_getElem hj)

/-- **C01 (and half of C02).** For every total-preorder comparator and every history with at
most 2^31 insertions, the heap runs without undefined behaviour or divergence and behaves as
the bag specification: every extraction returns a maximal held element, or nothing exactly
when nothing is held; at the end `size` and `get_nth` show exactly the bag. -/
theorem heap_refines_bag (cmp : α → α → Int) (ho : IsOrder cmp) (ops : List (Op α)) (fuel : Nat)
    (hn : (inserted ops).length ≤ 2 ^ 31) (hf : (inserted ops).length + 32 ≤ fuel) :
    ∃ h outs b, run cmp fuel (make α) ops = .ok (h, outs) ∧ BagRun cmp [] ops outs b ∧ Shows h b :=
  run_from cmp ho ops (make α) [] [] fuel (make_holds α)
    (fun j a b _ _ hb => by simp at hb) (.refl _) (by simpa using hn) (by simpa using hf)

theorem run_conserves_from (cmp : α → α → Int) :
    ∀ (ops : List (Op α)) (h : Heap α) (t : List α) (fuel : Nat), Holds h t →
      t.length + (inserted ops).length ≤ 2 ^ 31 → t.length + (inserted ops).length + 32 ≤ fuel →
      ∃ h' outs t', run cmp fuel h ops = .ok (h', outs) ∧
        (t ++ inserted ops).Perm (outs.filterMap id ++ t') ∧ Shows h' t' ∧
        outs.length = ops.countP (fun o => match o with | .ext => true | _ => false) := by
  intro ops
  induction ops with
  | nil =>
    intro h t fuel H _ _
    exact ⟨h, [], t, rfl, by simp [inserted], holds_shows H (.refl _), rfl⟩
  | cons op ops ih =>
    intro h t fuel H hl hf
    cases op with
    | ins a =>
      simp only [inserted, List.length_cons] at hl hf
      obtain ⟨h1, t1, e1, H1, hp1, _⟩ := insert_spec cmp H a (by omega) (by omega : t.length + 32 ≤ fuel)
      have hlen := hp1.length_eq
      simp only [List.length_cons] at hlen
      obtain ⟨h', outs, t', e, hb, hs, hc⟩ := ih h1 t1 fuel H1 (by omega) (by omega)
      refine ⟨h', outs, t', by simp [run, e1, e], ?_, hs, by simpa using hc⟩
      refine List.Perm.trans ?_ hb
      simp only [inserted]
      refine List.Perm.trans List.perm_middle ?_
      exact (hp1.symm.append_right _)
    | ext =>
      simp only [inserted] at hl hf
      rcases extract_spec cmp H (fuel := fuel) (by omega) with ⟨h0, e1⟩ | ⟨x, h1, t1, hx, e1, H1, hp1, _⟩
      · subst h0
        obtain ⟨h', outs, t', e, hb, hs, hc⟩ := ih h [] fuel H hl hf
        refine ⟨h', none :: outs, t', by simp [run, e1, e], ?_, hs, by simp [hc]⟩
        simpa [inserted] using hb
      · have hlen := hp1.length_eq
        simp only [List.length_cons] at hlen
        obtain ⟨h', outs, t', e, hb, hs, hc⟩ := ih h1 t1 fuel H1 (by omega) (by omega)
        refine ⟨h', some x :: outs, t', by simp [run, e1, e], ?_, hs, by simp [hc]⟩
        simp only [inserted, List.filterMap_cons_some (f := id) (a := some x) (b := x) rfl, List.cons_append]
        exact ((hp1.append_right _).trans (List.Perm.cons _ hb))

/-- **C02 (conservation).** For *every* comparator, even an inconsistent one, and every
history: inserted elements = extracted elements + elements still shown, as multisets. -/
theorem heap_conserves (cmp : α → α → Int) (ops : List (Op α)) (fuel : Nat)
    (hn : (inserted ops).length ≤ 2 ^ 31) (hf : (inserted ops).length + 32 ≤ fuel) :
    ∃ h outs held, run cmp fuel (make α) ops = .ok (h, outs) ∧
      (inserted ops).Perm (outs.filterMap id ++ held) ∧ Shows h held := by
  obtain ⟨h, outs, t', e, hp, hs, _⟩ := run_conserves_from cmp ops (make α) [] fuel (make_holds α)
    (by simpa using hn) (by simpa using hf)
  exact ⟨h, outs, t', e, by simpa using hp, hs⟩

/-- In a bag run that only extracts, the outputs are sorted downwards. -/
theorem bag_drain_sorted (cmp : α → α → Int) (n : Nat) :
    ∀ b outs b', BagRun cmp b (List.replicate n .ext) outs b' →
      (outs.filterMap id).Pairwise (fun x y => cmp y x ≤ 0) ∧
      (∀ x ∈ outs.filterMap id, x ∈ b) ∧ b.Perm (outs.filterMap id ++ b') ∧ b'.length = b.length - n := by
  induction n with
  | zero =>
    intro b outs b' h
    cases h with
    | nil _ _ hp => simp [hp, hp.length_eq]
  | succ n ih =>
    intro b outs b' h
    rw [List.replicate_succ] at h
    cases h with
    | extSome _ x rest _ outs' _ hp hmax h' =>
      obtain ⟨h1, h2, h3, h4⟩ := ih _ _ _ h'
      simp only [List.filterMap_cons_some (f := id) (a := some x) (b := x) rfl]
      refine ⟨?_, ?_, ?_, ?_⟩
      · refine List.Pairwise.cons ?_ h1
        intro y hy
        exact hmax y (hp.symm.subset (List.mem_cons_of_mem _ (h2 y hy)))
      · intro y hy
        rcases List.mem_cons.mp hy with rfl | hy
        · exact hp.symm.subset (by simp)
        · exact hp.symm.subset (List.mem_cons_of_mem _ (h2 y hy))
      · exact hp.trans (List.Perm.cons _ h3)
      · have := hp.length_eq
        simp at this; omega
    | extNone _ outs' _ h' =>
      obtain ⟨h1, h2, h3, h4⟩ := ih _ _ _ h'
      simp only [List.filterMap_cons_none (f := id) (a := none) rfl]
      exact ⟨h1, h2, h3, by simpa using h4⟩

theorem bagRun_append (cmp : α → α → Int) :
    ∀ ops1 ops2 b outs b', BagRun cmp b (ops1 ++ ops2) outs b' →
      ∃ o1 o2 m, outs = o1 ++ o2 ∧ BagRun cmp b ops1 o1 m ∧ BagRun cmp m ops2 o2 b' := by
  intro ops1
  induction ops1 with
  | nil => intro ops2 b outs b' h; exact ⟨[], outs, b, rfl, .nil _ _ (.refl _), h⟩
  | cons op ops ih =>
    intro ops2 b outs b' h
    cases h with
    | ins _ a _ _ _ h' =>
      obtain ⟨o1, o2, m, e, h1, h2⟩ := ih _ _ _ _ h'
      exact ⟨o1, o2, m, e, .ins _ _ _ _ _ h1, h2⟩
    | extSome _ x rest _ outs' _ hp hmax h' =>
      obtain ⟨o1, o2, m, e, h1, h2⟩ := ih _ _ _ _ h'
      exact ⟨some x :: o1, o2, m, by simp [e], .extSome _ _ _ _ _ _ hp hmax h1, h2⟩
    | extNone _ outs' _ h' =>
      obtain ⟨o1, o2, m, e, h1, h2⟩ := ih _ _ _ _ h'
      exact ⟨none :: o1, o2, m, by simp [e], .extNone _ _ _ h1, h2⟩

theorem bagRun_inserts (cmp : α → α → Int) :
    ∀ (xs b : List α) outs b', BagRun cmp b (xs.map .ins) outs b' → outs = [] ∧ b'.Perm (xs ++ b) := by
  intro xs
  induction xs with
  | nil => intro b outs b' h; cases h with | nil _ _ hp => exact ⟨rfl, by simpa using hp.symm⟩
  | cons x xs ih =>
    intro b outs b' h
    cases h with
    | ins _ _ _ _ _ h' =>
      obtain ⟨h1, h2⟩ := ih _ _ _ h'
      exact ⟨h1, h2.trans (by simp [List.perm_middle])⟩

theorem inserted_map_ins (xs : List α) (n : Nat) :
    inserted (xs.map Op.ins ++ List.replicate n .ext) = xs := by
  induction xs with
  | nil => induction n with
    | zero => rfl
    | succ n ih => simpa [List.replicate_succ, inserted] using ih
  | cons x xs ih => simp [inserted, ih]

/-- **C02 (draining = sorting).** Inserting any list and then extracting once per element
returns all of them, none lost or invented, in non-increasing order. -/
theorem heap_drain_sorts (cmp : α → α → Int) (ho : IsOrder cmp) (xs : List α) (fuel : Nat)
    (hn : xs.length ≤ 2 ^ 31) (hf : xs.length + 32 ≤ fuel) :
    ∃ h outs, run cmp fuel (make α) (xs.map .ins ++ List.replicate xs.length .ext) = .ok (h, outs) ∧
      (outs.filterMap id).Perm xs ∧ (outs.filterMap id).Pairwise (fun x y => cmp y x ≤ 0) ∧ size h = 0 := by
  obtain ⟨h, outs, b, e, hb, hs⟩ := heap_refines_bag cmp ho
    (xs.map .ins ++ List.replicate xs.length .ext) fuel (by rw [inserted_map_ins]; exact hn)
    (by rw [inserted_map_ins]; exact hf)
  obtain ⟨o1, o2, m, eo, h1, h2⟩ := bagRun_append _ _ _ _ _ _ hb
  obtain ⟨e1, hp1⟩ := bagRun_inserts _ _ _ _ _ h1
  obtain ⟨hs1, _, hp2, hlen⟩ := bag_drain_sorted _ _ _ _ _ h2
  subst e1
  simp only [List.append_nil] at hp1
  have hm : m.length = xs.length := hp1.length_eq
  have hb0 : b = [] := List.length_eq_zero_iff.mp (by omega)
  subst hb0
  simp only [List.nil_append] at eo
  subst eo
  refine ⟨h, outs, e, ?_, hs1, by simpa using hs.1⟩
  simp only [List.append_nil] at hp2
  exact hp2.symm.trans hp1

theorem growLoop_diverges (max : Nat) (hmax : 2 ^ 31 ≤ max) :
    ∀ (fuel n : Nat), n = 0 ∨ (∃ k, k ≤ 31 ∧ n = 2 ^ k) → growLoop fuel n max = .div := by
  intro fuel
  induction fuel with
  | zero => intro n _; rfl
  | succ fuel ih =>
    intro n hn
    unfold growLoop
    rcases hn with rfl | ⟨k, hk, rfl⟩
    · simp only [Nat.zero_le, if_true]
      exact ih _ (Or.inl (by simp [u32]))
    · have hpk : 2 ^ k ≤ 2 ^ 31 := Nat.pow_le_pow_right (by omega) hk
      rw [if_pos (by omega)]
      apply ih
      by_cases h31 : k = 31
      · subst h31; left; simp [u32]
      · right
        refine ⟨k + 1, by omega, ?_⟩
        have hpk' : 2 ^ (k + 1) ≤ 2 ^ 31 := Nat.pow_le_pow_right (by omega) (by omega)
        rw [Nat.pow_succ] at *
        unfold u32; omega

/-- **C03.** Every insertion into a heap holding fewer than 2^31 elements ends, with every
array access inside the allocation (the model has no undefined behaviour), and leaves room
for all elements; an insertion into a full heap of capacity 2^31 never ends. -/
theorem heap_insert_in_bounds (cmp : α → α → Int) :
    (∀ (h : Heap α) (t : List α) (a : α) (fuel : Nat), Holds h t → t.length < 2 ^ 31 → t.length + 32 ≤ fuel →
      ∃ h' t', insert cmp fuel h a = .ok h' ∧ Holds h' t' ∧ t'.Perm (a :: t)) ∧
    (∀ (h : Heap α) (a : α) (fuel : Nat), h.max = 2 ^ 31 → h.count = 2 ^ 31 → insert cmp fuel h a = .div) := by
  refine ⟨?_, ?_⟩
  · intro h t a fuel H hl hf
    obtain ⟨h', t', e, H', hp, _⟩ := insert_spec cmp H a hl hf
    exact ⟨h', t', e, H', hp⟩
  · intro h a fuel hm hc
    have : growLoop fuel 1 h.max = .div := growLoop_diverges h.max (by omega) fuel 1 (Or.inr ⟨0, by omega, rfl⟩)
    have hle : h.max ≤ h.count := by omega
    simp only [insert, grow, hle, if_true, this, Res.div_bind]

/-- The comparator of the duplicate finder, ft_config.c L45-58 `ft_file_cmp` (on sizes). -/
def fileCmp (s1 s2 : Int) : Int := if s1 < s2 then -1 else if s2 < s1 then 1 else 0

/-- The comparator the program uses satisfies the hypothesis of the theorems above. -/
theorem fileCmp_isOrder : IsOrder fileCmp := by
  constructor
  · intro a b; unfold fileCmp; split <;> split <;> simp <;> omega
  · intro a b c; unfold fileCmp; split <;> split <;> split <;> simp <;> (repeat' split) <;> omega

/-- Non-vacuity: a concrete history with ties, interleaved extraction, and one extraction
from the empty heap. -/
example : (match run fileCmp 40 (make Int)
    [.ins 3, .ins 5, .ins 5, .ext, .ins 1, .ext, .ext, .ext, .ext] with
    | .ok (h, outs) => (size h, outs)
    | _ => (99, [])) = (0, [some 5, some 5, some 3, some 1, none]) := by decide +kernel

example : (inserted [Op.ins (3 : Int), .ext]).length ≤ 2 ^ 31 := by decide

example : Holds (make Nat) [] := make_holds Nat

end Verif.Heap
