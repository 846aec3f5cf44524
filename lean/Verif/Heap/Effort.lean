import Verif.Heap.Props

/-!
# C135: how many comparisons the heap makes

napr_heap.h L53-54: "This implementation provides O(log n) time complexity for insertions and O(1) for finding the min/max element."  The loops of napr_heap.c are written
here a second time, with a record of the pairs handed to the comparison function; without the record they are the functions of `Heap/Model.lean`
(`siftUpT_fst`, `siftDownT_fst`, …).  Growing the array (L90-113) makes no comparison.
-/

namespace Verif.Heap

variable {α : Type}

/-- napr_heap.c L123-133 with the comparisons made. -/
def siftUpT (cmp : α → α → Int) : Nat → List (Option α) → Nat → Res (List (Option α) × List (α × α))
  | 0, _, _ => .div
  | fuel + 1, cells, ipos =>
    if 0 < ipos then do
      let ppos := parent ipos
      let a ← rd cells ppos
      let b ← rd cells ipos
      if cmp a b < 0 then do
        let cells ← wr cells ppos (some b)
        let cells ← wr cells ipos (some a)
        let (cells, l) ← siftUpT cmp fuel cells ppos
        .ok (cells, (a, b) :: l)
      else .ok (cells, [(a, b)])
    else .ok (cells, [])

/-- napr_heap.c L85-138 `napr_heap_insert` with the comparisons made. -/
def insertT (cmp : α → α → Int) (fuel : Nat) (h : Heap α) (datum : α) : Res (Heap α × List (α × α)) := do
  let h ← grow fuel h
  let cells ← wr h.cells h.count (some datum)
  let (cells, l) ← siftUpT cmp fuel cells h.count
  .ok ({ h with cells := cells, count := u32 (h.count + 1) }, l)

/-- napr_heap.c L163-179 with the comparisons made. -/
def pickT (cmp : α → α → Int) (cells : List (Option α)) (count ipos : Nat) : Res (Nat × List (α × α)) :=
  if left ipos < count then do
    let l ← rd cells (left ipos)
    let x ← rd cells ipos
    let mpos := if cmp l x > 0 then left ipos else ipos
    if right ipos < count then do
      let r ← rd cells (right ipos)
      let m ← rd cells mpos
      .ok (if cmp r m > 0 then right ipos else mpos, [(l, x), (r, m)])
    else .ok (mpos, [(l, x)])
  else .ok (ipos, [])

/-- napr_heap.c L162-193 with the comparisons made. -/
def siftDownT (cmp : α → α → Int) (count : Nat) : Nat → List (Option α) → Nat → Res (List (Option α) × List (α × α))
  | 0, _, _ => .div
  | fuel + 1, cells, ipos => do
    let (mpos, l) ← pickT cmp cells count ipos
    if mpos ≠ ipos then do
      let m ← rd cells mpos
      let x ← rd cells ipos
      let cells ← wr cells mpos (some x)
      let cells ← wr cells ipos (some m)
      let (cells, l') ← siftDownT cmp count fuel cells mpos
      .ok (cells, l ++ l')
    else .ok (cells, l)

/-- napr_heap.c L140-197 `napr_heap_extract` with the comparisons made. -/
def extractT (cmp : α → α → Int) (fuel : Nat) (h : Heap α) : Res ((Option α × Heap α) × List (α × α)) :=
  if h.count ≠ 0 ∧ h.cells.isEmpty = false then do
    let ret ← rd h.cells 0
    let last ← rd h.cells (h.count - 1)
    let cells ← wr h.cells 0 (some last)
    let cells ← wr cells (h.count - 1) none
    let (cells, l) ← siftDownT cmp (h.count - 1) fuel cells 0
    .ok ((some ret, { h with cells := cells, count := h.count - 1 }), l)
  else .ok ((none, h), [])

/-- Forget the record. -/
def plain {β γ : Type} (x : Res (β × γ)) : Res β := x >>= fun p => .ok p.1

@[simp] theorem plain_ok {β γ : Type} (p : β × γ) : plain (.ok p) = .ok p.1 := rfl
@[simp] theorem plain_ub {β γ : Type} : plain (.ub : Res (β × γ)) = .ub := rfl
@[simp] theorem plain_div {β γ : Type} : plain (.div : Res (β × γ)) = .div := rfl

theorem plain_bind {β γ δ : Type} (x : Res δ) (f : δ → Res (β × γ)) : plain (x >>= f) = x >>= fun d => plain (f d) := by
  cases x <;> rfl

theorem siftUpT_fst (cmp : α → α → Int) : ∀ (fuel : Nat) (cells : List (Option α)) (i : Nat), plain (siftUpT cmp fuel cells i) = siftUp cmp fuel cells i := by
  intro fuel
  induction fuel with
  | zero => intro cells i; rfl
  | succ fuel ih =>
    intro cells i
    unfold siftUpT siftUp
    by_cases h : 0 < i
    · rw [if_pos h, if_pos h]
      simp only [plain_bind]
      congr 1; funext a; congr 1; funext b
      by_cases hc : cmp a b < 0
      · rw [if_pos hc, if_pos hc]
        simp only [plain_bind]
        congr 1; funext c; congr 1; funext d
        rw [← ih]
        cases siftUpT cmp fuel d (parent i) <;> rfl
      · rw [if_neg hc, if_neg hc]; rfl
    · rw [if_neg h, if_neg h]; rfl

theorem insertT_fst (cmp : α → α → Int) (fuel : Nat) (h : Heap α) (d : α) : plain (insertT cmp fuel h d) = insert cmp fuel h d := by
  unfold insertT insert
  simp only [plain_bind]
  congr 1; funext h; congr 1; funext c
  rw [← siftUpT_fst]
  cases siftUpT cmp fuel c h.count <;> rfl

theorem pickT_fst (cmp : α → α → Int) (cells : List (Option α)) (count i : Nat) : plain (pickT cmp cells count i) = pick cmp cells count i := by
  unfold pickT pick
  by_cases h : left i < count
  · rw [if_pos h, if_pos h]
    simp only [plain_bind]
    congr 1; funext l; congr 1; funext x
    by_cases h2 : right i < count
    · rw [if_pos h2, if_pos h2]; simp only [plain_bind]; rfl
    · rw [if_neg h2, if_neg h2]; rfl
  · rw [if_neg h, if_neg h]; rfl

theorem siftDownT_fst (cmp : α → α → Int) (count : Nat) : ∀ (fuel : Nat) (cells : List (Option α)) (i : Nat),
    plain (siftDownT cmp count fuel cells i) = siftDown cmp count fuel cells i := by
  intro fuel
  induction fuel with
  | zero => intro cells i; rfl
  | succ fuel ih =>
    intro cells i
    unfold siftDownT siftDown
    rw [← pickT_fst]
    cases hp : pickT cmp cells count i with
    | ub => rfl
    | div => rfl
    | ok p =>
      obtain ⟨m, l⟩ := p
      simp only [plain_ok, Res.ok_bind]
      by_cases hm : m ≠ i
      · rw [if_pos hm, if_pos hm]
        simp only [plain_bind]
        congr 1; funext a; congr 1; funext b; congr 1; funext c; congr 1; funext d
        rw [← ih]
        cases siftDownT cmp count fuel d m <;> rfl
      · rw [if_neg hm, if_neg hm]; rfl

theorem extractT_fst (cmp : α → α → Int) (fuel : Nat) (h : Heap α) : plain (extractT cmp fuel h) = extract cmp fuel h := by
  unfold extractT extract
  by_cases hc : h.count ≠ 0 ∧ h.cells.isEmpty = false
  · rw [if_pos hc, if_pos hc]
    simp only [plain_bind]
    congr 1; funext a; congr 1; funext b; congr 1; funext c; congr 1; funext d
    rw [← siftDownT_fst]
    cases siftDownT cmp (h.count - 1) fuel d 0 <;> rfl
  · rw [if_neg hc, if_neg hc]; rfl

/-! ## The bounds -/

theorem siftUpT_count (cmp : α → α → Int) : ∀ (fuel : Nat) (cells : List (Option α)) (i : Nat) {c : List (Option α)} {l : List (α × α)},
    siftUpT cmp fuel cells i = .ok (c, l) → 2 ^ l.length ≤ i + 1 := by
  intro fuel
  induction fuel with
  | zero => intro cells i c l h; cases h
  | succ fuel ih =>
    intro cells i c l h
    unfold siftUpT at h
    by_cases hi : 0 < i
    · rw [if_pos hi] at h
      obtain ⟨a, -, h⟩ := Res.bind_eq_ok.1 h
      obtain ⟨b, -, h⟩ := Res.bind_eq_ok.1 h
      by_cases hc : cmp a b < 0
      · rw [if_pos hc] at h
        obtain ⟨c1, -, h⟩ := Res.bind_eq_ok.1 h
        obtain ⟨c2, -, h⟩ := Res.bind_eq_ok.1 h
        obtain ⟨⟨c3, l3⟩, h3, h⟩ := Res.bind_eq_ok.1 h
        have := ih _ _ h3
        have e := (Prod.mk.inj (Res.ok.inj h)).2
        subst e
        have hp : parent i = (i - 1) / 2 := by unfold parent; rw [if_neg (by omega)]
        rw [hp] at this
        rw [List.length_cons, Nat.pow_succ]; omega
      · rw [if_neg hc] at h
        have e := (Prod.mk.inj (Res.ok.inj h)).2
        subst e
        simp; omega
    · rw [if_neg hi] at h
      have e := (Prod.mk.inj (Res.ok.inj h)).2
      subst e; simp

theorem pickT_count (cmp : α → α → Int) {cells : List (Option α)} {count i m : Nat} {l : List (α × α)} (hb : count ≤ 2 ^ 31) (h : pickT cmp cells count i = .ok (m, l)) (hi : i < 2 ^ 31) :
    l.length ≤ 2 ∧ (l ≠ [] → 2 * i + 1 < count) ∧ (m ≠ i → m < count ∧ (m = 2 * i + 1 ∨ m = 2 * i + 2)) := by
  have hl : left i = 2 * i + 1 := by unfold left u32; omega
  unfold pickT at h
  by_cases h1 : left i < count
  · rw [if_pos h1] at h
    have hr : right i = 2 * i + 2 := by unfold right u32; omega
    obtain ⟨a, -, h⟩ := Res.bind_eq_ok.1 h
    obtain ⟨b, -, h⟩ := Res.bind_eq_ok.1 h
    by_cases h2 : right i < count
    · simp only [h2, if_true] at h
      obtain ⟨c, -, h⟩ := Res.bind_eq_ok.1 h
      obtain ⟨d, -, h⟩ := Res.bind_eq_ok.1 h
      obtain ⟨e1, e2⟩ := Prod.mk.inj (Res.ok.inj h)
      subst e2
      refine ⟨by simp, fun _ => by omega, fun hm => ?_⟩
      by_cases c1 : cmp c d > 0
      · rw [if_pos c1] at e1; omega
      · rw [if_neg c1] at e1
        by_cases c2 : cmp a b > 0
        · rw [if_pos c2] at e1; omega
        · rw [if_neg c2] at e1; omega
    · simp only [h2, if_false] at h
      obtain ⟨e1, e2⟩ := Prod.mk.inj (Res.ok.inj h)
      subst e2
      refine ⟨by simp, fun _ => by omega, fun hm => ?_⟩
      by_cases c2 : cmp a b > 0
      · rw [if_pos c2] at e1; omega
      · rw [if_neg c2] at e1; omega
  · rw [if_neg h1] at h
    obtain ⟨e1, e2⟩ := Prod.mk.inj (Res.ok.inj h)
    subst e2
    exact ⟨by simp, fun h => absurd rfl h, fun hm => absurd e1.symm hm⟩

theorem siftDownT_count (cmp : α → α → Int) {count : Nat} (hb : count ≤ 2 ^ 31) : ∀ (fuel : Nat) (cells : List (Option α)) (i : Nat) {c : List (Option α)} {l : List (α × α)},
    i < 2 ^ 31 → siftDownT cmp count fuel cells i = .ok (c, l) → ∃ k, l.length ≤ 2 * k ∧ (k ≠ 0 → 2 ^ k * (i + 1) ≤ count) := by
  intro fuel
  induction fuel with
  | zero => intro cells i c l _ h; cases h
  | succ fuel ih =>
    intro cells i c l hi h
    unfold siftDownT at h
    obtain ⟨⟨m, l0⟩, hp, h⟩ := Res.bind_eq_ok.1 h
    obtain ⟨p1, p2, p3⟩ := pickT_count cmp hb hp hi
    dsimp only at h
    by_cases hm : m ≠ i
    · rw [if_pos hm] at h
      obtain ⟨q1, q2⟩ := p3 hm
      obtain ⟨a, -, h⟩ := Res.bind_eq_ok.1 h
      obtain ⟨b, -, h⟩ := Res.bind_eq_ok.1 h
      obtain ⟨c1, -, h⟩ := Res.bind_eq_ok.1 h
      obtain ⟨c2, -, h⟩ := Res.bind_eq_ok.1 h
      obtain ⟨⟨c3, l3⟩, h3, h⟩ := Res.bind_eq_ok.1 h
      have e := (Prod.mk.inj (Res.ok.inj h)).2
      dsimp only at e
      obtain ⟨k, k1, k2⟩ := ih _ _ (by omega) h3
      refine ⟨k + 1, by rw [← e, List.length_append]; omega, fun _ => ?_⟩
      by_cases hk : k = 0
      · subst hk; omega
      · have h5 := k2 hk
        have h6 : 2 ^ k * (2 * (i + 1)) ≤ 2 ^ k * (m + 1) := Nat.mul_le_mul_left _ (by omega)
        rw [Nat.pow_succ, Nat.mul_assoc]; omega
    · rw [if_neg hm] at h
      have e := (Prod.mk.inj (Res.ok.inj h)).2
      subst e
      by_cases hl : l0 = []
      · exact ⟨0, by simp [hl], fun h => absurd rfl h⟩
      · have := p2 hl
        exact ⟨1, by omega, fun _ => by omega⟩

theorem grow_count {fuel : Nat} {h g : Heap α} (e : grow fuel h = .ok g) : g.count = h.count := by
  unfold grow at e
  split at e
  · obtain ⟨m, -, e⟩ := Res.bind_eq_ok.1 e
    split at e
    · injection e with e; rw [← e]
    · cases e
  · injection e with e; rw [e]

/-- **C135.**  An insertion into a heap of `n` elements calls the comparison function at most `log2 (n + 1)` times, whatever the function answers and whatever the cells hold. -/
theorem insert_comparisons (cmp : α → α → Int) (fuel : Nat) {h h' : Heap α} {d : α} (e : insert cmp fuel h d = .ok h') :
    ∃ l, insertT cmp fuel h d = .ok (h', l) ∧ l.length ≤ Nat.log2 (h.count + 1) := by
  rw [← insertT_fst] at e
  obtain ⟨⟨h1, l⟩, e1, e2⟩ := Res.bind_eq_ok.1 e
  have e2 := Res.ok.inj e2
  dsimp only at e2
  subst e2
  refine ⟨l, e1, ?_⟩
  unfold insertT at e1
  obtain ⟨g, hg, e1⟩ := Res.bind_eq_ok.1 e1
  obtain ⟨c, -, e1⟩ := Res.bind_eq_ok.1 e1
  obtain ⟨⟨c', l'⟩, h3, e1⟩ := Res.bind_eq_ok.1 e1
  have := siftUpT_count cmp _ _ _ h3
  have e4 := (Prod.mk.inj (Res.ok.inj e1)).2
  subst e4
  rw [grow_count hg] at this
  exact (Nat.le_log2 (by omega)).2 this

/-- **C135.**  An extraction from a heap of `n` elements calls it at most `2 * log2 (n - 1)` times; `n` is at most 2^31, the most a heap can hold. -/
theorem extract_comparisons (cmp : α → α → Int) (fuel : Nat) {h h' : Heap α} {o : Option α} (hb : h.count ≤ 2 ^ 31) (e : extract cmp fuel h = .ok (o, h')) :
    ∃ l, extractT cmp fuel h = .ok ((o, h'), l) ∧ l.length ≤ 2 * Nat.log2 (h.count - 1) := by
  rw [← extractT_fst] at e
  obtain ⟨⟨h1, l⟩, e1, e2⟩ := Res.bind_eq_ok.1 e
  have e2 := Res.ok.inj e2
  dsimp only at e2
  subst e2
  refine ⟨l, e1, ?_⟩
  unfold extractT at e1
  split at e1
  · obtain ⟨a, -, e1⟩ := Res.bind_eq_ok.1 e1
    obtain ⟨b, -, e1⟩ := Res.bind_eq_ok.1 e1
    obtain ⟨c, -, e1⟩ := Res.bind_eq_ok.1 e1
    obtain ⟨d, -, e1⟩ := Res.bind_eq_ok.1 e1
    obtain ⟨⟨c', l'⟩, h3, e1⟩ := Res.bind_eq_ok.1 e1
    obtain ⟨k, k1, k2⟩ := siftDownT_count cmp (by omega) _ _ 0 (by omega) h3
    have e4 := (Prod.mk.inj (Res.ok.inj e1)).2
    subst e4
    by_cases hk : k = 0
    · omega
    · have h5 := k2 hk
      have h6 : 2 ^ k ≤ h.count - 1 := by omega
      have h7 : 0 < 2 ^ k := Nat.pow_pos (by omega)
      have := (Nat.le_log2 (by omega)).2 h6
      omega
  · have e4 := (Prod.mk.inj (Res.ok.inj e1)).2
    subst e4; simp

/-- The comparisons a history of calls makes. -/
def runT (cmp : α → α → Int) (fuel : Nat) : Heap α → List (Op α) → Res (Heap α × List (α × α))
  | h, [] => .ok (h, [])
  | h, .ins a :: ops => do
    let (h, l) ← insertT cmp fuel h a
    let (h, l') ← runT cmp fuel h ops
    .ok (h, l ++ l')
  | h, .ext :: ops => do
    let ((_, h), l) ← extractT cmp fuel h
    let (h, l') ← runT cmp fuel h ops
    .ok (h, l ++ l')

theorem log2_mono {a b : Nat} (h : a ≤ b) : Nat.log2 a ≤ Nat.log2 b := by
  by_cases ha : a = 0
  · subst ha; rw [Nat.log2_zero]; omega
  · exact (Nat.le_log2 (by omega)).2 (Nat.le_trans (Nat.log2_self_le ha) h)

theorem insert_count {cmp : α → α → Int} {fuel : Nat} {h h' : Heap α} {d : α} (e : insert cmp fuel h d = .ok h') : h'.count ≤ h.count + 1 := by
  unfold insert at e
  obtain ⟨g, hg, e⟩ := Res.bind_eq_ok.1 e
  obtain ⟨c, -, e⟩ := Res.bind_eq_ok.1 e
  obtain ⟨c', -, e⟩ := Res.bind_eq_ok.1 e
  rw [← Res.ok.inj e]
  show u32 (g.count + 1) ≤ _
  rw [grow_count hg]
  exact Nat.mod_le _ _

theorem extract_count {cmp : α → α → Int} {fuel : Nat} {h h' : Heap α} {o : Option α} (e : extract cmp fuel h = .ok (o, h')) : h'.count ≤ h.count := by
  unfold extract at e
  split at e
  · obtain ⟨a, -, e⟩ := Res.bind_eq_ok.1 e
    obtain ⟨b, -, e⟩ := Res.bind_eq_ok.1 e
    obtain ⟨c, -, e⟩ := Res.bind_eq_ok.1 e
    obtain ⟨d, -, e⟩ := Res.bind_eq_ok.1 e
    obtain ⟨c', -, e⟩ := Res.bind_eq_ok.1 e
    rw [← (Prod.mk.inj (Res.ok.inj e)).2]
    exact Nat.sub_le _ _
  · rw [← (Prod.mk.inj (Res.ok.inj e)).2]; exact Nat.le_refl _

theorem run_comparisons_from (cmp : α → α → Int) (fuel m : Nat) (hm : m ≤ 2 ^ 31) : ∀ (ops : List (Op α)) (h : Heap α) {h' : Heap α} {outs : List (Option α)},
    h.count + (inserted ops).length ≤ m → run cmp fuel h ops = .ok (h', outs) →
    ∃ l, runT cmp fuel h ops = .ok (h', l) ∧ l.length ≤ ops.length * (2 * Nat.log2 (m + 1)) := by
  intro ops
  induction ops with
  | nil => intro h h' outs _ e; exact ⟨[], by unfold runT; rw [(Prod.mk.inj (Res.ok.inj e)).1], by simp⟩
  | cons op ops ih =>
    intro h h' outs hc e
    cases op with
    | ins a =>
      obtain ⟨h1, e1, e2⟩ := Res.bind_eq_ok.1 e
      obtain ⟨l1, t1, b1⟩ := insert_comparisons cmp fuel e1
      have hc1 := insert_count e1
      simp only [inserted, List.length_cons] at hc
      obtain ⟨l2, t2, b2⟩ := ih h1 (by omega) e2
      refine ⟨l1 ++ l2, ?_, ?_⟩
      · unfold runT; rw [t1, Res.ok_bind]; dsimp only; rw [t2]; rfl
      · have := log2_mono (show h.count + 1 ≤ m + 1 by omega)
        rw [List.length_append, List.length_cons, Nat.add_mul]; omega
    | ext =>
      obtain ⟨⟨o, h1⟩, e1, e2⟩ := Res.bind_eq_ok.1 e
      dsimp only at e2
      obtain ⟨⟨h2, os⟩, e5, e3⟩ := Res.bind_eq_ok.1 e2
      have e4 := (Prod.mk.inj (Res.ok.inj e3)).1
      subst e4
      simp only [inserted] at hc
      obtain ⟨l1, t1, b1⟩ := extract_comparisons cmp fuel (by omega) e1
      have hc1 := extract_count e1
      obtain ⟨l2, t2, b2⟩ := ih h1 (by omega) e5
      refine ⟨l1 ++ l2, ?_, ?_⟩
      · unfold runT; rw [t1, Res.ok_bind]; dsimp only; rw [t2]; rfl
      · have := log2_mono (show h.count - 1 ≤ m + 1 by omega)
        rw [List.length_append, List.length_cons, Nat.add_mul]; omega

/-- **C135.**  A history of calls that inserts at most 2^31 elements, with any comparison function, ends, and calls that function at most `2 * log2 (n + 1)` times for each call of the history, where `n` is the
number of elements inserted. -/
theorem history_comparisons (cmp : α → α → Int) (ops : List (Op α)) (fuel : Nat)
    (hn : (inserted ops).length ≤ 2 ^ 31) (hf : (inserted ops).length + 32 ≤ fuel) :
    ∃ h l, runT cmp fuel (make α) ops = .ok (h, l) ∧ l.length ≤ ops.length * (2 * Nat.log2 ((inserted ops).length + 1)) := by
  obtain ⟨h, outs, held, e, -, -⟩ := heap_conserves cmp ops fuel hn hf
  obtain ⟨l, h1, h2⟩ := run_comparisons_from cmp fuel (inserted ops).length hn ops (make α) (by simp [make]) e
  exact ⟨h, l, h1, h2⟩

/-! ## Examples -/

/-- A heap of the seven numbers 7, 6, …, 1 (in an array of eight cells). -/
def exSeven : Heap Nat := ⟨[some 7, some 6, some 5, some 4, some 3, some 2, some 1, none], 7, 8⟩

/-- The bounds are reached: inserting 8 compares it with 4, 6 and 7, three times; taking out 7 compares four times. -/
example : (∃ h, insertT (fun a b : Nat => (a : Int) - b) 40 exSeven 8 = .ok (h, [(4, 8), (6, 8), (7, 8)])) ∧ Nat.log2 (7 + 1) = 3 ∧
    (∃ h, extractT (fun a b : Nat => (a : Int) - b) 40 exSeven = .ok ((some 7, h), [(6, 1), (5, 6), (4, 1), (3, 4)])) ∧ 2 * Nat.log2 (7 - 1) = 4 :=
  ⟨⟨_, rfl⟩, by decide, ⟨_, rfl⟩, by decide⟩

example : ∃ h l, runT (fun a b : Nat => (a : Int) - b) 40 (make Nat) [.ins 1, .ins 2, .ext] = .ok (h, l) ∧ l.length ≤ 3 * (2 * 1) := by
  have := history_comparisons (fun a b : Nat => (a : Int) - b) [.ins 1, .ins 2, .ext] 40 (by decide) (by decide)
  exact this

end Verif.Heap
