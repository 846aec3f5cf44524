import Verif.Pool.Cells

/-!
# The linked list is a queue (C89)
-/

namespace Verif.Pool.Cells

/-- The cells at these addresses, linked in this order, hold these data. -/
def Chain (mem : Nat → Option (Cell τ)) : List Nat → List (Option τ) → Prop
  | [], [] => True
  | a :: as, d :: q => mem a = some ⟨as.head?, d⟩ ∧ Chain mem as q
  | _, _ => False

/-- The list represents the queue. -/
structure Rep (l : Lst τ) (as : List Nat) (q : List (Option τ)) : Prop where
  chain : Chain l.mem as q
  head : l.head = as.head?
  tail : as ≠ [] → l.tail = as.getLast?
  nodup : as.Nodup
  below : ∀ a ∈ as, a < l.brk
  nb : l.nb = q.length
  small : q.length < 2 ^ 64

theorem chain_length {mem : Nat → Option (Cell τ)} : ∀ {as : List Nat} {q : List (Option τ)}, Chain mem as q → as.length = q.length
  | [], [], _ => rfl
  | _ :: as, _ :: q, h => by simp [chain_length h.2]
  | [], _ :: _, h => h.elim
  | _ :: _, [], h => h.elim

theorem chain_frame {mem mem' : Nat → Option (Cell τ)} : ∀ {as : List Nat} {q : List (Option τ)}, (∀ a ∈ as, mem' a = mem a) → Chain mem as q → Chain mem' as q
  | [], [], _, _ => trivial
  | a :: as, d :: q, hm, h => ⟨by rw [hm a (by simp)]; exact h.1, chain_frame (fun x hx => hm x (by simp [hx])) h.2⟩
  | [], _ :: _, _, h => h.elim
  | _ :: _, [], _, h => h.elim

theorem chain_last {mem : Nat → Option (Cell τ)} : ∀ {as : List Nat} {q : List (Option τ)} {t : Nat}, Chain mem as q → as.getLast? = some t →
    ∃ d, mem t = some ⟨none, d⟩
  | [a], [d], t, h, ht => by simp at ht; subst ht; exact ⟨d, h.1⟩
  | a :: b :: as, d :: q, t, h, ht => chain_last (as := b :: as) h.2 (by simpa using ht)
  | [], _, _, _, ht => by simp at ht
  | [_], [], _, h, _ => h.elim
  | [_], _ :: _ :: _, _, h, _ => h.2.elim
  | _ :: _ :: _, [], _, h, _ => h.elim

theorem chain_snoc {mem : Nat → Option (Cell τ)} {n : Nat} {d : Option τ} : ∀ {as : List Nat} {q : List (Option τ)} {t : Nat} {x : Option τ}, Chain mem as q →
    as.Nodup → n ∉ as → as.getLast? = some t → mem t = some ⟨none, x⟩ →
    Chain (fun a => if a = t then some ⟨some n, x⟩ else if a = n then some ⟨none, d⟩ else mem a) (as ++ [n]) (q ++ [d])
  | [a], [y], t, x, h, _, hn, ht, hx => by
    simp at ht hn; subst ht
    have hy := h.1
    rw [hx] at hy
    injection hy with hy; injection hy with _ hy; subst hy
    refine ⟨by simp, ?_, trivial⟩
    show (if n = a then _ else if n = n then _ else mem n) = _
    rw [if_neg hn, if_pos rfl]; rfl
  | a :: b :: as, y :: q, t, x, h, hd, hn, ht, hx => by
    have ht' : (b :: as).getLast? = some t := by simpa using ht
    have htm : t ∈ b :: as := List.mem_of_getLast? ht'
    have hd' := List.nodup_cons.mp hd
    refine ⟨?_, chain_snoc (as := b :: as) h.2 hd'.2 (fun hh => hn (List.mem_cons_of_mem _ hh)) ht' hx⟩
    show (if a = t then _ else if a = n then _ else mem a) = _
    rw [if_neg (by intro e; subst e; exact hd'.1 htm), if_neg (by intro e; subst e; exact hn (by simp)), h.1]
    simp
  | [], _, _, _, _, _, _, ht, _ => by simp at ht
  | [_], [], _, _, h, _, _, _, _ => h.elim
  | [_], _ :: _ :: _, _, _, h, _, _, _, _ => h.2.elim
  | _ :: _ :: _, [], _, _, h, _, _, _, _ => h.elim

theorem make_rep : Rep (make : Lst τ) [] [] :=
  ⟨trivial, rfl, fun h => absurd rfl h, List.nodup_nil, by simp, rfl, by simp⟩

theorem put_rep {l : Lst τ} {as : List Nat} {q : List (Option τ)} (h : Rep l as q) (d : Option τ) (hs : q.length + 1 < 2 ^ 64) :
    ∃ l' as', enqueue l d = .ok l' ∧ Rep l' as' (q ++ [d]) := by
  have hlen := chain_length h.chain
  unfold enqueue
  by_cases hq : q = []
  · subst hq
    have has : as = [] := List.eq_nil_of_length_eq_zero hlen
    subst has
    have hnb : l.nb = 0 := h.nb
    rw [if_neg (by simp [hnb])]
    refine ⟨_, [l.brk], rfl, ?_⟩
    unfold cons
    simp only [hnb, Nat.zero_add]
    rw [if_pos (by decide)]
    refine ⟨⟨?_, trivial⟩, rfl, fun _ => rfl, by simp, ?_, by simp, by simp⟩
    · simp [Lst.write, h.head]
    · intro a ha; simp at ha; subst ha; exact Nat.lt_succ_self _
  · have hne : l.nb ≠ 0 := by rw [h.nb]; intro e; exact hq (List.eq_nil_of_length_eq_zero e)
    have has : as ≠ [] := by intro e; subst e; exact hq (List.eq_nil_of_length_eq_zero hlen.symm)
    obtain ⟨t, ht⟩ : ∃ t, as.getLast? = some t := ⟨_, List.getLast?_eq_some_getLast has⟩
    obtain ⟨x, hx⟩ := chain_last h.chain ht
    have hnm : l.brk ∉ as := fun hm => Nat.lt_irrefl _ (h.below _ hm)
    rw [if_pos hne, h.tail has, ht]
    simp only [hx]
    refine ⟨_, as ++ [l.brk], rfl, ?_⟩
    refine ⟨?_, ?_, ?_, ?_, ?_, ?_, by simpa using hs⟩
    · exact chain_snoc h.chain h.nodup hnm ht hx
    · simp only [Lst.write, h.head]
      cases as with
      | nil => exact absurd rfl has
      | cons a as => rfl
    · intro _; simp
    · refine List.nodup_append.mpr ⟨h.nodup, by simp, ?_⟩
      intro a ha b hb
      simp at hb; subst hb
      intro e; subst e; exact hnm ha
    · intro a ha
      rcases List.mem_append.mp ha with ha | ha
      · exact Nat.lt_succ_of_lt (h.below a ha)
      · simp at ha; subst ha; exact Nat.lt_succ_self _
    · simp only [List.length_append, List.length_singleton, h.nb]
      exact Nat.mod_eq_of_lt hs

theorem cdr_rep {l : Lst τ} {a : Nat} {as : List Nat} {d : Option τ} {q : List (Option τ)} (h : Rep l (a :: as) (d :: q)) :
    ∃ l', cdr l = .ok l' ∧ Rep l' as q ∧ l.head = some a ∧ l.mem a = some ⟨as.head?, d⟩ := by
  have hh : l.head = some a := h.head
  have hm := h.chain.1
  have hs := h.small
  simp only [List.length_cons] at hs
  unfold cdr
  rw [hh]
  simp only [hm]
  refine ⟨_, rfl, ⟨h.chain.2, rfl, ?_, (List.nodup_cons.mp h.nodup).2, fun x hx => h.below x (by simp [hx]), ?_, by omega⟩, by simp⟩
  · intro hne
    have := h.tail (by simp)
    simp only [this]
    cases as with
    | nil => exact absurd rfl hne
    | cons b as => simp
  · have := h.nb
    simp only [List.length_cons] at this
    simp only [this]
    omega

theorem take_rep {l : Lst τ} {as : List Nat} {d : Option τ} {q : List (Option τ)} (h : Rep l as (d :: q)) :
    ∃ l' as', take l = .ok (d, l') ∧ Rep l' as' q := by
  cases as with
  | nil => exact (h.chain).elim
  | cons a as =>
    obtain ⟨l', h1, h2, h3, h4⟩ := cdr_rep h
    refine ⟨l', as, ?_, h2⟩
    unfold take
    rw [h3]
    simp only [h4, h1, Res.ok_bind]

theorem delete_rep (n : Nat) : ∀ {l : Lst τ} {as : List Nat} {q : List (Option τ)}, Rep l as q → q.length < n → delete n l = .ok make := by
  induction n with
  | zero => intro l as q _ hn; omega
  | succ n ih =>
    intro l as q h hn
    unfold delete
    cases q with
    | nil =>
      have has : as = [] := List.eq_nil_of_length_eq_zero (chain_length h.chain)
      subst has
      rw [h.head]; rfl
    | cons d q =>
      cases as with
      | nil => exact h.chain.elim
      | cons a as =>
        obtain ⟨l', h1, h2, h3, h4⟩ := cdr_rep h
        rw [h3]
        simp only [h1, Res.ok_bind]
        exact ih h2 (by simp at hn; omega)

/-- **C89, the list.**  Whatever is put, taken and dropped, as long as nothing is taken from an empty list, the linked list is a first-in, first-out queue: no undefined
behaviour, what is taken is what the queue gives, and the number of cells is the length of the queue. -/
theorem list_is_queue (ops : List (Op τ)) (hn : ops.length < 2 ^ 64) (fuel : Nat) (hf : ops.length < fuel) (out q : List (Option τ)) (h : spec [] ops = some (out, q)) :
    ∃ l, runs fuel make ops = .ok (out, l) ∧ l.nb = q.length := by
  have key : ∀ (ops : List (Op τ)) (l : Lst τ) (as : List Nat) (q0 out q : List (Option τ)), Rep l as q0 → q0.length + ops.length < 2 ^ 64 →
      q0.length + ops.length < fuel → spec q0 ops = some (out, q) → ∃ l', runs fuel l ops = .ok (out, l') ∧ l'.nb = q.length := by
    intro ops
    induction ops with
    | nil =>
      intro l as q0 out q hr _ _ hs
      simp only [spec, Option.some.injEq, Prod.mk.injEq] at hs
      obtain ⟨rfl, rfl⟩ := hs
      exact ⟨l, rfl, hr.nb⟩
    | cons o os ih =>
      intro l as q0 out q hr h64 hfu hs
      simp only [List.length_cons] at h64 hfu
      cases o with
      | put d =>
        obtain ⟨l1, as1, e1, r1⟩ := put_rep hr d (by omega)
        have hs' : spec (q0 ++ [d]) os = some (out, q) := by cases q0 <;> simpa [spec] using hs
        obtain ⟨l2, e2, n2⟩ := ih l1 as1 _ out q r1 (by simp; omega) (by simp; omega) hs'
        exact ⟨l2, by simp [runs, run, e1, e2], n2⟩
      | take =>
        cases q0 with
        | nil => simp [spec] at hs
        | cons d q0 =>
          simp only [spec, Option.map_eq_some_iff, Prod.mk.injEq] at hs
          obtain ⟨⟨o', q'⟩, hs', rfl, rfl⟩ := hs
          obtain ⟨l1, as1, e1, r1⟩ := take_rep hr
          obtain ⟨l2, e2, n2⟩ := ih l1 as1 q0 o' q' r1 (by simp at h64; omega) (by simp at hfu; omega) hs'
          exact ⟨l2, by simp [runs, run, e1, e2], n2⟩
      | drop =>
        have e1 := delete_rep fuel hr (by omega)
        have hs' : spec [] os = some (out, q) := by cases q0 <;> simpa [spec] using hs
        obtain ⟨l2, e2, n2⟩ := ih make [] [] out q make_rep (by simp; omega) (by simp; omega) hs'
        exact ⟨l2, by simp [runs, run, e1, e2], n2⟩
  exact key ops make [] [] out q make_rep (by simpa using hn) (by simpa using hf) h

/-- The other way round: taking from an empty list dereferences NULL, so it is for the callers to look at the size first (L388). -/
theorem take_empty_undefined : take (make : Lst τ) = .ub := rfl

/-- Two are put, one is taken, two more are put after the list has become empty in between. -/
example : spec [] [Op.put (some 1), .put none, .take, .take, .put (some 3), .put (some 4), .take, .drop, .put (some 5)] = some ([some 1, none, some 3], [some 5]) := by decide

end Verif.Pool.Cells
