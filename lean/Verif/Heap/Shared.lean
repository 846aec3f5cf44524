import Verif.Heap.Props

/-!
# Heaps that cannot grow, and heaps shared by threads (C102, C103)

`napr_heap_insert` with an allocation that may fail (napr_heap.c L101-112), and `napr_heap_insert_r` (L233-251) called by any number of threads.  `heap->tree = NULL`
(L109) is the empty list of cells: every access to it is out of bounds, and so is the `memcpy` from it.

A thread inside `napr_heap_insert` is at one of the places of `Pc`; one step goes to the next place.  Locking and unlocking do not fail, and `apr_thread_mutex_lock` blocks
while the mutex is held, also by the calling thread (`APR_THREAD_MUTEX_DEFAULT`).
-/

namespace Verif.Heap

/-! ## Insertion that may fail -/

/-- napr_heap.c L85-138 `napr_heap_insert` where `room` says whether the allocation of L101 succeeds; `false` is the result -1. -/
def insertLim (cmp : α → α → Int) (room : Bool) (fuel : Nat) (h : Heap α) (datum : α) : Res (Bool × Heap α) :=
  if h.max ≤ h.count ∧ room = false then do
    let _ ← growLoop fuel 1 h.max
    .ok (false, { h with cells := [] })
  else do
    let h' ← insert cmp fuel h datum
    .ok (true, h')

/-- C102: an insertion fails exactly if the array is full and no larger one can be had; otherwise it adds its element. -/
theorem insert_fails_iff (cmp : α → α → Int) {room : Bool} {h : Heap α} {t : List α} (H : Holds h t) (a : α) (hl : t.length < 2 ^ 31) {fuel : Nat}
    (hf : t.length + 32 ≤ fuel) :
    (t.length = h.max ∧ room = false ∧ insertLim cmp room fuel h a = .ok (false, { h with cells := [] })) ∨
    (¬ (t.length = h.max ∧ room = false) ∧ ∃ h' t', insertLim cmp room fuel h a = .ok (true, h') ∧ Holds h' t' ∧ t'.Perm (a :: t)) := by
  have hc := H.count
  have hcap := H.cap
  have hle := H.rep.1
  unfold insertLim
  by_cases hr : t.length = h.max ∧ room = false
  · obtain ⟨m, e, -⟩ := growLoop_ok h.max (by omega) fuel 0 (by omega) (by omega)
    rw [Nat.pow_zero] at e
    rw [if_pos ⟨by omega, hr.2⟩, e]
    exact .inl ⟨hr.1, hr.2, rfl⟩
  · rw [if_neg (fun hx => hr ⟨by have := hx.1; omega, hx.2⟩)]
    obtain ⟨h', t', e, H', hp, -⟩ := insert_spec cmp H a hl hf
    rw [e]
    exact .inr ⟨hr, h', t', rfl, H', hp⟩

/-- C102 is false of the code: after an insertion that failed, the size is still what it was, but every element is gone: extraction and looking at an
element give nothing, however often, and to insert again, even with memory, is undefined. -/
theorem failed_insert_loses_all (cmp : α → α → Int) {h h' : Heap α} {t : List α} (H : Holds h t) {a : α} {room : Bool} {fuel : Nat}
    (hfail : insertLim cmp room fuel h a = .ok (false, h')) :
    size h' = t.length ∧ 0 < t.length ∧ (∀ fuel', extract cmp fuel' h' = .ok (none, h')) ∧ (∀ n, getNth h' n = .ok none) ∧
      ∀ b fuel', t.length < 2 ^ 31 → 32 ≤ fuel' → insertLim cmp true fuel' h' b = .ub := by
  have hc := H.count
  have hcap := H.cap
  have hle := H.rep.1
  unfold insertLim at hfail
  split at hfail
  · rename_i hfull
    obtain ⟨m, -, e⟩ := Res.bind_eq_ok.1 hfail
    cases e
    have hp := H.pos
    refine ⟨hc, by omega, ?_, ?_, ?_⟩
    · intro fuel'
      unfold extract
      rw [if_neg (by simp)]
    · intro n
      unfold getNth
      rw [if_neg (by simp)]
    · intro b fuel' hl hf
      obtain ⟨m, e, -⟩ := growLoop_ok h.max (by omega) fuel' 0 (by omega) (by omega)
      rw [Nat.pow_zero] at e
      unfold insertLim
      rw [if_neg (by simp)]
      unfold insert grow
      rw [if_pos (show h.max ≤ h.count from hfull.1), e, Res.ok_bind, if_neg]
      · rfl
      · show ¬ (h.count ≤ m ∧ h.count ≤ ([] : List (Option α)).length)
        simp only [List.length_nil]; omega
  · obtain ⟨m, -, e⟩ := Res.bind_eq_ok.1 hfail
    cases e

/-- A full heap whose array cannot be replaced. -/
example : ∃ (h : Heap Nat) (t : List Nat) (h' : Heap Nat), Holds h t ∧ insertLim (fun _ _ => 0) false 32 h 7 = .ok (false, h') :=
  ⟨⟨[some 5], 1, 1⟩, [5], ⟨[], 1, 1⟩, ⟨⟨by decide, fun i hi => by have : i = 0 := (by simp at hi; exact hi); subst this; rfl⟩, rfl, rfl, by decide, by decide⟩,
    rfl⟩

/-! ## Threads -/

/-- Where a thread is in `napr_heap_insert_r`: not in it, before L90, before L118, at the head of the loop (L123) with `ipos`, before L135, before L242. -/
inductive Pc (α : Type) where
  | idle | grow (d : α) | store (d : α) | sift (ipos : Nat) | bump | leave

/-- A thread: where it is and the data it is still to insert. -/
structure Th (α : Type) where
  pc : Pc α
  todo : List α

/-- The heap, who holds its mutex, and the threads. -/
structure St (α : Type) where
  heap : Heap α
  owner : Option Nat
  ths : List (Th α)

/-- One step of `napr_heap_insert`: L90-113, L118-121, one round of L123-133, L135. -/
def micro (cmp : α → α → Int) (fuel : Nat) : Pc α → Heap α → Res (Pc α × Heap α)
  | .grow d, h => do
    let h ← Heap.grow fuel h
    .ok (.store d, h)
  | .store d, h => do
    let cells ← wr h.cells h.count (some d)
    .ok (.sift h.count, { h with cells := cells })
  | .sift ipos, h =>
    if 0 < ipos then do
      let a ← rd h.cells (parent ipos)
      let b ← rd h.cells ipos
      if cmp a b < 0 then do
        let cells ← wr h.cells (parent ipos) (some b)
        let cells ← wr cells ipos (some a)
        .ok (.sift (parent ipos), { h with cells := cells })
      else .ok (.bump, h)
    else .ok (.bump, h)
  | .bump, h => .ok (.leave, { h with count := u32 (h.count + 1) })
  | pc, h => .ok (pc, h)

/-- Is the thread between L90 and L135? -/
def Pc.inside : Pc α → Bool
  | .idle => false
  | .leave => false
  | _ => true

/-- A step of one thread.  `fails`: whether allocations may fail. -/
inductive Step (cmp : α → α → Int) (fuel : Nat) (fails : Bool) : St α → St α → Prop
  /-- L238: the mutex is taken. -/
  | lock {s : St α} {i : Nat} {d : α} {ds : List α} (h : s.ths[i]? = some ⟨.idle, d :: ds⟩) (ho : s.owner = none) :
      Step cmp fuel fails s { s with owner := some i, ths := s.ths.set i ⟨.grow d, ds⟩ }
  /-- L240: inside `napr_heap_insert`. -/
  | work {s : St α} {i : Nat} {pc pc' : Pc α} {ds : List α} {h' : Heap α} (h : s.ths[i]? = some ⟨pc, ds⟩) (hi : pc.inside = true)
      (hm : micro cmp fuel pc s.heap = .ok (pc', h')) : Step cmp fuel fails s { s with heap := h', ths := s.ths.set i ⟨pc', ds⟩ }
  /-- L108-112, L241: the array cannot be replaced; the result is not 0, so the mutex is not released. -/
  | fail {s : St α} {i : Nat} {d : α} {ds : List α} (h : s.ths[i]? = some ⟨.grow d, ds⟩) (hx : fails = true) (hfull : s.heap.max ≤ s.heap.count) :
      Step cmp fuel fails s { s with heap := { s.heap with cells := [] }, ths := s.ths.set i ⟨.idle, ds⟩ }
  /-- L242: the mutex is released. -/
  | unlock {s : St α} {i : Nat} {ds : List α} (h : s.ths[i]? = some ⟨.leave, ds⟩) :
      Step cmp fuel fails s { s with owner := none, ths := s.ths.set i ⟨.idle, ds⟩ }

/-- Executions. -/
inductive Exec (cmp : α → α → Int) (fuel : Nat) (fails : Bool) : St α → St α → Prop
  | refl (s : St α) : Exec cmp fuel fails s s
  | step {s s' s'' : St α} : Exec cmp fuel fails s s' → Step cmp fuel fails s' s'' → Exec cmp fuel fails s s''

/-- A heap nobody uses and threads that are to insert the data of `ls`, a list for each. -/
def start (h : Heap α) (ls : List (List α)) : St α := ⟨h, none, ls.map fun l => ⟨.idle, l⟩⟩

/-- Some thread is about to do something undefined, or in a loop without end. -/
def Undefined (cmp : α → α → Int) (fuel : Nat) (s : St α) : Prop :=
  ∃ (i : Nat) (pc : Pc α) (ds : List α), s.ths[i]? = some ⟨pc, ds⟩ ∧ ∀ r, micro cmp fuel pc s.heap ≠ .ok r

/-- All data have been inserted, all calls have returned. -/
def Finished (s : St α) : Prop := ∀ th ∈ s.ths, th.pc = .idle ∧ th.todo = []

/-! ## The invariant -/

/-- What is left of an insertion. -/
def finish (cmp : α → α → Int) (fuel : Nat) : Pc α → Heap α → Nat → Res (Heap α)
  | .grow d, h, n => do
    let h ← Heap.grow fuel h
    let cells ← wr h.cells h.count (some d)
    let cells ← siftUp cmp n cells h.count
    .ok { h with cells := cells, count := u32 (h.count + 1) }
  | .store d, h, n => do
    let cells ← wr h.cells h.count (some d)
    let cells ← siftUp cmp n cells h.count
    .ok { h with cells := cells, count := u32 (h.count + 1) }
  | .sift ipos, h, n => do
    let cells ← siftUp cmp n h.cells ipos
    .ok { h with cells := cells, count := u32 (h.count + 1) }
  | .bump, h, _ => .ok { h with count := u32 (h.count + 1) }
  | .leave, h, _ => .ok h
  | .idle, h, _ => .ok h

theorem micro_finish {cmp : α → α → Int} {fuel : Nat} {pc : Pc α} {h h1 : Heap α} {n : Nat} (hi : pc.inside = true) (hf : finish cmp fuel pc h n = .ok h1) :
    ∃ pc' h', micro cmp fuel pc h = .ok (pc', h') ∧ pc' ≠ .idle ∧ ∃ n', finish cmp fuel pc' h' n' = .ok h1 := by
  cases pc with
  | idle => cases hi
  | leave => cases hi
  | grow d =>
    simp only [finish] at hf
    obtain ⟨h', e1, hf⟩ := Res.bind_eq_ok.1 hf
    exact ⟨.store d, h', by simp only [micro, e1, Res.ok_bind], by simp, n, hf⟩
  | store d =>
    simp only [finish] at hf
    obtain ⟨c, e1, hf⟩ := Res.bind_eq_ok.1 hf
    exact ⟨.sift h.count, { h with cells := c }, by simp only [micro, e1, Res.ok_bind], by simp, n, hf⟩
  | bump => exact ⟨.leave, _, rfl, by simp, 0, hf⟩
  | sift ipos =>
    simp only [finish] at hf
    obtain ⟨c, e1, hf'⟩ := Res.bind_eq_ok.1 hf
    replace hf := hf'
    cases n with
    | zero => cases e1
    | succ n =>
      rw [siftUp] at e1
      simp only [micro]
      by_cases hp : 0 < ipos
      · rw [if_pos hp] at e1 ⊢
        obtain ⟨a, r1, e1⟩ := Res.bind_eq_ok.1 e1
        obtain ⟨b, r2, e1⟩ := Res.bind_eq_ok.1 e1
        rw [r1, Res.ok_bind, r2, Res.ok_bind]
        by_cases hc : cmp a b < 0
        · rw [if_pos hc] at e1 ⊢
          obtain ⟨c1, w1, e1⟩ := Res.bind_eq_ok.1 e1
          obtain ⟨c2, w2, e1⟩ := Res.bind_eq_ok.1 e1
          rw [w1, Res.ok_bind, w2, Res.ok_bind]
          refine ⟨_, _, rfl, by simp, n, ?_⟩
          simp only [finish, e1, Res.ok_bind]
          exact hf
        · rw [if_neg hc] at e1 ⊢
          rw [← Res.ok.inj e1] at hf
          exact ⟨_, _, rfl, by simp, 0, hf⟩
      · rw [if_neg hp] at e1 ⊢
        cases e1
        exact ⟨_, _, rfl, by simp, 0, hf⟩

theorem growLoop_det {f f' n max m m' : Nat} (h : growLoop f n max = .ok m) (h' : growLoop f' n max = .ok m') : m = m' := by
  induction f generalizing f' n with
  | zero => cases h
  | succ f ih =>
    cases f' with
    | zero => cases h'
    | succ f' =>
      unfold growLoop at h h'
      split at h
      · rename_i hc
        rw [if_pos hc] at h'
        exact ih h h'
      · rename_i hc
        rw [if_neg hc] at h'
        rw [← Res.ok.inj h, ← Res.ok.inj h']

/-- The data the threads have yet to insert. -/
def pending (ths : List (Th α)) : List α := ths.flatMap Th.todo

/-- At rest the heap holds `xs`; while a thread is inside, what it does ends in such a heap. -/
structure Good (cmp : α → α → Int) (fuel : Nat) (all : List α) (s : St α) : Prop where
  main : ∃ h1 t, Holds h1 t ∧ (IsOrder cmp → HeapOrd cmp t) ∧ (t ++ pending s.ths).Perm all ∧
    match s.owner with
    | none => s.heap = h1 ∧ ∀ th ∈ s.ths, th.pc = .idle
    | some i => (∀ j th, j ≠ i → s.ths[j]? = some th → th.pc = .idle) ∧
      ∃ th n, s.ths[i]? = some th ∧ th.pc ≠ .idle ∧ finish cmp fuel th.pc s.heap n = .ok h1

theorem pending_set {ths : List (Th α)} {i : Nat} {th th' : Th α} (h : ths[i]? = some th) (ht : th'.todo = th.todo) :
    pending (ths.set i th') = pending ths := by
  induction ths generalizing i with
  | nil => cases h
  | cons x ths ih =>
    cases i with
    | zero =>
      simp only [List.getElem?_cons_zero, Option.some.injEq] at h
      subst h
      simp [pending, ht]
    | succ i =>
      simp only [List.getElem?_cons_succ] at h
      have := ih h
      simp only [pending, List.set_cons_succ, List.flatMap_cons] at this ⊢
      rw [this]

theorem pending_take {ths : List (Th α)} {i : Nat} {d : α} {ds : List α} {pc pc' : Pc α} (h : ths[i]? = some ⟨pc, d :: ds⟩) :
    (pending ths).Perm (d :: pending (ths.set i ⟨pc', ds⟩)) := by
  induction ths generalizing i with
  | nil => cases h
  | cons x ths ih =>
    cases i with
    | zero =>
      simp only [List.getElem?_cons_zero, Option.some.injEq] at h
      subst h
      simp [pending]
    | succ i =>
      simp only [List.getElem?_cons_succ] at h
      simp only [pending, List.set_cons_succ, List.flatMap_cons] at ih ⊢
      exact ((ih h).append_left _).trans List.perm_middle

theorem good_step {cmp : α → α → Int} {fuel : Nat} {all : List α} (hl : all.length ≤ 2 ^ 31) (hfu : 32 ≤ fuel) {s s' : St α}
    (hg : Good cmp fuel all s) (hs : Step cmp fuel false s s') : Good cmp fuel all s' := by
  obtain ⟨h1, t, H, ho, hp, hm⟩ := hg.main
  cases hs with
  | @lock i d ds h hown =>
    rw [hown] at hm
    obtain ⟨rfl, hidle⟩ := hm
    have hpt := pending_take (pc' := .grow d) h
    have hlen : t.length < 2 ^ 31 := by
      have a := hp.length_eq
      have b := hpt.length_eq
      simp only [List.length_append, List.length_cons] at a b
      omega
    -- more fuel does not change the result
    obtain ⟨h', t', e, H', hp', ho'⟩ := insert_spec cmp H d hlen (fuel := t.length + fuel) (by omega)
    obtain ⟨g, eg, Hg, hgm⟩ := grow_spec H hlen hfu
    obtain ⟨g', eg', Hg', hgm'⟩ := grow_spec H hlen (fuel := t.length + fuel) (by omega)
    have egg : g = g' := by
      unfold grow at eg eg'
      split at eg
      · rename_i hfull
        rw [if_pos hfull] at eg'
        obtain ⟨m, em, eg⟩ := Res.bind_eq_ok.1 eg
        obtain ⟨m', em', eg'⟩ := Res.bind_eq_ok.1 eg'
        have : m = m' := growLoop_det em em'
        subst this
        rw [eg] at eg'; cases eg'; rfl
      · rename_i hfull
        rw [if_neg hfull] at eg'
        rw [← Res.ok.inj eg, ← Res.ok.inj eg']
    refine ⟨h', t', H', fun hx => ho' hx (ho hx), ?_, ?_⟩
    · refine List.Perm.trans ?_ hp
      exact ((hp'.append_right _).trans List.perm_middle.symm).trans (hpt.symm.append_left t)
    · refine ⟨?_, ⟨.grow d, ds⟩, t.length + fuel, ?_, by simp, ?_⟩
      · intro j th hj hth
        rw [List.getElem?_set_ne (Ne.symm hj)] at hth
        exact hidle th (List.mem_of_getElem? hth)
      · rw [List.getElem?_set_self (List.getElem?_eq_some_iff.1 h).1]
      · unfold insert at e
        simp only [finish]
        rw [eg, egg, ← eg']
        exact e
  | @work i pc pc' ds h' h hin hmic =>
    cases hown : s.owner with
    | none =>
      rw [hown] at hm
      have := hm.2 _ (List.mem_of_getElem? h)
      simp only at this
      subst this; cases hin
    | some k =>
      rw [hown] at hm
      obtain ⟨hoth, th, n, hth, -, hfin⟩ := hm
      have hki : i = k := by
        by_cases hik : i = k
        · exact hik
        · have := hoth i _ hik h
          simp only at this
          subst this; cases hin
      subst hki
      rw [h] at hth; cases hth
      obtain ⟨q, hq, e1, e2, n', e3⟩ := micro_finish hin hfin
      rw [hmic] at e1
      cases e1
      refine ⟨h1, t, H, ho, ?_, ?_⟩
      · refine List.Perm.trans ?_ hp
        exact .of_eq (congrArg (t ++ ·) (pending_set h rfl))
      · simp only [hown]
        refine ⟨?_, ⟨pc', ds⟩, n', ?_, e2, e3⟩
        · intro j th hj hth
          rw [List.getElem?_set_ne (Ne.symm hj)] at hth
          exact hoth j th hj hth
        · rw [List.getElem?_set_self (List.getElem?_eq_some_iff.1 h).1]
  | fail _ hx _ => cases hx
  | @unlock i ds h =>
    cases hown : s.owner with
    | none =>
      rw [hown] at hm
      have := hm.2 _ (List.mem_of_getElem? h)
      cases this
    | some k =>
      rw [hown] at hm
      obtain ⟨hoth, th, n, hth, -, hfin⟩ := hm
      have hki : i = k := by
        by_cases hik : i = k
        · exact hik
        · have := hoth i _ hik h
          cases this
      subst hki
      rw [h] at hth; cases hth
      cases hfin
      refine ⟨_, t, H, ho, ?_, rfl, ?_⟩
      · refine List.Perm.trans ?_ hp
        exact .of_eq (congrArg (t ++ ·) (pending_set h rfl))
      · intro th hth
        obtain ⟨j, hj, e⟩ := List.getElem_of_mem hth
        by_cases hji : j = i
        · subst hji
          rw [List.getElem_set_self] at e
          rw [← e]
        · rw [List.getElem_set_ne (Ne.symm hji)] at e
          exact hoth j th hji (by rw [← e]; exact List.getElem?_eq_getElem _)

theorem good_exec {cmp : α → α → Int} {fuel : Nat} {all : List α} (hl : all.length ≤ 2 ^ 31) (hfu : 32 ≤ fuel) {s s' : St α}
    (hs : Good cmp fuel all s) (he : Exec cmp fuel false s s') : Good cmp fuel all s' := by
  induction he with
  | refl => exact hs
  | step _ h ih => exact good_step hl hfu ih h

theorem good_start {cmp : α → α → Int} {h : Heap α} {t : List α} (H : Holds h t) (ho : IsOrder cmp → HeapOrd cmp t) (fuel : Nat) (ls : List (List α)) :
    Good cmp fuel (t ++ ls.flatten) (start h ls) := by
  refine ⟨h, t, H, ho, ?_, rfl, ?_⟩
  · have : pending (start h ls).ths = ls.flatten := by
      show (ls.map _).flatMap _ = _
      rw [List.flatMap_map, List.flatMap_def]
      exact congrArg List.flatten (List.map_id ls)
    rw [this]
  · intro th hth
    simp only [start, List.mem_map] at hth
    obtain ⟨l, -, rfl⟩ := hth
    rfl

/-! ## C103 -/

/-- C103: whatever the schedule, threads that insert into one heap do nothing undefined, and as long as not all have finished one of them can go on. -/
theorem shared_insert_safe {cmp : α → α → Int} {fuel : Nat} {h : Heap α} {t : List α} (H : Holds h t)
    (ho : IsOrder cmp → HeapOrd cmp t) {ls : List (List α)} (hl : (t ++ ls.flatten).length ≤ 2 ^ 31) (hfu : 32 ≤ fuel) {s : St α}
    (he : Exec cmp fuel false (start h ls) s) : ¬ Undefined cmp fuel s ∧ (Finished s ∨ ∃ s', Step cmp fuel false s s') := by
  obtain ⟨h1, u, Hu, hou, hp, hm⟩ := (good_exec hl hfu (good_start H ho fuel ls) he).main
  cases hown : s.owner with
  | none =>
    rw [hown] at hm
    obtain ⟨-, hidle⟩ := hm
    refine ⟨?_, ?_⟩
    · rintro ⟨i, pc, ds, h, hu⟩
      have := hidle _ (List.mem_of_getElem? h)
      simp only at this
      subst this
      exact hu _ rfl
    · by_cases hfin : Finished s
      · exact .inl hfin
      · right
        simp only [Finished, Classical.not_forall] at hfin
        obtain ⟨⟨pc, todo⟩, hth, hn⟩ := hfin
        have hpc := hidle _ hth
        simp only at hpc
        subst hpc
        cases todo with
        | nil => exact absurd ⟨rfl, rfl⟩ hn
        | cons d ds =>
          obtain ⟨i, hi, e⟩ := List.getElem_of_mem hth
          exact ⟨_, .lock (i := i) (d := d) (ds := ds) (by rw [← e]; exact List.getElem?_eq_getElem hi) hown⟩
  | some i =>
    rw [hown] at hm
    obtain ⟨hoth, ⟨pc, ds⟩, n, hth, hne, hfin⟩ := hm
    simp only at hne hfin
    refine ⟨?_, .inr ?_⟩
    · rintro ⟨j, pc', ds', h, hu⟩
      by_cases hj : j = i
      · subst hj
        rw [hth] at h; cases h
        by_cases hin : pc.inside = true
        · obtain ⟨q, hq, e, -⟩ := micro_finish hin hfin
          exact hu _ e
        · cases pc <;> first | exact hu _ rfl | exact hin rfl
      · have := hoth j _ hj h
        simp only at this
        subst this
        exact hu _ rfl
    · by_cases hin : pc.inside = true
      · obtain ⟨q, hq, e, -⟩ := micro_finish hin hfin
        exact ⟨_, .work hth hin e⟩
      · have : pc = .leave := by
          cases pc <;> first | rfl | exact absurd rfl hne | exact absurd rfl hin
        subst this
        exact ⟨_, .unlock hth⟩

/-- C103: when all have finished, the heap shows exactly the data of all threads and its mutex is free; for an order, extracting returns them all, the largest first. -/
theorem shared_insert_all {cmp : α → α → Int} {fuel : Nat} {h : Heap α} {t : List α} (H : Holds h t)
    (ho : IsOrder cmp → HeapOrd cmp t) {ls : List (List α)} (hl : (t ++ ls.flatten).length ≤ 2 ^ 31) (hfu : 32 ≤ fuel) {s : St α}
    (he : Exec cmp fuel false (start h ls) s) (hfin : Finished s) :
    s.owner = none ∧ Shows s.heap (t ++ ls.flatten) ∧ (IsOrder cmp → ∀ fuel', (t ++ ls.flatten).length + 32 ≤ fuel' →
      ∃ h outs, run cmp fuel' s.heap (List.replicate (t ++ ls.flatten).length .ext) = .ok (h, outs) ∧ (outs.filterMap id).Perm (t ++ ls.flatten) ∧
        (outs.filterMap id).Pairwise (fun x y => cmp y x ≤ 0)) := by
  obtain ⟨h1, u, Hu, hou, hp, hm⟩ := (good_exec hl hfu (good_start H ho fuel ls) he).main
  have hpend : pending s.ths = [] := by
    unfold pending
    rw [List.flatMap_eq_nil_iff]
    exact fun th hth => (hfin th hth).2
  rw [hpend, List.append_nil] at hp
  cases hown : s.owner with
  | some i =>
    rw [hown] at hm
    obtain ⟨-, th, n, hth, hne, -⟩ := hm
    exact absurd (hfin th (List.mem_of_getElem? hth)).1 hne
  | none =>
    rw [hown] at hm
    obtain ⟨rfl, -⟩ := hm
    refine ⟨rfl, holds_shows Hu hp, fun hord fuel' hf' => ?_⟩
    have hlen := hp.length_eq
    have hins : inserted (List.replicate (t ++ ls.flatten).length (Op.ext : Op α)) = [] := inserted_map_ins [] _
    obtain ⟨h, outs, b', e, hb, -⟩ := run_from cmp hord (List.replicate (t ++ ls.flatten).length .ext) s.heap u (t ++ ls.flatten) fuel' Hu (hou hord) hp
      (by rw [hins]; simp only [List.length_nil]; omega) (by rw [hins]; simp only [List.length_nil]; omega)
    obtain ⟨b1, -, b3, b4⟩ := bag_drain_sorted cmp _ _ _ _ hb
    have : b' = [] := List.length_eq_zero_iff.1 (by omega)
    subst this
    rw [List.append_nil] at b3
    exact ⟨h, outs, e, b3.symm, b1⟩

/-- After a failure no thread can go on. -/
theorem good_fail {cmp : α → α → Int} {fuel : Nat} {s : St α} {i : Nat} {d : α} {ds : List α} {all : List α}
    (hg : Good cmp fuel all s) (h : s.ths[i]? = some ⟨.grow d, ds⟩) :
    ∀ s', ¬ Step cmp fuel true { s with heap := { s.heap with cells := [] }, ths := s.ths.set i ⟨.idle, ds⟩ } s' := by
  obtain ⟨h1, t, H, ho, hp, hm⟩ := hg.main
  cases hown : s.owner with
  | none =>
    rw [hown] at hm
    have := hm.2 _ (List.mem_of_getElem? h)
    cases this
  | some k =>
    rw [hown] at hm
    obtain ⟨hoth, -⟩ := hm
    have hki : i = k := by
      by_cases hik : i = k
      · exact hik
      · have := hoth i _ hik h
        cases this
    subst hki
    have hidle : ∀ (j : Nat) (th : Th α), (s.ths.set i ⟨.idle, ds⟩)[j]? = some th → th.pc = .idle := by
      intro j th hth
      by_cases hj : j = i
      · subst hj
        rw [List.getElem?_set_self (List.getElem?_eq_some_iff.1 h).1] at hth
        cases hth; rfl
      · rw [List.getElem?_set_ne (Ne.symm hj)] at hth
        exact hoth j th hj hth
    intro s' hs
    cases hs with
    | lock _ ho => simp [hown] at ho
    | work h' hin _ =>
      have := hidle _ _ h'
      simp only at this
      subst this; cases hin
    | fail h' _ _ => cases hidle _ _ h'
    | unlock h' => cases hidle _ _ h'

theorem good_exec_fails {cmp : α → α → Int} {fuel : Nat} {all : List α} (hl : all.length ≤ 2 ^ 31) (hfu : 32 ≤ fuel) {s s' : St α}
    (hs : Good cmp fuel all s) (he : Exec cmp fuel true s s') : Good cmp fuel all s' ∨ ∀ s'', ¬ Step cmp fuel true s' s'' := by
  induction he with
  | refl => exact .inl hs
  | step _ h ih =>
    rcases ih with hg | hstuck
    · cases h with
      | lock h ho => exact .inl (good_step hl hfu hg (.lock h ho))
      | work h hi hm => exact .inl (good_step hl hfu hg (.work h hi hm))
      | unlock h => exact .inl (good_step hl hfu hg (.unlock h))
      | fail h _ _ => exact .inr (good_fail hg h)
    · exact absurd h (hstuck _)

/-- C103 is false of the code when an allocation fails: whenever a thread finds the array full the allocation may fail, and then the mutex is not released, so no thread,
the one that failed included, ever gets into the heap again. -/
theorem failed_insert_blocks {cmp : α → α → Int} {fuel : Nat} {h : Heap α} {t : List α} (H : Holds h t)
    (ho : IsOrder cmp → HeapOrd cmp t) {ls : List (List α)} (hl : (t ++ ls.flatten).length ≤ 2 ^ 31) (hfu : 32 ≤ fuel) {s : St α}
    (he : Exec cmp fuel true (start h ls) s) {i : Nat} {d : α} {ds : List α} (hi : s.ths[i]? = some ⟨.grow d, ds⟩) (hfull : s.heap.max ≤ s.heap.count) :
    ∃ s', Step cmp fuel true s s' ∧ s'.ths[i]? = some ⟨.idle, ds⟩ ∧ ∀ s'', ¬ Step cmp fuel true s' s'' := by
  refine ⟨_, .fail hi rfl hfull, List.getElem?_set_self (List.getElem?_eq_some_iff.1 hi).1, ?_⟩
  rcases good_exec_fails hl hfu (good_start H ho fuel ls) he with hg | hstuck
  · exact good_fail hg hi
  · exact absurd (.fail hi rfl hfull) (hstuck _)

/-- Such a state is reached: two threads, a full heap. -/
example : ∃ (h : Heap Nat) (s : St Nat), Holds h [5] ∧ Exec (fun _ _ => 0) 32 true (start h [[1], [2]]) s ∧ s.ths[0]? = some ⟨.grow 1, []⟩ ∧ s.heap.max ≤ s.heap.count :=
  ⟨⟨[some 5], 1, 1⟩, _, ⟨⟨by decide, fun i hi => by have : i = 0 := (by simp at hi; exact hi); subst this; rfl⟩, rfl, rfl, by decide, by decide⟩,
    .step (.refl _) (.lock (i := 0) (d := 1) (ds := []) rfl rfl), rfl, by decide⟩

/-- Threads can finish. -/
example : ∃ (s : St Nat), Exec (fun _ _ => 0) 32 false (start ⟨[some 5, none], 1, 2⟩ [[1], []]) s ∧ Finished s :=
  ⟨_, .step (.step (.step (.step (.step (.step (.refl _) (.lock (i := 0) (d := 1) (ds := []) rfl rfl)) (.work (i := 0) (ds := []) rfl rfl rfl))
    (.work (i := 0) (ds := []) rfl rfl rfl)) (.work (i := 0) (ds := []) rfl rfl rfl)) (.work (i := 0) (ds := []) rfl rfl rfl)) (.unlock (i := 0) (ds := []) rfl),
    by intro th hth; simp [start] at hth; rcases hth with rfl | rfl <;> exact ⟨rfl, rfl⟩⟩

end Verif.Heap
