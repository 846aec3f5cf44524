import Verif.Pool.Props

/-!
# Tasks are begun in the order of their submission (C89)
-/

namespace Verif.Pool

/-- What has been submitted is what has been begun, and then the queue. -/
def Ordered (s : St τ) : Prop := submits s.evs = begins s.evs ++ s.list.filterMap id

theorem ordered_enter {s : St τ} (h : Ordered s) (i nb : Nat) : Ordered (enter s i nb) := by
  unfold Ordered at *
  rcases enter_cases s i nb with ⟨_, he⟩ | ⟨_, _, he⟩ | ⟨_, _, t, l', hl, _, he⟩ | ⟨_, _, hl, _, he⟩ | ⟨_, _, hl, _, he⟩
  · rw [he]; exact h
  · rw [he]; exact h
  · rw [he]
    simp only [submits, begins, List.filterMap_append, List.filterMap_cons, List.filterMap_nil, List.append_nil] at h ⊢
    rw [h, hl]; simp
  · rw [he]; simp only; rw [h, hl]; rfl
  · rw [he]; simp only; rw [h, hl]; rfl

theorem ordered_step {s s' : St τ} (hi : Inv s) (h : Ordered s) (hs : Step s s') : Ordered s' := by
  cases hs with
  | first hw => exact ordered_enter h _ _
  | relock hw => exact ordered_enter h _ _
  | resume hw => exact ordered_enter h _ _
  | fin hw => unfold Ordered at *; simp only [submits, begins, List.filterMap_append, List.filterMap_cons, List.filterMap_nil, List.append_nil] at h ⊢; exact h
  | @add d ps h1 hp =>
    unfold Ordered at *
    cases d with
    | none => simp only [submitEv, submits, begins, List.filterMap_append, List.filterMap_nil, List.append_nil, List.filterMap_cons, id] at h ⊢; exact h
    | some t =>
      simp only [submitEv, submits, begins, List.filterMap_append, List.filterMap_nil, List.append_nil, List.filterMap_cons, id] at h ⊢
      rw [h]; simp
  | signal h1 hw => exact h
  | signalNone h1 hw => exact h
  | waitNone h1 hp hn =>
    unfold Ordered at *
    have hl : s.list = [] := by
      have := hi.len
      rw [Nat.mod_eq_of_lt (by omega)] at hn
      exact List.eq_nil_of_length_eq_zero hn.1
    rw [hl] at h
    simp only [submits, begins, List.filterMap_append, List.filterMap_cons, List.filterMap_nil, List.append_nil] at h ⊢; exact h
  | wait h1 hp hn => exact h
  | waitEnd h1 =>
    unfold Ordered at *
    have hl : s.list = [] := hi.endE (hi.woken h1).1
    rw [hl] at h
    simp only [submits, begins, List.filterMap_append, List.filterMap_cons, List.filterMap_nil, List.append_nil] at h ⊢; exact h
  | shutdown h1 hp =>
    unfold Ordered at *
    simp only [submits, begins, List.filterMap_append, List.filterMap_cons, List.filterMap_nil, List.append_nil] at h ⊢; exact h
  | join h1 hw => exact h
  | joined h1 hw => exact h

/-- **C89.**  At every moment of every execution, with any number of workers and spurious wake-ups, the tasks that have been begun are the first of
those submitted, in the order of their submission. -/
theorem begun_in_order {n : Nat} {prog : List (Op τ)} (hp : Proper prog) {a b : Nat} {s : St τ} (e : Exec a b (init n prog) s) :
    begins s.evs <+: submits s.evs ∧ submits s.evs <+: tasksOf prog := by
  have key : ∀ {a b : Nat} {s s' : St τ}, Exec a b s s' → Inv s → Ordered s → Ordered s' := by
    intro a b s s' e hi ho
    induction e with
    | refl s => exact ho
    | step e' hs ih => exact ordered_step (inv_exec e' hi) (ih hi ho) hs
    | spurious e' hs ih => cases hs with | mk hw => exact ih hi ho
  have h := key e (inv_init n prog hp.last hp.few) (show Ordered (init n prog) from rfl)
  refine ⟨⟨_, h.symm⟩, ?_⟩
  obtain ⟨l, hl⟩ := (no_task_twice hp e).2.2
  exact ⟨l, hl⟩

/-- An execution in which one of two submitted tasks has been begun. -/
example : ∃ a b s, Exec a b (init 2 [.add (some 1), .add (some 2), .wait]) s ∧ begins s.evs = [1] ∧ submits s.evs = [1, 2] := by
  have e1 := Exec.step (.refl (init 2 [Op.add (some 1), .add (some 2), .wait])) (.add rfl rfl)
  have e2 := Exec.step e1 (.signalNone rfl (by decide))
  have e3 := Exec.step e2 (.first (i := 1) rfl)
  have e4 := Exec.step e3 (.add rfl rfl)
  exact ⟨_, _, _, e4, by decide, by decide⟩

end Verif.Pool
