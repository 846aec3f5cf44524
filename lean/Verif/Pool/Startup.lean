import Verif.Pool.Props

/-!
# Starting the workers can fail (C100)

`napr_threadpool_init` (napr_threadpool.c L203-243) creates the workers one after the other and returns at the first failure without
stopping those it has created.  Its caller `dispatch_hashing_tasks` (ft_process.c L190-195) returns the error, and `ft_process_files`
(L115-118) destroys the memory pool in which the thread pool, its mutex and its condition variable live.

One transition is what a thread does from acquiring the mutex to releasing it, as in `Pool/Model.lean`.  A thread that has not left its loop
will use the mutex (or is inside `apr_thread_cond_wait` on the condition variable): if the memory is gone by then, that is undefined behaviour.
-/

namespace Verif.Pool.Startup

/-- Where the creating thread is: in the loop L234-240; returned with an error; the memory has been destroyed (ft_process.c L116); returned with
success. -/
inductive Main where
  | creating | failed | destroyed | ready
  deriving DecidableEq

/-- The workers created so far and the creating thread. -/
structure St (τ : Type) where
  ws : List (W τ)
  nbWaiting : Nat
  main : Main

/-- L208-232: nothing created yet. -/
def start (τ : Type) : St τ := ⟨[], 0, .creating⟩

/-- A worker runs its loop (L388-398) with the mutex held: the list is empty and neither `run` nor `ended` nor `shutdown` is set, as no other call has
been made on the pool. -/
def enter (n : Nat) (s : St τ) (i nb : Nat) : St τ :=
  match loop (τ := τ) n nb false false false [] with
  | (.sleep _, _) => { s with ws := s.ws.set i .blocked, nbWaiting := nb + 1 }
  | (.busy t, _) => { s with ws := s.ws.set i (.busy t), nbWaiting := nb }
  | (.done, _) => { s with ws := s.ws.set i .done, nbWaiting := nb }

/-- One step, for a pool of `n` workers. -/
inductive Step (n : Nat) : St τ → St τ → Prop
  /-- L235: a thread is created. -/
  | create {s : St τ} (h : s.main = .creating) (hn : s.ws.length < n) : Step n s { s with ws := s.ws ++ [.start] }
  /-- L236-239: it cannot be created. -/
  | fail {s : St τ} (h : s.main = .creating) (hn : s.ws.length < n) : Step n s { s with main := .failed }
  /-- L242: all are created. -/
  | ready {s : St τ} (h : s.main = .creating) (hn : n ≤ s.ws.length) : Step n s { s with main := .ready }
  /-- ft_process.c L190-195 and L115-118. -/
  | destroy {s : St τ} (h : s.main = .failed) : Step n s { s with main := .destroyed }
  /-- L381-398: a new worker locks the mutex. -/
  | first {s : St τ} {i : Nat} (hm : s.main ≠ .destroyed) (h : s.ws[i]? = some .start) : Step n s (enter n s i s.nbWaiting)
  /-- A worker returns from `apr_thread_cond_wait` without a reason. -/
  | spurious {s : St τ} {i : Nat} (hm : s.main ≠ .destroyed) (h : s.ws[i]? = some .blocked) : Step n s { s with ws := s.ws.set i .woken }
  /-- L366-371: a woken worker gets the mutex. -/
  | resume {s : St τ} {i : Nat} (hm : s.main ≠ .destroyed) (h : s.ws[i]? = some .woken) : Step n s (enter n s i (s.nbWaiting - 1))

/-- Executions from the start of `napr_threadpool_init`. -/
inductive Exec (n : Nat) : St τ → Prop
  | start : Exec n (start τ)
  | step {s s' : St τ} : Exec n s → Step n s s' → Exec n s'

/-- The behaviour is undefined: the memory is gone and a thread is left that uses it. -/
def Undefined (s : St τ) : Prop := s.main = .destroyed ∧ ∃ w ∈ s.ws, w ≠ .done

theorem enter_eq (n : Nat) (s : St τ) (i nb : Nat) : enter n s i nb = { s with ws := s.ws.set i .blocked, nbWaiting := nb + 1 } := by
  simp [enter, loop]

/-- No worker leaves its loop before the pool is shut down. -/
theorem none_done {n : Nat} {s : St τ} (e : Exec n s) : ∀ w ∈ s.ws, w ≠ .done := by
  induction e with
  | start => simp [start]
  | step _ hs ih =>
    cases hs with
    | create _ _ =>
      intro w hw
      rcases List.mem_append.1 hw with h | h
      · exact ih w h
      · simp at h; subst h; simp
    | fail _ _ => exact ih
    | ready _ _ => exact ih
    | destroy _ => exact ih
    | first _ _ =>
      rw [enter_eq]; intro w hw
      rcases List.mem_or_eq_of_mem_set hw with h | h
      · exact ih w h
      · subst h; simp
    | spurious _ _ =>
      intro w hw
      rcases List.mem_or_eq_of_mem_set hw with h | h
      · exact ih w h
      · subst h; simp
    | resume _ _ =>
      rw [enter_eq]; intro w hw
      rcases List.mem_or_eq_of_mem_set hw with h | h
      · exact ih w h
      · subst h; simp

theorem failed_below {n : Nat} {s : St τ} (e : Exec n s) : (s.main = .failed ∨ s.main = .destroyed → s.ws.length < n) ∧ s.ws.length ≤ n := by
  induction e with
  | start => simp [start]
  | step _ hs ih =>
    cases hs with
    | create h hn => simp; exact ⟨fun hm => by simp [h] at hm, by omega⟩
    | fail h hn => simp [hn]; exact ih.2
    | ready h hn => exact ⟨fun hm => by simp at hm, ih.2⟩
    | destroy h => exact ⟨fun _ => ih.1 (.inl h), ih.2⟩
    | first _ _ => rw [enter_eq]; simpa using ih
    | spurious _ _ => simpa using ih
    | resume _ _ => rw [enter_eq]; simpa using ih

/-- **C100, refuted.**  For every size of the pool and every schedule: when the memory is destroyed after a failure, every worker created before is
still there, so the behaviour is undefined as soon as one had been created. -/
theorem failed_start_undefined {n : Nat} {s : St τ} (e : Exec n s) (hd : s.main = .destroyed) :
    (∀ w ∈ s.ws, w ≠ .done) ∧ (Undefined s ↔ s.ws ≠ []) := by
  refine ⟨none_done e, fun h => ?_, fun h => ⟨hd, ?_⟩⟩
  · obtain ⟨_, w, hw, _⟩ := h
    exact List.ne_nil_of_mem hw
  · obtain ⟨w, hw⟩ := List.exists_mem_of_ne_nil _ h
    exact ⟨w, hw, none_done e w hw⟩

/-- The failure can happen after any number of workers less than asked for. -/
theorem failure_after (τ : Type) (n k : Nat) (hk : k < n) : ∃ s : St τ, Exec n s ∧ s.main = .destroyed ∧ s.ws.length = k := by
  have h : ∀ j, j ≤ k → Exec n (⟨List.replicate j .start, 0, .creating⟩ : St τ) := by
    intro j hj
    induction j with
    | zero => exact .start
    | succ j ih =>
      have := Exec.step (ih (by omega)) (.create rfl (by simp; omega))
      simpa [List.replicate_succ'] using this
  refine ⟨⟨List.replicate k .start, 0, .destroyed⟩, ?_, rfl, by simp⟩
  exact .step (.step (h k (Nat.le_refl k)) (.fail rfl (by simpa using hk))) (.destroy rfl)

/-- **C100, the part that holds.**  If already the first worker cannot be created, no thread is left: the error is all that remains.  If no creation fails
the pool starts with all its workers. -/
theorem failed_start_partial {n : Nat} {s : St τ} (e : Exec n s) :
    (s.main = .destroyed → s.ws = [] → ¬ Undefined s ∧ ∀ s', ¬ Step n s s') ∧ (s.main = .ready → s.ws.length = n) := by
  refine ⟨fun hd h0 => ⟨?_, ?_⟩, ?_⟩
  · rintro ⟨_, w, hw, _⟩; rw [h0] at hw; simp at hw
  · intro s' hs
    cases hs with
    | create h _ => rw [hd] at h; simp at h
    | fail h _ => rw [hd] at h; simp at h
    | ready h _ => rw [hd] at h; simp at h
    | destroy h => rw [hd] at h; simp at h
    | first hm _ => exact hm hd
    | spurious hm _ => exact hm hd
    | resume hm _ => exact hm hd
  · have key : n ≥ s.ws.length ∧ (s.main = .ready → n ≤ s.ws.length) := by
      refine ⟨(failed_below e).2, ?_⟩
      induction e with
      | start => simp [start]
      | step _ hs ih =>
        cases hs with
        | create h hn => intro hm; simp [h] at hm
        | fail h hn => intro hm; simp at hm
        | ready h hn => intro _; exact hn
        | destroy h => intro hm; simp at hm
        | first _ _ => rw [enter_eq]; simpa using ih
        | spurious _ _ => simpa using ih
        | resume _ _ => rw [enter_eq]; simpa using ih
    intro hr; have := key.2 hr; omega

/-- A failure after one of two workers, which has gone to sleep meanwhile. -/
example : ∃ s : St Nat, Exec 2 s ∧ s.ws = [.blocked] ∧ Undefined s := by
  have e1 : Exec 2 (⟨[.start], 0, .creating⟩ : St Nat) := .step .start (.create rfl (by decide))
  have e2 := Exec.step e1 (.first (i := 0) (by decide) rfl)
  rw [enter_eq] at e2
  have e3 := Exec.step e2 (.fail rfl (by decide))
  have e4 := Exec.step e3 (.destroy rfl)
  exact ⟨_, e4, rfl, rfl, .blocked, by simp, by simp⟩

end Verif.Pool.Startup
