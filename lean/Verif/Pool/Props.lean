import Verif.Pool.Live

/-! # Property theorems for the thread pool (C08, C09, C10, C68) -/

set_option linter.unusedSimpArgs false

namespace Verif.Pool

variable {τ : Type}

/-- The events that calls of the submitter leave; the others are those of the workers. -/
def Ev.isCall : Ev τ → Bool
  | .submit _ => true | .waited => true | .stop => true | _ => false

/-- The calls a program makes, as events (a NULL datum is no task). -/
def callsOf : List (Op τ) → List (Ev τ)
  | [] => []
  | .add (some t) :: ps => .submit t :: callsOf ps
  | .add none :: ps => callsOf ps
  | .wait :: ps => .waited :: callsOf ps
  | .shutdown :: ps => .stop :: callsOf ps

/-- The tasks a program submits. -/
def tasksOf (prog : List (Op τ)) : List τ := submits (callsOf prog)

/-- Programs that use the pool as intended: nothing follows a shutdown, and fewer than 2^32 tasks are submitted. -/
structure Proper (prog : List (Op τ)) : Prop where
  last : ShutLast prog
  few : adds prog < 2 ^ 32

/-- All calls have returned. -/
def Finished (s : St τ) : Prop := s.sub = .idle ∧ s.prog = []

/-- The call of `wait` in progress. -/
def pending (s : Sub) : List (Ev τ) := if s = .waiting ∨ s = .woken then [.waited] else []

/-- What the trace says about the calls made so far. -/
structure Calls (prog : List (Op τ)) (s : St τ) : Prop where
  order : s.evs.filter Ev.isCall ++ (pending s.sub ++ callsOf s.prog) = callsOf prog
  stops : .shutdown ∈ prog → .shutdown ∈ s.prog ∨ s.shut = true

theorem calls_enter {prog : List (Op τ)} {s : St τ} (h : Calls prog s) (i nb : Nat) : Calls prog (enter s i nb) := by
  rcases enter_cases s i nb with ⟨hs, he⟩ | ⟨hs, hen, he⟩ | ⟨hs, hen, t, l', hl, hlen, he⟩ | ⟨hs, hen, hl, hb, he⟩ | ⟨hs, hen, hl, hb, he⟩
  · rw [he]; exact ⟨h.order, h.stops⟩
  · rw [he]; exact ⟨h.order, h.stops⟩
  · rw [he]; refine ⟨?_, h.stops⟩
    have := h.order; simp only [List.filter_append]; simpa [Ev.isCall] using this
  · rw [he]; refine ⟨?_, h.stops⟩
    have := h.order
    simp only at this ⊢
    cases hsub : s.sub <;> rw [hsub] at this <;> simpa [unblockSub, pending] using this
  · rw [he]; exact ⟨h.order, h.stops⟩

theorem calls_step {prog : List (Op τ)} {s s' : St τ} (h : Calls prog s) (hs : Step s s') : Calls prog s' := by
  have ho := h.order
  have hst := h.stops
  cases hs with
  | first hw => exact calls_enter h _ _
  | relock hw => exact calls_enter h _ _
  | resume hw => exact calls_enter h _ _
  | fin hw =>
    refine ⟨?_, h.stops⟩
    simp only [List.filter_append]; simpa [Ev.isCall] using ho
  | @add d ps hsub hp =>
    rw [hp] at ho hst; rw [hsub] at ho
    refine ⟨?_, ?_⟩
    · cases d <;> simp [submitEv, callsOf, pending, Ev.isCall, List.filter_cons] at ho ⊢ <;> exact ho
    · intro hm; have := hst hm; simp at this; exact this
  | signal hsub hw => rw [hsub] at ho; exact ⟨by simpa [pending] using ho, h.stops⟩
  | signalNone hsub hw => rw [hsub] at ho; exact ⟨by simpa [pending] using ho, h.stops⟩
  | @waitNone ps hsub hp hn =>
    rw [hp] at ho hst; rw [hsub] at ho
    refine ⟨?_, ?_⟩
    · simp [callsOf, pending, Ev.isCall, hsub] at ho ⊢; exact ho
    · intro hm; have := hst hm; simp at this; exact this
  | @wait ps hsub hp hn =>
    rw [hp] at ho hst; rw [hsub] at ho
    refine ⟨?_, ?_⟩
    · simp [callsOf, pending] at ho ⊢; exact ho
    · intro hm; have := hst hm; simp at this; exact this
  | waitEnd hsub =>
    rw [hsub] at ho
    refine ⟨?_, h.stops⟩
    simp [pending, Ev.isCall] at ho ⊢; exact ho
  | @shutdown ps hsub hp =>
    rw [hp] at ho; rw [hsub] at ho
    refine ⟨?_, fun _ => Or.inr rfl⟩
    simp [callsOf, pending, Ev.isCall] at ho ⊢; exact ho
  | join hsub hw => rw [hsub] at ho; exact ⟨by simpa [pending] using ho, h.stops⟩
  | joined hsub hw => rw [hsub] at ho; exact ⟨by simpa [pending] using ho, h.stops⟩

theorem calls_exec {prog : List (Op τ)} {a b : Nat} {s s' : St τ} (e : Exec a b s s') (h : Calls prog s) : Calls prog s' := by
  induction e with
  | refl s => exact h
  | step _ hs ih => exact calls_step (ih h) hs
  | spurious _ hs ih => cases hs with | mk hw => exact ⟨(ih h).order, (ih h).stops⟩

theorem calls_init (n : Nat) (prog : List (Op τ)) : Calls prog (init n prog) :=
  ⟨by simp [init, pending], fun h => Or.inl h⟩

theorem submits_filter (l : List (Ev τ)) : submits (l.filter Ev.isCall) = submits l := by
  induction l with
  | nil => rfl
  | cons e l ih =>
    cases e <;> simp [Ev.isCall, submits, List.filterMap_cons, List.filter_cons] at ih ⊢ <;> exact ih

/-- **C08.** Whenever `wait` returns, in any execution with any number of workers, the tasks submitted up to then
have all been begun and finished, each exactly as often as it was submitted. -/
theorem wait_returns_after_all_tasks {n : Nat} {prog : List (Op τ)} (hp : Proper prog) {a b : Nat} {s : St τ} (e : Exec a b (init n prog) s)
    (pre post : List (Ev τ)) (hw : s.evs = pre ++ .waited :: post) :
    (submits pre).Perm (begins pre) ∧ (submits pre).Perm (fins pre) := by
  have := (inv_exec e (inv_init n prog hp.last hp.few)).waited pre post hw
  exact ⟨this.2, this.1⟩

/-- **C08.** At every moment, what has been begun is part of what has been submitted, and what has been finished is part of what has been
begun: no task is executed twice, and nothing else is executed. -/
theorem no_task_twice {n : Nat} {prog : List (Op τ)} (hp : Proper prog) {a b : Nat} {s : St τ} (e : Exec a b (init n prog) s) :
    (∃ l, (submits s.evs).Perm (begins s.evs ++ l)) ∧ (∃ l, (begins s.evs).Perm (fins s.evs ++ l)) ∧
    ∃ l, submits s.evs ++ l = tasksOf prog := by
  have h := inv_exec e (inv_init n prog hp.last hp.few)
  refine ⟨⟨_, h.perm1⟩, ⟨_, h.perm2⟩, ?_⟩
  have := congrArg submits (calls_exec e (calls_init n prog)).order
  rw [submits_append, submits_filter] at this
  exact ⟨_, this⟩

/-- **C09.** With at least one worker, as long as a call has not returned some thread can take a step. -/
theorem pool_cannot_deadlock {n : Nat} (hn : 1 ≤ n) {prog : List (Op τ)} (hp : Proper prog) {a b : Nat} {s : St τ}
    (e : Exec a b (init n prog) s) (hf : ¬ Finished s) : ∃ s', Step s s' := by
  have h := inv_init n prog hp.last hp.few
  exact progress (inv_exec e h) (live_exec e h (live_init hn prog)) hf

/-- A bound on the number of steps of a program with `n` workers. -/
def stepBound (n : Nat) (prog : List (Op τ)) : Nat :=
  2 * n + 1 + (prog.map (fun | .add _ => n + 6 | .wait => 3 | .shutdown => 2 * n + 2)).sum

/-- **C09.** No execution is longer than that, apart from spurious wake-ups, each of which costs at most one more step. -/
theorem pool_steps_bounded {n : Nat} {prog : List (Op τ)} {a b : Nat} {s : St τ} (e : Exec a b (init n prog) s) :
    a ≤ stepBound n prog + b := by
  have := exec_measure e
  have h0 : measure (init n prog) = stepBound n prog := by
    have hs : ∀ n, wsum (List.replicate n (W.start : W τ)) = n := by
      intro n
      induction n with
      | zero => rfl
      | succ n ih => rw [List.replicate_succ, wsum_cons, ih]; simp [W.weight]; omega
    have hpw : progWeight n prog = (prog.map (fun | .add _ => n + 6 | .wait => 3 | .shutdown => 2 * n + 2)).sum := by
      unfold progWeight
      congr 1
    simp only [measure, init, hs n, List.length_replicate, List.length_nil, Sub.weight, hpw, stepBound]
    simp; omega
  omega

/-- **C09.** An execution that cannot go on has made all the calls of the program, in order, and they have all returned. -/
theorem pool_completes {n : Nat} (hn : 1 ≤ n) {prog : List (Op τ)} (hp : Proper prog) {a b : Nat} {s : St τ} (e : Exec a b (init n prog) s)
    (hstuck : ¬ ∃ s', Step s s') : Finished s ∧ s.evs.filter Ev.isCall = callsOf prog := by
  have hf : Finished s := Classical.byContradiction (fun hf => hstuck (pool_cannot_deadlock hn hp e hf))
  have hc := (calls_exec e (calls_init n prog)).order
  rw [hf.1, hf.2] at hc
  simp [pending, callsOf] at hc
  exact ⟨hf, hc⟩

/-- **C10.** After a shutdown no task is begun, every task that was begun is finished by the time the call returns, and all workers have
left (that the call returns is `pool_cannot_deadlock` and `pool_steps_bounded`). -/
theorem shutdown_finishes_running_tasks {n : Nat} {prog : List (Op τ)} (hp : Proper prog) (hsd : .shutdown ∈ prog) {a b : Nat} {s : St τ}
    (e : Exec a b (init n prog) s) :
    (∀ pre post, s.evs = pre ++ .stop :: post → begins post = []) ∧
    (Finished s → (begins s.evs).Perm (fins s.evs) ∧ ∀ w ∈ s.ws, w = .done) := by
  have h := inv_exec e (inv_init n prog hp.last hp.few)
  refine ⟨h.stopped, ?_⟩
  intro hf
  have hc := (calls_exec e (calls_init n prog)).stops hsd
  rw [hf.2] at hc
  have hshut : s.shut = true := by simpa using hc
  have hall := h.joinAll hshut hf.1
  refine ⟨?_, hall⟩
  have h2 := h.perm2
  have : s.ws.filterMap W.task = [] := by
    rw [List.filterMap_eq_nil_iff]; intro w hw; rw [hall w hw]; rfl
  rw [this] at h2; simpa using h2

/-- **C68 fails.** If the platform wakes the submitter spuriously, `wait` returns with the task not executed, and the task is dropped. -/
theorem spurious_wakeup_loses_task : ∃ s : St Nat, ExecS (init 1 [.add (some 7), .wait]) s ∧ Finished s ∧
    submits s.evs = [7] ∧ begins s.evs = [] ∧ Ev.waited ∈ s.evs ∧ s.list = [] := by
  refine ⟨_, .step (.spuriousSub (.step (.step (.step (.refl _) (.add rfl rfl)) (.signalNone rfl ?_)) (.wait rfl rfl ?_)) (.mk rfl)) (.waitEnd rfl),
    ⟨rfl, rfl⟩, rfl, rfl, ?_, rfl⟩
  · simp [init]
  · simp [init]
  · simp

/-- Without workers `wait` hangs: the hypothesis on their number is needed. -/
theorem no_workers_hang : ∃ s : St Nat, Exec 3 0 (init 0 [.add (some 7), .wait]) s ∧ ¬ Finished s ∧ ¬ ∃ s', Step s s' := by
  refine ⟨_, .step (.step (.step (.refl _) (.add rfl rfl)) (.signalNone rfl ?_)) (.wait rfl rfl ?_), ?_, ?_⟩
  · simp [init]
  · simp [init]
  · rintro ⟨h, _⟩; cases h
  · rintro ⟨s', h⟩
    cases h <;> simp_all [init]

/-- Two workers, two tasks, a NULL datum, a wait and a shutdown. -/
def exProg : List (Op Nat) := [.add (some 1), .add none, .add (some 2), .wait, .shutdown]

example : Proper exProg ∧ Op.shutdown ∈ exProg ∧ tasksOf exProg = [1, 2] := ⟨⟨by simp [exProg, ShutLast], by simp [exProg, adds]⟩, by simp [exProg], rfl⟩

/-- An execution in which `wait` blocks and returns. -/
example : ∃ s : St Nat, Exec 7 0 (init 1 [.add (some 1), .wait]) s ∧ s.evs = [.submit 1, .begin 1, .fin 1] ++ .waited :: [] ∧ Finished s := by
  refine ⟨_, .step (.step (.step (.step (.step (.step (.step (.refl _) (.add rfl rfl)) (.signalNone rfl ?_)) (.first (i := 0) rfl))
    (.wait rfl rfl ?_)) (.fin (i := 0) (t := 1) rfl)) (.relock (i := 0) rfl)) (.waitEnd rfl), rfl, ⟨rfl, rfl⟩⟩
  · simp [init]
  · simp [init, enter, loop]

end Verif.Pool
