/-!
# Opening and closing a cache: the lock file (C58)

Model of the part of `napr_cache_open` and `napr_cache_close` that decides who may use a cache.  The
lock is taken with `apr_file_lock`, on POSIX systems a record lock of `fcntl`:

* it belongs to the process, so a process never finds its own lock in the way;
* it is gone as soon as the process closes or unlocks *any* descriptor of the file, or ends.

Several processes and threads run; a step of the model is one system call on the lock file or the
whole stretch of code between two of them.  All handles are on the same path.
-/

namespace Verif.Cache.Lock

/-- Which process holds the lock; the calls of `napr_cache_open` that have passed the lock and are
not done (`(call, process)`), and the handles that have been given out and not closed. -/
structure State where
  owner : Option Nat
  opening : List (Nat × Nat)
  live : List (Nat × Nat)

def State.init : State := ⟨none, [], []⟩

/-- `fcntl(F_SETLK)` by a process: `none` is `EAGAIN`. -/
def setLock (owner : Option Nat) (pid : Nat) : Option (Option Nat) :=
  if owner = none ∨ owner = some pid then some (some pid) else none

/-- The lock after `fcntl(F_UNLCK)` or a `close` by a process. -/
def dropLock (owner : Option Nat) (pid : Nat) : Option Nat := if owner = some pid then none else owner

/-- What happens, in order.  The number is that of the call of `napr_cache_open` (and so of its handle). -/
inductive Ev
  /-- napr_cache.c L78-82: the lock file cannot be opened. -/
  | noFile (id pid : Nat)
  /-- napr_cache.c L85-91: lock; if that fails, close the file and return. -/
  | lock (id pid : Nat)
  /-- napr_cache.c L98-112, L119-122, L125-129, then L135-146: a later step fails; unlock, close, return. -/
  | initFail (id pid : Nat)
  /-- napr_cache.c L131-133: the handle is given out. -/
  | initOk (id pid : Nat)
  /-- napr_cache.c L148-185 `napr_cache_close`: unlock and close, whatever the statuses. -/
  | close (id pid : Nat)
  /-- The process ends. -/
  | exit (pid : Nat)

/-- One event; `none`: it cannot happen in this state. -/
def step (s : State) : Ev → Option State
  | .noFile _ _ => some s
  | .lock id pid => match setLock s.owner pid with
    | none => some { s with owner := dropLock s.owner pid }
    | some o => some { s with owner := o, opening := (id, pid) :: s.opening }
  | .initFail id pid => if (id, pid) ∈ s.opening then
      some { s with owner := dropLock (dropLock s.owner pid) pid, opening := s.opening.erase (id, pid) } else none
  | .initOk id pid => if (id, pid) ∈ s.opening then
      some { s with opening := s.opening.erase (id, pid), live := (id, pid) :: s.live } else none
  | .close id pid => if (id, pid) ∈ s.live then
      some { s with owner := dropLock (dropLock s.owner pid) pid, live := s.live.erase (id, pid) } else none
  | .exit pid => some ⟨dropLock s.owner pid, s.opening.filter (·.2 ≠ pid), s.live.filter (·.2 ≠ pid)⟩

/-- Events one after the other. -/
def run (s : State) : List Ev → Option State
  | [] => some s
  | e :: es => match step s e with
    | none => none
    | some s => run s es

/-- The process has the cache open, or is opening it. -/
def State.uses (s : State) (pid : Nat) : Prop := ∃ id, (id, pid) ∈ s.opening ∨ (id, pid) ∈ s.live

/-- The discipline: a process opens the cache only while it neither has it open nor is opening it. -/
def Once (s : State) : List Ev → Prop
  | [] => True
  | e :: es => (∀ id pid, e = .lock id pid → ¬ s.uses pid) ∧ ∀ s', step s e = some s' → Once s' es

/-- At most one call of `napr_cache_open` is past the lock or has its handle open, and the lock is held by its process. -/
structure Alone (s : State) : Prop where
  one : s.opening ++ s.live = [] ∧ s.owner = none ∨ ∃ id pid, s.opening ++ s.live = [(id, pid)] ∧ s.owner = some pid

theorem alone_step {s s' : State} {e : Ev} (h : Alone s) (hd : ∀ id pid, e = .lock id pid → ¬ s.uses pid) (hs : step s e = some s') : Alone s' := by
  obtain ⟨o, op, lv⟩ := s
  rcases h.one with ⟨h1, h2⟩ | ⟨id0, p0, h1, h2⟩
  · simp only [List.append_eq_nil_iff] at h1 h2
    obtain ⟨rfl, rfl⟩ := h1
    subst h2
    cases e <;> simp [step, setLock, dropLock] at hs
    all_goals subst hs
    all_goals first | exact ⟨.inl ⟨rfl, rfl⟩⟩ | exact ⟨.inr ⟨_, _, rfl, rfl⟩⟩
  · simp only at h1 h2
    subst h2
    have hc : (op = [(id0, p0)] ∧ lv = []) ∨ (op = [] ∧ lv = [(id0, p0)]) := by
      cases op with
      | nil => exact .inr ⟨rfl, h1⟩
      | cons a l =>
        cases l with
        | nil =>
          cases lv with
          | nil => exact .inl ⟨h1, rfl⟩
          | cons b l => simp at h1
        | cons b l => simp at h1
    cases e with
    | noFile id pid => cases hs; exact h
    | lock id pid =>
      have hne : p0 ≠ pid := by
        rintro rfl
        refine hd id p0 rfl ⟨id0, ?_⟩
        rcases hc with ⟨rfl, rfl⟩ | ⟨rfl, rfl⟩ <;> simp
      have h3 : setLock (some p0) pid = none := by unfold setLock; simp [hne]
      simp only [step, h3] at hs
      cases hs
      refine ⟨.inr ⟨id0, p0, h1, ?_⟩⟩
      simp [dropLock, hne]
    | initFail id pid =>
      simp only [step] at hs
      split at hs
      · rename_i hm
        cases hs
        rcases hc with ⟨rfl, rfl⟩ | ⟨rfl, rfl⟩
        · simp only [List.mem_singleton, Prod.mk.injEq] at hm
          obtain ⟨rfl, rfl⟩ := hm
          exact ⟨.inl ⟨by simp, by simp [dropLock]⟩⟩
        · simp at hm
      · cases hs
    | initOk id pid =>
      simp only [step] at hs
      split at hs
      · rename_i hm
        cases hs
        rcases hc with ⟨rfl, rfl⟩ | ⟨rfl, rfl⟩
        · simp only [List.mem_singleton, Prod.mk.injEq] at hm
          obtain ⟨rfl, rfl⟩ := hm
          exact ⟨.inr ⟨id, pid, by simp, rfl⟩⟩
        · simp at hm
      · cases hs
    | close id pid =>
      simp only [step] at hs
      split at hs
      · rename_i hm
        cases hs
        rcases hc with ⟨rfl, rfl⟩ | ⟨rfl, rfl⟩
        · simp at hm
        · simp only [List.mem_singleton, Prod.mk.injEq] at hm
          obtain ⟨rfl, rfl⟩ := hm
          exact ⟨.inl ⟨by simp, by simp [dropLock]⟩⟩
      · cases hs
    | exit pid =>
      simp only [step] at hs
      cases hs
      by_cases hp : p0 = pid
      · subst hp
        refine ⟨.inl ⟨?_, by simp [dropLock]⟩⟩
        rcases hc with ⟨rfl, rfl⟩ | ⟨rfl, rfl⟩ <;> simp
      · refine ⟨.inr ⟨id0, p0, ?_, by simp [dropLock, hp]⟩⟩
        rcases hc with ⟨rfl, rfl⟩ | ⟨rfl, rfl⟩ <;> simp [hp]

theorem alone_run {es : List Ev} : ∀ {s s' : State}, Alone s → Once s es → run s es = some s' → Alone s' := by
  induction es with
  | nil => intro s s' h _ hr; cases hr; exact h
  | cons e es ih =>
    intro s s' h hd hr
    simp only [run] at hr
    cases hs : step s e with
    | none => rw [hs] at hr; cases hr
    | some s1 =>
      rw [hs] at hr
      exact ih (alone_step h hd.1 hs) (hd.2 s1 hs) hr

end Verif.Cache.Lock
