import Verif.Basic

/-!
# Model of `napr_threadpool.c`

A transition system: any number of workers and one submitting thread, one mutex, one condition
variable shared by the workers and the submitter.  All shared fields are only touched with the mutex held, so
one transition is what a thread does from acquiring the mutex to releasing it (in
`apr_thread_mutex_unlock`, `apr_thread_cond_wait` or by exiting); the signal of `napr_threadpool_add`
is sent after the unlock and is a transition of its own.

Simplifications: locking, unlocking, signalling and thread creation do not fail; `process_data` returns;
allocation of list cells succeeds.
-/

namespace Verif.Pool

/-- Where a worker is.  `start`: created, has not locked the mutex yet (L375-386); `busy t`: inside
`process_data` (L337); `back`: returned from it, not yet locked again (L339); `blocked`: in
`apr_thread_cond_wait` (L366); `woken`: unblocked there, not yet holding the mutex; `done`: left the loop. -/
inductive W (τ : Type) where
  | start | busy (t : τ) | back | blocked | woken | done
  deriving DecidableEq

/-- Calls of the submitter: L245, L271, L408.  `none` is a NULL datum. -/
inductive Op (τ : Type) where
  | add (d : Option τ) | wait | shutdown
  deriving DecidableEq

/-- Where the submitter is.  `idle`: between calls; `signal`: in `napr_threadpool_add` after the
unlock (L262); `waiting`: in `apr_thread_cond_wait` (L294); `woken`: unblocked there; `joining k`: in
`napr_threadpool_shutdown` with `k` threads joined (L440). -/
inductive Sub where
  | idle | signal | waiting | woken | joining (k : Nat)
  deriving DecidableEq

/-- What can be observed: a task is submitted, its processing begins and ends, `wait` returns, shutdown is requested. -/
inductive Ev (τ : Type) where
  | submit (t : τ) | begin (t : τ) | fin (t : τ) | waited | stop
  deriving DecidableEq

/-- L157-199 `struct napr_threadpool_t`, the threads, the calls still to be made and the trace. -/
structure St (τ : Type) where
  ws : List (W τ)
  nbWaiting : Nat
  list : List (Option τ)
  run : Bool
  ended : Bool
  shut : Bool
  sub : Sub
  prog : List (Op τ)
  evs : List (Ev τ)

/-- L203-243 `napr_threadpool_init` with `n` threads. -/
def init (n : Nat) (prog : List (Op τ)) : St τ :=
  { ws := List.replicate n .start, nbWaiting := 0, list := [], run := false, ended := false, shut := false,
    sub := .idle, prog := prog, evs := [] }

/-- How a worker leaves a lock-protected block. -/
inductive Exit (τ : Type) where
  | done | busy (t : τ) | sleep (bcast : Bool)

/-- L388-398 the loop, with L320-347 `process_task` and L349-366 `wait_for_task`, up to the next release of
the mutex: a NULL datum is dropped without releasing it.  Gives the way out and the list left. -/
def loop (n nb : Nat) (run ended shut : Bool) : List (Option τ) → Exit τ × List (Option τ)
  | [] => if shut then (.done, []) else (.sleep (!ended && run && decide (nb + 1 = n)), [])
  | d :: r =>
    if shut then (.done, d :: r)
    else if !ended then
      match d with
      | some t => (.busy t, r)
      | none => loop n nb run ended shut r
    else (.sleep (!ended && run && decide (nb + 1 = n)), d :: r)

/-- `apr_thread_cond_broadcast` as seen by a worker. -/
def unblock : W τ → W τ
  | .blocked => .woken
  | w => w

/-- `apr_thread_cond_broadcast` as seen by the submitter. -/
def unblockSub : Sub → Sub
  | .waiting => .woken
  | s => s

/-- Worker `i` runs the loop, entering it with the mutex held and `nb_waiting = nb`. -/
def enter (s : St τ) (i nb : Nat) : St τ :=
  match loop s.ws.length nb s.run s.ended s.shut s.list with
  | (.done, l) => { s with ws := s.ws.set i .done, nbWaiting := nb, list := l }
  | (.busy t, l) => { s with ws := s.ws.set i (.busy t), nbWaiting := nb, list := l, evs := s.evs ++ [.begin t] }
  | (.sleep true, l) =>
    { s with ws := (s.ws.map unblock).set i .blocked, nbWaiting := nb + 1, list := l, ended := true, sub := unblockSub s.sub }
  | (.sleep false, l) => { s with ws := s.ws.set i .blocked, nbWaiting := nb + 1, list := l }

/-- The events a submission leaves. -/
def submitEv : Option τ → List (Ev τ)
  | some t => [.submit t]
  | none => []

/-- One step of one thread. -/
inductive Step : St τ → St τ → Prop
  /-- L381-398: a new worker locks the mutex. -/
  | first {s : St τ} {i : Nat} (h : s.ws[i]? = some .start) : Step s (enter s i s.nbWaiting)
  /-- L337: `process_data` ends. -/
  | fin {s : St τ} {i : Nat} {t : τ} (h : s.ws[i]? = some (.busy t)) :
      Step s { s with ws := s.ws.set i .back, evs := s.evs ++ [.fin t] }
  /-- L339: the worker locks the mutex again. -/
  | relock {s : St τ} {i : Nat} (h : s.ws[i]? = some .back) : Step s (enter s i s.nbWaiting)
  /-- L366-371: a woken worker gets the mutex. -/
  | resume {s : St τ} {i : Nat} (h : s.ws[i]? = some .woken) : Step s (enter s i (s.nbWaiting - 1))
  /-- L245-260 `napr_threadpool_add` up to the unlock. -/
  | add {s : St τ} {d : Option τ} {ps : List (Op τ)} (h : s.sub = .idle) (hp : s.prog = .add d :: ps) :
      Step s { s with ended := false, list := s.list ++ [d], sub := .signal, prog := ps, evs := s.evs ++ submitEv d }
  /-- L262: the signal finds a blocked worker. -/
  | signal {s : St τ} {i : Nat} (h : s.sub = .signal) (hw : s.ws[i]? = some .blocked) :
      Step s { s with ws := s.ws.set i .woken, sub := .idle }
  /-- L262: nobody is blocked. -/
  | signalNone {s : St τ} (h : s.sub = .signal) (hw : .blocked ∉ s.ws) : Step s { s with sub := .idle }
  /-- L271-318 `napr_threadpool_wait` with nothing to wait for (`list_size` is an `int`). -/
  | waitNone {s : St τ} {ps : List (Op τ)} (h : s.sub = .idle) (hp : s.prog = .wait :: ps)
      (hn : s.list.length % 2 ^ 32 = 0 ∧ s.nbWaiting = s.ws.length) :
      Step s { s with list := [], prog := ps, evs := s.evs ++ [.waited] }
  /-- L282-294: it blocks. -/
  | wait {s : St τ} {ps : List (Op τ)} (h : s.sub = .idle) (hp : s.prog = .wait :: ps)
      (hn : ¬ (s.list.length % 2 ^ 32 = 0 ∧ s.nbWaiting = s.ws.length)) :
      Step s { s with run := true, sub := .waiting, prog := ps }
  /-- L294-317: it is woken, gets the mutex, drops the list and returns. -/
  | waitEnd {s : St τ} (h : s.sub = .woken) :
      Step s { s with run := false, list := [], sub := .idle, evs := s.evs ++ [.waited] }
  /-- L408-438 `napr_threadpool_shutdown` up to the unlock. -/
  | shutdown {s : St τ} {ps : List (Op τ)} (h : s.sub = .idle) (hp : s.prog = .shutdown :: ps) :
      Step s { s with shut := true, ws := s.ws.map unblock, sub := .joining 0, prog := ps, evs := s.evs ++ [.stop] }
  /-- L440-446: a worker that has left its loop is joined. -/
  | join {s : St τ} {k : Nat} (h : s.sub = .joining k) (hw : s.ws[k]? = some .done) : Step s { s with sub := .joining (k + 1) }
  /-- L448: all are joined. -/
  | joined {s : St τ} {k : Nat} (h : s.sub = .joining k) (hw : s.ws.length ≤ k) : Step s { s with sub := .idle }

/-- A worker returns from `apr_thread_cond_wait` without a reason (POSIX allows it). -/
inductive Spurious : St τ → St τ → Prop
  | mk {s : St τ} {i : Nat} (h : s.ws[i]? = some .blocked) : Spurious s { s with ws := s.ws.set i .woken }

/-- The submitter does. -/
inductive SpuriousSub : St τ → St τ → Prop
  | mk {s : St τ} (h : s.sub = .waiting) : SpuriousSub s { s with sub := .woken }

/-- Executions with `a` steps and `b` spurious wake-ups of workers. -/
inductive Exec : Nat → Nat → St τ → St τ → Prop
  | refl (s : St τ) : Exec 0 0 s s
  | step {a b : Nat} {s s' s'' : St τ} : Exec a b s s' → Step s' s'' → Exec (a + 1) b s s''
  | spurious {a b : Nat} {s s' s'' : St τ} : Exec a b s s' → Spurious s' s'' → Exec a (b + 1) s s''

/-- Executions in which the submitter may be woken spuriously as well. -/
inductive ExecS : St τ → St τ → Prop
  | refl (s : St τ) : ExecS s s
  | step {s s' s'' : St τ} : ExecS s s' → Step s' s'' → ExecS s s''
  | spurious {s s' s'' : St τ} : ExecS s s' → Spurious s' s'' → ExecS s s''
  | spuriousSub {s s' s'' : St τ} : ExecS s s' → SpuriousSub s' s'' → ExecS s s''

end Verif.Pool
