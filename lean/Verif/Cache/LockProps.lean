import Verif.Cache.Lock

/-!
# Property theorems for opening a cache: C58
-/

namespace Verif.Cache.Lock

theorem alone_init : Alone State.init := ⟨.inl ⟨rfl, rfl⟩⟩

/-- C58, in every history in which no process opens a cache that it has open: two handles that are
open are the same. -/
theorem one_handle_partial {es : List Ev} {s : State} (hd : Once .init es) (hr : run .init es = some s) {a b : Nat × Nat} (ha : a ∈ s.live) (hb : b ∈ s.live) :
    a = b := by
  rcases (alone_run alone_init hd hr).one with ⟨h, -⟩ | ⟨id, pid, h, -⟩
  · simp only [List.append_eq_nil_iff] at h
    rw [h.2] at ha; cases ha
  · have ha' : a ∈ s.opening ++ s.live := by simp [ha]
    have hb' : b ∈ s.opening ++ s.live := by simp [hb]
    rw [h] at ha' hb'
    simp at ha' hb'
    rw [ha', hb']

/-- C58: in such a history the lock is granted exactly if no handle is open and no other call is
past the lock; otherwise the call fails and nothing changes. -/
theorem open_iff_free_partial {es : List Ev} {s : State} (hd : Once .init es) (hr : run .init es = some s) {id pid : Nat} (hu : ¬ s.uses pid) :
    (s.opening = [] ∧ s.live = [] → step s (.lock id pid) = some ⟨some pid, [(id, pid)], []⟩) ∧
      (¬ (s.opening = [] ∧ s.live = []) → step s (.lock id pid) = some s) := by
  have ha := alone_run alone_init hd hr
  constructor
  · rintro ⟨h1, h2⟩
    obtain ⟨o, op, lv⟩ := s
    simp only at h1 h2
    subst h1 h2
    rcases ha.one with ⟨-, h⟩ | ⟨i, p, h, -⟩
    · simp only at h; subst h; rfl
    · simp at h
  · intro hn
    rcases ha.one with ⟨h, -⟩ | ⟨i, p, h, ho⟩
    · exact absurd (List.append_eq_nil_iff.1 h) hn
    · have hne : p ≠ pid := by
        rintro rfl
        have : (i, p) ∈ s.opening ++ s.live := by rw [h]; simp
        exact hu ⟨i, List.mem_append.1 this⟩
      obtain ⟨o, op, lv⟩ := s
      simp only at ho
      subst ho
      simp [step, setLock, dropLock, hne]

/-- C58: after a failed open, wherever it failed, and after a close, nobody holds the lock and no
handle is open; then everybody can open the cache. -/
theorem released_partial {es : List Ev} {s s' : State} (hd : Once .init es) (hr : run .init es = some s) {id pid : Nat}
    (h : step s (.initFail id pid) = some s' ∨ step s (.close id pid) = some s') :
    s' = .init ∧ ∀ id' pid', step s' (.lock id' pid') = some ⟨some pid', [(id', pid')], []⟩ := by
  have key : s' = .init := by
    have ha := alone_run alone_init hd hr
    obtain ⟨o, op, lv⟩ := s
    rcases ha.one with ⟨h1, h2⟩ | ⟨i, p, h1, h2⟩
    · simp only [List.append_eq_nil_iff] at h1
      obtain ⟨rfl, rfl⟩ := h1
      rcases h with h | h <;> simp [step] at h
    · simp only at h1 h2
      subst h2
      have hc : (op = [(i, p)] ∧ lv = []) ∨ (op = [] ∧ lv = [(i, p)]) := by
        cases op with
        | nil => exact .inr ⟨rfl, h1⟩
        | cons a l =>
          cases l with
          | nil =>
            cases lv with
            | nil => exact .inl ⟨h1, rfl⟩
            | cons b l => simp at h1
          | cons b l => simp at h1
      rcases hc with ⟨rfl, rfl⟩ | ⟨rfl, rfl⟩ <;> rcases h with h | h <;> simp [step] at h
      · obtain ⟨⟨rfl, rfl⟩, rfl⟩ := h; simp [dropLock, State.init]
      · obtain ⟨⟨rfl, rfl⟩, rfl⟩ := h; simp [dropLock, State.init]
  exact ⟨key, by subst key; intro id' pid'; rfl⟩

/-- C58: a process that ends, however it ends, keeps neither the lock nor a handle. -/
theorem exit_releases {s s' : State} {pid : Nat} (h : step s (.exit pid) = some s') : ¬ s'.uses pid ∧ s'.owner ≠ some pid := by
  simp only [step] at h
  cases h
  refine ⟨?_, ?_⟩
  · rintro ⟨id, h | h⟩ <;> simp at h
  · simp only [dropLock]
    split
    · simp
    · assumption

/-- C58 without the discipline: whoever is granted the lock, no *other* process held it. -/
theorem lock_excludes_others {s s' : State} {id pid q : Nat} (h : step s (.lock id pid) = some s') (hn : s.opening.length < s'.opening.length)
    (hq : s.owner = some q) : q = pid := by
  simp only [step, setLock, hq] at h
  split at h
  · rename_i hx
    split at hx
    · cases hx
    · cases h; simp at hn
  · rename_i o hx
    split at hx
    · rename_i hor
      rcases hor with h1 | h1 <;> simp at h1
      exact h1
    · cases hx

/-- C58 is false in general: a process can open a cache that it has open. -/
theorem same_process_twice : ∃ s, run .init [.lock 1 7, .initOk 1 7, .lock 2 7, .initOk 2 7] = some s ∧ s.live = [(2, 7), (1, 7)] := ⟨_, rfl, rfl⟩

/-- C58 is false in a second way: when it then closes one of the two handles, the other no longer
protects the cache, and another process can open it. -/
theorem two_processes :
    ∃ s, run .init [.lock 1 7, .initOk 1 7, .lock 2 7, .initOk 2 7, .close 2 7, .lock 3 8, .initOk 3 8] = some s ∧ s.live = [(3, 8), (1, 7)] :=
  ⟨_, rfl, rfl⟩

/-- C58 is false in a third way: a second open that fails has the same effect. -/
theorem failed_open_unlocks :
    ∃ s, run .init [.lock 1 7, .initOk 1 7, .lock 2 7, .initFail 2 7, .lock 3 8, .initOk 3 8] = some s ∧ s.live = [(3, 8), (1, 7)] := ⟨_, rfl, rfl⟩

/-- A history that meets the discipline: process 7 opens, 8 fails, 7 closes, 8 fails late, 7 opens
again and ends, and 8 opens. -/
example : ∃ s, Once .init [.lock 1 7, .initOk 1 7, .lock 2 8, .close 1 7, .lock 3 8, .initFail 3 8, .lock 4 7, .initOk 4 7, .exit 7, .lock 5 8, .initOk 5 8] ∧
    run .init [.lock 1 7, .initOk 1 7, .lock 2 8, .close 1 7, .lock 3 8, .initFail 3 8, .lock 4 7, .initOk 4 7, .exit 7, .lock 5 8, .initOk 5 8] = some s ∧
    s.live = [(5, 8)] := by
  refine ⟨⟨some 8, [], [(5, 8)]⟩, ?_, rfl, rfl⟩
  simp [Once, State.uses, State.init, step, setLock, dropLock]

end Verif.Cache.Lock
