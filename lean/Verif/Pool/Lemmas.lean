import Verif.Pool.Model

/-! Invariants of the thread pool. -/

namespace Verif.Pool

variable {τ : Type}

/-- Tasks submitted, begun and finished in a trace. -/
def submits (l : List (Ev τ)) : List τ := l.filterMap (fun | .submit t => some t | _ => none)
@[inherit_doc submits] def begins (l : List (Ev τ)) : List τ := l.filterMap (fun | .begin t => some t | _ => none)
@[inherit_doc submits] def fins (l : List (Ev τ)) : List τ := l.filterMap (fun | .fin t => some t | _ => none)

/-- Counted in `nb_waiting`. -/
def W.asleep : W τ → Bool
  | .blocked => true | .woken => true | _ => false

/-- Will do something by itself. -/
def W.active : W τ → Bool
  | .blocked => false | .done => false | _ => true

/-- The task being processed. -/
def W.task : W τ → Option τ
  | .busy t => some t | _ => none

/-- Shutdown is the last call. -/
def ShutLast : List (Op τ) → Prop
  | [] => True
  | .shutdown :: ps => ps = []
  | _ :: ps => ShutLast ps

/-- Number of submissions. -/
def adds : List (Op τ) → Nat
  | [] => 0
  | .add _ :: ps => adds ps + 1
  | _ :: ps => adds ps

theorem split_at {l : List α} {i : Nat} {w : α} (h : l[i]? = some w) :
    ∃ A B, l = A ++ w :: B ∧ (∀ v, l.set i v = A ++ v :: B) ∧ ∀ (f : α → α) v, (l.map f).set i v = A.map f ++ v :: B.map f := by
  have hi : i < l.length := by
    rcases Nat.lt_or_ge i l.length with h1 | h1
    · exact h1
    · rw [List.getElem?_eq_none h1] at h; cases h
  have e : l = l.take i ++ w :: l.drop (i + 1) := by
    have := List.take_append_drop i l
    rw [List.drop_eq_getElem_cons hi] at this
    rw [List.getElem?_eq_getElem hi] at h
    injection h with h
    rw [← h]; exact this.symm
  refine ⟨l.take i, l.drop (i + 1), e, ?_, ?_⟩
  · intro v
    rw [List.set_eq_take_append_cons_drop, if_pos hi]
  · intro f v
    rw [List.set_eq_take_append_cons_drop, if_pos (by simpa using hi)]
    simp [List.map_take, List.map_drop]

theorem loop_shut (n nb : Nat) (run ended : Bool) (l : List (Option τ)) : loop n nb run ended true l = (.done, l) := by
  cases l <;> simp [loop]

theorem loop_ended (n nb : Nat) (run : Bool) (l : List (Option τ)) : loop n nb run true false l = (.sleep false, l) := by
  cases l <;> simp [loop]

theorem loop_run (n nb : Nat) (run : Bool) (l : List (Option τ)) :
    (∃ t l', loop n nb run false false l = (.busy t, l') ∧ l.filterMap id = t :: l'.filterMap id ∧ l'.length < l.length) ∨
    (loop n nb run false false l = (.sleep (run && decide (nb + 1 = n)), []) ∧ l.filterMap id = []) := by
  induction l with
  | nil => right; simp [loop]
  | cons d r ih =>
    cases d with
    | some t => left; exact ⟨t, r, by simp [loop], by simp, by simp⟩
    | none =>
      rcases ih with ⟨t, l', h1, h2, h3⟩ | ⟨h1, h2⟩
      · left; exact ⟨t, l', by simp [loop, h1], by simpa using h2, by simp; omega⟩
      · right; exact ⟨by simp [loop, h1], by simpa using h2⟩

/-- What running the loop can do. -/
theorem enter_cases (s : St τ) (i nb : Nat) :
    (s.shut = true ∧ enter s i nb = { s with ws := s.ws.set i .done, nbWaiting := nb }) ∨
    (s.shut = false ∧ s.ended = true ∧ enter s i nb = { s with ws := s.ws.set i .blocked, nbWaiting := nb + 1 }) ∨
    (s.shut = false ∧ s.ended = false ∧ ∃ t l', s.list.filterMap id = t :: l'.filterMap id ∧ l'.length < s.list.length ∧
      enter s i nb = { s with ws := s.ws.set i (.busy t), nbWaiting := nb, list := l', evs := s.evs ++ [.begin t] }) ∨
    (s.shut = false ∧ s.ended = false ∧ s.list.filterMap id = [] ∧ (s.run = true ∧ nb + 1 = s.ws.length) ∧
      enter s i nb = { s with ws := (s.ws.map unblock).set i .blocked, nbWaiting := nb + 1, list := [], ended := true, sub := unblockSub s.sub }) ∨
    (s.shut = false ∧ s.ended = false ∧ s.list.filterMap id = [] ∧ ¬ (s.run = true ∧ nb + 1 = s.ws.length) ∧
      enter s i nb = { s with ws := s.ws.set i .blocked, nbWaiting := nb + 1, list := [] }) := by
  cases hs : s.shut with
  | true => left; refine ⟨rfl, ?_⟩; simp only [enter, hs, loop_shut]
  | false =>
    right
    cases he : s.ended with
    | true => left; refine ⟨rfl, rfl, ?_⟩; simp only [enter, hs, he, loop_ended]
    | false =>
      right
      rcases loop_run s.ws.length nb s.run s.list with ⟨t, l', h1, h2, h3⟩ | ⟨h1, h2⟩
      · left; exact ⟨rfl, rfl, t, l', h2, h3, by simp only [enter, hs, he, h1]⟩
      · right
        by_cases hb : s.run = true ∧ nb + 1 = s.ws.length
        · left
          have : (s.run && decide (nb + 1 = s.ws.length)) = true := by simp [hb.1, hb.2]
          rw [this] at h1
          exact ⟨rfl, rfl, h2, hb, by simp only [enter, hs, he, h1]⟩
        · right
          have : (s.run && decide (nb + 1 = s.ws.length)) = false := by
            cases hr : s.run <;> simp_all
          rw [this] at h1
          exact ⟨rfl, rfl, h2, hb, by simp only [enter, hs, he, h1]⟩

/-- The part of the invariant that does not need a worker. -/
structure Inv (s : St τ) : Prop where
  nb : s.nbWaiting = s.ws.countP W.asleep
  endE : s.ended = true → s.list = []
  endAll : s.ended = true → s.shut = false → ∀ w ∈ s.ws, w.asleep = true
  waiting : s.sub = .waiting → s.run = true ∧ s.ended = false ∧ s.shut = false
  woken : s.sub = .woken → s.ended = true ∧ s.shut = false
  shutP : s.shut = true → s.prog = [] ∧ (s.sub = .idle ∨ ∃ k, s.sub = .joining k)
  shutB : s.shut = true → .blocked ∉ s.ws
  join : ∀ k, s.sub = .joining k → s.shut = true ∧ ∀ j, j < k → j < s.ws.length → s.ws[j]? = some .done
  doneS : .done ∈ s.ws → s.shut = true
  joinAll : s.shut = true → s.sub = .idle → ∀ w ∈ s.ws, w = .done
  last : ShutLast s.prog
  len : s.list.length + adds s.prog < 2 ^ 32
  perm1 : (submits s.evs).Perm (begins s.evs ++ s.list.filterMap id)
  perm2 : (begins s.evs).Perm (fins s.evs ++ s.ws.filterMap W.task)
  waited : ∀ pre post, s.evs = pre ++ .waited :: post → (submits pre).Perm (fins pre) ∧ (submits pre).Perm (begins pre)
  stop : s.shut = false → .stop ∉ s.evs
  stopped : ∀ pre post, s.evs = pre ++ .stop :: post → begins post = []

theorem append_ev {P : List (Ev τ) → List (Ev τ) → Prop} {evs : List (Ev τ)} {e x : Ev τ} (hx : e ≠ x)
    (h : ∀ pre post, evs = pre ++ x :: post → P pre (post ++ [e])) :
    ∀ pre post, evs ++ [e] = pre ++ x :: post → P pre post := by
  intro pre post he
  rcases List.eq_nil_or_concat post with rfl | ⟨q, y, rfl⟩
  · have := congrArg List.getLast? he
    simp at this; exact absurd this hx
  · have h1 : evs ++ [e] = (pre ++ x :: q) ++ [y] := by rw [he]; simp
    obtain ⟨h2, h3⟩ := List.append_inj' h1 rfl
    injection h3 with h3
    subst h3
    have := h pre q h2
    simpa using this

end Verif.Pool
