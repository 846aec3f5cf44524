import Verif.Pool.After
import Verif.Pool.Props

/-!
# C134: calls after the shutdown

napr_threadpool.h L83-85: "No new tasks can be added after this function is called."  Nothing in `napr_threadpool_add` (L245-269) looks at the
shutdown flag, so this is false: the call succeeds.  The task is never begun, and `napr_threadpool_wait` (L271-318), whose test for "nothing to wait for" needs
every worker to be waiting, blocks for ever once the workers are gone, whether anything was submitted or not.

A second shutdown is not considered: joining a thread twice is undefined.
-/

set_option linter.unusedSimpArgs false

namespace Verif.Pool

variable {τ : Type}

/-! ## Lemmas -/

theorem enter_length (s : St τ) (i nb : Nat) : (enter s i nb).ws.length = s.ws.length := by
  rcases enter_cases s i nb with ⟨-, he⟩ | ⟨-, -, he⟩ | ⟨-, -, t, l', -, -, he⟩ | ⟨-, -, -, -, he⟩ | ⟨-, -, -, -, he⟩ <;> rw [he] <;> simp

theorem step_length {s s' : St τ} (h : Step s s') : s'.ws.length = s.ws.length := by
  cases h <;> first | exact enter_length _ _ _ | simp

theorem exec_length {a b : Nat} {s s' : St τ} (e : Exec a b s s') : s'.ws.length = s.ws.length := by
  induction e with
  | refl s => rfl
  | step _ hs ih => rw [step_length hs, ih]
  | spurious _ hs ih => cases hs with | mk hw => simpa using ih

/-- Once all workers have left, no call of `wait` returns. -/
structure Hung (s : St τ) : Prop where
  woken : s.shut = true → s.sub ≠ .woken
  post : ∀ pre post, s.evs = pre ++ .stop :: post → .waited ∉ post

theorem hung_none {evs : List (Ev τ)} (h : .stop ∉ evs) : ∀ pre post, evs = pre ++ .stop :: post → .waited ∉ post := by
  intro pre post he; exact absurd (by rw [he]; simp) h

theorem hung_append {evs : List (Ev τ)} {e : Ev τ} (hx : e ≠ .stop) (hw : e ≠ .waited)
    (h : ∀ pre post, evs = pre ++ .stop :: post → .waited ∉ post) : ∀ pre post, evs ++ [e] = pre ++ .stop :: post → .waited ∉ post :=
  append_ev (P := fun _ post => Ev.waited ∉ post) hx (fun pre post he => by
    have := h pre post he
    simp only [List.mem_append, List.mem_singleton, not_or]
    exact ⟨this, fun h => hw h.symm⟩)

theorem asleep_done {l : List (W τ)} (h : ∀ w ∈ l, w = .done) : l.countP W.asleep = 0 := by
  rw [List.countP_eq_zero]
  intro w hw; rw [h w hw]; simp [W.asleep]

theorem hung_enter {s : St τ} (h : Hung s) (g : Gone s) (i nb : Nat) : Hung (enter s i nb) := by
  have hst : s.shut = false → .stop ∉ s.evs := by
    intro h0 h1; have := g.stop h1; rw [h0] at this; cases this
  rcases enter_cases s i nb with ⟨hs, he⟩ | ⟨hs, hen, he⟩ | ⟨hs, hen, t, l', hl, hlen, he⟩ | ⟨hs, hen, hl, hb, he⟩ | ⟨hs, hen, hl, hb, he⟩ <;> rw [he]
  · exact ⟨h.woken, h.post⟩
  · exact ⟨h.woken, h.post⟩
  · exact ⟨h.woken, hung_append (by simp) (by simp) h.post⟩
  · exact ⟨fun h0 => absurd (hs.symm.trans h0) Bool.false_ne_true, hung_none (hst hs)⟩
  · exact ⟨h.woken, h.post⟩

theorem hung_step {s s' : St τ} (h : Hung s) (g : Gone s) (hn : 1 ≤ s.ws.length) (hs : Step s s') : Hung s' := by
  have hst : s.shut = false → .stop ∉ s.evs := by
    intro h0 h1; have := g.stop h1; rw [h0] at this; cases this
  cases hs with
  | first hw => exact hung_enter h g _ _
  | relock hw => exact hung_enter h g _ _
  | resume hw => exact hung_enter h g _ _
  | fin hw => exact ⟨h.woken, hung_append (by simp) (by simp) h.post⟩
  | @add d ps hsub hp =>
    refine ⟨fun _ => nofun, ?_⟩
    cases d with
    | none => simpa [submitEv] using h.post
    | some t => exact hung_append (by simp) (by simp) h.post
  | signal hsub hw => exact ⟨fun _ => nofun, h.post⟩
  | signalNone hsub hw => exact ⟨fun _ => nofun, h.post⟩
  | waitNone hsub hp hn' =>
    have hns : s.shut = false := by
      cases hh : s.shut with
      | false => rfl
      | true =>
        have h1 := asleep_done (g.all hh (by rw [hsub]; nofun))
        have h2 := g.nb
        omega
    exact ⟨h.woken, hung_none (by simp; exact hst hns)⟩
  | wait hsub hp hn' => exact ⟨fun _ => nofun, h.post⟩
  | waitEnd hsub =>
    have hns : s.shut = false := by
      cases hh : s.shut with
      | false => rfl
      | true => exact absurd hsub (h.woken hh)
    exact ⟨fun _ => nofun, hung_none (by simp; exact hst hns)⟩
  | shutdown hsub hp =>
    refine ⟨fun _ => nofun, ?_⟩
    intro pre post he
    rcases List.eq_nil_or_concat post with rfl | ⟨q, y, rfl⟩
    · simp
    · simp only at he
      have h1 : s.evs ++ [.stop] = (pre ++ .stop :: q) ++ [y] := by rw [he]; simp
      obtain ⟨h2, h3⟩ := List.append_inj' h1 rfl
      injection h3 with h3
      have := h.post pre q h2
      rw [List.concat_eq_append, ← h3]
      simpa using this
  | join hsub hw => exact ⟨fun _ => nofun, h.post⟩
  | joined hsub hw => exact ⟨fun _ => nofun, h.post⟩

theorem hung_exec {n : Nat} (hn : 1 ≤ n) {prog : List (Op τ)} {a b : Nat} {s : St τ} (e : Exec a b (init n prog) s) : Hung s := by
  generalize hi : init n prog = s0 at e
  induction e with
  | refl s =>
    subst hi
    exact ⟨nofun, hung_none (by simp [init])⟩
  | step e0 hs ih =>
    have hl := exec_length e0
    subst hi
    simp [init] at hl
    exact hung_step (ih rfl) (gone_exec e0 (gone_init n prog)) (by omega) hs
  | spurious e0 hs ih =>
    have := ih hi
    cases hs with | mk hw => exact ⟨this.woken, this.post⟩

theorem callsOf_append (p q : List (Op τ)) : callsOf (p ++ q) = callsOf p ++ callsOf q := by
  induction p with
  | nil => rfl
  | cons o p ih =>
    cases o with
    | add d => cases d <;> simp [callsOf, ih]
    | wait => simp [callsOf, ih]
    | shutdown => simp [callsOf, ih]

/-! ## Theorems -/

/-- **C134.**  Whatever the program, after a shutdown no task is begun; when the shutdown has returned all workers have left and what was begun is finished. -/
theorem nothing_begun_after_shutdown {n : Nat} {prog : List (Op τ)} {a b : Nat} {s : St τ} (e : Exec a b (init n prog) s) :
    (∀ pre post, s.evs = pre ++ .stop :: post → begins post = []) ∧
    (.stop ∈ s.evs → (∀ k, s.sub ≠ .joining k) → (∀ w ∈ s.ws, w = .done) ∧ (begins s.evs).Perm (fins s.evs)) := by
  have g := gone_exec e (gone_init n prog)
  refine ⟨g.stopped, fun h1 h2 => ?_⟩
  have hd := g.all (g.stop h1) h2
  refine ⟨hd, ?_⟩
  have := g.perm
  have h0 : s.ws.filterMap W.task = [] := by
    rw [List.filterMap_eq_nil_iff]; intro w hw; rw [hd w hw]; rfl
  rwa [h0, List.append_nil] at this

/-- **C134, negation.**  A task added after the shutdown has returned is accepted: the call returns, in two steps, and nothing can prevent or delay it. -/
theorem added_after_shutdown {n : Nat} {prog : List (Op τ)} {a b : Nat} {s : St τ} (e : Exec a b (init n prog) s) (hstop : .stop ∈ s.evs)
    {d : Option τ} {ps : List (Op τ)} (hi : s.sub = .idle) (hp : s.prog = .add d :: ps) :
    ∃ s1 s2, (∀ s', Step s s' ↔ s' = s1) ∧ (∀ s', Step s1 s' ↔ s' = s2) ∧ (∀ s', ¬ Spurious s s' ∧ ¬ Spurious s1 s') ∧
      s2.sub = .idle ∧ s2.prog = ps ∧ s2.evs = s.evs ++ submitEv d := by
  have g := gone_exec e (gone_init n prog)
  have hd := g.all (g.stop hstop) (by rw [hi]; nofun)
  have hnb : W.blocked ∉ s.ws := g.blk (g.stop hstop)
  have hno : ∀ (i : Nat) (w : W τ), s.ws[i]? = some w → w = .done := by
    intro i w hw
    exact hd w (List.mem_of_getElem? hw)
  have one : ∀ s', Step s s' → s' = { s with ended := false, list := s.list ++ [d], sub := .signal, prog := ps, evs := s.evs ++ submitEv d } := by
    intro s' hs
    cases hs with
    | first hw => cases hno _ _ hw
    | relock hw => cases hno _ _ hw
    | resume hw => cases hno _ _ hw
    | fin hw => cases hno _ _ hw
    | add h1 h2 =>
      rw [hp] at h2; injection h2 with h2 h3; injection h2 with h2; subst h2; subst h3; rfl
    | signal h1 _ => rw [hi] at h1; cases h1
    | signalNone h1 _ => rw [hi] at h1; cases h1
    | waitNone _ h1 => rw [hp] at h1; cases h1
    | wait _ h1 => rw [hp] at h1; cases h1
    | waitEnd h1 => rw [hi] at h1; cases h1
    | shutdown _ h1 => rw [hp] at h1; cases h1
    | join h1 => rw [hi] at h1; cases h1
    | joined h1 => rw [hi] at h1; cases h1
  have two : ∀ s', Step { s with ended := false, list := s.list ++ [d], sub := .signal, prog := ps, evs := s.evs ++ submitEv d } s' →
      s' = { s with ended := false, list := s.list ++ [d], sub := .idle, prog := ps, evs := s.evs ++ submitEv d } := by
    intro s' hs
    cases hs with
    | first hw => cases hno _ _ hw
    | relock hw => cases hno _ _ hw
    | resume hw => cases hno _ _ hw
    | fin hw => cases hno _ _ hw
    | add h1 => cases h1
    | signal h1 h2 => cases hno _ _ h2
    | signalNone h1 _ => rfl
    | waitNone h1 => cases h1
    | wait h1 => cases h1
    | waitEnd h1 => cases h1
    | shutdown h1 => cases h1
    | join h1 => cases h1
    | joined h1 => cases h1
  have nos : ∀ (v v' : St τ), v.ws = s.ws → ¬ Spurious v v' := by
    intro v v' hv hs
    cases hs with | mk hw => rw [hv] at hw; cases hno _ _ hw
  refine ⟨_, _, fun s' => ⟨one s', ?_⟩, fun s' => ⟨two s', ?_⟩, fun s' => ⟨nos _ _ rfl, nos _ _ rfl⟩, rfl, rfl, rfl⟩
  · rintro rfl; exact .add hi hp
  · rintro rfl; exact .signalNone rfl hnb

/-- **C134.**  With at least one worker, no call of `wait` made after the shutdown returns, whether there is something to wait for or not (unless the caller is woken without a reason). -/
theorem wait_after_shutdown {n : Nat} (hn : 1 ≤ n) {prog : List (Op τ)} {a b : Nat} {s : St τ} (e : Exec a b (init n prog) s) :
    ∀ pre post, s.evs = pre ++ .stop :: post → .waited ∉ post :=
  (hung_exec hn e).post

/-- **C134.**  So a program that waits after the shutdown never ends, … -/
theorem wait_after_shutdown_hangs {n : Nat} (hn : 1 ≤ n) {A B C : List (Op τ)} {a b : Nat} {s : St τ}
    (e : Exec a b (init n (A ++ .shutdown :: (B ++ .wait :: C))) s) : ¬ Finished s := by
  rintro ⟨h1, h2⟩
  have ho := (calls_exec e (calls_init n _)).order
  rw [h1, h2] at ho
  simp only [pending, callsOf, callsOf_append, List.append_nil, reduceCtorEq, or_self, if_false] at ho
  obtain ⟨l1, l2, e1, e2, e3⟩ := List.filter_eq_append_iff.1 ho
  obtain ⟨l3, l4, e4, e5, e6, e7⟩ := List.filter_eq_cons_iff.1 e3
  refine wait_after_shutdown hn e (l1 ++ l3) l4 (by rw [e1, e4]; simp) ?_
  have : Ev.waited ∈ l4.filter Ev.isCall := by rw [e7]; simp
  exact (List.mem_filter.1 this).1

/-- **C134.**  … while one that only adds tasks then does: all the calls return, in two steps each. -/
theorem adds_after_shutdown_return {n : Nat} {prog : List (Op τ)} {a b : Nat} {s : St τ} (e : Exec a b (init n prog) s) (hstop : .stop ∈ s.evs)
    (ds : List (Option τ)) (hi : s.sub = .idle) (hp : s.prog = ds.map .add) :
    ∃ s', Exec (2 * ds.length) 0 s s' ∧ Finished s' ∧ s'.evs = s.evs ++ (ds.map submitEv).flatten := by
  induction ds generalizing a s with
  | nil => exact ⟨s, .refl s, ⟨hi, hp⟩, by simp⟩
  | cons d ds ih =>
    obtain ⟨s1, s2, h1, h2, -, h3, h4, h5⟩ := added_after_shutdown e hstop hi hp
    have e2 : Exec (a + 1 + 1) b (init n prog) s2 := .step (.step e ((h1 s1).2 rfl)) ((h2 s2).2 rfl)
    obtain ⟨s', g1, g2, g3⟩ := ih e2 (by rw [h5]; simp [hstop]) h3 h4
    refine ⟨s', ?_, g2, by rw [g3, h5]; simp⟩
    have pre : ∀ {k : Nat} {u : St τ}, Exec k 0 s2 u → Exec (2 + k) 0 s u := by
      intro k u ex
      generalize hz : (0 : Nat) = z at ex
      generalize hu : s2 = v at ex
      induction ex with
      | refl => subst hu; exact .step (.step (.refl s) ((h1 s1).2 rfl)) ((h2 _).2 rfl)
      | step _ hs ih2 => exact .step (ih2 hz hu) hs
      | spurious => omega
    have := pre g1
    rw [show 2 * (d :: ds).length = 2 + 2 * ds.length by simp; omega]
    exact this

/-! ## Examples -/

/-- One worker; the pool is shut down, then a task is added and waited for: after seven steps the task has been accepted, nothing has begun and the caller is blocked in a state without any step. -/
def exAfter : List (Op Nat) := [.shutdown, .add (some 5), .wait]

example : ∃ s, Exec 7 0 (init 1 exAfter) s ∧ s.evs = [.stop, .submit 5] ∧ s.sub = .waiting ∧ ∀ s', ¬ Step s s' := by
  refine ⟨⟨[.done], 0, [some 5], true, false, true, .waiting, [], [.stop, .submit 5]⟩, ?_, rfl, rfl, ?_⟩
  · refine .step (s' := ⟨[.done], 0, [some 5], false, false, true, .idle, [.wait], [.stop, .submit 5]⟩) ?_ (.wait rfl rfl (by simp))
    refine .step (s' := ⟨[.done], 0, [some 5], false, false, true, .signal, [.wait], [.stop, .submit 5]⟩) ?_ (.signalNone rfl (by simp))
    refine .step (s' := ⟨[.done], 0, [], false, false, true, .idle, [.add (some 5), .wait], [.stop]⟩) ?_ (.add rfl rfl)
    refine .step (s' := ⟨[.done], 0, [], false, false, true, .joining 1, [.add (some 5), .wait], [.stop]⟩) ?_ (.joined rfl (by simp))
    refine .step (s' := ⟨[.done], 0, [], false, false, true, .joining 0, [.add (some 5), .wait], [.stop]⟩) ?_ (.join rfl rfl)
    refine .step (s' := ⟨[.start], 0, [], false, false, true, .joining 0, [.add (some 5), .wait], [.stop]⟩) ?_ (.first (i := 0) rfl)
    exact .step (.refl _) (.shutdown rfl rfl)
  · intro s' hs
    cases hs with
    | @first i hw => cases i <;> simp at hw
    | @relock i hw => cases i <;> simp at hw
    | @resume i hw => cases i <;> simp at hw
    | @fin i t hw => cases i <;> simp at hw
    | add h => cases h
    | signal h => cases h
    | signalNone h => cases h
    | waitNone h => cases h
    | wait h => cases h
    | waitEnd h => cases h
    | shutdown h => cases h
    | join h => cases h
    | joined h => cases h

end Verif.Pool
