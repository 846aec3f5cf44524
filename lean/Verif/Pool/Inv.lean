import Verif.Pool.Lemmas

/-! Preservation of the invariants. -/

set_option linter.unusedSimpArgs false

namespace Verif.Pool

variable {τ : Type}

theorem task_done : (W.done : W τ).task = none := rfl
theorem task_blocked : (W.blocked : W τ).task = none := rfl
theorem task_busy (t : τ) : (W.busy t).task = some t := rfl

@[simp] theorem submits_append (a b : List (Ev τ)) : submits (a ++ b) = submits a ++ submits b := by simp [submits]
@[simp] theorem begins_append (a b : List (Ev τ)) : begins (a ++ b) = begins a ++ begins b := by simp [begins]
@[simp] theorem fins_append (a b : List (Ev τ)) : fins (a ++ b) = fins a ++ fins b := by simp [fins]

theorem waited_append {evs : List (Ev τ)} {e : Ev τ} (hx : e ≠ .waited)
    (h : ∀ pre post, evs = pre ++ .waited :: post → (submits pre).Perm (fins pre) ∧ (submits pre).Perm (begins pre)) :
    ∀ pre post, evs ++ [e] = pre ++ .waited :: post → (submits pre).Perm (fins pre) ∧ (submits pre).Perm (begins pre) :=
  append_ev (P := fun pre _ => (submits pre).Perm (fins pre) ∧ (submits pre).Perm (begins pre)) hx h

theorem waited_new {evs : List (Ev τ)} (h0 : (submits evs).Perm (fins evs) ∧ (submits evs).Perm (begins evs))
    (h : ∀ pre post, evs = pre ++ .waited :: post → (submits pre).Perm (fins pre) ∧ (submits pre).Perm (begins pre)) :
    ∀ pre post, evs ++ [.waited] = pre ++ .waited :: post → (submits pre).Perm (fins pre) ∧ (submits pre).Perm (begins pre) := by
  intro pre post he
  rcases List.eq_nil_or_concat post with rfl | ⟨q, y, rfl⟩
  · have := List.append_inj' he rfl
    rw [← this.1]; exact h0
  · have h1 : evs ++ [.waited] = (pre ++ .waited :: q) ++ [y] := by rw [he]; simp
    exact h pre q (List.append_inj' h1 rfl).1

theorem stopped_append {evs : List (Ev τ)} {e : Ev τ} (hx : e ≠ .stop) (hb : begins [e] = [])
    (h : ∀ pre post, evs = pre ++ .stop :: post → begins post = []) :
    ∀ pre post, evs ++ [e] = pre ++ .stop :: post → begins post = [] :=
  append_ev (P := fun _ post => begins post = []) hx (fun pre post he => by rw [begins_append, h pre post he, hb]; rfl)

theorem stopped_none {evs : List (Ev τ)} (h : .stop ∉ evs) : ∀ pre post, evs = pre ++ .stop :: post → begins post = [] := by
  intro pre post he; exact absurd (by rw [he]; simp) h

theorem map_unblock_task (l : List (W τ)) : (l.map unblock).filterMap W.task = l.filterMap W.task := by
  induction l with
  | nil => rfl
  | cons w l ih => cases w <;> simp [unblock, W.task, ih, List.filterMap_cons]

theorem map_unblock_asleep (l : List (W τ)) : (l.map unblock).countP W.asleep = l.countP W.asleep := by
  induction l with
  | nil => rfl
  | cons w l ih => cases w <;> simp [unblock, W.asleep, ih, List.countP_cons]

theorem mem_unblock_asleep {l : List (W τ)} (h : ∀ w ∈ l, w.asleep = true) : ∀ w ∈ l.map unblock, w.asleep = true := by
  intro w hw
  obtain ⟨v, hv, rfl⟩ := List.mem_map.mp hw
  have := h v hv
  cases v <;> simp_all [unblock, W.asleep]

theorem blocked_unblock (l : List (W τ)) : (.blocked : W τ) ∉ l.map unblock := by
  intro h
  obtain ⟨v, hv, e⟩ := List.mem_map.mp h
  cases v <;> simp [unblock] at e

theorem done_unblock {l : List (W τ)} (h : (.done : W τ) ∈ l.map unblock) : .done ∈ l := by
  obtain ⟨v, hv, e⟩ := List.mem_map.mp h
  cases v <;> simp [unblock] at e
  exact hv

theorem unblock_done {w : W τ} (h : w = .done) : unblock w = .done := by subst h; rfl

theorem all_of_count {l : List (W τ)} (h : l.countP W.asleep = l.length) : ∀ w ∈ l, w.asleep = true := by
  exact List.countP_eq_length.mp h

theorem filterMap_nil_of_asleep {l : List (W τ)} (h : ∀ w ∈ l, w.asleep = true) : l.filterMap W.task = [] := by
  rw [List.filterMap_eq_nil_iff]
  intro w hw
  have := h w hw
  cases w <;> simp_all [W.asleep, W.task]

/-- Entering the loop keeps the invariant: `w` is the state of the worker, `nb` the number of the others that wait. -/
theorem inv_enter {s : St τ} (h : Inv s) {i : Nat} {w : W τ} {nb : Nat} (hw : s.ws[i]? = some w) (hnd : w ≠ .done)
    (ht : w.task = none) (hn : nb + (if w.asleep then 1 else 0) = s.ws.countP W.asleep) : Inv (enter s i nb) := by
  obtain ⟨A, B, e1, e2, e3⟩ := split_at hw
  have hjoin : ∀ (v : W τ) k, s.sub = .joining k → ∀ j, j < k → j < (s.ws.set i v).length → (s.ws.set i v)[j]? = some .done := by
    intro v k hk j hj hl
    rw [List.length_set] at hl
    have := (h.join k hk).2 j hj hl
    rw [List.getElem?_set]
    by_cases hij : i = j
    · subst hij; rw [hw] at this; injection this with this; exact absurd this hnd
    · rw [if_neg hij]; exact this
  have hmem : w ∈ s.ws := by rw [e1]; simp
  rcases enter_cases s i nb with ⟨hs, he⟩ | ⟨hs, hen, he⟩ | ⟨hs, hen, t, l', hl, hlen, he⟩ | ⟨hs, hen, hl, hb, he⟩ | ⟨hs, hen, hl, hb, he⟩
  · rw [he]
    refine ⟨?_, h.endE, ?_, h.waiting, h.woken, h.shutP, ?_, ?_, fun _ => hs, ?_, h.last, h.len, h.perm1, ?_, h.waited, h.stop, h.stopped⟩
    · simp only [e2]; rw [e1] at hn; simp [List.countP_cons, W.asleep] at hn ⊢; omega
    · intro _ h2; rw [hs] at h2; cases h2
    · have := h.shutB; rw [e1] at this; simp only [e2]; simp at this ⊢; exact fun h0 => ⟨(this h0).1, (this h0).2.2⟩
    · intro k hk; exact ⟨hs, hjoin .done k hk⟩
    · intro h1 h2
      have := h.joinAll h1 h2; rw [e1] at this; simp only [e2]
      intro v hv
      rw [List.mem_append, List.mem_cons] at hv
      rcases hv with hv | hv | hv
      · exact this v (by simp [hv])
      · exact hv
      · exact this v (by simp [hv])
    · have := h.perm2; rw [e1] at this; simp only [e2]; simp only [List.filterMap_append, List.filterMap_cons, ht, task_done, task_blocked, task_busy] at this ⊢; exact this
  · have hasl := h.endAll hen hs
    rw [he]
    refine ⟨?_, h.endE, ?_, h.waiting, h.woken, ?_, ?_, ?_, ?_, ?_, h.last, h.len, h.perm1, ?_, h.waited, h.stop, h.stopped⟩
    · simp only [e2]; rw [e1] at hn; simp [List.countP_cons, W.asleep] at hn ⊢; omega
    · intro _ _ v hv
      simp only [e2] at hv
      rw [List.mem_append, List.mem_cons] at hv
      rcases hv with hv | hv | hv
      · exact hasl v (by rw [e1]; simp [hv])
      · rw [hv]; rfl
      · exact hasl v (by rw [e1]; simp [hv])
    · intro h2; rw [hs] at h2; cases h2
    · intro h2; rw [hs] at h2; cases h2
    · intro k hk; exact ⟨(h.join k hk).1, hjoin _ k hk⟩
    · have := h.doneS; rw [e1] at this; simp only [e2]; simp at this ⊢
      intro h0; apply this; rcases h0 with h0 | h0
      · exact Or.inl h0
      · exact Or.inr (Or.inr h0)
    · intro h2; rw [hs] at h2; cases h2
    · have := h.perm2; rw [e1] at this; simp only [e2]; simp only [List.filterMap_append, List.filterMap_cons, ht, task_done, task_blocked, task_busy] at this ⊢; exact this
  · have hne : s.list ≠ [] := by intro h0; rw [h0] at hlen; simp at hlen
    rw [he]
    refine ⟨?_, ?_, ?_, h.waiting, h.woken, ?_, ?_, ?_, ?_, ?_, h.last, ?_, ?_, ?_, ?_, ?_, ?_⟩
    · simp only [e2]; rw [e1] at hn; simp [List.countP_cons, W.asleep] at hn ⊢; omega
    · intro h2; rw [hen] at h2; cases h2
    · intro h2; rw [hen] at h2; cases h2
    · intro h2; rw [hs] at h2; cases h2
    · intro h2; rw [hs] at h2; cases h2
    · intro k hk; exact ⟨(h.join k hk).1, hjoin _ k hk⟩
    · have := h.doneS; rw [e1] at this; simp only [e2]; simp at this ⊢
      intro h0; apply this; rcases h0 with h0 | h0
      · exact Or.inl h0
      · exact Or.inr (Or.inr h0)
    · intro h2; rw [hs] at h2; cases h2
    · have := h.len; show l'.length + adds s.prog < 2 ^ 32; omega
    · have := h.perm1
      show (submits (s.evs ++ [.begin t])).Perm (begins (s.evs ++ [.begin t]) ++ l'.filterMap id)
      rw [hl] at this
      simp [submits, begins] at this ⊢
      exact this
    · have := h.perm2; rw [e1] at this; simp only [e2]
      rw [begins_append, fins_append, show fins [Ev.begin t] = [] from rfl, show begins [Ev.begin t] = [t] from rfl, List.append_nil]
      simp only [List.filterMap_append, List.filterMap_cons, ht, task_done, task_blocked, task_busy] at this ⊢
      have h2 := this.append_right [t]
      refine h2.trans ?_
      rw [List.append_assoc, List.append_assoc]
      refine List.Perm.append_left _ (List.Perm.append_left _ ?_)
      exact List.perm_append_comm
    · exact waited_append (by simp) h.waited
    · intro h2
      have := h.stop h2
      simp [this]
    · exact stopped_none (by have := h.stop hs; simp [this])
  · have hall : ∀ v ∈ (s.ws.map unblock).set i .blocked, v.asleep = true := by
      have hcount : ((s.ws.map unblock).set i .blocked).countP W.asleep = ((s.ws.map unblock).set i .blocked).length := by
        simp only [e3, List.length_append, List.length_cons, List.length_map, List.countP_append, List.countP_cons, map_unblock_asleep]
        rw [e1] at hn hb; simp [List.countP_cons, W.asleep] at hn hb ⊢; omega
      exact all_of_count hcount
    rw [he]
    refine ⟨?_, fun _ => rfl, fun _ _ => hall, ?_, ?_, ?_, ?_, ?_, ?_, ?_, h.last, ?_, ?_, ?_, h.waited, h.stop, h.stopped⟩
    · simp only [e3, List.countP_append, List.countP_cons, map_unblock_asleep]; rw [e1] at hn; simp [List.countP_cons, W.asleep] at hn ⊢; omega
    · intro h2; exfalso
      show False
      simp only at h2
      cases hsub : s.sub <;> rw [hsub] at h2 <;> simp [unblockSub] at h2
    · intro _; exact ⟨rfl, hs⟩
    · intro h2; rw [hs] at h2; cases h2
    · intro h2; rw [hs] at h2; cases h2
    · intro k hk
      have hk' : s.sub = .joining k := by
        simp only at hk
        cases hsub : s.sub <;> rw [hsub] at hk <;> simp [unblockSub] at hk
        rw [hk]
      have := (h.join k hk').1
      rw [hs] at this; cases this
    · intro h2; have := hall _ h2; simp [W.asleep] at this
    · intro h2; rw [hs] at h2; cases h2
    · have := h.len; show 0 + adds s.prog < 2 ^ 32; omega
    · have := h.perm1; rw [hl] at this; exact this
    · have := h.perm2; rw [e1] at this
      simp only [e3, List.filterMap_append, List.filterMap_cons, map_unblock_task]
      simp only [List.filterMap_append, List.filterMap_cons, ht, task_done, task_blocked, task_busy] at this ⊢; exact this
  · rw [he]
    refine ⟨?_, fun _ => rfl, ?_, h.waiting, h.woken, ?_, ?_, ?_, ?_, ?_, h.last, ?_, ?_, ?_, h.waited, h.stop, h.stopped⟩
    · simp only [e2]; rw [e1] at hn; simp [List.countP_cons, W.asleep] at hn ⊢; omega
    · intro h2; rw [hen] at h2; cases h2
    · intro h2; rw [hs] at h2; cases h2
    · intro h2; rw [hs] at h2; cases h2
    · intro k hk; exact ⟨(h.join k hk).1, hjoin _ k hk⟩
    · have := h.doneS; rw [e1] at this; simp only [e2]; simp at this ⊢
      intro h0; apply this; rcases h0 with h0 | h0
      · exact Or.inl h0
      · exact Or.inr (Or.inr h0)
    · intro h2; rw [hs] at h2; cases h2
    · have := h.len; show 0 + adds s.prog < 2 ^ 32; omega
    · have := h.perm1; rw [hl] at this; exact this
    · have := h.perm2; rw [e1] at this; simp only [e2]; simp only [List.filterMap_append, List.filterMap_cons, ht, task_done, task_blocked, task_busy] at this ⊢; exact this

/-- Changing one worker to `woken` or `back` or such. -/
theorem inv_set {s : St τ} (h : Inv s) {i : Nat} {w v : W τ} (hw : s.ws[i]? = some w) (hnd : w ≠ .done) (hv : v ≠ .done) (hv' : v ≠ .blocked)
    (ha : v.asleep = w.asleep) (ht : v.task = w.task) : Inv { s with ws := s.ws.set i v } := by
  obtain ⟨A, B, e1, e2, e3⟩ := split_at hw
  have hnone : ¬ (s.shut = true ∧ s.sub = .idle) := by
    rintro ⟨h1, h2⟩; exact hnd (h.joinAll h1 h2 w (by rw [e1]; simp))
  refine ⟨?_, h.endE, ?_, h.waiting, h.woken, h.shutP, ?_, ?_, ?_, ?_, h.last, h.len, h.perm1, ?_, h.waited, h.stop, h.stopped⟩
  · rw [h.nb]; simp only [e2]; rw [e1]; simp [List.countP_cons, ha]
  · intro h1 h2 x hx
    have hasl := h.endAll h1 h2
    simp only [e2] at hx
    rw [List.mem_append, List.mem_cons] at hx
    rcases hx with hx | hx | hx
    · exact hasl x (by rw [e1]; simp [hx])
    · rw [hx, ha]; exact hasl w (by rw [e1]; simp)
    · exact hasl x (by rw [e1]; simp [hx])
  · intro h0; have := h.shutB h0; rw [e1] at this; simp only [e2]; simp at this ⊢; exact ⟨this.1, fun h => hv' h.symm, this.2.2⟩
  · intro k hk
    refine ⟨(h.join k hk).1, ?_⟩
    intro j hj hl
    simp only at hl
    rw [List.length_set] at hl
    have := (h.join k hk).2 j hj hl
    show (s.ws.set i v)[j]? = _
    rw [List.getElem?_set]
    by_cases hij : i = j
    · subst hij; rw [hw] at this; injection this with this; exact absurd this hnd
    · rw [if_neg hij]; exact this
  · have := h.doneS; rw [e1] at this; simp only [e2]; simp at this ⊢
    intro h0; apply this; rcases h0 with h0 | h0 | h0
    · exact Or.inl h0
    · exact absurd h0.symm hv
    · exact Or.inr (Or.inr h0)
  · intro h1 h2; exact absurd ⟨h1, h2⟩ hnone
  · have := h.perm2; rw [e1] at this; simp only [e2]; simp [List.filterMap_cons, ht] at this ⊢; exact this

theorem inv_step {s s' : St τ} (h : Inv s) (hs : Step s s') : Inv s' := by
  cases hs with
  | first hw => exact inv_enter h hw (by simp) rfl (by simp [W.asleep, h.nb])
  | relock hw => exact inv_enter h hw (by simp) rfl (by simp [W.asleep, h.nb])
  | resume hw =>
    refine inv_enter h hw (by simp) rfl ?_
    obtain ⟨A, B, e1, _⟩ := split_at hw
    have : 0 < s.ws.countP W.asleep := by
      rw [List.countP_pos_iff]; exact ⟨.woken, by rw [e1]; simp, rfl⟩
    rw [h.nb]; simp [W.asleep]; omega
  | @fin i t hw =>
    obtain ⟨A, B, e1, e2, e3⟩ := split_at hw
    have hmem : W.busy t ∈ s.ws := by rw [e1]; simp
    have hnone : ¬ (s.shut = true ∧ s.sub = .idle) := by
      rintro ⟨h1, h2⟩; cases h.joinAll h1 h2 _ hmem
    refine ⟨?_, h.endE, ?_, h.waiting, h.woken, h.shutP, ?_, ?_, ?_, ?_, h.last, h.len, ?_, ?_, ?_, ?_, ?_⟩
    · rw [h.nb]; simp only [e2]; rw [e1]; simp [List.countP_cons, W.asleep]
    · intro h1 h2
      have := h.endAll h1 h2 _ hmem
      simp [W.asleep] at this
    · intro h0; have := h.shutB h0; rw [e1] at this; simp only [e2]; simp at this ⊢; exact this
    · intro k hk
      refine ⟨(h.join k hk).1, ?_⟩
      intro j hj hl
      simp only at hl
      rw [List.length_set] at hl
      have := (h.join k hk).2 j hj hl
      show (s.ws.set i _)[j]? = _
      rw [List.getElem?_set]
      by_cases hij : i = j
      · subst hij; rw [hw] at this; cases this
      · rw [if_neg hij]; exact this
    · have := h.doneS; rw [e1] at this; simp only [e2]; simp at this ⊢; exact this
    · intro h1 h2; exact absurd ⟨h1, h2⟩ hnone
    · have := h.perm1; simp [submits, begins] at this ⊢; exact this
    · have := h.perm2; rw [e1] at this; simp only [e2]
      rw [begins_append, fins_append, show fins [Ev.fin t] = [t] from rfl, show begins [Ev.fin t] = [] from rfl, List.append_nil]
      simp [W.task] at this ⊢
      refine this.trans (List.Perm.append_left _ ?_)
      exact List.perm_middle
    · exact waited_append (by simp) h.waited
    · intro h2; have := h.stop h2; simp [this]
    · exact stopped_append (by simp) rfl h.stopped
  | @add d ps hsub hp =>
    have hshut : s.shut = false := by
      cases hh : s.shut with
      | false => rfl
      | true => have := (h.shutP hh).1; rw [hp] at this; cases this
    refine ⟨h.nb, ?_, ?_, ?_, ?_, ?_, h.shutB, ?_, h.doneS, ?_, ?_, ?_, ?_, ?_, ?_, ?_, ?_⟩
    · intro h1; simp at h1
    · intro h1; simp at h1
    · intro h1; simp at h1
    · intro h1; simp at h1
    · intro h1; rw [hshut] at h1; cases h1
    · intro k hk; simp at hk
    · intro h1; rw [hshut] at h1; cases h1
    · have := h.last; rw [hp] at this; exact this
    · have := h.len; rw [hp] at this; simp [adds] at this ⊢; omega
    · have := h.perm1
      show (submits (s.evs ++ submitEv d)).Perm (begins (s.evs ++ submitEv d) ++ (s.list ++ [d]).filterMap id)
      cases d with
      | none => simp [submitEv] at this ⊢; exact this
      | some t =>
        rw [submits_append, begins_append, show submits (submitEv (some t)) = [t] from rfl, show begins (submitEv (some t)) = [] from rfl]
        simp at this ⊢
        have h2 := this.append_right [t]
        simpa using h2
    · have := h.perm2
      cases d with
      | none => simpa [submitEv] using this
      | some t => simp [submitEv, begins, fins] at this ⊢; exact this
    · cases d with
      | none => simpa [submitEv] using h.waited
      | some t => exact waited_append (by simp) h.waited
    · intro h2; have := h.stop h2; cases d <;> simp [submitEv, this]
    · cases d with
      | none => simpa [submitEv] using h.stopped
      | some t => exact stopped_append (by simp) rfl h.stopped
  | @signal i hsub hw =>
    have h2 := inv_set h hw (v := .woken) (by simp) (by simp) (by simp) rfl rfl
    have hshut : s.shut = false := by
      cases hh : s.shut with
      | false => rfl
      | true => rcases (h.shutP hh).2 with h3 | ⟨k, h3⟩ <;> rw [hsub] at h3 <;> cases h3
    refine ⟨h2.nb, h2.endE, h2.endAll, ?_, ?_, ?_, h2.shutB, ?_, h2.doneS, ?_, h2.last, h2.len, h2.perm1, h2.perm2, h2.waited, h2.stop, h2.stopped⟩
    · intro h1; simp at h1
    · intro h1; simp at h1
    · intro h1; rw [hshut] at h1; cases h1
    · intro k hk; simp at hk
    · intro h1; rw [hshut] at h1; cases h1
  | signalNone hsub hw =>
    have hshut : s.shut = false := by
      cases hh : s.shut with
      | false => rfl
      | true => rcases (h.shutP hh).2 with h3 | ⟨k, h3⟩ <;> rw [hsub] at h3 <;> cases h3
    refine ⟨h.nb, h.endE, h.endAll, ?_, ?_, ?_, h.shutB, ?_, h.doneS, ?_, h.last, h.len, h.perm1, h.perm2, h.waited, h.stop, h.stopped⟩
    · intro h1; simp at h1
    · intro h1; simp at h1
    · intro h1; rw [hshut] at h1; cases h1
    · intro k hk; simp at hk
    · intro h1; rw [hshut] at h1; cases h1
  | @waitNone ps hsub hp hn =>
    have hshut : s.shut = false := by
      cases hh : s.shut with
      | false => rfl
      | true => have := (h.shutP hh).1; rw [hp] at this; cases this
    have hlist : s.list = [] := by
      have := h.len
      have h0 : s.list.length = 0 := by omega
      exact List.eq_nil_of_length_eq_zero h0
    have hw0 : s.ws.filterMap W.task = [] := filterMap_nil_of_asleep (all_of_count (by rw [← h.nb]; exact hn.2))
    have hdone : (submits s.evs).Perm (begins s.evs) ∧ (begins s.evs).Perm (fins s.evs) := by
      have h1 := h.perm1; have h2 := h.perm2
      rw [hlist] at h1; rw [hw0] at h2; simp at h1 h2; exact ⟨h1, h2⟩
    refine ⟨h.nb, fun _ => rfl, h.endAll, ?_, ?_, ?_, h.shutB, h.join, h.doneS, ?_, ?_, ?_, ?_, ?_, ?_, ?_, ?_⟩
    · intro h1; rw [hsub] at h1; cases h1
    · intro h1; rw [hsub] at h1; cases h1
    · intro h1; rw [hshut] at h1; cases h1
    · intro h1; rw [hshut] at h1; cases h1
    · have := h.last; rw [hp] at this; exact this
    · have := h.len; rw [hp] at this; simp [adds] at this ⊢; omega
    · have := hdone.1; simp [submits, begins] at this ⊢; exact this
    · have := h.perm2; simp [fins, begins] at this ⊢; exact this
    · exact waited_new ⟨hdone.1.trans hdone.2, hdone.1⟩ h.waited
    · intro h2; have := h.stop h2; simp [this]
    · exact stopped_append (by simp) rfl h.stopped
  | @wait ps hsub hp hn =>
    have hshut : s.shut = false := by
      cases hh : s.shut with
      | false => rfl
      | true => have := (h.shutP hh).1; rw [hp] at this; cases this
    refine ⟨h.nb, h.endE, h.endAll, ?_, ?_, ?_, h.shutB, ?_, h.doneS, ?_, ?_, ?_, h.perm1, h.perm2, h.waited, h.stop, h.stopped⟩
    · intro _
      refine ⟨rfl, ?_, hshut⟩
      cases hen : s.ended with
      | false => rfl
      | true =>
        exfalso; apply hn
        have := h.endE hen
        refine ⟨by rw [this]; rfl, ?_⟩
        rw [h.nb]; exact List.countP_eq_length.mpr (h.endAll hen hshut)
    · intro h1; simp at h1
    · intro h1; rw [hshut] at h1; cases h1
    · intro k hk; simp at hk
    · intro h1; rw [hshut] at h1; cases h1
    · have := h.last; rw [hp] at this; exact this
    · have := h.len; rw [hp] at this; simp [adds] at this ⊢; omega
  | waitEnd hsub =>
    obtain ⟨hen, hshut⟩ := h.woken hsub
    have hlist := h.endE hen
    have hw0 : s.ws.filterMap W.task = [] := filterMap_nil_of_asleep (h.endAll hen hshut)
    have hdone : (submits s.evs).Perm (begins s.evs) ∧ (begins s.evs).Perm (fins s.evs) := by
      have h1 := h.perm1; have h2 := h.perm2
      rw [hlist] at h1; rw [hw0] at h2; simp at h1 h2; exact ⟨h1, h2⟩
    refine ⟨h.nb, fun _ => rfl, h.endAll, ?_, ?_, ?_, h.shutB, ?_, h.doneS, ?_, h.last, ?_, ?_, ?_, ?_, ?_, ?_⟩
    · intro h1; simp at h1
    · intro h1; simp at h1
    · intro h1; rw [hshut] at h1; cases h1
    · intro k hk; simp at hk
    · intro h1; rw [hshut] at h1; cases h1
    · have := h.len; show 0 + adds s.prog < 2 ^ 32; omega
    · have := hdone.1; simp [submits, begins] at this ⊢; exact this
    · have := h.perm2; simp [fins, begins] at this ⊢; exact this
    · exact waited_new ⟨hdone.1.trans hdone.2, hdone.1⟩ h.waited
    · intro h2; have := h.stop h2; simp [this]
    · exact stopped_append (by simp) rfl h.stopped
  | @shutdown ps hsub hp =>
    have hshut : s.shut = false := by
      cases hh : s.shut with
      | false => rfl
      | true => have := (h.shutP hh).1; rw [hp] at this; cases this
    have hps : ps = [] := by have := h.last; rw [hp] at this; exact this
    refine ⟨?_, h.endE, ?_, ?_, ?_, ?_, ?_, ?_, fun _ => rfl, ?_, ?_, ?_, ?_, ?_, ?_, ?_, ?_⟩
    · rw [h.nb]; exact (map_unblock_asleep _).symm
    · intro _ h1; simp at h1
    · intro h1; simp at h1
    · intro h1; simp at h1
    · intro _; exact ⟨hps, Or.inr ⟨0, rfl⟩⟩
    · intro _; exact blocked_unblock _
    · intro k hk; simp at hk; subst hk; exact ⟨rfl, fun j hj => absurd hj (Nat.not_lt_zero j)⟩
    · intro _ h1; simp at h1
    · show ShutLast ps; rw [hps]; trivial
    · have := h.len; rw [hp] at this; simp [adds] at this ⊢; omega
    · have := h.perm1; simp [submits, begins] at this ⊢; exact this
    · have := h.perm2; simp only [map_unblock_task]; simp [fins, begins] at this ⊢; exact this
    · exact waited_append (by simp) h.waited
    · intro h1; simp at h1
    · intro pre post he
      rcases List.eq_nil_or_concat post with rfl | ⟨q, y, rfl⟩
      · rfl
      · have h1 : s.evs ++ [Ev.stop] = (pre ++ .stop :: q) ++ [y] := by simp only at he; rw [he]; simp
        have := (List.append_inj' h1 rfl).1
        exact absurd (by rw [this]; simp) (h.stop hshut)
  | @join k hsub hw =>
    obtain ⟨hshut, hj⟩ := h.join k hsub
    refine ⟨h.nb, h.endE, h.endAll, ?_, ?_, ?_, h.shutB, ?_, h.doneS, ?_, h.last, h.len, h.perm1, h.perm2, h.waited, h.stop, h.stopped⟩
    · intro h1; simp at h1
    · intro h1; simp at h1
    · intro _; exact ⟨(h.shutP hshut).1, Or.inr ⟨k + 1, rfl⟩⟩
    · intro k' hk'; simp at hk'; subst hk'
      refine ⟨hshut, fun j hj1 hj2 => ?_⟩
      rcases Nat.lt_or_ge j k with h1 | h1
      · exact hj j h1 hj2
      · rw [show j = k by omega]; exact hw
    · intro _ h1; simp at h1
  | @joined k hsub hw =>
    obtain ⟨hshut, hj⟩ := h.join k hsub
    refine ⟨h.nb, h.endE, h.endAll, ?_, ?_, ?_, h.shutB, ?_, h.doneS, ?_, h.last, h.len, h.perm1, h.perm2, h.waited, h.stop, h.stopped⟩
    · intro h1; simp at h1
    · intro h1; simp at h1
    · intro _; exact ⟨(h.shutP hshut).1, Or.inl rfl⟩
    · intro k' hk'; simp at hk'
    · intro _ _ w hmem
      obtain ⟨j, hj1, hj2⟩ := List.getElem_of_mem hmem
      have hj1' : j < s.ws.length := hj1
      have := hj j (by omega) hj1'
      rw [List.getElem?_eq_getElem hj1, hj2] at this
      injection this

theorem inv_spurious {s s' : St τ} (h : Inv s) (hs : Spurious s s') : Inv s' := by
  cases hs with
  | mk hw => exact inv_set h hw (by simp) (by simp) (by simp) rfl rfl

theorem inv_init (n : Nat) (prog : List (Op τ)) (hl : ShutLast prog) (ha : adds prog < 2 ^ 32) : Inv (init n prog) := by
  refine ⟨?_, fun _ => rfl, ?_, ?_, ?_, ?_, ?_, ?_, ?_, ?_, hl, ?_, ?_, ?_, ?_, ?_, ?_⟩
  · show 0 = (List.replicate n W.start).countP W.asleep
    rw [List.countP_replicate]; rfl
  · intro h; simp [init] at h
  · intro h; simp [init] at h
  · intro h; simp [init] at h
  · intro h; simp [init] at h
  · intro h; simp [init] at h
  · intro k h; simp [init] at h
  · intro h; simp [init] at h
  · intro h; simp [init] at h
  · show 0 + adds prog < _; omega
  · simp [init, submits, begins]
  · show (begins []).Perm (fins [] ++ (List.replicate n W.start).filterMap W.task)
    have : (List.replicate n (W.start : W τ)).filterMap W.task = [] := by
      rw [List.filterMap_eq_nil_iff]; intro w hw; rw [List.eq_of_mem_replicate hw]; rfl
    rw [this]; exact List.Perm.refl _
  · intro pre post h; simp [init] at h
  · intro _; simp [init]
  · intro pre post h; simp [init] at h

theorem inv_exec {a b : Nat} {s s' : St τ} (e : Exec a b s s') (h : Inv s) : Inv s' := by
  induction e with
  | refl s => exact h
  | step _ hs ih => exact inv_step (ih h) hs
  | spurious _ hs ih => exact inv_spurious (ih h) hs

end Verif.Pool
