import Verif.Pool.Inv

/-!
# What happens after a shutdown (napr_threadpool.h L79-90, napr_threadpool.c L245-318, L408-451)

An invariant of every execution of every program, whether calls follow the shutdown or not.
-/

set_option linter.unusedSimpArgs false

namespace Verif.Pool

variable {τ : Type}

/-- The part of the pool that does not depend on how it is used. -/
structure Gone (s : St τ) : Prop where
  nb : s.nbWaiting = s.ws.countP W.asleep
  blk : s.shut = true → .blocked ∉ s.ws
  join : ∀ k, s.sub = .joining k → s.shut = true ∧ ∀ j, j < k → j < s.ws.length → s.ws[j]? = some .done
  all : s.shut = true → (∀ k, s.sub ≠ .joining k) → ∀ w ∈ s.ws, w = .done
  perm : (begins s.evs).Perm (fins s.evs ++ s.ws.filterMap W.task)
  stop : .stop ∈ s.evs → s.shut = true
  stopped : ∀ pre post, s.evs = pre ++ .stop :: post → begins post = []

theorem gone_init (n : Nat) (prog : List (Op τ)) : Gone (init n prog) := by
  refine ⟨?_, nofun, nofun, nofun, ?_, nofun, ?_⟩
  · simp [init, List.countP_replicate, W.asleep]
  · simp [init, begins, fins, W.task, List.filterMap_replicate]
  · intro pre post h; simp [init] at h

theorem gone_enter {s : St τ} (h : Gone s) {i : Nat} {w : W τ} {nb : Nat} (hw : s.ws[i]? = some w) (hnd : w ≠ .done)
    (ht : w.task = none) (hn : nb + (if w.asleep then 1 else 0) = s.ws.countP W.asleep) : Gone (enter s i nb) := by
  obtain ⟨A, B, e1, e2, e3⟩ := split_at hw
  have hjoin : s.shut = false → ∀ k, s.sub ≠ .joining k := by
    intro h0 k hk; have := (h.join k hk).1; rw [h0] at this; cases this
  have hst : s.shut = false → .stop ∉ s.evs := by
    intro h0 h1; have := h.stop h1; rw [h0] at this; cases this
  have hp := h.perm
  rw [e1] at hp hn
  simp only [List.filterMap_append, List.filterMap_cons, ht] at hp
  rcases enter_cases s i nb with ⟨hs, he⟩ | ⟨hs, hen, he⟩ | ⟨hs, hen, t, l', hl, hlen, he⟩ | ⟨hs, hen, hl, hb, he⟩ | ⟨hs, hen, hl, hb, he⟩
  · rw [he]
    refine ⟨?_, ?_, ?_, ?_, ?_, h.stop, h.stopped⟩
    · simp only [e2]; simp [List.countP_cons, W.asleep] at hn ⊢; omega
    · intro _; have := h.blk hs; rw [e1] at this; simp only [e2]; simp at this ⊢; exact ⟨this.1, this.2.2⟩
    · intro k hk
      refine ⟨hs, fun j hj hl => ?_⟩
      simp only at hl ⊢
      rw [List.length_set] at hl
      have := (h.join k hk).2 j hj hl
      rw [List.getElem?_set]
      by_cases hij : i = j
      · subst hij; rw [hw] at this; injection this with this; exact absurd this hnd
      · rw [if_neg hij]; exact this
    · intro _ h1 v hv
      have := h.all hs h1 w (by rw [e1]; simp)
      exact absurd this hnd
    · simp only [e2, List.filterMap_append, List.filterMap_cons, task_done]; exact hp
  · rw [he]
    refine ⟨?_, fun h0 => absurd (hs.symm.trans h0) Bool.false_ne_true, fun k hk => absurd hk (hjoin hs k), fun h0 => absurd (hs.symm.trans h0) Bool.false_ne_true, ?_, h.stop, h.stopped⟩
    · simp only [e2]; simp [List.countP_cons, W.asleep] at hn ⊢; omega
    · simp only [e2, List.filterMap_append, List.filterMap_cons, task_blocked]; exact hp
  · rw [he]
    refine ⟨?_, fun h0 => absurd (hs.symm.trans h0) Bool.false_ne_true, fun k hk => absurd hk (hjoin hs k), fun h0 => absurd (hs.symm.trans h0) Bool.false_ne_true, ?_, ?_, ?_⟩
    · simp only [e2]; simp [List.countP_cons, W.asleep] at hn ⊢; omega
    · simp only [e2, List.filterMap_append, List.filterMap_cons, task_busy, begins_append, fins_append]
      rw [show begins [Ev.begin t] = [t] from rfl, show fins [Ev.begin t] = [] from rfl, List.append_nil]
      refine (hp.append_right [t]).trans ?_
      simp only [List.append_assoc]
      refine List.Perm.append_left _ (List.Perm.append_left _ ?_)
      exact List.perm_append_comm
    · intro h0; simp at h0; exact absurd h0 (hst hs)
    · exact stopped_none (by simp; exact hst hs)
  · rw [he]
    refine ⟨?_, fun h0 => absurd (hs.symm.trans h0) Bool.false_ne_true, ?_, fun h0 => absurd (hs.symm.trans h0) Bool.false_ne_true, ?_, h.stop, h.stopped⟩
    · have m1 := map_unblock_asleep A; have m2 := map_unblock_asleep B
      rw [List.countP_append, List.countP_cons] at hn
      generalize (if w.asleep = true then 1 else 0) = x at hn
      have e4 : ((s.ws.map unblock).set i .blocked).countP W.asleep = A.countP W.asleep + (B.countP W.asleep + 1) := by
        rw [e3, List.countP_append, List.countP_cons, m1, m2]; rfl
      show nb + 1 = _
      rw [e4]; omega
    · intro k hk
      cases hsub : s.sub <;> simp [hsub, unblockSub] at hk
      exact absurd hsub (hjoin hs _)
    · simp only [e3, List.filterMap_append, List.filterMap_cons, task_blocked, map_unblock_task]; exact hp
  · rw [he]
    refine ⟨?_, fun h0 => absurd (hs.symm.trans h0) Bool.false_ne_true, fun k hk => absurd hk (hjoin hs k), fun h0 => absurd (hs.symm.trans h0) Bool.false_ne_true, ?_, h.stop, h.stopped⟩
    · simp only [e2]; simp [List.countP_cons, W.asleep] at hn ⊢; omega
    · simp only [e2, List.filterMap_append, List.filterMap_cons, task_blocked]; exact hp

theorem gone_step {s s' : St τ} (h : Gone s) (hs : Step s s') : Gone s' := by
  cases hs with
  | first hw => exact gone_enter h hw (by simp) rfl (by simp [W.asleep, h.nb])
  | relock hw => exact gone_enter h hw (by simp) rfl (by simp [W.asleep, h.nb])
  | resume hw =>
    refine gone_enter h hw (by simp) rfl ?_
    obtain ⟨A, B, e1, _⟩ := split_at hw
    have : 0 < s.ws.countP W.asleep := by
      rw [List.countP_pos_iff]; exact ⟨.woken, by rw [e1]; simp, rfl⟩
    rw [h.nb]; simp [W.asleep]; omega
  | @fin i t hw =>
    obtain ⟨A, B, e1, e2, e3⟩ := split_at hw
    refine ⟨?_, ?_, ?_, ?_, ?_, ?_, ?_⟩
    · rw [h.nb]; simp only [e2]; rw [e1]; simp [List.countP_cons, W.asleep]
    · intro h0; have := h.blk h0; rw [e1] at this; simp only [e2]; simp at this ⊢; exact this
    · intro k hk
      refine ⟨(h.join k hk).1, fun j hj hl => ?_⟩
      simp only at hl ⊢
      rw [List.length_set] at hl
      have := (h.join k hk).2 j hj hl
      rw [List.getElem?_set]
      by_cases hij : i = j
      · subst hij; rw [hw] at this; cases this
      · rw [if_neg hij]; exact this
    · intro h1 h2 v hv
      have := h.all h1 h2 (.busy t) (by rw [e1]; simp)
      cases this
    · have := h.perm; rw [e1] at this; simp only [e2]
      rw [begins_append, fins_append, show fins [Ev.fin t] = [t] from rfl, show begins [Ev.fin t] = [] from rfl, List.append_nil]
      simp [W.task] at this ⊢
      exact this.trans (List.Perm.append_left _ List.perm_middle)
    · intro h0; simp at h0; exact h.stop h0
    · exact stopped_append (by simp) rfl h.stopped
  | @add d ps hsub hp =>
    refine ⟨h.nb, h.blk, nofun, fun h1 _ => h.all h1 (by rw [hsub]; nofun), ?_, ?_, ?_⟩
    · cases d with
      | none => simpa [submitEv] using h.perm
      | some t => have := h.perm; simp [submitEv, begins, fins] at this ⊢; exact this
    · intro h0; cases d <;> simp [submitEv] at h0 <;> exact h.stop h0
    · cases d with
      | none => simpa [submitEv] using h.stopped
      | some t => exact stopped_append (by simp) rfl h.stopped
  | @signal i hsub hw =>
    obtain ⟨A, B, e1, e2, e3⟩ := split_at hw
    have hns : s.shut = false := by
      cases hh : s.shut with
      | false => rfl
      | true => exact absurd (by rw [e1]; simp) (h.blk hh)
    refine ⟨?_, fun h0 => absurd (hns.symm.trans h0) Bool.false_ne_true, nofun, fun h0 => absurd (hns.symm.trans h0) Bool.false_ne_true, ?_, h.stop, h.stopped⟩
    · rw [h.nb]; simp only [e2]; rw [e1]; simp [List.countP_cons, W.asleep]
    · have := h.perm; rw [e1] at this; simp only [e2]; simpa [W.task, List.filterMap_cons] using this
  | signalNone hsub hw => exact ⟨h.nb, h.blk, nofun, fun h1 _ => h.all h1 (by rw [hsub]; nofun), h.perm, h.stop, h.stopped⟩
  | waitNone hsub hp hn =>
    refine ⟨h.nb, h.blk, h.join, h.all, ?_, ?_, ?_⟩
    · have := h.perm; simp [begins, fins] at this ⊢; exact this
    · intro h0; simp at h0; exact h.stop h0
    · exact stopped_append (by simp) rfl h.stopped
  | wait hsub hp hn => exact ⟨h.nb, h.blk, nofun, fun h1 _ => h.all h1 (by rw [hsub]; nofun), h.perm, h.stop, h.stopped⟩
  | waitEnd hsub =>
    refine ⟨h.nb, h.blk, nofun, fun h1 _ => h.all h1 (by rw [hsub]; nofun), ?_, ?_, ?_⟩
    · have := h.perm; simp [begins, fins] at this ⊢; exact this
    · intro h0; simp at h0; exact h.stop h0
    · exact stopped_append (by simp) rfl h.stopped
  | shutdown hsub hp =>
    refine ⟨?_, fun _ => blocked_unblock _, ?_, fun _ h2 => absurd rfl (h2 0), ?_, fun _ => rfl, ?_⟩
    · show s.nbWaiting = _; rw [map_unblock_asleep]; exact h.nb
    · intro k hk; simp at hk; subst hk; exact ⟨rfl, fun j hj => by omega⟩
    · have := h.perm
      rw [begins_append, fins_append, map_unblock_task]; simp [begins, fins] at this ⊢; exact this
    · intro pre post he
      rcases List.eq_nil_or_concat post with rfl | ⟨q, y, rfl⟩
      · rfl
      · simp only at he
        have h1 : s.evs ++ [.stop] = (pre ++ .stop :: q) ++ [y] := by rw [he]; simp
        obtain ⟨h2, h3⟩ := List.append_inj' h1 rfl
        injection h3 with h3
        rw [List.concat_eq_append, begins_append, h.stopped pre q h2, ← h3]; rfl
  | @join k hsub hw =>
    refine ⟨h.nb, h.blk, ?_, fun _ h2 => absurd rfl (h2 (k + 1)), h.perm, h.stop, h.stopped⟩
    intro k' hk'
    simp at hk'; subst hk'
    refine ⟨(h.join k hsub).1, fun j hj hl => ?_⟩
    by_cases hjk : j = k
    · subst hjk; exact hw
    · exact (h.join k hsub).2 j (by omega) hl
  | @joined k hsub hw =>
    refine ⟨h.nb, h.blk, nofun, fun _ _ w hw' => ?_, h.perm, h.stop, h.stopped⟩
    obtain ⟨j, hj, e⟩ := List.getElem_of_mem hw'
    have := (h.join k hsub).2 j (by simp only at hj; omega) hj
    rw [List.getElem?_eq_getElem hj] at this
    injection this with this
    rw [← e]; exact this

theorem gone_spurious {s s' : St τ} (h : Gone s) (hs : Spurious s s') : Gone s' := by
  cases hs with
  | @mk i hw =>
    obtain ⟨A, B, e1, e2, e3⟩ := split_at hw
    have hns : s.shut = false := by
      cases hh : s.shut with
      | false => rfl
      | true => exact absurd (by rw [e1]; simp) (h.blk hh)
    have hj : ∀ k, s.sub ≠ .joining k := by
      intro k hk; have := (h.join k hk).1; rw [hns] at this; cases this
    refine ⟨?_, fun h0 => absurd (hns.symm.trans h0) Bool.false_ne_true, fun k hk => absurd hk (hj k), fun h0 => absurd (hns.symm.trans h0) Bool.false_ne_true, ?_, h.stop, h.stopped⟩
    · rw [h.nb]; simp only [e2]; rw [e1]; simp [List.countP_cons, W.asleep]
    · have := h.perm; rw [e1] at this; simp only [e2]; simpa [W.task, List.filterMap_cons] using this

theorem gone_exec {a b : Nat} {s s' : St τ} (e : Exec a b s s') (h : Gone s) : Gone s' := by
  induction e with
  | refl s => exact h
  | step _ hs ih => exact gone_step (ih h) hs
  | spurious _ hs ih => exact gone_spurious (ih h) hs

end Verif.Pool
