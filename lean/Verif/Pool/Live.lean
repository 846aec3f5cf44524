import Verif.Pool.Inv

/-! Progress and termination of the thread pool. -/

set_option linter.unusedSimpArgs false

namespace Verif.Pool

variable {τ : Type}

/-- Whenever there is something to do, somebody is going to do it. -/
structure Live (s : St τ) : Prop where
  some : s.ws ≠ []
  list : s.list ≠ [] → s.sub ≠ .signal → s.shut = false → ∃ w ∈ s.ws, w.active = true
  wait : s.sub = .waiting → ∃ w ∈ s.ws, w.active = true

theorem active_of_not_asleep {w : W τ} (h1 : w.asleep = false) (h2 : w ≠ .done) : w.active = true := by
  cases w <;> simp_all [W.asleep, W.active]

theorem exists_active {s : St τ} (h : Inv s) (hs : s.shut = false) (hn : s.nbWaiting ≠ s.ws.length) : ∃ w ∈ s.ws, w.active = true := by
  have : ¬ ∀ w ∈ s.ws, w.asleep = true := by
    intro h0; apply hn; rw [h.nb]; exact List.countP_eq_length.mpr h0
  simp only [Classical.not_forall] at this
  obtain ⟨w, hw, h0⟩ := this
  refine ⟨w, hw, active_of_not_asleep (by simpa using h0) ?_⟩
  rintro rfl
  rw [h.doneS hw] at hs; cases hs

theorem mem_set {l : List α} {i : Nat} {w : α} (v : α) (h : l[i]? = some w) : v ∈ l.set i v := by
  obtain ⟨A, B, _, e2, _⟩ := split_at h
  rw [e2]; simp

theorem set_ne_nil {l : List α} (i : Nat) (v : α) (h : l ≠ []) : l.set i v ≠ [] := by
  cases l with
  | nil => exact absurd rfl h
  | cons a l => cases i <;> simp

theorem live_enter {s : St τ} (h : Inv s) (l : Live s) {i : Nat} {w : W τ} {nb : Nat} (hw : s.ws[i]? = some w)
    (h' : Inv (enter s i nb)) : Live (enter s i nb) := by
  rcases enter_cases s i nb with ⟨hs, he⟩ | ⟨hs, hen, he⟩ | ⟨hs, hen, t, l', hl, hlen, he⟩ | ⟨hs, hen, hl, hb, he⟩ | ⟨hs, hen, hl, hb, he⟩
  · rw [he]
    refine ⟨set_ne_nil _ _ l.some, ?_, ?_⟩
    · intro _ _ h2; rw [hs] at h2; cases h2
    · intro h2; rw [(h.waiting h2).2.2] at hs; cases hs
  · rw [he]
    refine ⟨set_ne_nil _ _ l.some, ?_, ?_⟩
    · intro h2; exact absurd (h.endE hen) h2
    · intro h2; rw [(h.waiting h2).2.1] at hen; cases hen
  · rw [he]
    exact ⟨set_ne_nil _ _ l.some, fun _ _ _ => ⟨_, mem_set _ hw, rfl⟩, fun _ => ⟨_, mem_set _ hw, rfl⟩⟩
  · rw [he]
    refine ⟨set_ne_nil _ _ (by simpa using l.some), fun h2 => absurd rfl h2, ?_⟩
    intro h2
    simp only at h2
    cases hsub : s.sub <;> rw [hsub] at h2 <;> simp [unblockSub] at h2
  · have h2 := h'
    rw [he] at h2 ⊢
    refine ⟨set_ne_nil _ _ l.some, fun h2 => absurd rfl h2, ?_⟩
    intro hsub
    apply exists_active h2 hs
    intro h0
    apply hb
    refine ⟨(h.waiting hsub).1, ?_⟩
    simp at h0; exact h0

theorem live_step {s s' : St τ} (h : Inv s) (l : Live s) (hs : Step s s') : Live s' := by
  have h' := inv_step h hs
  cases hs with
  | first hw => exact live_enter h l hw h'
  | relock hw => exact live_enter h l hw h'
  | resume hw => exact live_enter h l hw h'
  | fin hw => exact ⟨set_ne_nil _ _ l.some, fun _ _ _ => ⟨_, mem_set _ hw, rfl⟩, fun _ => ⟨_, mem_set _ hw, rfl⟩⟩
  | add hsub hp => exact ⟨l.some, fun _ h2 => absurd rfl h2, fun h2 => by simp at h2⟩
  | signal hsub hw => exact ⟨set_ne_nil _ _ l.some, fun _ _ _ => ⟨_, mem_set _ hw, rfl⟩, fun h2 => by simp at h2⟩
  | signalNone hsub hw =>
    refine ⟨l.some, fun _ _ hshut => ?_, fun h2 => by simp at h2⟩
    obtain ⟨w, hm⟩ := List.exists_mem_of_ne_nil _ l.some
    refine ⟨w, hm, ?_⟩
    have h1 : w ≠ .blocked := by rintro rfl; exact hw hm
    have h2 : w ≠ .done := by rintro rfl; have := h.doneS hm; simp only at hshut; rw [this] at hshut; cases hshut
    cases w <;> simp_all [W.active]
  | waitNone hsub hp hn => exact ⟨l.some, fun h2 => absurd rfl h2, fun h2 => by simp only at h2; rw [hsub] at h2; cases h2⟩
  | @wait ps hsub hp hn =>
    have hshut : s.shut = false := (h'.waiting rfl).2.2
    have hex : ∃ w ∈ s.ws, w.active = true := by
      by_cases h0 : s.nbWaiting = s.ws.length
      · refine l.list ?_ (by rw [hsub]; simp) hshut
        intro h1; exact hn ⟨by rw [h1]; rfl, h0⟩
      · exact exists_active h hshut h0
    exact ⟨l.some, fun _ _ _ => hex, fun _ => hex⟩
  | waitEnd hsub => exact ⟨l.some, fun h2 => absurd rfl h2, fun h2 => by simp at h2⟩
  | shutdown hsub hp => exact ⟨by simpa using l.some, fun _ _ h2 => by simp at h2, fun h2 => by simp at h2⟩
  | join hsub hw =>
    refine ⟨l.some, fun _ _ h2 => ?_, fun h2 => by simp at h2⟩
    simp only at h2; rw [(h.join _ hsub).1] at h2; cases h2
  | joined hsub hw =>
    refine ⟨l.some, fun _ _ h2 => ?_, fun h2 => by simp at h2⟩
    simp only at h2; rw [(h.join _ hsub).1] at h2; cases h2

theorem live_spurious {s s' : St τ} (l : Live s) (hs : Spurious s s') : Live s' := by
  cases hs with
  | mk hw => exact ⟨set_ne_nil _ _ l.some, fun _ _ _ => ⟨_, mem_set _ hw, rfl⟩, fun _ => ⟨_, mem_set _ hw, rfl⟩⟩

theorem live_init {n : Nat} (hn : 1 ≤ n) (prog : List (Op τ)) : Live (init n prog) := by
  refine ⟨?_, fun h => absurd rfl h, fun h => by simp [init] at h⟩
  show List.replicate n _ ≠ []
  intro h; have := congrArg List.length h; simp at this; omega

theorem live_exec {a b : Nat} {s s' : St τ} (e : Exec a b s s') (h : Inv s) (l : Live s) : Live s' := by
  induction e with
  | refl s => exact l
  | step he hs ih => exact live_step (inv_exec he h) (ih h l) hs
  | spurious he hs ih => exact live_spurious (ih h l) hs

theorem active_step {s : St τ} (h : ∃ w ∈ s.ws, w.active = true) : ∃ s', Step s s' := by
  obtain ⟨w, hm, ha⟩ := h
  obtain ⟨i, hi, e⟩ := List.getElem_of_mem hm
  have hw : s.ws[i]? = some w := by rw [List.getElem?_eq_getElem hi, e]
  cases w with
  | start => exact ⟨_, .first hw⟩
  | busy t => exact ⟨_, .fin hw⟩
  | back => exact ⟨_, .relock hw⟩
  | woken => exact ⟨_, .resume hw⟩
  | blocked => simp [W.active] at ha
  | done => simp [W.active] at ha

theorem progress {s : St τ} (h : Inv s) (l : Live s) (hnot : ¬ (s.sub = .idle ∧ s.prog = [])) : ∃ s', Step s s' := by
  cases hsub : s.sub with
  | idle =>
    cases hp : s.prog with
    | nil => exact absurd ⟨hsub, hp⟩ hnot
    | cons o ps =>
      cases o with
      | add d => exact ⟨_, .add hsub hp⟩
      | wait =>
        by_cases hn : s.list.length % 2 ^ 32 = 0 ∧ s.nbWaiting = s.ws.length
        · exact ⟨_, .waitNone hsub hp hn⟩
        · exact ⟨_, .wait hsub hp hn⟩
      | shutdown => exact ⟨_, .shutdown hsub hp⟩
  | signal =>
    by_cases hb : .blocked ∈ s.ws
    · obtain ⟨i, hi, e⟩ := List.getElem_of_mem hb
      exact ⟨_, .signal (i := i) hsub (by rw [List.getElem?_eq_getElem hi, e])⟩
    · exact ⟨_, .signalNone hsub hb⟩
  | waiting => exact active_step (l.wait hsub)
  | woken => exact ⟨_, .waitEnd hsub⟩
  | joining k =>
    rcases Nat.lt_or_ge k s.ws.length with hk | hk
    · obtain ⟨hshut, _⟩ := h.join k hsub
      cases hw : s.ws[k] with
      | done => exact ⟨_, .join hsub (by rw [List.getElem?_eq_getElem hk, hw])⟩
      | blocked => exact absurd (by rw [← hw]; exact List.getElem_mem hk) (h.shutB hshut)
      | start => exact active_step ⟨_, List.getElem_mem hk, by rw [hw]; rfl⟩
      | busy t => exact active_step ⟨_, List.getElem_mem hk, by rw [hw]; rfl⟩
      | back => exact active_step ⟨_, List.getElem_mem hk, by rw [hw]; rfl⟩
      | woken => exact active_step ⟨_, List.getElem_mem hk, by rw [hw]; rfl⟩
    · exact ⟨_, .joined hsub hk⟩

/-! ## A measure that every step decreases -/

def W.weight : W τ → Nat
  | .busy _ => 2 | .blocked => 0 | .done => 0 | _ => 1

def Sub.weight (n : Nat) : Sub → Nat
  | .idle => 0 | .signal => 2 | .waiting => 2 | .woken => 1 | .joining k => n - k + 1

def Op.weight (n : Nat) : Op τ → Nat
  | .add _ => n + 6 | .wait => 3 | .shutdown => 2 * n + 2

def wsum (l : List (W τ)) : Nat := (l.map W.weight).sum

def progWeight (n : Nat) (l : List (Op τ)) : Nat := (l.map (Op.weight n)).sum

/-- A bound on the steps left. -/
def measure (s : St τ) : Nat :=
  wsum s.ws + 2 * s.list.length + (if s.ended then 0 else s.ws.length + 1) + s.sub.weight s.ws.length + progWeight s.ws.length s.prog

theorem wsum_append (a b : List (W τ)) : wsum (a ++ b) = wsum a + wsum b := by simp [wsum]
theorem wsum_cons (w : W τ) (b : List (W τ)) : wsum (w :: b) = w.weight + wsum b := by simp [wsum]

theorem wsum_unblock (l : List (W τ)) : wsum (l.map unblock) ≤ wsum l + l.length := by
  induction l with
  | nil => simp [wsum]
  | cons w l ih => cases w <;> simp [wsum_cons, unblock, W.weight] <;> omega

theorem unblockSub_weight (n : Nat) (s : Sub) : (unblockSub s).weight n ≤ s.weight n := by
  cases s <;> simp [unblockSub, Sub.weight]

theorem enter_measure {s : St τ} {i nb : Nat} {w : W τ} (hw : s.ws[i]? = some w) (hwt : w.weight = 1) :
    measure (enter s i nb) < measure s := by
  obtain ⟨A, B, e1, e2, e3⟩ := split_at hw
  rcases enter_cases s i nb with ⟨hs, he⟩ | ⟨hs, hen, he⟩ | ⟨hs, hen, t, l', hl, hlen, he⟩ | ⟨hs, hen, hl, hb, he⟩ | ⟨hs, hen, hl, hb, he⟩
  · rw [he]; simp only [measure, e2, List.length_set]; rw [e1]; simp only [List.length_append, List.length_cons, wsum_append, wsum_cons, hwt]
    simp [W.weight]
  · rw [he]; simp only [measure, e2, List.length_set]; rw [e1]; simp only [List.length_append, List.length_cons, wsum_append, wsum_cons, hwt]
    simp [W.weight]
  · rw [he]; simp only [measure, e2, List.length_set]; rw [e1]; simp only [List.length_append, List.length_cons, wsum_append, wsum_cons, hwt]
    simp only [W.weight]; omega
  · rw [he]
    have hA := wsum_unblock A
    have hB := wsum_unblock B
    have hS := unblockSub_weight s.ws.length s.sub
    simp only [measure, e3, List.length_set, List.length_map, hen]
    rw [e1] at hS ⊢; simp only [List.length_append, List.length_cons, List.length_map, List.length_nil, wsum_append, wsum_cons, hwt] at hS ⊢
    simp [W.weight]; omega
  · rw [he]; simp only [measure, e2, List.length_set]; rw [e1]; simp only [List.length_append, List.length_cons, List.length_nil, wsum_append, wsum_cons, hwt]
    simp only [W.weight]; omega

theorem step_measure {s s' : St τ} (hs : Step s s') : measure s' < measure s := by
  cases hs with
  | first hw => exact enter_measure hw rfl
  | relock hw => exact enter_measure hw rfl
  | resume hw => exact enter_measure hw rfl
  | fin hw =>
    obtain ⟨A, B, e1, e2, e3⟩ := split_at hw
    simp only [measure, e2]; rw [e1]; simp only [List.length_append, List.length_cons, wsum_append, wsum_cons]
    simp only [W.weight]; omega
  | add hsub hp =>
    simp only [measure, hsub, hp, progWeight, List.map_cons, List.sum_cons, List.length_append, List.length_cons, List.length_nil, Op.weight, Sub.weight]
    split <;> simp <;> omega
  | signal hsub hw =>
    obtain ⟨A, B, e1, e2, e3⟩ := split_at hw
    simp only [measure, e2, hsub]; rw [e1]; simp only [List.length_append, List.length_cons, wsum_append, wsum_cons]
    simp only [W.weight, Sub.weight]; omega
  | signalNone hsub hw => simp only [measure, hsub, Sub.weight]; omega
  | waitNone hsub hp hn =>
    simp only [measure, hsub, hp, progWeight, List.map_cons, List.sum_cons, List.length_nil, Op.weight]; omega
  | wait hsub hp hn =>
    simp only [measure, hsub, hp, progWeight, List.map_cons, List.sum_cons, Op.weight, Sub.weight]; omega
  | waitEnd hsub => simp only [measure, hsub, List.length_nil, Sub.weight]; omega
  | shutdown hsub hp =>
    have := wsum_unblock s.ws
    simp only [measure, hsub, hp, progWeight, List.map_cons, List.sum_cons, Op.weight, Sub.weight, List.length_map]; omega
  | join hsub hw =>
    have : _ < s.ws.length := (List.getElem?_eq_some_iff.mp hw).1
    simp only [measure, hsub, Sub.weight]; omega
  | joined hsub hw => simp only [measure, hsub, Sub.weight]; omega

theorem spurious_measure {s s' : St τ} (hs : Spurious s s') : measure s' = measure s + 1 := by
  cases hs with
  | mk hw =>
    obtain ⟨A, B, e1, e2, e3⟩ := split_at hw
    simp only [measure, e2]; rw [e1]; simp only [List.length_append, List.length_cons, wsum_append, wsum_cons]
    simp only [W.weight]; omega

theorem exec_measure {a b : Nat} {s s' : St τ} (e : Exec a b s s') : a + measure s' ≤ measure s + b := by
  induction e with
  | refl s => omega
  | step he hs ih => have := step_measure hs; omega
  | spurious he hs ih => have := spurious_measure hs; omega

end Verif.Pool
