import Verif.Report.Threads

/-!
# A wake-up without a reason (C110, C68)

`apr_thread_cond_wait` may return without having been signalled.  `napr_threadpool_wait` (napr_threadpool.c L294) does not look again, so the thread that
waits for the digests may go on before they are there.  What a run does then is said here: it is the run in which the digests that are not there could
not be computed.  That ft_process.c L226 destroys the mutex of the counter under the workers is left out.
-/

namespace Verif.Pool

variable {τ : Type} {η : Type}

open Report

/-! ## Nothing but submitted tasks is ever carried out -/

/-- All the tasks in a state satisfy `P`. -/
structure Within (P : τ → Prop) (s : St τ) : Prop where
  list : ∀ t, some t ∈ s.list → P t
  busy : ∀ t, W.busy t ∈ s.ws → P t
  prog : ∀ t, Op.add (some t) ∈ s.prog → P t
  fins : ∀ t ∈ fins s.evs, P t

theorem loop_within (n nb : Nat) (run ended shut : Bool) : ∀ l : List (Option τ),
    (∀ d ∈ (loop n nb run ended shut l).2, d ∈ l) ∧ ∀ t, (loop n nb run ended shut l).1 = .busy t → some t ∈ l := by
  intro l
  induction l with
  | nil => unfold loop; split <;> simp
  | cons d r ih =>
    unfold loop
    split
    · simp
    · split
      · cases d with
        | some t => exact ⟨fun x hx => List.mem_cons_of_mem _ hx, fun t h => by injection h with h; rw [h]; exact List.mem_cons_self⟩
        | none => exact ⟨fun x hx => List.mem_cons_of_mem _ (ih.1 x hx), fun t h => List.mem_cons_of_mem _ (ih.2 t h)⟩
      · simp

theorem mem_unblock {ws : List (W τ)} {t : τ} (h : W.busy t ∈ ws.map unblock) : W.busy t ∈ ws := by
  obtain ⟨w, hw, e⟩ := List.mem_map.1 h
  cases w <;> simp [unblock] at e
  subst e; exact hw

theorem busy_set {ws : List (W τ)} {i : Nat} {x : W τ} {t : τ} (h : W.busy t ∈ ws.set i x) (hx : x ≠ .busy t := by nofun) : W.busy t ∈ ws := by
  rcases List.mem_or_eq_of_mem_set h with h' | h'
  · exact h'
  · exact absurd h'.symm hx

theorem fins_snoc (l : List (Ev τ)) (e : Ev τ) : fins (l ++ [e]) = fins l ++ fins [e] := by simp [fins]

theorem within_enter {P : τ → Prop} {s : St τ} (h : Within P s) (i nb : Nat) : Within P (enter s i nb) := by
  have hl := loop_within s.ws.length nb s.run s.ended s.shut s.list
  unfold enter
  generalize hx : loop s.ws.length nb s.run s.ended s.shut s.list = x at hl
  obtain ⟨e, l⟩ := x
  have hlist : ∀ t, some t ∈ l → P t := fun t ht => h.list t (hl.1 _ ht)
  cases e with
  | done => exact ⟨hlist, fun t ht => h.busy t (busy_set ht), h.prog, h.fins⟩
  | busy t =>
    refine ⟨hlist, fun u hu => ?_, h.prog, fun u hu => ?_⟩
    · rcases List.mem_or_eq_of_mem_set hu with h' | h'
      · exact h.busy u h'
      · injection h' with h'; subst h'; exact h.list u (hl.2 u rfl)
    · simp only [fins_snoc, List.mem_append] at hu
      rcases hu with hu | hu
      · exact h.fins u hu
      · simp [fins] at hu
  | sleep b =>
    cases b with
    | true =>
      exact ⟨hlist, fun t ht => h.busy t (mem_unblock (busy_set ht)), h.prog, h.fins⟩
    | false => exact ⟨hlist, fun t ht => h.busy t (busy_set ht), h.prog, h.fins⟩

theorem within_step {P : τ → Prop} {s s' : St τ} (h : Within P s) (hs : Step s s') : Within P s' := by
  cases hs with
  | first _ => exact within_enter h _ _
  | fin hw =>
    refine ⟨h.list, fun u hu => ?_, h.prog, fun u hu => ?_⟩
    · rcases List.mem_or_eq_of_mem_set hu with h' | h'
      · exact h.busy u h'
      · cases h'
    · simp only [fins_snoc, List.mem_append] at hu
      rcases hu with hu | hu
      · exact h.fins u hu
      · simp [fins] at hu; subst hu; exact h.busy u (List.mem_of_getElem? hw)
  | relock _ => exact within_enter h _ _
  | resume _ => exact within_enter h _ _
  | @add d ps hi hp =>
    refine ⟨fun t ht => ?_, h.busy, fun t ht => h.prog t (by rw [hp]; exact List.mem_cons_of_mem _ ht), fun t ht => ?_⟩
    · rcases List.mem_append.1 ht with h' | h'
      · exact h.list t h'
      · rw [List.mem_singleton] at h'; subst h'; exact h.prog t (by rw [hp]; exact List.mem_cons_self)
    · refine h.fins t ?_
      cases d <;> simpa [fins, submitEv, List.filterMap_append] using ht
  | signal hi hw =>
    refine ⟨h.list, fun u hu => ?_, h.prog, h.fins⟩
    rcases List.mem_or_eq_of_mem_set hu with h' | h'
    · exact h.busy u h'
    · cases h'
  | signalNone hi hw => exact ⟨h.list, h.busy, h.prog, h.fins⟩
  | waitNone hi hp hn =>
    exact ⟨fun t ht => by simp at ht, h.busy, fun t ht => h.prog t (by rw [hp]; exact List.mem_cons_of_mem _ ht), fun t ht => h.fins t (by simpa [fins] using ht)⟩
  | wait hi hp hn => exact ⟨h.list, h.busy, fun t ht => h.prog t (by rw [hp]; exact List.mem_cons_of_mem _ ht), h.fins⟩
  | waitEnd hi => exact ⟨fun t ht => by simp at ht, h.busy, h.prog, fun t ht => h.fins t (by simpa [fins] using ht)⟩
  | shutdown hi hp =>
    exact ⟨h.list, fun t ht => h.busy t (mem_unblock ht), fun t ht => h.prog t (by rw [hp]; exact List.mem_cons_of_mem _ ht), fun t ht => h.fins t (by simpa [fins] using ht)⟩
  | join hi hw => exact ⟨h.list, h.busy, h.prog, h.fins⟩
  | joined hi hw => exact ⟨h.list, h.busy, h.prog, h.fins⟩

theorem within_exec {P : τ → Prop} {s s' : St τ} (e : ExecS s s') (h : Within P s) : Within P s' := by
  induction e with
  | refl => exact h
  | step _ hs ih => exact within_step ih hs
  | spurious _ hs ih =>
    cases hs with
    | mk hw =>
      refine ⟨ih.list, fun u hu => ?_, ih.prog, ih.fins⟩
      rcases List.mem_or_eq_of_mem_set hu with h' | h'
      · exact ih.busy u h'
      · cases h'
  | spuriousSub _ hs ih => cases hs with | mk hw => exact ⟨ih.list, ih.busy, ih.prog, ih.fins⟩

/-- Whoever is woken when: a task that has ended is one that was submitted. -/
theorem only_submitted {n : Nat} {l : List τ} {s : St τ} (e : ExecS (init n (l.map (fun t => .add (some t)) ++ [.wait, .shutdown])) s) : ∀ t ∈ fins s.evs, t ∈ l := by
  refine (within_exec (P := (· ∈ l)) e ⟨by simp [init], ?_, ?_, by simp [init, fins]⟩).fins
  · intro t ht
    have := List.eq_of_mem_replicate ht
    cases this
  · intro t ht
    simpa [init] using ht

/-! ## An execution without any work -/

theorem ExecS.trans {a b c : St τ} (h1 : ExecS a b) (h2 : ExecS b c) : ExecS a c := by
  induction h2 with
  | refl => exact h1
  | step _ hs ih => exact .step ih hs
  | spurious _ hs ih => exact .spurious ih hs
  | spuriousSub _ hs ih => exact .spuriousSub ih hs

/-- Some tasks have been submitted, no worker has got the mutex. -/
def adding (n : Nat) (acc rest : List τ) : St τ :=
  { ws := List.replicate n .start, nbWaiting := 0, list := acc.map some, run := false, ended := false, shut := false, sub := .idle,
    prog := rest.map (fun t => .add (some t)) ++ [.wait, .shutdown], evs := acc.map .submit }

theorem adding_all (n : Nat) : ∀ rest acc : List τ, ExecS (adding n acc rest) (adding n (acc ++ rest) []) := by
  intro rest
  induction rest with
  | nil => intro acc; rw [List.append_nil]; exact .refl _
  | cons t rest ih =>
    intro acc
    have h1 : ExecS (adding n acc (t :: rest)) (adding n (acc ++ [t]) rest) := by
      refine .step (.step (.refl _) (.add (d := some t) rfl rfl)) ?_
      have := Step.signalNone (s := (⟨List.replicate n .start, 0, acc.map some ++ [some t], false, false, false, .signal,
        rest.map (fun t => .add (some t)) ++ [.wait, .shutdown], acc.map .submit ++ submitEv (some t)⟩ : St τ)) rfl (by
          intro h; have := List.eq_of_mem_replicate h; cases this)
      simpa [adding, submitEv] using this
    have h2 := ih (acc ++ [t])
    rw [List.append_assoc] at h2
    exact h1.trans h2

/-- The pool is being shut down: `k` workers have been joined, the others have not begun. -/
def closing (n k : Nat) (l : List τ) (run : Bool) : St τ :=
  { ws := List.replicate k .done ++ List.replicate n .start, nbWaiting := 0, list := [], run := run, ended := false, shut := true, sub := .joining k,
    prog := [], evs := l.map .submit ++ [.waited] ++ [.stop] }

theorem closing_all (l : List τ) (run : Bool) : ∀ n k : Nat, ExecS (closing n k l run) (closing 0 (k + n) l run) := by
  intro n
  induction n with
  | zero => intro k; exact .refl _
  | succ n ih =>
    intro k
    have h0 : (closing (n + 1) k l run).ws[k]? = some .start := by
      show (List.replicate k W.done ++ List.replicate (n + 1) W.start)[k]? = _
      rw [List.getElem?_append_right (by simp)]; simp [List.replicate_succ]
    have hset : (List.replicate k W.done ++ List.replicate (n + 1) (W.start : W τ)).set k .done = List.replicate (k + 1) W.done ++ List.replicate n W.start := by
      rw [List.set_append_right _ _ (by simp), List.length_replicate, Nat.sub_self, List.replicate_succ, List.set_cons_zero, List.replicate_succ']
      simp
    have he : enter (closing (n + 1) k l run) k 0 = { closing (n + 1) k l run with ws := List.replicate (k + 1) W.done ++ List.replicate n W.start } := by
      simp [enter, closing, loop, hset]
    have h1 : Step (closing (n + 1) k l run) { closing (n + 1) k l run with ws := List.replicate (k + 1) W.done ++ List.replicate n W.start } := by
      rw [← he]; exact Step.first h0
    have h2 : Step { closing (n + 1) k l run with ws := List.replicate (k + 1) W.done ++ List.replicate n W.start } (closing n (k + 1) l run) :=
      Step.join (k := k) rfl (by
        show (List.replicate (k + 1) W.done ++ List.replicate n (W.start : W τ))[k]? = _
        rw [List.getElem?_append_left (by simp)]; simp)
    have h3 := ih (k + 1)
    rw [show k + 1 + n = k + (n + 1) by omega] at h3
    exact ((ExecS.step (.refl _) h1).step h2).trans h3

/-- With any number of workers and any tasks: the waiting thread may be woken before a worker has got the mutex; everything ends, and no task has been carried out. -/
theorem nothing_done (n : Nat) (hn : 1 ≤ n) (l : List τ) : ∃ s : St τ, ExecS (init n (l.map (fun t => .add (some t)) ++ [.wait, .shutdown])) s ∧ Finished s ∧
    submits s.evs = l ∧ fins s.evs = [] := by
  have h0 : ExecS (adding n [] l) (adding n l []) := by simpa using adding_all n l []
  have h1 := (h0.step (.wait (ps := [.shutdown]) rfl rfl (by
    rintro ⟨-, h⟩
    have : (0 : Nat) = (List.replicate n (W.start : W τ)).length := h
    simp at this; omega))).spuriousSub (.mk rfl)
  have h2 := (h1.step (.waitEnd rfl)).step (.shutdown (ps := []) rfl rfl)
  have hu : (List.replicate n (W.start : W τ)).map unblock = List.replicate n .start := by simp [unblock]
  have h3 : ExecS (adding n [] l) (closing n 0 l false) := by
    have : closing n 0 l false = ⟨(List.replicate n (W.start : W τ)).map unblock, 0, [], false, false, true, .joining 0, [], l.map .submit ++ [.waited] ++ [.stop]⟩ := by
      rw [hu]; simp [closing]
    rw [this]; exact h2
  have h4 := h3.trans (closing_all l false n 0)
  rw [Nat.zero_add] at h4
  refine ⟨_, h4.step (.joined (k := n) rfl (by simp [closing])), ⟨rfl, rfl⟩, ?_, ?_⟩
  · show submits (l.map Ev.submit ++ [.waited] ++ [.stop]) = l
    rw [submits_append, submits_append, submits_map]; simp [submits]
  · show fins (l.map Ev.submit ++ [.waited] ++ [.stop]) = []
    rw [fins_snoc, fins_snoc]
    have : fins (l.map Ev.submit) = [] := by
      unfold fins
      rw [List.filterMap_eq_nil_iff]
      intro e he
      obtain ⟨t, -, rfl⟩ := List.mem_map.1 he
      rfl
    rw [this]; rfl

/-! ## What the tasks that have ended leave -/

theorem hashEntry_twice (w : World η) (e : Entry η) : hashEntry w (hashEntry w e) = hashEntry w e := by
  unfold hashEntry
  cases hf : e.file with
  | none => simp [hf]
  | some f =>
    cases hd : w.dig f with
    | none => simp [hf, hd]
    | some h => simp [hd]

/-- Any tasks, in any order and any number of times. -/
theorem work_members (w : World η) : ∀ (l : List Task) (c : (Nat → FSize η) × Nat) (k : Nat),
    (l.foldl (work w) c).1 k = { c.1 k with arr := (c.1 k).arr.mapIdx (fun i e => if (k, i) ∈ l then hashEntry w e else e) } := by
  intro l
  induction l with
  | nil =>
    intro c k
    have : ∀ l : List (Entry η), l.mapIdx (fun i e => if (k, i) ∈ ([] : List Task) then hashEntry w e else e) = l := by
      intro l
      apply List.ext_getElem?
      intro i
      rw [List.getElem?_mapIdx]
      cases l[i]? <;> simp
    rw [this]; rfl
  | cons t l ih =>
    intro c k
    rw [List.foldl_cons, ih]
    unfold work
    dsimp only
    by_cases hk : k = t.1
    · rw [if_pos hk]
      congr 1
      apply List.ext_getElem?
      intro i
      rw [List.getElem?_mapIdx, List.getElem?_mapIdx, List.getElem?_modify]
      cases (c.1 k).arr[i]? with
      | none => rfl
      | some e =>
        obtain ⟨t1, t2⟩ := t
        dsimp only at hk ⊢
        subst hk
        by_cases hi : t2 = i
        · subst hi
          by_cases hm : (k, t2) ∈ l <;> simp [hm, hashEntry_twice]
        · have : (k, i) ≠ (k, t2) := fun h => hi (by injection h with _ h; exact h.symm)
          simp [hi, this]
    · rw [if_neg hk]
      congr 1
      apply List.ext_getElem?
      intro i
      rw [List.getElem?_mapIdx, List.getElem?_mapIdx]
      have : (k, i) ≠ t := fun h => hk (by rw [← h])
      simp [this]

end Verif.Pool

namespace Verif.Report

open Pool

variable {η : Type}

/-- What the hashing leaves, class by class. -/
theorem hashClasses_recs (w : World η) (json : Bool) : ∀ (ps : List Nat) (recs : Nat → FSize η) (tmp : Heap.Heap FileEnt) (recs' : Nat → FSize η) (tmp' : Heap.Heap FileEnt)
    (log : List FileEnt), ps.Nodup → hashClasses w json ps recs tmp = .ok (recs', tmp', log) → ∀ k,
    recs' k = if k ∈ ps ∧ shouldHash json (recs k) = true then { recs k with arr := (recs k).arr.map (hashEntry w) } else recs k := by
  intro ps
  induction ps with
  | nil =>
    intro recs tmp recs' tmp' log _ h k
    simp [hashClasses] at h
    rw [← h.1]; simp
  | cons p ps ih =>
    intro recs tmp recs' tmp' log hnd h k
    rw [List.nodup_cons] at hnd
    simp only [hashClasses] at h
    cases hs : shouldHash json (recs p) with
    | false =>
      rw [hs] at h
      have := ih recs tmp recs' tmp' log hnd.2 (by simpa using h) k
      rw [this]
      by_cases hk : k = p
      · subst hk; simp [hs]
      · simp [hk]
    | true =>
      rw [hs, if_pos rfl] at h
      split at h
      · cases h
      · rw [Res.bind_eq_ok] at h
        obtain ⟨t1, _, h⟩ := h
        rw [Res.bind_eq_ok] at h
        obtain ⟨⟨r2, t2, l2⟩, h2, h⟩ := h
        injection h with h
        injection h with e1 h
        subst e1
        have := ih _ _ _ _ _ hnd.2 h2 k
        refine Eq.trans this ?_
        by_cases hk : k = p
        · subst hk; simp [hnd.1, hs]
        · simp [hk]

/-- Whether the outcome is defined, the heap and the list of files do not depend on the digests. -/
theorem hashClasses_dig (w : World η) (d : FileEnt → Option η) (json : Bool) : ∀ (ps : List Nat) (recs ra rb : Nat → FSize η) (tmp : Heap.Heap FileEnt), ps.Nodup →
    (∀ p ∈ ps, ra p = recs p ∧ rb p = recs p) →
    (do let x ← hashClasses { w with dig := d } json ps ra tmp; Res.ok x.2) = (do let x ← hashClasses w json ps rb tmp; Res.ok x.2) := by
  intro ps
  induction ps with
  | nil => intro recs ra rb tmp _ _; rfl
  | cons p ps ih =>
    intro recs ra rb tmp hnd h
    rw [List.nodup_cons] at hnd
    have hp := h p List.mem_cons_self
    simp only [hashClasses, hp.1, hp.2]
    split
    · split
      · rfl
      · generalize (List.foldlM (fun h f => Heap.insert fileCmp w.fuel h f) tmp ((recs p).arr.filterMap (·.file))) = r
        cases r with
        | ub => rfl
        | div => rfl
        | ok t1 =>
          simp only [Res.ok_bind]
          have := ih recs (fun k => if k = p then { recs p with arr := (recs p).arr.map (hashEntry { w with dig := d }) } else ra k)
            (fun k => if k = p then { recs p with arr := (recs p).arr.map (hashEntry w) } else rb k) t1 hnd.2 (by
              intro q hq
              have hqp : q ≠ p := by rintro rfl; exact hnd.1 hq
              simp only [if_neg hqp]
              exact h q (List.mem_cons_of_mem _ hq))
          revert this
          generalize hashClasses { w with dig := d } json ps _ t1 = x
          generalize hashClasses w json ps _ t1 = y
          intro this
          cases x with
          | ok x =>
            cases y with
            | ok y =>
              obtain ⟨x1, x2, x3⟩ := x
              obtain ⟨y1, y2, y3⟩ := y
              simp only [Res.ok_bind] at this ⊢
              injection this with this; injection this with h1 h2; rw [h1, h2]
            | ub => cases this
            | div => cases this
          | ub => cases y with | ub => rfl | ok _ => cases this | div => cases this
          | div => cases y with | div => rfl | ok _ => cases this | ub => cases this
    · exact ih recs ra rb tmp hnd.2 (fun q hq => h q (List.mem_cons_of_mem _ hq))

/-! ## Digests play no part before the hashing and none after it but for what is in the records -/

theorem categorize_dig (w : World η) (d : FileEnt → Option η) (json : Bool) : ∀ (l : List FileEnt) (c : Cat η), categorize { w with dig := d } json l c = categorize w json l c := by
  intro l
  induction l with
  | nil => intro c; rfl
  | cons f fs ih =>
    intro c
    simp only [categorize]
    simp only [ih]
    rfl

variable [DecidableEq η]

theorem inner_dig (w : World η) (d : FileEnt → Option η) (json : Bool) (f : FileEnt) (h : η) : ∀ (es : List (Entry η)) (r : Int),
    inner { w with dig := d } json f h es r = inner w json f h es r := by
  intro es
  induction es with
  | nil => intro r; rfl
  | cons e es ih => intro r; simp only [inner, ih]

theorem outer_dig (w : World η) (d : FileEnt → Option η) (json : Bool) (size : Nat) : ∀ (n : Nat) (es : List (Entry η)) (r : Int),
    outer { w with dig := d } json size n es r = outer w json size n es r := by
  intro n
  induction n with
  | zero => intro es r; rfl
  | succ n ih =>
    intro es r
    cases es with
    | nil => rfl
    | cons e es => simp only [outer, ih, inner_dig]

theorem report_dig (w : World η) (d : FileEnt → Option η) (json : Bool) (sizes : Hash.Table Nat) : ∀ (l : List FileEnt) (recs : Nat → FSize η) (old : Option Nat),
    report { w with dig := d } json sizes l recs old = report w json sizes l recs old := by
  intro l
  induction l with
  | nil => intro recs old; rfl
  | cons f fs ih => intro recs old; simp only [report, ih, outer_dig]; rfl

omit [DecidableEq η] in
theorem start_dig (w : World η) (d : FileEnt → Option η) (json : Bool) (cands : List FileEnt) : hashingStart { w with dig := d } json cands = hashingStart w json cands := by
  unfold hashingStart
  simp only [categorize_dig]
  rfl

/-! ## The run -/

/-- The task of a file has ended. -/
def ended (recs : Nat → FSize η) (evs : List (Ev Task)) (f : FileEnt) : Bool :=
  (fins evs).any (fun t => decide (((recs t.1).arr[t.2]?).bind (·.file) = some f))

omit [DecidableEq η] in
/-- A file stands in one place only. -/
theorem place_unique {w : World η} {json : Bool} {l cands : List FileEnt} (hp : l.Perm cands) (hnd : cands.Nodup) {recs : Nat → FSize η} {ps : List Nat}
    (hrecs : ∀ p ∈ ps, recs p = ⟨p, cnt l p, (cls l p).map (mark0 w json l)⟩) {p q i j : Nat} {f : FileEnt} (h1 : p ∈ ps) (h2 : q ∈ ps)
    (e1 : ((recs p).arr[i]?).bind (·.file) = some f) (e2 : ((recs q).arr[j]?).bind (·.file) = some f) : p = q ∧ i = j := by
  have key : ∀ {p i : Nat}, p ∈ ps → ((recs p).arr[i]?).bind (·.file) = some f → (cls l p)[i]? = some f := by
    intro p i hp' e
    rw [hrecs p hp'] at e
    simp only [List.getElem?_map] at e
    cases hc : (cls l p)[i]? with
    | none => rw [hc] at e; simp at e
    | some g => rw [hc] at e; simp [mark0] at e; rw [e]
  have k1 := key h1 e1
  have k2 := key h2 e2
  have m1 : f.size = p := by
    have := List.mem_of_getElem? k1
    simpa [cls] using (List.mem_filter.1 this).2
  have m2 : f.size = q := by
    have := List.mem_of_getElem? k2
    simpa [cls] using (List.mem_filter.1 this).2
  have hpq : p = q := m1.symm.trans m2
  subst hpq
  have hn : (cls l p).Nodup := (hp.nodup_iff.2 hnd).filter _
  obtain ⟨hi, -⟩ := List.getElem?_eq_some_iff.1 k1
  exact ⟨rfl, (List.getElem?_inj hi hn).1 (k1.trans k2.symm)⟩

/-- **C110, C68 with wake-ups of any thread.**  Whatever the number of workers, the schedule and the wake-ups without a reason, the waiting thread included: a run
reports what it would report if the digests of the files whose tasks have not ended could not be computed. -/
theorem early_run (w : World η) (json : Bool) (cands : List FileEnt) (hl : Limits w cands) (hnd : cands.Nodup) (cat : Cat η) (ps : List Nat)
    (hst : hashingStart w json cands = .ok (some (cat, ps))) {n : Nat} {s : St Task} (e : ExecS (init n (hashProgram json cat.recs ps)) s) :
    ftwinT w json s.evs cands = ftwin { w with dig := fun f => if ended cat.recs s.evs f then w.dig f else none } json cands := by
  obtain ⟨cat', ps', h1, hndp, hroom, hfew, l, hlp, hrecs⟩ := start_spec w json cands hl
  rw [hst] at h1
  injection h1 with h1; injection h1 with h1; injection h1 with h1 h2
  subst h1; subst h2
  generalize hd : (fun f => if ended cat.recs s.evs f then w.dig f else none) = d
  have hsub : ∀ t ∈ fins s.evs, t ∈ dispatch json cat.recs ps := only_submitted e
  have hseq : ftwin { w with dig := d } json cands = (do
      let (recs, tmp, log) ← hashPhase { w with dig := d } json ps cat
      let l2 ← drain w.fuel (cands.length + 1) tmp
      let (gs, cmps) ← report w json cat.sizes l2 recs none
      .ok ⟨gs, log, cmps⟩) := by
    have hst' := hst
    rw [← start_dig w d] at hst'
    unfold hashingStart at hst'
    obtain ⟨c, e1, hst'⟩ := Res.bind_eq_ok.1 hst'
    obtain ⟨l, e2, hst'⟩ := Res.bind_eq_ok.1 hst'
    obtain ⟨cat2, e3, hst'⟩ := Res.bind_eq_ok.1 hst'
    by_cases hok : cat2.ok = false
    · rw [if_pos hok] at hst'; injection hst' with hst'; cases hst'
    · rw [if_neg hok] at hst'
      obtain ⟨ps2, e4, hst'⟩ := Res.bind_eq_ok.1 hst'
      injection hst' with hst'; injection hst' with hst'; injection hst' with h1 h2
      subst h1; subst h2
      unfold ftwin processAndReport
      rw [e1, Res.ok_bind, e2, Res.ok_bind, e3, Res.ok_bind, if_neg hok, e4, Res.ok_bind]
      simp only [report_dig]
  rw [hseq]
  unfold ftwinT
  rw [hst, Res.ok_bind]
  dsimp only
  by_cases ht : 0 < cat.tasks
  · have hdig := hashClasses_dig w d json ps cat.recs cat.recs cat.recs cat.tmp hndp (fun _ _ => ⟨rfl, rfl⟩)
    unfold hashPhase
    rw [if_pos ht, if_pos ht]
    cases hx : hashClasses w json ps cat.recs cat.tmp with
    | ub => rw [hx] at hdig; cases hy : hashClasses { w with dig := d } json ps cat.recs cat.tmp with
      | ub => rfl
      | ok y => rw [hy] at hdig; cases hdig
      | div => rw [hy] at hdig; cases hdig
    | div => rw [hx] at hdig; cases hy : hashClasses { w with dig := d } json ps cat.recs cat.tmp with
      | div => rfl
      | ok y => rw [hy] at hdig; cases hdig
      | ub => rw [hy] at hdig; cases hdig
    | ok x =>
      rw [hx] at hdig
      cases hy : hashClasses { w with dig := d } json ps cat.recs cat.tmp with
      | ub => rw [hy] at hdig; cases hdig
      | div => rw [hy] at hdig; cases hdig
      | ok y =>
        rw [hy] at hdig
        obtain ⟨x1, x2, x3⟩ := x
        obtain ⟨y1, y2, y3⟩ := y
        simp only [Res.ok_bind] at hdig ⊢
        injection hdig with hdig; injection hdig with g1 g2
        subst g1; subst g2
        rw [if_pos ht]
        have hr : (outcome w cat.recs s.evs).1 = y1 := by
          funext k
          rw [hashClasses_recs { w with dig := d } json ps cat.recs cat.tmp y1 _ _ hndp hy k]
          unfold outcome
          rw [work_members]
          dsimp only
          by_cases hk : k ∈ ps ∧ shouldHash json (cat.recs k) = true
          · rw [if_pos hk]
            congr 1
            apply List.ext_getElem?
            intro i
            rw [List.getElem?_mapIdx, List.getElem?_map]
            cases he : (cat.recs k).arr[i]? with
            | none => rfl
            | some en =>
              simp only [Option.map_some, Option.some.injEq]
              cases hf : en.file with
              | none => simp [hashEntry, hf]
              | some f =>
                have hen : ended cat.recs s.evs f = true ↔ (k, i) ∈ fins s.evs := by
                  unfold ended
                  rw [List.any_eq_true]
                  constructor
                  · rintro ⟨t, ht1, ht2⟩
                    have ht2 := of_decide_eq_true ht2
                    have hd' := hsub t ht1
                    unfold dispatch at hd'
                    obtain ⟨q, hq, hq2⟩ := List.mem_flatMap.1 hd'
                    split at hq2
                    · obtain ⟨j, -, rfl⟩ := List.mem_map.1 hq2
                      obtain ⟨rfl, rfl⟩ := place_unique hlp hnd hrecs hk.1 hq (i := i) (by rw [he]; exact hf) ht2
                      exact ht1
                    · cases hq2
                  · intro hm
                    exact ⟨(k, i), hm, decide_eq_true (by rw [he]; exact hf)⟩
                have hdf : d f = if ended cat.recs s.evs f then w.dig f else none := by rw [← hd]
                by_cases hm : (k, i) ∈ fins s.evs
                · rw [if_pos hm]
                  simp [hashEntry, hf, hdf, hen.2 hm]
                · rw [if_neg hm]
                  have : ended cat.recs s.evs f = false := by
                    cases hb : ended cat.recs s.evs f with
                    | false => rfl
                    | true => exact absurd (hen.1 hb) hm
                  simp [hashEntry, hf, hdf, this]
          · rw [if_neg hk]
            have : (cat.recs k).arr.mapIdx (fun i e => if (k, i) ∈ fins s.evs then hashEntry w e else e) = (cat.recs k).arr := by
              apply List.ext_getElem?
              intro i
              rw [List.getElem?_mapIdx]
              have hni : (k, i) ∉ fins s.evs := by
                intro hm
                have hd' := hsub _ hm
                unfold dispatch at hd'
                obtain ⟨q, hq, hq2⟩ := List.mem_flatMap.1 hd'
                split at hq2
                · obtain ⟨j, -, hj⟩ := List.mem_map.1 hq2
                  injection hj with hj1 hj2
                  subst hj1
                  exact hk ⟨hq, by assumption⟩
                · cases hq2
              simp [hni]
            rw [this]
        rw [hr]
  · unfold hashPhase
    rw [if_neg ht, if_neg ht]
    simp only [Res.ok_bind, if_neg ht]

/-- **C110 is false with such wake-ups, for every run with something to hash.**  However many workers there are, the run may end as if no digest could be computed. -/
theorem early_run_without_digests (w : World η) (json : Bool) (cands : List FileEnt) (hl : Limits w cands) (hnd : cands.Nodup) {n : Nat} (hn : 1 ≤ n) :
    ∃ (cat : Cat η) (ps : List Nat) (s : St Task), hashingStart w json cands = .ok (some (cat, ps)) ∧ ExecS (init n (hashProgram json cat.recs ps)) s ∧ Finished s ∧
      submits s.evs = dispatch json cat.recs ps ∧ ftwinT w json s.evs cands = ftwin { w with dig := fun _ => none } json cands := by
  obtain ⟨cat, ps, hst, -, -, -, -⟩ := start_spec w json cands hl
  obtain ⟨s, e, hf, hs, hfin⟩ := nothing_done n hn (dispatch json cat.recs ps)
  refine ⟨cat, ps, s, hst, e, hf, hs, ?_⟩
  have := early_run w json cands hl hnd cat ps hst e
  rw [this]
  have : ended cat.recs s.evs = fun _ => false := by funext f; simp [ended, hfin]
  simp [this]

/-- Fields that are not set hold the modification time. -/
def idleWorld (dig : FileEnt → Option Nat) : World Nat := { natWorld dig (contentCmp exContent) with junk := fun f => f.mtime.toNat }

/-- Three identical files: the run with one worker and a wake-up without a reason reports nothing; without one it reports the three. -/
theorem early_run_misses :
    let w := idleWorld (fun f => some (exHash (exContent f)))
    let cands := [exFile 11 3, exFile 12 3, exFile 13 3]
    paths (ftwin w false cands) = some [[11, 13, 12]] ∧
    ∃ (cat : Cat Nat) (ps : List Nat) (s : St Task), hashingStart w false cands = .ok (some (cat, ps)) ∧ ExecS (init 1 (hashProgram false cat.recs ps)) s ∧ Finished s ∧
      paths (ftwinT w false s.evs cands) = some [] := by
  have hl : ∀ d, Limits (idleWorld d) [exFile 11 3, exFile 12 3, exFile 13 3] := by
    intro d
    have := natWorld_limits d (contentCmp exContent) [exFile 11 3, exFile 12 3, exFile 13 3] [3] (by decide) (by decide) (by decide)
    exact ⟨this.len, this.fuel, this.sizes⟩
  refine ⟨?_, ?_⟩
  · exact paths_eval [exFile 11 3, exFile 13 3, exFile 12 3] [3] (hl _) (by decide +kernel) (by decide) (by decide) (by decide) (by decide +kernel)
  · obtain ⟨cat, ps, s, h1, h2, h3, -, h5⟩ := early_run_without_digests (idleWorld (fun f => some (exHash (exContent f)))) false
      [exFile 11 3, exFile 12 3, exFile 13 3] (hl _) (by decide) (n := 1) (by omega)
    refine ⟨cat, ps, s, h1, h2, h3, ?_⟩
    rw [h5]
    exact paths_eval (w := idleWorld (fun _ => none)) [exFile 11 3, exFile 13 3, exFile 12 3] [3] (hl _) (by decide +kernel) (by decide) (by decide) (by decide) (by decide +kernel)

end Verif.Report
