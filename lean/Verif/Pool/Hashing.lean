import Verif.Pool.Props
import Verif.Report.Model

/-!
# The hashing phase in parallel (C11)

`ft_process.c` L170-240 `dispatch_hashing_tasks`: one task per file of every class to be hashed goes through the
thread pool.  The records and the counter of hashed files are shared by the workers; a task writes the
digest field of one entry and increments the counter under its own mutex, so its effect is taken to happen
when it ends.
-/

namespace Verif.Pool

open Report

variable {η : Type}

/-- `hashing_task_t`: a size class and an index into its array. -/
abbrev Task := Nat × Nat

/-- ft_process.c L20-80 `hashing_worker_callback` on the records and `files_processed`. -/
def work (w : World η) (c : (Nat → FSize η) × Nat) (t : Task) : (Nat → FSize η) × Nat :=
  (fun k => if k = t.1 then { c.1 k with arr := (c.1 k).arr.modify t.2 (hashEntry w) } else c.1 k,
   c.2 + match ((c.1 t.1).arr[t.2]?).bind (·.file) with
     | some f => if (w.dig f).isSome then 1 else 0
     | none => 0)

/-- ft_process.c L204-209: the tasks of one class (the array has `nb_files` entries when this runs). -/
def classTasks (r : FSize η) (p : Nat) : List Task :=
  ((List.range r.nb).filter (fun i => ((r.arr[i]?).bind (·.file)).isSome)).map (fun i => (p, i))

/-- ft_process.c L197-222: the tasks in the order of submission. -/
def dispatch (json : Bool) (recs : Nat → FSize η) (ps : List Nat) : List Task :=
  ps.flatMap (fun p => if shouldHash json (recs p) then classTasks (recs p) p else [])

/-- ft_process.c L170-240: the calls made on the pool. -/
def hashProgram (json : Bool) (recs : Nat → FSize η) (ps : List Nat) : List (Op Task) :=
  (dispatch json recs ps).map (fun t => .add (some t)) ++ [.wait, .shutdown]

/-- The records and the counter after the tasks that have ended in a trace. -/
def outcome (w : World η) (recs : Nat → FSize η) (evs : List (Ev Task)) : (Nat → FSize η) × Nat :=
  (fins evs).foldl (work w) (recs, 0)

theorem hashEntry_file (w : World η) (e : Entry η) : (hashEntry w e).file = e.file := by
  unfold hashEntry; split
  · rfl
  · split <;> rfl

theorem work_file (w : World η) (c : (Nat → FSize η) × Nat) (t : Task) (k i : Nat) :
    ((((work w c t).1 k).arr[i]?).bind (·.file)) = (((c.1 k).arr[i]?).bind (·.file)) := by
  simp only [work]
  by_cases hk : k = t.1
  · rw [if_pos hk]
    simp only [List.getElem?_modify]
    by_cases hi : t.2 = i
    · subst hi
      cases (c.1 k).arr[t.2]? with
      | none => rfl
      | some e => simp [hashEntry_file]
    · simp [hi]
  · rw [if_neg hk]

theorem modify_mid {α : Type} (f : α → α) (A : List α) (x : α) (B : List α) : (A ++ x :: B).modify A.length f = A ++ f x :: B := by
  induction A with
  | nil => simp
  | cons a A ih => simp [ih]

theorem modify_comm {α : Type} (f : α → α) (l : List α) (i j : Nat) : (l.modify i f).modify j f = (l.modify j f).modify i f := by
  apply List.ext_getElem?
  intro k
  simp only [List.getElem?_modify]
  cases l[k]? with
  | none => rfl
  | some e => by_cases h1 : i = k <;> by_cases h2 : j = k <;> simp [h1, h2]

theorem work_comm (w : World η) (c : (Nat → FSize η) × Nat) (t u : Task) : work w (work w c t) u = work w (work w c u) t := by
  have hc : (work w (work w c t) u).2 = (work w (work w c u) t).2 := by
    have h1 := work_file w c t u.1 u.2
    have h2 := work_file w c u t.1 t.2
    show (work w c t).2 + (match ((((work w c t).1 u.1).arr[u.2]?).bind (·.file)) with | some f => _ | none => _) =
      (work w c u).2 + (match ((((work w c u).1 t.1).arr[t.2]?).bind (·.file)) with | some f => _ | none => _)
    rw [h1, h2]
    simp only [work]; omega
  refine Prod.ext ?_ hc
  funext k
  simp only [work]
  by_cases h1 : k = t.1 <;> by_cases h2 : k = u.1
  · simp only [if_pos h1, if_pos h2]; rw [modify_comm]
  · simp only [if_pos h1, if_neg h2]
  · simp only [if_neg h1, if_pos h2]
  · simp only [if_neg h1, if_neg h2]

/-- The order of the tasks does not matter. -/
theorem work_perm (w : World η) {l l' : List Task} (h : l.Perm l') (c : (Nat → FSize η) × Nat) : l.foldl (work w) c = l'.foldl (work w) c :=
  h.foldl_eq' (fun _ _ _ _ z => work_comm w z _ _) c

/-- The number of files in a list whose digest can be computed. -/
def hashable (w : World η) (l : List FileEnt) : Nat := l.countP (fun f => (w.dig f).isSome)

theorem work_range (w : World η) (p : Nat) (c : (Nat → FSize η) × Nat) : ∀ k, k ≤ (c.1 p).arr.length →
    ((List.range k).map (fun i => (p, i))).foldl (work w) c =
      (fun q => if q = p then { c.1 p with arr := ((c.1 p).arr.take k).map (hashEntry w) ++ (c.1 p).arr.drop k } else c.1 q,
       c.2 + hashable w (((c.1 p).arr.take k).filterMap (·.file))) := by
  intro k
  induction k with
  | zero =>
    intro _
    refine Prod.ext ?_ (by simp [hashable])
    funext q
    by_cases hq : q = p
    · subst hq; simp
    · simp [hq]
  | succ k ih =>
    intro hk
    rw [List.range_succ, List.map_append, List.foldl_append, ih (by omega)]
    have hke : k < (c.1 p).arr.length := by omega
    have htk : ((c.1 p).arr.take k).length = k := by rw [List.length_take]; omega
    have hdrop : (c.1 p).arr.drop k = (c.1 p).arr[k] :: (c.1 p).arr.drop (k + 1) := List.drop_eq_getElem_cons hke
    have htake : (c.1 p).arr.take (k + 1) = (c.1 p).arr.take k ++ [(c.1 p).arr[k]] := List.take_succ_eq_append_getElem hke
    simp only [List.map_cons, List.map_nil, List.foldl_cons, List.foldl_nil]
    have hat : (((c.1 p).arr.take k).map (hashEntry w) ++ (c.1 p).arr.drop k)[k]? = some (c.1 p).arr[k] := by
      rw [List.getElem?_append_right (by rw [List.length_map]; omega), List.length_map, htk, hdrop]; simp
    refine Prod.ext ?_ ?_
    · funext q
      simp only [work]
      by_cases hq : q = p
      · subst hq
        simp only [if_pos]
        congr 1
        rw [htake, hdrop, List.map_append, List.append_assoc]
        have := modify_mid (hashEntry w) (((c.1 q).arr.take k).map (hashEntry w)) (c.1 q).arr[k] ((c.1 q).arr.drop (k + 1))
        rw [List.length_map, htk] at this
        exact this
      · simp [hq]
    · simp only [work, if_pos, hat]
      rw [htake, List.filterMap_append, hashable, hashable, List.countP_append]
      simp only [Option.bind_some, List.filterMap_cons, List.filterMap_nil]
      cases (c.1 p).arr[k].file with
      | none => simp
      | some f => simp [List.countP_cons]; omega

/-- A task on an empty entry would do nothing. -/
theorem work_null (w : World η) (c : (Nat → FSize η) × Nat) (t : Task) (h : (((c.1 t.1).arr[t.2]?).bind (·.file)) = none) : work w c t = c := by
  refine Prod.ext ?_ ?_
  · funext k
    simp only [work]
    by_cases hk : k = t.1
    · rw [if_pos hk]
      subst hk
      have : (c.1 t.1).arr.modify t.2 (hashEntry w) = (c.1 t.1).arr := by
        apply List.ext_getElem?
        intro j
        rw [List.getElem?_modify]
        by_cases hj : t.2 = j
        · subst hj
          cases he : (c.1 t.1).arr[t.2]? with
          | none => rfl
          | some e =>
            rw [he] at h
            have h' : e.file = none := h
            simp [hashEntry, h']
        · simp [hj]
      rw [this]
    · rw [if_neg hk]
  · simp [work, h]

theorem work_filter (w : World η) (P : Task → Bool) : ∀ (l : List Task) (c : (Nat → FSize η) × Nat),
    (∀ t ∈ l, P t = (((c.1 t.1).arr[t.2]?).bind (·.file)).isSome) → (l.filter P).foldl (work w) c = l.foldl (work w) c := by
  intro l
  induction l with
  | nil => intro c _; rfl
  | cons t l ih =>
    intro c h
    have ht := h t (by simp)
    cases hp : P t with
    | true =>
      rw [List.filter_cons_of_pos hp, List.foldl_cons, List.foldl_cons]
      apply ih
      intro u hu
      rw [work_file, h u (by simp [hu])]
    | false =>
      rw [List.filter_cons_of_neg (by simp [hp]), List.foldl_cons, work_null w c t]
      · exact ih c (fun u hu => h u (by simp [hu]))
      · rw [hp] at ht; simpa using ht.symm

/-- All the tasks of one class. -/
theorem work_class (w : World η) (p : Nat) (c : (Nat → FSize η) × Nat) (hl : (c.1 p).arr.length = (c.1 p).nb) :
    (classTasks (c.1 p) p).foldl (work w) c =
      (fun q => if q = p then { c.1 p with arr := (c.1 p).arr.map (hashEntry w) } else c.1 q,
       c.2 + hashable w ((c.1 p).arr.filterMap (·.file))) := by
  have h1 := work_range w p c (c.1 p).nb (by omega)
  have h2 := work_filter w (fun t => (((c.1 p).arr[t.2]?).bind (·.file)).isSome) ((List.range (c.1 p).nb).map (fun i => (p, i))) c (by
    intro t ht
    obtain ⟨i, _, rfl⟩ := List.mem_map.mp ht
    rfl)
  rw [h1, List.filter_map] at h2
  have h3 : (c.1 p).arr.take (c.1 p).nb = (c.1 p).arr := by rw [← hl]; exact List.take_length
  have h4 : (c.1 p).arr.drop (c.1 p).nb = [] := by rw [← hl]; exact List.drop_length
  rw [h3, h4, List.append_nil] at h2
  exact h2

/-- All the tasks in the order of submission do what the sequential model of the hashing phase does. -/
theorem work_dispatch (w : World η) (json : Bool) : ∀ (ps : List Nat) (recs : Nat → FSize η) (m : Nat) (tmp : Heap.Heap FileEnt)
    (recs' : Nat → FSize η) (tmp' : Heap.Heap FileEnt) (log : List FileEnt), ps.Nodup →
    (∀ p ∈ ps, (recs p).arr.length ≤ (recs p).nb) →
    hashClasses w json ps recs tmp = .ok (recs', tmp', log) →
    (dispatch json recs ps).foldl (work w) (recs, m) = (recs', m + hashable w log) := by
  intro ps
  induction ps with
  | nil =>
    intro recs m tmp recs' tmp' log _ _ h
    simp [hashClasses] at h
    obtain ⟨rfl, rfl, rfl⟩ := h
    simp [dispatch, hashable]
  | cons p ps ih =>
    intro recs m tmp recs' tmp' log hnd hlen h
    rw [List.nodup_cons] at hnd
    simp only [hashClasses] at h
    cases hs : shouldHash json (recs p) with
    | false =>
      rw [hs] at h
      have := ih recs m tmp recs' tmp' log hnd.2 (fun q hq => hlen q (by simp [hq])) (by simpa using h)
      simp only [dispatch, List.flatMap_cons, hs] at this ⊢
      simpa using this
    | true =>
      rw [hs, if_pos rfl] at h
      by_cases hub : (recs p).arr.length < (recs p).nb
      · rw [if_pos hub] at h; cases h
      · rw [if_neg hub, Res.bind_eq_ok] at h
        obtain ⟨t1, _, h⟩ := h
        rw [Res.bind_eq_ok] at h
        obtain ⟨⟨r2, t2, l2⟩, h2, h⟩ := h
        injection h with h
        injection h with e1 h
        injection h with e2 e3
        subst e1; subst e2; subst e3
        have hlp := hlen p (by simp)
        have hcls := work_class w p (recs, m) (by show (recs p).arr.length = (recs p).nb; omega)
        simp only at hcls
        have hrest := ih (fun k => if k = p then { recs p with arr := (recs p).arr.map (hashEntry w) } else recs k)
          (m + hashable w ((recs p).arr.filterMap (·.file))) t1 r2 t2 l2 hnd.2 (by
            intro q hq
            have hqp : q ≠ p := by rintro rfl; exact hnd.1 hq
            simp only [if_neg hqp]; exact hlen q (by simp [hq])) h2
        have hdisp : dispatch json (fun k => if k = p then { recs p with arr := (recs p).arr.map (hashEntry w) } else recs k) ps = dispatch json recs ps := by
          unfold dispatch
          rw [List.flatMap_def, List.flatMap_def]
          congr 1
          apply List.map_congr_left
          intro q hq
          have hqp : q ≠ p := by rintro rfl; exact hnd.1 hq
          simp only [if_neg hqp]
        rw [hdisp] at hrest
        have hcons : dispatch json recs (p :: ps) = classTasks (recs p) p ++ dispatch json recs ps := by
          simp [dispatch, hs]
        rw [hcons, List.foldl_append, hcls, hrest]
        simp [hashable, List.countP_append, Nat.add_assoc]

theorem callsOf_program {τ : Type} (l : List τ) :
    callsOf (l.map (fun t => Op.add (some t)) ++ [.wait, .shutdown]) = l.map Ev.submit ++ .waited :: [.stop] := by
  induction l with
  | nil => rfl
  | cons t l ih => simp only [List.map_cons, List.cons_append, callsOf, ih]

theorem submits_map {τ : Type} (l : List τ) : submits (l.map Ev.submit) = l := by
  induction l with
  | nil => rfl
  | cons t l ih => simp only [List.map_cons, submits, List.filterMap_cons] at ih ⊢; rw [ih]

theorem proper_program {τ : Type} (l : List τ) (h : l.length < 2 ^ 32) : Proper (l.map (fun t => Op.add (some t)) ++ [.wait, .shutdown]) := by
  have h1 : ∀ l : List τ, ShutLast (l.map (fun t => Op.add (some t)) ++ [.wait, .shutdown]) := by
    intro l; induction l with
    | nil => rfl
    | cons t l ih => exact ih
  have h2 : ∀ l : List τ, adds (l.map (fun t => Op.add (some t)) ++ [.wait, .shutdown]) = l.length := by
    intro l; induction l with
    | nil => rfl
    | cons t l ih => simp [adds]; exact ih
  exact ⟨h1 l, by rw [h2]; exact h⟩

/-- A program that submits some tasks, waits and shuts the pool down: when it is over, each of them has been carried out once. -/
theorem program_runs_all {τ : Type} (l : List τ) (hfew : l.length < 2 ^ 32) {n : Nat} (hn : 1 ≤ n) {a b : Nat} {s : St τ}
    (e : Exec a b (init n (l.map (fun t => .add (some t)) ++ [.wait, .shutdown])) s) (hstuck : ¬ ∃ s', Step s s') :
    Finished s ∧ l.Perm (fins s.evs) := by
  have hp := proper_program l hfew
  obtain ⟨hf, hcalls⟩ := pool_completes hn hp e hstuck
  rw [callsOf_program] at hcalls
  refine ⟨hf, ?_⟩
  have h1 := inv_exec e (inv_init n _ hp.last hp.few)
  have hdone := ((shutdown_finishes_running_tasks hp (by simp) e).2 hf).1
  have hsub : submits s.evs = l := by
    rw [← submits_filter, hcalls, submits_append, submits_map]; simp [submits]
  obtain ⟨pre, q, hq, hpre, hq2⟩ := List.filter_eq_append_iff.mp hcalls
  obtain ⟨r, post, hr, hr1, hr2, _⟩ := List.filter_eq_cons_iff.mp hq2
  have hspl : s.evs = (pre ++ r) ++ .waited :: post := by rw [hq, hr]; simp
  have hw := wait_returns_after_all_tasks hp e _ _ hspl
  have hsp : submits (pre ++ r) = l := by
    rw [← submits_filter, List.filter_append, hpre, List.filter_eq_nil_iff.mpr hr1, List.append_nil, submits_map]
  rw [hsp] at hw
  have hlen1 := hw.1.length_eq
  have hlen2 := h1.perm1.length_eq
  rw [hsub] at hlen2
  have hb : begins s.evs = begins (pre ++ r) ++ begins post := by
    rw [hspl, begins_append, show Ev.waited :: post = [Ev.waited] ++ post from rfl, begins_append]; rfl
  rw [hb] at hlen2
  simp only [List.length_append] at hlen2
  have hpost : begins post = [] := List.eq_nil_of_length_eq_zero (by omega)
  rw [hpost, List.append_nil] at hb
  rw [hb] at hdone
  exact hw.1.trans hdone

/-- **C11.** Whatever the number of workers and the schedule, when the hashing phase is over the records hold the digests the
sequential computation gives, and the counter is the number of files hashed successfully.  (`l` are the files in the order of
the classes; `tmp` plays no role here.) -/
theorem parallel_hashing_deterministic (w : World η) (json : Bool) (ps : List Nat) (recs : Nat → FSize η) (tmp : Heap.Heap FileEnt)
    (recs' : Nat → FSize η) (tmp' : Heap.Heap FileEnt) (l : List FileEnt) (hnd : ps.Nodup)
    (hroom : ∀ p ∈ ps, (recs p).arr.length ≤ (recs p).nb) (hfew : (dispatch json recs ps).length < 2 ^ 32)
    (hseq : hashClasses w json ps recs tmp = .ok (recs', tmp', l))
    {n : Nat} (hn : 1 ≤ n) {a b : Nat} {s : St Task} (e : Exec a b (init n (hashProgram json recs ps)) s) (hstuck : ¬ ∃ s', Step s s') :
    Finished s ∧ outcome w recs s.evs = (recs', hashable w l) := by
  obtain ⟨hf, hperm⟩ := program_runs_all (dispatch json recs ps) hfew hn e hstuck
  refine ⟨hf, ?_⟩
  unfold outcome
  rw [← work_perm w hperm, work_dispatch w json ps recs 0 tmp recs' tmp' l hnd hroom hseq, Nat.zero_add]

/-- Three files of five bytes and one of seven. -/
def exRecs : Nat → FSize Nat := fun k =>
  if k = 5 then ⟨5, 3, [⟨9, some ⟨"a", 5, 0, false⟩⟩, ⟨9, some ⟨"b", 5, 0, false⟩⟩, ⟨9, some ⟨"c", 5, 0, false⟩⟩]⟩ else ⟨k, 0, []⟩

/-- A world in which `b` cannot be read. -/
def exHashWorld : World Nat :=
  { dig := fun f => if f.path = "b" then none else some 3, junk := fun _ => 9, fc := fun _ _ _ => .ok (true, 0), zero := 0, hcmp := fun a b => (a : Int) - b,
    qs := id, sizeHash := fun _ => 0, fuel := 40 }

example : dispatch false exRecs [5] = [(5, 0), (5, 1), (5, 2)] ∧ [5].Nodup ∧ (∀ p ∈ [5], (exRecs p).arr.length ≤ (exRecs p).nb) ∧
    (match hashClasses exHashWorld false [5] exRecs (Heap.make FileEnt) with
      | .ok (r, _, l) => decide ((r 5).arr.map (·.hash) = [3, 9, 3] ∧ hashable exHashWorld l = 2)
      | _ => false) = true := by
  refine ⟨by decide +kernel, by decide, by decide +kernel, by decide +kernel⟩

end Verif.Pool
