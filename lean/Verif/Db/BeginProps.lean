import Verif.Db.Begin

/-!
# What a read transaction gets that begins while others commit (C108)
-/

namespace Verif.Db.Begin

/-! ## The specification -/

/-- The state in which a reader begins: the live page holds the last commit, and the writer may be anywhere in the next one. -/
structure Fresh (s : St) : Prop where
  live : s.past.head? = some (s.page s.live)
  ptr : s.ptr = none
  got : s.got = []
  slot : s.slot = 0
  new : ∀ new stored, s.writer = .busy new stored →
    new.txnid = (s.page s.live).txnid + 1 ∧ ∀ f ∈ stored, (s.page (!s.live)).get f = new.get f

/-- How many write transactions overlap a run: one that is there at the beginning and those that start in it. -/
def overlapping (s : St) (es : List Ev) : Nat :=
  (if s.writer = .idle then 0 else 1) + es.countP (fun e => match e with | .start _ _ _ => true | _ => false)

/-! ## Lemmas -/

theorem page_setPage_same (s : St) (b : Bool) (m : Info) : (s.setPage b m).page b = m := by
  cases b <;> simp [St.setPage, St.page]

theorem page_setPage_other (s : St) (b : Bool) (m : Info) : (s.setPage (!b) m).page b = s.page b := by
  cases b <;> simp [St.setPage, St.page]

theorem setPage_rest (s : St) (b : Bool) (m : Info) :
    (s.setPage b m).live = s.live ∧ (s.setPage b m).past = s.past ∧ (s.setPage b m).ptr = s.ptr ∧ (s.setPage b m).got = s.got ∧
    (s.setPage b m).slot = s.slot ∧ (s.setPage b m).floors = s.floors := by
  cases b <;> simp [St.setPage]

theorem get_set (m : Info) (f g : Field) (v : Nat) : (m.set f v).get g = if g = f then v else m.get g := by
  cases f <;> cases g <;> simp [Info.set, Info.get]

theorem ext_get (m m' : Info) (h : ∀ f, m.get f = m'.get f) : m = m' := by
  have h1 := h .txnid; have h2 := h .root; have h3 := h .free; have h4 := h .last
  cases m; cases m'; simp_all [Info.get]

theorem mem_order (f : Field) : f ∈ order := by cases f <;> simp [order]

/-- Before the overlapping commit is finished. -/
structure Before (l0 : Bool) (old : Info) (rest : List Info) (budget : Nat) (s : St) : Prop where
  live : s.live = l0
  page : s.page l0 = old
  past : s.past = old :: rest
  ptr : s.ptr = none ∨ s.ptr = some l0
  got : s.got = old.values.take s.got.length
  busy : ∀ new stored, s.writer = .busy new stored →
    new.txnid = old.txnid + 1 ∧ ∀ f ∈ stored, (s.page (!l0)).get f = new.get f
  budget : (if s.writer = .idle then 0 else 1) + budget ≤ 1

/-- After it. -/
structure After (l0 : Bool) (old new : Info) (rest : List Info) (s : St) : Prop where
  live : s.live = !l0
  pageOld : s.page l0 = old
  pageNew : s.page (!l0) = new
  past : s.past = new :: old :: rest
  idle : s.writer = .idle
  id : new.txnid = old.txnid + 1
  got : ∃ k, s.got = ((old.values.take k) ++ (new.values.drop k)).take s.got.length ∧ k ≤ 4 ∧ (s.ptr = some l0 → k = s.got.length)

/-- The values read so far extended by the next one. -/
theorem take_snoc (l : List Nat) (g : List Nat) (v : Nat) (hg : g = l.take g.length) (hv : l[g.length]? = some v) : g ++ [v] = l.take (g ++ [v]).length := by
  rw [List.length_append, List.length_singleton, List.take_add_one, ← hg, hv]; rfl

theorem values_get (m : Info) (n : Nat) (f : Field) (h : order[n]? = some f) : m.values[n]? = some (m.get f) := by
  simp [Info.values, h]

theorem order_lt {n : Nat} {f : Field} (h : order[n]? = some f) : n < 4 := by
  have := (List.getElem?_eq_some_iff.1 h).1
  simpa [order] using this

theorem before_step {l0 : Bool} {old : Info} {rest : List Info} {e : Ev} {b : Nat} {s s' : St}
    (h : Before l0 old rest (b + (if (match e with | .start _ _ _ => true | _ => false) = true then 1 else 0)) s) (hs : step s e = some s') :
    Before l0 old rest b s' ∨ (b = 0 ∧ ∃ new, After l0 old new rest s') := by
  obtain ⟨hl, hp, hpast, hptr, hgot, hbusy, hbud⟩ := h
  cases e with
  | start r f l =>
    left
    simp only [step] at hs
    cases hw : s.writer with
    | busy n st => rw [hw] at hs; simp at hs
    | idle =>
      rw [hw] at hs
      simp only [Option.some.injEq] at hs
      subst hs
      simp [hw] at hbud
      refine ⟨hl, hp, hpast, hptr, hgot, ?_, by simp; omega⟩
      intro new stored hn
      simp only [Writer.busy.injEq] at hn
      obtain ⟨rfl, rfl⟩ := hn
      rw [hl, hp]
      exact ⟨rfl, by simp⟩
  | scan o =>
    left
    simp only [step] at hs
    cases hw : s.writer with
    | idle => rw [hw] at hs; simp at hs
    | busy n st =>
      rw [hw] at hs
      simp only [Option.some.injEq] at hs
      subst hs
      refine ⟨hl, hp, hpast, hptr, hgot, ?_, by simp [hw] at hbud ⊢; omega⟩
      intro new stored hn
      exact hbusy new stored (hw.trans hn)
  | store f =>
    left
    simp only [step] at hs
    cases hw : s.writer with
    | idle => rw [hw] at hs; simp at hs
    | busy n st =>
      rw [hw] at hs
      simp only [Option.some.injEq] at hs
      subst hs
      obtain ⟨r1, r2, r3, r4, r5, r6⟩ := setPage_rest s (!s.live) ((s.page (!s.live)).set f (n.get f))
      refine ⟨r1.trans hl, ?_, r2.trans hpast, by simpa only [r3] using hptr, ?_, ?_, by simp [hw] at hbud ⊢; omega⟩
      · have := page_setPage_other s s.live ((s.page (!s.live)).set f (n.get f))
        rw [hl] at this ⊢
        exact this.trans hp
      · simp only [r4]; exact hgot
      · intro new stored hn
        simp only [Writer.busy.injEq] at hn
        obtain ⟨rfl, rfl⟩ := hn
        obtain ⟨h1, h2⟩ := hbusy _ _ hw
        refine ⟨h1, ?_⟩
        intro g hg
        have := page_setPage_same s (!s.live) ((s.page (!s.live)).set f (n.get f))
        rw [hl] at this ⊢
        show ((s.setPage (!l0) _).page (!l0)).get g = _
        rw [this, get_set]
        split
        · rename_i e; rw [e]
        · rename_i e
          rcases List.mem_cons.1 hg with e' | e'
          · exact absurd e' e
          · exact h2 g e'
  | switch =>
    right
    simp only [step] at hs
    cases hw : s.writer with
    | idle => rw [hw] at hs; simp at hs
    | busy n st =>
      rw [hw] at hs
      dsimp only at hs
      split at hs
      · rename_i hall
        simp only [Option.some.injEq] at hs
        subst hs
        simp [hw] at hbud
        obtain ⟨h1, h2⟩ := hbusy _ _ hw
        refine ⟨by omega, n, by simp [hl], hp, ?_, by simp [hpast], rfl, h1, 4 - (4 - s.got.length), ?_, by omega, ?_⟩
        · exact ext_get _ _ fun f => h2 f (hall f (mem_order f))
        · have hlen : s.got.length ≤ 4 := by rw [hgot]; simp [Info.values, order]; omega
          have : 4 - (4 - s.got.length) = s.got.length := by omega
          rw [this]
          show s.got = _
          rw [List.take_left' (by simp [Info.values, order]; omega)]
          exact hgot
        · intro _
          have hlen : s.got.length ≤ 4 := by rw [hgot]; simp [Info.values, order]; omega
          show _ = s.got.length
          omega
      · simp at hs
  | fail =>
    left
    simp only [step] at hs
    cases hw : s.writer with
    | idle => rw [hw] at hs; simp at hs
    | busy n st =>
      rw [hw] at hs
      simp only [Option.some.injEq] at hs
      subst hs
      refine ⟨hl, hp, hpast, hptr, hgot, by simp, by simp [hw] at hbud ⊢; omega⟩
  | point =>
    left
    simp only [step, Option.some.injEq] at hs
    subst hs
    exact ⟨hl, hp, hpast, .inr (by simp [hl]), hgot, hbusy, by simpa using hbud⟩
  | load =>
    left
    simp only [step] at hs
    split at hs
    · rename_i b f hb hf
      simp only [Option.some.injEq] at hs
      subst hs
      rcases hptr with e | e
      · rw [e] at hb; simp at hb
      · rw [e] at hb
        obtain rfl := Option.some.inj hb
        refine ⟨hl, hp, hpast, .inl rfl, ?_, hbusy, by simpa using hbud⟩
        refine take_snoc _ _ _ hgot ?_
        rw [hp]
        exact values_get _ _ _ hf
    · simp at hs
  | enter =>
    left
    simp only [step] at hs
    split at hs
    · split at hs
      · simp only [Option.some.injEq] at hs
        subst hs
        exact ⟨hl, hp, hpast, hptr, hgot, hbusy, by simpa using hbud⟩
      · simp at hs
    · simp at hs

theorem mixed_get (a b : List Nat) (ha : a.length = 4) (k n : Nat) (hk : k ≤ 4) :
    ((a.take k) ++ (b.drop k))[n]? = if n < k then a[n]? else b[n]? := by
  rw [List.getElem?_append]
  simp only [List.length_take, List.getElem?_take, List.getElem?_drop]
  have : min k a.length = k := by omega
  rw [this]
  split
  · rfl
  · congr 1; omega

theorem after_step {l0 : Bool} {old new : Info} {rest : List Info} {e : Ev} {s s' : St}
    (h : After l0 old new rest s) (he : (match e with | .start _ _ _ => true | _ => false) = false) (hs : step s e = some s') :
    After l0 old new rest s' := by
  obtain ⟨hl, hp0, hp1, hpast, hidle, hid, k, hk, hk4, hkp⟩ := h
  cases e with
  | start r f l => simp at he
  | scan o => simp [step, hidle] at hs
  | store f => simp [step, hidle] at hs
  | switch => simp [step, hidle] at hs
  | fail => simp [step, hidle] at hs
  | point =>
    simp only [step, Option.some.injEq] at hs
    subst hs
    refine ⟨hl, hp0, hp1, hpast, hidle, hid, k, hk, hk4, ?_⟩
    intro e
    simp [hl] at e
  | load =>
    simp only [step] at hs
    split at hs
    · rename_i b f hb hf
      simp only [Option.some.injEq] at hs
      subst hs
      have hn := order_lt hf
      by_cases hb0 : b = l0
      · subst hb0
        have hkn := hkp hb
        refine ⟨hl, hp0, hp1, hpast, hidle, hid, k + 1, ?_, by omega, by simp⟩
        refine take_snoc _ _ _ ?_ ?_
        · have e1 : s.got = old.values.take s.got.length := by
            rw [hkn] at hk
            rw [List.take_left' (by simp [Info.values, order]; omega)] at hk
            exact hk
          rw [hkn, List.take_append_of_le_length (by simp [Info.values, order]; omega), List.take_take]
          rw [Nat.min_eq_left (by omega)]
          exact e1
        · rw [mixed_get _ _ (by simp [Info.values, order]) _ _ (by omega), if_pos (by omega), hp0]
          exact values_get _ _ _ hf
      · have hb1 : b = !l0 := by clear hkp hb hl hp0 hp1; revert hb0; revert b l0; decide
        subst hb1
        by_cases hkn : k ≤ s.got.length
        · refine ⟨hl, hp0, hp1, hpast, hidle, hid, k, ?_, hk4, by simp⟩
          refine take_snoc _ _ _ hk ?_
          rw [mixed_get _ _ (by simp [Info.values, order]) _ _ hk4, if_neg (by omega), hp1]
          exact values_get _ _ _ hf
        · refine ⟨hl, hp0, hp1, hpast, hidle, hid, s.got.length, ?_, by omega, by simp⟩
          refine take_snoc _ _ _ ?_ ?_
          · have e1 : s.got = old.values.take s.got.length := by
              rw [List.take_append_of_le_length (by simp [Info.values, order]; omega), List.take_take, Nat.min_eq_left (by omega)] at hk
              exact hk
            rw [List.take_left' (by simp [Info.values, order]; omega)]
            exact e1
          · rw [mixed_get _ _ (by simp [Info.values, order]) _ _ (by omega), if_neg (by omega), hp1]
            exact values_get _ _ _ hf
    · simp at hs
  | enter =>
    simp only [step] at hs
    split at hs
    · split at hs
      · simp only [Option.some.injEq] at hs
        subst hs
        exact ⟨hl, hp0, hp1, hpast, hidle, hid, k, hk, hk4, hkp⟩
      · simp at hs
    · simp at hs

theorem after_run {l0 : Bool} {old new : Info} {rest : List Info} {s' : St} (es : List Ev) (s : St)
    (h : After l0 old new rest s) (hc : es.countP (fun e => match e with | .start _ _ _ => true | _ => false) = 0) (hr : run s es = some s') :
    After l0 old new rest s' := by
  induction es generalizing s with
  | nil => simp only [run, Option.some.injEq] at hr; exact hr ▸ h
  | cons e es ih =>
    simp only [run] at hr
    obtain ⟨t, ht, hr⟩ := Option.bind_eq_some_iff.1 hr
    rw [List.countP_cons] at hc
    refine ih t (after_step h ?_ ht) (by omega) hr
    split at hc <;> simp_all

theorem before_run {l0 : Bool} {old : Info} {rest : List Info} {s' : St} (es : List Ev) (s : St)
    (h : Before l0 old rest (es.countP (fun e => match e with | .start _ _ _ => true | _ => false)) s) (hr : run s es = some s') :
    Before l0 old rest 0 s' ∨ ∃ new, After l0 old new rest s' := by
  induction es generalizing s with
  | nil => simp only [run, Option.some.injEq] at hr; subst hr; exact .inl h
  | cons e es ih =>
    simp only [run] at hr
    obtain ⟨t, ht, hr⟩ := Option.bind_eq_some_iff.1 hr
    rw [List.countP_cons] at h
    rcases before_step h ht with h' | ⟨hc, new, h'⟩
    · exact ih t h' hr
    · exact .inr ⟨new, after_run es t h' hc hr⟩

/-! ## The property -/

/-- A read transaction that at most one write transaction overlaps, at whatever point of it and with whatever outcome: the first fields it gets are those of the
commit that was the last one when it began, the others those of the commit that is the last one when it has its snapshot.  So its root is the root of a finished
commit, and the id it is registered with is that of this commit or of the one before it, never a later one; and if no commit was finished in the meantime the
snapshot is exactly the last commit.  The full statement would say so for any number of overlapping commits; it is false, see `dirty_root`. -/
theorem begin_partial (s s' : St) (es : List Ev) (h : Fresh s) (ho : overlapping s es ≤ 1) (hr : run s es = some s') (hd : s'.got.length = 4) :
    ∃ old new, s.past.head? = some old ∧ s'.past.head? = some new ∧
      (∃ k, k ≤ 4 ∧ s'.got = old.values.take k ++ new.values.drop k) ∧
      (∃ c ∈ s'.past, s'.got[1]? = some c.root ∧ ∃ i, s'.got[0]? = some i ∧ i ≤ c.txnid ∧ c.txnid ≤ i + 1) ∧
      (s'.past = s.past → s'.got = old.values) := by
  obtain ⟨hlive, hptr, hgot, hslot, hnew⟩ := h
  obtain ⟨rest, hrest⟩ : ∃ rest, s.past = s.page s.live :: rest := by
    cases hp : s.past with
    | nil => rw [hp] at hlive; simp at hlive
    | cons a l => rw [hp] at hlive; simp at hlive; exact ⟨l, by rw [hlive]⟩
  have hB : Before s.live (s.page s.live) rest (es.countP (fun e => match e with | .start _ _ _ => true | _ => false)) s :=
    ⟨rfl, rfl, hrest, .inl hptr, by simp [hgot], hnew, ho⟩
  rcases before_run es s hB hr with hA | ⟨new, hA⟩
  · have e : s'.got = (s.page s.live).values := by
      rw [hA.got, hd]; exact List.take_of_length_le (by simp [Info.values, order])
    refine ⟨_, _, hlive, by rw [hA.past]; rfl, ⟨4, by omega, ?_⟩, ⟨_, by rw [hA.past]; exact List.mem_cons_self, ?_, _, ?_, Nat.le_refl _, by omega⟩, fun _ => e⟩
    · rw [e]; simp [Info.values, order]
    · rw [e]; simp [Info.values, order, Info.get]
    · rw [e]; simp [Info.values, order, Info.get]
  · obtain ⟨k, hk, hk4, -⟩ := hA.got
    have e : s'.got = (s.page s.live).values.take k ++ new.values.drop k := by
      rw [hk, hd]; exact List.take_of_length_le (by simp [Info.values, order]; omega)
    have hid := hA.id
    refine ⟨_, new, hlive, by rw [hA.past]; rfl, ⟨k, hk4, e⟩, ?_, ?_⟩
    · rw [hA.past]
      have k5 : k = 0 ∨ k = 1 ∨ 2 ≤ k := by omega
      rcases k5 with rfl | rfl | k2
      · exact ⟨new, by simp, by rw [e]; simp [Info.values, order, Info.get], new.txnid, by rw [e]; simp [Info.values, order, Info.get], by omega, by omega⟩
      · exact ⟨new, by simp, by rw [e]; simp [Info.values, order, Info.get], (s.page s.live).txnid, by rw [e]; simp [Info.values, order, Info.get], by omega, by omega⟩
      · refine ⟨s.page s.live, by simp, ?_, (s.page s.live).txnid, ?_, by omega, by omega⟩
        · rw [e, mixed_get _ _ (by simp [Info.values, order]) _ _ hk4, if_pos (by omega)]; simp [Info.values, order, Info.get]
        · rw [e, mixed_get _ _ (by simp [Info.values, order]) _ _ hk4, if_pos (by omega)]; simp [Info.values, order, Info.get]
    · intro hp
      rw [hA.past, hrest] at hp
      have := congrArg List.length hp
      simp at this

/-- From the moment a reader is in the table no search for the oldest reader gives a later transaction, whatever the writers and the other readers do. -/
theorem entered_partial (s s' : St) (es : List Ev) (hs : s.slot ≠ 0) (hr : run s es = some s') :
    s'.slot = s.slot ∧ ∃ fl, s'.floors = fl ++ s.floors ∧ ∀ x ∈ fl, x ≤ s.slot := by
  induction es generalizing s with
  | nil => simp only [run, Option.some.injEq] at hr; subst hr; exact ⟨rfl, [], rfl, by simp⟩
  | cons e es ih =>
    simp only [run] at hr
    obtain ⟨t, ht, hr⟩ := Option.bind_eq_some_iff.1 hr
    have key : t.slot = s.slot ∧ ∃ fl, t.floors = fl ++ s.floors ∧ ∀ x ∈ fl, x ≤ s.slot := by
      cases e with
      | scan o =>
        simp only [step] at ht
        split at ht
        · simp at ht
        · simp only [Option.some.injEq] at ht
          subst ht
          refine ⟨rfl, [_], rfl, ?_⟩
          intro x hx
          rw [List.mem_singleton] at hx
          subst hx
          unfold older
          rw [if_neg hs]
          by_cases h0 : o = 0
          · simp [h0, hs]
          · rw [if_neg h0, if_neg (by omega)]; omega
      | enter =>
        simp only [step, if_neg hs] at ht
        split at ht <;> simp at ht
      | start r f l =>
        simp only [step] at ht
        split at ht <;> simp at ht
        subst ht; exact ⟨rfl, [], rfl, by simp⟩
      | store f =>
        simp only [step] at ht
        split at ht
        · simp at ht
        · simp only [Option.some.injEq] at ht
          subst ht
          obtain ⟨-, -, -, -, r5, r6⟩ := setPage_rest s (!s.live) ((s.page (!s.live)).set f _)
          exact ⟨r5, [], r6, by simp⟩
      | switch =>
        simp only [step] at ht
        split at ht
        · simp at ht
        · split at ht
          · simp only [Option.some.injEq] at ht
            subst ht; exact ⟨rfl, [], rfl, by simp⟩
          · simp at ht
      | fail =>
        simp only [step] at ht
        split at ht <;> simp at ht
        subst ht; exact ⟨rfl, [], rfl, by simp⟩
      | point =>
        simp only [step, Option.some.injEq] at ht
        subst ht; exact ⟨rfl, [], rfl, by simp⟩
      | load =>
        simp only [step] at ht
        split at ht
        · simp only [Option.some.injEq] at ht
          subst ht; exact ⟨rfl, [], rfl, by simp⟩
        · simp at ht
    obtain ⟨k1, fl1, k2, k3⟩ := key
    obtain ⟨i1, fl2, i2, i3⟩ := ih t (by rw [k1]; exact hs) hr
    refine ⟨i1.trans k1, fl2 ++ fl1, by rw [i2, k2, List.append_assoc], ?_⟩
    intro x hx
    rcases List.mem_append.1 hx with h | h
    · exact k1 ▸ i3 x h
    · exact k3 x h

/-! ## Where it fails -/

/-- A database after transaction 7; the other meta page is that of transaction 6. -/
def seven : St := ⟨⟨6, 60, 61, 62⟩, ⟨7, 70, 71, 72⟩, true, .idle, [⟨7, 70, 71, 72⟩, ⟨6, 60, 61, 62⟩], none, [], 0, []⟩

/-- All of a commit. -/
def commit (root free last : Nat) : List Ev := [.start root free last, .store .txnid, .store .root, .store .free, .store .last, .switch]

theorem seven_fresh : Fresh seven := ⟨rfl, rfl, rfl, rfl, by intro n st h; simp [seven] at h⟩

/-- With two overlapping write transactions the reader can take the root of one that never takes effect: it has loaded the pointer, one transaction commits, and
the next one is writing to the page the pointer points to when the reader loads the root; that transaction then fails. -/
theorem dirty_root : ∃ es s', run seven es = some s' ∧ overlapping seven es = 2 ∧ s'.slot = 7 ∧ s'.writer = .idle ∧
    s'.got = [7, 90, 81, 82] ∧ ∀ c ∈ s'.past, c.root ≠ 90 :=
  ⟨[.point, .load, .point] ++ commit 80 81 82 ++ [.start 90 91 92, .store .txnid, .store .root, .load, .fail, .point, .load, .point, .load, .enter],
    _, rfl, by decide, by decide, by decide, by decide, by decide⟩

/-- The id, too, can be one that no commit has. -/
theorem dirty_id : ∃ es s', run seven es = some s' ∧ overlapping seven es = 2 ∧ s'.slot = 9 ∧ s'.writer = .idle ∧ ∀ c ∈ s'.past, c.txnid ≤ 8 :=
  ⟨[.point] ++ commit 80 81 82 ++ [.start 90 91 92, .store .txnid, .load, .fail, .point, .load, .point, .load, .point, .load, .enter],
    _, rfl, by decide, by decide, by decide, by decide⟩

/-- A reader that has its snapshot is not protected until it has entered the table: two transactions later a writer may take the pages that the first of them
has freed, as if there were no reader (the search gives 9, so entries of transaction 8 are free for use), and still the reader enters with 7. -/
theorem late_entry : ∃ es s', run seven es = some s' ∧ s'.got = [7, 70, 71, 72] ∧ s'.slot = 7 ∧ s'.floors = [9] :=
  ⟨[.point, .load, .point, .load, .point, .load, .point, .load] ++ commit 80 81 82 ++ [.start 90 91 92, .scan 0, .enter], _, rfl, by decide, by decide, by decide⟩

/-- The hypotheses of `begin_partial` are met by a run in which a commit is finished between two loads. -/
example : ∃ s', run seven ([.point, .load] ++ commit 80 81 82 ++ [.point, .load, .point, .load, .point, .load]) = some s' ∧ s'.got = [7, 80, 81, 82] ∧
    overlapping seven ([.point, .load] ++ commit 80 81 82 ++ [.point, .load, .point, .load, .point, .load]) = 1 :=
  ⟨_, rfl, by decide, by decide⟩

end Verif.Db.Begin
