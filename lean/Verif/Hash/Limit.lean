import Verif.Hash.Props

/-!
# Setting an element when memory is limited (C97)

In `Hash/Model.lean` a table can always be made.  Here `limit` is the largest `power` for which
`apr_pcalloc` gets the two arrays of a table (`2^power` pointers and `2^power` counters); beyond it
`napr_hash_make_ex` gives NULL.  Simplification: the small allocations (the structure, a pool, one
bucket of `ffactor` pointers) do not fail, and `limit` is below 61, where the size of the arrays
would wrap around.
-/

namespace Verif.Hash

variable {α κ : Type}

/-- napr_hash.c L130-176 `napr_hash_make_ex` with the failing allocations of L161-173. -/
def makeLim (α : Type) (limit nel ffactor : Nat) : Option (Table α) :=
  if limit < (makeEx α nel ffactor).power then none else some (makeEx α nel ffactor)

/-- napr_hash.c L296-331 `napr_hash_set` with L208-256 `napr_hash_rebuild` inlined, including the
failures: L227-230 (no table of twice the size), L239-243 (setting an element into it failed) and
L323-327 (the status is handed on).  `false` is an error status; the table is then the old one with
the new element already stored (L303-312 come first). -/
def setLim (f : Fns α κ) (limit : Nat) : Nat → Table α → α → UInt32 → Res (Bool × Table α)
  | 0, _, _, _ => .div
  | fuel + 1, t, x, hv => do
    let (t', filled) ← store t x hv
    if t'.ffactor ≤ filled then
      match makeLim α limit (hashsize (t'.power + 1)) t'.ffactor with
      | none => .ok (false, t')
      | some tmp => do
        let r ← (elems t').foldlM (fun (acc : Bool × Table α) y =>
          if acc.1 then setLim f limit fuel acc.2 y (f.hash (f.key y)) else .ok acc) (true, tmp)
        if r.1 then .ok r else .ok (false, t')
    else .ok (true, t')

theorem powerLoop_le (nel q : Nat) (hq : nel ≤ 2 ^ q) : ∀ (fuel p : Nat), p ≤ q → powerLoop fuel p nel ≤ q := by
  intro fuel
  induction fuel with
  | zero => intro p h; exact h
  | succ fuel ih =>
    intro p h
    unfold powerLoop
    split
    · rename_i h'
      apply ih
      rcases Nat.lt_or_ge p q with h2 | h2
      · exact h2
      · exfalso
        have : p = q := by omega
        subst this
        unfold hashsize at h'; omega
    · exact h

theorem makeEx_power_eq (α : Type) (p ff : Nat) : (makeEx α (hashsize p) ff).power = p := by
  apply Nat.le_antisymm
  · exact powerLoop_le _ _ (Nat.le_refl _) _ _ (Nat.zero_le _)
  · exact makeEx_power α p ff

variable [DecidableEq κ]

/-- What a call of `setLim` gives: it added the element, or it failed and has only stored it. -/
def Outcome (f : Fns α κ) (limit : Nat) (t : Table α) (x : α) (r : Bool × Table α) : Prop :=
  (r.1 = true ∧ Added f t [x] r.2 ∧ r.2.power ≤ limit) ∨
  (r.1 = false ∧ store t x (f.hash (f.key x)) = .ok (r.2, t.ffactor))

theorem foldLim_spec (f : Fns α κ) (limit : Nat) (step : Table α → α → Res (Bool × Table α)) (p0 : Nat)
    (hstep : ∀ t x, Inv f t → p0 ≤ t.power → t.power ≤ limit → ∃ r, step t x = .ok r ∧ Outcome f limit t x r) :
    ∀ (l : List α) (t : Table α), Inv f t → p0 ≤ t.power → t.power ≤ limit →
      ∃ r, l.foldlM (fun (acc : Bool × Table α) y => if acc.1 then step acc.2 y else .ok acc) (true, t) = .ok r ∧
        (r.1 = true → Added f t l r.2 ∧ r.2.power ≤ limit) := by
  intro l
  induction l with
  | nil => intro t h _ h2; exact ⟨(true, t), rfl, fun _ => ⟨.nil h, h2⟩⟩
  | cons x xs ih =>
    intro t h h1 h2
    rw [List.foldlM_cons]
    simp only [if_true]
    obtain ⟨⟨b, t1⟩, e, hr⟩ := hstep t x h h1 h2
    rw [e, Res.ok_bind]
    rcases hr with ⟨hb, ha, hp⟩ | ⟨hb, -⟩
    · simp only at hb ha hp
      subst hb
      obtain ⟨r, e2, h3⟩ := ih t1 ha.inv (Nat.le_trans h1 ha.pw) hp
      exact ⟨r, e2, fun hr => ⟨ha.trans (h3 hr).1, (h3 hr).2⟩⟩
    · simp only at hb
      subst hb
      refine ⟨(false, t1), ?_, by simp⟩
      clear ih
      induction xs with
      | nil => rfl
      | cons y ys ih => rw [List.foldlM_cons]; exact ih

theorem setLim_outcome (f : Fns α κ) (limit : Nat) :
    ∀ (fuel : Nat) (t : Table α) (x : α), Inv f t → t.power ≤ limit → limit + 1 ≤ fuel + t.power →
      ∃ r, setLim f limit fuel t x (f.hash (f.key x)) = .ok r ∧ Outcome f limit t x r := by
  intro fuel
  induction fuel with
  | zero => intro t x _ h1 h2; omega
  | succ fuel ih =>
    intro t x h hp hfu
    obtain ⟨t1, n, e, hpl, hpw, hff, hnel, hperm, hfilt, hroom, hlen⟩ := store_spec h x
    unfold setLim
    simp only [e, Res.ok_bind]
    have hfilt1 : ∀ k, (elems t1).filter (fun y => decide (k = f.key y)) =
        (elems t).filter (fun y => decide (k = f.key y)) ++ [x].filter (fun y => decide (k = f.key y)) := by
      intro k; rw [hfilt k]
      by_cases hk : k = f.key x <;> simp [hk]
    by_cases hc : t1.ffactor ≤ n
    · simp only [hc, if_true]
      have hn : n = t.ffactor := by
        obtain ⟨l, hl⟩ := bucket_exists h.placed (f.hash (f.key x))
        have hr := h.room l (List.mem_of_getElem? hl)
        have e' := e
        simp only [store, hl, hr, if_true, Res.ok.injEq, Prod.mk.injEq] at e'
        have := e'.2
        omega
      have hfail : Outcome f limit t x (false, t1) := .inr ⟨rfl, by rw [e, hn]⟩
      unfold makeLim
      rw [makeEx_power_eq]
      by_cases hl : limit < t1.power + 1
      · simp only [hl, if_true]
        exact ⟨_, rfl, hfail⟩
      · simp only [hl, if_false]
        have hinv := makeEx_inv f (hashsize (t1.power + 1)) (by rw [hff]; exact h.ff_pos : 0 < t1.ffactor)
        obtain ⟨r, e2, h2⟩ := foldLim_spec f limit (fun tmp y => setLim f limit fuel tmp y (f.hash (f.key y))) (t1.power + 1)
          (fun t x ht h1 h2 => ih t x ht h2 (by omega)) (elems t1) _ hinv (by rw [makeEx_power_eq]; exact Nat.le_refl _)
          (by rw [makeEx_power_eq]; omega)
        rw [e2, Res.ok_bind]
        by_cases hr : r.1 = true
        · rw [if_pos hr]
          obtain ⟨h2, h3⟩ := h2 hr
          refine ⟨r, rfl, .inl ⟨hr, ⟨h2.inv, ?_, ?_, ?_, ?_⟩, h3⟩⟩
          · rw [h2.ff]; exact hff
          · have := h2.pw
            rw [makeEx_power_eq] at this
            omega
          · refine h2.perm.trans ?_
            rw [elems_makeEx, List.append_nil]; exact hperm
          · intro k
            rw [h2.filt, elems_makeEx, hfilt1]; simp
        · rw [if_neg hr]
          exact ⟨_, rfl, hfail⟩
    · simp only [hc, if_false]
      exact ⟨_, rfl, .inl ⟨rfl, ⟨⟨hpl, by rw [hff]; exact hroom (by omega), hnel⟩, hff, Nat.le_of_eq hpw.symm, by simpa using hperm, hfilt1⟩,
        by rw [hpw]; exact hp⟩⟩

omit [DecidableEq κ] in
/-- In a table that keeps its invariant fewer than fill-factor elements share a hash value. -/
theorem inv_sameHash {f : Fns α κ} {t : Table α} (h : Inv f t) (v : UInt32) : sameHash f (elems t) v < t.ffactor := by
  obtain ⟨l, hl⟩ := bucket_exists h.placed v
  have hroom := h.room l (List.mem_of_getElem? hl)
  have : (elems t).filter (fun y => decide (f.hash (f.key y) = v)) = l.filter (fun y => decide (f.hash (f.key y) = v)) := by
    apply flatten_filter_single _ _ _ _ hl
    intro b l' hb hne
    rw [List.filter_eq_nil_iff]
    intro a hal hk
    have hk : f.hash (f.key a) = v := by simpa using hk
    exact hne (by rw [← hk]; exact (h.placed.2 b l' hb a hal).symm)
  unfold sameHash
  rw [List.countP_eq_length_filter, this]
  have := List.length_filter_le (fun y => decide (f.hash (f.key y) = v)) l
  omega

theorem setLim_success (f : Fns α κ) (limit : Nat) (h32 : 32 ≤ limit) :
    ∀ (fuel : Nat) (t : Table α) (x : α), Inv f t → t.power ≤ limit → limit + 1 ≤ fuel + t.power →
      (∀ v, sameHash f (x :: elems t) v < t.ffactor) →
      ∃ t', setLim f limit fuel t x (f.hash (f.key x)) = .ok (true, t') ∧ Added f t [x] t' ∧ t'.power ≤ limit := by
  intro fuel
  induction fuel with
  | zero => intro t x _ h1 h2; omega
  | succ fuel ih =>
    intro t x h hp hfu hb
    obtain ⟨t1, n, e, hpl, hpw, hff, hnel, hperm, hfilt, hroom, hlen⟩ := store_spec h x
    have hfold : ∀ (l : List α) (tmp : Table α), Inv f tmp → tmp.ffactor = t.ffactor → t.power + 1 ≤ tmp.power → tmp.power ≤ limit →
        (∀ v, sameHash f (l ++ elems tmp) v < t.ffactor) →
        ∃ t', l.foldlM (fun (acc : Bool × Table α) y => if acc.1 then setLim f limit fuel acc.2 y (f.hash (f.key y)) else .ok acc)
          (true, tmp) = .ok (true, t') := by
      intro l
      induction l with
      | nil => intro tmp _ _ _ _ _; exact ⟨tmp, rfl⟩
      | cons y ys ihl =>
        intro tmp hi hffe hp1 hp2 hbnd
        rw [List.foldlM_cons]
        simp only [if_true]
        obtain ⟨t2, e2, h2, h3⟩ := ih tmp y hi hp2 (by omega) (by
          intro v
          have := hbnd v
          unfold sameHash at this ⊢
          rw [List.cons_append, List.countP_cons, List.countP_append] at this
          rw [List.countP_cons]; omega)
        rw [e2, Res.ok_bind]
        apply ihl t2 h2.inv (h2.ff.trans hffe) (Nat.le_trans hp1 h2.pw) h3
        intro v
        have := hbnd v
        unfold sameHash at this ⊢
        rw [List.countP_append, h2.perm.countP_eq]
        rw [List.cons_append, List.countP_cons, List.countP_append] at this
        rw [List.cons_append, List.countP_cons, List.nil_append]; omega
    obtain ⟨⟨b, tr⟩, er, hr⟩ := setLim_outcome f limit (fuel + 1) t x h hp hfu
    suffices hb' : b = true by
      subst hb'
      rcases hr with ⟨-, ha, hq⟩ | ⟨hx, -⟩
      · exact ⟨tr, er, ha, hq⟩
      · cases hx
    unfold setLim at er
    simp only [e, Res.ok_bind] at er
    by_cases hc : t1.ffactor ≤ n
    · have hp32 : t.power < 32 := by
        rcases Nat.lt_or_ge t.power 32 with h' | h'
        · exact h'
        · exfalso
          obtain ⟨l, hl⟩ := bucket_exists hpl (f.hash (f.key x))
          rw [hpw] at hl
          have hln := hlen l hl
          have hall : l.countP (fun y => f.hash (f.key y) = f.hash (f.key x)) = l.length := by
            rw [List.countP_eq_length]
            intro y hy
            have h3 := hpl.2 _ l hl y hy
            rw [hpw, bucketOf_full h', bucketOf_full h'] at h3
            simpa using UInt32.toNat_inj.mp h3
          have hsub : l.Sublist (elems t1) := List.sublist_flatten_of_mem (List.mem_of_getElem? hl)
          have h4 := hb (f.hash (f.key x))
          have h5 := hsub.countP_le (p := fun y => decide (f.hash (f.key y) = f.hash (f.key x)))
          unfold sameHash at h4
          rw [← hperm.countP_eq] at h4
          omega
      simp only [hc, if_true] at er
      unfold makeLim at er
      rw [makeEx_power_eq, if_neg (by omega)] at er
      simp only at er
      have hinv := makeEx_inv f (hashsize (t1.power + 1)) (by rw [hff]; exact h.ff_pos : 0 < t1.ffactor)
      obtain ⟨t2, e2⟩ := hfold (elems t1) _ hinv hff (by rw [makeEx_power_eq]; omega) (by rw [makeEx_power_eq]; omega) (by
          intro v; rw [elems_makeEx, List.append_nil]
          have := hb v
          unfold sameHash at this ⊢
          rw [hperm.countP_eq]; exact this)
      rw [e2, Res.ok_bind, if_pos rfl] at er
      simp only [Res.ok.injEq, Prod.mk.injEq] at er
      exact er.1.symm
    · simp only [hc, if_false] at er
      simp only [Res.ok.injEq, Prod.mk.injEq] at er
      exact er.1.symm

/-! ## C97 -/

/-- With limited memory every `set` on a well-formed table returns, after at most `limit + 1` nested
rebuilds.  If it reports success, the table is as it should be: exactly the element was added.  If
tables of 2^32 buckets can be made, it succeeds exactly if fewer than fill-factor elements share any
full hash value (the condition of C06). -/
theorem limited_set_returns (f : Fns α κ) (limit : Nat) {t : Table α} {m : κ → Option α} (h : Abs f t m) (hp : t.power ≤ limit)
    {x : α} (hx : m (f.key x) = none) :
    ∃ b t', setLim f limit (limit + 1) t x (f.hash (f.key x)) = .ok (b, t') ∧
      (b = true → Abs f t' (fun k => if k = f.key x then some x else m k)) ∧
      ((∃ v, t.ffactor ≤ sameHash f (x :: elems t) v) → b = false) ∧
      (32 ≤ limit → (∀ v, sameHash f (x :: elems t) v < t.ffactor) → b = true) := by
  obtain ⟨⟨b, t'⟩, e, hr⟩ := setLim_outcome f limit (limit + 1) t x h.inv hp (by omega)
  refine ⟨b, t', e, ?_, ?_, ?_⟩
  · intro hb
    rcases hr with ⟨-, ha, -⟩ | ⟨hx, -⟩
    · refine ⟨ha.inv, fun k => ?_⟩
      rw [ha.filt, h.cls]
      by_cases hk : k = f.key x
      · subst hk; rw [if_pos rfl, hx]; simp
      · rw [if_neg hk]; simp [hk]
    · simp only at hx; rw [hb] at hx; cases hx
  · rintro ⟨v, hv⟩
    rcases hr with ⟨-, ha, -⟩ | ⟨hx, -⟩
    · exfalso
      have := inv_sameHash ha.inv v
      simp only at ha
      unfold sameHash at hv this
      rw [ha.perm.countP_eq, ha.ff] at this
      exact absurd hv (by simpa using this)
    · exact hx
  · intro h32 hb
    obtain ⟨t2, e2, -⟩ := setLim_success f limit h32 (limit + 1) t x h.inv hp (by omega) hb
    rw [e] at e2
    simp only [Res.ok.injEq, Prod.mk.injEq] at e2
    exact e2.1

/-- After a failure the table still answers searches as if the element had been set, but it is no
table any more: setting one more element of the same bucket writes behind the end of the bucket.
(All callers in the program ignore the status.) -/
theorem failed_set_breaks_table (f : Fns α κ) (limit fuel : Nat) {t t' : Table α} {m : κ → Option α} (h : Abs f t m)
    (hp : t.power ≤ limit) {x : α} (hx : m (f.key x) = none) (hfu : limit + 1 ≤ fuel + t.power)
    (hset : setLim f limit fuel t x (f.hash (f.key x)) = .ok (false, t')) :
    (∀ k, search f t' k = .ok (if k = f.key x then some x else m k)) ∧
    ∀ fuel' y, bucketOf t.power (f.hash (f.key y)) = bucketOf t.power (f.hash (f.key x)) →
      setLim f limit (fuel' + 1) t' y (f.hash (f.key y)) = .ub := by
  obtain ⟨r, e, hr⟩ := setLim_outcome f limit fuel t x h.inv hp hfu
  rw [hset] at e
  cases e
  rcases hr with ⟨hx, -⟩ | ⟨-, hst⟩
  · cases hx
  simp only at hst
  obtain ⟨t1, n, e, hpl, hpw, hff, hnel, hperm, hfilt, hroom, hlen⟩ := store_spec h.inv x
  rw [hst] at e
  cases e
  constructor
  · intro k
    obtain ⟨l, hl⟩ := bucket_exists hpl (f.hash k)
    unfold search
    rw [hl]
    simp only [Res.ok.injEq]
    rw [← List.head?_filter, ← elems_filter hpl k hl, hfilt, h.cls]
    by_cases hk : k = f.key x
    · subst hk; rw [if_pos rfl, if_pos rfl, hx]; rfl
    · rw [if_neg hk, if_neg hk]; cases m k <;> rfl
  · intro fuel' y hy
    obtain ⟨l, hl⟩ := bucket_exists hpl (f.hash (f.key y))
    have hl' := hl
    rw [hpw, hy] at hl'
    have hln := hlen l hl'
    unfold setLim store
    rw [hl]
    simp only [hff, hln, Nat.lt_irrefl, if_false]
    rfl

/-- Elements all of which have the hash value 0, and elements that are their own hash value. -/
def exSame : Fns (Nat × Nat) Nat := ⟨Prod.fst, fun _ => 0⟩
def exOwn : Fns (Nat × Nat) Nat := ⟨Prod.fst, fun n => UInt32.ofNat n⟩

/-- Setting the keys one after another, ignoring the status as the callers do; the statuses and the
buckets at the end (nothing if a write went out of bounds). -/
def exRun (f : Fns (Nat × Nat) Nat) (limit : Nat) (ks : List Nat) : Option (List Bool × List (List (Nat × Nat))) :=
  match ks.foldlM (fun (acc : List Bool × Table (Nat × Nat)) k =>
      setLim f limit (limit + 1) acc.2 (k, k) (f.hash k) >>= fun r => .ok (acc.1 ++ [r.1], r.2)) ([], makeEx _ 1 2) with
  | .ok r => some (r.1, r.2.buckets)
  | _ => none

/-- Both cases occur: two elements of one hash value in a table with fill factor two fail with every
limit (here 3), and the third is written out of bounds; with different hash values the set succeeds. -/
example : exRun exSame 3 [1, 2] = some ([true, false], [[(1, 1), (2, 2)]]) ∧ exRun exSame 3 [1, 2, 3] = none ∧
    exRun exOwn 3 [1, 2] = some ([true, true], [[(2, 2)], [(1, 1)]]) := by
  decide +kernel

end Verif.Hash
