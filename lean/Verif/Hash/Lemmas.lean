import Verif.Hash.Model

/-! Helper lemmas for the hash table model. -/

namespace Verif.Hash

theorem mask_eq (p : Nat) : mask p = 2 ^ (min p 32) - 1 := by
  unfold mask hashsize
  rcases Nat.le_total p 32 with h | h
  · rw [Nat.min_eq_left h]
    have : 2 ^ p ≤ 2 ^ 32 := Nat.pow_le_pow_right (by omega) h
    have : 0 < 2 ^ p := Nat.two_pow_pos p
    apply Nat.mod_eq_of_lt; omega
  · rw [Nat.min_eq_right h]
    obtain ⟨q, rfl⟩ := Nat.exists_eq_add_of_le h
    rw [Nat.pow_add]
    have : 0 < 2 ^ q := Nat.two_pow_pos q
    omega

theorem bucketOf_eq (p : Nat) (h : UInt32) : bucketOf p h = h.toNat % 2 ^ (min p 32) := by
  unfold bucketOf; rw [mask_eq, Nat.and_two_pow_sub_one_eq_mod]

theorem bucketOf_lt (p : Nat) (h : UInt32) : bucketOf p h < 2 ^ p := by
  rw [bucketOf_eq]
  have h1 : h.toNat % 2 ^ (min p 32) < 2 ^ (min p 32) := Nat.mod_lt _ (Nat.two_pow_pos _)
  have h2 : 2 ^ (min p 32) ≤ 2 ^ p := Nat.pow_le_pow_right (by omega) (Nat.min_le_left _ _)
  omega

/-- With at least 2^32 buckets the bucket number is the whole hash value. -/
theorem bucketOf_full {p : Nat} (hp : 32 ≤ p) (h : UInt32) : bucketOf p h = h.toNat := by
  rw [bucketOf_eq, Nat.min_eq_right hp]
  exact Nat.mod_eq_of_lt h.toNat_lt

/-- Elements sit in the bucket of their hash. -/
def Placed (f : Fns α κ) (t : Table α) : Prop :=
  t.buckets.length = 2 ^ t.power ∧
  ∀ (b : Nat) (l : List α), t.buckets[b]? = some l → ∀ x ∈ l, bucketOf t.power (f.hash (f.key x)) = b

/-- Representation invariant. -/
structure Inv (f : Fns α κ) (t : Table α) : Prop where
  placed : Placed f t
  room : ∀ l ∈ t.buckets, l.length < t.ffactor
  nel : t.nel = (elems t).length

theorem Inv.ff_pos {f : Fns α κ} {t : Table α} (h : Inv f t) : 0 < t.ffactor := by
  have hl := h.placed.1
  have hp := Nat.two_pow_pos t.power
  have := h.room (t.buckets[0]'(by omega)) (List.getElem_mem _)
  omega

theorem bucket_exists {f : Fns α κ} {t : Table α} (h : Placed f t) (hv : UInt32) :
    ∃ l, t.buckets[bucketOf t.power hv]? = some l := by
  have := bucketOf_lt t.power hv
  exact ⟨_, List.getElem?_eq_getElem (by rw [h.1]; exact this)⟩

theorem flatten_filter_single (p : α → Bool) :
    ∀ (L : List (List α)) (i : Nat) (l : List α), L[i]? = some l →
      (∀ (b : Nat) (l' : List α), L[b]? = some l' → b ≠ i → l'.filter p = []) →
      L.flatten.filter p = l.filter p := by
  intro L
  induction L with
  | nil => intro i l h; simp at h
  | cons x xs ih =>
    intro i l h hne
    rw [List.flatten_cons, List.filter_append]
    cases i with
    | zero =>
      simp at h; subst h
      have : xs.flatten.filter p = [] := by
        rw [List.filter_eq_nil_iff]
        intro a ha
        rw [List.mem_flatten] at ha
        obtain ⟨l', hl', ha⟩ := ha
        obtain ⟨b, hb, rfl⟩ := List.getElem_of_mem hl'
        have := hne (b + 1) xs[b] (by simp [hb]) (by omega)
        rw [List.filter_eq_nil_iff] at this
        exact this a ha
      simp [this]
    | succ i =>
      have h0 : x.filter p = [] := hne 0 x (by simp) (by omega)
      rw [h0, List.nil_append]
      apply ih i l (by simpa using h)
      intro b l' hb hbi
      exact hne (b + 1) l' (by simpa using hb) (by omega)

theorem elems_filter [DecidableEq κ] {f : Fns α κ} {t : Table α} (h : Placed f t) (k : κ) {l : List α}
    (hl : t.buckets[bucketOf t.power (f.hash k)]? = some l) :
    (elems t).filter (fun x => decide (k = f.key x)) = l.filter (fun x => decide (k = f.key x)) := by
  apply flatten_filter_single _ _ _ _ hl
  intro b l' hb hne
  rw [List.filter_eq_nil_iff]
  intro a ha hk
  have hk : k = f.key a := by simpa using hk
  subst hk
  exact hne (h.2 b l' hb a ha).symm

theorem flatten_set_perm :
    ∀ (L : List (List α)) (i : Nat) (l l' : List α) (x : α), L[i]? = some l → l'.Perm (x :: l) →
      (L.set i l').flatten.Perm (x :: L.flatten) := by
  intro L
  induction L with
  | nil => intro i l l' x h; simp at h
  | cons y ys ih =>
    intro i l l' x h hp
    cases i with
    | zero =>
      simp at h; subst h
      simpa using hp.append_right ys.flatten
    | succ i =>
      simp only [List.set_cons_succ, List.flatten_cons]
      have := ih i l l' x (by simpa using h) hp
      exact (this.append_left y).trans List.perm_middle

theorem powerLoop_ge (nel : Nat) : ∀ (fuel p : Nat), nel ≤ p + fuel → nel ≤ 2 ^ powerLoop fuel p nel := by
  intro fuel
  induction fuel with
  | zero =>
    intro p h
    unfold powerLoop
    have : p < 2 ^ p := Nat.lt_two_pow_self
    omega
  | succ fuel ih =>
    intro p h
    unfold powerLoop
    split
    · exact ih (p + 1) (by omega)
    · rename_i h'; unfold hashsize at h'; omega

theorem makeEx_power (α : Type) (p ff : Nat) : p ≤ (makeEx α (hashsize p) ff).power := by
  have := powerLoop_ge (hashsize p) (hashsize p) 0 (by omega)
  unfold makeEx
  rw [show hashsize p = 2 ^ p from rfl] at this ⊢
  exact (Nat.pow_le_pow_iff_right (by omega)).mp this

theorem elems_makeEx (α : Type) (nel ff : Nat) : elems (makeEx α nel ff) = [] := by
  simp [elems, makeEx]

theorem makeEx_inv (f : Fns α κ) (nel : Nat) {ff : Nat} (hff : 0 < ff) : Inv f (makeEx α nel ff) := by
  refine ⟨⟨by simp [makeEx, hashsize], ?_⟩, ?_, ?_⟩
  · intro b l hb x hx
    simp only [makeEx, List.getElem?_replicate] at hb
    split at hb
    · injection hb with hb; subst hb; simp at hx
    · cases hb
  · intro l hl
    simp only [makeEx, List.mem_replicate] at hl
    rw [hl.2]; exact hff
  · rw [elems_makeEx]; rfl

/-- What a successful store does. -/
theorem store_spec [DecidableEq κ] {f : Fns α κ} {t : Table α} (h : Inv f t) (x : α) :
    ∃ t' n, store t x (f.hash (f.key x)) = .ok (t', n) ∧ Placed f t' ∧ t'.power = t.power ∧
      t'.ffactor = t.ffactor ∧ t'.nel = (elems t').length ∧ (elems t').Perm (x :: elems t) ∧
      (∀ k, (elems t').filter (fun y => decide (k = f.key y)) =
        (elems t).filter (fun y => decide (k = f.key y)) ++ if k = f.key x then [x] else []) ∧
      (n < t.ffactor → ∀ l ∈ t'.buckets, l.length < t.ffactor) ∧
      (∀ l, t'.buckets[bucketOf t.power (f.hash (f.key x))]? = some l → l.length = n) := by
  obtain ⟨l, hl⟩ := bucket_exists h.placed (f.hash (f.key x))
  have hroom : l.length < t.ffactor := h.room l (List.mem_of_getElem? hl)
  have hlt : bucketOf t.power (f.hash (f.key x)) < t.buckets.length := by
    rw [h.placed.1]; exact bucketOf_lt _ _
  have hperm : (elems { t with buckets := t.buckets.set (bucketOf t.power (f.hash (f.key x))) (l ++ [x]), nel := t.nel + 1 }).Perm
      (x :: elems t) := flatten_set_perm _ _ _ _ _ hl (List.perm_append_singleton x l)
  have hplaced : Placed f { t with buckets := t.buckets.set (bucketOf t.power (f.hash (f.key x))) (l ++ [x]), nel := t.nel + 1 } := by
    refine ⟨by simpa using h.placed.1, ?_⟩
    intro b l' hb y hy
    simp only [List.getElem?_set] at hb
    split at hb
    · rename_i hbe
      subst hbe
      injection hb with hb; subst hb
      rcases List.mem_append.mp hy with hy | hy
      · exact h.placed.2 _ l hl y hy
      · simp at hy; subst hy; rfl
    · exact h.placed.2 b l' hb y hy
  refine ⟨_, l.length + 1, by simp only [store, hl, hroom, if_true], hplaced, rfl, rfl, ?_, hperm, ?_, ?_, ?_⟩
  · rw [hperm.length_eq]; simp [h.nel]
  · intro k
    by_cases hb : bucketOf t.power (f.hash k) = bucketOf t.power (f.hash (f.key x))
    · rw [elems_filter hplaced k (l := l ++ [x]) (by simp [hb, hlt]),
        elems_filter h.placed k (l := l) (by rw [hb]; exact hl), List.filter_append]
      simp only [List.filter_cons, List.filter_nil]
      congr 1
      by_cases hk : k = f.key x <;> simp [hk]
    · have hk : k ≠ f.key x := by intro hk; subst hk; exact hb rfl
      obtain ⟨l2, hl2⟩ := bucket_exists h.placed (f.hash k)
      rw [elems_filter hplaced k (l := l2) (by
        simp only [List.getElem?_set]; rw [if_neg (Ne.symm hb)]; exact hl2), elems_filter h.placed k hl2]
      simp [hk]
  · intro hn l' hl'
    rcases List.mem_or_eq_of_mem_set hl' with h' | h'
    · exact h.room l' h'
    · subst h'; simpa using hn
  · intro l' hl'
    simp only [List.getElem?_set, hlt, if_true] at hl'
    injection hl' with hl'; subst hl'; simp

/-- What adding the list `l` to `t` one by one yields. -/
structure Added [DecidableEq κ] (f : Fns α κ) (t : Table α) (l : List α) (t' : Table α) : Prop where
  inv : Inv f t'
  ff : t'.ffactor = t.ffactor
  pw : t.power ≤ t'.power
  perm : (elems t').Perm (l ++ elems t)
  filt : ∀ k, (elems t').filter (fun y => decide (k = f.key y)) =
    (elems t).filter (fun y => decide (k = f.key y)) ++ l.filter (fun y => decide (k = f.key y))

theorem Added.trans [DecidableEq κ] {f : Fns α κ} {t t1 t2 : Table α} {l1 l2 : List α}
    (h1 : Added f t l1 t1) (h2 : Added f t1 l2 t2) : Added f t (l1 ++ l2) t2 where
  inv := h2.inv
  ff := h2.ff.trans h1.ff
  pw := Nat.le_trans h1.pw h2.pw
  perm := by
    refine h2.perm.trans ((h1.perm.append_left l2).trans ?_)
    rw [← List.append_assoc, List.append_assoc l1]
    simpa [List.append_assoc] using (List.perm_append_comm (l₁ := l2) (l₂ := l1)).append_right (elems t)
  filt := by intro k; rw [h2.filt, h1.filt, List.filter_append, List.append_assoc]

theorem Added.nil [DecidableEq κ] {f : Fns α κ} {t : Table α} (h : Inv f t) : Added f t [] t :=
  ⟨h, rfl, Nat.le_refl _, .refl _, by simp⟩

theorem foldSet_spec [DecidableEq κ] (f : Fns α κ) (step : Table α → α → Res (Table α))
    (hstep : ∀ t x, Inv f t → step t x = .div ∨ ∃ t', step t x = .ok t' ∧ Added f t [x] t') :
    ∀ (l : List α) (t : Table α), Inv f t →
      l.foldlM step t = .div ∨ ∃ t', l.foldlM step t = .ok t' ∧ Added f t l t' := by
  intro l
  induction l with
  | nil => intro t h; right; exact ⟨t, rfl, .nil h⟩
  | cons x xs ih =>
    intro t h
    rw [List.foldlM_cons]
    rcases hstep t x h with e | ⟨t1, e, h1⟩
    · left; rw [e]; rfl
    · rw [e]
      rcases ih t1 h1.inv with e2 | ⟨t2, e2, h2⟩
      · left; simpa using e2
      · right; exact ⟨t2, by simpa using e2, h1.trans h2⟩

/-- `set` never hits undefined behaviour on a well-formed table; when it ends, it has added
exactly the element, at the end of its key class. -/
theorem set_spec [DecidableEq κ] (f : Fns α κ) :
    ∀ (fuel : Nat) (t : Table α) (x : α), Inv f t →
      set f fuel t x (f.hash (f.key x)) = .div ∨
      ∃ t', set f fuel t x (f.hash (f.key x)) = .ok t' ∧ Added f t [x] t' := by
  intro fuel
  induction fuel with
  | zero => intro t x _; left; rfl
  | succ fuel ih =>
    intro t x h
    obtain ⟨t1, n, e, hpl, hpw, hff, hnel, hperm, hfilt, hroom, _⟩ := store_spec h x
    unfold set
    simp only [e, Res.ok_bind]
    have hfilt1 : ∀ k, (elems t1).filter (fun y => decide (k = f.key y)) =
        (elems t).filter (fun y => decide (k = f.key y)) ++ [x].filter (fun y => decide (k = f.key y)) := by
      intro k; rw [hfilt k]
      by_cases hk : k = f.key x <;> simp [hk]
    by_cases hc : t1.ffactor ≤ n
    · simp only [hc, if_true]
      have hinv := makeEx_inv f (hashsize (t1.power + 1)) (by rw [hff]; exact h.ff_pos : 0 < t1.ffactor)
      rcases foldSet_spec f (fun tmp y => set f fuel tmp y (f.hash (f.key y))) (fun t x ht => ih t x ht)
          (elems t1) _ hinv with e2 | ⟨t2, e2, h2⟩
      · left; exact e2
      · right
        refine ⟨t2, e2, h2.inv, ?_, ?_, ?_, ?_⟩
        · rw [h2.ff]; exact hff
        · have := makeEx_power α (t1.power + 1) t1.ffactor
          have := h2.pw
          omega
        · refine h2.perm.trans ?_
          rw [elems_makeEx, List.append_nil]; exact hperm
        · intro k
          rw [h2.filt, elems_makeEx, hfilt1]; simp
    · simp only [hc, if_false]
      right
      exact ⟨t1, rfl, ⟨hpl, by rw [hff]; exact hroom (by omega), hnel⟩, hff, by omega, by simpa using hperm, hfilt1⟩

end Verif.Hash
