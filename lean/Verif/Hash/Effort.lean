import Verif.Hash.Props

/-!
# C137: how many stored elements a search looks at, and how large a table becomes

napr_hash.h L115: the fill factor is "the maximum number of collisions for a given key".  The loops of `napr_hash_search` (napr_hash.c L194-203) and `napr_hash_remove` (L271-288) are written
here a second time, element by element, with a record of the stored elements they look at (those handed to `get_key_len`, and for equal lengths to `get_key` and `key_cmp`); without the record they
are the functions of `Hash/Model.lean` (`searchT_fst`, `removeT_fst`).  Setting an element looks at no stored key (L296-331), except when it rebuilds the table.
-/

namespace Verif.Hash

variable {α κ : Type} [DecidableEq κ]

/-- napr_hash.c L195-202, L272-287: the loop over a bucket up to the first element with the key `k`: its position, if any, and the elements looked at. -/
def scanT (f : Fns α κ) (k : κ) : List α → Nat → Option Nat × List α
  | [], _ => (none, [])
  | y :: ys, i =>
    if k = f.key y then (some i, [y])
    else
      let r := scanT f k ys (i + 1)
      (r.1, y :: r.2)

/-- napr_hash.c L178-206 `napr_hash_search` with the elements looked at. -/
def searchT (f : Fns α κ) (t : Table α) (k : κ) : Res (Option α × List α) :=
  match t.buckets[bucketOf t.power (f.hash k)]? with
  | none => .ub
  | some b =>
    match scanT f k b 0 with
    | (none, l) => .ok (none, l)
    | (some i, l) =>
      match b[i]? with
      | none => .ub
      | some x => .ok (some x, l)

/-- napr_hash.c L258-294 `napr_hash_remove` with the elements looked at. -/
def removeT (f : Fns α κ) (t : Table α) (x : α) (hv : UInt32) : Res (Table α × List α) :=
  match t.buckets[bucketOf t.power hv]? with
  | none => .ub
  | some b =>
    match scanT f (f.key x) b 0 with
    | (none, l) => .ok (t, l)
    | (some i, l) => .ok ({ t with buckets := t.buckets.set (bucketOf t.power hv) (removeAt b i), nel := t.nel - 1 }, l)

/-- A history as `run` of `Hash/Props.lean` makes it, with the elements looked at by each search and each removal. -/
def runT (f : Fns α κ) (fuel : Nat) : Table α → List (Op α κ) → Res ((Table α × List (Option α)) × List (List α))
  | t, [] => .ok ((t, []), [])
  | t, .set x :: ops => do
    let t ← set f fuel t x (f.hash (f.key x))
    runT f fuel t ops
  | t, .remove x :: ops => do
    let (t, l) ← removeT f t x (f.hash (f.key x))
    let (r, ls) ← runT f fuel t ops
    .ok (r, l :: ls)
  | t, .search k :: ops => do
    let (o, l) ← searchT f t k
    let ((t, os), ls) ← runT f fuel t ops
    .ok ((t, o :: os), l :: ls)

/-- The result without the record. -/
def plain {β γ : Type} (r : Res (β × γ)) : Res β := r >>= fun x => .ok x.1

/-- How many calls of a history are searches and removals. -/
def lookups : List (Op α κ) → Nat
  | [] => 0
  | .set _ :: ops => lookups ops
  | .remove _ :: ops => lookups ops + 1
  | .search _ :: ops => lookups ops + 1

/-! ## The loops are those of the model -/

theorem scanT_idx (f : Fns α κ) (k : κ) : ∀ (b : List α) (i : Nat),
    (scanT f k b i).1 = (b.findIdx? (fun y => decide (k = f.key y))).map (· + i) := by
  intro b
  induction b with
  | nil => intro i; rfl
  | cons y ys ih =>
    intro i
    unfold scanT
    by_cases h : k = f.key y
    · simp [h, List.findIdx?_cons]
    · simp only [h, if_false, List.findIdx?_cons, decide_false, Bool.false_eq_true]
      rw [ih (i + 1)]
      cases ys.findIdx? (fun y => decide (k = f.key y)) with
      | none => rfl
      | some j => simp; omega

/-- The elements looked at are the first ones of the bucket. -/
theorem scanT_prefix (f : Fns α κ) (k : κ) : ∀ (b : List α) (i : Nat), ∃ r, (scanT f k b i).2 ++ r = b := by
  intro b
  induction b with
  | nil => intro i; exact ⟨[], rfl⟩
  | cons y ys ih =>
    intro i
    unfold scanT
    by_cases h : k = f.key y
    · exact ⟨ys, by simp [h]⟩
    · obtain ⟨r, hr⟩ := ih (i + 1)
      exact ⟨r, by simp [h, hr]⟩

/-- The record misses nothing: the elements up to the first with the key, and that one. -/
theorem scanT_record (f : Fns α κ) (k : κ) : ∀ (b : List α) (i : Nat),
    (scanT f k b i).2 = b.takeWhile (fun y => decide (k ≠ f.key y)) ++ (b.find? (fun y => decide (k = f.key y))).toList := by
  intro b
  induction b with
  | nil => intro i; rfl
  | cons y ys ih =>
    intro i
    unfold scanT
    by_cases h : k = f.key y
    · simp [h]
    · simp [h, ih (i + 1)]

theorem find_of_idx (p : α → Bool) : ∀ b : List α, b.find? p = (b.findIdx? p).bind (b[·]?) := by
  intro b
  induction b with
  | nil => rfl
  | cons y ys ih =>
    rw [List.find?_cons, List.findIdx?_cons]
    cases p y with
    | true => simp
    | false =>
      simp only [ih]
      cases ys.findIdx? p with
      | none => rfl
      | some j => simp

/-- What a search is when its bucket is `b`. -/
theorem searchT_eq {f : Fns α κ} {t : Table α} {k : κ} {b : List α} (hb : t.buckets[bucketOf t.power (f.hash k)]? = some b) :
    searchT f t k = .ok (b.find? (fun x => decide (k = f.key x)), (scanT f k b 0).2) := by
  unfold searchT
  rw [hb]
  have hi := scanT_idx f k b 0
  cases hs : scanT f k b 0 with
  | mk o l =>
    rw [hs] at hi
    simp only [Nat.add_zero, Option.map_id_fun', id] at hi
    have hf := find_of_idx (fun x => decide (k = f.key x)) b
    cases o with
    | none => rw [← hi] at hf; simp only [Option.bind_none] at hf; simp only [hs, hf]
    | some i =>
      rw [← hi] at hf
      simp only [Option.bind_some] at hf
      obtain ⟨hlt, _⟩ := List.findIdx?_eq_some_iff_getElem.mp hi.symm
      simp only [hs, hf, List.getElem?_eq_getElem hlt]

theorem searchT_fst (f : Fns α κ) (t : Table α) (k : κ) : plain (searchT f t k) = search f t k := by
  unfold search
  cases hb : t.buckets[bucketOf t.power (f.hash k)]? with
  | none => unfold searchT; rw [hb]; rfl
  | some b => rw [searchT_eq hb]; rfl

theorem removeT_fst (f : Fns α κ) (t : Table α) (x : α) (hv : UInt32) : plain (removeT f t x hv) = remove f t x hv := by
  unfold removeT remove
  cases hb : t.buckets[bucketOf t.power hv]? with
  | none => rfl
  | some b =>
    have hi := scanT_idx f (f.key x) b 0
    cases hs : scanT f (f.key x) b 0 with
    | mk o l =>
      rw [hs] at hi
      simp only [Nat.add_zero, Option.map_id_fun', id] at hi
      subst hi
      cases hfi : b.findIdx? (fun y => decide (f.key x = f.key y)) with
      | none => simp only [hs, hfi]; rfl
      | some i => simp only [hs, hfi]; rfl

/-! ## Removal keeps the buckets short whatever is stored -/

theorem remove_inv {f : Fns α κ} {t : Table α} (h : Inv f t) (x : α) :
    ∃ t', remove f t x (f.hash (f.key x)) = .ok t' ∧ Inv f t' ∧ t'.ffactor = t.ffactor ∧ t'.power = t.power := by
  obtain ⟨l, hl⟩ := bucket_exists h.placed (f.hash (f.key x))
  have hlt : bucketOf t.power (f.hash (f.key x)) < t.buckets.length := by
    rw [h.placed.1]; exact bucketOf_lt _ _
  simp only [remove, hl]
  cases hfi : l.findIdx? (fun y => decide (f.key x = f.key y)) with
  | none => exact ⟨t, rfl, h, rfl, rfl⟩
  | some i =>
    obtain ⟨hi, _, _⟩ := List.findIdx?_eq_some_iff_getElem.mp hfi
    have hp := removeAt_spec l i hi
    have hroom := h.room l (List.mem_of_getElem? hl)
    refine ⟨_, rfl, ⟨⟨by simpa using h.placed.1, ?_⟩, ?_, ?_⟩, rfl, rfl⟩
    · intro b l' hb y hy
      simp only [List.getElem?_set] at hb
      split at hb
      · rename_i hbe
        subst hbe
        injection hb with hb; subst hb
        exact h.placed.2 _ l hl y (hp.subset (List.mem_cons_of_mem _ hy))
      · exact h.placed.2 b l' hb y hy
    · intro l' hl'
      rcases List.mem_or_eq_of_mem_set hl' with h' | h'
      · exact h.room l' h'
      · subst h'
        have := hp.length_eq
        simp at this
        show (removeAt l i).length < t.ffactor
        omega
    · have hperm := flatten_set_perm (t.buckets.set (bucketOf t.power (f.hash (f.key x))) (removeAt l i))
        (bucketOf t.power (f.hash (f.key x))) (removeAt l i) l l[i] (by simp [hlt]) hp.symm
      rw [List.set_set] at hperm
      have e : t.buckets.set (bucketOf t.power (f.hash (f.key x))) l = t.buckets := by
        rw [List.getElem?_eq_getElem hlt] at hl
        injection hl with hl
        rw [← hl]; exact List.set_getElem_self hlt
      rw [e] at hperm
      have := hperm.length_eq
      have hn := h.nel
      simp only [elems] at hn ⊢
      simp at this hn ⊢; omega

theorem plain_ok {β γ : Type} {r : Res (β × γ)} {b : β} (h : plain r = .ok b) : ∃ c, r = .ok (b, c) := by
  cases r with
  | ok x => exact ⟨x.2, by simp only [plain, Res.ok_bind] at h; injection h with h; subst h; rfl⟩
  | ub => cases h
  | div => cases h

/-- A search of a well-formed table looks at fewer elements than the fill factor, all of them in the bucket of the key's hash. -/
theorem searchT_short {f : Fns α κ} {t : Table α} (h : Inv f t) (k : κ) :
    ∃ o l, searchT f t k = .ok (o, l) ∧ search f t k = .ok o ∧ l.length < t.ffactor ∧ (∀ y ∈ l, bucketOf t.power (f.hash (f.key y)) = bucketOf t.power (f.hash k)) ∧
      (∀ x, o = some x → l.getLast? = some x) ∧
      (o = none → ∀ y ∈ elems t, bucketOf t.power (f.hash (f.key y)) = bucketOf t.power (f.hash k) → y ∈ l) := by
  obtain ⟨b, hb⟩ := bucket_exists h.placed (f.hash k)
  obtain ⟨r, hr⟩ := scanT_prefix f k b 0
  have hlen := congrArg List.length hr
  rw [List.length_append] at hlen
  have hroom := h.room b (List.mem_of_getElem? hb)
  have hrec := scanT_record f k b 0
  refine ⟨_, _, searchT_eq hb, by simp only [search, hb], by omega, fun y hy => ?_, fun x hx => ?_, fun ho y hy hyb => ?_⟩
  · exact h.placed.2 _ b hb y (by rw [← hr]; exact List.mem_append_left _ hy)
  · rw [hrec, hx]; simp
  · rw [hrec, ho]
    obtain ⟨b', hb', hy⟩ := List.mem_flatten.1 hy
    obtain ⟨j, hj⟩ := List.mem_iff_getElem?.1 hb'
    have hjb := h.placed.2 j b' hj y hy
    rw [hyb] at hjb
    rw [← hjb, hb] at hj
    cases hj
    have hall : ∀ z ∈ b, decide (k ≠ f.key z) = true := by
      intro z hz
      have := List.find?_eq_none.1 ho z hz
      simpa using this
    have htake : ∀ b : List α, (∀ z ∈ b, decide (k ≠ f.key z) = true) → b.takeWhile (fun z => decide (k ≠ f.key z)) = b := by
      intro b
      induction b with
      | nil => intro _; rfl
      | cons z zs ih =>
        intro hz
        rw [List.takeWhile_cons, hz z (List.mem_cons_self ..), if_pos rfl, ih (fun w hw => hz w (List.mem_cons_of_mem _ hw))]
    rw [htake b hall]
    simpa using hy

theorem removeT_short {f : Fns α κ} {t : Table α} (h : Inv f t) (x : α) :
    ∃ t' l, removeT f t x (f.hash (f.key x)) = .ok (t', l) ∧ remove f t x (f.hash (f.key x)) = .ok t' ∧ l.length < t.ffactor := by
  obtain ⟨t', e, _⟩ := remove_inv h x
  have hf := removeT_fst f t x (f.hash (f.key x))
  rw [e] at hf
  obtain ⟨l, hl⟩ := plain_ok hf
  refine ⟨t', l, hl, e, ?_⟩
  obtain ⟨b, hb⟩ := bucket_exists h.placed (f.hash (f.key x))
  obtain ⟨r, hr⟩ := scanT_prefix f (f.key x) b 0
  have hlen := congrArg List.length hr
  rw [List.length_append] at hlen
  have hroom := h.room b (List.mem_of_getElem? hb)
  have : l = (scanT f (f.key x) b 0).2 := by
    unfold removeT at hl
    rw [hb] at hl
    cases hs : scanT f (f.key x) b 0 with
    | mk o l2 =>
      simp only [hs] at hl
      cases o <;> (injection hl with hl; injection hl with _ hl; exact hl.symm)
  rw [this]; omega

/-! ## How large a table becomes -/

theorem powerLoop_within {nel q : Nat} (hq : nel ≤ 2 ^ q) : ∀ fuel p, p ≤ q → powerLoop fuel p nel ≤ q := by
  intro fuel
  induction fuel with
  | zero => intro p h; exact h
  | succ fuel ih =>
    intro p h
    unfold powerLoop
    split
    · rename_i hlt
      unfold hashsize at hlt
      refine ih (p + 1) ?_
      have : 2 ^ p < 2 ^ q := Nat.lt_of_lt_of_le hlt hq
      exact (Nat.pow_lt_pow_iff_right (by omega)).mp this
    · exact h

theorem makeEx_power_eq (α : Type) (p ff : Nat) : (makeEx α (hashsize p) ff).power = p :=
  Nat.le_antisymm (powerLoop_within (Nat.le_refl _) _ 0 (Nat.zero_le _)) (makeEx_power α p ff)

theorem foldSet_power (f : Fns α κ) (step : Table α → α → Res (Table α)) (M : Nat)
    (hstep : ∀ t x, Inv f t → step t x = .div ∨ ∃ t', step t x = .ok t' ∧ Added f t [x] t')
    (hpw : ∀ t t' x, Inv f t → t.power ≤ M → step t x = .ok t' → t'.power ≤ M) :
    ∀ (l : List α) (t t' : Table α), Inv f t → t.power ≤ M → l.foldlM step t = .ok t' → t'.power ≤ M := by
  intro l
  induction l with
  | nil => intro t t' _ hM h; injection h with h; subst h; exact hM
  | cons x xs ih =>
    intro t t' hi hM h
    rw [List.foldlM_cons] at h
    rcases hstep t x hi with e | ⟨t1, e, h1⟩
    · rw [e] at h; cases h
    · rw [e] at h
      exact ih t1 t' h1.inv (hpw t t1 x hi hM e) (by simpa using h)

/-- A table never grows beyond 2^32 buckets, nor one that was made larger at all. -/
theorem set_power (f : Fns α κ) : ∀ (fuel : Nat) (t t' : Table α) (x : α) (M : Nat), Inv f t → 32 ≤ M → t.power ≤ M →
    set f fuel t x (f.hash (f.key x)) = .ok t' → t'.power ≤ M := by
  intro fuel
  induction fuel with
  | zero => intro t t' x M _ _ _ h; cases h
  | succ fuel ih =>
    intro t t' x M hi h32 hM h
    have hsame := ((hash_set_terminates_iff f t x hi).1.mp ⟨_, _, h⟩)
    obtain ⟨t1, n, e, hpl, hpw, hff, hnel, hperm, hfilt, hroom, hlast⟩ := store_spec hi x
    unfold set at h
    simp only [e, Res.ok_bind] at h
    by_cases hc : t1.ffactor ≤ n
    · simp only [hc, if_true] at h
      have hinv := makeEx_inv f (hashsize (t1.power + 1)) (by rw [hff]; exact hi.ff_pos : 0 < t1.ffactor)
      by_cases hp : t.power < 32
      · refine foldSet_power f _ M (fun t x ht => set_spec f fuel t x ht) (fun t t' x ht hm hs => ih t t' x M ht h32 hm hs) _ _ _ hinv ?_ h
        rw [makeEx_power_eq]; omega
      · -- with 2^32 buckets a full bucket holds one hash value only
        exfalso
        obtain ⟨l, hl⟩ := bucket_exists hpl (f.hash (f.key x))
        have hln := hlast l (by rw [← hpw]; exact hl)
        have hv := hsame (f.hash (f.key x))
        have hc2 : sameHash f (x :: elems t) (f.hash (f.key x)) = sameHash f (elems t1) (f.hash (f.key x)) := by
          unfold sameHash; rw [hperm.countP_eq]
        have hall : ∀ y ∈ l, f.hash (f.key y) = f.hash (f.key x) := by
          intro y hy
          have := hpl.2 _ l hl y hy
          rw [bucketOf_full (by omega), bucketOf_full (by omega)] at this
          exact UInt32.toNat_inj.mp this
        have hle : l.length ≤ sameHash f (elems t1) (f.hash (f.key x)) := by
          unfold sameHash
          have hsub : List.Sublist l (elems t1) := List.sublist_flatten_of_mem (List.mem_of_getElem? hl)
          have h1 := hsub.countP_le (p := fun y => decide (f.hash (f.key y) = f.hash (f.key x)))
          have h2 : l.countP (fun y => decide (f.hash (f.key y) = f.hash (f.key x))) = l.length := by
            rw [List.countP_eq_length]; intro y hy; simpa using hall y hy
          omega
        omega
    · simp only [hc, if_false] at h
      injection h with h; subst h; omega

/-! ## After any history -/

/-- What a history of calls leaves, with no condition on the keys set. -/
theorem run_inv (f : Fns α κ) (fuel : Nat) : ∀ (ops : List (Op α κ)) (t t' : Table α) (outs : List (Option α)), Inv f t → run f fuel t ops = .ok (t', outs) →
    Inv f t' ∧ t'.ffactor = t.ffactor ∧ (∀ M, 32 ≤ M → t.power ≤ M → t'.power ≤ M) ∧
    ∃ ls, runT f fuel t ops = .ok ((t', outs), ls) ∧ ls.length = lookups ops ∧ ∀ l ∈ ls, l.length < t.ffactor := by
  intro ops
  induction ops with
  | nil =>
    intro t t' outs h e
    simp only [run] at e
    injection e with e; injection e with e1 e2
    subst e1; subst e2
    exact ⟨h, rfl, fun M _ hM => hM, [], rfl, rfl, by simp⟩
  | cons op ops ih =>
    intro t t' outs h e
    cases op with
    | set x =>
      rcases set_spec f fuel t x h with e1 | ⟨t1, e1, ha⟩
      · simp [run, e1] at e
      · simp only [run, e1, Res.ok_bind] at e
        obtain ⟨hi, hff, hpw, ls, hr, hn, hl⟩ := ih t1 t' outs ha.inv e
        refine ⟨hi, hff.trans ha.ff, fun M h32 hM => hpw M h32 (set_power f fuel t t1 x M h h32 hM e1), ls, ?_, hn, ?_⟩
        · simp only [runT, e1, Res.ok_bind]; exact hr
        · rw [← ha.ff]; exact hl
    | remove x =>
      obtain ⟨t1, l1, et, e1, hlen⟩ := removeT_short h x
      obtain ⟨t2, e2, hi2, hff2, hpw2⟩ := remove_inv h x
      rw [e1] at e2; injection e2 with e2; subst e2
      simp only [run, e1, Res.ok_bind] at e
      obtain ⟨hi, hff, hpw, ls, hr, hn, hl⟩ := ih t1 t' outs hi2 e
      refine ⟨hi, hff.trans hff2, fun M h32 hM => hpw M h32 (by omega), l1 :: ls, ?_, ?_, ?_⟩
      · simp only [runT, et, Res.ok_bind, hr]
      · simp [lookups, hn]
      · intro l hm
        rcases List.mem_cons.mp hm with rfl | hm
        · exact hlen
        · rw [← hff2]; exact hl l hm
    | search k =>
      obtain ⟨o, l1, et, e1, hlen, -⟩ := searchT_short h k
      simp only [run, e1, Res.ok_bind] at e
      cases hr0 : run f fuel t ops with
      | ub => simp [hr0] at e
      | div => simp [hr0] at e
      | ok r =>
        obtain ⟨t1, os⟩ := r
        simp only [hr0, Res.ok_bind] at e
        injection e with e; injection e with ea eb
        subst ea; subst eb
        obtain ⟨hi, hff, hpw, ls, hr, hn, hl⟩ := ih t t1 os h hr0
        refine ⟨hi, hff, hpw, l1 :: ls, ?_, ?_, ?_⟩
        · simp only [runT, et, Res.ok_bind, hr]
        · simp [lookups, hn]
        · intro l hm
          rcases List.mem_cons.mp hm with rfl | hm
          · exact hlen
          · exact hl l hm

/-- **C137.**  In any history of calls on a fresh table, whatever the hash function and whether or not keys are set twice, every search and every removal looks at fewer stored elements than the fill
factor, however many the table holds. -/
theorem history_lookups (f : Fns α κ) (nel ff fuel : Nat) (hff : 0 < ff) (ops : List (Op α κ)) (t : Table α) (outs : List (Option α))
    (h : run f fuel (makeEx α nel ff) ops = .ok (t, outs)) :
    ∃ ls, runT f fuel (makeEx α nel ff) ops = .ok ((t, outs), ls) ∧ ls.length = lookups ops ∧ ∀ l ∈ ls, l.length < ff :=
  (run_inv f fuel ops _ t outs (makeEx_inv f nel hff) h).2.2.2

/-- **C137.**  In particular the next search does, and what it looks at are stored elements whose hash values agree with that of the key in all the bits the table's size uses: all of these, if
the key is not found, and otherwise the one found last. -/
theorem lookup_after_history (f : Fns α κ) (nel ff fuel : Nat) (hff : 0 < ff) (ops : List (Op α κ)) (t : Table α) (outs : List (Option α))
    (h : run f fuel (makeEx α nel ff) ops = .ok (t, outs)) (k : κ) :
    ∃ o l, searchT f t k = .ok (o, l) ∧ search f t k = .ok o ∧ l.length < ff ∧ (∀ y ∈ l, (f.hash (f.key y)).toNat % t.buckets.length = (f.hash k).toNat % t.buckets.length) ∧
      (∀ x, o = some x → l.getLast? = some x) ∧
      (o = none → ∀ y ∈ elems t, (f.hash (f.key y)).toNat % t.buckets.length = (f.hash k).toNat % t.buckets.length → y ∈ l) := by
  obtain ⟨hi, hf, _⟩ := run_inv f fuel ops _ t outs (makeEx_inv f nel hff) h
  obtain ⟨o, l, e1, e2, hl, hb, hx, hn⟩ := searchT_short hi k
  have key : ∀ y, bucketOf t.power (f.hash (f.key y)) = bucketOf t.power (f.hash k) ↔ (f.hash (f.key y)).toNat % t.buckets.length = (f.hash k).toNat % t.buckets.length := by
    intro y
    have h1 := (f.hash (f.key y)).toNat_lt
    have h2 := (f.hash k).toNat_lt
    rw [bucketOf_eq, bucketOf_eq, hi.placed.1]
    by_cases hp : t.power ≤ 32
    · rw [Nat.min_eq_left hp]
    · have hle : 2 ^ 32 ≤ 2 ^ t.power := Nat.pow_le_pow_right (by omega) (by omega)
      rw [Nat.min_eq_right (by omega), Nat.mod_eq_of_lt h1, Nat.mod_eq_of_lt h2, Nat.mod_eq_of_lt (Nat.lt_of_lt_of_le h1 hle), Nat.mod_eq_of_lt (Nat.lt_of_lt_of_le h2 hle)]
  refine ⟨o, l, e1, e2, by rw [hf] at hl; exact hl, fun y hy => (key y).1 (hb y hy), hx, fun ho y hy hyk => hn ho y hy ((key y).2 hyk)⟩

/-- **C137.**  No history makes a table of more than 2^32 buckets, unless it was asked for: a table made for `nel` elements starts with fewer than twice as many buckets. -/
theorem history_buckets (f : Fns α κ) (nel ff fuel : Nat) (hff : 0 < ff) (ops : List (Op α κ)) (t : Table α) (outs : List (Option α))
    (h : run f fuel (makeEx α nel ff) ops = .ok (t, outs)) : t.buckets.length < max (2 * nel) (2 ^ 32 + 1) := by
  obtain ⟨hi, _, hpw, _⟩ := run_inv f fuel ops _ t outs (makeEx_inv f nel hff) h
  have h0 : 2 ^ (makeEx α nel ff).power < max (2 * nel) 2 := by
    show 2 ^ (powerLoop nel 0 nel) < _
    generalize hq : powerLoop nel 0 nel = q
    cases q with
    | zero => simp; omega
    | succ q =>
      have : ¬ nel ≤ 2 ^ q := by
        intro hle
        have := powerLoop_within hle nel 0 (Nat.zero_le _)
        omega
      rw [Nat.pow_succ]; omega
  rw [hi.placed.1]
  by_cases hp : (makeEx α nel ff).power ≤ 32
  · have := Nat.pow_le_pow_right (n := 2) (by omega) (hpw 32 (Nat.le_refl _) hp)
    omega
  · have h1 := Nat.pow_le_pow_right (n := 2) (by omega) (hpw _ (by omega) (Nat.le_refl _))
    have : 2 ^ 32 ≤ 2 ^ (makeEx α nel ff).power := Nat.pow_le_pow_right (by omega) (by omega)
    omega

/-- **C137.**  The price: as many elements as the fill factor whose hash values agree in their last `p` bits make the table larger than `2^p` buckets, however few elements there are. -/
theorem agreeing_elements_grow (f : Fns α κ) (nel ff fuel : Nat) (hff : 0 < ff) (ops : List (Op α κ)) (t : Table α) (outs : List (Option α))
    (h : run f fuel (makeEx α nel ff) ops = .ok (t, outs)) (p r : Nat) (hp : p ≤ 32)
    (hc : ff ≤ (elems t).countP (fun y => decide ((f.hash (f.key y)).toNat % 2 ^ p = r))) : 2 ^ (p + 1) ≤ t.buckets.length := by
  obtain ⟨hi, hf, _⟩ := run_inv f fuel ops _ t outs (makeEx_inv f nel hff) h
  rw [hi.placed.1]
  refine Nat.pow_le_pow_right (by omega) ?_
  refine Nat.not_le.mp fun hle => ?_
  -- all of them would be in one bucket
  have hpos : 0 < (elems t).countP (fun y => decide ((f.hash (f.key y)).toNat % 2 ^ p = r)) := by omega
  obtain ⟨z, _, hz⟩ := List.countP_pos_iff.mp hpos
  have hz : (f.hash (f.key z)).toNat % 2 ^ p = r := by simpa using hz
  obtain ⟨l, hl⟩ := bucket_exists hi.placed (f.hash (f.key z))
  have hroom := hi.room l (List.mem_of_getElem? hl)
  rw [hf] at hroom
  have : (elems t).filter (fun y => decide ((f.hash (f.key y)).toNat % 2 ^ p = r)) = l.filter (fun y => decide ((f.hash (f.key y)).toNat % 2 ^ p = r)) := by
    apply flatten_filter_single _ _ _ _ hl
    intro b l' hb hne
    rw [List.filter_eq_nil_iff]
    intro a hal hk
    have hk : (f.hash (f.key a)).toNat % 2 ^ p = r := by simpa using hk
    refine hne ?_
    rw [← hi.placed.2 b l' hb a hal, bucketOf_eq, bucketOf_eq, Nat.min_eq_left (by omega)]
    have hd : 2 ^ t.power ∣ 2 ^ p := Nat.pow_dvd_pow 2 hle
    rw [← Nat.mod_mod_of_dvd (f.hash (f.key z)).toNat hd, ← Nat.mod_mod_of_dvd (f.hash (f.key a)).toNat hd, hz, hk]
  rw [List.countP_eq_length_filter, this] at hc
  have := List.length_filter_le (fun y => decide ((f.hash (f.key y)).toNat % 2 ^ p = r)) l
  have : (makeEx α nel ff).ffactor = ff := rfl
  omega

/-- Numbers, each its own key and its own hash value. -/
def selfHash : Fns UInt32 UInt32 := { key := id, hash := id }

/-- **C137.**  The number of buckets is not in proportion to the number of elements: two elements in a table of fill factor 2 can make it have 2^32 buckets. -/
theorem two_elements_many_buckets :
    ∃ t, run selfHash 33 (makeEx UInt32 1 2) [.set 0, .set 0x80000000] = .ok (t, []) ∧ t.nel = 2 ∧ t.buckets.length = 2 ^ 32 := by
  have hs : ∃ m, specRun selfHash (fun _ => none) [.set 0, .set 0x80000000] = some (m, []) := ⟨_, by simp [specRun, selfHash]; rfl⟩
  obtain ⟨m, hs⟩ := hs
  obtain ⟨t, e, _⟩ := hash_history_completes selfHash 1 2 33 (by omega) [.set 0, .set 0x80000000] m [] hs (by omega) (by
    intro v
    show List.countP (fun y : UInt32 => decide (y = v)) [0, 0x80000000] < 2
    by_cases h : (0 : UInt32) = v
    · subst h; decide
    · rw [List.countP_cons_of_neg (by simpa using h)]
      have := List.countP_le_length (p := fun y : UInt32 => decide (y = v)) (l := [0x80000000])
      simp only [List.length_singleton] at this
      omega)
  refine ⟨t, e, ?_⟩
  obtain ⟨t1, e1, h1⟩ : ∃ t1, set selfHash 33 (makeEx UInt32 1 2) 0 (selfHash.hash (selfHash.key 0)) = .ok t1 ∧ Added selfHash (makeEx UInt32 1 2) [0] t1 := by
    rcases set_spec selfHash 33 (makeEx UInt32 1 2) 0 (makeEx_inv _ _ (by omega)) with e1 | h
    · simp [run, e1] at e
    · exact h
  obtain ⟨t2, e2, h2⟩ : ∃ t2, set selfHash 33 t1 0x80000000 (selfHash.hash (selfHash.key 0x80000000)) = .ok t2 ∧ Added selfHash t1 [0x80000000] t2 := by
    rcases set_spec selfHash 33 t1 0x80000000 h1.inv with e2 | h
    · simp [run, e1, e2] at e
    · exact h
  have et : t2 = t := by simp only [run, e1, e2, Res.ok_bind] at e; injection e with e; injection e
  subst et
  have hperm : (elems t2).Perm [0x80000000, 0] := by
    refine h2.perm.trans ?_
    refine (h1.perm.append_left _).trans ?_
    rw [elems_makeEx]; exact .refl _
  refine ⟨by rw [h2.inv.nel, hperm.length_eq]; rfl, Nat.le_antisymm ?_ ?_⟩
  · have := history_buckets selfHash 1 2 33 (by omega) _ t2 [] e; omega
  · refine agreeing_elements_grow selfHash 1 2 33 (by omega) _ t2 [] e 31 0 (by omega) ?_
    rw [hperm.countP_eq]; decide

/-- The bound is met: in a table of fill factor 4, three numbers that agree in the bits used; a search for a fourth such looks at all three, and one for the first at one. -/
example : runT selfHash 5 (makeEx UInt32 4 4) [.set 1, .set 5, .set 9, .set 2, .search 13, .search 1, .remove 5, .search 3] =
    .ok (({ buckets := [[], [1, 9], [2], []], nel := 3, ffactor := 4, power := 2 }, [none, some 1, none]), [[1, 5, 9], [1], [1, 5], []]) := by rfl

end Verif.Hash
