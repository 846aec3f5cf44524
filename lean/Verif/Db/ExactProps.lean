import Verif.Db.ExactPut
import Verif.Db.Check

/-!
# Exactly which keys a `put` makes unreachable (C41, C42)

`put_refines_partial` says that nothing goes wrong if the splits are of the safe kind.  Here the
splits may be of the other kinds as well: the answer of `get` after a successful `put` is given for
every key, in terms of the tree before the `put` (`Unreached` and `Stray` in `Db/ExactSpec.lean`).
-/

namespace Verif.Db

open Verif.Page

/-- What remains to be required: sizes that fit their fields, a tree lower than 32 levels, pages to
be split with at least two entries, no new separator equal to that of a first child, and for a key
that is already stored a leaf that the transaction has not touched (C48). -/
structure PutDivides (env : Env) (t : Txn) (h : Nat) (m : KvMap) (key val : Bytes) : Prop where
  size : 4 + key.length + val.length < 65536
  depth : h < maxDepth
  pages : t.newLast + h + 2 < 2 ^ 64
  fresh : m key = none → t.root ≠ 0 → Divisible (getPage env t) key (4 + key.length + val.length) h t.root
  stored : m key ≠ none → LeafClean env t h key ∧ ∀ t1, del env t key = .ok (.success, t1) →
    Divisible (getPage env t1) key (4 + key.length + val.length) h t1.root

/-- The transaction in which the pair is inserted: a stored key is deleted first. -/
def Base (env : Env) (t : Txn) (m : KvMap) (key : Bytes) (t0 : Txn) : Prop :=
  (m key = none ∧ t0 = t) ∨ (m key ≠ none ∧ del env t key = .ok (.success, t0))

/-- The keys that are not found after the `put`. -/
def Lost (env : Env) (t : Txn) (h : Nat) (m : KvMap) (key val x : Bytes) : Prop :=
  ∃ t0, Base env t m key t0 ∧ t0.root ≠ 0 ∧
    (Unreached (getPage env t0) key (4 + key.length + val.length) h t0.root x ∨
      Stray (getPage env t0) key (4 + key.length + val.length) h t0.root x)

theorem stored_answers {env : Env} {t t0 t' : Txn} {h h' : Nat} {m : KvMap} {l : List (Bytes × Bytes)} {key val : Bytes}
    (hbase : Base env t m key t0) (hl : ∀ x, x ≠ key → l.lookup x = m x) (hst : Stored env t0 t' h h' l key val)
    {x : Bytes} {fuel : Nat} (hx : x.length < 65536) (hf : h + 1 < fuel) :
    (Lost env t h m key val x → get env t' fuel x = .ok (.error .notfound)) ∧
    (¬ Lost env t h m key val x → get env t' fuel x = .ok ((m.put key val).answer x)) := by
  have hg := get_sight hst.root hst.sound hx (fuel := fuel) (by have := hst.height; omega)
  have huniq : ∀ t1, Base env t m key t1 → t1 = t0 := by
    intro t1 h1
    rcases h1 with ⟨a, rfl⟩ | ⟨a, b⟩ <;> rcases hbase with ⟨c, rfl⟩ | ⟨c, d⟩
    · rfl
    · exact absurd a c
    · exact absurd c a
    · rw [b] at d; cases d; rfl
  constructor
  · rintro ⟨t1, h1, h2, h3⟩
    have := huniq t1 h1; subst this
    rw [hg, (hst.whole x).1 ⟨h2, h3⟩]; rfl
  · intro hn
    rw [hg, (hst.whole x).2 fun hh => hn ⟨t0, hbase, hh.1, hh.2⟩]
    unfold upd KvMap.answer KvMap.put
    by_cases hk : x = key
    · simp only [if_pos hk]; rfl
    · simp only [if_neg hk]
      rw [hl x hk]; unfold found; split <;> rename_i e <;> rw [e]

/-- C41 and C42, exactly: `put` either reports that there is no space or succeeds, and after it has
succeeded `get` gives for every key the answer of the map with the pair stored, except for the keys
in `Lost`, which are not found.  (Missing of the full property: it is false for the keys in `Lost`;
requirements are collected in `PutDivides`; without a Free DB.) -/
theorem put_exact_partial {env : Env} {t : Txn} {h : Nat} {m : KvMap} {key val : Bytes} (fuel : Nat)
    (hfree : t.freeRoot = 0) (hw : t.rdonly = false) (hm : IsMap env t h m) (hs : PutDivides env t h m key val) :
    ∃ st t', put env (fuel + 1) t key val = .ok (st, t') ∧ (st = .success ∨ st = .nospc) ∧
      (st = .success → ∀ x fuel', x.length < 65536 → h + 1 < fuel' →
        (Lost env t h m key val x → get env t' fuel' x = .ok (.error .notfound)) ∧
        (¬ Lost env t h m key val x → get env t' fuel' x = .ok ((m.put key val).answer x))) := by
  obtain ⟨l, hl, hlm⟩ := hm
  have hk : key.length < 65536 := by have := hs.size; omega
  by_cases hkm : m key = none
  · have hnl : key ∉ l.map Prod.fst := lookup_none_iff.1 ((hlm key).trans hkm)
    obtain ⟨st, t', h1, h2, h3⟩ := put_stored (ext_noFree env fuel) hk hs.size hw hfree hl hnl (by simp) hs.depth (hs.fresh hkm) hs.pages
    refine ⟨st, t', h1, h2, fun hst x fuel' hx hf => ?_⟩
    obtain ⟨h', hst⟩ := h3 hst
    exact stored_answers (.inl ⟨hkm, rfl⟩) (fun x _ => hlm x) hst hx hf
  · have hkl : key ∈ l.map Prod.fst := by
      apply Classical.byContradiction; intro hn
      exact hkm ((hlm key).symm.trans (lookup_none_iff.2 hn))
    obtain ⟨hclean, hdiv⟩ := hs.stored hkm
    obtain ⟨t1, d1, d2⟩ := put_replace (al := alloc env (fuel + 1)) (val := val) hk hw hl hkl hs.depth hclean
    rcases del_spec hw hl hk hs.depth with ⟨hn, -⟩ | ⟨A, v, B, t1', a1, a2, a3, a4, a5, a6, a7, a8, a9, a10, -⟩
    · exact absurd ((hlm key).symm.trans hn) hkm
    · rw [d1] at a4; cases a4
      have hnl : key ∉ (A ++ B).map Prod.fst := by
        rw [List.map_append, List.mem_append]
        rintro (hm | hm)
        · obtain ⟨a, ha, e⟩ := List.mem_map.1 hm; exact blt_irrefl _ (e ▸ a2 a ha)
        · obtain ⟨a, ha, e⟩ := List.mem_map.1 hm; exact blt_irrefl _ (e ▸ a3 a ha)
      obtain ⟨st, t', h1, h2, h3⟩ := put_stored (ext_noFree env fuel) hk hs.size a6 (a8.trans hfree) a5 hnl (by simp) hs.depth
        (fun _ => hdiv t1 d1) (by rw [a9]; exact hs.pages)
      refine ⟨st, t', d2.trans h1, h2, fun hst x fuel' hx hf => ?_⟩
      obtain ⟨h', hst⟩ := h3 hst
      refine stored_answers (.inr ⟨hkm, d1⟩) (fun x hx => ?_) hst hx hf
      rw [← hlm, a1, lookup_mid (a1 ▸ holds_sorted hl), if_neg hx]

/-- C41, exactly: a key whose `put` succeeded is found, with its value, if and only if it is not in `Lost`. -/
theorem put_found_iff_partial {env : Env} {t t' : Txn} {h : Nat} {m : KvMap} {key val : Bytes} {fuel fuel' : Nat}
    (hfree : t.freeRoot = 0) (hw : t.rdonly = false) (hm : IsMap env t h m) (hs : PutDivides env t h m key val)
    (hput : put env (fuel + 1) t key val = .ok (.success, t')) (hf : h + 1 < fuel') :
    get env t' fuel' key = .ok (.ok val) ↔ ¬ Lost env t h m key val key := by
  obtain ⟨st, t'', h1, -, h3⟩ := put_exact_partial fuel hfree hw hm hs
  rw [hput] at h1; cases h1
  have hx := h3 rfl key fuel' (by have := hs.size; omega) hf
  constructor
  · intro hg hl
    rw [hx.1 hl] at hg; cases hg
  · intro hl
    rw [hx.2 hl]
    simp [KvMap.answer, KvMap.put]

/-- C42, exactly: another stored key is still found, with its value, if and only if it is not in `Lost`, and a key that was not found is still not found. -/
theorem put_others_iff_partial {env : Env} {t t' : Txn} {h : Nat} {m : KvMap} {key val k : Bytes} {fuel fuel' : Nat}
    (hfree : t.freeRoot = 0) (hw : t.rdonly = false) (hm : IsMap env t h m) (hs : PutDivides env t h m key val)
    (hput : put env (fuel + 1) t key val = .ok (.success, t')) (hk : k ≠ key) (hkl : k.length < 65536) (hf : h + 1 < fuel') :
    get env t' fuel' k = get env t fuel' k ↔ (m k = none ∨ ¬ Lost env t h m key val k) := by
  obtain ⟨st, t'', h1, -, h3⟩ := put_exact_partial fuel hfree hw hm hs
  rw [hput] at h1; cases h1
  have hx := h3 rfl k fuel' hkl hf
  rw [get_answers hm hkl (by omega)]
  have hsame : (m.put key val).answer k = m.answer k := by simp [KvMap.answer, KvMap.put, hk]
  constructor
  · intro hg
    cases hmk : m k with
    | none => exact .inl rfl
    | some v =>
      right; intro hl
      rw [hx.1 hl] at hg
      simp [KvMap.answer, hmk] at hg
  · rintro (hn | hl)
    · by_cases hl : Lost env t h m key val k
      · rw [hx.1 hl]; simp [KvMap.answer, hn]
      · rw [hx.2 hl, hsame]
    · rw [hx.2 hl, hsame]

/-- Nothing is lost if the splits are of the safe kind. -/
theorem safe_none_lost {g : View} {key : Bytes} {size : Nat} (h : Nat) :
    ∀ {n : Nat}, SplitSafe g key size h n → ∀ x, ¬ Unreached g key size h n x ∧ ¬ Stray g key size h n x := by
  induction h with
  | zero =>
    intro n hs x
    refine ⟨fun hx => hx, ?_⟩
    rintro ⟨-, p, hp, hr, hc⟩
    exact (hs p hp hr).2 hc
  | succ h ih =>
    intro n hs x
    constructor
    · rintro ⟨p, A, k, c, B, hp, hr, -, hu⟩
      obtain ⟨h1, h2⟩ := hs p A k c B hp hr
      rcases hu with hu | ⟨d, hd, hu | hu⟩
      · exact (ih h1 x).1 hu
      · exact blt_asymm ((h2 d hd).1 hu.1) hu.2.1
      · exact (ih h1 x).2 hu.2.2
    · rintro ⟨p, A, k, c, B, d, hp, hr, -, hd, -, hm, -⟩
      exact ((hs p A k c B hp hr).2 d hd).2 hm.1 |>.2 hm.2

/-! ## Instances of the hypotheses

The database `six` holds "b", "c", "m" in its first leaf and "n", "o", "p" in the second; the root has
the separators "m" and "n".  A `put` of "a" splits the first leaf at "c". -/

theorem six_routes {x : Bytes} (hx : x < [110]) :
    ∃ p q, getPage env0 six 4 = .ok p ∧ numKeys p = 2 ∧ room p = 4052 ∧ Routes p x [] [109] 2 [([110], 3)] ∧
      getPage env0 six 2 = .ok q ∧ keys q = [[98], [99], [109]] ∧ room q = 157 := by
  have h : (getPage env0 six 4 >>= fun p => .ok (numKeys p, room p, entries p)) = .ok (2, 4052, [([109], 2), ([110], 3)]) := by decide +kernel
  have h' : (getPage env0 six 2 >>= fun q => .ok (keys q, room q)) = .ok ([[98], [99], [109]], 157) := by decide +kernel
  obtain ⟨p, h1, h⟩ := Res.bind_eq_ok.1 h
  obtain ⟨q, h2, h'⟩ := Res.bind_eq_ok.1 h'
  have h := Res.ok.inj h
  have h' := Res.ok.inj h'
  simp only [Prod.mk.injEq] at h h'
  obtain ⟨e1, e2, e3⟩ := h
  exact ⟨p, q, h1, e1, e2, ⟨by rw [e3]; rfl, .inl rfl, by simpa using hx⟩, h2, h'.1, h'.2⟩

theorem val3_length : val3.length = 1300 := List.length_replicate

theorem six_overflows : Overflows (getPage env0 six) [97] (4 + ([97] : Bytes).length + val3.length) 0 2 [99] := by
  obtain ⟨p, q, -, -, -, -, h2, e4, e5⟩ := six_routes (x := [97]) (by decide)
  have hn : numKeys q = 3 := by rw [← items_length]; have := congrArg List.length e4; unfold keys at this; simpa using this
  exact ⟨q, h2, by rw [e5, val3_length]; decide, by rw [hn, e4]; rfl⟩

theorem six_map : IsMap env0 six 1 fun k => (contents (getPage env0 six) 1 six.root).lookup k := ⟨_, six_holds, fun _ => rfl⟩

theorem six_fits : PutDivides env0 six 1 (fun k => (contents (getPage env0 six) 1 six.root).lookup k) [97] val3 := by
  have hnone : (contents (getPage env0 six) 1 six.root).lookup [97] = none :=
    lookup_none_iff.2 (by rw [six_keys]; decide)
  refine ⟨by rw [val3_length]; decide, by decide, by rw [six_fields.2.2.2]; decide, fun _ _ => ?_, fun h => absurd hnone h⟩
  rw [six_fields.1]
  intro p A k c B hp hr
  obtain ⟨p', q, h1, e1, e2, e3, h2, e4, e5⟩ := six_routes (x := [97]) (by decide)
  rw [h1] at hp; cases hp
  obtain ⟨rfl, rfl, rfl, rfl⟩ := routes_all e3 hr
  refine ⟨fun q' hq' _ => ?_, fun d hd => ?_⟩
  · rw [h2] at hq'; cases hq'
    have : numKeys q = 3 := by rw [← items_length]; have := congrArg List.length e4; unfold keys at this; simpa using this
    omega
  · have := overflow_unique 0 six_overflows hd; subst this
    exact ⟨fun _ => by decide, fun _ => by omega⟩

/-- "b" is lost by the `put` of "a", "c" is not. -/
theorem six_lost : Lost env0 six 1 (fun k => (contents (getPage env0 six) 1 six.root).lookup k) [97] val3 [98] ∧
    ¬ Lost env0 six 1 (fun k => (contents (getPage env0 six) 1 six.root).lookup k) [97] val3 [99] := by
  have hnone : (contents (getPage env0 six) 1 six.root).lookup [97] = none :=
    lookup_none_iff.2 (by rw [six_keys]; decide)
  obtain ⟨p, q, h1, e1, e2, e3, h2, e4, e5⟩ := six_routes (x := [97]) (by decide)
  constructor
  · refine ⟨six, .inl ⟨hnone, rfl⟩, by rw [six_fields.1]; decide, .inl ?_⟩
    rw [six_fields.1, unreached_succ h1 e3]
    refine ⟨⟨.inl rfl, by decide⟩, .inr ⟨[99], six_overflows, .inl ⟨rfl, by decide, .inr ⟨by decide, ?_⟩⟩⟩⟩
    rintro ⟨hh, -⟩; exact absurd hh (by decide)
  · rintro ⟨t0, hb, -, hl⟩
    have : t0 = six := by
      rcases hb with ⟨-, h⟩ | ⟨h, -⟩
      · exact h
      · exact absurd hnone h
    rw [this, six_fields.1] at hl
    rcases hl with hl | hl
    · rw [unreached_succ h1 e3] at hl
      obtain ⟨-, hl | ⟨d, hd, hl⟩⟩ := hl
      · exact hl
      · have := overflow_unique 0 six_overflows hd; subst this
        rcases hl with ⟨-, -, hl | hl⟩ | ⟨hl, -⟩
        · exact hl (by decide)
        · exact absurd hl.1 (by decide)
        · exact absurd (hl rfl) (by decide)
    · rw [stray_succ h1 e3 six_overflows] at hl
      exact absurd (hl.2.1 rfl) (by decide)

example : ∃ t', put env0 3 six [97] val3 = .ok (.success, t') ∧ get env0 t' 5 [98] = .ok (.error .notfound) ∧
    get env0 t' 5 [99] = get env0 six 5 [99] ∧ get env0 t' 5 [97] ≠ .ok (.ok val3) := by
  have hst : (put env0 3 six [97] val3 >>= fun r => .ok r.1) = .ok .success := by decide +kernel
  obtain ⟨⟨st, t'⟩, h1, h2⟩ := Res.bind_eq_ok.1 hst
  cases Res.ok.inj h2
  obtain ⟨st, t'', a1, -, a3⟩ := put_exact_partial 2 six_fields.2.1 six_fields.2.2.1 six_map six_fits
  rw [h1] at a1; cases a1
  refine ⟨t', h1, (a3 rfl [98] 5 (by decide) (by decide)).1 six_lost.1,
    (put_others_iff_partial six_fields.2.1 six_fields.2.2.1 six_map six_fits h1 (by decide) (by decide) (by decide)).2 (.inr six_lost.2), ?_⟩
  intro hg
  refine (put_found_iff_partial six_fields.2.1 six_fields.2.2.1 six_map six_fits h1 (by decide)).1 hg ?_
  have hnone : (contents (getPage env0 six) 1 six.root).lookup [97] = none :=
    lookup_none_iff.2 (by rw [six_keys]; decide)
  obtain ⟨p, q, h1, e1, e2, e3, h2, e4, e5⟩ := six_routes (x := [97]) (by decide)
  refine ⟨six, .inl ⟨hnone, rfl⟩, by rw [six_fields.1]; decide, .inl ?_⟩
  rw [six_fields.1, unreached_succ h1 e3]
  refine ⟨⟨.inl rfl, by decide⟩, .inr ⟨[99], six_overflows, .inl ⟨rfl, by decide, .inr ⟨by decide, ?_⟩⟩⟩⟩
  rintro ⟨-, q', hq', -, hc⟩
  rw [h2] at hq'; cases hq'
  have : numKeys q = 3 := by rw [← items_length]; have := congrArg List.length e4; unfold keys at this; simpa using this
  rw [e4, this] at hc
  exact absurd hc (by decide)

end Verif.Db
