import Verif.Db.RefusedUp
import Verif.Db.ExactProps
import Verif.Db.DescProps

/-!
# Exactly what a put refused for lack of room in a half leaf takes away (C76, C104)
-/

namespace Verif.Db

open Verif.Page

theorem lookup_without {X K Y : List (Bytes × Bytes)} (hs : Ascending (X ++ K ++ Y)) (j : Nat) (x : Bytes) :
    (X ++ K.take j ++ Y).lookup x = if x ∈ (K.drop j).map Prod.fst then none else (X ++ K ++ Y).lookup x := by
  have hK : K = K.take j ++ K.drop j := (List.take_append_drop j K).symm
  split
  · rename_i hm
    apply lookup_none_iff.2
    rw [hK] at hs
    unfold Ascending at hs
    simp only [List.map_append, sorted_append, List.mem_append] at hs ⊢
    obtain ⟨⟨-, ⟨-, -, h1⟩, h2⟩, -, h3⟩ := hs
    rintro ((h | h) | h)
    · exact blt_irrefl _ (h2 x h x (.inr hm))
    · exact blt_irrefl _ (h1 x h x hm)
    · exact blt_irrefl _ (h3 x (.inr (.inr hm)) x h)
  · rename_i hm
    have hn := lookup_none_iff.2 hm
    have e : (K.take j).lookup x = K.lookup x := by
      conv => rhs; rw [hK]
      rw [List.lookup_append, hn, Option.or_none]
    rw [List.lookup_append, List.lookup_append, List.lookup_append, List.lookup_append, e]

/-- C76 and C104, exactly: in a well-formed tree of any height without a Free DB, let a key that is not stored belong to leaf `p`, and
let neither that leaf nor the half of it that the pair goes to have room (`HalfTight`).  Then `put`
answers "no space", and afterwards `get` finds every pair that was stored except the upper half of
that leaf, of which it finds none; the tree is still in order. -/
theorem put_refused_exact {env : Env} {t : Txn} {h : Nat} {m : KvMap} {key val : Bytes} {p : Page} (fuel : Nat)
    (hfree : t.freeRoot = 0) (hw : t.rdonly = false) (h0 : t.root ≠ 0) (hm : IsMap env t h m) (hkey : m key = none)
    (hsz : 4 + key.length + val.length < 65536) (hd : h < maxDepth) (h64 : t.newLast + 1 < 2 ^ 64)
    (hb : BelongsTo (getPage env t) key h t.root p) (htight : HalfTight p key (4 + key.length + val.length)) :
    ∃ t', put env (fuel + 1) t key val = .ok (.nospc, t') ∧
      IsMap env t' h (fun x => if x ∈ (keys p).drop (numKeys p / 2) then none else m x) ∧
      ∀ x fuel', x.length < 65536 → h < fuel' →
        (x ∈ (keys p).drop (numKeys p / 2) → get env t' fuel' x = .ok (.error .notfound)) ∧
        (x ∉ (keys p).drop (numKeys p / 2) → get env t' fuel' x = .ok (m.answer x)) := by
  obtain ⟨l, hl, hlm⟩ := hm
  have hnl : key ∉ l.map Prod.fst := lookup_none_iff.1 ((hlm key).trans hkey)
  obtain ⟨t', X, Y, a1, -, -, -, -, rfl, a6⟩ := put_half_tight (ext_noFree env fuel) hsz hw hfree h0 hl hnl (by simp) hd h64 hb htight
  have hmap : IsMap env t' h (fun x => if x ∈ (keys p).drop (numKeys p / 2) then none else m x) := by
    refine ⟨_, a6, fun x => ?_⟩
    rw [lookup_without (holds_sorted hl), List.map_drop, ← keys_eq_kvs, hlm]
  refine ⟨t', a1, hmap, fun x fuel' hx hf => ?_⟩
  rw [get_answers hmap hx hf]
  constructor
  · intro hh; simp only [KvMap.answer, if_pos hh]
  · intro hh; simp only [KvMap.answer, if_neg hh]

/-- The upper half is not empty unless the leaf is, and its keys were stored. -/
theorem refused_takes_something {env : Env} {t : Txn} {h : Nat} {m : KvMap} {key : Bytes} {p : Page}
    (h0 : t.root ≠ 0) (hm : IsMap env t h m) (hb : BelongsTo (getPage env t) key h t.root p) (hpos : 0 < numKeys p) :
    (keys p).drop (numKeys p / 2) ≠ [] ∧ ∀ x ∈ (keys p).drop (numKeys p / 2), m x ≠ none := by
  obtain ⟨l, hl, hlm⟩ := hm
  rcases hl with ⟨h0', -⟩ | ⟨-, ht, rfl⟩
  · exact absurd h0' h0
  constructor
  · intro e
    have hlen := congrArg List.length e
    unfold keys at hlen
    rw [List.length_drop, List.length_map, items_length] at hlen
    simp at hlen; omega
  · intro x hx hn
    have hsub : ∀ (h : Nat) (n : Nat), BelongsTo (getPage env t) key h n p → ∀ k ∈ keys p, k ∈ (contents (getPage env t) h n).map Prod.fst := by
      intro h
      induction h with
      | zero =>
        intro n hb k hk
        rw [contents_zero (show getPage env t n = .ok p from hb), ← keys_eq_kvs]; exact hk
      | succ h ih =>
        rintro n ⟨q, A, k', c, B, g1, g2, g3⟩ k hk
        rw [contents_succ g1, g2.1, List.map_flatMap, List.mem_flatMap]
        exact ⟨(k', c), by simp, ih c g3 k hk⟩
    have := hsub h t.root hb x (List.mem_of_mem_drop hx)
    exact lookup_none_iff.1 ((hlm x).trans hn) this

theorem oversized_tight {p : Page} (wf : WF p) {key : Bytes} {size : Nat} (hbig : 4078 < size + 2) :
    HalfTight p key size := by
  have hlow : ∀ m, lowestOf p m ≤ 4096 := by
    intro m
    induction m with
    | zero => exact Nat.le_refl _
    | succ m ih => unfold lowestOf; omega
  have h1 := wf.low
  have h2 := wf.top
  simp only [hdrSize, pageSize] at h1 h2
  refine ⟨?_, ?_⟩
  · unfold room; omega
  · split
    · have := hlow (numKeys p / 2); omega
    · omega

theorem belongs_wf {g : View} {key : Bytes} (h : Nat) : ∀ {lo hi : Option Bytes} {n : Nat} {p : Page}, WFT g h lo hi n →
    InRange lo hi key → BelongsTo g key h n p → WF p := by
  intro lo hi n p hw hr hb
  have hpath : ∀ (h : Nat) (n : Nat), BelongsTo g key h n p → ∃ path, IsPath g key h n path ∧ g (path.getLastD 0) = .ok p := by
    intro h
    induction h with
    | zero => intro n hb; exact ⟨[n], rfl, hb⟩
    | succ h ih =>
      rintro n ⟨q, A, k, c, B, g1, g2, g3⟩
      obtain ⟨path, e1, e2⟩ := ih c g3
      obtain ⟨rest, hr, -⟩ := isPath_cons e1
      refine ⟨n :: path, ⟨q, A, k, c, B, path, g1, g2, e1, rfl⟩, ?_⟩
      rw [getLastD_cons (by rw [hr]; simp)]; exact e2
  obtain ⟨path, e1, e2⟩ := hpath h n hb
  obtain ⟨lo', hi', p', A, B, i1, ⟨q, j1, -, j3, -⟩, -⟩ := leaf_focus h hw e1 hr
  rw [e2] at i1; cases i1
  rw [e2] at j1; cases j1
  exact j3

/-- C76, for pairs that fit no page: in a well-formed tree of any height, a put of a new key whose pair is larger than a page
(more than 4078 bytes with its header and slot) is refused, and takes away exactly the upper half of
the leaf that the key belongs to. -/
theorem oversized_put_exact {env : Env} {t : Txn} {h : Nat} {m : KvMap} {key val : Bytes} {p : Page} (fuel : Nat)
    (hfree : t.freeRoot = 0) (hw : t.rdonly = false) (h0 : t.root ≠ 0) (hm : IsMap env t h m) (hkey : m key = none)
    (hbig : 4078 < 6 + key.length + val.length) (hsz : 4 + key.length + val.length < 65536) (hd : h < maxDepth)
    (h64 : t.newLast + 1 < 2 ^ 64) (hb : BelongsTo (getPage env t) key h t.root p) :
    ∃ t', put env (fuel + 1) t key val = .ok (.nospc, t') ∧
      ∀ x fuel', x.length < 65536 → h < fuel' →
        (x ∈ (keys p).drop (numKeys p / 2) → get env t' fuel' x = .ok (.error .notfound)) ∧
        (x ∉ (keys p).drop (numKeys p / 2) → get env t' fuel' x = .ok (m.answer x)) := by
  have wf : WF p := by
    obtain ⟨l, hl, -⟩ := hm
    rcases hl with ⟨h0', -⟩ | ⟨-, ht, -⟩
    · exact absurd h0' h0
    · exact belongs_wf h ht.wft (inRange_none key) hb
  obtain ⟨t', a1, -, a2⟩ := put_refused_exact fuel hfree hw h0 hm hkey hsz hd h64 hb (oversized_tight wf (by omega))
  exact ⟨t', a1, a2⟩

/-- A leaf with one entry does not take a second one that does not fit beside it on a new page. -/
theorem single_tight {p : Page} {k v key : Bytes} {size : Nat} (h : items p = [.leaf k v]) (hr : room p < size + 2)
    (hc : 4078 < (6 + k.length + v.length) + (size + 2)) : HalfTight p key size := by
  have hn : numKeys p = 1 := by rw [← items_length, h]; rfl
  refine ⟨hr, ?_⟩
  rw [hn, if_neg (by simp), h]
  simp [Item.size]; omega

/-- C104 is false of the code for every two pairs that fit a page each but not one page together: on an
empty database without a Free DB, the first is stored; the second, with any other key, is refused, and then neither of the two is found. -/
theorem two_large_pairs {env : Env} {t : Txn} {fuel fuel' : Nat} {k0 v0 k1 v1 : Bytes}
    (hw : t.rdonly = false) (h0 : t.root = 0) (hf : t.freeRoot = 0) (h64 : t.newLast + 2 < 2 ^ 64) (hne : k0 ≠ k1)
    (hc0 : 6 + k0.length + v0.length ≤ 4078) (hc1 : 6 + k1.length + v1.length ≤ 4078)
    (hbig : 4078 < (6 + k0.length + v0.length) + (6 + k1.length + v1.length)) (hfu : 0 < fuel') :
    ∃ t', puts env (fuel + 1) t [(k0, v0), (k1, v1)] = .ok ([.success, .nospc], t') ∧
      get env t' fuel' k0 = .ok (.error .notfound) ∧ get env t' fuel' k1 = .ok (.error .notfound) := by
  obtain ⟨t1, p1, a1, a2, a3⟩ := OneLeaf.start (env := env) (fuel := fuel) (key := k0) (val := v0) hw h0 hf (by omega) hc0
  have hh := OneLeaf.tree (env := env) a2.rdonly a2.root a2.pos a2.last a2.dirty a2.no a2.wf a2.leaf a2.its a2.sorted
  have hm : IsMap env t1 0 (fun x => [(k0, v0)].lookup x) := ⟨_, hh, fun _ => rfl⟩
  have hr1 : t1.root ≠ 0 := by rw [a2.root]; have := a2.pos; omega
  have hg : getPage env t1 t1.root = .ok p1 := by rw [a2.root]; exact getPage_dirty a2.rdonly a2.dirty
  have hits : items p1 = [.leaf k0 v0] := by rw [a2.its]; rfl
  have hnone : ([(k0, v0)] : List (Bytes × Bytes)).lookup k1 = none := by
    rw [List.lookup_cons, show (k1 == k0) = false by simpa using Ne.symm hne]; rfl
  have hroom := a2.room
  have hcost : cost [(k0, v0)] = 6 + k0.length + v0.length := by simp [cost]
  have ht : HalfTight p1 k1 (4 + k1.length + v1.length) := single_tight hits (by omega) (by omega)
  obtain ⟨t', b1, -, b2⟩ := put_refused_exact (env := env) (val := v1) fuel a2.free a2.rdonly hr1 hm hnone (by omega) (by decide)
    (by omega) (show BelongsTo (getPage env t1) k1 0 t1.root p1 from hg) ht
  have hkeys : (keys p1).drop (numKeys p1 / 2) = [k0] := by
    have hn : numKeys p1 = 1 := by rw [← items_length, hits]; rfl
    unfold keys; rw [hn, hits]; rfl
  rw [hkeys] at b2
  refine ⟨t', ?_, (b2 k0 fuel' (by omega) hfu).1 (by simp), ?_⟩
  · unfold puts
    simp only [a1, b1, Res.ok_bind, puts]
  · rw [(b2 k1 fuel' (by omega) hfu).2 (by simpa using Ne.symm hne)]
    simp only [KvMap.answer, hnone]

/-- Two pairs of 2100 bytes, in either order. -/
example (env : Env) (t : Txn) (hw : t.rdonly = false) (h0 : t.root = 0) (hf : t.freeRoot = 0) (h64 : t.newLast + 2 < 2 ^ 64) :
    (∃ t', puts env 1 t [([97], List.replicate 2100 0), ([98], List.replicate 2100 0)] = .ok ([.success, .nospc], t') ∧
      get env t' 1 [97] = .ok (.error .notfound) ∧ get env t' 1 [98] = .ok (.error .notfound)) ∧
    ∃ t', puts env 1 t [([98], List.replicate 2100 0), ([97], List.replicate 2100 0)] = .ok ([.success, .nospc], t') ∧
      get env t' 1 [98] = .ok (.error .notfound) ∧ get env t' 1 [97] = .ok (.error .notfound) := by
  constructor <;> exact two_large_pairs hw h0 hf h64 (by decide) (by rw [List.length_replicate]; decide)
    (by rw [List.length_replicate]; decide) (by rw [List.length_replicate]; decide) (by decide)

/-- In the tree of two levels that holds "b", "c", "m" in its first leaf: a put of "a" with any value of 4072
to 65530 bytes is refused, "c" and "m" are gone, "b" and "n" are not. -/
example (val : Bytes) (h1 : 4072 ≤ val.length) (h2 : val.length < 65531) :
    ∃ t', put env0 3 six [97] val = .ok (.nospc, t') ∧ get env0 t' 5 [99] = .ok (.error .notfound) ∧
      get env0 t' 5 [109] = .ok (.error .notfound) ∧ get env0 t' 5 [98] = get env0 six 5 [98] ∧ get env0 t' 5 [110] = get env0 six 5 [110] := by
  have hnone : (contents (getPage env0 six) 1 six.root).lookup [97] = none :=
    lookup_none_iff.2 (by rw [six_keys]; decide)
  obtain ⟨p, q, g1, e1, e2, e3, g2, e4, e5⟩ := six_routes (x := [97]) (by decide)
  have hn : numKeys q = 3 := by rw [← items_length]; have := congrArg List.length e4; unfold keys at this; simpa using this
  have hb : BelongsTo (getPage env0 six) [97] 1 six.root q := by
    rw [six_fields.1]; exact ⟨p, _, _, _, _, g1, e3, g2⟩
  have hdrop : (keys q).drop (numKeys q / 2) = [[99], [109]] := by rw [e4, hn]; rfl
  obtain ⟨t', a1, a2⟩ := oversized_put_exact (env := env0) (val := val) 2 six_fields.2.1 six_fields.2.2.1 (by rw [six_fields.1]; decide) six_map hnone
    (by simp only [List.length_singleton]; omega) (by simp only [List.length_singleton]; omega) (by decide) (by rw [six_fields.2.2.2]; decide) hb
  rw [hdrop] at a2
  refine ⟨t', a1, (a2 _ 5 (by decide) (by decide)).1 (by decide), (a2 _ 5 (by decide) (by decide)).1 (by decide), ?_, ?_⟩
  · rw [(a2 _ 5 (by decide) (by decide)).2 (by decide), get_answers six_map (by decide) (by decide)]
  · rw [(a2 _ 5 (by decide) (by decide)).2 (by decide), get_answers six_map (by decide) (by decide)]

/-! ## Refusals anywhere on the way up -/

/-- C76, the bound: in a well-formed tree of any height without a Free DB, whichever page on the way up lacks the room (leaf, branch page or
new root), after a put that answers "no space" `get` finds for every key either nothing, or what it found before, or, for the
key of the put, the new value.  No key has a wrong value.  (Missing of the full property: it is false that nothing changes.) -/
theorem refused_put_bound_partial {env : Env} {t t' : Txn} {h : Nat} {m : KvMap} {key val : Bytes} {fuel : Nat}
    (hfree : t.freeRoot = 0) (hw : t.rdonly = false) (hm : IsMap env t h m) (hs : PutDivides env t h m key val)
    (hput : put env (fuel + 1) t key val = .ok (.nospc, t')) {x : Bytes} {fuel' : Nat} (hx : x.length < 65536) (hf : h < fuel') :
    get env t' fuel' x = .ok (.error .notfound) ∨ get env t' fuel' x = .ok ((m.put key val).answer x) := by
  have hk : key.length < 65536 := by have := hs.size; omega
  -- from the searched tree to `get`
  have hfin : ∀ (t0 : Txn) (l : List (Bytes × Bytes)), (∀ x, x ≠ key → l.lookup x = m x) →
      (t'.root = t0.root ∧ (t0.root ≠ 0 → Sound (getPage env t') h t0.root ∧
        Sub (sight (getPage env t') h t0.root) (upd (fun x => l.lookup x) key val))) →
      get env t' fuel' x = .ok (.error .notfound) ∨ get env t' fuel' x = .ok ((m.put key val).answer x) := by
    intro t0 l hl ⟨h1, h2⟩
    by_cases h0 : t0.root = 0
    · left
      exact (get_answers (isMap_empty env (h1.trans h0)) hx (by omega)).trans rfl
    · obtain ⟨h3, h4⟩ := h2 h0
      rw [← h1] at h3 h4
      rw [get_sight (by rw [h1]; exact h0) h3 hx hf]
      rcases h4 x with h4 | h4
      · left; rw [h4]; rfl
      · right
        rw [h4]
        unfold upd KvMap.answer KvMap.put
        by_cases hk : x = key
        · simp only [if_pos hk]; rfl
        · simp only [if_neg hk]
          rw [hl x hk]; unfold found; split <;> rename_i e <;> rw [e]
  obtain ⟨l, hl, hlm⟩ := hm
  by_cases hkm : m key = none
  · have hnl : key ∉ l.map Prod.fst := lookup_none_iff.1 ((hlm key).trans hkm)
    exact hfin t l (fun x _ => hlm x)
      (put_refused_sound (ext_noFree env fuel) hk hs.size hw hfree hl hnl (by simp) hs.depth (hs.fresh hkm) hs.pages hput)
  · have hkl : key ∈ l.map Prod.fst := by
      apply Classical.byContradiction; intro hn
      exact hkm ((hlm key).symm.trans (lookup_none_iff.2 hn))
    obtain ⟨hclean, hdiv⟩ := hs.stored hkm
    obtain ⟨t1, d1, d2⟩ := put_replace (al := alloc env (fuel + 1)) (val := val) hk hw hl hkl hs.depth hclean
    rcases del_spec hw hl hk hs.depth with ⟨hn, -⟩ | ⟨A, v, B, t1', a1, a2, a3, a4, a5, a6, a7, a8, a9, a10, -⟩
    · exact absurd ((hlm key).symm.trans hn) hkm
    · rw [d1] at a4; cases a4
      have hnl : key ∉ (A ++ B).map Prod.fst := by
        rw [List.map_append, List.mem_append]
        rintro (hm | hm)
        · obtain ⟨a, ha, e⟩ := List.mem_map.1 hm; exact blt_irrefl _ (e ▸ a2 a ha)
        · obtain ⟨a, ha, e⟩ := List.mem_map.1 hm; exact blt_irrefl _ (e ▸ a3 a ha)
      refine hfin t1 (A ++ B) (fun x hx => ?_) (put_refused_sound (ext_noFree env fuel) hk hs.size a6 (a8.trans hfree) a5 hnl (by simp) hs.depth
        (fun _ => hdiv t1 d1) (by rw [a9]; exact hs.pages) (d2.symm.trans hput))
      rw [← hlm, a1, lookup_mid (a1 ▸ holds_sorted hl), if_neg hx]

/-- The bound at work, with a value too large for a page: "b" and "n" have their value or none, and so has "a". -/
example (val : Bytes) (h1 : 4072 ≤ val.length) (h2 : val.length < 65531) (x : Bytes) (hx : x.length < 65536) :
    ∃ t', put env0 3 six [97] val = .ok (.nospc, t') ∧
      (get env0 t' 5 x = .ok (.error .notfound) ∨
        get env0 t' 5 x = .ok ((KvMap.put (fun k => (contents (getPage env0 six) 1 six.root).lookup k) [97] val).answer x)) := by
  have hnone : (contents (getPage env0 six) 1 six.root).lookup [97] = none :=
    lookup_none_iff.2 (by rw [six_keys]; decide)
  obtain ⟨p, q, g1, e1, e2, e3, g2, e4, e5⟩ := six_routes (x := [97]) (by decide)
  have hn : numKeys q = 3 := by rw [← items_length]; have := congrArg List.length e4; unfold keys at this; simpa using this
  have hb : BelongsTo (getPage env0 six) [97] 1 six.root q := by
    rw [six_fields.1]; exact ⟨p, _, _, _, _, g1, e3, g2⟩
  obtain ⟨t', a1, -⟩ := oversized_put_exact (env := env0) (val := val) 2 six_fields.2.1 six_fields.2.2.1 (by rw [six_fields.1]; decide) six_map hnone
    (by simp only [List.length_singleton]; omega) (by simp only [List.length_singleton]; omega) (by decide) (by rw [six_fields.2.2.2]; decide) hb
  refine ⟨t', a1, refused_put_bound_partial six_fields.2.1 six_fields.2.2.1 six_map ?_ a1 hx (by decide)⟩
  refine ⟨by simp only [List.length_singleton]; omega, by decide, by rw [six_fields.2.2.2]; decide, fun _ _ => ?_, fun h => absurd hnone h⟩
  rw [six_fields.1]
  intro p' A k c B hp hr
  rw [g1] at hp; cases hp
  obtain ⟨rfl, rfl, rfl, rfl⟩ := routes_all e3 hr
  refine ⟨fun q' hq' _ => ?_, fun d hd => ?_⟩
  · rw [g2] at hq'; cases hq'; omega
  · obtain ⟨q', hq', -, hd⟩ := hd
    rw [g2] at hq'; cases hq'
    rw [hn, e4] at hd
    exact ⟨fun _ => by cases hd; decide, fun _ => by omega⟩

/-- A key of 4056 bytes. -/
def longKey : Bytes := 99 :: List.replicate 4055 0

/-- C76 is false of the code in the other direction too: with "b", "d" and a long key stored, the put of "a" answers "no space"
(the new root has no room for the long key), and yet "a" is found, while "d" is gone. -/
theorem refused_pair_is_stored :
    putsGet [([98], []), ([100], []), (longKey, [])] [100] = .ok ([.success, .success, .success], some 0) ∧
    putsGet [([98], []), ([100], []), (longKey, []), ([97], val2)] [97] = .ok ([.success, .success, .success, .nospc], some 1900) ∧
    putsGet [([98], []), ([100], []), (longKey, []), ([97], val2)] [100] = .ok ([.success, .success, .success, .nospc], none) := by
  decide +kernel

end Verif.Db
