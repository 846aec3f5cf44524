import Verif.Db.Refused

/-!
# Helper lemmas: a `put` refused anywhere on the way up
-/

namespace Verif.Db

open Verif.Page

/-- A refused insertion leaves the page as it is. -/
theorem insert_refused {p q : Page} {i : Nat} {it : Item} {st : St} (h : Page.insert p i it = .ok (st, q)) (hs : st ≠ .ok) : q = p := by
  unfold Page.insert at h
  simp only [] at h
  generalize (if isLeaf p then it.val.length else 0) = z at h
  split at h
  · cases h; rfl
  · split at h
    · cases h; rfl
    · split at h
      · cases h; rfl
      · obtain ⟨a, -, h⟩ := Res.bind_eq_ok.1 h
        obtain ⟨b, -, h⟩ := Res.bind_eq_ok.1 h
        obtain ⟨c, -, h⟩ := Res.bind_eq_ok.1 h
        cases h
        exact absurd rfl hs

/-- What a failed insertion into a half leaves: the lower half of the page. -/
theorem split_failed {al : Alloc} {F : List Nat} {I : Txn → Prop} (hE : Ext al F I) {t : Txn} (hI : I t)
    {lk : Nat} (hlk : lk ≤ t.newLast) {p : Page} (hp : t.getDirty lk = some p) (wf : WF p) (hpos : 0 < numKeys p)
    (h64 : t.newLast + 1 < 2 ^ 64) {it : Item}
    {s : SplitTxn} {t1 t2 : Txn} (h1 : splitTxn al (isLeaf p) t lk = .ok (t1, .ok s)) (h2 : insertHalf t1 lk s it = .ok (.nospc, t2)) :
    ∃ L, t2.getDirty lk = some L ∧ WF L ∧ isLeaf L = isLeaf p ∧ pgno L = pgno p ∧ items L = (items p).take (numKeys p / 2) ∧
      t2.rdonly = t.rdonly ∧ ∀ x ≤ t.newLast, x ≠ lk → t2.getDirty x = t.getDirty x := by
  obtain ⟨s', a1, a2, a3, a4, a5, a6, a7, a8, a9, a10, a11, a12⟩ := split_any wf hpos h64
  have hne : t.newLast + 1 ≠ lk := by omega
  have hp' : (extend t).2.getDirty lk = some p := hp
  have hsp : splitTxn al (isLeaf p) t lk = .ok (((extend t).2.setDirty lk s'.left).setDirty (t.newLast + 1) s'.right,
      .ok ⟨t.newLast + 1, s'.left, s'.right, s'.divider⟩) := by
    unfold splitTxn
    rw [hp, Res.ofOption_some, Res.ok_bind, ite_kind wf]
    simp only [Bool.not_true, Bool.false_eq_true, if_false]
    rw [hE.ext t hI, Res.ok_bind, hp', Res.ofOption_some, Res.ok_bind]
    simp only [extend] at a1 ⊢
    rw [a1, Res.ok_bind]
  rw [hsp] at h1
  cases h1
  have hsame : ∀ x ≤ t.newLast, x ≠ lk →
      (((extend t).2.setDirty lk s'.left).setDirty (t.newLast + 1) s'.right).getDirty x = t.getDirty x := by
    intro x hx hxl
    rw [getDirty_set, if_neg (by omega), getDirty_set, if_neg hxl]; rfl
  unfold insertHalf at h2
  simp only at h2
  obtain ⟨f, -, h2⟩ := Res.bind_eq_ok.1 h2
  split at h2
  · obtain ⟨g, -, h2⟩ := Res.bind_eq_ok.1 h2
    obtain ⟨r, -, h2⟩ := Res.bind_eq_ok.1 h2
    have h2 := congrArg Prod.snd (Res.ok.inj h2)
    dsimp only at h2
    subst h2
    refine ⟨s'.left, ?_, a2, a4, a6, a8, rfl, fun x hx hxl => ?_⟩
    · rw [getDirty_set, if_neg (by omega), getDirty_set, if_neg (by omega), getDirty_set, if_pos rfl]
    · rw [getDirty_set, if_neg (by omega)]; exact hsame x hx hxl
  · obtain ⟨r, e1, h2⟩ := Res.bind_eq_ok.1 h2
    have h3 := congrArg Prod.fst (Res.ok.inj h2)
    have h2 := congrArg Prod.snd (Res.ok.inj h2)
    dsimp only at h2 h3
    have hr : r.2 = s'.left := by
      refine insert_refused (st := r.1) e1 ?_
      intro e; rw [e] at h3; cases h3
    subst h2
    refine ⟨s'.left, ?_, a2, a4, a6, a8, rfl, fun x hx hxl => ?_⟩
    · rw [getDirty_set, if_pos rfl, hr]
    · rw [getDirty_set, if_neg hxl]; exact hsame x hx hxl

/-- One map answers nothing or what the other answers. -/
def Sub (f' f : Bytes → Option Bytes) : Prop := ∀ x, f' x = none ∨ f' x = f x

/-- A child finds nothing or what its page finds. -/
theorem child_sub {g : View} {h : Nat} {lo hi : Option Bytes} {n : Nat} {p : Page} (hp : g n = .ok p) (hs : Sorted (keys p))
    (hk : Kids (WFT g h) lo hi (entries p)) {e : Bytes × Nat} (he : e ∈ entries p) : Sub (sight g h e.2) (sight g (h + 1) n) := by
  intro x
  by_cases hn : sight g h e.2 x = none
  · exact .inl hn
  · right
    obtain ⟨X, Y, hE⟩ := List.append_of_mem he
    rw [sight_succ hp]
    unfold node
    have hse := sorted_entries hs
    rw [hE, List.map_append, List.map_cons, sorted_append, sorted_cons] at hse
    obtain ⟨s1, ⟨s2, s3⟩, s4⟩ := hse
    have hj : Joins X e.1 Y x := by
      constructor
      · by_cases hX : X = []
        · exact .inl hX
        · exact .inr ((kids_ranged hk hE hX).2 x hn)
      · intro b hb
        obtain ⟨Y1, Y2, rfl⟩ := List.append_of_mem hb
        have := kids_ranged hk (X := X ++ e :: Y1) (D := b) (Y := Y2) (by rw [hE]; simp) (by simp)
        exact this.1 e (by simp) x hn
    rw [hE, route_mid (k := e.1) (c := e.2) (fun a ha => s4 a.1 (List.mem_map_of_mem ha) e.1 (by simp)) hj.1 hj.2]

/-- A page whose entries are among those of the old one, with children that find nothing or what the old page finds. -/
theorem page_sub {g' : View} {h n : Nat} {q : Page} (hq : g' n = .ok q) (hne : entries q ≠ []) {f : Bytes → Option Bytes}
    (hs : ∀ e ∈ entries q, Sub (sight g' h e.2) f) : Sub (sight g' (h + 1) n) f := by
  intro x
  rw [sight_succ hq]
  unfold node
  obtain ⟨e, he, hr⟩ := route_mem hne x
  rw [hr]
  exact hs e he x

theorem sub_upd {f' f : Bytes → Option Bytes} (h : Sub f' f) {key val : Bytes} (hk : f key = none) : Sub f' (upd f key val) := by
  intro x
  unfold upd
  by_cases hx : x = key
  · subst hx
    rcases h x with h | h
    · exact .inl h
    · exact .inl (h.trans hk)
  · rw [if_neg hx]; exact h x

theorem sub_upd_both {f' f g : Bytes → Option Bytes} {key val : Bytes} (h : Sub f' (upd g key val)) (hg : Sub g f) : Sub f' (upd f key val) := by
  intro x
  have := h x
  unfold upd at this ⊢
  by_cases hx : x = key
  · rw [if_pos hx] at this ⊢; exact this
  · rw [if_neg hx] at this ⊢
    rcases this with h | h
    · exact .inl h
    · rcases hg x with h' | h'
      · exact .inl (h.trans h')
      · exact .inr (h.trans h')

/-- A put that is refused on the way up. -/
theorem climbR_spec {al : Alloc} {F : List Nat} {I : Txn → Prop} (hE : Ext al F I) {env : Env} {key val : Bytes}
    (hk : key.length < 65536) (hsz : 4 + key.length + val.length < 65536) (h : Nat) :
    ∀ {lo hi : Option Bytes} {n : Nat} {path : List Nat} {t : Txn},
    t.rdonly = false → I t → WFT (getPage env t) h lo hi n → IsPath (getPage env t) key h n path →
    InRange lo hi key → (pagesOf (getPage env t) h n).Nodup →
    (∀ x ∈ pagesOf (getPage env t) h n, x ≤ t.newLast ∧ x ∉ F) →
    (∀ x ∈ path, ∃ p, t.getDirty x = some p) → key ∉ (contents (getPage env t) h n).map Prod.fst →
    (∀ p, getPage env t (path.getLastD 0) = .ok p → room p < 4 + key.length + val.length + 2) →
    Divisible (getPage env t) key (4 + key.length + val.length) h n → t.newLast + h + 1 < 2 ^ 64 →
    ∀ {t' : Txn} {d : Bytes} {c : Nat}, climb al t (path.getLastD 0) path.dropLast.reverse key val = .ok (t', .nospc, d, c) →
      Sound (getPage env t') h n ∧ Sub (sight (getPage env t') h n) (upd (sight (getPage env t) h n) key val) := by
  induction h with
  | zero =>
    intro lo hi n path t hr hI hw hp hin hnd hb hd hkey hroom hdiv h64 t' d c hcl
    have hp' : path = [n] := hp
    subst hp'
    have hself := hb n (self_mem_pagesOf _ 0 n)
    obtain ⟨p, hpd⟩ := hd n (by simp)
    have hg : getPage env t n = .ok p := getPage_dirty hr hpd
    obtain ⟨p', h1, h2, h3, h4, h5, h6⟩ := hw
    rw [hg] at h1; cases h1
    have hkey' := hkey
    rw [contents_zero hg, ← keys_eq_kvs] at hkey
    obtain ⟨f, hf, A, B, hA, hB, hsp⟩ := probe_spec h3 h5 hk
    have hit : items p = A ++ B := by
      rcases hsp with ⟨it, e1, e2, -⟩ | ⟨e1, -⟩
      · exfalso; apply hkey; unfold keys; rw [e1]; simp [e2]
      · exact e1
    have h2k := hdiv p hg (hroom p hg)
    obtain ⟨s, t1, st, t2, a1, a2, a3, a4, a5, a6, a7, a8⟩ := splitAll_spec hE hI hself.1 hself.2 hpd h2 h3 h5 (by omega) hit (it := .leaf key val)
      hA hB (by rw [h4]; rfl) (by simpa [Item.size] using hsz) (by simp [Item.child]) hk h2k
    have a1' := a1
    rw [h4] at a1
    have hcl' : climb al t n [] key val = .ok (t', .nospc, d, c) := hcl
    rw [climb_nil a1 a2 (splitTxn_pos hE hI hpd h3 h4 (by omega) (by omega) a1) a7] at hcl'
    rcases a7 with rfl | rfl
    · have := congrArg (fun x => x.2.1) (Res.ok.inj hcl')
      cases this
    · have := congrArg Prod.fst (Res.ok.inj hcl')
      dsimp only at this
      subst this
      obtain ⟨L, c1, c2, c3, c4, c5, -⟩ := split_failed hE hI hself.1 hpd h3 (by omega) (by omega) a1' a2
      have hr2 : t2.rdonly = false := by rw [a5.rdonly, hr]
      have gL := getPage_dirty (env := env) hr2 c1
      refine ⟨⟨L, gL, c2, c3.trans h4, ?_⟩, ?_⟩
      · refine sorted_sub h5 ?_
        unfold keys; rw [c5]; exact (List.take_sublist _ _).map _
      · refine sub_upd ?_ ?_
        · intro x
          rw [sight_zero gL, sight_zero hg]
          have hkv : kvs p = (kvs L) ++ (kvs p).drop (numKeys p / 2) := by
            unfold kvs; rw [c5, List.map_take, List.take_append_drop]
          show (kvs L).lookup x = none ∨ (kvs L).lookup x = (kvs p).lookup x
          rw [hkv, List.lookup_append]
          cases (kvs L).lookup x with
          | none => exact .inl rfl
          | some v => exact .inr rfl
        · rw [sight_zero hg]
          exact lookup_none_iff.2 (by rw [← keys_eq_kvs]; exact hkey)
  | succ h ih =>
    rintro lo hi n path t hr hI ⟨p, h1, h2, h3, h4, h5, h6⟩ ⟨p', A, k, c, B, path', g1, g2, g3, rfl⟩ hin hnd hb hd hkey hroom hdiv h64 t' d0 c0 hcl
    rw [h1] at g1; cases g1
    have hes := g2.1
    have h6' := h6
    rw [hes] at h6'
    have hfoc := kids_focus h6'
    obtain ⟨rest, hrest, -⟩ := isPath_cons g3
    have hne : path' ≠ [] := by rw [hrest]; simp
    rw [getLastD_cons hne] at hroom hcl
    rw [dropLast_cons_reverse hne, climb_snoc] at hcl
    have hpg : pagesOf (getPage env t) (h + 1) n = n :: ((A.flatMap fun e => pagesOf (getPage env t) h e.2) ++
        (pagesOf (getPage env t) h c ++ B.flatMap fun e => pagesOf (getPage env t) h e.2)) := by
      rw [pagesOf_succ h1, hes, List.flatMap_append, List.flatMap_cons]
    have hct : contents (getPage env t) (h + 1) n = (A.flatMap fun e => contents (getPage env t) h e.2) ++
        (contents (getPage env t) h c ++ B.flatMap fun e => contents (getPage env t) h e.2) := by
      rw [contents_succ h1, hes, List.flatMap_append, List.flatMap_cons]
    have hdiv' := hdiv p A k c B h1 g2
    have hsub : ∀ x ∈ pagesOf (getPage env t) h c, x ∈ pagesOf (getPage env t) (h + 1) n := by
      intro x hx; rw [hpg]; simp only [List.mem_cons, List.mem_append]; exact .inr (.inr (.inl hx))
    have hnd' := hnd
    rw [hpg] at hnd'
    have hndc : (pagesOf (getPage env t) h c).Nodup := by
      simp only [List.nodup_cons, List.nodup_append] at hnd'
      exact hnd'.2.2.1.1
    have hkc : key ∉ (contents (getPage env t) h c).map Prod.fst := by
      intro hm; apply hkey; rw [hct, List.map_append, List.map_append, List.mem_append, List.mem_append]
      exact .inr (.inl hm)
    have hrng := inRange_child hin g2.2.1 g2.2.2
    obtain ⟨t1, st, d, c', a1, a2, a3, a4, a5, a6⟩ := climbX_spec hE hk hsz h hr hI hfoc.1 g3 hrng hndc
      (fun x hx => hb x (hsub x hx)) (fun x hx => hd x (List.mem_cons_of_mem _ hx)) hkc hroom hdiv'.1 (by omega)
    have hR := @ih _ _ _ _ _ hr hI hfoc.1 g3 hrng hndc
      (fun x hx => hb x (hsub x hx)) (fun x hx => hd x (List.mem_cons_of_mem _ hx)) hkc hroom hdiv'.1 (by omega)
    rw [a1, Res.ok_bind] at hcl
    have hnb := hb n (self_mem_pagesOf _ _ n)
    have hnc : n ∉ pagesOf (getPage env t) h c := by
      simp only [List.nodup_cons, List.mem_append, not_or] at hnd'
      exact hnd'.1.2.1
    have hnp : n ∉ path' := fun hx => hnc (isPath_mem g3 n hx)
    have hsib : ∀ e, e ∈ A ∨ e ∈ B → ∀ x ∈ pagesOf (getPage env t) h e.2, getPage env t1 x = getPage env t x := by
      intro e he x hx
      have hxn : x ∈ pagesOf (getPage env t) (h + 1) n := by
        rw [hpg]; simp only [List.mem_cons, List.mem_append]
        rcases he with he | he
        · exact .inr (.inl (List.mem_flatMap.2 ⟨e, he, hx⟩))
        · exact .inr (.inr (.inr (List.mem_flatMap.2 ⟨e, he, hx⟩)))
      apply a2.view env (hb x hxn).1
      intro hxp
      have hxc := isPath_mem g3 x hxp
      simp only [List.nodup_cons, List.nodup_append, List.mem_append] at hnd'
      obtain ⟨-, -, ⟨-, -, hcb⟩, hab⟩ := hnd'
      rcases he with he | he
      · exact hab x (List.mem_flatMap.2 ⟨e, he, hx⟩) x (.inl hxc) rfl
      · exact hcb x hxc x (List.mem_flatMap.2 ⟨e, he, hx⟩) rfl
    have hsound : ∀ e ∈ entries p, Sound (getPage env t) h e.2 := by
      intro e he
      obtain ⟨l, u, hw⟩ := kids_mem h6 he
      exact wft_sound h hw
    have hsibS : ∀ e, e ∈ A ∨ e ∈ B → Sound (getPage env t1) h e.2 ∧ sight (getPage env t1) h e.2 = sight (getPage env t) h e.2 := by
      intro e he
      have hs := hsound e (by rw [hes]; rcases he with he | he <;> simp [he])
      exact ⟨sound_frame h (hsib e he) hs, sight_frame h hs (hsib e he)⟩
    have hkn : sight (getPage env t) (h + 1) n key = none := by
      rw [sight_contents (h + 1) (lo := lo) (hi := hi) ⟨p, h1, h2, h3, h4, h5, h6⟩ hin]
      exact lookup_none_iff.2 hkey
    have hchild : ∀ e ∈ entries p, Sub (sight (getPage env t) h e.2) (sight (getPage env t) (h + 1) n) :=
      fun e he => child_sub h1 h5 h6 he
    -- what the children find after the child on the way has changed
    have hkids : Sound (getPage env t1) h c → Sub (sight (getPage env t1) h c) (upd (sight (getPage env t) h c) key val) →
        ∀ e ∈ entries p, Sound (getPage env t1) h e.2 ∧ Sub (sight (getPage env t1) h e.2) (upd (sight (getPage env t) (h + 1) n) key val) := by
      intro hs1 hs2 e he
      have he' := he
      rw [hes] at he'
      simp only [List.mem_append, List.mem_cons] at he'
      rcases he' with he' | rfl | he'
      · refine ⟨(hsibS e (.inl he')).1, ?_⟩
        rw [(hsibS e (.inl he')).2]
        exact sub_upd (hchild e he) hkn
      · exact ⟨hs1, sub_upd_both hs2 (hchild _ he)⟩
      · refine ⟨(hsibS e (.inr he')).1, ?_⟩
        rw [(hsibS e (.inr he')).2]
        exact sub_upd (hchild e he) hkn
    have hr1 : t1.rdonly = false := by rw [a2.rdonly, hr]
    have hn1 : getPage env t1 n = .ok p := by rw [a2.view env hnb.1 hnp, h1]
    have hd1 : t1.getDirty n = some p := by
      rw [a2.same n hnb.1 hnp]
      obtain ⟨q, hq⟩ := hd n List.mem_cons_self
      have := getPage_dirty (env := env) hr hq
      rw [h1] at this; cases this; exact hq
    have hep : entries p ≠ [] := by rw [hes]; simp
    by_cases hst : st = .success
    · subst hst
      simp only [if_true] at hcl
      obtain ⟨⟨w1, w2, w3, w4, wH, w7, w8, -, w9⟩, -⟩ := a4 rfl
      have hdiv2 := hdiv'.2 d w9
      have hdl : d.length + 10 < 65536 := by
        have := overflow_key_small hfoc.1 w9; omega
      have hc64 : c' < 2 ^ 64 := by
        rcases w8 c' (List.mem_append_right _ (self_mem_pagesOf _ h c')) with hx | hx
        · have := (hb c' (hsub c' hx)).1; omega
        · omega
      have hhalf : Sub (sight (getPage env t1) h c) (upd (sight (getPage env t) h c) key val) := by
        intro x
        by_cases hx : x < d
        · by_cases hl : Unreached (getPage env t) key (4 + key.length + val.length) h c x ∨
              Stray (getPage env t) key (4 + key.length + val.length) h c x
          · exact .inl ((wH.left x hx).1 hl)
          · exact .inr ((wH.left x hx).2 hl)
        · exact .inl (wH.left' x hx)
      have hall := hkids w1 hhalf
      have hpages : ∀ e ∈ entries p, ∀ x ∈ pagesOf (getPage env t1) h e.2, x ≤ t1.newLast ∧ x ≠ n := by
        intro e he x hx
        rw [hes] at he
        have hlast := a2.last
        have hold : x ∈ pagesOf (getPage env t) (h + 1) n → x ∈ (A.flatMap fun e => pagesOf (getPage env t) h e.2) ∨
            x ∈ pagesOf (getPage env t) h c ∨ x ∈ (B.flatMap fun e => pagesOf (getPage env t) h e.2) → x ≤ t1.newLast ∧ x ≠ n := by
          intro g1 g2
          refine ⟨by have := (hb x g1).1; omega, ?_⟩
          rintro rfl
          apply (List.nodup_cons.1 hnd').1
          simpa only [List.mem_append] using g2
        simp only [List.mem_append, List.mem_cons] at he
        rcases he with he | rfl | he
        · rw [(frame h (hsib e (.inl he))).2.1] at hx
          have hm : x ∈ A.flatMap fun e => pagesOf (getPage env t) h e.2 := List.mem_flatMap.2 ⟨e, he, hx⟩
          exact hold (by rw [hpg]; simp only [List.mem_cons, List.mem_append]; exact .inr (.inl hm)) (.inl hm)
        · rcases w8 x (List.mem_append_left _ hx) with hx | hx
          · exact hold (hsub x hx) (.inr (.inl hx))
          · exact ⟨hx.2, by have := hnb.1; omega⟩
        · rw [(frame h (hsib e (.inr he))).2.1] at hx
          have hm : x ∈ B.flatMap fun e => pagesOf (getPage env t) h e.2 := List.mem_flatMap.2 ⟨e, he, hx⟩
          exact hold (by rw [hpg]; simp only [List.mem_cons, List.mem_append]; exact .inr (.inr (.inr hm))) (.inr (.inr hm))
      rw [propagate] at hcl
      simp only [hd1] at hcl
      obtain ⟨f, hf, A1, B1, hA1, hB1, hsp1⟩ := probe_spec h3 h5 (key := d) (by omega)
      have hidx : f.idx ≤ numKeys p := by
        rw [← items_length]
        rcases hsp1 with ⟨it, e1, -, e3⟩ | ⟨e1, e3⟩
        · rw [e1, e3]; simp [Found.idx]
        · rw [e1, e3]; simp [Found.idx]
      rw [hf, Res.ok_bind] at hcl
      obtain ⟨⟨st1, q1⟩, hins, hcl⟩ := Res.bind_eq_ok.1 hcl
      have hkeep := insert_keeps_entries_partial h3 hidx (it := .branch d c') (by rw [h4]; rfl) (by simp only [Item.size]; omega)
        (by simpa [Item.child] using hc64)
      cases st1 with
      | ok => simp at hcl
      | inval => simp at hcl
      | nospc =>
        simp only at hcl
        have hroomp : room p < d.length + 12 := by
          apply Classical.byContradiction
          intro hno
          obtain ⟨q, e1, -⟩ := hkeep.2 (by simp only [Item.size]; omega)
          rw [e1] at hins; cases hins
        have h2k := hdiv2.2 hroomp
        obtain ⟨⟨t2, e2⟩, hsplit, hcl⟩ := Res.bind_eq_ok.1 hcl
        cases e2 with
        | error e =>
          simp only at hcl
          have := congrArg (fun x => x.2.1) (Res.ok.inj hcl)
          dsimp only at this
          subst this
          rcases splitTxn_status hsplit with h | h <;> cases h
        | ok s =>
          simp only at hcl
          obtain ⟨⟨st2, t3⟩, hih, hcl⟩ := Res.bind_eq_ok.1 hcl
          simp only at hcl
          by_cases hs2 : st2 = .success
          · rw [if_pos hs2] at hcl
            simp [propagate] at hcl
          · rw [if_neg hs2] at hcl
            have hcl := Res.ok.inj hcl
            have e1 : t3 = t' := congrArg Prod.fst hcl
            have e2 : st2 = .nospc := congrArg (fun x => x.2.1) hcl
            subst e1 e2
            obtain ⟨L, c1, c2, c3, c4, c5, c6, c7⟩ := split_failed hE a2.inv (by have := a2.last; omega) hd1 h3 (by omega) (by omega)
              (by rw [h4]; exact hsplit) hih
            have hr3 : t3.rdonly = false := by rw [c6, hr1]
            have gL := getPage_dirty (env := env) hr3 c1
            have heL : entries L = (entries p).take (numKeys p / 2) := by unfold entries; rw [c5, List.map_take]
            have hag : ∀ e ∈ entries p, Sound (getPage env t3) h e.2 ∧ sight (getPage env t3) h e.2 = sight (getPage env t1) h e.2 := by
              intro e he
              have hx : ∀ x ∈ pagesOf (getPage env t1) h e.2, getPage env t3 x = getPage env t1 x := by
                intro x hx
                obtain ⟨x1, x2⟩ := hpages e he x hx
                unfold getPage
                rw [c6, c7 x x1 x2]
              exact ⟨sound_frame h hx (hall e he).1, sight_frame h (hall e he).1 hx⟩
            have hmem : ∀ e ∈ entries L, e ∈ entries p := fun e he => List.mem_of_mem_take (heL ▸ he)
            have hneL : entries L ≠ [] := by
              intro e
              have := congrArg List.length (heL.symm.trans e)
              rw [List.length_take] at this
              unfold entries at this
              rw [List.length_map, items_length] at this
              simp at this; omega
            refine ⟨⟨L, gL, c2, c3.trans h4, ?_, hneL, fun e he => (hag e (hmem e he)).1⟩, page_sub gL hneL fun e he => ?_⟩
            · refine sorted_sub h5 ?_
              unfold keys; rw [c5]; exact (List.take_sublist _ _).map _
            · rw [(hag e (hmem e he)).2]
              exact (hall e (hmem e he)).2
    · rw [if_neg hst] at hcl
      have hcl := Res.ok.inj hcl
      have e1 : t1 = t' := congrArg Prod.fst hcl
      have e2 : st = .nospc := congrArg (fun x => x.2.1) hcl
      subst e1 e2
      obtain ⟨r1, r2⟩ := hR a1
      have hall := hkids r1 r2
      exact ⟨⟨p, hn1, h3, h4, h5, hep, fun e he => (hall e he).1⟩, page_sub hn1 hep fun e he => (hall e he).2⟩

/-- A root split that fails changes no page. -/
theorem rootSplit_failed {al : Alloc} {t t' : Txn} {a : Nat × Txn} {n c : Nat} {d : Bytes} {e : Status} (ha : al t = .ok a)
    (h : rootSplit al t n c d = .ok (t', .error e)) : t' = a.2 := by
  unfold rootSplit at h
  rw [ha, Res.ok_bind] at h
  simp only at h
  split at h
  · cases h; rfl
  · obtain ⟨mk, -, h⟩ := Res.bind_eq_ok.1 h
    obtain ⟨r, -, h⟩ := Res.bind_eq_ok.1 h
    split at h
    · obtain ⟨r2, -, h⟩ := Res.bind_eq_ok.1 h
      split at h
      · cases h
      · cases h; rfl
    · cases h; rfl

/-- A put of a new key that is refused: the tree can still be searched, and finds nothing or what it found, or the new pair. -/
theorem put_refused_sound {al : Alloc} {F : List Nat} {I : Txn → Prop} (hE : Ext al F I) {env : Env} {t : Txn} {h : Nat}
    {l : List (Bytes × Bytes)} {key val : Bytes} (hk : key.length < 65536) (hsz : 4 + key.length + val.length < 65536)
    (hr : t.rdonly = false) (hI : I t) (hh : Holds env t h l) (hkey : key ∉ l.map Prod.fst)
    (hF : t.root ≠ 0 → ∀ x ∈ pagesOf (getPage env t) h t.root, x ∉ F) (hd : h < maxDepth)
    (hdiv : t.root ≠ 0 → Divisible (getPage env t) key (4 + key.length + val.length) h t.root)
    (h64 : t.newLast + h + 2 < 2 ^ 64) {t' : Txn} (hput : putWith al env t key val = .ok (.nospc, t')) :
    t'.root = t.root ∧ (t.root ≠ 0 → Sound (getPage env t') h t.root ∧
      Sub (sight (getPage env t') h t.root) (upd (fun x => l.lookup x) key val)) := by
  rcases hh with ⟨h0, rfl⟩ | ⟨h0, ht, rfl⟩
  · refine ⟨?_, fun hn => absurd h0 hn⟩
    unfold putWith at hput
    rw [if_neg (by simp [hr]), if_pos h0] at hput
    obtain ⟨⟨t1, e⟩, h1, h2⟩ := Res.bind_eq_ok.1 hput
    cases e with
    | ok r => simp [withRoot] at h2
    | error e =>
      have := congrArg Prod.snd (Res.ok.inj h2)
      have ht1 : t1 = t' := this
      subst ht1
      unfold newTree at h1
      rw [hE.ext t hI, Res.ok_bind] at h1
      obtain ⟨r, -, h1⟩ := Res.bind_eq_ok.1 h1
      split at h1
      · cases h1
      · have : (extend t).2 = t1 := congrArg Prod.fst (Res.ok.inj h1)
        rw [← this]; rfl
  · have hF := hF h0
    have hdiv := hdiv h0
    obtain ⟨path, p1, p2⟩ := findPath_spec hk h ht.wft hd (by
      intro x hx; unfold maxPgno; simpa [hr] using (ht.bound x hx).2)
    obtain ⟨lo', hi', p, X, Y, i1, i2, i3, i4, i5, i6, i7⟩ := leaf_focus h ht.wft p1 (inRange_none key)
    obtain ⟨q, j1, j2, j3, j4, j5, j6⟩ := i2
    rw [i1] at j1; cases j1
    have hne : path ≠ [] := by
      obtain ⟨rest, hr, -⟩ := isPath_cons p1; rw [hr]; simp
    have hlm : path.getLastD 0 ∈ pagesOf (getPage env t) h t.root := isPath_mem p1 _ (getLastD_mem hne)
    have hkp : key ∉ keys p := by
      intro hm; apply hkey; rw [i4, List.map_append, List.map_append, ← keys_eq_kvs]
      exact List.mem_append_left _ (List.mem_append_right _ hm)
    obtain ⟨f, hf, A', B', hA, hB, hsp⟩ := probe_spec j3 j5 hk
    have hsp' : items p = A' ++ B' ∧ f = .notFound A'.length := by
      rcases hsp with ⟨it, e1, e2, -⟩ | hx
      · exfalso; apply hkp; unfold keys; rw [e1]; simp [e2]
      · exact hx
    obtain ⟨hit, rfl⟩ := hsp'
    obtain ⟨t1, c1, c2, c3, c4⟩ := cowPath_spec (env := env) hr hne (by
      intro n hn
      exact wft_pages h ht.wft n (isPath_mem p1 n hn))
    have hI1 : I t1 := c4 F I hE.set (fun t x _ h => hE.freed t _ h) (fun x hx => ⟨hF x (isPath_mem p1 x hx), (ht.bound x (isPath_mem p1 x hx)).2⟩) hI
    have hr1 : t1.rdonly = false := by rw [c2.rdonly, hr]
    have hd1 : t1.getDirty (path.getLastD 0) = some p := by
      obtain ⟨p', hp'⟩ := c3 _ (getLastD_mem hne)
      have : getPage env t1 (path.getLastD 0) = .ok p' := getPage_dirty hr1 hp'
      rw [c2.view, i1] at this; cases this; exact hp'
    let t2 := t1.setDirty (path.getLastD 0) p
    have hr2 : t2.rdonly = false := hr1
    have hI2 : I t2 := hE.set _ _ _ hI1 (hF _ hlm) j2 j3 (by rw [c2.newLast]; exact (ht.bound _ hlm).2)
    have hd2 : ∀ x, t2.getDirty x = t1.getDirty x := by
      intro x
      show (t1.setDirty (path.getLastD 0) p).getDirty x = _
      rw [getDirty_set]; split
      · rename_i hx; rw [hx, hd1]
      · rfl
    have hv2 : getPage env t2 = getPage env t := by
      funext x
      rw [← c2.view x]
      unfold getPage; rw [hd2 x]; rfl
    have hputeq : putWith al env t key val = (insert p A'.length (.leaf key val) >>= fun r =>
        match r.1 with
        | .ok => .ok (.success, t2.setDirty (path.getLastD 0) r.2)
        | .inval => .ok (.inval, t2)
        | .nospc => (pageSplit al t2 (path.getLastD 0) path key val >>= fun r => .ok (withRoot r))) := by
      unfold putWith
      rw [if_neg (by simp [hr]), if_neg h0, p2, Res.ok_bind]
      simp only []
      rw [i1, Res.ok_bind, hf, Res.ok_bind]
      simp only [Found.hit, Bool.false_and, Bool.false_eq_true, if_false]
      rw [c1, Res.ok_bind]
      simp only [hd1, Res.ofOption_some, Res.ok_bind, if_true, Found.idx]
      rfl
    rw [hputeq] at hput
    have hroot2 : t2.root = t.root := c2.root
    have hlast2 : t2.newLast = t.newLast := c2.newLast
    rcases insert_at j3 hit (it := .leaf key val) (by rw [j4]; rfl) (by simpa [Item.size] using hsz) (by simp [Item.child]) with
      ⟨b1, b2⟩ | ⟨b1, q, b2, -⟩
    rotate_left
    · rw [b2, Res.ok_bind] at hput; simp at hput
    have hhead : path.headD 0 = t.root := by
      obtain ⟨rest, hr, -⟩ := isPath_cons p1; rw [hr]; rfl
    have w1 : WFT (getPage env t2) h none none t.root := by rw [hv2]; exact ht.wft
    have w2 : IsPath (getPage env t2) key h t.root path := by rw [hv2]; exact p1
    have w3 : (pagesOf (getPage env t2) h t.root).Nodup := by rw [hv2]; exact ht.nodup
    have w4 : ∀ x ∈ pagesOf (getPage env t2) h t.root, x ≤ t2.newLast ∧ x ∉ F := by
      rw [hv2, hlast2]; intro x hx; exact ⟨(ht.bound x hx).2, hF x hx⟩
    have w5 : ∀ x ∈ path, ∃ p, t2.getDirty x = some p := by intro x hx; rw [hd2]; exact c3 x hx
    have w6 : key ∉ (contents (getPage env t2) h t.root).map Prod.fst := by rw [hv2]; exact hkey
    have w7 : ∀ p, getPage env t2 (path.getLastD 0) = .ok p → room p < 4 + key.length + val.length + 2 := by
      rw [hv2, i1]; intro p' hp'; cases hp'; simpa [Item.size] using b1
    have w8 : Divisible (getPage env t2) key (4 + key.length + val.length) h t.root := by rw [hv2]; exact hdiv
    obtain ⟨t3, st, d, c, e1, e2, e3, e4, e5, e6⟩ := climbX_spec hE (env := env) hk hsz h hr2 hI2 w1 w2 (inRange_none key) w3 w4 w5 w6 w7 w8 (by omega)
    have hps := pageSplit_climb e1
    rw [hhead] at hps
    rw [b2, Res.ok_bind] at hput
    simp only [] at hput
    rw [hps] at hput
    have hr3 : t3.rdonly = false := by rw [e2.rdonly, hr2]
    have hroot3 : t3.root = t.root := e2.root.trans hroot2
    have hsight : sight (getPage env t) h t.root = fun x => (contents (getPage env t) h t.root).lookup x :=
      funext fun x => sight_contents h ht.wft (inRange_none x)
    rw [← hsight]
    by_cases hinc : st = .incomplete
    · simp [hinc, withRoot] at hput
    · by_cases hsu : st = .success
      · subst hsu
        rw [if_neg hinc, if_pos rfl] at hput
        obtain ⟨htwo, pl, hdir⟩ := e4 rfl
        obtain ⟨⟨t4, e⟩, h1, h2⟩ := Res.bind_eq_ok.1 hput
        cases e with
        | ok r => simp [withRoot] at h2
        | error e =>
          have ht4 : t4 = t' := congrArg Prod.snd (Res.ok.inj h2)
          subst ht4
          have hx := rootSplit_failed (hE.ext t3 e2.inv) h1
          have hv4 : getPage env t4 = getPage env t3 := by rw [hx]; rfl
          have hrt : t4.root = t.root := by rw [hx]; exact hroot3
          refine ⟨hrt, fun _ => ?_⟩
          rw [hv4, ← hv2]
          refine ⟨htwo.left, fun x => ?_⟩
          by_cases hx : x < d
          · by_cases hl : Unreached (getPage env t2) key (4 + key.length + val.length) h t.root x ∨
                Stray (getPage env t2) key (4 + key.length + val.length) h t.root x
            · exact .inl ((htwo.halves.left x hx).1 hl)
            · exact .inr ((htwo.halves.left x hx).2 hl)
          · exact .inl (htwo.halves.left' x hx)
      · have hns : st = .nospc := by
          rcases e6 with hx | hx | hx
          · exact absurd hx hsu
          · exact absurd hx hinc
          · exact hx
        subst hns
        have ht3 : t3 = t' := congrArg Prod.snd (Res.ok.inj hput)
        subst ht3
        refine ⟨hroot3, fun _ => ?_⟩
        have := climbR_spec hE (env := env) hk hsz h hr2 hI2 w1 w2 (inRange_none key) w3 w4 w5 w6 w7 w8 (by omega) e1
        rw [hv2] at this
        exact this

end Verif.Db
