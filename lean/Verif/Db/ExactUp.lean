import Verif.Db.ExactClimb

/-!
# Helper lemmas: the whole way up, with all that goes wrong
-/

namespace Verif.Db

open Verif.Page

theorem kids_ranged {g : View} {h : Nat} {lo hi : Option Bytes} {E : List (Bytes × Nat)} (hk : Kids (WFT g h) lo hi E)
    {X : List (Bytes × Nat)} {D : Bytes × Nat} {Y : List (Bytes × Nat)} (hE : E = X ++ D :: Y) (hX : X ≠ []) :
    (∀ e ∈ X, ∀ x, sight g h e.2 x ≠ none → x < D.1) ∧ ∀ x, sight g h D.2 x ≠ none → ¬ x < D.1 := by
  subst hE
  obtain ⟨d, c⟩ := D
  have hs := kids_split hX hk
  constructor
  · intro e he x hx
    obtain ⟨X1, X2, rfl⟩ := List.append_of_mem he
    have hf := kids_focus (k := e.1) (c := e.2) hs.1
    have hr := sight_range h hf.1 hx
    exact ltHi_some.1 ((kids_widen (x := x) (k := e.1) (c := e.2) hs.1).2.2 hr.2)
  · intro x hx
    have hf := kids_focus (A := []) hs.2.1
    exact geLo_some.1 (sight_range h hf.1 hx).1

/-- A page takes the entry of the new half of a child. -/
theorem page_around {g : View} {F' : Nat → Bytes → Option Bytes} {h : Nat} {lo hi : Option Bytes} {p : Page} {key : Bytes}
    (hs : Sorted (keys p)) (hk : Kids (WFT g h) lo hi (entries p)) {A : List (Bytes × Nat)} {k : Bytes} {c : Nat} {B : List (Bytes × Nat)}
    (hr : Routes p key A k c B) (hsib : ∀ e, e ∈ A ∨ e ∈ B → F' e.2 = sight g h e.2) :
    Around (sight g h) F' key A k c B :=
  ⟨by rw [← hr.1]; exact sorted_entries hs, hr.2.1, hr.2.2, hsib, fun X D Y hE hX => kids_ranged hk (hr.1.trans hE) hX⟩

/-- The whole way up, without the root. -/
theorem climbX_spec {al : Alloc} {F : List Nat} {I : Txn → Prop} (hE : Ext al F I) {env : Env} {key val : Bytes}
    (hk : key.length < 65536) (hsz : 4 + key.length + val.length < 65536) (h : Nat) :
    ∀ {lo hi : Option Bytes} {n : Nat} {path : List Nat} {t : Txn},
    t.rdonly = false → I t → WFT (getPage env t) h lo hi n → IsPath (getPage env t) key h n path →
    InRange lo hi key → (pagesOf (getPage env t) h n).Nodup →
    (∀ x ∈ pagesOf (getPage env t) h n, x ≤ t.newLast ∧ x ∉ F) →
    (∀ x ∈ path, ∃ p, t.getDirty x = some p) → key ∉ (contents (getPage env t) h n).map Prod.fst →
    (∀ p, getPage env t (path.getLastD 0) = .ok p → room p < 4 + key.length + val.length + 2) →
    Divisible (getPage env t) key (4 + key.length + val.length) h n → t.newLast + h + 1 < 2 ^ 64 →
    ∃ t' st d c, climb al t (path.getLastD 0) path.dropLast.reverse key val = .ok (t', st, d, c) ∧
      Evo I path t t' ∧ t'.newLast ≤ t.newLast + h + 1 ∧
      (st = .success → TwoX (getPage env t) (getPage env t') t.newLast t'.newLast h lo hi n key val d c ∧
        ∃ p, t'.getDirty n = some p) ∧
      (st = .incomplete → OneX (getPage env t) (getPage env t') t.newLast t'.newLast h n key val) ∧
      (st = .success ∨ st = .incomplete ∨ st = .nospc) := by
  induction h with
  | zero =>
    intro lo hi n path t hr hI hw hp hin hnd hb hd hkey hroom hdiv h64
    have hp' : path = [n] := hp
    subst hp'
    have hself := hb n (self_mem_pagesOf _ 0 n)
    obtain ⟨t', st, d, c, a1, a2, a3, a4, a5⟩ := climbX_leaf hE hk hsz hr hI hw hself.1 hself.2 (hd n (by simp)) hkey hroom hdiv (by omega)
    refine ⟨t', st, d, c, a1, a2, a3, a4, ?_, ?_⟩
    · rintro rfl; rcases a5 with h | h <;> cases h
    · rcases a5 with h | h
      · exact .inl h
      · exact .inr (.inr h)
  | succ h ih =>
    rintro lo hi n path t hr hI ⟨p, h1, h2, h3, h4, h5, h6⟩ ⟨p', A, k, c, B, path', g1, g2, g3, rfl⟩ hin hnd hb hd hkey hroom hdiv h64
    rw [h1] at g1; cases g1
    have hes := g2.1
    have h6' := h6
    rw [hes] at h6'
    have hfoc := kids_focus h6'
    obtain ⟨rest, hrest, -⟩ := isPath_cons g3
    have hne : path' ≠ [] := by rw [hrest]; simp
    rw [getLastD_cons hne] at hroom ⊢
    rw [dropLast_cons_reverse hne, climb_snoc]
    have hpg : pagesOf (getPage env t) (h + 1) n = n :: ((A.flatMap fun e => pagesOf (getPage env t) h e.2) ++
        (pagesOf (getPage env t) h c ++ B.flatMap fun e => pagesOf (getPage env t) h e.2)) := by
      rw [pagesOf_succ h1, hes, List.flatMap_append, List.flatMap_cons]
    have hct : contents (getPage env t) (h + 1) n = (A.flatMap fun e => contents (getPage env t) h e.2) ++
        (contents (getPage env t) h c ++ B.flatMap fun e => contents (getPage env t) h e.2) := by
      rw [contents_succ h1, hes, List.flatMap_append, List.flatMap_cons]
    have hdiv' := hdiv p A k c B h1 g2
    have hsub : ∀ x ∈ pagesOf (getPage env t) h c, x ∈ pagesOf (getPage env t) (h + 1) n := by
      intro x hx; rw [hpg]; simp only [List.mem_cons, List.mem_append]; exact .inr (.inr (.inl hx))
    have hnd' := hnd
    rw [hpg] at hnd'
    have hndc : (pagesOf (getPage env t) h c).Nodup := by
      simp only [List.nodup_cons, List.nodup_append] at hnd'
      exact hnd'.2.2.1.1
    obtain ⟨t1, st, d, c', a1, a2, a3, a4, a5, a6⟩ := ih hr hI hfoc.1 g3 (inRange_child hin g2.2.1 g2.2.2) hndc
      (fun x hx => hb x (hsub x hx)) (fun x hx => hd x (List.mem_cons_of_mem _ hx))
      (by
        intro hm; apply hkey; rw [hct, List.map_append, List.map_append, List.mem_append, List.mem_append]
        exact .inr (.inl hm)) hroom hdiv'.1 (by omega)
    rw [a1, Res.ok_bind]
    have hnb := hb n (self_mem_pagesOf _ _ n)
    have hnc : n ∉ pagesOf (getPage env t) h c := by
      simp only [List.nodup_cons, List.mem_append, not_or] at hnd'
      exact hnd'.1.2.1
    have hnp : n ∉ path' := fun hx => hnc (isPath_mem g3 n hx)
    have hsib : ∀ e, e ∈ A ∨ e ∈ B → ∀ x ∈ pagesOf (getPage env t) h e.2, getPage env t1 x = getPage env t x := by
      intro e he x hx
      have hxn : x ∈ pagesOf (getPage env t) (h + 1) n := by
        rw [hpg]; simp only [List.mem_cons, List.mem_append]
        rcases he with he | he
        · exact .inr (.inl (List.mem_flatMap.2 ⟨e, he, hx⟩))
        · exact .inr (.inr (.inr (List.mem_flatMap.2 ⟨e, he, hx⟩)))
      apply a2.view env (hb x hxn).1
      intro hxp
      have hxc := isPath_mem g3 x hxp
      simp only [List.nodup_cons, List.nodup_append, List.mem_append] at hnd'
      obtain ⟨-, -, ⟨-, -, hcb⟩, hab⟩ := hnd'
      rcases he with he | he
      · exact hab x (List.mem_flatMap.2 ⟨e, he, hx⟩) x (.inl hxc) rfl
      · exact hcb x hxc x (List.mem_flatMap.2 ⟨e, he, hx⟩) rfl
    have hsound : ∀ e ∈ entries p, Sound (getPage env t) h e.2 := by
      intro e he
      obtain ⟨l, u, hw⟩ := kids_mem h6 he
      exact wft_sound h hw
    have hsibS : ∀ e, e ∈ A ∨ e ∈ B → Sound (getPage env t1) h e.2 ∧ sight (getPage env t1) h e.2 = sight (getPage env t) h e.2 := by
      intro e he
      have hs := hsound e (by rw [hes]; rcases he with he | he <;> simp [he])
      exact ⟨sound_frame h (hsib e he) hs, sight_frame h hs (hsib e he)⟩
    have haround : Around (sight (getPage env t) h) (sight (getPage env t1) h) key A k c B :=
      page_around h5 h6 g2 fun e he => (hsibS e he).2
    have hpA := flatMap_congr' fun e he => (frame h (hsib e (.inl he))).2.1
    have hpB := flatMap_congr' fun e he => (frame h (hsib e (.inr he))).2.1
    have hr1 : t1.rdonly = false := by rw [a2.rdonly, hr]
    have hn1 : getPage env t1 n = .ok p := by rw [a2.view env hnb.1 hnp, h1]
    have hd1 : t1.getDirty n = some p := by
      rw [a2.same n hnb.1 hnp]
      obtain ⟨q, hq⟩ := hd n List.mem_cons_self
      have := getPage_dirty (env := env) hr hq
      rw [h1] at this; cases this; exact hq
    have hbl : ∀ x ∈ n :: ((A.flatMap fun e => pagesOf (getPage env t) h e.2) ++
        (pagesOf (getPage env t) h c ++ B.flatMap fun e => pagesOf (getPage env t) h e.2)), x ≤ t.newLast := by
      intro x hx; rw [← hpg] at hx; exact (hb x hx).1
    have hevo : Evo I (n :: path') t t1 := a2.mono fun x hx => List.mem_cons_of_mem _ hx
    have hsight : sight (getPage env t) (h + 1) n = node (sight (getPage env t) h) (A ++ (k, c) :: B) := by
      rw [sight_succ h1, hes]
    by_cases hst : st = .success
    · -- the child was split
      subst hst
      simp only [if_true]
      obtain ⟨⟨w1, w2, w3, w4, wH, w7, w8, -, w9⟩, -⟩ := a4 rfl
      have hdiv2 := hdiv'.2 d w9
      have hsw := nodup_swap hnd' w7 (fun x hx => (w8 x hx).imp id And.left) hbl
      -- where the new separator goes
      have hkeys : keys p = A.map Prod.fst ++ k :: B.map Prod.fst := by
        rw [keys_eq_entries, hes]; simp
      have hs5 := h5
      rw [hkeys, sorted_append, sorted_cons] at hs5
      obtain ⟨s1, ⟨s2, s3⟩, s4⟩ := hs5
      have hBd0 : ∀ b ∈ B, d < b.1 := by
        intro b hb
        match B, hb, w4, s3 with
        | (k', x) :: B, hb, w4, s3 =>
          have hdk : d < k' := w4 k' rfl
          rcases List.mem_cons.1 hb with rfl | hb
          · exact hdk
          · rw [List.map_cons, sorted_cons] at s3
            exact blt_trans hdk (s3.1 b.1 (List.mem_map_of_mem hb))
      have hplace : (k < d) ∨ (A = [] ∧ d < k) := by
        by_cases hA : A = []
        · have hne := hdiv2.1 hA
          rcases blt_total d k with hx | hx | hx
          · exact .inr ⟨hA, hx⟩
          · exact absurd hx hne
          · exact .inl hx
        · unfold loOf at w3; rw [if_neg hA] at w3; exact .inl (gtLo_some.1 w3)
      obtain ⟨A', B', hsplit, hE'p, hAd0, hBd1, hnorm, hswap⟩ : ∃ A' B', A ++ (k, c) :: B = A' ++ B' ∧
          (A' ++ (d, c') :: B').Perm (A ++ (k, c) :: (d, c') :: B) ∧
          (∀ a ∈ A', a.1 < d) ∧ (∀ b ∈ B', d < b.1) ∧
          (k < d → A' = A ++ [(k, c)] ∧ B' = B) ∧ (d < k → A' = [] ∧ B' = (k, c) :: B) := by
        rcases hplace with hx | ⟨rfl, hx⟩
        · refine ⟨A ++ [(k, c)], B, by simp, by simp, ?_, hBd0, fun _ => ⟨rfl, rfl⟩, fun hh => absurd (blt_trans hx hh) (blt_irrefl _)⟩
          intro a ha
          rcases List.mem_append.1 ha with ha | ha
          · exact blt_trans (s4 a.1 (List.mem_map_of_mem ha) k List.mem_cons_self) hx
          · simp only [List.mem_singleton] at ha; subst ha; exact hx
        · refine ⟨[], (k, c) :: B, rfl, List.Perm.swap _ _ _, by simp, ?_, fun hh => absurd (blt_trans hx hh) (blt_irrefl _), fun _ => ⟨rfl, rfl⟩⟩
          intro b hb
          rcases List.mem_cons.1 hb with rfl | hb
          · exact hx
          · exact hBd0 b hb
      have hpE : ((A' ++ (d, c') :: B').flatMap (fun e => pagesOf (getPage env t1) h e.2)).Perm
          ((A.flatMap fun e => pagesOf (getPage env t) h e.2) ++ ((pagesOf (getPage env t1) h c ++ pagesOf (getPage env t1) h c') ++
            B.flatMap fun e => pagesOf (getPage env t) h e.2)) := by
        refine (hE'p.flatMap_right _).trans ?_
        rw [List.flatMap_append, List.flatMap_cons, List.flatMap_cons, hpA, hpB]
        simp
      have hsw' : (n :: (A' ++ (d, c') :: B').flatMap (fun e => pagesOf (getPage env t1) h e.2)).Nodup :=
        (hpE.cons n).nodup_iff.2 hsw.1
      have hnE : n ∉ (A' ++ (d, c') :: B').flatMap (fun e => pagesOf (getPage env t1) h e.2) := (List.nodup_cons.1 hsw').1
      have hpgE : ∀ x ∈ (A' ++ (d, c') :: B').flatMap (fun e => pagesOf (getPage env t1) h e.2),
          x ∈ pagesOf (getPage env t) (h + 1) n ∨ (t.newLast < x ∧ x ≤ t1.newLast) := by
        intro x hx
        have hx := hpE.mem_iff.1 hx
        rw [hpg]
        simp only [List.mem_append, List.mem_cons] at hx ⊢
        rcases hx with hx | hx | hx
        · exact .inl (.inr (.inl hx))
        · rcases w8 x (List.mem_append.2 hx) with hx | hx
          · exact .inl (.inr (.inr (.inl hx)))
          · exact .inr hx
        · exact .inl (.inr (.inr (.inr hx)))
      have hsE : ∀ e ∈ A' ++ (d, c') :: B', Sound (getPage env t1) h e.2 := by
        intro e he
        have he := hE'p.mem_iff.1 he
        simp only [List.mem_append, List.mem_cons] at he
        rcases he with he | rfl | rfl | he
        · exact (hsibS e (.inl he)).1
        · exact w1
        · exact w2
        · exact (hsibS e (.inr he)).1
      -- the new separator in the page
      have hitems : items p = A'.map (fun e => Item.branch e.1 e.2) ++ B'.map fun e => Item.branch e.1 e.2 := by
        rw [items_branch h4, hes, hsplit]; simp
      have hAd : ∀ a ∈ A'.map (fun e => Item.branch e.1 e.2), a.key < d := by
        intro a ha; obtain ⟨e, he, rfl⟩ := List.mem_map.1 ha; exact hAd0 e he
      have hBd : ∀ b ∈ B'.map (fun e => Item.branch e.1 e.2), d < b.key := by
        intro b hb; obtain ⟨e, he, rfl⟩ := List.mem_map.1 hb; exact hBd1 e he
      have hdl : d.length + 10 < 65536 := by
        have := overflow_key_small hfoc.1 w9; omega
      have hc64 : c' < 2 ^ 64 := by
        rcases w8 c' (List.mem_append_right _ (self_mem_pagesOf _ h c')) with hx | hx
        · have := (hb c' (hsub c' hx)).1; omega
        · omega
      have hprobe := probe_at h3 h5 (key := d) (by omega) hitems hAd hBd
      have hagree : ∀ t2 : Txn, t2.rdonly = false → (∀ x ≤ t1.newLast, x ≠ n → t2.getDirty x = t1.getDirty x) →
          ∀ x ∈ (A' ++ (d, c') :: B').flatMap (fun e => pagesOf (getPage env t1) h e.2), getPage env t2 x = getPage env t1 x := by
        intro t2 hr2 hsame x hx
        unfold getPage
        rw [hr2, hr1, hsame x _ (fun hxn => hnE (hxn ▸ hx))]
        rcases hpgE x hx with hx | hx
        · have := (hb x hx).1; have := a2.last; omega
        · exact hx.2
      have hagree2 : ∀ t2 : Txn, t2.rdonly = false → (∀ x ≤ t1.newLast, x ≠ n → t2.getDirty x = t1.getDirty x) →
          ∀ e ∈ A' ++ (d, c') :: B', Sound (getPage env t2) h e.2 ∧ sight (getPage env t1) h e.2 = sight (getPage env t2) h e.2 ∧
            pagesOf (getPage env t2) h e.2 = pagesOf (getPage env t1) h e.2 := by
        intro t2 hr2 hsame e he
        have hag : ∀ x ∈ pagesOf (getPage env t1) h e.2, getPage env t2 x = getPage env t1 x :=
          fun x hx => hagree t2 hr2 hsame x (List.mem_flatMap.2 ⟨e, he, hx⟩)
        exact ⟨sound_frame h hag (hsE e he), (sight_frame h (hsE e he) hag).symm, (frame h hag).2.1⟩
      -- what the page finds with all its entries, the middle apart
      have hwhole : Whole (node (sight (getPage env t1) h) (A' ++ (d, c') :: B')) (upd (sight (getPage env t) (h + 1) n) key val)
          (fun x => Joins A k B x ∧ (Unreached (getPage env t) key (4 + key.length + val.length) h c x ∨
            ((A = [] ∧ d < k ∧ (¬ x < k ∨ (x < d ∧ ¬ Stray (getPage env t) key (4 + key.length + val.length) h c x))) ∨
             ((A = [] → k < d) ∧ Stray (getPage env t) key (4 + key.length + val.length) h c x)))) := by
        rw [hsight]
        rcases hplace with hx | ⟨hA0, hx⟩
        · obtain ⟨rfl, rfl⟩ := hnorm hx
          have := haround.two wH hBd0
          rw [List.append_assoc, List.singleton_append]
          refine this.congr fun x => ?_
          have hx' : ¬ d < k := blt_asymm hx
          constructor
          · rintro ⟨q1, q2 | q2⟩
            · exact ⟨q1, .inl q2⟩
            · exact ⟨q1, .inr (.inr ⟨fun _ => hx, q2⟩)⟩
          · rintro ⟨q1, q2 | q2 | q2⟩
            · exact ⟨q1, .inl q2⟩
            · exact absurd q2.2.1 hx'
            · exact ⟨q1, .inr q2.2⟩
        · obtain ⟨rfl, rfl⟩ := hswap hx
          subst hA0
          have := haround.swap wH hBd0 hx
          refine this.congr fun x => ?_
          have hx' : ¬ k < d := blt_asymm hx
          constructor
          · rintro ⟨q1, q2 | q2⟩
            · exact ⟨q1, .inl q2⟩
            · exact ⟨q1, .inr (.inl ⟨rfl, hx, q2⟩)⟩
          · rintro ⟨q1, q2 | q2 | q2⟩
            · exact ⟨q1, .inl q2⟩
            · exact ⟨q1, .inr q2.2.2⟩
            · exact absurd (q2.1 rfl) hx'
      have hunr : ∀ x, ¬ (k < d ∧ OnMiddle p A d) →
          ((Joins A k B x ∧ (Unreached (getPage env t) key (4 + key.length + val.length) h c x ∨
            ((A = [] ∧ d < k ∧ (¬ x < k ∨ (x < d ∧ ¬ Stray (getPage env t) key (4 + key.length + val.length) h c x))) ∨
             ((A = [] → k < d) ∧ Stray (getPage env t) key (4 + key.length + val.length) h c x)))) ↔
          Unreached (getPage env t) key (4 + key.length + val.length) (h + 1) n x) := by
        intro x hnm
        have hkd : (A = [] → k < d) → k < d := by
          intro hh
          rcases hplace with hx | ⟨hA, hx⟩
          · exact hx
          · exact hh hA
        rw [unreached_succ h1 g2]
        constructor
        · rintro ⟨q1, q2 | q2 | q2⟩
          · exact ⟨q1, .inl q2⟩
          · exact ⟨q1, .inr ⟨d, w9, .inl q2⟩⟩
          · exact ⟨q1, .inr ⟨d, w9, .inr ⟨q2.1, fun hm => hnm ⟨hkd q2.1, hm⟩, q2.2⟩⟩⟩
        · rintro ⟨q1, q2 | ⟨d', q2, q3⟩⟩
          · exact ⟨q1, .inl q2⟩
          · have := overflow_unique h w9 q2; subst this
            rcases q3 with q3 | q3
            · exact ⟨q1, .inr (.inl q3)⟩
            · exact ⟨q1, .inr (.inr ⟨q3.1, q3.2.2⟩)⟩
      have hlenA' : k < d → A'.length = A.length + 1 := by
        intro hx; rw [(hnorm hx).1]; simp
      rcases insert_at h3 hitems (it := .branch d c') (by rw [h4]; rfl) (by simp only [Item.size]; omega) (by simpa [Item.child] using hc64) with
        ⟨b1, b2⟩ | ⟨b1, q, b2, b3, b4, b5, b6, b7⟩
      · -- this page is split too
        have hroomp : room p < d.length + 12 := by simp only [Item.size] at b1; omega
        have h2k := hdiv2.2 hroomp
        obtain ⟨s, t2, st2, t3, c1, c2, c3, c4, c5, c6, c7, c8⟩ := splitAll_spec hE a2.inv (by have := a2.last; omega) hnb.2 hd1 h2 h3 h5 (by omega)
          hitems (it := .branch d c') hAd hBd (by rw [h4]; rfl) (by simp only [Item.size]; omega) (by simpa [Item.child] using hc64)
          (by show d.length < 65536; omega) h2k
        rw [h4] at c1
        have hprop : propagate al [n] t1 d c' = .ok (t3, (if st2 = .success then (.success, s.divider, s.no) else (st2, d, c'))) := by
          rw [propagate]
          simp only [hd1]
          rw [hprobe, Res.ok_bind]
          simp only [Found.idx]
          rw [b2, Res.ok_bind]
          simp only
          rw [c1, Res.ok_bind]
          simp only
          rw [c2, Res.ok_bind]
          rcases c7 with rfl | rfl
          · rfl
          · rfl
        have hev3 : Evo I (n :: path') t t3 := a2.trans c5 (fun x hx => List.mem_cons_of_mem _ hx) (by simp)
        rcases c7 with rfl | rfl
        · refine ⟨t3, .success, s.divider, s.no, hprop, hev3, by omega, ?_, (by intro hh; cases hh), .inl rfl⟩
          intro _
          obtain ⟨L, R, D, d1, d2, d3, d4, d5, d6, d7, d8, d9⟩ := c8 rfl
          have hr3 : t3.rdonly = false := by rw [hev3.rdonly, hr]
          have gL := getPage_dirty (env := env) hr3 d1
          have gR := getPage_dirty (env := env) hr3 d2
          have hag3 := hagree2 t3 hr3 (fun x hx hxn => c5.same x hx (by simpa using hxn))
          have hLR : items L ++ items R = A'.map (fun e => Item.branch e.1 e.2) ++ .branch d c' :: B'.map fun e => Item.branch e.1 e.2 := by
            rcases d9 with ⟨-, B1, B2, x1, x2, x3⟩ | ⟨-, A1, A2, x1, x2, x3⟩ | ⟨-, B2, x1, x2, x3⟩
            · rw [x2, x3, x1]; simp
            · rw [x2, x3, x1]; simp
            · rw [x2, x3]
          have hLRe : entries L ++ entries R = A' ++ (d, c') :: B' := by
            rw [entries_eq_of_items hLR, entries_map_inv, entries_map_inv]; simp [Item.key, Item.child]
          have hLne : entries L ≠ [] := by
            unfold entries; intro hh; exact d7 (List.map_eq_nil_iff.1 hh)
          have hRne : entries R ≠ [] := by
            intro hh
            have : items R = [] := List.map_eq_nil_iff.1 hh
            rcases d9 with ⟨-, B1, B2, x1, x2, x3⟩ | ⟨-, A1, A2, x1, x2, x3⟩ | ⟨-, B2, x1, x2, x3⟩ <;> (rw [this] at x3; cases x3)
          have hsort := sorted_mid h5 hitems (it := .branch d c') hAd hBd
          have hsort0 := hsort
          rw [← hLR, List.map_append, sorted_append] at hsort
          obtain ⟨sL, sR, sLR⟩ := hsort
          have hnodeL : node (sight (getPage env t3) h) (entries L) = node (sight (getPage env t1) h) (entries L) :=
            node_congr hLne fun e he => (hag3 e (by rw [← hLRe]; exact List.mem_append_left _ he)).2.1.symm
          have hnodeR : node (sight (getPage env t3) h) (entries R) = node (sight (getPage env t1) h) (entries R) :=
            node_congr hRne fun e he => (hag3 e (by rw [← hLRe]; exact List.mem_append_right _ he)).2.1.symm
          -- the divider among the keys
          have hlenk : (keys p).length = numKeys p := by unfold keys; rw [List.length_map, items_length]
          have hmidk : (keys p)[numKeys p / 2]'(by omega) = s.divider := by
            have := List.getElem?_eq_getElem (l := keys p) (i := numKeys p / 2) (by omega)
            rw [this] at c6; exact Option.some.inj c6
          have hfirst : (keys p)[0]'(by omega) < s.divider := by
            have := List.pairwise_iff_getElem.1 h5 0 (numKeys p / 2) (by omega) (by omega) (by omega)
            rw [hmidk] at this; exact this
          have hent : ∃ X c0 Y, A ++ (k, c) :: B = X ++ (s.divider, c0) :: Y ∧ X ≠ [] := by
            have hlene : (entries p).length = numKeys p := by unfold entries; rw [List.length_map, items_length]
            refine ⟨(entries p).take (numKeys p / 2), ((entries p)[numKeys p / 2]'(by omega)).2, (entries p).drop (numKeys p / 2 + 1), ?_, ?_⟩
            · rw [← hes]
              have e1 : (s.divider, ((entries p)[numKeys p / 2]'(by omega)).2) = (entries p)[numKeys p / 2]'(by omega) := by
                have : ((entries p)[numKeys p / 2]'(by omega)).1 = s.divider := by
                  rw [← hmidk]; simp [keys_eq_entries]
                rw [← this]
              rw [e1, ← List.drop_eq_getElem_cons, List.take_append_drop]
            · intro hh
              have := congrArg List.length hh
              rw [List.length_take] at this
              simp at this; omega
          obtain ⟨X0, c0, Y0, hX0, hX0ne⟩ := hent
          have hgtlt : GtLo lo s.divider ∧ LtHi hi s.divider := by
            rw [hX0] at h6'
            exact (kids_split hX0ne h6').2.2
          have hk0 : ∀ hA : A = [], k < s.divider := by
            intro hA
            have : (keys p)[0]'(by omega) = k := by simp only [hkeys, hA]; rfl
            rw [← this]; exact hfirst
          -- the lookup in the halves
          have hhalves : Halves (node (sight (getPage env t1) h) (entries L)) (node (sight (getPage env t1) h) (entries R))
              (upd (sight (getPage env t) (h + 1) n) key val) s.divider
              (Unreached (getPage env t) key (4 + key.length + val.length) (h + 1) n)
              (Stray (getPage env t) key (4 + key.length + val.length) (h + 1) n) := by
            have hent' : ∀ {q : Page} {l : List (Bytes × Nat)}, items q = l.map (fun e => Item.branch e.1 e.2) → entries q = l := by
              intro q l hq; unfold entries; rw [hq]; exact entries_map_inv l
            have hnostray : ¬ (k < d ∧ OnMiddle p A d) → ∀ x, False ↔ Stray (getPage env t) key (4 + key.length + val.length) (h + 1) n x := by
              intro hnm x
              rw [stray_succ h1 g2 w9]
              refine ⟨fun hh => hh.elim, fun hh => ?_⟩
              rcases hplace with hx | ⟨hA, hx⟩
              · exact hnm ⟨hx, hh.2.2.1⟩
              · exact absurd (hh.2.1 hA) (blt_asymm hx)
            have hsE' : Sorted ((A' ++ (d, c') :: B').map Prod.fst) := by
              have : (A' ++ (d, c') :: B').map Prod.fst = (A'.map (fun e => Item.branch e.1 e.2) ++ Item.branch d c' :: B'.map (fun e => Item.branch e.1 e.2)).map Item.key := by
                simp [List.map_map, Function.comp_def, Item.key]
              rw [this]; exact hsort0
            rcases d9 with ⟨hnm, B1, B2, x1, x2, x3⟩ | ⟨hnm, A1, A2, x1, x2, x3⟩ | ⟨hm, B2, x1, x2, x3⟩
            · -- behind the new separator
              rw [List.map_eq_append_iff] at x1
              obtain ⟨l1, l2', y1, y2, y3⟩ := x1
              rw [List.map_eq_cons_iff] at y3
              obtain ⟨De, l2, rfl, y4, y5⟩ := y3
              have hDk : De.1 = s.divider := by rw [← d8, ← y4]; rfl
              have eL : entries L = A' ++ (d, c') :: l1 := hent' (by rw [x2, ← y2]; simp)
              have eR : entries R = De :: l2 := hent' (by rw [x3, ← y4, ← y5]; simp)
              have hnm' : ¬ (k < d ∧ OnMiddle p A d) := by
                rintro ⟨hx, hm⟩
                apply hnm
                rw [List.length_map, hlenA' hx]; exact hm.2
              have hw := hwhole
              rw [y1] at hw hsE'
              have ee : A' ++ (d, c') :: (l1 ++ De :: l2) = (A' ++ (d, c') :: l1) ++ De :: l2 := by simp
              rw [ee] at hw hsE'
              have hcut := hw.cut (by simp) hsE' ?_ ?_
              · rw [eL, eR, ← hDk]
                exact hcut.congr (fun x => hunr x hnm') (hnostray hnm')
              · intro e he x hx
                rcases hplace with hxx | ⟨hA0, hxx⟩
                · obtain ⟨e1, e2⟩ := hnorm hxx
                  subst e1
                  rw [y1] at e2; subst e2
                  exact haround.cut_lt wH (by simpa using he) hx
                · obtain ⟨e1, e2⟩ := hswap hxx
                  subst e1
                  rw [y1] at e2
                  cases l1 with
                  | nil =>
                    exfalso
                    simp only [List.nil_append, List.cons.injEq] at e2
                    have := hk0 hA0
                    rw [← hDk, e2.1] at this
                    exact blt_irrefl _ this
                  | cons a l1 =>
                    simp only [List.cons_append, List.cons.injEq] at e2
                    obtain ⟨e3, e4⟩ := e2
                    subst e3 e4 hA0
                    refine haround.cut_lt wH ?_ hx
                    simp only [List.nil_append, List.mem_cons] at he ⊢
                    rcases he with he | he | he
                    · exact .inr (.inl he)
                    · exact .inl he
                    · exact .inr (.inr he)
              · intro x hx
                rcases hplace with hxx | ⟨hA0, hxx⟩
                · obtain ⟨e1, e2⟩ := hnorm hxx
                  rw [y1] at e2; subst e2
                  exact haround.old_low wH (X := A ++ (k, c) :: l1) (D := De) (Y := l2) (by simp) (by simp) hx
                · obtain ⟨e1, e2⟩ := hswap hxx
                  rw [y1] at e2
                  cases l1 with
                  | nil =>
                    exfalso
                    simp only [List.nil_append, List.cons.injEq] at e2
                    have := hk0 hA0
                    rw [← hDk, e2.1] at this
                    exact blt_irrefl _ this
                  | cons a l1 =>
                    simp only [List.cons_append, List.cons.injEq] at e2
                    obtain ⟨e3, e4⟩ := e2
                    subst e3 e4 hA0
                    exact haround.old_low wH (X := (k, c) :: l1) (D := De) (Y := l2) rfl (by simp) hx
            · -- in front of the new separator
              rw [List.map_eq_append_iff] at x1
              obtain ⟨l1, l2', y1, y2, y3⟩ := x1
              rw [List.map_eq_cons_iff] at y3
              obtain ⟨De, l2, rfl, y4, y5⟩ := y3
              have hDk : De.1 = s.divider := by rw [← d8, ← y4]; rfl
              have eL : entries L = l1 := hent' (by rw [x2, ← y2])
              have eR : entries R = De :: (l2 ++ (d, c') :: B') := hent' (by rw [x3, ← y4, ← y5]; simp)
              have hl1 : l1 ≠ [] := by rw [← eL]; exact hLne
              have hxx : k < d := by
                rcases hplace with hxx | ⟨hA0, hxx⟩
                · exact hxx
                · exfalso
                  have := (hswap hxx).1
                  rw [this] at y1; simp at y1
              have hnm' : ¬ (k < d ∧ OnMiddle p A d) := by
                rintro ⟨hx, hm⟩
                apply hnm
                rw [List.length_map, hlenA' hx]; exact hm.2
              obtain ⟨e1, e2⟩ := hnorm hxx
              subst e2
              have hw := hwhole
              rw [y1] at hw hsE'
              have ee : (l1 ++ De :: l2) ++ (d, c') :: B' = l1 ++ De :: (l2 ++ (d, c') :: B') := by simp
              rw [ee] at hw hsE'
              have hAA : A ++ [(k, c)] = l1 ++ De :: l2 := by rw [← e1, y1]
              have hcut := hw.cut hl1 hsE' ?_ ?_
              · rw [eL, eR, ← hDk]
                exact hcut.congr (fun x => hunr x hnm') (hnostray hnm')
              · intro e he x hx
                exact haround.cut_gt hAA he hx
              · intro x hx
                refine haround.old_low wH (X := l1) (D := De) (Y := l2 ++ B') ?_ hl1 hx
                have : A ++ (k, c) :: B' = (A ++ [(k, c)]) ++ B' := by simp
                rw [this, hAA]; simp
            · -- on the middle
              rw [List.map_eq_cons_iff] at x1
              obtain ⟨De, l2, y1, y4, y5⟩ := x1
              have hDk : De.1 = s.divider := by rw [← d8, ← y4]; rfl
              have eL : entries L = A' := hent' x2
              have eR : entries R = (d, c') :: B' := hent' (by rw [x3]; simp)
              have hxx : k < d := by
                rcases hplace with hxx | ⟨hA0, hxx⟩
                · exact hxx
                · exfalso
                  have := (hswap hxx).1
                  rw [this] at eL; exact hLne eL
              obtain ⟨e1, e2⟩ := hnorm hxx
              subst e1
              rw [y1] at e2
              subst e2
              have hmid : OnMiddle p A d := ⟨hroomp, by rw [← hlenA' hxx, ← hm, List.length_map]⟩
              have hmm := haround.middle wH (hBd0 De (by simp)) hxx
              rw [eL, eR, y1, hsight, ← hDk]
              refine hmm.congr (fun x => ?_) (fun x => ?_)
              · rw [unreached_succ h1 g2]
                constructor
                · rintro ⟨q1, q2⟩; exact ⟨q1, .inl q2⟩
                · rintro ⟨q1, q2 | ⟨d', q2, q3⟩⟩
                  · exact ⟨q1, q2⟩
                  · have := overflow_unique h w9 q2; subst this
                    rcases q3 with q3 | q3
                    · exact absurd q3.2.1 (blt_asymm hxx)
                    · exact absurd hmid q3.2.1
              · rw [stray_succ h1 g2 w9]
                exact ⟨fun hh => ⟨hh.1, fun _ => hxx, hmid, hh.2⟩, fun hh => ⟨hh.1, hh.2.2.2⟩⟩
          have hpages3 : (A' ++ (d, c') :: B').flatMap (fun e => pagesOf (getPage env t3) h e.2) = (A' ++ (d, c') :: B').flatMap (fun e => pagesOf (getPage env t1) h e.2) :=
            flatMap_congr' fun e he => (hag3 e he).2.2
          rw [← hLRe, List.flatMap_append, hLRe] at hpages3
          have hpL : pagesOf (getPage env t3) (h + 1) n = n :: (entries L).flatMap fun e => pagesOf (getPage env t3) h e.2 := pagesOf_succ gL
          have hpR : pagesOf (getPage env t3) (h + 1) s.no = s.no :: (entries R).flatMap fun e => pagesOf (getPage env t3) h e.2 := pagesOf_succ gR
          have hno : ∀ x ∈ (A' ++ (d, c') :: B').flatMap (fun e => pagesOf (getPage env t1) h e.2), x ≤ t1.newLast := by
            intro x hx
            rcases hpgE x hx with hx | hx
            · have := (hb x hx).1; have := a2.last; omega
            · exact hx.2
          refine ⟨⟨⟨L, gL, d3, by rw [d5, h4], sL, hLne, fun e he => (hag3 e (by rw [← hLRe]; exact List.mem_append_left _ he)).1⟩,
            ⟨R, gR, d4, by rw [d6, h4], sR, hRne, fun e he => (hag3 e (by rw [← hLRe]; exact List.mem_append_right _ he)).1⟩,
            hgtlt.1, hgtlt.2, ?_, ?_, ?_, ⟨L, gL, d7, ?_⟩, ⟨p, A, k, c, B, d, h1, g2, w9, hroomp, c6⟩⟩, L, d1⟩
          · rw [sight_succ gL, sight_succ gR, hnodeL, hnodeR]; exact hhalves
          · have hnd3 := hsw'
            rw [← hpages3] at hnd3
            rw [hpL, hpR]
            have hno' : s.no ∉ n :: ((entries L).flatMap (fun e => pagesOf (getPage env t3) h e.2) ++ (entries R).flatMap (fun e => pagesOf (getPage env t3) h e.2)) := by
              rw [hpages3]
              intro hx
              rcases List.mem_cons.1 hx with hx | hx
              · have := a2.last; omega
              · have := hno _ hx; omega
            have hperm : (n :: (entries L).flatMap (fun e => pagesOf (getPage env t3) h e.2) ++ s.no :: (entries R).flatMap (fun e => pagesOf (getPage env t3) h e.2)).Perm
                (s.no :: (n :: ((entries L).flatMap (fun e => pagesOf (getPage env t3) h e.2) ++ (entries R).flatMap (fun e => pagesOf (getPage env t3) h e.2)))) :=
              List.perm_middle
            exact hperm.nodup_iff.2 (List.nodup_cons.2 ⟨hno', hnd3⟩)
          · intro x hx
            rw [hpL, hpR] at hx
            have hx' : x = n ∨ x = s.no ∨ x ∈ (A' ++ (d, c') :: B').flatMap (fun e => pagesOf (getPage env t1) h e.2) := by
              rw [← hpages3]
              simp only [List.mem_append, List.mem_cons] at hx ⊢
              rcases hx with (hx | hx) | hx | hx
              · exact .inl hx
              · exact .inr (.inr (.inl hx))
              · exact .inr (.inl hx)
              · exact .inr (.inr (.inr hx))
            have := a2.last
            rcases hx' with rfl | rfl | hx
            · exact .inl (self_mem_pagesOf _ _ _)
            · right; omega
            · rcases hpgE x hx with hx | hx
              · exact .inl hx
              · right; omega
          · intro k' hk'
            rcases d9 with ⟨-, B1, B2, x1, x2, x3⟩ | ⟨-, A1, A2, x1, x2, x3⟩ | ⟨-, B2, x1, x2, x3⟩
            · exact sLR k' hk' _ (by rw [x3, List.map_cons, d8]; exact List.mem_cons_self)
            · exact sLR k' hk' _ (by rw [x3, List.map_cons, d8]; exact List.mem_cons_self)
            · exact sLR k' hk' _ (by rw [x3, x1, ← d8]; simp)
        · exact ⟨t3, .nospc, d, c', hprop, hev3, by omega, (by intro hh; cases hh), (by intro hh; cases hh), .inr (.inr rfl)⟩
      · -- the page takes the separator
        have hprop : propagate al [n] t1 d c' = .ok (t1.setDirty n q, .incomplete, d, c') := by
          rw [propagate]
          simp only [hd1]
          rw [hprobe, Res.ok_bind]
          simp only [Found.idx]
          rw [b2, Res.ok_bind]
        have hr2 : (t1.setDirty n q).rdonly = false := hr1
        have hev2 := Evo.set hE a2.inv hnb.2 (Nat.le_trans hnb.1 a2.last) (b5.trans h2) b3
        refine ⟨t1.setDirty n q, .incomplete, d, c', hprop, a2.trans hev2 (fun x hx => List.mem_cons_of_mem _ hx) (by simp),
          by show t1.newLast ≤ _; omega, (by intro hh; cases hh), ?_, .inr (.inl rfl)⟩
        intro _
        have hag2 := hagree2 _ hr2 (fun x hx hxn => hev2.same x hx (by simpa using hxn))
        have gq : getPage env (t1.setDirty n q) n = .ok q := by rw [getPage_set hr1, if_pos rfl]
        have heq : entries q = A' ++ (d, c') :: B' := by
          have := entries_eq_of_items (L := q) (R := emptyPage true 0) (A := A'.map (fun e => Item.branch e.1 e.2)) (it := .branch d c')
            (B := B'.map fun e => Item.branch e.1 e.2) (by rw [b4, emptyPage_items true 0 (by decide), List.append_nil])
          rw [entries_map_inv, entries_map_inv] at this
          have he : entries (emptyPage true 0) = [] := by unfold entries; rw [emptyPage_items true 0 (by decide)]; rfl
          rw [he, List.append_nil] at this
          rw [this]; simp [Item.key, Item.child]
        have hroomp : ¬ room p < d.length + 12 := by simp only [Item.size] at b1; omega
        have hpgq : pagesOf (getPage env (t1.setDirty n q)) (h + 1) n = n :: (A' ++ (d, c') :: B').flatMap (fun e => pagesOf (getPage env t1) h e.2) := by
          rw [pagesOf_succ gq, heq, flatMap_congr' fun e he => (hag2 e he).2.2]
        refine ⟨⟨q, gq, b3, by rw [b6, h4], ?_, by rw [heq]; simp, by rw [heq]; exact fun e he => (hag2 e he).1⟩, ?_, ?_, ?_, ?_⟩
        · unfold keys; rw [b4]; exact sorted_mid h5 hitems (it := .branch d c') hAd hBd
        · rw [sight_succ gq, heq, node_congr (by simp) fun e he => (hag2 e he).2.1.symm]
          exact hwhole.congr fun x => hunr x fun hh => hroomp hh.2.1
        · rw [hpgq]; exact hsw'
        · intro x hx
          rw [hpgq] at hx
          rcases List.mem_cons.1 hx with rfl | hx
          · exact .inl (self_mem_pagesOf _ _ _)
          · exact hpgE x hx
        · rintro d2 ⟨p2, A2, k2, c2, B2, d3, z1, z2, z3, z4, -⟩
          rw [h1] at z1; cases z1
          obtain ⟨rfl, rfl, rfl, rfl⟩ := routes_all g2 z2
          have := overflow_unique h w9 z3; subst this
          exact hroomp z4
    · simp only [hst, if_false]
      refine ⟨t1, st, d, c', rfl, hevo, by omega, fun hh => absurd hh hst, ?_, a6⟩
      intro hh
      obtain ⟨w1, w5, w7, w8, w9⟩ := a5 hh
      have hsw := nodup_swap hnd' w7 (fun x hx => (w8 x hx).imp id And.left) hbl
      have hpn : pagesOf (getPage env t1) (h + 1) n = n :: ((A.flatMap fun e => pagesOf (getPage env t) h e.2) ++
          (pagesOf (getPage env t1) h c ++ B.flatMap fun e => pagesOf (getPage env t) h e.2)) := by
        rw [pagesOf_succ hn1, hes, List.flatMap_append, List.flatMap_cons, hpA, hpB]
      refine ⟨⟨p, hn1, h3, h4, h5, by rw [hes]; simp, ?_⟩, ?_, ?_, ?_, ?_⟩
      · rw [hes]
        intro e he
        simp only [List.mem_append, List.mem_cons] at he
        rcases he with he | rfl | he
        · exact (hsibS e (.inl he)).1
        · exact w1
        · exact (hsibS e (.inr he)).1
      · rw [sight_succ hn1, hes, hsight]
        refine (haround.one w5).congr fun x => ?_
        rw [unreached_succ h1 g2]
        constructor
        · rintro ⟨q1, q2⟩; exact ⟨q1, .inl q2⟩
        · rintro ⟨q1, q2 | ⟨d', q2, -⟩⟩
          · exact ⟨q1, q2⟩
          · exact absurd q2 (w9 d')
      · rw [hpn]; exact hsw.1
      · rw [hpn, hpg]
        intro x hx
        simp only [List.mem_append, List.mem_cons] at hx ⊢
        rcases hx with hx | hx | hx | hx
        · exact .inl (.inl hx)
        · exact .inl (.inr (.inl hx))
        · rcases w8 x hx with hx | hx
          · exact .inl (.inr (.inr (.inl hx)))
          · exact .inr hx
        · exact .inl (.inr (.inr (.inr hx)))
      · rintro d2 ⟨p2, A2, k2, c2, B2, d3, z1, z2, z3, z4, -⟩
        rw [h1] at z1; cases z1
        obtain ⟨rfl, rfl, rfl, rfl⟩ := routes_all g2 z2
        exact w9 d3 z3

end Verif.Db
