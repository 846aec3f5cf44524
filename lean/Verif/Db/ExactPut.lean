import Verif.Db.ExactUp
import Verif.Db.Props

/-!
# Helper lemmas: a whole insertion, with all that goes wrong
-/

namespace Verif.Db

open Verif.Page

/-- If the pair fits the leaf, nothing is split and nothing is lost. -/
theorem fits_nothing {g : View} {key : Bytes} {size : Nat} (h : Nat) :
    ∀ {n : Nat} {path : List Nat}, IsPath g key h n path →
    (∀ p, g (path.getLastD 0) = .ok p → ¬ room p < size + 2) →
    SplitSafe g key size h n ∧ (∀ d, ¬ Overflows g key size h n d) ∧ (∀ x, ¬ Unreached g key size h n x) ∧
      ∀ x, ¬ Stray g key size h n x := by
  induction h with
  | zero =>
    intro n path hp hf
    have hp' : path = [n] := hp
    subst hp'
    have hf : ∀ p, g n = .ok p → ¬ room p < size + 2 := hf
    refine ⟨fun p hp hr => absurd hr (hf p hp), ?_, fun x hx => hx, ?_⟩
    · rintro d ⟨p, hp, hr, -⟩; exact hf p hp hr
    · rintro x ⟨-, p, hp, hr, -⟩; exact hf p hp hr
  | succ h ih =>
    rintro n path ⟨p, A, k, c, B, path', h1, h2, h3, rfl⟩ hf
    obtain ⟨rest, hrest, -⟩ := isPath_cons h3
    have hne : path' ≠ [] := by rw [hrest]; simp
    rw [getLastD_cons hne] at hf
    obtain ⟨a1, a2, a3, a4⟩ := ih h3 hf
    refine ⟨?_, ?_, ?_, ?_⟩
    · intro q A' k' c' B' hq hr
      rw [h1] at hq; cases hq
      obtain ⟨rfl, rfl, rfl, rfl⟩ := routes_all h2 hr
      exact ⟨a1, fun d hd => absurd hd (a2 d)⟩
    · rintro d ⟨q, A', k', c', B', d', hq, hr, ho, -⟩
      rw [h1] at hq; cases hq
      obtain ⟨rfl, rfl, rfl, rfl⟩ := routes_all h2 hr
      exact a2 d' ho
    · rintro x ⟨q, A', k', c', B', hq, hr, -, hu⟩
      rw [h1] at hq; cases hq
      obtain ⟨rfl, rfl, rfl, rfl⟩ := routes_all h2 hr
      rcases hu with hu | ⟨d, hd, -⟩
      · exact a3 x hu
      · exact a2 d hd
    · rintro x ⟨q, A', k', c', B', d', hq, hr, -, ho, -⟩
      rw [h1] at hq; cases hq
      obtain ⟨rfl, rfl, rfl, rfl⟩ := routes_all h2 hr
      exact a2 d' ho

/-- What a search finds after an insertion. -/
structure Stored (env : Env) (t t' : Txn) (h h' : Nat) (l : List (Bytes × Bytes)) (key val : Bytes) : Prop where
  height : h' ≤ h + 1
  root : t'.root ≠ 0
  sound : Sound (getPage env t') h' t'.root
  whole : Whole (sight (getPage env t') h' t'.root) (upd (fun x => l.lookup x) key val) fun x =>
    t.root ≠ 0 ∧ (Unreached (getPage env t) key (4 + key.length + val.length) h t.root x ∨
      Stray (getPage env t) key (4 + key.length + val.length) h t.root x)

theorem stored_of_inserted {I : Txn → Prop} {env : Env} {t t' : Txn} {h h' : Nat} {l : List (Bytes × Bytes)} {key val : Bytes}
    (hs : Ascending l) (hins : Inserted I env t t' h h' l key val)
    (hno : t.root ≠ 0 → ∀ x, ¬ (Unreached (getPage env t) key (4 + key.length + val.length) h t.root x ∨
      Stray (getPage env t) key (4 + key.length + val.length) h t.root x)) :
    Stored env t t' h h' l key val := by
  refine ⟨hins.height, hins.root, wft_sound h' hins.tree.wft, fun x => ⟨fun hx => absurd hx.2 (hno hx.1 x), fun _ => ?_⟩⟩
  rw [sight_contents h' hins.tree.wft (inRange_none x)]
  obtain ⟨X, Y, e1, e2⟩ := hins.ins
  have hh' : Holds env t' h' (X ++ (key, val) :: Y) := .inr ⟨hins.root, hins.tree, e2⟩
  rw [e2, lookup_mid (holds_sorted hh'), ← e1]
  rfl

/-- Inserting a key that is not stored, with all that goes wrong. -/
theorem put_stored {al : Alloc} {F : List Nat} {I : Txn → Prop} (hE : Ext al F I) {env : Env} {t : Txn} {h : Nat}
    {l : List (Bytes × Bytes)} {key val : Bytes} (hk : key.length < 65536) (hsz : 4 + key.length + val.length < 65536)
    (hr : t.rdonly = false) (hI : I t) (hh : Holds env t h l) (hkey : key ∉ l.map Prod.fst)
    (hF : t.root ≠ 0 → ∀ x ∈ pagesOf (getPage env t) h t.root, x ∉ F) (hd : h < maxDepth)
    (hdiv : t.root ≠ 0 → Divisible (getPage env t) key (4 + key.length + val.length) h t.root)
    (h64 : t.newLast + h + 2 < 2 ^ 64) :
    ∃ st t', putWith al env t key val = .ok (st, t') ∧ (st = .success ∨ st = .nospc) ∧
      (st = .success → ∃ h', Stored env t t' h h' l key val) := by
  have hh0 := hh
  rcases hh with ⟨h0, rfl⟩ | ⟨h0, ht, rfl⟩
  · obtain ⟨st, t', a1, a2, a3⟩ := put_absent hE (env := env) hk hsz hr hI hh0 hkey hF hd (fun hn => absurd h0 hn) h64
    refine ⟨st, t', a1, a2, fun hs => ?_⟩
    obtain ⟨h', a3⟩ := a3 hs
    exact ⟨h', stored_of_inserted (holds_sorted hh0) a3 fun hn => absurd h0 hn⟩
  · have hF' := hF h0
    have hdiv := hdiv h0
    obtain ⟨path, p1, p2⟩ := findPath_spec hk h ht.wft hd (by
      intro x hx; unfold maxPgno; simpa [hr] using (ht.bound x hx).2)
    obtain ⟨lo', hi', p, A, B, i1, i2, i3, i4, i5, i6, i7⟩ := leaf_focus h ht.wft p1 (inRange_none key)
    by_cases hroom : room p < 4 + key.length + val.length + 2
    rotate_left
    · obtain ⟨n1, n2, n3, n4⟩ := fits_nothing h p1 (size := 4 + key.length + val.length) (by
        intro p' hp'; rw [i1] at hp'; cases hp'; exact hroom)
      obtain ⟨st, t', a1, a2, a3⟩ := put_absent hE (env := env) hk hsz hr hI hh0 hkey hF hd (fun _ => n1) h64
      refine ⟨st, t', a1, a2, fun hs => ?_⟩
      obtain ⟨h', a3⟩ := a3 hs
      exact ⟨h', stored_of_inserted (holds_sorted hh0) a3 fun _ x hx => hx.elim (n3 x) (n4 x)⟩
    obtain ⟨q, j1, j2, j3, j4, j5, j6⟩ := i2
    rw [i1] at j1; cases j1
    have hne : path ≠ [] := by
      obtain ⟨rest, hr, -⟩ := isPath_cons p1; rw [hr]; simp
    have hlm : path.getLastD 0 ∈ pagesOf (getPage env t) h t.root := isPath_mem p1 _ (getLastD_mem hne)
    have hkp : key ∉ keys p := by
      intro hm; apply hkey; rw [i4, List.map_append, List.map_append, ← keys_eq_kvs]
      exact List.mem_append_left _ (List.mem_append_right _ hm)
    obtain ⟨f, hf, A', B', hA, hB, hsp⟩ := probe_spec j3 j5 hk
    have hsp' : items p = A' ++ B' ∧ f = .notFound A'.length := by
      rcases hsp with ⟨it, e1, e2, -⟩ | hx
      · exfalso; apply hkp; unfold keys; rw [e1]; simp [e2]
      · exact hx
    obtain ⟨hit, rfl⟩ := hsp'
    obtain ⟨t1, c1, c2, c3, c4⟩ := cowPath_spec (env := env) hr hne (by
      intro n hn
      exact wft_pages h ht.wft n (isPath_mem p1 n hn))
    have hI1 : I t1 := c4 F I hE.set (fun t x _ h => hE.freed t _ h) (fun x hx => ⟨hF' x (isPath_mem p1 x hx), (ht.bound x (isPath_mem p1 x hx)).2⟩) hI
    have hr1 : t1.rdonly = false := by rw [c2.rdonly, hr]
    have hd1 : t1.getDirty (path.getLastD 0) = some p := by
      obtain ⟨p', hp'⟩ := c3 _ (getLastD_mem hne)
      have : getPage env t1 (path.getLastD 0) = .ok p' := getPage_dirty hr1 hp'
      rw [c2.view, i1] at this; cases this; exact hp'
    let t2 := t1.setDirty (path.getLastD 0) p
    have hr2 : t2.rdonly = false := hr1
    have hI2 : I t2 := hE.set _ _ _ hI1 (hF' _ hlm) j2 j3 (by rw [c2.newLast]; exact (ht.bound _ hlm).2)
    have hd2 : ∀ x, t2.getDirty x = t1.getDirty x := by
      intro x
      show (t1.setDirty (path.getLastD 0) p).getDirty x = _
      rw [getDirty_set]; split
      · rename_i hx; rw [hx, hd1]
      · rfl
    have hv2 : getPage env t2 = getPage env t := by
      funext x
      rw [← c2.view x]
      unfold getPage; rw [hd2 x]; rfl
    have hput : putWith al env t key val = (insert p A'.length (.leaf key val) >>= fun r =>
        match r.1 with
        | .ok => .ok (.success, t2.setDirty (path.getLastD 0) r.2)
        | .inval => .ok (.inval, t2)
        | .nospc => (pageSplit al t2 (path.getLastD 0) path key val >>= fun r => .ok (withRoot r))) := by
      unfold putWith
      rw [if_neg (by simp [hr]), if_neg h0, p2, Res.ok_bind]
      simp only []
      rw [i1, Res.ok_bind, hf, Res.ok_bind]
      simp only [Found.hit, Bool.false_and, Bool.false_eq_true, if_false]
      rw [c1, Res.ok_bind]
      simp only [hd1, Res.ofOption_some, Res.ok_bind, if_true, Found.idx]
      rfl
    rw [hput]
    have hroot2 : t2.root = t.root := c2.root
    have hlast2 : t2.newLast = t.newLast := c2.newLast
    rcases insert_at j3 hit (it := .leaf key val) (by rw [j4]; rfl) (by simpa [Item.size] using hsz) (by simp [Item.child]) with
      ⟨b1, b2⟩ | ⟨b1, q, b2, b3, b4, b5, b6, b7⟩
    rotate_left
    · exfalso; simp only [Item.size] at b1; omega
    have hhead : path.headD 0 = t.root := by
      obtain ⟨rest, hr, -⟩ := isPath_cons p1; rw [hr]; rfl
    obtain ⟨t3, st, d, c, e1, e2, e3, e4, e5, e6⟩ := climbX_spec hE (env := env) hk hsz h (t := t2) (n := t.root) (path := path)
      (lo := none) (hi := none) hr2 hI2 (by rw [hv2]; exact ht.wft) (by rw [hv2]; exact p1) (inRange_none key)
      (by rw [hv2]; exact ht.nodup)
      (by rw [hv2, hlast2]; intro x hx; exact ⟨(ht.bound x hx).2, hF' x hx⟩)
      (by intro x hx; rw [hd2]; exact c3 x hx) (by rw [hv2]; exact hkey)
      (by rw [hv2, i1]; intro p' hp'; cases hp'; simpa [Item.size] using b1)
      (by rw [hv2]; exact hdiv) (by omega)
    have hps := pageSplit_climb e1
    rw [hhead] at hps
    rw [b2, Res.ok_bind]
    simp only []
    rw [hps]
    rw [hv2, hlast2] at e4 e5
    have hr3 : t3.rdonly = false := by rw [e2.rdonly, hr2]
    have hsight : sight (getPage env t) h t.root = fun x => (contents (getPage env t) h t.root).lookup x :=
      funext fun x => sight_contents h ht.wft (inRange_none x)
    by_cases hinc : st = .incomplete
    · simp only [hinc, if_true, Res.ok_bind]
      refine ⟨.success, { t3 with root := t.root }, rfl, .inl rfl, fun _ => ⟨h, ?_⟩⟩
      have hone := e5 hinc
      have hv3 : getPage env { t3 with root := t.root } = getPage env t3 := rfl
      refine ⟨by omega, h0, hone.sound, ?_⟩
      show Whole (sight (getPage env t3) h t.root) _ _
      rw [← hsight]
      refine hone.whole.congr fun x => ⟨fun hx => ⟨h0, .inl hx⟩, fun hx => ?_⟩
      rcases hx.2 with hx | hx
      · exact hx
      · exfalso
        have hpos : ∃ p, getPage env t t.root = .ok p ∧ (numKeys p = 0 → h = 0) := by
          cases h with
          | zero =>
            obtain ⟨p, hp, -⟩ := ht.wft
            exact ⟨p, hp, fun _ => rfl⟩
          | succ h =>
            obtain ⟨p, A, k, c, B, path', g1, g2, -⟩ := p1
            refine ⟨p, g1, fun hz => ?_⟩
            have := congrArg List.length g2.1
            unfold entries at this
            rw [List.length_map, items_length] at this
            simp at this; omega
        obtain ⟨pr, hpr, hz⟩ := hpos
        by_cases hz0 : numKeys pr = 0
        · have := hz hz0; subst this
          have hpr' : path = [t.root] := p1
          subst hpr'
          have hpp : pr = p := by
            have : getPage env t t.root = .ok p := i1
            rw [hpr] at this; cases this; rfl
          subst hpp
          have := hdiv pr hpr hroom
          omega
        · obtain ⟨d', hd'⟩ := stray_overflows h hpr (by omega) hx
          exact hone.keep d' hd'
    · by_cases hsu : st = .success
      · subst hsu
        simp only [if_true]
        rw [if_neg (by decide)]
        obtain ⟨htwo, pl, hdir⟩ := e4 rfl
        have hdl := overflow_key_small ht.wft htwo.over
        have hrb := ht.bound t.root (self_mem_pagesOf _ h _)
        have hl3 := e2.last
        rw [hlast2] at hl3
        obtain ⟨pl', k1, k2, k3⟩ := htwo.top
        have hgl := getPage_dirty (env := env) hr3 hdir
        rw [hgl] at k1; cases k1
        have hwl : WF pl := by
          have := htwo.left
          cases h with
          | zero => obtain ⟨q, hq, hw, -⟩ := this; rw [hgl] at hq; cases hq; exact hw
          | succ h => obtain ⟨q, hq, hw, -⟩ := this; rw [hgl] at hq; cases hq; exact hw
        obtain ⟨a, A1, hA1⟩ := List.exists_cons_of_ne_nil k2
        have hle : ∀ x ∈ pagesOf (getPage env t3) h t.root ++ pagesOf (getPage env t3) h c, 0 < x ∧ x ≤ t3.newLast := by
          intro x hx
          rcases htwo.pages x hx with hx | hx
          · have := ht.bound x hx; omega
          · omega
        have hc := hle c (List.mem_append_right _ (self_mem_pagesOf _ h c))
        rcases rootSplit_pages hE e2.inv (d := d) (n := t.root) (c := c) (by omega) hc.2 hdir hwl hA1 (by omega) hdl with
          ⟨-, t4, f1⟩ | ⟨-, q, f1, g4, g5, g7⟩
        · rw [f1, Res.ok_bind]
          exact ⟨.nospc, t4, rfl, .inr rfl, (by intro hh; cases hh)⟩
        · rw [f1, Res.ok_bind]
          refine ⟨.success, _, rfl, .inl rfl, fun _ => ⟨h + 1, ?_⟩⟩
          let t5 : Txn := { (extend t3).2.setDirty (t3.newLast + 1) q with root := t3.newLast + 1 }
          have hv5 : ∀ x, getPage env t5 x = if x = t3.newLast + 1 then .ok q else getPage env t3 x := by
            intro x
            have : getPage env t5 x = getPage env ((extend t3).2.setDirty (t3.newLast + 1) q) x := rfl
            rw [this, getPage_set (t := (extend t3).2) hr3]; rfl
          have hg5 : getPage env t5 (t3.newLast + 1) = .ok q := by rw [hv5, if_pos rfl]
          have heq : entries q = [(a.key, t.root), (d, c)] := by unfold entries; rw [g7]; rfl
          have hfl : ∀ x ∈ pagesOf (getPage env t3) h t.root, getPage env t5 x = getPage env t3 x := by
            intro x hx
            have := hle x (List.mem_append_left _ hx)
            rw [hv5, if_neg (by omega)]
          have hfr : ∀ x ∈ pagesOf (getPage env t3) h c, getPage env t5 x = getPage env t3 x := by
            intro x hx
            have := hle x (List.mem_append_right _ hx)
            rw [hv5, if_neg (by omega)]
          have had : a.key < d := k3 a.key (by unfold keys; rw [hA1]; simp)
          show Stored env t t5 h (h + 1) _ key val
          refine ⟨by omega, by show t3.newLast + 1 ≠ 0; omega, ⟨q, hg5, g4, g5, ?_, by rw [heq]; simp, ?_⟩, ?_⟩
          · rw [keys_eq_entries, heq]
            show Sorted [a.key, d]
            rw [sorted_cons]
            exact ⟨by simpa using had, List.pairwise_singleton _ _⟩
          · rw [heq]
            intro e he
            simp only [List.mem_cons, List.not_mem_nil, or_false] at he
            rcases he with rfl | rfl
            · exact sound_frame h hfl htwo.left
            · exact sound_frame h hfr htwo.right
          · show Whole (sight (getPage env t5) (h + 1) (t3.newLast + 1)) _ _
            rw [sight_succ hg5, heq, ← hsight]
            intro x
            have hn : node (sight (getPage env t5) h) [(a.key, t.root), (d, c)] x =
                if x < d then sight (getPage env t3) h t.root x else sight (getPage env t3) h c x := by
              unfold node
              show sight (getPage env t5) h (if x < d then t.root else c) x = _
              split
              · rw [sight_frame h htwo.left hfl]
              · rw [sight_frame h htwo.right hfr]
            rw [hn]
            have hH := htwo.halves
            by_cases hx : x < d
            · rw [if_pos hx]
              exact ⟨fun hl => (hH.left x hx).1 hl.2, fun hl => (hH.left x hx).2 fun hh => hl ⟨h0, hh⟩⟩
            · rw [if_neg hx]
              refine ⟨fun hl => (hH.right x hx).1 ?_, fun hl => (hH.right x hx).2 fun hh => hl ⟨h0, .inl hh⟩⟩
              rcases hl.2 with hl | hl
              · exact hl
              · exact absurd (hH.sub x hl) hx
      · have hns : st = .nospc := by
          rcases e6 with hx | hx | hx
          · exact absurd hx hsu
          · exact absurd hx hinc
          · exact hx
        subst hns
        exact ⟨.nospc, t3, rfl, .inr rfl, (by intro hh; cases hh)⟩

end Verif.Db
