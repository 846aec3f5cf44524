import Verif.Db.Climb

/-!
# Helper lemmas: `put`
-/

namespace Verif.Db

open Verif.Page

/-- What a successful insertion leaves. -/
structure Inserted (I : Txn → Prop) (env : Env) (t t' : Txn) (h h' : Nat) (l : List (Bytes × Bytes)) (key val : Bytes) : Prop where
  rdonly : t'.rdonly = false
  txnid : t'.txnid = t.txnid
  freeRoot : t'.freeRoot = t.freeRoot
  inv : I t'
  last : t.newLast ≤ t'.newLast
  last' : t'.newLast ≤ t.newLast + h + 2
  height : h' ≤ h + 1
  root : t'.root ≠ 0
  tree : Tree env t' h'
  ins : ∃ X Y, l = X ++ Y ∧ contents (getPage env t') h' t'.root = X ++ (key, val) :: Y
  pages : ∀ x ∈ pagesOf (getPage env t') h' t'.root,
    (t.root ≠ 0 ∧ x ∈ pagesOf (getPage env t) h t.root) ∨ t.newLast < x
  frame : ∀ x ≤ t.newLast, (t.root ≠ 0 → x ∉ pagesOf (getPage env t) h t.root) → getPage env t' x = getPage env t x
  full : (t.root ≠ 0 → Full (getPage env t) h t.root) → Full (getPage env t') h' t'.root
  keep : t.root ≠ 0 → ∀ x ∈ pagesOf (getPage env t) h t.root, x ∈ pagesOf (getPage env t') h' t'.root
  freed : ∀ x ∈ t'.freed, x ∈ t.freed ∨ (t.root ≠ 0 ∧ x ∈ pagesOf (getPage env t) h t.root)

theorem put_empty {al : Alloc} {F : List Nat} {I : Txn → Prop} (hE : Ext al F I) {env : Env} {t : Txn} {key val : Bytes}
    (hsz : 4 + key.length + val.length < 65536) (hr : t.rdonly = false) (hI : I t) (h0 : t.root = 0)
    (h64 : t.newLast + 1 < 2 ^ 64) :
    ∃ st t', putWith al env t key val = .ok (st, t') ∧ (st = .success ∨ st = .nospc) ∧
      (4 + key.length + val.length + 2 ≤ 4078 → st = .success) ∧
      (st = .success → Inserted I env t t' 0 0 [] key val) := by
  have hput : putWith al env t key val = (newTree al t key val >>= fun r => .ok (withRoot r)) := by
    unfold putWith; rw [if_neg (by simp [hr]), if_pos h0]
  have hI' := hE.grow t hI
  have hnF : t.newLast + 1 ∉ F := fun hx => by have := hE.last t hI _ hx; omega
  have wf := emptyPage_wf true (t.newLast + 1) h64
  have hroom : room (emptyPage true (t.newLast + 1)) = 4078 := by
    obtain ⟨-, -, h1, h2, -⟩ := emptyPage_fields true (t.newLast + 1) h64
    unfold room; rw [h1, h2]
  have hl := emptyPage_isLeaf true (t.newLast + 1) h64
  rw [hput]
  unfold newTree
  rw [hE.ext t hI, Res.ok_bind]
  simp only [extend]
  rcases insert_at wf (A := []) (B := []) (by rw [emptyPage_items _ _ h64]; rfl) (it := .leaf key val) (by rw [hl]; rfl)
      (by simpa [Item.size] using hsz) (by simp [Item.child]) with ⟨b1, b2⟩ | ⟨b1, q, b2, b3, b4, b5, b6, b7⟩
  · rw [List.length_nil] at b2
    rw [b2]
    refine ⟨.nospc, _, rfl, .inr rfl, ?_, ?_⟩
    · intro hh; exfalso; rw [hroom] at b1; simp only [Item.size] at b1; omega
    · intro hh; cases hh
  · rw [List.length_nil] at b2
    rw [b2]
    refine ⟨.success, _, rfl, .inl rfl, fun _ => rfl, fun _ => ?_⟩
    have hg : getPage env { (extend t).2.setDirty (t.newLast + 1) q with root := t.newLast + 1 } (t.newLast + 1) = .ok q := by
      have : getPage env { (extend t).2.setDirty (t.newLast + 1) q with root := t.newLast + 1 } (t.newLast + 1)
        = getPage env ((extend t).2.setDirty (t.newLast + 1) q) (t.newLast + 1) := rfl
      rw [this, getPage_set (t := (extend t).2) hr, if_pos rfl]
    have hk : kvs q = [(key, val)] := by unfold kvs; rw [b4]; rfl
    refine ⟨hr, rfl, rfl, hE.root _ _ (hE.set _ _ _ hI' hnF (by rw [b5, (emptyPage_fields true _ h64).2.2.2.2]) b3 (Nat.le_refl _)) (by simp [Txn.setDirty]), ?_, ?_, by omega, ?_, ⟨?_, ?_, ?_⟩, ⟨[], [], rfl, ?_⟩, ?_, ?_, ?_, fun hne => absurd h0 hne, fun x hx => .inl hx⟩
    · show t.newLast ≤ t.newLast + 1; omega
    · show t.newLast + 1 ≤ t.newLast + 0 + 2; omega
    · show t.newLast + 1 ≠ 0; omega
    · refine ⟨q, hg, by rw [b5, (emptyPage_fields true _ h64).2.2.2.2], b3, by rw [b6, hl], ?_, fun _ _ => inRange_none _⟩
      rw [keys_eq_kvs, hk]; exact List.pairwise_singleton _ _
    · simp [pagesOf]
    · intro n hn
      simp only [pagesOf, List.mem_singleton] at hn
      have : n = t.newLast + 1 := hn
      show 0 < n ∧ n ≤ t.newLast + 1
      omega
    · exact (contents_zero (n := t.newLast + 1) hg).trans hk
    · intro x hx
      simp only [pagesOf, List.mem_singleton] at hx
      have : x = t.newLast + 1 := hx
      right; omega
    · intro x hx _
      have : getPage env { (extend t).2.setDirty (t.newLast + 1) q with root := t.newLast + 1 } x
        = getPage env ((extend t).2.setDirty (t.newLast + 1) q) x := rfl
      show getPage env { (extend t).2.setDirty (t.newLast + 1) q with root := t.newLast + 1 } x = _
      rw [this, getPage_set (t := (extend t).2) hr, if_neg (by omega)]; rfl
    · intro _ p hp
      have hp' := hp.symm.trans hg
      cases hp'
      rw [b4]; simp

theorem not_isBranch {p : Page} (wf : WF p) : (!isBranch p) = isLeaf p := by
  rcases wf.kind with h | h <;> simp [isBranch, isLeaf, h]

/-- A new root above the two halves of the old one. -/
theorem rootSplit_spec {al : Alloc} {F : List Nat} {I : Txn → Prop} (hE : Ext al F I) {env : Env} {t0 t : Txn} {h : Nat} {key val d : Bytes} {n c : Nat}
    (hr : t.rdonly = false) (hI : I t) {g : View} (hn : n ≤ t.newLast) (hn0 : 0 < n)
    (htwo : Two g (getPage env t) t0.newLast t.newLast h none none n key val d c)
    (hd : ∃ p, t.getDirty n = some p) (h64 : t.newLast + 1 < 2 ^ 64) (hl0 : t0.newLast ≤ t.newLast) (hdl : d.length ≤ 4078)
    (hb : ∀ x ∈ pagesOf g h n, x ≤ t0.newLast) :
    ∃ t' r, rootSplit al t n c d = .ok (t', r) ∧ (r = .ok (t.newLast + 1) ∨ r = .error .nospc) ∧
      (r = .ok (t.newLast + 1) →
        ∃ q minKey p, t' = (extend t).2.setDirty (t.newLast + 1) q ∧
        getPage env t n = .ok p ∧ (keys p)[0]? = some minKey ∧ WF q ∧ isLeaf q = false ∧ pgno q = t.newLast + 1 ∧
        items q = [.branch minKey n, .branch d c] ∧ minKey < d ∧ room q + minKey.length + d.length + 24 = 4078) ∧
      (∀ p, getPage env t n = .ok p → (∀ k ∈ keys p, k.length + d.length + 24 ≤ 4078) → r = .ok (t.newLast + 1)) := by
  obtain ⟨p, hp⟩ := hd
  have hg : getPage env t n = .ok p := getPage_dirty hr hp
  obtain ⟨p', h1, h2, h3⟩ := htwo.top
  rw [hg] at h1; cases h1
  obtain ⟨p', h1, -, wf⟩ := wft_pages h htwo.left n (self_mem_pagesOf _ h n)
  rw [hg] at h1; cases h1
  have hpos : 0 < numKeys p := by
    rw [← items_length]; exact List.length_pos_iff.2 h2
  have hmk : (keys p)[0]? = some ((items p)[0]'(by simpa using hpos)).key := by
    unfold keys; rw [List.getElem?_map, List.getElem?_eq_getElem (by simpa using hpos)]; rfl
  generalize hm : ((items p)[0]'(by simpa using hpos)).key = minKey at hmk
  have hmem : minKey ∈ keys p := List.mem_of_getElem? hmk
  have hml := key_small wf hmem
  have hemp := emptyPage_wf false (t.newLast + 1) h64
  have hroom : room (emptyPage false (t.newLast + 1)) = 4078 := by
    obtain ⟨-, -, h1, h2, -⟩ := emptyPage_fields false (t.newLast + 1) h64
    unfold room; rw [h1, h2]
  have hl := emptyPage_isLeaf false (t.newLast + 1) h64
  have hc64 : c < 2 ^ 64 := by
    rcases htwo.pages c (List.mem_append_right _ (self_mem_pagesOf _ h c)) with hx | hx
    · have := hb c hx; omega
    · omega
  unfold rootSplit
  rw [hE.ext t hI, Res.ok_bind]
  simp only [extend]
  have hp' : ({ t with newLast := t.newLast + 1 } : Txn).getDirty n = some p := hp
  rw [hp']
  simp only []
  rw [not_isBranch wf, firstKey_spec wf hpos, hm, Res.ok_bind]
  rcases insert_at hemp (A := []) (B := []) (by rw [emptyPage_items _ _ h64]; rfl) (it := .branch minKey n) (by rw [hl]; rfl)
      (by simp only [Item.size]; omega) (by simp only [Item.child]; omega) with ⟨b1, b2⟩ | ⟨b1, q1, b2, b3, b4, b5, b6, b7⟩
  · rw [List.length_nil] at b2
    rw [b2]
    refine ⟨_, _, rfl, .inr rfl, (by intro hh; cases hh), ?_⟩
    intro p' hp' hall
    exfalso
    rw [hg] at hp'; cases hp'
    rw [hroom] at b1; simp only [Item.size] at b1
    have := hall minKey hmem; omega
  · rw [List.length_nil] at b2
    rw [b2, Res.ok_bind]
    simp only [if_true]
    rcases insert_at b3 (A := [.branch minKey n]) (B := []) (by rw [b4]; rfl) (it := .branch d c) (by rw [b6, hl]; rfl)
      (by simp only [Item.size]; omega) (by simpa [Item.child] using hc64) with ⟨e1, e2⟩ | ⟨e1, q2, e2, e3, e4, e5, e6, e7⟩
    · rw [List.length_singleton] at e2
      rw [e2]
      refine ⟨_, _, rfl, .inr rfl, (by intro hh; cases hh), ?_⟩
      intro p' hp' hall
      exfalso
      rw [hg] at hp'; cases hp'
      rw [hroom] at b7; simp only [Item.size] at b7 e1
      have := hall minKey hmem; omega
    · rw [List.length_singleton] at e2
      rw [e2]
      refine ⟨_, _, rfl, .inl rfl, fun _ => ⟨q2, minKey, p, rfl, hg, hmk, e3, by rw [e6, b6, hl], ?_, by rw [e4]; rfl, h3 _ hmem, ?_⟩, fun _ _ _ => rfl⟩
      · rw [e5, b5, (emptyPage_fields false _ h64).2.2.2.2]
      · rw [hroom] at b7; simp only [Item.size] at b7 e7; omega

/-- Inserting a key that is not stored. -/
theorem put_absent {al : Alloc} {F : List Nat} {I : Txn → Prop} (hE : Ext al F I) {env : Env} {t : Txn} {h : Nat}
    {l : List (Bytes × Bytes)} {key val : Bytes} (hk : key.length < 65536) (hsz : 4 + key.length + val.length < 65536)
    (hr : t.rdonly = false) (hI : I t) (hh : Holds env t h l) (hkey : key ∉ l.map Prod.fst)
    (hF : t.root ≠ 0 → ∀ x ∈ pagesOf (getPage env t) h t.root, x ∉ F) (hd : h < maxDepth)
    (hsafe : t.root ≠ 0 → SplitSafe (getPage env t) key (4 + key.length + val.length) h t.root)
    (h64 : t.newLast + h + 2 < 2 ^ 64) :
    ∃ st t', putWith al env t key val = .ok (st, t') ∧ (st = .success ∨ st = .nospc) ∧
      (st = .success → ∃ h', Inserted I env t t' h h' l key val) := by
  rcases hh with ⟨h0, rfl⟩ | ⟨h0, ht, rfl⟩
  · obtain ⟨st, t', a1, a2, -, a3⟩ := put_empty hE (env := env) hsz hr hI h0 (by omega)
    refine ⟨st, t', a1, a2, fun hs => ⟨0, ?_⟩⟩
    have := a3 hs
    exact { rdonly := this.rdonly, txnid := this.txnid, freeRoot := this.freeRoot, inv := this.inv, last := this.last,
            last' := by have := this.last'; omega, height := by omega, root := this.root, tree := this.tree, ins := this.ins,
            pages := fun x hx => (this.pages x hx).imp (fun hh => absurd h0 hh.1) id,
            frame := fun x hx hh => this.frame x hx (fun hne => absurd h0 hne),
            full := fun _ => this.full (fun hne => absurd h0 hne),
            keep := fun hne => absurd h0 hne,
            freed := fun x hx => (this.freed x hx).imp id (fun hh => absurd h0 hh.1) }
  · have hF := hF h0
    have hsafe := hsafe h0
    obtain ⟨path, p1, p2⟩ := findPath_spec hk h ht.wft hd (by
      intro x hx; unfold maxPgno; simpa [hr] using (ht.bound x hx).2)
    obtain ⟨lo', hi', p, A, B, i1, i2, i3, i4, i5, i6, i7⟩ := leaf_focus h ht.wft p1 (inRange_none key)
    obtain ⟨q, j1, j2, j3, j4, j5, j6⟩ := i2
    rw [i1] at j1; cases j1
    have hne : path ≠ [] := by
      obtain ⟨rest, hr, -⟩ := isPath_cons p1; rw [hr]; simp
    have hlm : path.getLastD 0 ∈ pagesOf (getPage env t) h t.root := isPath_mem p1 _ (getLastD_mem hne)
    have hkp : key ∉ keys p := by
      intro hm; apply hkey; rw [i4, List.map_append, List.map_append, ← keys_eq_kvs]
      exact List.mem_append_left _ (List.mem_append_right _ hm)
    obtain ⟨f, hf, A', B', hA, hB, hsp⟩ := probe_spec j3 j5 hk
    have hsp' : items p = A' ++ B' ∧ f = .notFound A'.length := by
      rcases hsp with ⟨it, e1, e2, -⟩ | hx
      · exfalso; apply hkp; unfold keys; rw [e1]; simp [e2]
      · exact hx
    obtain ⟨hit, rfl⟩ := hsp'
    obtain ⟨t1, c1, c2, c3, c4⟩ := cowPath_spec (env := env) hr hne (by
      intro n hn
      exact wft_pages h ht.wft n (isPath_mem p1 n hn))
    have hI1 : I t1 := c4 F I hE.set (fun t x _ h => hE.freed t _ h) (fun x hx => ⟨hF x (isPath_mem p1 x hx), (ht.bound x (isPath_mem p1 x hx)).2⟩) hI
    have hf1 : ∀ x ∈ t1.freed, x ∈ t.freed ∨ (t.root ≠ 0 ∧ x ∈ pagesOf (getPage env t) h t.root) := by
      refine c4 [] (fun t1 => ∀ x ∈ t1.freed, x ∈ t.freed ∨ (t.root ≠ 0 ∧ x ∈ pagesOf (getPage env t) h t.root))
        (fun t1 n p h _ _ _ _ => h) (fun t1 n hn h x hx => ?_)
        (fun x hx => ⟨by simp, (ht.bound x (isPath_mem p1 x hx)).2⟩) (fun x hx => .inl hx)
      rcases List.mem_append.1 hx with hx | hx
      · exact h x hx
      · simp only [List.mem_singleton] at hx; subst hx
        exact .inr ⟨h0, isPath_mem p1 x hn⟩
    have hr1 : t1.rdonly = false := by rw [c2.rdonly, hr]
    have hd1 : t1.getDirty (path.getLastD 0) = some p := by
      obtain ⟨p', hp'⟩ := c3 _ (getLastD_mem hne)
      have : getPage env t1 (path.getLastD 0) = .ok p' := getPage_dirty hr1 hp'
      rw [c2.view, i1] at this; cases this; exact hp'
    let t2 := t1.setDirty (path.getLastD 0) p
    have hr2 : t2.rdonly = false := hr1
    have hI2 : I t2 := hE.set _ _ _ hI1 (hF _ hlm) j2 j3 (by rw [c2.newLast]; exact (ht.bound _ hlm).2)
    have hd2 : ∀ x, t2.getDirty x = t1.getDirty x := by
      intro x
      show (t1.setDirty (path.getLastD 0) p).getDirty x = _
      rw [getDirty_set]; split
      · rename_i hx; rw [hx, hd1]
      · rfl
    have hv2 : getPage env t2 = getPage env t := by
      funext x
      rw [← c2.view x]
      unfold getPage; rw [hd2 x]; rfl
    have hput : putWith al env t key val = (insert p A'.length (.leaf key val) >>= fun r =>
        match r.1 with
        | .ok => .ok (.success, t2.setDirty (path.getLastD 0) r.2)
        | .inval => .ok (.inval, t2)
        | .nospc => (pageSplit al t2 (path.getLastD 0) path key val >>= fun r => .ok (withRoot r))) := by
      unfold putWith
      rw [if_neg (by simp [hr]), if_neg h0, p2, Res.ok_bind]
      simp only []
      rw [i1, Res.ok_bind, hf, Res.ok_bind]
      simp only [Found.hit, Bool.false_and, Bool.false_eq_true, if_false]
      rw [c1, Res.ok_bind]
      simp only [hd1, Res.ofOption_some, Res.ok_bind, if_true, Found.idx]
      rfl
    rw [hput]
    have hroot2 : t2.root = t.root := c2.root
    have hlast2 : t2.newLast = t.newLast := c2.newLast
    have hfree2 : t2.freeRoot = t.freeRoot := c2.freeRoot
    have htx2 : t2.txnid = t.txnid := c2.txnid
    rcases insert_at j3 hit (it := .leaf key val) (by rw [j4]; rfl) (by simpa [Item.size] using hsz) (by simp [Item.child]) with
      ⟨b1, b2⟩ | ⟨b1, q, b2, b3, b4, b5, b6, b7⟩
    · -- the leaf is split
      have hhead : path.headD 0 = t.root := by
        obtain ⟨rest, hr, -⟩ := isPath_cons p1; rw [hr]; rfl
      obtain ⟨t3, st, d, c, e1, e2, e3, e4, e5, e6⟩ := climb_spec hE (env := env) hk hsz h (t := t2) (n := t.root) (path := path)
        (lo := none) (hi := none) hr2 hI2 (by rw [hv2]; exact ht.wft) (by rw [hv2]; exact p1) (inRange_none key)
        (by rw [hv2]; exact ht.nodup)
        (by rw [hv2, hlast2]; intro x hx; exact ⟨(ht.bound x hx).2, hF x hx⟩)
        (by intro x hx; rw [hd2]; exact c3 x hx) (by rw [hv2]; exact hkey)
        (by rw [hv2, i1]; intro p' hp'; cases hp'; simpa [Item.size] using b1)
        (by rw [hv2]; exact hsafe) (by omega)
      have hps := pageSplit_climb e1
      rw [hhead] at hps
      rw [b2, Res.ok_bind]
      simp only []
      rw [hps]
      rw [hv2, hlast2] at e4 e5
      have hr3 : t3.rdonly = false := by rw [e2.rdonly, hr2]
      have hfr : ∀ x ≤ t.newLast, x ∉ pagesOf (getPage env t) h t.root → getPage env t3 x = getPage env t x := by
        intro x hx hxp
        rw [e2.view env (by rw [hlast2]; exact hx) (fun hm => hxp (isPath_mem p1 x hm)), hv2]
      by_cases hinc : st = .incomplete
      · simp only [hinc, if_true, Res.ok_bind]
        refine ⟨.success, { t3 with root := t.root }, rfl, .inl rfl, fun _ => ⟨h, ?_⟩⟩
        have hone := e5 hinc
        have hv3 : getPage env { t3 with root := t.root } = getPage env t3 := rfl
        have hl3 := e2.last
        rw [hlast2] at hl3
        refine ⟨hr3, e2.txnid.trans htx2, e2.freeRoot.trans hfree2, (show ({ t3 with root := t.root } : Txn) = t3 by rw [← hroot2, ← e2.root]) ▸ e2.inv, hl3, ?_, by omega, h0, ⟨?_, ?_, ?_⟩, ?_, ?_, ?_, fun hf => hone.full (hf h0), fun _ => hone.keep, fun x hx => hf1 x (e2.freed ▸ hx)⟩
        · show t3.newLast ≤ _; omega
        · rw [hv3]; exact hone.wft
        · rw [hv3]; exact hone.nodup
        · rw [hv3]
          intro n hn
          show 0 < n ∧ n ≤ t3.newLast
          rcases hone.pages n hn with hx | hx
          · have := ht.bound n hx; omega
          · omega
        · rw [hv3]; exact hone.ins
        · rw [hv3]
          intro x hx
          rcases hone.pages x hx with hx | hx
          · exact .inl ⟨h0, hx⟩
          · exact .inr hx.1
        · rw [hv3]
          intro x hx hxp
          exact hfr x hx (hxp h0)
      · by_cases hsu : st = .success
        · subst hsu
          simp only [if_true]
          rw [if_neg (by decide)]
          obtain ⟨htwo, hdir⟩ := e4 rfl
          have hdl := overflow_key_small ht.wft htwo.over
          have hrb := ht.bound t.root (self_mem_pagesOf _ h _)
          have hl3 := e2.last
          rw [hlast2] at hl3
          obtain ⟨t4, r, f1, f2, f3, -⟩ := rootSplit_spec hE (t0 := t) hr3 e2.inv (by omega) hrb.1 htwo hdir (by omega) hl3 hdl
            (fun x hx => (ht.bound x hx).2)
          rw [f1, Res.ok_bind]
          rcases f2 with rfl | rfl
          · obtain ⟨q, mk, pr, rfl, -, -, g4, g5, g6, g7, g8, -⟩ := f3 rfl
            refine ⟨.success, _, rfl, .inl rfl, fun _ => ⟨h + 1, ?_⟩⟩
            have hnF : t3.newLast + 1 ∉ F := fun hx => by have := hE.last t3 e2.inv _ hx; omega
            let t5 : Txn := { (extend t3).2.setDirty (t3.newLast + 1) q with root := t3.newLast + 1 }
            have hv5 : ∀ x, getPage env t5 x = if x = t3.newLast + 1 then .ok q else getPage env t3 x := by
              intro x
              have : getPage env t5 x = getPage env ((extend t3).2.setDirty (t3.newLast + 1) q) x := rfl
              rw [this, getPage_set (t := (extend t3).2) hr3]; rfl
            have hg5 : getPage env t5 (t3.newLast + 1) = .ok q := by rw [hv5, if_pos rfl]
            have heq : entries q = [(mk, t.root), (d, c)] := by unfold entries; rw [g7]; rfl
            have hle : ∀ x ∈ pagesOf (getPage env t3) h t.root ++ pagesOf (getPage env t3) h c, 0 < x ∧ x ≤ t3.newLast := by
              intro x hx
              rcases htwo.pages x hx with hx | hx
              · have := ht.bound x hx; omega
              · omega
            have hfl := frame (g := getPage env t3) (g' := getPage env t5) h (n := t.root) (by
              intro x hx
              have := hle x (List.mem_append_left _ hx)
              rw [hv5, if_neg (by omega)])
            have hfrr := frame (g := getPage env t3) (g' := getPage env t5) h (n := c) (by
              intro x hx
              have := hle x (List.mem_append_right _ hx)
              rw [hv5, if_neg (by omega)])
            have hpg : pagesOf (getPage env t5) (h + 1) (t3.newLast + 1) = (t3.newLast + 1) :: (pagesOf (getPage env t3) h t.root ++ pagesOf (getPage env t3) h c) := by
              rw [pagesOf_succ hg5, heq]
              simp only [List.flatMap_cons, List.flatMap_nil, List.append_nil]
              rw [hfl.2.1, hfrr.2.1]
            show Inserted I env t t5 h (h + 1) _ key val
            refine ⟨hr3, e2.txnid.trans htx2, e2.freeRoot.trans hfree2, hE.root _ _ (hE.set _ _ _ (hE.grow _ e2.inv) hnF g6 g4 (Nat.le_refl _)) (by simp [Txn.setDirty]), ?_, ?_, by omega, ?_, ⟨?_, ?_, ?_⟩, ?_, ?_, ?_, ?_, fun _ x hx => ?_, fun x hx => hf1 x (e2.freed ▸ hx)⟩
            · show t.newLast ≤ t3.newLast + 1; omega
            · show t3.newLast + 1 ≤ _; omega
            · show t3.newLast + 1 ≠ 0; omega
            · refine ⟨q, hg5, g6, g4, g5, ?_, ?_⟩
              · rw [keys_eq_entries, heq]
                show Sorted [mk, d]
                rw [sorted_cons]
                exact ⟨by simpa using g8, List.pairwise_singleton _ _⟩
              · rw [heq]
                exact ⟨hfl.2.2 _ _ htwo.left, htwo.gt, htwo.lt, hfrr.2.2 _ _ htwo.right⟩
            · show (pagesOf (getPage env t5) (h + 1) (t3.newLast + 1)).Nodup
              rw [hpg, List.nodup_cons]
              exact ⟨fun hx => by have := hle _ hx; omega, htwo.nodup⟩
            · show ∀ n ∈ pagesOf (getPage env t5) (h + 1) (t3.newLast + 1), 0 < n ∧ n ≤ t3.newLast + 1
              rw [hpg]
              intro n hn
              rcases List.mem_cons.1 hn with rfl | hn
              · omega
              · have := hle n hn; omega
            · obtain ⟨X, Y, x1, x2⟩ := htwo.ins
              refine ⟨X, Y, x1, ?_⟩
              show contents (getPage env t5) (h + 1) (t3.newLast + 1) = _
              rw [contents_succ hg5, heq]
              simp only [List.flatMap_cons, List.flatMap_nil, List.append_nil]
              rw [hfl.1, hfrr.1, x2]
            · show ∀ x ∈ pagesOf (getPage env t5) (h + 1) (t3.newLast + 1), _
              rw [hpg]
              intro x hx
              rcases List.mem_cons.1 hx with rfl | hx
              · right; omega
              · rcases htwo.pages x hx with hx | hx
                · exact .inl ⟨h0, hx⟩
                · exact .inr hx.1
            · intro x hx hxp
              rw [hv5, if_neg (by omega)]
              exact hfr x hx (hxp h0)
            · intro hf q' hq' e he
              have hq'' := hq'.symm.trans hg5
              cases hq''
              rw [heq] at he
              simp only [List.mem_cons, List.not_mem_nil, or_false] at he
              have hfc := htwo.full (hf h0)
              rcases he with rfl | rfl
              · refine full_frame h (fun x hx => ?_) hfc.1
                have := hle x (List.mem_append_left _ hx)
                rw [hv5, if_neg (by omega)]
              · refine full_frame h (fun x hx => ?_) hfc.2
                have := hle x (List.mem_append_right _ hx)
                rw [hv5, if_neg (by omega)]
            · show x ∈ pagesOf (getPage env t5) (h + 1) (t3.newLast + 1)
              rw [hpg]
              exact List.mem_cons_of_mem _ (htwo.keep x hx)
          · exact ⟨.nospc, t4, rfl, .inr rfl, (by intro hh; cases hh)⟩
        · have hns : st = .nospc := by
            rcases e6 with hx | hx | hx
            · exact absurd hx hsu
            · exact absurd hx hinc
            · exact hx
          subst hns
          exact ⟨.nospc, t3, rfl, .inr rfl, (by intro hh; cases hh)⟩
    · -- the pair fits the leaf
      rw [b2, Res.ok_bind]
      simp only []
      let t3 := t2.setDirty (path.getLastD 0) q
      have hv3 : ∀ x, getPage env t3 x = if x = path.getLastD 0 then .ok q else getPage env t x := by
        intro x
        show getPage env (t2.setDirty (path.getLastD 0) q) x = _
        rw [getPage_set hr2, hv2]
      have hq3 : getPage env t3 (path.getLastD 0) = .ok q := by rw [hv3, if_pos rfl]
      have hkv : kvs q = A'.map (fun i => (i.key, i.val)) ++ (key, val) :: B'.map (fun i => (i.key, i.val)) := by
        unfold kvs; rw [b4]; simp [Item.key, Item.val]
      have hkvp : kvs p = A'.map (fun i => (i.key, i.val)) ++ B'.map (fun i => (i.key, i.val)) := by
        unfold kvs; rw [hit]; simp
      have hwq : WFT (getPage env t3) 0 lo' hi' (path.getLastD 0) := by
        refine ⟨q, hq3, b5.trans j2, b3, by rw [b6, j4], ?_, ?_⟩
        · unfold keys; rw [b4]; exact sorted_mid j5 hit (it := .leaf key val) hA hB
        · intro k hk
          unfold keys at hk
          rw [b4, List.map_append, List.map_cons] at hk
          rcases List.mem_append.1 hk with hm | hm
          · apply j6; unfold keys; rw [hit, List.map_append]; exact List.mem_append_left _ hm
          · rcases List.mem_cons.1 hm with rfl | hm
            · exact i3
            · apply j6; unfold keys; rw [hit, List.map_append]; exact List.mem_append_right _ hm
      obtain ⟨w1, w2, w3⟩ := i7 (getPage env t3) ht.nodup (fun x _ hx => by rw [hv3, if_neg hx]) q hq3 hwq
      refine ⟨.success, t3, rfl, .inl rfl, fun _ => ⟨h, ?_⟩⟩
      have hroot3 : t3.root = t.root := c2.root
      have hlast3 : t3.newLast = t.newLast := c2.newLast
      refine ⟨hr2, c2.txnid, c2.freeRoot, hE.set _ _ _ hI2 (hF _ hlm) (b5.trans j2) b3 (by rw [hlast2]; exact (ht.bound _ hlm).2), by omega, by omega, by omega, by rw [hroot3]; exact h0, ⟨?_, ?_, ?_⟩, ?_, ?_, ?_, ?_, fun _ x hx => by rw [hroot3, w3]; exact hx, fun x hx => hf1 x hx⟩
      · rw [hroot3]; exact w1
      · rw [hroot3, w3]; exact ht.nodup
      · rw [hroot3, w3, hlast3]; exact ht.bound
      · refine ⟨A ++ A'.map (fun i => (i.key, i.val)), B'.map (fun i => (i.key, i.val)) ++ B, ?_, ?_⟩
        · rw [i4, hkvp]; simp
        · rw [hroot3, w2, hkv]; simp
      · rw [hroot3, w3]; intro x hx; exact .inl ⟨h0, hx⟩
      · intro x _ hxp
        rw [hv3, if_neg]
        rintro rfl
        exact hxp h0 hlm
      · intro hf
        rw [hroot3]
        refine full_leaf h p1 ht.nodup (fun x _ hx => by rw [hv3, if_neg hx]) ?_ (hf h0)
        intro q' hq'
        rw [hq3] at hq'; cases hq'
        rw [b4]; simp

end Verif.Db
