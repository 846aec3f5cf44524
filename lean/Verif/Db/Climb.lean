import Verif.Db.SplitLemmas

/-!
# Helper lemmas: splits travelling up the tree
-/

namespace Verif.Db

open Verif.Page

theorem splitTxn_error {al : Alloc} {leaf : Bool} {t t1 : Txn} {lk : Nat} {e : Status}
    (h : splitTxn al leaf t lk = .ok (t1, .error e)) : e ≠ .success := by
  unfold splitTxn at h
  obtain ⟨p, -, h⟩ := Res.bind_eq_ok.1 h
  generalize (!(if leaf = true then isLeaf p else isBranch p)) = b at h
  cases b with
  | true => cases h; decide
  | false =>
    simp only [Bool.false_eq_true, if_false] at h
    obtain ⟨a, -, h⟩ := Res.bind_eq_ok.1 h
    obtain ⟨q, -, h⟩ := Res.bind_eq_ok.1 h
    obtain ⟨s, -, h⟩ := Res.bind_eq_ok.1 h
    cases s with
    | none => cases h; decide
    | some s => cases h

theorem propagate_snoc (al : Alloc) (n : Nat) (l : List Nat) : ∀ (t : Txn) (k : Bytes) (c : Nat),
    propagate al (l ++ [n]) t k c = (propagate al l t k c >>= fun r =>
      if r.2.1 = .success then propagate al [n] r.1 r.2.2.1 r.2.2.2 else .ok r) := by
  induction l with
  | nil => intro t k c; rw [List.nil_append]; rfl
  | cons pg l ih =>
    intro t k c
    rw [List.cons_append, propagate, propagate]
    cases t.getDirty pg with
    | none => rfl
    | some p =>
      simp only [bind_assoc]
      congr 1; funext f
      congr 1; funext r
      obtain ⟨st, q⟩ := r
      cases st with
      | ok => rfl
      | inval => rfl
      | nospc =>
        simp only [bind_assoc]
        cases hsp : splitTxn al false t pg with
        | ub => rfl
        | div => rfl
        | ok sp =>
          obtain ⟨t1, e⟩ := sp
          cases e with
          | error e =>
            simp only [Res.ok_bind]
            rw [if_neg (splitTxn_error hsp)]
          | ok s =>
            simp only [bind_assoc, Res.ok_bind]
            congr 1; funext h
            by_cases hs : h.1 = .success
            · simp only [hs, if_true]; exact ih _ _ _
            · simp only [hs, if_false, Res.ok_bind]

/-- Split the leaf, insert the pair, and enter the new pages in the pages above. -/
def climb (al : Alloc) (t : Txn) (lk : Nat) (parents : List Nat) (key val : Bytes) :
    Res (Txn × Status × Bytes × Nat) := do
  let sp ← splitTxn al true t lk
  match sp.2 with
  | .error _ => .ub
  | .ok s => do
    let h ← insertHalf sp.1 lk s (.leaf key val)
    if h.1 = .success then do
      let d ← dividerNow h.2 s
      propagate al parents h.2 d s.no
    else if h.1 = .incomplete then .ub
    else .ok (h.2, h.1, s.divider, s.no)

theorem climb_snoc (al : Alloc) (n : Nat) (l : List Nat) (t : Txn) (lk : Nat) (key val : Bytes) :
    climb al t lk (l ++ [n]) key val = (climb al t lk l key val >>= fun r =>
      if r.2.1 = .success then propagate al [n] r.1 r.2.2.1 r.2.2.2 else .ok r) := by
  unfold climb
  simp only [bind_assoc]
  congr 1; funext sp
  obtain ⟨t1, e⟩ := sp
  cases e with
  | error e => rfl
  | ok s =>
    simp only [bind_assoc]
    congr 1; funext h
    by_cases hs : h.1 = .success
    · simp only [hs, if_true, bind_assoc]
      congr 1; funext d
      exact propagate_snoc _ _ _ _ _ _
    · by_cases hi : h.1 = .incomplete
      · simp [hi]
      · simp only [hs, hi, if_false, Res.ok_bind]

/-- Nothing above the leaf. -/
theorem climb_nil {al : Alloc} {t t1 t2 : Txn} {lk : Nat} {s : SplitTxn} {key val : Bytes} {st : Status} (h1 : splitTxn al true t lk = .ok (t1, .ok s))
    (h2 : insertHalf t1 lk s (.leaf key val) = .ok (st, t2)) (hr : numKeys s.right ≠ 0) (hst : st = .success ∨ st = .nospc) :
    climb al t lk [] key val = .ok (t2, st, s.divider, s.no) := by
  unfold climb
  rw [h1, Res.ok_bind]
  simp only
  rw [h2, Res.ok_bind]
  rcases hst with rfl | rfl
  · simp only [if_true]
    rw [dividerNow_pos hr]; rfl
  · rfl

theorem pageSplit_climb {al : Alloc} {t : Txn} {lk : Nat} {path : List Nat} {key val : Bytes}
    {r : Txn × Status × Bytes × Nat} (h : climb al t lk path.dropLast.reverse key val = .ok r) :
    pageSplit al t lk path key val =
      (if r.2.1 = .incomplete then .ok (r.1, .ok (path.headD 0))
       else if r.2.1 = .success then rootSplit al r.1 (path.headD 0) r.2.2.2 r.2.2.1
       else .ok (r.1, .error r.2.1)) := by
  unfold climb at h
  unfold pageSplit
  obtain ⟨sp, h1, h⟩ := Res.bind_eq_ok.1 h
  rw [h1, Res.ok_bind]
  obtain ⟨t1, e⟩ := sp
  cases e with
  | error e => cases h
  | ok s =>
    simp only at h ⊢
    obtain ⟨hh, h2, h⟩ := Res.bind_eq_ok.1 h
    rw [h2, Res.ok_bind]
    by_cases hs : hh.1 = .success
    · rw [if_pos hs] at h ⊢
      obtain ⟨d, h3, h⟩ := Res.bind_eq_ok.1 h
      rw [h3, Res.ok_bind, h, Res.ok_bind]
    · rw [if_neg hs] at h ⊢
      by_cases hi : hh.1 = .incomplete
      · rw [if_pos hi] at h; cases h
      · rw [if_neg hi] at h; cases h
        simp only [hs, hi, if_false]

/-! ## What the way up leaves behind -/

/-- The subtree took the pair. -/
structure One (g g' : View) (last last' h : Nat) (lo hi : Option Bytes) (n : Nat) (key val : Bytes) : Prop where
  wft : WFT g' h lo hi n
  ins : ∃ X Y, contents g h n = X ++ Y ∧ contents g' h n = X ++ (key, val) :: Y
  nodup : (pagesOf g' h n).Nodup
  pages : ∀ x ∈ pagesOf g' h n, x ∈ pagesOf g h n ∨ (last < x ∧ x ≤ last')
  full : Full g h n → Full g' h n
  keep : ∀ x ∈ pagesOf g h n, x ∈ pagesOf g' h n

/-- The subtree took the pair and is now two subtrees. -/
structure Two (g g' : View) (last last' h : Nat) (lo hi : Option Bytes) (n : Nat) (key val d : Bytes) (c : Nat) : Prop where
  left : WFT g' h lo (some d) n
  right : WFT g' h (some d) hi c
  gt : GtLo lo d
  lt : LtHi hi d
  ins : ∃ X Y, contents g h n = X ++ Y ∧ contents g' h n ++ contents g' h c = X ++ (key, val) :: Y
  nodup : (pagesOf g' h n ++ pagesOf g' h c).Nodup
  pages : ∀ x ∈ pagesOf g' h n ++ pagesOf g' h c, x ∈ pagesOf g h n ∨ (last < x ∧ x ≤ last')
  top : ∃ p, g' n = .ok p ∧ items p ≠ [] ∧ ∀ k ∈ keys p, k < d
  over : Overflows g key (4 + key.length + val.length) h n d
  full : Full g h n → Full g' h n ∧ Full g' h c
  keep : ∀ x ∈ pagesOf g h n, x ∈ pagesOf g' h n ++ pagesOf g' h c

theorem nodup_swap {n last : Nat} {PA PC PB PC' : List Nat} (h : (n :: (PA ++ (PC ++ PB))).Nodup) (hc : PC'.Nodup)
    (hs : ∀ x ∈ PC', x ∈ PC ∨ last < x) (hl : ∀ x ∈ n :: (PA ++ (PC ++ PB)), x ≤ last) :
    (n :: (PA ++ (PC' ++ PB))).Nodup ∧ n ∉ PA ++ (PC' ++ PB) := by
  simp only [List.nodup_cons, List.nodup_append, List.mem_append, List.mem_cons] at *
  obtain ⟨h1, h2, ⟨h3, h4, h5⟩, h6⟩ := h
  have hnot : ¬ (n ∈ PA ∨ n ∈ PC' ∨ n ∈ PB) := by
    rintro (hx | hx | hx)
    · exact h1 (.inl hx)
    · rcases hs n hx with hx | hx
      · exact h1 (.inr (.inl hx))
      · have := hl n (.inl rfl); omega
    · exact h1 (.inr (.inr hx))
  refine ⟨⟨hnot, h2, ⟨hc, h4, ?_⟩, ?_⟩, hnot⟩
  · rintro a ha b hb rfl
    rcases hs a ha with hx | hx
    · exact h5 a hx a hb rfl
    · have := hl a (.inr (.inr (.inr hb))); omega
  · rintro a ha b hb rfl
    rcases hb with hb | hb
    · rcases hs a hb with hx | hx
      · exact h6 a ha a (.inl hx) rfl
      · have := hl a (.inr (.inl ha)); omega
    · exact h6 a ha a (.inr hb) rfl

/-- Children seen through a view that agrees on their pages. -/
theorem frame_kids {g g' : View} {h : Nat} {lo hi : Option Bytes} {E : List (Bytes × Nat)}
    (ha : ∀ x ∈ E.flatMap (fun e => pagesOf g h e.2), g' x = g x) :
    (Kids (WFT g h) lo hi E → Kids (WFT g' h) lo hi E) ∧
    E.flatMap (fun e => contents g' h e.2) = E.flatMap (fun e => contents g h e.2) ∧
    E.flatMap (fun e => pagesOf g' h e.2) = E.flatMap (fun e => pagesOf g h e.2) := by
  have hc : ∀ e ∈ E, ∀ x ∈ pagesOf g h e.2, g' x = g x := fun e he x hx => ha x (List.mem_flatMap.2 ⟨e, he, hx⟩)
  refine ⟨fun hk => kids_mono hk ?_, flatMap_congr' fun e he => (frame h (hc e he)).1,
    flatMap_congr' fun e he => (frame h (hc e he)).2.1⟩
  intro l u x hx
  obtain ⟨e, he, rfl⟩ := List.mem_map.1 hx
  exact (frame h (hc e he)).2.2 l u

theorem kvs_eq_of_items {L R : Page} {A B : List Item} {it : Item} (h : items L ++ items R = A ++ it :: B) :
    kvs L ++ kvs R = A.map (fun i => (i.key, i.val)) ++ (it.key, it.val) :: B.map (fun i => (i.key, i.val)) := by
  unfold kvs; rw [← List.map_append, h]; simp

theorem entries_eq_of_items {L R : Page} {A B : List Item} {it : Item} (h : items L ++ items R = A ++ it :: B) :
    entries L ++ entries R = A.map (fun i => (i.key, i.child)) ++ (it.key, it.child) :: B.map (fun i => (i.key, i.child)) := by
  unfold entries; rw [← List.map_append, h]; simp

/-- The leaf at the bottom. -/
theorem climb_leaf {al : Alloc} {F : List Nat} {I : Txn → Prop} (hE : Ext al F I) {env : Env} {key val : Bytes}
    (hk : key.length < 65536) (hsz : 4 + key.length + val.length < 65536) {lo hi : Option Bytes} {n : Nat} {t : Txn}
    (hr : t.rdonly = false) (hI : I t) (hw : WFT (getPage env t) 0 lo hi n) (hin : InRange lo hi key)
    (hb : n ≤ t.newLast) (hF : n ∉ F) (hd : ∃ p, t.getDirty n = some p)
    (hkey : key ∉ (contents (getPage env t) 0 n).map Prod.fst)
    (hroom : ∀ p, getPage env t n = .ok p → room p < 4 + key.length + val.length + 2)
    (hsafe : SplitSafe (getPage env t) key (4 + key.length + val.length) 0 n) (h64 : t.newLast + 1 < 2 ^ 64) :
    ∃ t' st d c, climb al t n [] key val = .ok (t', st, d, c) ∧ Evo I [n] t t' ∧ t'.newLast ≤ t.newLast + 1 ∧
      (st = .success → Two (getPage env t) (getPage env t') t.newLast t'.newLast 0 lo hi n key val d c ∧
        ∃ p, t'.getDirty n = some p) ∧
      (st = .success ∨ st = .nospc) := by
  obtain ⟨p, hp⟩ := hd
  have hg : getPage env t n = .ok p := getPage_dirty hr hp
  obtain ⟨p', h1, h2, h3, h4, h5, h6⟩ := hw
  rw [hg] at h1; cases h1
  rw [contents_zero hg, ← keys_eq_kvs] at hkey
  obtain ⟨f, hf, A, B, hA, hB, hsp⟩ := probe_spec h3 h5 hk
  have hit : items p = A ++ B := by
    rcases hsp with ⟨it, e1, e2, -⟩ | ⟨e1, -⟩
    · exfalso; apply hkey; unfold keys; rw [e1]; simp [e2]
    · exact e1
  have hcnt : (keys p).countP (· < key) = A.length := by
    unfold keys; rw [hit, List.map_append, countP_mid, List.length_map]
    · intro a ha; obtain ⟨i, hi, rfl⟩ := List.mem_map.1 ha; exact hA i hi
    · intro a ha; obtain ⟨i, hi, rfl⟩ := List.mem_map.1 ha; exact hB i hi
  have hs := hsafe p hg (hroom p hg)
  rw [hcnt] at hs
  obtain ⟨s, t1, st, t2, a1, a2, a3, a4, a5, a6, a7, -, a8⟩ := splitInsert_spec hE hI hb hF hp h2 h3 h5 h64 hit (it := .leaf key val)
    hA hB (by rw [h4]; rfl) (by simpa [Item.size] using hsz) (by simp [Item.child]) hk hs.1 hs.2
  rw [h4] at a1
  refine ⟨t2, st, s.divider, s.no, ?_, a5, by omega, ?_, a7⟩
  · exact climb_nil a1 a2 (splitTxn_pos hE hI hp h3 h4 (by omega) h64 a1) a7
  · rintro rfl
    obtain ⟨L, R, D, R', b1, b2, b3, b4, b5, b6, b7, b8, b9, b10, b11, b12, -⟩ := a8 rfl
    have hr2 : t2.rdonly = false := by rw [a5.rdonly, hr]
    have gL := getPage_dirty (env := env) hr2 b1
    have gR := getPage_dirty (env := env) hr2 b2
    have hsort := sorted_mid h5 hit (it := .leaf key val) hA hB
    rw [← b9, List.map_append, sorted_append] at hsort
    obtain ⟨sL, sR, sLR⟩ := hsort
    have hall : ∀ k ∈ keys L ++ keys R, InRange lo hi k := by
      intro k hk
      have : k ∈ (items L ++ items R).map Item.key := by rw [List.map_append]; exact hk
      rw [b9, List.map_append, List.map_cons] at this
      rcases List.mem_append.1 this with hm | hm
      · apply h6; unfold keys; rw [hit, List.map_append]; exact List.mem_append_left _ hm
      · rcases List.mem_cons.1 hm with rfl | hm
        · exact hin
        · apply h6; unfold keys; rw [hit, List.map_append]; exact List.mem_append_right _ hm
    have hDm : s.divider ∈ keys R := by unfold keys; rw [b11, List.map_cons, b12]; exact List.mem_cons_self
    have hLd : ∀ k ∈ keys L, k < s.divider := fun k hk => sLR k hk _ hDm
    have hRd : ∀ k ∈ keys R, ¬ k < s.divider := by
      intro k hk
      unfold keys at hk
      rw [b11, List.map_cons, sorted_cons] at sR
      rw [b11, List.map_cons] at hk
      rcases List.mem_cons.1 hk with rfl | hk
      · rw [b12]; exact blt_irrefl _
      · rw [← b12]; exact blt_asymm (sR.1 k hk)
    obtain ⟨x, hx⟩ : ∃ x, x ∈ keys L := by
      cases hi : items L with
      | nil => exact absurd hi b10
      | cons i l => exact ⟨i.key, by unfold keys; rw [hi]; simp⟩
    refine ⟨⟨⟨L, gL, b7.trans h2, b3, by rw [b5, h4], sL, ?_⟩, ⟨R, gR, b8, b4, by rw [b6, h4], sR, ?_⟩, ?_, ?_, ?_, ?_, ?_, ⟨L, gL, b10, hLd⟩, ⟨p, hg, hroom p hg, a6⟩, ?_, fun x hx => List.mem_append_left _ (by simpa [pagesOf] using hx)⟩, L, b1⟩
    · intro k hk
      exact ⟨(hall k (List.mem_append_left _ hk)).1, ltHi_some.2 (hLd k hk)⟩
    · intro k hk
      exact ⟨geLo_some.2 (hRd k hk), (hall k (List.mem_append_right _ hk)).2⟩
    · exact gtLo_of_ge (hall x (List.mem_append_left _ hx)).1 (hLd x hx)
    · exact (hall _ (List.mem_append_right _ hDm)).2
    · refine ⟨A.map fun i => (i.key, i.val), B.map fun i => (i.key, i.val), ?_, ?_⟩
      · rw [contents_zero hg]; unfold kvs; rw [hit, List.map_append]
      · rw [contents_zero gL, contents_zero gR]; exact kvs_eq_of_items b9
    · simp only [pagesOf, List.singleton_append, List.nodup_cons, List.mem_singleton]
      refine ⟨by omega, by simp⟩
    · intro y hy
      simp only [pagesOf, List.singleton_append, List.mem_cons, List.not_mem_nil, or_false] at hy
      rcases hy with rfl | rfl
      · left; simp [pagesOf]
      · right; omega
    · intro _
      refine ⟨fun q hq => ?_, fun q hq => ?_⟩
      · rw [gL] at hq; cases hq; exact b10
      · rw [gR] at hq; cases hq; rw [b11]; simp

/-- An entry is at least as large as its key. -/
def it_size_ge (it : Item) : Prop := it.key.length ≤ it.size

theorem it_size_ge_all (it : Item) : it_size_ge it := by
  unfold it_size_ge; cases it <;> simp [Item.size, Item.key] <;> omega

theorem key_small {p : Page} (wf : WF p) {k : Bytes} (hk : k ∈ keys p) : k.length ≤ 4078 := by
  unfold keys at hk
  obtain ⟨it, hi, rfl⟩ := List.mem_map.1 hk
  obtain ⟨i, hi', rfl⟩ := List.getElem_of_mem hi
  have hlen : it_size_ge ((items p)[i]) := it_size_ge_all _
  have hn : i < numKeys p := by simpa using hi'
  have h1 := wf.inside i hn
  have h2 := wf.low
  have h3 := wf.gap
  have h4 := itemAt_size p (isLeaf p) (slot p i)
  rw [items_getElem] at hlen ⊢
  unfold it_size_ge at hlen
  simp only [hdrSize, pageSize] at *
  omega

theorem overflow_key_small {g : View} {key : Bytes} {size : Nat} {h : Nat} {lo hi : Option Bytes} {n : Nat} {d : Bytes}
    (hw : WFT g h lo hi n) (ho : Overflows g key size h n d) : d.length ≤ 4078 := by
  cases h with
  | zero =>
    obtain ⟨p, h1, -, h3, -⟩ := hw
    obtain ⟨q, g1, -, g3⟩ := ho
    rw [h1] at g1; cases g1
    exact key_small h3 (List.mem_of_getElem? g3)
  | succ h =>
    obtain ⟨p, h1, -, h3, -⟩ := hw
    obtain ⟨q, A, k, c, B, d', g1, -, -, -, g3⟩ := ho
    rw [h1] at g1; cases g1
    exact key_small h3 (List.mem_of_getElem? g3)

theorem dropLast_cons_reverse {n : Nat} {path : List Nat} (h : path ≠ []) :
    (n :: path).dropLast.reverse = path.dropLast.reverse ++ [n] := by
  rw [List.dropLast_cons_of_ne_nil h, List.reverse_cons]

theorem entries_map_inv (l : List (Bytes × Nat)) :
    (l.map fun e => Item.branch e.1 e.2).map (fun i => (i.key, i.child)) = l := by
  rw [List.map_map]
  conv => rhs; rw [← List.map_id l]
  apply List.map_congr_left
  intro e _; rfl

/-- The whole way up, without the root. -/
theorem climb_spec {al : Alloc} {F : List Nat} {I : Txn → Prop} (hE : Ext al F I) {env : Env} {key val : Bytes}
    (hk : key.length < 65536) (hsz : 4 + key.length + val.length < 65536) (h : Nat) :
    ∀ {lo hi : Option Bytes} {n : Nat} {path : List Nat} {t : Txn},
    t.rdonly = false → I t → WFT (getPage env t) h lo hi n → IsPath (getPage env t) key h n path →
    InRange lo hi key → (pagesOf (getPage env t) h n).Nodup →
    (∀ x ∈ pagesOf (getPage env t) h n, x ≤ t.newLast ∧ x ∉ F) →
    (∀ x ∈ path, ∃ p, t.getDirty x = some p) → key ∉ (contents (getPage env t) h n).map Prod.fst →
    (∀ p, getPage env t (path.getLastD 0) = .ok p → room p < 4 + key.length + val.length + 2) →
    SplitSafe (getPage env t) key (4 + key.length + val.length) h n → t.newLast + h + 1 < 2 ^ 64 →
    ∃ t' st d c, climb al t (path.getLastD 0) path.dropLast.reverse key val = .ok (t', st, d, c) ∧
      Evo I path t t' ∧ t'.newLast ≤ t.newLast + h + 1 ∧
      (st = .success → Two (getPage env t) (getPage env t') t.newLast t'.newLast h lo hi n key val d c ∧
        ∃ p, t'.getDirty n = some p) ∧
      (st = .incomplete → One (getPage env t) (getPage env t') t.newLast t'.newLast h lo hi n key val) ∧
      (st = .success ∨ st = .incomplete ∨ st = .nospc) := by
  induction h with
  | zero =>
    intro lo hi n path t hr hI hw hp hin hnd hb hd hkey hroom hsafe h64
    have hp' : path = [n] := hp
    subst hp'
    have hself := hb n (self_mem_pagesOf _ 0 n)
    obtain ⟨t', st, d, c, a1, a2, a3, a4, a5⟩ := climb_leaf hE hk hsz hr hI hw hin hself.1 hself.2 (hd n (by simp)) hkey hroom hsafe (by omega)
    refine ⟨t', st, d, c, a1, a2, a3, a4, ?_, ?_⟩
    · rintro rfl; rcases a5 with h | h <;> cases h
    · rcases a5 with h | h
      · exact .inl h
      · exact .inr (.inr h)
  | succ h ih =>
    rintro lo hi n path t hr hI ⟨p, h1, h2, h3, h4, h5, h6⟩ ⟨p', A, k, c, B, path', g1, g2, g3, rfl⟩ hin hnd hb hd hkey hroom hsafe h64
    rw [h1] at g1; cases g1
    have hes := g2.1
    have h6' := h6
    rw [hes] at h6'
    have hfoc := kids_focus h6'
    obtain ⟨rest, hrest, -⟩ := isPath_cons g3
    have hne : path' ≠ [] := by rw [hrest]; simp
    rw [getLastD_cons hne] at hroom ⊢
    rw [dropLast_cons_reverse hne, climb_snoc]
    have hpg : pagesOf (getPage env t) (h + 1) n = n :: ((A.flatMap fun e => pagesOf (getPage env t) h e.2) ++
        (pagesOf (getPage env t) h c ++ B.flatMap fun e => pagesOf (getPage env t) h e.2)) := by
      rw [pagesOf_succ h1, hes, List.flatMap_append, List.flatMap_cons]
    have hct : contents (getPage env t) (h + 1) n = (A.flatMap fun e => contents (getPage env t) h e.2) ++
        (contents (getPage env t) h c ++ B.flatMap fun e => contents (getPage env t) h e.2) := by
      rw [contents_succ h1, hes, List.flatMap_append, List.flatMap_cons]
    have hsafe' := hsafe p A k c B h1 g2
    have hsub : ∀ x ∈ pagesOf (getPage env t) h c, x ∈ pagesOf (getPage env t) (h + 1) n := by
      intro x hx; rw [hpg]; simp only [List.mem_cons, List.mem_append]; exact .inr (.inr (.inl hx))
    have hnd' := hnd
    rw [hpg] at hnd'
    have hndc : (pagesOf (getPage env t) h c).Nodup := by
      simp only [List.nodup_cons, List.nodup_append] at hnd'
      exact hnd'.2.2.1.1
    obtain ⟨t1, st, d, c', a1, a2, a3, a4, a5, a6⟩ := ih hr hI hfoc.1 g3 (inRange_child hin g2.2.1 g2.2.2) hndc
      (fun x hx => hb x (hsub x hx)) (fun x hx => hd x (List.mem_cons_of_mem _ hx))
      (by
        intro hm; apply hkey; rw [hct, List.map_append, List.map_append, List.mem_append, List.mem_append]
        exact .inr (.inl hm)) hroom hsafe'.1 (by omega)
    rw [a1, Res.ok_bind]
    have hnb := hb n (self_mem_pagesOf _ _ n)
    have hnc : n ∉ pagesOf (getPage env t) h c := by
      simp only [List.nodup_cons, List.mem_append, not_or] at hnd'
      exact hnd'.1.2.1
    have hnp : n ∉ path' := fun hx => hnc (isPath_mem g3 n hx)
    have hsib : ∀ e, e ∈ A ∨ e ∈ B → ∀ x ∈ pagesOf (getPage env t) h e.2, getPage env t1 x = getPage env t x := by
      intro e he x hx
      have hxn : x ∈ pagesOf (getPage env t) (h + 1) n := by
        rw [hpg]; simp only [List.mem_cons, List.mem_append]
        rcases he with he | he
        · exact .inr (.inl (List.mem_flatMap.2 ⟨e, he, hx⟩))
        · exact .inr (.inr (.inr (List.mem_flatMap.2 ⟨e, he, hx⟩)))
      apply a2.view env (hb x hxn).1
      intro hxp
      have hxc := isPath_mem g3 x hxp
      simp only [List.nodup_cons, List.nodup_append, List.mem_append] at hnd'
      obtain ⟨-, -, ⟨-, -, hcb⟩, hab⟩ := hnd'
      rcases he with he | he
      · exact hab x (List.mem_flatMap.2 ⟨e, he, hx⟩) x (.inl hxc) rfl
      · exact hcb x hxc x (List.mem_flatMap.2 ⟨e, he, hx⟩) rfl
    have hmono : ∀ l u x, x ∈ A.map Prod.snd ∨ x ∈ B.map Prod.snd → WFT (getPage env t) h l u x → WFT (getPage env t1) h l u x := by
      intro l u x hx
      rcases hx with hx | hx
      · obtain ⟨e, he, rfl⟩ := List.mem_map.1 hx
        exact (frame h (hsib e (.inl he))).2.2 l u
      · obtain ⟨e, he, rfl⟩ := List.mem_map.1 hx
        exact (frame h (hsib e (.inr he))).2.2 l u
    have hcA := flatMap_congr' fun e he => (frame h (hsib e (.inl he))).1
    have hcB := flatMap_congr' fun e he => (frame h (hsib e (.inr he))).1
    have hpA := flatMap_congr' fun e he => (frame h (hsib e (.inl he))).2.1
    have hpB := flatMap_congr' fun e he => (frame h (hsib e (.inr he))).2.1
    have hr1 : t1.rdonly = false := by rw [a2.rdonly, hr]
    have hn1 : getPage env t1 n = .ok p := by rw [a2.view env hnb.1 hnp, h1]
    have hd1 : t1.getDirty n = some p := by
      rw [a2.same n hnb.1 hnp]
      obtain ⟨q, hq⟩ := hd n List.mem_cons_self
      have := getPage_dirty (env := env) hr hq
      rw [h1] at this; cases this; exact hq
    have hbl : ∀ x ∈ n :: ((A.flatMap fun e => pagesOf (getPage env t) h e.2) ++
        (pagesOf (getPage env t) h c ++ B.flatMap fun e => pagesOf (getPage env t) h e.2)), x ≤ t.newLast := by
      intro x hx; rw [← hpg] at hx; exact (hb x hx).1
    have hevo : Evo I (n :: path') t t1 := a2.mono fun x hx => List.mem_cons_of_mem _ hx
    by_cases hst : st = .success
    · -- the child was split
      subst hst
      simp only [if_true]
      obtain ⟨⟨w1, w2, w3, w4, ⟨X, Y, w5, w6⟩, w7, w8, -, w9, w10, w11⟩, -⟩ := a4 rfl
      have hsafe2 := hsafe'.2 d w9
      have hfull : Full (getPage env t) (h + 1) n → ∀ e ∈ A ++ (k, c) :: (d, c') :: B, Full (getPage env t1) h e.2 := by
        intro hf e he
        have hfc := w10 (hf p h1 (k, c) (by rw [hes]; simp))
        simp only [List.mem_append, List.mem_cons] at he
        rcases he with he | rfl | rfl | he
        · exact full_frame h (hsib e (.inl he)) (hf p h1 e (by rw [hes]; simp [he]))
        · exact hfc.1
        · exact hfc.2
        · exact full_frame h (hsib e (.inr he)) (hf p h1 e (by rw [hes]; simp [he]))
      have hKids := (hfoc.2 (WFT (getPage env t1) h) hmono).2 d c' w1 w2 w3 w4
      have hsw := nodup_swap hnd' w7 (fun x hx => (w8 x hx).imp id And.left) hbl
      have hcE : (A ++ (k, c) :: (d, c') :: B).flatMap (fun e => contents (getPage env t1) h e.2) =
          ((A.flatMap fun e => contents (getPage env t) h e.2) ++ X) ++ (key, val) :: (Y ++ B.flatMap fun e => contents (getPage env t) h e.2) := by
        rw [List.flatMap_append, List.flatMap_cons, List.flatMap_cons, hcA, hcB, ← List.append_assoc (contents _ h (k, c).2), w6]
        simp
      have hpE : (A ++ (k, c) :: (d, c') :: B).flatMap (fun e => pagesOf (getPage env t1) h e.2) =
          (A.flatMap fun e => pagesOf (getPage env t) h e.2) ++ ((pagesOf (getPage env t1) h c ++ pagesOf (getPage env t1) h c') ++
            B.flatMap fun e => pagesOf (getPage env t) h e.2) := by
        rw [List.flatMap_append, List.flatMap_cons, List.flatMap_cons, hpA, hpB]
        simp
      have hct' : contents (getPage env t) (h + 1) n = ((A.flatMap fun e => contents (getPage env t) h e.2) ++ X) ++
          (Y ++ B.flatMap fun e => contents (getPage env t) h e.2) := by
        rw [hct, w5]; simp
      rw [← hpE] at hsw
      have hpgE : ∀ x ∈ (A ++ (k, c) :: (d, c') :: B).flatMap (fun e => pagesOf (getPage env t1) h e.2),
          x ∈ pagesOf (getPage env t) (h + 1) n ∨ (t.newLast < x ∧ x ≤ t1.newLast) := by
        intro x hx
        rw [hpE] at hx
        rw [hpg]
        simp only [List.mem_append, List.mem_cons] at hx ⊢
        rcases hx with hx | hx | hx
        · exact .inl (.inr (.inl hx))
        · rcases w8 x (List.mem_append.2 hx) with hx | hx
          · exact .inl (.inr (.inr (.inl hx)))
          · exact .inr hx
        · exact .inl (.inr (.inr (.inr hx)))
      have hkeep : ∀ x ∈ pagesOf (getPage env t) (h + 1) n,
          x = n ∨ x ∈ (A ++ (k, c) :: (d, c') :: B).flatMap (fun e => pagesOf (getPage env t1) h e.2) := by
        intro x hx
        rw [hpE]
        rw [hpg] at hx
        simp only [List.mem_append, List.mem_cons] at hx ⊢
        rcases hx with hx | hx | hx | hx
        · exact .inl hx
        · exact .inr (.inl hx)
        · exact .inr (.inr (.inl (List.mem_append.1 (w11 x hx))))
        · exact .inr (.inr (.inr hx))
      -- the new separator in the page
      have hitems : items p = (A ++ [(k, c)]).map (fun e => Item.branch e.1 e.2) ++ B.map fun e => Item.branch e.1 e.2 := by
        rw [items_branch h4, hes]; simp
      have hkeys : keys p = A.map Prod.fst ++ k :: B.map Prod.fst := by
        rw [keys_eq_entries, hes]; simp
      have hs5 := h5
      rw [hkeys, sorted_append, sorted_cons] at hs5
      obtain ⟨s1, ⟨s2, s3⟩, s4⟩ := hs5
      have hkd : k < d := by
        by_cases hA : A = []
        · exact hsafe2.1 hA
        · unfold loOf at w3; rw [if_neg hA] at w3; exact gtLo_some.1 w3
      have hAd : ∀ a ∈ (A ++ [(k, c)]).map (fun e => Item.branch e.1 e.2), a.key < d := by
        intro a ha
        obtain ⟨e, he, rfl⟩ := List.mem_map.1 ha
        rcases List.mem_append.1 he with he | he
        · exact blt_trans (s4 e.1 (List.mem_map_of_mem he) k List.mem_cons_self) hkd
        · simp only [List.mem_singleton] at he; subst he; exact hkd
      have hBd : ∀ b ∈ B.map (fun e => Item.branch e.1 e.2), d < b.key := by
        intro b hb
        obtain ⟨e, he, rfl⟩ := List.mem_map.1 hb
        show d < e.1
        match B, he, w4, s3 with
        | (k', x) :: B, he, w4, s3 =>
          have hdk : d < k' := w4 k' rfl
          rcases List.mem_cons.1 he with rfl | he
          · exact hdk
          · rw [List.map_cons, sorted_cons] at s3
            exact blt_trans hdk (s3.1 e.1 (List.mem_map_of_mem he))
      have hdl : d.length + 10 < 65536 := by
        have := overflow_key_small hfoc.1 w9; omega
      have hc64 : c' < 2 ^ 64 := by
        rcases w8 c' (List.mem_append_right _ (self_mem_pagesOf _ h c')) with hx | hx
        · have := (hb c' (hsub c' hx)).1; omega
        · omega
      have hprobe := probe_at h3 h5 (key := d) (by omega) hitems hAd hBd
      have hagree : ∀ t2 : Txn, t2.rdonly = false → (∀ x ≤ t1.newLast, x ≠ n → t2.getDirty x = t1.getDirty x) →
          ∀ x ∈ (A ++ (k, c) :: (d, c') :: B).flatMap (fun e => pagesOf (getPage env t1) h e.2), getPage env t2 x = getPage env t1 x := by
        intro t2 hr2 hsame x hx
        unfold getPage
        rw [hr2, hr1, hsame x _ (fun hxn => hsw.2 (hxn ▸ hx))]
        rcases hpgE x hx with hx | hx
        · have := (hb x hx).1; have := a2.last; omega
        · exact hx.2
      rcases insert_at h3 hitems (it := .branch d c') (by rw [h4]; rfl) (by simp only [Item.size]; omega) (by simpa [Item.child] using hc64) with
        ⟨b1, b2⟩ | ⟨b1, q, b2, b3, b4, b5, b6, b7⟩
      · -- this page is split too
        have hs2 := hsafe2.2 (by simp only [Item.size] at b1; omega)
        have hlenA : ((A ++ [(k, c)]).map (fun e => Item.branch e.1 e.2)).length = A.length + 1 := by simp
        obtain ⟨s, t2, st2, t3, c1, c2, c3, c4, c5, c6, c7, -, c8⟩ := splitInsert_spec hE a2.inv (by have := a2.last; omega) hnb.2 hd1 h2 h3 h5 (by omega)
          hitems (it := .branch d c') hAd hBd (by rw [h4]; rfl) (by simp only [Item.size]; omega) (by simpa [Item.child] using hc64)
          (by show d.length < 65536; omega) hs2.1 (by rw [hlenA]; exact hs2.2)
        rw [h4] at c1
        have hprop : propagate al [n] t1 d c' = .ok (t3, (if st2 = .success then (.success, s.divider, s.no) else (st2, d, c'))) := by
          rw [propagate]
          simp only [hd1]
          rw [hprobe, Res.ok_bind]
          simp only [Found.idx]
          rw [b2, Res.ok_bind]
          simp only
          rw [c1, Res.ok_bind]
          simp only
          rw [c2, Res.ok_bind]
          rcases c7 with rfl | rfl
          · rfl
          · rfl
        have hev3 : Evo I (n :: path') t t3 := a2.trans c5 (fun x hx => List.mem_cons_of_mem _ hx) (by simp)
        rcases c7 with rfl | rfl
        · refine ⟨t3, .success, s.divider, s.no, hprop, hev3, by omega, ?_, (by intro hh; cases hh), .inl rfl⟩
          intro _
          obtain ⟨L, R, D, R', d1, d2, d3, d4, d5, d6, d7, d8, d9, d10, d11, d12, -⟩ := c8 rfl
          have hr3 : t3.rdonly = false := by rw [hev3.rdonly, hr]
          have gL := getPage_dirty (env := env) hr3 d1
          have gR := getPage_dirty (env := env) hr3 d2
          have hfk := frame_kids (lo := lo) (hi := hi) (hagree t3 hr3 (fun x hx hxn => c5.same x hx (by simpa using hxn)))
          have hLR : entries L ++ entries R = A ++ (k, c) :: (d, c') :: B := by
            rw [entries_eq_of_items d9, entries_map_inv, entries_map_inv]; simp [Item.key, Item.child]
          have hRD : entries R = (s.divider, D.child) :: R'.map fun i => (i.key, i.child) := by
            unfold entries; rw [d11, List.map_cons, d12]
          have hLne : entries L ≠ [] := by
            unfold entries; intro hh; exact d10 (List.map_eq_nil_iff.1 hh)
          have hK3 := hfk.1 hKids
          rw [← hLR] at hK3
          have hsplit := kids_split (d := s.divider) (c := D.child) (B := R'.map fun i => (i.key, i.child)) hLne (by rw [← hRD]; exact hK3)
          have hsort := sorted_mid h5 hitems (it := .branch d c') hAd hBd
          rw [← d9, List.map_append, sorted_append] at hsort
          obtain ⟨sL, sR, sLR⟩ := hsort
          have hpages3 := hfk.2.2
          have hcont3 := hfk.2.1
          rw [← hLR, List.flatMap_append, hLR] at hpages3 hcont3
          have hpL : pagesOf (getPage env t3) (h + 1) n = n :: (entries L).flatMap fun e => pagesOf (getPage env t3) h e.2 := pagesOf_succ gL
          have hpR : pagesOf (getPage env t3) (h + 1) s.no = s.no :: (entries R).flatMap fun e => pagesOf (getPage env t3) h e.2 := pagesOf_succ gR
          have hno : ∀ x ∈ (A ++ (k, c) :: (d, c') :: B).flatMap (fun e => pagesOf (getPage env t1) h e.2), x ≤ t1.newLast := by
            intro x hx
            rcases hpgE x hx with hx | hx
            · have := (hb x hx).1; have := a2.last; omega
            · exact hx.2
          refine ⟨⟨⟨L, gL, d7.trans h2, d3, by rw [d5, h4], sL, hsplit.1⟩, ⟨R, gR, d8, d4, by rw [d6, h4], sR, by rw [hRD]; exact hsplit.2.1⟩,
            hsplit.2.2.1, hsplit.2.2.2, ?_, ?_, ?_, ⟨L, gL, d10, ?_⟩, ⟨p, A, k, c, B, d, h1, g2, w9, by simp only [Item.size] at b1; omega, c6⟩, ?_, ?_⟩, L, d1⟩
          · refine ⟨_, _, hct', ?_⟩
            rw [contents_succ gL, contents_succ gR, hcont3, hcE]
          · have hnd3 := hsw.1
            rw [← hpages3] at hnd3
            rw [hpL, hpR]
            have hno' : s.no ∉ n :: ((entries L).flatMap (fun e => pagesOf (getPage env t3) h e.2) ++ (entries R).flatMap (fun e => pagesOf (getPage env t3) h e.2)) := by
              rw [hpages3]
              intro hx
              rcases List.mem_cons.1 hx with hx | hx
              · have := a2.last; omega
              · have := hno _ hx; omega
            have hperm : (n :: (entries L).flatMap (fun e => pagesOf (getPage env t3) h e.2) ++ s.no :: (entries R).flatMap (fun e => pagesOf (getPage env t3) h e.2)).Perm
                (s.no :: (n :: ((entries L).flatMap (fun e => pagesOf (getPage env t3) h e.2) ++ (entries R).flatMap (fun e => pagesOf (getPage env t3) h e.2)))) :=
              List.perm_middle
            exact hperm.nodup_iff.2 (List.nodup_cons.2 ⟨hno', hnd3⟩)
          · intro x hx
            rw [hpL, hpR] at hx
            have hx' : x = n ∨ x = s.no ∨ x ∈ (A ++ (k, c) :: (d, c') :: B).flatMap (fun e => pagesOf (getPage env t1) h e.2) := by
              rw [← hpages3]
              simp only [List.mem_append, List.mem_cons] at hx ⊢
              rcases hx with (hx | hx) | hx | hx
              · exact .inl hx
              · exact .inr (.inr (.inl hx))
              · exact .inr (.inl hx)
              · exact .inr (.inr (.inr hx))
            have := a2.last
            rcases hx' with rfl | rfl | hx
            · exact .inl (self_mem_pagesOf _ _ _)
            · right; omega
            · rcases hpgE x hx with hx | hx
              · exact .inl hx
              · right; omega
          · intro k' hk'
            apply sLR k' hk'
            rw [d11, List.map_cons, d12]; exact List.mem_cons_self
          · intro hf
            have hall : ∀ e ∈ entries L ++ entries R, Full (getPage env t3) h e.2 := by
              rw [hLR]
              intro e he
              refine full_frame h (fun x hx => ?_) (hfull hf e he)
              exact hagree t3 hr3 (fun x hx hxn => c5.same x hx (by simpa using hxn)) x (List.mem_flatMap.2 ⟨e, he, hx⟩)
            refine ⟨fun q hq e he => ?_, fun q hq e he => ?_⟩
            · rw [gL] at hq; cases hq; exact hall e (List.mem_append_left _ he)
            · rw [gR] at hq; cases hq; exact hall e (List.mem_append_right _ he)
          · intro x hx
            rw [hpL, hpR]
            rcases hkeep x hx with rfl | hx
            · simp
            · rw [← hpages3] at hx
              simp only [List.mem_append, List.mem_cons] at hx ⊢
              rcases hx with hx | hx
              · exact .inl (.inr hx)
              · exact .inr (.inr hx)
        · exact ⟨t3, .nospc, d, c', hprop, hev3, by omega, (by intro hh; cases hh), (by intro hh; cases hh), .inr (.inr rfl)⟩
      · -- the page takes the separator
        have hprop : propagate al [n] t1 d c' = .ok (t1.setDirty n q, .incomplete, d, c') := by
          rw [propagate]
          simp only [hd1]
          rw [hprobe, Res.ok_bind]
          simp only [Found.idx]
          rw [b2, Res.ok_bind]
        have hr2 : (t1.setDirty n q).rdonly = false := hr1
        have hev2 := Evo.set hE a2.inv hnb.2 (Nat.le_trans hnb.1 a2.last) (b5.trans h2) b3
        refine ⟨t1.setDirty n q, .incomplete, d, c', hprop, a2.trans hev2 (fun x hx => List.mem_cons_of_mem _ hx) (by simp),
          by show t1.newLast ≤ _; omega, (by intro hh; cases hh), ?_, .inr (.inl rfl)⟩
        intro _
        have hfk := frame_kids (lo := lo) (hi := hi) (hagree _ hr2 (fun x hx hxn => hev2.same x hx (by simpa using hxn)))
        have gq : getPage env (t1.setDirty n q) n = .ok q := by rw [getPage_set hr1, if_pos rfl]
        have heq : entries q = A ++ (k, c) :: (d, c') :: B := by
          have := entries_eq_of_items (L := q) (R := emptyPage true 0) (A := (A ++ [(k, c)]).map (fun e => Item.branch e.1 e.2)) (it := .branch d c')
            (B := B.map fun e => Item.branch e.1 e.2) (by rw [b4, emptyPage_items true 0 (by decide), List.append_nil])
          rw [entries_map_inv, entries_map_inv] at this
          have he : entries (emptyPage true 0) = [] := by unfold entries; rw [emptyPage_items true 0 (by decide)]; rfl
          rw [he, List.append_nil] at this
          rw [this]; simp [Item.key, Item.child]
        refine ⟨⟨q, gq, b5.trans h2, b3, by rw [b6, h4], ?_, by rw [heq]; exact hfk.1 hKids⟩, ⟨_, _, hct', ?_⟩, ?_, ?_, ?_, ?_⟩
        · unfold keys; rw [b4]; exact sorted_mid h5 hitems (it := .branch d c') hAd hBd
        · rw [contents_succ gq, heq, hfk.2.1, hcE]
        · rw [pagesOf_succ gq, heq, hfk.2.2]; exact hsw.1
        · intro x hx
          rw [pagesOf_succ gq, heq, hfk.2.2] at hx
          rcases List.mem_cons.1 hx with rfl | hx
          · exact .inl (self_mem_pagesOf _ _ _)
          · exact hpgE x hx
        · intro hf q' hq' e he
          rw [gq] at hq'; cases hq'
          rw [heq] at he
          refine full_frame h (fun x hx => ?_) (hfull hf e he)
          exact hagree _ hr2 (fun x hx hxn => hev2.same x hx (by simpa using hxn)) x (List.mem_flatMap.2 ⟨e, he, hx⟩)
        · intro x hx
          rw [pagesOf_succ gq, heq, hfk.2.2]
          exact List.mem_cons.2 (hkeep x hx)
    · simp only [hst, if_false]
      refine ⟨t1, st, d, c', rfl, hevo, by omega, fun hh => absurd hh hst, ?_, a6⟩
      intro hh
      obtain ⟨w1, ⟨X, Y, w5, w6⟩, w7, w8, w10, w11⟩ := a5 hh
      have hsw := nodup_swap hnd' w7 (fun x hx => (w8 x hx).imp id And.left) hbl
      have hpn : pagesOf (getPage env t1) (h + 1) n = n :: ((A.flatMap fun e => pagesOf (getPage env t) h e.2) ++
          (pagesOf (getPage env t1) h c ++ B.flatMap fun e => pagesOf (getPage env t) h e.2)) := by
        rw [pagesOf_succ hn1, hes, List.flatMap_append, List.flatMap_cons, hpA, hpB]
      refine ⟨⟨p, hn1, h2, h3, h4, h5, ?_⟩, ⟨(A.flatMap fun e => contents (getPage env t) h e.2) ++ X, Y ++ B.flatMap fun e => contents (getPage env t) h e.2, ?_, ?_⟩, ?_, ?_, ?_, ?_⟩
      · rw [hes]; exact (hfoc.2 (WFT (getPage env t1) h) hmono).1 w1
      · rw [hct, w5]; simp
      · rw [contents_succ hn1, hes, List.flatMap_append, List.flatMap_cons, hcA, hcB, w6]; simp
      · rw [hpn]; exact hsw.1
      · rw [hpn, hpg]
        intro x hx
        simp only [List.mem_append, List.mem_cons] at hx ⊢
        rcases hx with hx | hx | hx | hx
        · exact .inl (.inl hx)
        · exact .inl (.inr (.inl hx))
        · rcases w8 x hx with hx | hx
          · exact .inl (.inr (.inr (.inl hx)))
          · exact .inr hx
        · exact .inl (.inr (.inr (.inr hx)))
      · intro hf q hq e he
        rw [hn1] at hq; cases hq
        have he' := he
        rw [hes] at he'
        simp only [List.mem_append, List.mem_cons] at he'
        rcases he' with he' | rfl | he'
        · exact full_frame h (hsib e (.inl he')) (hf p h1 e he)
        · exact w10 (hf p h1 _ he)
        · exact full_frame h (hsib e (.inr he')) (hf p h1 e he)
      · rw [hpn, hpg]
        intro x hx
        simp only [List.mem_append, List.mem_cons] at hx ⊢
        rcases hx with hx | hx | hx | hx
        · exact .inl hx
        · exact .inr (.inl hx)
        · exact .inr (.inr (.inl (w11 x hx)))
        · exact .inr (.inr (.inr hx))

end Verif.Db
