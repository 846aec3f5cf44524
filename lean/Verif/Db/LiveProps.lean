import Verif.Db.LiveWalk
import Verif.Db.Witness
import Verif.Db.BlockedProps

/-!
# Properties of cursors whose transaction changes the database (C136)
-/

namespace Verif.Db

open Verif.Page

/-- C136, nothing changed: a cursor that keeps pointers and one that keeps the pages answer every call alike, stay alike, and are
undefined or endless at the same calls. -/
theorem pointers_are_pages {env : Env} {t : Txn} {fuel : Nat} {a : LCursor} {c : Cursor} (he : a.eof = c.eof) (h : Shows (Now env t) a.stack c.stack) (op : Op) :
    match lcursorGet env t fuel a op, cursorGet env t fuel c op with
    | .ok x, .ok y => x.2 = y.2 ∧ x.1.eof = y.1.eof ∧ Shows (Now env t) x.1.stack y.1.stack
    | .ub, .ub => True
    | .div, .div => True
    | _, _ => False := by
  have key := lmove_same fuel he h op
  unfold lcursorGet cursorGet
  cases h1 : lmove env t fuel a op with
  | ub => cases h2 : move env t fuel c op <;> rw [h1, h2] at key <;> first | trivial | exact key.elim
  | div => cases h2 : move env t fuel c op <;> rw [h1, h2] at key <;> first | trivial | exact key.elim
  | ok x =>
    cases h2 : move env t fuel c op with
    | ub => rw [h1, h2] at key; exact key.elim
    | div => rw [h1, h2] at key; exact key.elim
    | ok y =>
      rw [h1, h2] at key
      obtain ⟨sx, lx⟩ := x
      obtain ⟨sy, ly⟩ := y
      obtain ⟨k1, k2, k3⟩ := key
      simp only at k1 k2 k3
      subst k1
      rw [Res.ok_bind, Res.ok_bind]
      by_cases hs : sx = .success
      · simp only [if_pos hs]
        rw [latCursor_same k2 k3]
        cases atCursor ly with
        | ub => trivial
        | div => trivial
        | ok v => exact ⟨rfl, k2, k3⟩
      · simp only [if_neg hs]; exact ⟨trivial, k2, k3⟩

/-- C136, what a cursor shows of a leaf that was not yet changed when it came there: whatever the transaction does afterwards (`t'` is any
later state), the cursor still shows the pair it stood on, and stepping forward or back inside the leaf shows the pairs of the old leaf —
deleted ones too, and none of the new ones. -/
theorem old_leaf_stays {env : Env} (t t' : Txn) {fuel no i : Nat} {rest : List (Ref × Nat)} {p : Page} (hp : mapPage env no = .ok p) :
    lcursorGet env t' fuel ⟨(⟨no, false⟩, i) :: rest, false⟩ .current = lcursorGet env t fuel ⟨(⟨no, false⟩, i) :: rest, false⟩ .current ∧
    (i + 1 < numKeys p → lcursorGet env t' fuel ⟨(⟨no, false⟩, i) :: rest, false⟩ .next = lcursorGet env t fuel ⟨(⟨no, false⟩, i) :: rest, false⟩ .next) ∧
    (0 < i → lcursorGet env t' fuel ⟨(⟨no, false⟩, i) :: rest, false⟩ .prev = lcursorGet env t fuel ⟨(⟨no, false⟩, i) :: rest, false⟩ .prev) := by
  have hr : ∀ t, (Ref.mk no false).page env t = .ok p := fun _ => hp
  refine ⟨?_, fun h => ?_, fun h => ?_⟩
  · simp only [lcursorGet, lmove, latCursor, hr, Res.ok_bind, Bool.false_eq_true, if_false]
  · have hm : (i + 1) % 65536 = i + 1 := Nat.mod_eq_of_lt (by have := numKeys_lt p; omega)
    simp only [lcursorGet, lmove, lnext, latCursor, hr, Res.ok_bind, hm, if_pos h, Bool.false_eq_true, if_false]
  · simp only [lcursorGet, lmove, lprev, latCursor, hr, Res.ok_bind, if_pos h, Bool.false_eq_true, if_false]

/-! ### Deleting on the way -/

/-- A loop of the caller: look at the pair under the cursor, delete it if `pick` says so, step on; until a step fails.  The pairs seen, the last
status and the transaction at the end. -/
def sweep (env : Env) (fuel : Nat) (pick : Bytes × Bytes → Bool) : Nat → Txn → LCursor × Except Status (Bytes × Bytes) → Res (List (Bytes × Bytes) × Status × Txn)
  | 0, _, _ => .div
  | n + 1, t, r =>
    match r.2 with
    | .error e => .ok ([], e, t)
    | .ok kv => do
      let t' ← (if pick kv then do
        let d ← del env t kv.1
        .ok d.2
      else .ok t)
      let r' ← lcursorGet env t' fuel r.1 .next
      let rest ← sweep env fuel pick n t' r'
      .ok (kv :: rest.1, rest.2)

/-- The loop from the first pair on, with a new cursor. -/
def sweepAll (env : Env) (fuel n : Nat) (pick : Bytes × Bytes → Bool) (t : Txn) : Res (List (Bytes × Bytes) × Status × Txn) := do
  let r ← lcursorGet env t fuel LCursor.opened (.seek .first)
  sweep env fuel pick n t r

theorem kvs_short {p : Page} : ∀ x ∈ kvs p, x.1.length < 65536 := by
  intro x hx
  unfold kvs items at hx
  rw [List.map_map] at hx
  obtain ⟨i, -, rfl⟩ := List.mem_map.1 hx
  simp only [Function.comp, itemAt]
  split
  · simp only [Item.key, slice_length]
    exact u16_lt _ _
  · simp only [Item.key, slice_length]
    exact u16_lt _ _

theorem contents_short {g : View} (h : Nat) : ∀ {n : Nat}, Shape g True h n → ∀ x ∈ contents g h n, x.1.length < 65536 := by
  induction h with
  | zero => rintro n ⟨p, h1, -⟩ x hx; rw [contents_zero h1] at hx; exact kvs_short x hx
  | succ h ih =>
    rintro n ⟨p, h1, -, -, -, h5⟩ x hx
    rw [contents_succ h1] at hx
    obtain ⟨e, he, hx⟩ := List.mem_flatMap.1 hx
    exact ih (h5 e he) x hx

theorem lseekDown_first {env : Env} {t : Txn} : ∀ (h : Nat) {fuel : Nat} {l : List (Ref × Nat)} {st : List (Page × Nat)} {n : Nat}, h < fuel →
    Shape (getPage env t) True h n → LeavesMapped env t (pagesOf (getPage env t) h n) →
    Shows (Firm env t) l st → AlikeStack (Firm env t) (lseekDown env t .first fuel l n) (seekDown env t .first fuel st n) := by
  intro h
  induction h with
  | zero =>
    rintro fuel l st n hf ⟨p, h1, h2, h3, h4⟩ hm hs
    obtain ⟨fuel, rfl⟩ : ∃ f, fuel = f + 1 := ⟨fuel - 1, by omega⟩
    obtain ⟨q1, q2⟩ := firm_refOf (Lasting.refl env t fun _ => False) h1 (fun hl => ⟨fun _ _ h => h, hm n (self_mem_pagesOf _ _ _) p h1 hl⟩)
    rw [lseekDown, seekDown, q2, h1, Res.ok_bind, Res.ok_bind, if_pos h3, if_pos h3]
    exact ⟨rfl, shows_push hs q1 0⟩
  | succ h ih =>
    rintro fuel l st n hf ⟨p, h1, h2, h3, h4, h5⟩ hm hs
    obtain ⟨fuel, rfl⟩ : ∃ f, fuel = f + 1 := ⟨fuel - 1, by omega⟩
    obtain ⟨⟨ky, c⟩, B, hB⟩ := List.exists_cons_of_ne_nil h4
    have hc : child p 0 = .ok c := child_spec h2 h3 (A := []) hB
    obtain ⟨q1, q2⟩ := firm_refOf (Lasting.refl env t fun _ => False) h1 (fun hl => by rw [h3] at hl; cases hl)
    have hmem : (ky, c) ∈ entries p := by rw [hB]; exact List.mem_cons_self
    have hb := wf_isBranch h2 h3
    have n1 : ¬ isLeaf p = true := by rw [h3]; decide
    have n2 : ¬ (!isBranch p) = true := by rw [hb]; decide
    rw [lseekDown, seekDown, q2, h1, Res.ok_bind, Res.ok_bind, if_neg n1, if_neg n1, if_neg n2, if_neg n2]
    simp only [seekIdx, Res.ok_bind, hc]
    refine ih (by omega) (h5 _ hmem) ?_ (shows_push hs q1 0)
    intro x hx; apply hm; rw [pagesOf_succ h1]; exact List.mem_cons_of_mem _ (List.mem_flatMap.2 ⟨_, hmem, hx⟩)

theorem lseek_first {env : Env} {t : Txn} {H fuel : Nat} (hf : H < fuel) (hs : Shape (getPage env t) True H t.root)
    (hm : LeavesMapped env t (pagesOf (getPage env t) H t.root)) : Alike (Firm env t) (lseek env t fuel .first) (seek env t fuel .first) := by
  unfold lseek seek
  by_cases h0 : t.root = 0
  · rw [if_pos h0, if_pos h0]; exact ⟨rfl, rfl, trivial⟩
  · rw [if_neg h0, if_neg h0]
    have key := lseekDown_first H (l := []) (st := []) hf hs hm trivial
    cases h1 : lseekDown env t .first fuel [] t.root with
    | ub => cases h2 : seekDown env t .first fuel [] t.root <;> rw [h1, h2] at key <;> first | trivial | exact key.elim
    | div => cases h2 : seekDown env t .first fuel [] t.root <;> rw [h1, h2] at key <;> first | trivial | exact key.elim
    | ok a =>
      cases h2 : seekDown env t .first fuel [] t.root with
      | ub => rw [h1, h2] at key; exact key.elim
      | div => rw [h1, h2] at key; exact key.elim
      | ok b =>
        rw [h1, h2] at key
        obtain ⟨sa, la⟩ := a
        obtain ⟨sb, lb⟩ := b
        obtain ⟨k1, k2⟩ := key
        simp only at k1 k2
        subst k1
        rw [Res.ok_bind, Res.ok_bind]
        by_cases hs : sa = .success
        · rw [if_pos hs, if_pos hs]
          match la, lb, k2 with
          | [], [], _ => trivial
          | (x, i) :: la, (p, j) :: lb, ⟨q1, q2, q3⟩ =>
            subst q2
            simp only [leafIdx]
            rw [q1.1, Res.ok_bind, Res.ok_bind, Res.ok_bind]
            simp only []
            by_cases hn : numKeys p = 0
            · rw [if_pos hn, if_pos hn]; exact ⟨rfl, rfl, q1, rfl, q3⟩
            · rw [if_neg hn, if_neg hn]; exact ⟨rfl, rfl, q1, rfl, q3⟩
        · rw [if_neg hs, if_neg hs]; exact ⟨rfl, rfl, k2⟩

theorem alike_ok {Q : Ref → Page → Prop} {r : Res (Status × LCursor)} {s : Status} {c : Cursor} (h : Alike Q r (.ok (s, c))) :
    ∃ l, r = .ok (s, ⟨l, c.eof⟩) ∧ Shows Q l c.stack := by
  cases r with
  | ub => exact h.elim
  | div => exact h.elim
  | ok a =>
    obtain ⟨sa, l, e⟩ := a
    obtain ⟨h1, h2, h3⟩ := h
    simp only at h1 h2 h3
    exact ⟨l, by rw [h1, h2], h3⟩

/-- The pair under a cursor that corresponds to one at `kv`, in whatever state its transaction is. -/
theorem latCursor_firm {env : Env} {t0 t1 : Txn} {H root : Nat} {st : List (Page × Nat)} {l : List (Ref × Nat)} {A B : List (Bytes × Bytes)} {kv : Bytes × Bytes}
    (h : At (getPage env t0) True H root st A kv B) (hs : Shows (Firm env t1) l st) : latCursor env t1 ⟨l, false⟩ = .ok (.ok kv) := by
  rw [latCursor_same (c := ⟨st, false⟩) rfl (shows_mono (fun _ _ h => h.1) hs)]
  exact atCursor_spec h

theorem split_unique {A B A' B' : List (Bytes × Bytes)} {k v v' : Bytes} (h : A ++ (k, v) :: B = A' ++ (k, v') :: B') (h1 : ∀ a ∈ A, a.1 < k)
    (h2 : ∀ a ∈ A', a.1 < k) : A = A' ∧ B = B' := by
  induction A generalizing A' with
  | nil =>
    cases A' with
    | nil => simp at h; exact ⟨rfl, h.2⟩
    | cons a A' =>
      simp only [List.nil_append, List.cons_append, List.cons.injEq] at h
      have := h2 a List.mem_cons_self
      rw [← h.1] at this
      exact absurd this (blt_irrefl _)
  | cons a A ih =>
    cases A' with
    | nil =>
      simp only [List.nil_append, List.cons_append, List.cons.injEq] at h
      have := h1 a List.mem_cons_self
      rw [h.1] at this
      exact absurd this (blt_irrefl _)
    | cons a' A' =>
      simp only [List.cons_append, List.cons.injEq] at h
      obtain ⟨e1, e2⟩ := ih h.2 (fun x hx => h1 x (List.mem_cons_of_mem _ hx)) (fun x hx => h2 x (List.mem_cons_of_mem _ hx))
      exact ⟨by rw [h.1, e1], e2⟩

/-- One round of the loop without the step. -/
theorem sweep_step {env : Env} {t0 t1 : Txn} {H : Nat} {pick : Bytes × Bytes → Bool} (hH : H < maxDepth) {A B : List (Bytes × Bytes)} {kv : Bytes × Bytes}
    {l : List (Ref × Nat)} {st : List (Page × Nat)} (hkey : kv.1.length < 65536)
    (hs : Shows (Firm env t1) l st) (hk : Lasting env t0 t1 (fun k => ∃ x ∈ A, pick x = true ∧ x.1 = k)) (hw : t1.rdonly = false)
    (hh : Holds env t1 H (A.filter (fun x => !pick x) ++ kv :: B)) :
    ∃ t2, (if pick kv then (del env t1 kv.1 >>= fun d => .ok d.2) else .ok t1) = .ok t2 ∧ t2.rdonly = false ∧
      Lasting env t0 t2 (fun k => ∃ x ∈ A ++ [kv], pick x = true ∧ x.1 = k) ∧ Shows (Firm env t2) l st ∧
      Holds env t2 H ((A ++ [kv]).filter (fun x => !pick x) ++ B) := by
  have hmono := hk.mono (D' := fun k => ∃ x ∈ A ++ [kv], pick x = true ∧ x.1 = k) (by
    rintro k ⟨x, h1, h2⟩; exact ⟨x, List.mem_append_left _ h1, h2⟩)
  by_cases hp : pick kv = true
  · rw [if_pos hp]
    have hfil : (A ++ [kv]).filter (fun x => !pick x) ++ B = A.filter (fun x => !pick x) ++ B := by
      rw [List.filter_append]; simp [hp]
    rw [hfil]
    have hsrt := holds_sorted hh
    unfold Ascending at hsrt
    rw [List.map_append, List.map_cons, sorted_append, sorted_cons] at hsrt
    rcases del_spec hw hh hkey hH with ⟨hn, -⟩ | ⟨A', v, B', t2, a1, a2, a3, a4, a5, a6, -⟩
    · exfalso
      rw [lookup_none_iff] at hn
      exact hn (by simp)
    · obtain ⟨k, v0⟩ := kv
      obtain ⟨rfl, rfl⟩ := split_unique a1 (fun a ha => hsrt.2.2 _ (List.mem_map_of_mem ha) _ List.mem_cons_self) a2
      obtain ⟨b1, b2⟩ := del_kept hw hh hkey hH a4 hmono ⟨(k, v0), by simp, hp, rfl⟩
      exact ⟨t2, by rw [a4, Res.ok_bind], a6, b1, shows_mono b2 hs, a5⟩
  · rw [if_neg hp]
    have hfil : (A ++ [kv]).filter (fun x => !pick x) ++ B = A.filter (fun x => !pick x) ++ kv :: B := by
      rw [List.filter_append]; simp [hp]
    rw [hfil]
    exact ⟨t1, rfl, hw, hmono, hs, hh⟩

theorem sweep_spec {env : Env} {t0 : Txn} {H fuel : Nat} {pick : Bytes × Bytes → Bool} (hH : H < maxDepth) (hf : H < fuel)
    (hshort : ∀ x ∈ contents (getPage env t0) H t0.root, x.1.length < 65536)
    (hsorted : Ascending (contents (getPage env t0) H t0.root))
    (hm : LeavesMapped env t0 (pagesOf (getPage env t0) H t0.root)) (B : List (Bytes × Bytes)) :
    ∀ {n : Nat} {t1 : Txn} {l : List (Ref × Nat)} {st : List (Page × Nat)} {A : List (Bytes × Bytes)} {kv : Bytes × Bytes}, At (getPage env t0) True H t0.root st A kv B →
    Shows (Firm env t1) l st → Lasting env t0 t1 (fun k => ∃ x ∈ A, pick x = true ∧ x.1 = k) → t1.rdonly = false →
    Holds env t1 H (A.filter (fun x => !pick x) ++ kv :: B) → B.length + 1 < n →
    ∃ t', sweep env fuel pick n t1 (⟨l, false⟩, .ok kv) = .ok (kv :: B, .notfound, t') ∧ t'.rdonly = false ∧
      Holds env t' H ((A ++ kv :: B).filter fun x => !pick x) := by
  induction B with
  | nil =>
    intro n t1 l st A kv hat hs hk hw hh hn
    obtain ⟨n, rfl⟩ : ∃ m, n = m + 2 := ⟨n - 2, by simp at hn; omega⟩
    have hc := at_contents hat
    obtain ⟨t2, e1, e2, e3, e4, e5⟩ := sweep_step hH (hshort kv (by rw [hc]; simp)) hs hk hw hh
    have hnext := (next_spec hH hf hat).1 rfl
    have hal := lnext_kept e3 hf hm hat (by simp) e4
    rw [hnext] at hal
    obtain ⟨l', f1, f2⟩ := alike_ok hal
    refine ⟨t2, ?_, e2, by simpa using e5⟩
    rw [sweep]
    simp only []
    rw [e1, Res.ok_bind]
    have : lcursorGet env t2 fuel ⟨l, false⟩ .next = .ok (⟨l', true⟩, .error .notfound) := by
      unfold lcursorGet lmove
      simp only []
      rw [f1, Res.ok_bind]
      rfl
    rw [this, Res.ok_bind, sweep]
    rfl
  | cons kv' B ih =>
    intro n t1 l st A kv hat hs hk hw hh hn
    obtain ⟨n, rfl⟩ : ∃ m, n = m + 1 := ⟨n - 1, by simp at hn; omega⟩
    have hc := at_contents hat
    obtain ⟨t2, e1, e2, e3, e4, e5⟩ := sweep_step hH (hshort kv (by rw [hc]; simp)) hs hk hw hh
    obtain ⟨st', hnext, hat'⟩ := (next_spec hH hf hat).2 kv' B rfl
    have hdis : ∀ x ∈ kv' :: B, ¬ ∃ y ∈ A ++ [kv], pick y = true ∧ y.1 = x.1 := by
      rintro x hx ⟨y, hy, -, hyx⟩
      unfold Ascending at hsorted
      rw [hc, show A ++ kv :: kv' :: B = (A ++ [kv]) ++ kv' :: B by simp, List.map_append, sorted_append] at hsorted
      have := hsorted.2.2 y.1 (List.mem_map_of_mem hy) x.1 (List.mem_map_of_mem hx)
      rw [hyx] at this
      exact blt_irrefl _ this
    have hal := lnext_kept e3 hf hm hat hdis e4
    rw [hnext] at hal
    obtain ⟨l', f1, f2⟩ := alike_ok hal
    obtain ⟨t', g1, g2, g3⟩ := ih hat' f2 e3 e2 e5 (by simp at hn; omega)
    refine ⟨t', ?_, g2, by simpa using g3⟩
    rw [sweep]
    simp only []
    rw [e1, Res.ok_bind]
    have : lcursorGet env t2 fuel ⟨l, false⟩ .next = .ok (⟨l', false⟩, .ok kv') := by
      unfold lcursorGet lmove
      simp only []
      rw [f1, Res.ok_bind]
      simp only [if_true]
      rw [latCursor_firm hat' f2, Res.ok_bind]
    rw [this, Res.ok_bind, g1, Res.ok_bind]

/-- C136, deleting on the way, for keys already stored before (no leaf of the tree has been changed by this transaction yet), trees of at most 32
levels without empty leaves: the loop sees every pair exactly once, in ascending order of the keys, whichever of them it deletes, ends
with "not found", and exactly the pairs it did not pick are left. -/
theorem delete_while_iterating_partial {env : Env} {t : Txn} {h fuel n : Nat} {l : List (Bytes × Bytes)} (pick : Bytes × Bytes → Bool) (hw : t.rdonly = false)
    (hh : Holds env t h l) (hd : h < 32) (hne : t.root ≠ 0 → Full (getPage env t) h t.root)
    (hm : t.root ≠ 0 → ∀ m ∈ pagesOf (getPage env t) h t.root, ∀ p, getPage env t m = .ok p → isLeaf p = true → t.getDirty m = none)
    (hf : h < fuel) (hn : l.length + 1 < n) :
    ∃ t', sweepAll env fuel n pick t = .ok (l, .notfound, t') ∧ t'.rdonly = false ∧ Holds env t' h (l.filter fun x => !pick x) := by
  have hh' := hh
  have hsrt := holds_sorted hh
  rcases hh with ⟨h0, rfl⟩ | ⟨h0, ht, rfl⟩
  · refine ⟨t, ?_, hw, .inl ⟨h0, rfl⟩⟩
    obtain ⟨n, rfl⟩ : ∃ m, n = m + 1 := ⟨n - 1, by omega⟩
    have : lcursorGet env t fuel LCursor.opened (.seek .first) = .ok (⟨[], true⟩, .error .notfound) := by
      unfold lcursorGet lmove lseek
      simp only [if_pos h0]
      rfl
    unfold sweepAll
    rw [this, Res.ok_bind, sweep]
  · have hsh := (shape_of_wft h ht.wft).2 (hne h0)
    obtain ⟨st, kv, B, a1, a2⟩ := seek_first (H := h) hd hf h0 hsh
    have hc := at_contents a2
    have hal := lseek_first hf hsh (hm h0)
    rw [a1] at hal
    obtain ⟨l', f1, f2⟩ := alike_ok hal
    obtain ⟨t', g1, g2, g3⟩ := sweep_spec (pick := pick) hd hf (contents_short h hsh) hsrt (hm h0) B (n := n) a2 f2
      (Lasting.refl env t _) hw (by rw [hc] at hh'; exact hh') (by rw [hc] at hn; simp at hn; omega)
    refine ⟨t', ?_, g2, by rw [hc]; exact g3⟩
    have : lcursorGet env t fuel LCursor.opened (.seek .first) = .ok (⟨l', false⟩, .ok kv) := by
      unfold lcursorGet lmove
      simp only []
      rw [f1, Res.ok_bind]
      simp only [if_true]
      rw [latCursor_firm a2 f2, Res.ok_bind]
    unfold sweepAll
    rw [this, Res.ok_bind, g1, hc]
    rfl

theorem lookup_picked {l : List (Bytes × Bytes)} (f : Bytes × Bytes → Bool) (k : Bytes) (h : Ascending l) : (l.filter f).lookup k = (l.lookup k).filter fun v => f (k, v) := by
  induction l with
  | nil => rfl
  | cons a l ih =>
    obtain ⟨x, v⟩ := a
    unfold Ascending at h
    rw [List.map_cons, sorted_cons] at h
    have ih := ih h.2
    by_cases hx : k = x
    · subst hx
      have hn : l.lookup k = none := by
        rw [lookup_none_iff]; intro hm; exact blt_irrefl _ (h.1 k hm)
      rw [hn] at ih
      rw [List.lookup_cons, beq_self_eq_true, List.filter_cons]
      by_cases hf : f (k, v) = true
      · rw [if_pos hf, List.lookup_cons, beq_self_eq_true]; simp only [Option.filter, hf, if_true]
      · rw [if_neg hf, ih]; simp only [Option.filter, hf, Bool.false_eq_true, if_false]
    · have hb : (k == x) = false := by simpa using hx
      rw [List.lookup_cons, hb, List.filter_cons]
      simp only []
      split
      · rw [List.lookup_cons, hb]; exact ih
      · exact ih

/-- C136 for a transaction that has just begun on a database that holds `m`: the loop sees the pairs of `m`, each once, in ascending order, and what
is stored afterwards is `m` without the picked pairs. -/
theorem delete_while_iterating_begun_partial {env env1 : Env} {t : Txn} {h hf fuel : Nat} {m : KvMap} {fl : List (Bytes × Bytes)} (pick : Bytes × Bytes → Bool)
    (hdb : DbOk env h hf m fl) (hid : metaTxnid env.liveMeta + 1 < 2 ^ 64) (hb : beginWrite env = some (env1, t)) (hd : h < 32)
    (hne : t.root ≠ 0 → Full (getPage env1 t) h t.root) (hfu : h < fuel) :
    ∃ l : List (Bytes × Bytes), (∀ k, l.lookup k = m k) ∧ (l.map Prod.fst).Pairwise (· < ·) ∧ ∀ n, l.length + 1 < n →
      ∃ t', sweepAll env1 fuel n pick t = .ok (l, .notfound, t') ∧ IsMap env1 t' h fun k => (m k).filter fun v => !pick (k, v) := by
  obtain ⟨a1, a2, a3⟩ := begin_eq hb
  obtain ⟨env', t', b1, -, -, W⟩ := begin_writing hdb a1 hid
  rw [hb] at b1; cases b1
  obtain ⟨l, hl, hlm⟩ := W.map
  have hs := holds_sorted hl
  refine ⟨l, hlm, hs, fun n hn => ?_⟩
  obtain ⟨t', c1, -, c3⟩ := delete_while_iterating_partial pick W.clean.rdonly hl hd hne (by
    intro _ x _ p _ _; rw [a3]; rfl) hfu hn
  refine ⟨t', c1, _, c3, fun k => ?_⟩
  rw [lookup_picked _ _ hs, hlm]

/-- The database with "a" and "b" meets the conditions: a loop that deletes "a" on the way sees both and leaves "b". -/
example : ∃ env1 t l t', beginWrite twoDb = some (env1, t) ∧ (∀ k, l.lookup k = KvMap.put (KvMap.put (fun _ => none) [97] [1]) [98] [2] k) ∧
    sweepAll env1 1 (l.length + 2) (fun kv => kv.1 == [97]) t = .ok (l, .notfound, t') ∧
    IsMap env1 t' 0 fun k => (KvMap.put (KvMap.put (fun _ => none) [97] [1]) [98] [2] k).filter fun _ => !(k == [97]) := by
  obtain ⟨h, hf, fl, env1, t, -, hdb, hb, -, c1, -, c2, -⟩ := twoDb_blocks
  have c8 : (mapPage twoDb 2 >>= fun p => .ok (isLeaf p, decide (numKeys p = 2))) = .ok (true, true) := by decide +kernel
  obtain ⟨q, q1, q2⟩ := Res.bind_eq_ok.1 c8
  have q2 := Res.ok.inj q2
  simp only [Prod.mk.injEq, decide_eq_true_eq] at q2
  obtain ⟨b0, b1, b2⟩ := begin_eq hb
  have hg : getPage env1 t t.root = .ok q := by
    have hr : t.root = 2 := by rw [b2]; exact c2
    rw [hr]
    unfold getPage
    rw [show t.rdonly = false by rw [b2], show t.getDirty 2 = none by rw [b2]; rfl, b1]
    exact q1
  have hroot : t.root ≠ 0 := by rw [b2]; show metaRoot _ ≠ 0; rw [c2]; decide
  have h0 : h = 0 := by
    obtain ⟨env', t', b1, -, -, W⟩ := begin_writing hdb b0 (by rw [c1]; decide)
    rw [hb] at b1; cases b1
    obtain ⟨l, hl, -⟩ := W.map
    rcases hl with ⟨h, -⟩ | ⟨-, ht, -⟩
    · exact absurd h hroot
    · cases h with
      | zero => rfl
      | succ h =>
        obtain ⟨p, p1, -, -, p2, -⟩ := ht.wft
        rw [hg] at p1; cases p1
        rw [q2.1] at p2; cases p2
  subst h0
  obtain ⟨l, l1, -, l3⟩ := delete_while_iterating_begun_partial (fuel := 1) (fun kv => kv.1 == [97]) hdb (by rw [c1]; decide) hb (by decide) (by
    intro _ p hp
    rw [hg] at hp; cases hp
    intro hi
    have := items_length q
    rw [hi, q2.2] at this
    cases this) (by decide)
  obtain ⟨t', e1, e2⟩ := l3 (l.length + 2) (by omega)
  exact ⟨env1, t, l, t', hb, l1, e1, e2⟩

/-! ### A leaf that has been changed before -/

/-- The first, the third, the fifth, … -/
def everyOther : List α → List α
  | [] => []
  | [a] => [a]
  | a :: _ :: l => a :: everyOther l

/-- The second, the fourth, … -/
def theOthers : List α → List α
  | [] => []
  | [_] => []
  | _ :: b :: l => b :: theOthers l

theorem two_first {l : List α} (h : 2 ≤ l.length) : ∃ b c l', l = b :: c :: l' := by
  match l, h with
  | b :: c :: l', _ => exact ⟨b, c, l', rfl⟩

theorem at_most_one {l : List α} (h : ¬ 2 ≤ l.length) : l = [] ∨ ∃ b, l = [b] := by
  match l, h with
  | [], _ => exact .inl rfl
  | [b], _ => exact .inr ⟨b, rfl⟩
  | b :: c :: l', h => exact absurd (by simp) h

theorem sweep_skips {env : Env} {fuel : Nat} (m : Nat) : ∀ {n : Nat} {t : Txn} {S B : List (Bytes × Bytes)} {kv : Bytes × Bytes}, B.length ≤ m → t.rdonly = false →
    Holds env t 0 (S ++ kv :: B) → (∃ p, t.getDirty t.root = some p) → B.length + 1 < n →
    ∃ t', sweep env fuel (fun _ => true) n t (⟨[(⟨t.root, true⟩, S.length)], false⟩, .ok kv) = .ok (everyOther (kv :: B), .notfound, t') ∧
      Holds env t' 0 (S ++ theOthers (kv :: B)) := by
  induction m using Nat.strongRecOn with
  | ind m ih =>
    intro n t S B kv hB hw hh ⟨p0, hp0⟩ hn
    obtain ⟨n, rfl⟩ : ∃ m, n = m + 2 := ⟨n - 2, by omega⟩
    have hsrt := holds_sorted hh
    unfold Ascending at hsrt
    rw [List.map_append, List.map_cons, sorted_append, sorted_cons] at hsrt
    have hkey : kv.1.length < 65536 ∧ S.length + 1 + B.length < 65536 := by
      rcases hh with ⟨-, h⟩ | ⟨-, ht, hc⟩
      · simp at h
      · obtain ⟨p, h1, -⟩ := ht.wft
        rw [contents_zero h1] at hc
        have h2 := kvs_len p
        have h3 := numKeys_lt p
        rw [hc, List.length_append, List.length_cons] at h2
        exact ⟨kvs_short kv (by rw [hc]; simp), by omega⟩
    obtain ⟨hkey, hcount⟩ := hkey
    obtain ⟨k, v0⟩ := kv
    rcases del_spec hw hh hkey (by decide) with ⟨hn, -⟩ | ⟨A', v, B', t2, a1, a2, a3, a4, a5, a6, a7, -⟩
    · exfalso
      rw [lookup_none_iff] at hn
      exact hn (by simp)
    · obtain ⟨rfl, rfl⟩ := split_unique a1 (fun a ha => hsrt.2.2 _ (List.mem_map_of_mem ha) _ List.mem_cons_self) a2
      have hd2 : ∃ q, t2.getDirty t.root = some q := by
        rcases del_where hw hh hkey (by decide) a4 with e | ⟨x, p, q, -, -, -, b3, -, -, -, -, b8, -⟩
        · have e : t2 = t := e
          rw [e]; exact ⟨p0, hp0⟩
        · by_cases hx : t.root = x
          · rw [hx]; exact ⟨q, b3⟩
          · exact ⟨p0, b8 _ _ hx hp0⟩
      obtain ⟨q, hq⟩ := hd2
      have hr0 : t.root ≠ 0 := by
        rcases hh with ⟨-, h⟩ | ⟨h, -⟩
        · simp at h
        · exact h
      have hkq : kvs q = S ++ B ∧ WF q ∧ isLeaf q = true := by
        rcases a5 with ⟨h, -⟩ | ⟨-, ht, hc⟩
        · rw [a7] at h; exact absurd h hr0
        · obtain ⟨p, h1, h2, h3, h4, -⟩ := ht.wft
          rw [contents_zero h1] at hc
          rw [a7, getPage_dirty a6 hq] at h1
          cases h1
          exact ⟨hc, h3, h4⟩
      obtain ⟨hkq, hwq, hlq⟩ := hkq
      have hnq : numKeys q = S.length + B.length := by rw [← kvs_len, hkq]; simp
      have hlt := numKeys_lt q
      have hpg : (Ref.mk t.root true).page env t2 = .ok q := by unfold Ref.page; simp only [if_true]; rw [hq]; rfl
      have hdel : (del env t k >>= fun d => (Res.ok d.2 : Res Txn)) = .ok t2 := by rw [a4, Res.ok_bind]
      have hstep : sweep env fuel (fun _ => true) (n + 2) t (⟨[(⟨t.root, true⟩, S.length)], false⟩, .ok (k, v0)) =
          (lcursorGet env t2 fuel ⟨[(⟨t.root, true⟩, S.length)], false⟩ .next >>= fun r' => sweep env fuel (fun _ => true) (n + 1) t2 r' >>= fun rest =>
            .ok ((k, v0) :: rest.1, rest.2)) := by
        rw [sweep]
        simp only [if_true]
        rw [hdel, Res.ok_bind]
      rw [hstep]
      by_cases hb : 2 ≤ B.length
      · obtain ⟨b, c, B2, rfl⟩ := two_first hb
        have hget : lcursorGet env t2 fuel ⟨[(⟨t.root, true⟩, S.length)], false⟩ .next = .ok (⟨[(⟨t.root, true⟩, S.length + 1)], false⟩, .ok c) := by
          have hm : (S.length + 1) % 65536 = S.length + 1 := Nat.mod_eq_of_lt (by omega)
          simp only [List.length_cons] at hnq
          simp only [lcursorGet, lmove, lnext, latCursor, hpg, Res.ok_bind, hm, Bool.false_eq_true, if_false]
          rw [if_pos (by omega), Res.ok_bind]
          simp only [if_true, hpg, Res.ok_bind]
          have hno : ¬ numKeys q ≤ S.length + 1 := by omega
          rw [leafNode_spec hwq hlq (kv := c) (by rw [hkq]; simp), Res.ok_bind, if_neg hno, if_neg Bool.false_ne_true, Res.ok_bind]
        rw [hget, Res.ok_bind]
        simp only [List.length_cons] at hB hn
        obtain ⟨t', g1, g2⟩ := ih B2.length (by omega) (n := n + 1) (t := t2) (S := S ++ [b]) (B := B2) (kv := c) (Nat.le_refl _) a6
          (by simpa using a5) ⟨q, by rw [a7]; exact hq⟩ (by omega)
        rw [a7, List.length_append, List.length_singleton] at g1
        refine ⟨t', ?_, ?_⟩
        · rw [g1, Res.ok_bind]; rfl
        · simpa [theOthers] using g2
      · have hget : lcursorGet env t2 fuel ⟨[(⟨t.root, true⟩, S.length)], false⟩ .next = .ok (⟨[], true⟩, .error .notfound) := by
          have hge : ¬ (S.length + 1) % 65536 < numKeys q := by
            by_cases hc : S.length + 1 < 65536
            · rw [Nat.mod_eq_of_lt hc]; omega
            · omega
          simp only [lcursorGet, lmove, lnext, hpg, Res.ok_bind, Bool.false_eq_true, if_false]
          rw [if_neg hge, lnextUp]
          rfl
        rw [hget, Res.ok_bind, sweep]
        refine ⟨t2, ?_, ?_⟩
        · rcases at_most_one hb with rfl | ⟨b, rfl⟩ <;> rfl
        · rcases at_most_one hb with rfl | ⟨b, rfl⟩
          · simpa [theOthers] using a5
          · simpa [theOthers] using a5

/-- C136 is false of the code if the leaf has been changed before: in a database of one leaf which the transaction has already written to, the loop
that deletes every pair it sees sees only every other pair, and leaves the pairs in between. -/
theorem deletes_every_other {env : Env} {t : Txn} {fuel n : Nat} {l : List (Bytes × Bytes)} (hw : t.rdonly = false) (hh : Holds env t 0 l)
    (hp : ∃ p, t.getDirty t.root = some p) (hl : l ≠ []) (hf : 0 < fuel) (hn : l.length + 1 < n) :
    ∃ t', sweepAll env fuel n (fun _ => true) t = .ok (everyOther l, .notfound, t') ∧ Holds env t' 0 (theOthers l) := by
  obtain ⟨kv, B, rfl⟩ := List.exists_cons_of_ne_nil hl
  obtain ⟨fuel, rfl⟩ : ∃ f, fuel = f + 1 := ⟨fuel - 1, by omega⟩
  obtain ⟨t', g1, g2⟩ := sweep_skips (fuel := fuel + 1) B.length (n := n) (S := []) (Nat.le_refl _) hw hh hp (by simp at hn; omega)
  obtain ⟨p, hp⟩ := hp
  rcases hh with ⟨-, h⟩ | ⟨h0, ht, hc⟩
  · simp at h
  obtain ⟨q, h1, h2, h3, h4, -⟩ := ht.wft
  rw [contents_zero h1] at hc
  rw [getPage_dirty hw hp] at h1
  cases h1
  have hnq : numKeys p = B.length + 1 := by rw [← kvs_len, hc]; simp
  have href : refOf t t.root = ⟨t.root, true⟩ := by simp [refOf, ownBuffer, hw, hp]
  have hpg : (Ref.mk t.root true).page env t = .ok p := by unfold Ref.page; simp only [if_true]; rw [hp]; rfl
  refine ⟨t', ?_, g2⟩
  have : lcursorGet env t (fuel + 1) LCursor.opened (.seek .first) = .ok (⟨[(⟨t.root, true⟩, 0)], false⟩, .ok kv) := by
    simp only [lcursorGet, lmove, lseek, if_neg h0, lseekDown, href, hpg, Res.ok_bind, if_pos h4, if_true, lpush, List.length_nil, maxDepth]
    simp only [show (0 : Nat) < 32 by decide, if_true, hpg, Res.ok_bind, leafIdx]
    rw [if_neg (by omega), Res.ok_bind]
    simp only [if_true, latCursor, Bool.false_eq_true, if_false, hpg, Res.ok_bind]
    rw [if_neg (by omega), leafNode_spec h3 h4 (kv := kv) (by rw [hc]; simp), Res.ok_bind, Res.ok_bind]
  unfold sweepAll
  rw [this, Res.ok_bind]
  exact g1

/-- The transaction that has stored "a" and "c" in a new database meets the conditions. -/
example : ∃ t l t', t.rdonly = false ∧ Holds env0 t 0 l ∧ l.length = 2 ∧
    sweepAll env0 1 4 (fun _ => true) t = .ok (everyOther l, .notfound, t') ∧ Holds env0 t' 0 (theOthers l) := by
  obtain ⟨t1, t2, h1, h2, h3, -, ⟨l, hl, hlm⟩, -⟩ := exTwo
  have hc : (put env0 3 txn0 [97] val2 >>= fun r => put env0 3 r.2 [99] val2 >>= fun r => getPage env0 r.2 r.2.root >>= fun p =>
      .ok (r.2.root, numKeys p, (r.2.getDirty r.2.root).isSome)) = .ok (2, 2, true) := by decide +kernel
  rw [h1, Res.ok_bind, h2, Res.ok_bind] at hc
  obtain ⟨p, hp1, hp2⟩ := Res.bind_eq_ok.1 hc
  have hp2 := Res.ok.inj hp2
  simp only [Prod.mk.injEq] at hp2
  have hlen : l.length = 2 := by
    rcases hl with ⟨h, -⟩ | ⟨-, -, hc⟩
    · rw [hp2.1] at h; cases h
    · rw [contents_zero hp1] at hc
      rw [← hc, kvs_len]; exact hp2.2.1
  obtain ⟨t', e1, e2⟩ := deletes_every_other (fuel := 1) (n := 4) h3 hl (Option.isSome_iff_exists.1 hp2.2.2) (by intro h; rw [h] at hlen; cases hlen) (by decide) (by omega)
  exact ⟨t2, l, t', h3, hl, hlen, e1, e2⟩

/-! ### Concrete databases -/

/-- Store pairs in a new database and, with `commit`, begin a new transaction on it; then delete every pair on the way.  The first bytes of
the keys seen, the last status, and the first bytes of the keys a new scan finds. -/
def sweepDemo (closed : Bool) (l : List (Bytes × Bytes)) (pick : Bytes × Bytes → Bool) : Res (List (Option UInt8) × Status × List (Option UInt8)) := do
  let e ← envCreate 20
  match beginWrite e with
  | none => .div
  | some (e1, t) => do
    let a ← puts e1 5 t l
    if closed then do
      let c ← commit e1 5 a.2
      match beginWrite c.2 with
      | none => .div
      | some (e2, t2) => do
        let r ← sweepAll e2 5 9 pick t2
        let s ← scan e2 r.2.2 5 9 .first .next
        .ok (r.1.map fun kv => kv.1.head?, r.2.1, s.1.map fun kv => kv.1.head?)
    else do
      let r ← sweepAll e1 5 9 pick a.2
      let s ← scan e1 r.2.2 5 9 .first .next
      .ok (r.1.map fun kv => kv.1.head?, r.2.1, s.1.map fun kv => kv.1.head?)

/-- Two leaves, stored by an earlier transaction: all three keys are seen and deleted, or only the picked ones. -/
example : sweepDemo true [([97], val2), ([98], val2), ([99], val2)] (fun _ => true) = .ok ([some 97, some 98, some 99], .notfound, []) ∧
    sweepDemo true [([97], val2), ([98], val2), ([99], val2)] (fun kv => kv.1 == [98]) = .ok ([some 97, some 98, some 99], .notfound, [some 97, some 99]) := by
  decide +kernel

/-- C136 is false of the code, concretely: the same loop in the transaction that stored "a", "b", "c" sees "a" and "c", and "b" is left. -/
theorem deleting_skips : sweepDemo false [([97], [1]), ([98], [1]), ([99], [1])] (fun _ => true) = .ok ([some 97, some 99], .notfound, [some 98]) := by
  decide +kernel

/-- A cursor on "b"; then something is stored before it; then the cursor steps on: what it shows. -/
def storeDemo (k : Bytes) : Res (Except Status UInt8) := do
  let a ← puts env0 3 txn0 [([98], [1]), ([99], [1])]
  let r ← lcursorGet env0 a.2 5 LCursor.opened (.seek (.set [98]))
  let b ← put env0 3 a.2 k [1]
  let s ← lcursorGet env0 b.2 5 r.1 .next
  match s.2 with
  | .ok kv => .ok (.ok (kv.1.headD 0))
  | .error e => .ok (.error e)

/-- C136 is false of the code for storing too: the cursor stands on "b", "a" is stored, and the next pair is "b" once more. -/
theorem storing_repeats : storeDemo [97] = .ok (.ok 98) ∧ storeDemo [100] = .ok (.ok 99) := by
  decide +kernel

end Verif.Db
