import Verif.Db.LeavesProps

/-!
# Positioning at or after a key, and what a failed positioning leaves (C47, C118)

Both kinds of positioning go down to one leaf, the one the key leads to (`IsPath`), and look only there.  If they fail the cursor stays at the first pair of that leaf and is not marked as being at an end.
-/

namespace Verif.Db

open Verif.Page

/-! ## Specification -/

/-- The place in the part that can be seen from an empty leaf: leaves to the left and to the right. -/
def holeNext (R : List (List (Bytes × Bytes))) : Place := match untilEmpty R with
  | [] => none
  | b :: B => some ([], b, B)

def holePrev (L : List (List (Bytes × Bytes))) : Place := match (sinceEmpty L).reverse with
  | [] => none
  | a :: A => some (A.reverse, a, [])

/-- The answers of a cursor left in an empty leaf. -/
def holeAnswers (L R : List (List (Bytes × Bytes))) : List Mv → List (Except Status (Bytes × Bytes))
  | [] => []
  | .current :: ms => .error .notfound :: holeAnswers L R ms
  | .next :: ms => (holeNext R).pair :: (holeNext R).answers ms
  | .prev :: ms => (holePrev L).pair :: (holePrev L).answers ms

/-- The answers of a cursor whose positioning has failed in leaf `lf`: it is at the first pair. -/
def leftAnswers (L : List (List (Bytes × Bytes))) (lf : List (Bytes × Bytes)) (R : List (List (Bytes × Bytes))) (ms : List Mv) :
    List (Except Status (Bytes × Bytes)) := match lf with
  | x :: Y => Place.answers (some (sinceEmpty L, x, Y ++ untilEmpty R)) ms
  | [] => holeAnswers L R ms

/-! ## Lemmas -/

theorem hole_run {env : Env} {t : Txn} {h fuel n : Nat} (hd : h < maxDepth) (hf : h < fuel) {p : Page} {rest : List (Page × Nat)}
    {L R : List (List (Bytes × Bytes))} (h1 : getPage env t n = .ok p) (hu : UpL (getPage env t) h t.root 0 n rest L R) (he : kvs p = []) :
    ∀ ms, cursorRun env t fuel ⟨(p, 0) :: rest, false⟩ ms = .ok (holeAnswers L R ms) := by
  have hnk : numKeys p = 0 := by rw [← kvs_len, he]; rfl
  have hl : leaves (getPage env t) 0 n = [[]] := by rw [leaves_zero h1, he]
  intro ms
  induction ms with
  | nil => rfl
  | cons m ms ih =>
    cases m with
    | current =>
      have e : cursorGet env t fuel ⟨(p, 0) :: rest, false⟩ .current = .ok (⟨(p, 0) :: rest, false⟩, .error .notfound) := by
        unfold cursorGet
        simp [move, Res.ok_bind, atCursor, hnk]
      rw [cursorRun, show Mv.current.op = Op.current from rfl, e, Res.ok_bind, ih]; rfl
    | next =>
      have hup : move env t fuel ⟨(p, 0) :: rest, false⟩ .next = nextUp env t fuel rest := by simp [move, next, hnk]
      obtain ⟨i1, i2⟩ := nextUp_leaf hd hf rest hu
      have hstop : (R = [] ∨ ∃ R', R = [] :: R') → holeNext R = none := by
        rintro (rfl | ⟨R', rfl⟩)
        · rfl
        · unfold holeNext; rw [untilEmpty_nil]
      have key : ∃ c', cursorGet env t fuel ⟨(p, 0) :: rest, false⟩ .next = .ok (c', (holeNext R).pair) ∧ Sees env t h c' (holeNext R) := by
        rcases R with - | ⟨- | ⟨y, Y⟩, R⟩
        · obtain ⟨st', e⟩ := i1 (.inl rfl)
          rw [hstop (.inl rfl)]
          exact ⟨_, cursorGet_fail (op := .next) (hup.trans e) (by decide), rfl⟩
        · obtain ⟨st', e⟩ := i1 (.inr ⟨R, rfl⟩)
          rw [hstop (.inr ⟨R, rfl⟩)]
          exact ⟨_, cursorGet_fail (op := .next) (hup.trans e) (by decide), rfl⟩
        · obtain ⟨st', e1, e2⟩ := i2 y Y R rfl
          have hn : holeNext ((y :: Y) :: R) = some ([], y, Y ++ untilEmpty R) := by unfold holeNext; rw [untilEmpty_cons]
          rw [hn]
          exact ⟨_, cursorGet_leaf (op := .next) (hup.trans e1) e2, st', _, [], Y, R, rfl, e2, by rw [hl, sinceEmpty_nil]; rfl, rfl⟩
      obtain ⟨c', e1, e2⟩ := key
      rw [cursorRun, show Mv.next.op = Op.next from rfl, e1, Res.ok_bind, run_sees hd hf ms e2]; rfl
    | prev =>
      have hup : move env t fuel ⟨(p, 0) :: rest, false⟩ .prev = prevUp env t fuel rest := by simp [move, prev]
      obtain ⟨i1, i2⟩ := prevUp_leaf hd hf rest hu
      have hstop : (L = [] ∨ ∃ L', L = L' ++ [[]]) → holePrev L = none := by
        rintro (rfl | ⟨L', rfl⟩)
        · rfl
        · unfold holePrev; rw [sinceEmpty_nil]; rfl
      have key : ∃ c', cursorGet env t fuel ⟨(p, 0) :: rest, false⟩ .prev = .ok (c', (holePrev L).pair) ∧ Sees env t h c' (holePrev L) := by
        rcases List.eq_nil_or_concat L with rfl | ⟨L, lf, rfl⟩
        · obtain ⟨st', e⟩ := i1 (.inl rfl)
          rw [hstop (.inl rfl)]
          exact ⟨_, cursorGet_fail (op := .prev) (hup.trans e) (by decide), rfl⟩
        · rw [List.concat_eq_append] at *
          rcases List.eq_nil_or_concat lf with rfl | ⟨X, x, rfl⟩
          · obtain ⟨st', e⟩ := i1 (.inr ⟨L, rfl⟩)
            rw [hstop (.inr ⟨L, rfl⟩)]
            exact ⟨_, cursorGet_fail (op := .prev) (hup.trans e) (by decide), rfl⟩
          · rw [List.concat_eq_append] at *
            obtain ⟨st', e1, e2⟩ := i2 L X x rfl
            have hn : holePrev (L ++ [X ++ [x]]) = some (sinceEmpty L ++ X, x, []) := by unfold holePrev; rw [sinceEmpty_concat]; simp
            rw [hn]
            exact ⟨_, cursorGet_leaf (op := .prev) (hup.trans e1) e2, st', L, X, [], _, rfl, e2, rfl, by rw [hl]; simp [untilEmpty_nil]⟩
      obtain ⟨c', e1, e2⟩ := key
      rw [cursorRun, show Mv.prev.op = Op.prev from rfl, e1, Res.ok_bind, run_sees hd hf ms e2]; rfl

theorem left_run {env : Env} {t : Txn} {h fuel n : Nat} (hd : h < maxDepth) (hf : h < fuel) {p : Page} {rest : List (Page × Nat)}
    {L R : List (List (Bytes × Bytes))} (h1 : getPage env t n = .ok p) (h2 : WF p) (h3 : isLeaf p = true) (hu : UpL (getPage env t) h t.root 0 n rest L R) :
    ∀ ms, cursorRun env t fuel ⟨(p, 0) :: rest, false⟩ ms = .ok (leftAnswers L (kvs p) R ms) := by
  intro ms
  cases he : kvs p with
  | nil => exact hole_run hd hf h1 hu he ms
  | cons x Y =>
    exact run_sees hd hf ms (pl := some (sinceEmpty L, x, Y ++ untilEmpty R)) ⟨_, L, [], Y, R, rfl, ⟨p, 0, rest, n, rfl, h1, h2, h3, hu, he, rfl⟩, by simp, rfl⟩

/-! ## Theorems -/

/-- **C47**, positioning at or after a key, exactly, in every well-formed database of at most 32 levels.  Only the leaf `lf` that the key leads to is looked at; all pairs in leaves to the left of it are smaller,
all to the right greater.  The first pair of it that is not smaller is found, and the cursor then moves as in C77.  If there is none the answer is "not found", whatever the leaves to the right hold, and the cursor
stays at the first pair of the leaf. -/
theorem seek_range_exact {env : Env} {t : Txn} {h fuel : Nat} {l : List (Bytes × Bytes)} {key : Bytes} (c : Cursor) (hh : Holds env t h l) (h0 : t.root ≠ 0)
    (hd : h < 32) (hk : key.length < 65536) (hf : h < fuel) :
    ∃ L lf R path p c', leaves (getPage env t) h t.root = L ++ lf :: R ∧ IsPath (getPage env t) key h t.root path ∧ getPage env t (path.getLastD 0) = .ok p ∧ kvs p = lf ∧
      (∀ a ∈ L.flatten, a.1 < key) ∧ (∀ b ∈ R.flatten, key < b.1) ∧
      ((∃ X kv Y, lf = X ++ kv :: Y ∧ (∀ x ∈ X, x.1 < key) ∧ ¬ kv.1 < key ∧ cursorGet env t fuel c (.seek (.range key)) = .ok (c', .ok kv) ∧
          ∀ ms, cursorRun env t fuel c' ms = .ok (Place.answers (some (sinceEmpty L ++ X, kv, Y ++ untilEmpty R)) ms)) ∨
        ((∀ x ∈ lf, x.1 < key) ∧ cursorGet env t fuel c (.seek (.range key)) = .ok (c', .error .notfound) ∧
          ∀ ms, cursorRun env t fuel c' ms = .ok (leftAnswers L lf R ms))) := by
  rcases hh with ⟨hx, -⟩ | ⟨-, ht, rfl⟩
  · exact absurd hx h0
  have hs := (shape_of_wft h ht.wft).1
  obtain ⟨st, L0, R0, p, n, a1, a2, a3, a4, a5, a6, a7, a8, path, a9, a10⟩ := seekDown_key hk hd hf ht.wft hs (op := .range key) (.inr rfl)
  obtain ⟨L, R, u, rfl, rfl⟩ := up_upL hs st a5
  have hlv : leaves (getPage env t) h t.root = L ++ kvs p :: R := by rw [upL_leaves _ u, leaves_zero a2]; simp
  obtain ⟨f, hfd, A', B', hA, hB, hsp⟩ := probe_spec a3 a6 hk
  have hcase : ∃ Y, items p = A' ++ Y ∧ f.idx = A'.length ∧ ∀ y ∈ Y, ¬ y.key < key := by
    rcases hsp with ⟨it, e1, e2, rfl⟩ | ⟨e1, rfl⟩
    · refine ⟨it :: B', e1, rfl, fun y hy => ?_⟩
      rcases List.mem_cons.1 hy with rfl | hy
      · rw [e2]; exact blt_irrefl _
      · exact fun h => blt_irrefl _ (blt_trans h (hB y hy))
    · exact ⟨B', e1, rfl, fun y hy h => blt_irrefl _ (blt_trans h (hB y hy))⟩
  obtain ⟨Y, y1, y2, y3⟩ := hcase
  have hnk : numKeys p = A'.length + Y.length := by rw [← items_length, y1]; simp
  cases Y with
  | nil =>
    refine ⟨L, kvs p, R, path, p, ⟨(p, 0) :: st, false⟩, hlv, a9, by rw [a10]; exact a2, rfl, a7, a8, .inr ⟨?_, ?_, left_run hd hf a2 a3 a4 u⟩⟩
    · intro x hx
      unfold kvs at hx; rw [y1, List.append_nil] at hx
      obtain ⟨a, ha, rfl⟩ := List.mem_map.1 hx
      exact hA a ha
    · refine cursorGet_fail (op := .seek (.range key)) ?_ (by decide)
      show seek env t fuel (.range key) = _
      unfold seek
      rw [if_neg h0, a1, Res.ok_bind]
      simp only [leafIdx, if_true]
      rw [hfd, Res.ok_bind, if_pos (by rw [y2, hnk]; simp)]
      simp only [Res.ok_bind]
  | cons y Y =>
    have hkv : kvs p = A'.map (fun i => (i.key, i.val)) ++ (y.key, y.val) :: Y.map (fun i => (i.key, i.val)) := by
      unfold kvs; rw [y1]; simp
    have hat : AtL (getPage env t) h t.root ((p, A'.length) :: st) L (A'.map fun i => (i.key, i.val)) (y.key, y.val) (Y.map fun i => (i.key, i.val)) R :=
      ⟨p, A'.length, st, n, rfl, a2, a3, a4, u, hkv, by simp⟩
    refine ⟨L, kvs p, R, path, p, ⟨(p, A'.length) :: st, false⟩, hlv, a9, by rw [a10]; exact a2, rfl, a7, a8, .inl ⟨_, _, _, hkv, ?_, y3 y List.mem_cons_self, ?_, ?_⟩⟩
    · intro a ha
      obtain ⟨i, hi, rfl⟩ := List.mem_map.1 ha
      exact hA i hi
    · refine cursorGet_leaf (op := .seek (.range key)) ?_ hat
      show seek env t fuel (.range key) = _
      unfold seek
      rw [if_neg h0, a1, Res.ok_bind]
      simp only [leafIdx, if_true]
      rw [hfd, Res.ok_bind, if_neg (by rw [y2, hnk]; simp)]
      simp only [Res.ok_bind]
      rw [if_neg (by rw [hnk]; simp), y2]
    · exact fun ms => run_sees hd hf ms ⟨_, L, _, _, R, rfl, hat, rfl, rfl⟩

/-- **C118.**  What a cursor shows after exact positioning at a key that is not stored: "not found", and then it moves as if it had been placed at the first pair of the leaf the key leads to. -/
theorem failed_set_exact {env : Env} {t : Txn} {h fuel : Nat} {l : List (Bytes × Bytes)} {key : Bytes} (c : Cursor) (hh : Holds env t h l) (h0 : t.root ≠ 0)
    (hd : h < 32) (hk : key.length < 65536) (hf : h < fuel) (hm : key ∉ l.map Prod.fst) :
    ∃ L lf R path p c', leaves (getPage env t) h t.root = L ++ lf :: R ∧ IsPath (getPage env t) key h t.root path ∧ getPage env t (path.getLastD 0) = .ok p ∧ kvs p = lf ∧
      (∀ a ∈ L.flatten, a.1 < key) ∧ (∀ b ∈ R.flatten, key < b.1) ∧
      cursorGet env t fuel c (.seek (.set key)) = .ok (c', .error .notfound) ∧ ∀ ms, cursorRun env t fuel c' ms = .ok (leftAnswers L lf R ms) := by
  rcases hh with ⟨hx, -⟩ | ⟨-, ht, rfl⟩
  · exact absurd hx h0
  have hs := (shape_of_wft h ht.wft).1
  obtain ⟨st, L0, R0, p, n, a1, a2, a3, a4, a5, a6, a7, a8, path, a9, a10⟩ := seekDown_key hk hd hf ht.wft hs (op := .set key) (.inl rfl)
  obtain ⟨L, R, u, rfl, rfl⟩ := up_upL hs st a5
  have hlv : leaves (getPage env t) h t.root = L ++ kvs p :: R := by rw [upL_leaves _ u, leaves_zero a2]; simp
  obtain ⟨f, hfd, A', B', hA, hB, hsp⟩ := probe_spec a3 a6 hk
  rcases hsp with ⟨it, e1, e2, rfl⟩ | ⟨e1, rfl⟩
  · exfalso
    apply hm
    rw [← leaves_contents hs, hlv]
    refine List.mem_map.2 ⟨(it.key, it.val), ?_, e2⟩
    rw [List.flatten_append, List.flatten_cons]
    refine List.mem_append_right _ (List.mem_append_left _ ?_)
    unfold kvs
    rw [e1]; simp
  · refine ⟨L, kvs p, R, path, p, ⟨(p, 0) :: st, false⟩, hlv, a9, by rw [a10]; exact a2, rfl, a7, a8, ?_, left_run hd hf a2 a3 a4 u⟩
    refine cursorGet_fail (op := .seek (.set key)) ?_ (by decide)
    show seek env t fuel (.set key) = _
    unfold seek
    rw [if_neg h0, a1, Res.ok_bind]
    simp only [leafIdx, if_true]
    rw [hfd, Res.ok_bind]
    simp only [Res.ok_bind]

/-- **C118 is false**: if no leaf is empty, then after every failed positioning the cursor shows a stored pair, as if nothing had failed, and the next step gives the pair behind it. -/
theorem failed_set_shows_pair {env : Env} {t : Txn} {h fuel : Nat} {l : List (Bytes × Bytes)} {key : Bytes} (c : Cursor) (hh : Holds env t h l) (h0 : t.root ≠ 0)
    (hd : h < 32) (hk : key.length < 65536) (hf : h < fuel) (hm : key ∉ l.map Prod.fst) (hne : ∀ lf ∈ leaves (getPage env t) h t.root, lf ≠ []) :
    ∃ c' A x B, l = A ++ x :: B ∧ cursorGet env t fuel c (.seek (.set key)) = .ok (c', .error .notfound) ∧
      ∀ ms, cursorRun env t fuel c' ms = .ok (Place.answers (some (A, x, B)) ms) := by
  have hfl : (leaves (getPage env t) h t.root).flatten = l := by
    rcases hh with ⟨hx, -⟩ | ⟨-, ht, rfl⟩
    · exact absurd hx h0
    · exact leaves_contents (shape_of_wft h ht.wft).1
  obtain ⟨L, lf, R, path, p, c', h1, -, -, -, -, -, h7, h8⟩ := failed_set_exact c hh h0 hd hk hf hm
  rw [h1] at hne hfl
  cases lf with
  | nil => exact absurd rfl (hne [] (by simp))
  | cons x Y =>
    refine ⟨c', L.flatten, x, Y ++ R.flatten, ?_, h7, fun ms => ?_⟩
    · rw [← hfl]; simp
    · rw [h8, leftAnswers, sinceEmpty_full (fun a ha => hne a (by simp [ha])), untilEmpty_full (fun a ha => hne a (by simp [ha]))]

/-! ## Example -/

/-- Run `put`s, deletions and a positioning, then moves; the first bytes of the keys answered. -/
def movesAfter (ps : List (Bytes × Bytes)) (ds : List Bytes) (s : Seek) (ms : List Mv) : Res (Option (Option UInt8) × List (Option (Option UInt8))) := do
  let a ← puts env0 3 txn0 ps
  let t ← ds.foldl (fun t d => do
    let t ← t
    let r ← del env0 t d
    .ok r.2) (.ok a.2)
  let r ← cursorGet env0 t 5 ⟨[], false⟩ (.seek s)
  let as ← cursorRun env0 t 5 r.1 ms
  .ok (r.2.toOption.map (·.1.head?), as.map fun o => o.toOption.map (·.1.head?))

/-- With "a", "b", "c" in two leaves: positioning at "bb" fails and leaves the cursor at "b"; the next pair is "c".  With "b" and "c" deleted the leaf is empty: the cursor shows nothing, and goes back to "a". -/
example : movesAfter [([97], val2), ([98], val2), ([99], val2)] [] (.set [98, 98]) [.current, .next, .prev, .prev] =
      .ok (none, [some (some 98), some (some 99), some (some 98), some (some 97)]) ∧
    movesAfter [([97], val2), ([98], val2), ([99], val2)] [[98], [99]] (.range [98, 98]) [.current, .prev] = .ok (none, [none, some (some 97)]) := by
  decide +kernel

end Verif.Db
