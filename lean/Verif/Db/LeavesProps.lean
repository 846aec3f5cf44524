import Verif.Db.Leaves

/-!
# What cursors show of a database with empty leaves (C45, C46, C77)

Deleting the last key of a leaf leaves the page in the tree.  A cursor that comes to such a page stops there.  The theorems say exactly what is seen, for every well-formed
tree of at most 32 levels; those of `CursorProps.lean` are the case without empty leaves.
-/

namespace Verif.Db

open Verif.Page

/-- The pairs of the leaves up to the first empty one. -/
def untilEmpty (ls : List (List (Bytes × Bytes))) : List (Bytes × Bytes) := (ls.takeWhile fun l => !l.isEmpty).flatten

/-- The pairs of the leaves behind the last empty one. -/
def sinceEmpty (ls : List (List (Bytes × Bytes))) : List (Bytes × Bytes) := (ls.reverse.takeWhile fun l => !l.isEmpty).reverse.flatten

theorem untilEmpty_nil (R : List (List (Bytes × Bytes))) : untilEmpty ([] :: R) = [] := by simp [untilEmpty]

theorem untilEmpty_cons (y : Bytes × Bytes) (Y : List (Bytes × Bytes)) (R : List (List (Bytes × Bytes))) :
    untilEmpty ((y :: Y) :: R) = y :: (Y ++ untilEmpty R) := by simp [untilEmpty]

theorem sinceEmpty_nil (L : List (List (Bytes × Bytes))) : sinceEmpty (L ++ [[]]) = [] := by simp [sinceEmpty]

theorem sinceEmpty_concat (L : List (List (Bytes × Bytes))) (X : List (Bytes × Bytes)) (x : Bytes × Bytes) :
    sinceEmpty (L ++ [X ++ [x]]) = sinceEmpty L ++ (X ++ [x]) := by simp [sinceEmpty]

theorem takeWhile_full {ls : List (List (Bytes × Bytes))} (h : ∀ l ∈ ls, l ≠ []) : ls.takeWhile (fun l => !l.isEmpty) = ls := by
  induction ls with
  | nil => rfl
  | cons a ls ih =>
    have ha : a ≠ [] := h a List.mem_cons_self
    rw [List.takeWhile_cons_of_pos (by simpa using ha), ih (fun l hl => h l (List.mem_cons_of_mem _ hl))]

/-- Without empty leaves both are everything. -/
theorem untilEmpty_full {ls : List (List (Bytes × Bytes))} (h : ∀ l ∈ ls, l ≠ []) : untilEmpty ls = ls.flatten := by
  unfold untilEmpty
  rw [takeWhile_full h]

theorem sinceEmpty_full {ls : List (List (Bytes × Bytes))} (h : ∀ l ∈ ls, l ≠ []) : sinceEmpty ls = ls.flatten := by
  unfold sinceEmpty
  rw [takeWhile_full (fun l hl => h l (List.mem_reverse.1 hl)), List.reverse_reverse]

/-- They are the beginning and the end of the whole listing. -/
theorem untilEmpty_prefix (ls : List (List (Bytes × Bytes))) : ∃ rest, ls.flatten = untilEmpty ls ++ rest :=
  ⟨(ls.dropWhile fun l => !l.isEmpty).flatten, by unfold untilEmpty; rw [← List.flatten_append, List.takeWhile_append_dropWhile]⟩

theorem sinceEmpty_suffix (ls : List (List (Bytes × Bytes))) : ∃ rest, ls.flatten = rest ++ sinceEmpty ls :=
  ⟨(ls.reverse.dropWhile fun l => !l.isEmpty).reverse.flatten, by
    unfold sinceEmpty
    rw [← List.flatten_append, ← List.reverse_append, List.takeWhile_append_dropWhile, List.reverse_reverse]⟩

/-- A cursor at a place of the part it can see. -/
def Sees (env : Env) (t : Txn) (h : Nat) (c : Cursor) : Place → Prop
  | none => c.eof = true
  | some (A, kv, B) => ∃ st L X Y R, c = ⟨st, false⟩ ∧ AtL (getPage env t) h t.root st L X kv Y R ∧ A = sinceEmpty L ++ X ∧ B = Y ++ untilEmpty R

theorem cursorGet_leaf {env : Env} {t : Txn} {fuel : Nat} {c : Cursor} {op : Op} {H : Nat} {st : List (Page × Nat)} {L R : List (List (Bytes × Bytes))}
    {X Y : List (Bytes × Bytes)} {kv : Bytes × Bytes} (h : move env t fuel c op = .ok (.success, ⟨st, false⟩))
    (hat : AtL (getPage env t) H t.root st L X kv Y R) : cursorGet env t fuel c op = .ok (⟨st, false⟩, .ok kv) := by
  unfold cursorGet
  rw [h, Res.ok_bind]
  simp only [if_true]
  rw [atCursor_leaf hat, Res.ok_bind]

theorem sees_move {env : Env} {t : Txn} {h fuel : Nat} (hd : h < maxDepth) (hf : h < fuel) {c : Cursor} {pl : Place} (hs : Sees env t h c pl)
    (m : Mv) : ∃ c', cursorGet env t fuel c m.op = .ok (c', (pl.move m).pair) ∧ Sees env t h c' (pl.move m) := by
  match pl, hs with
  | none, hs =>
    have hs' : c.eof = true := hs
    refine ⟨c, ?_, hs'⟩
    cases m
    · exact cursorGet_fail (op := .next) (by simp [move, next, hs']) (by decide)
    · exact cursorGet_fail (op := .prev) (by simp [move, prev, hs']) (by decide)
    · unfold cursorGet
      simp [Mv.op, move, Res.ok_bind, atCursor, hs', Place.move, Place.pair]
  | some (A, kv, B), hs =>
    obtain ⟨st, L, X, Y, R, rfl, hat, rfl, rfl⟩ := hs
    cases m with
    | next =>
      obtain ⟨n1, n2, n3⟩ := next_leaf hd hf hat
      cases Y with
      | cons y Y =>
        obtain ⟨st', e1, e2⟩ := n1 y Y rfl
        exact ⟨_, cursorGet_leaf (op := .next) e1 e2, st', L, X ++ [kv], Y, R, rfl, e2, by simp, rfl⟩
      | nil =>
        have stop : (R = [] ∨ ∃ R', R = [] :: R') → Place.move (some (sinceEmpty L ++ X, kv, [] ++ untilEmpty R)) .next = none := by
          rintro (rfl | ⟨R', rfl⟩)
          · rfl
          · rw [untilEmpty_nil]; rfl
        cases R with
        | nil =>
          obtain ⟨st', e⟩ := n2 rfl (.inl rfl)
          rw [stop (.inl rfl)]
          exact ⟨_, cursorGet_fail (op := .next) e (by decide), rfl⟩
        | cons lf R =>
          cases lf with
          | nil =>
            obtain ⟨st', e⟩ := n2 rfl (.inr ⟨R, rfl⟩)
            rw [stop (.inr ⟨R, rfl⟩)]
            exact ⟨_, cursorGet_fail (op := .next) e (by decide), rfl⟩
          | cons y Y =>
            obtain ⟨st', e1, e2⟩ := n3 rfl y Y R rfl
            rw [untilEmpty_cons]
            exact ⟨_, cursorGet_leaf (op := .next) e1 e2, st', _, [], Y, R, rfl, e2, by rw [sinceEmpty_concat]; simp, rfl⟩
    | prev =>
      obtain ⟨n1, n2, n3⟩ := prev_leaf hd hf hat
      rcases List.eq_nil_or_concat X with rfl | ⟨X, x, rfl⟩
      · have stop : (L = [] ∨ ∃ L', L = L' ++ [[]]) → Place.move (some (sinceEmpty L ++ [], kv, Y ++ untilEmpty R)) .prev = none := by
          rintro (rfl | ⟨R', rfl⟩)
          · rfl
          · rw [sinceEmpty_nil]; rfl
        rcases List.eq_nil_or_concat L with rfl | ⟨L, lf, rfl⟩
        · obtain ⟨st', e⟩ := n2 rfl (.inl rfl)
          rw [stop (.inl rfl)]
          exact ⟨_, cursorGet_fail (op := .prev) e (by decide), rfl⟩
        · rw [List.concat_eq_append] at *
          rcases List.eq_nil_or_concat lf with rfl | ⟨X, x, rfl⟩
          · obtain ⟨st', e⟩ := n2 rfl (.inr ⟨L, rfl⟩)
            rw [stop (.inr ⟨L, rfl⟩)]
            exact ⟨_, cursorGet_fail (op := .prev) e (by decide), rfl⟩
          · rw [List.concat_eq_append] at *
            obtain ⟨st', e1, e2⟩ := n3 rfl L X x rfl
            have hm : Place.move (some (sinceEmpty (L ++ [X ++ [x]]) ++ [], kv, Y ++ untilEmpty R)) .prev =
                some (sinceEmpty L ++ X, x, kv :: (Y ++ untilEmpty R)) := by
              rw [sinceEmpty_concat]; simp [Place.move]
            rw [hm]
            exact ⟨_, cursorGet_leaf (op := .prev) e1 e2, st', L, X, [], _, rfl, e2, rfl, by rw [untilEmpty_cons]; rfl⟩
      · rw [List.concat_eq_append] at *
        obtain ⟨st', e1, e2⟩ := n1 X x rfl
        have hm : Place.move (some (sinceEmpty L ++ (X ++ [x]), kv, Y ++ untilEmpty R)) .prev = some (sinceEmpty L ++ X, x, kv :: (Y ++ untilEmpty R)) := by
          simp [Place.move]
        rw [hm]
        exact ⟨_, cursorGet_leaf (op := .prev) e1 e2, st', L, X, kv :: Y, R, rfl, e2, rfl, rfl⟩
    | current => exact ⟨_, cursorGet_leaf (op := .current) rfl hat, st, L, X, Y, R, rfl, hat, rfl, rfl⟩

theorem run_sees {env : Env} {t : Txn} {h fuel : Nat} (hd : h < maxDepth) (hf : h < fuel) (ms : List Mv) : ∀ {c : Cursor} {pl : Place},
    Sees env t h c pl → cursorRun env t fuel c ms = .ok (pl.answers ms) := by
  induction ms with
  | nil => intros; rfl
  | cons m ms ih =>
    intro c pl hs
    obtain ⟨c', e1, e2⟩ := sees_move hd hf hs m
    rw [cursorRun, e1, Res.ok_bind, ih e2]; rfl

theorem collect_sees_next {env : Env} {t : Txn} {h fuel : Nat} (hd : h < maxDepth) (hf : h < fuel) (B : List (Bytes × Bytes)) :
    ∀ {n : Nat} {c : Cursor} {A : List (Bytes × Bytes)} {kv : Bytes × Bytes}, Sees env t h c (some (A, kv, B)) → B.length + 1 < n →
    collect env t fuel .next n (c, .ok kv) = .ok (kv :: B, .notfound) := by
  induction B with
  | nil =>
    intro n c A kv hs hn
    obtain ⟨n, rfl⟩ : ∃ m, n = m + 2 := ⟨n - 2, by simp at hn; omega⟩
    obtain ⟨c', e1, -⟩ := sees_move hd hf hs .next
    rw [collect]
    simp only []
    have e1' : cursorGet env t fuel c .next = .ok (c', .error .notfound) := e1
    rw [e1', Res.ok_bind, collect]
    rfl
  | cons b B ih =>
    intro n c A kv hs hn
    obtain ⟨n, rfl⟩ : ∃ m, n = m + 1 := ⟨n - 1, by omega⟩
    obtain ⟨c', e1, e2⟩ := sees_move hd hf hs .next
    have e1' : cursorGet env t fuel c .next = .ok (c', .ok b) := e1
    rw [collect]
    simp only []
    rw [e1', Res.ok_bind, ih (A := A ++ [kv]) e2 (by simp at hn; omega)]
    rfl

theorem collect_sees_prev {env : Env} {t : Txn} {h fuel : Nat} (hd : h < maxDepth) (hf : h < fuel) (m : Nat) :
    ∀ {n : Nat} {c : Cursor} {A B : List (Bytes × Bytes)} {kv : Bytes × Bytes}, A.length = m → Sees env t h c (some (A, kv, B)) → m + 1 < n →
    collect env t fuel .prev n (c, .ok kv) = .ok (kv :: A.reverse, .notfound) := by
  induction m with
  | zero =>
    intro n c A B kv hm hs hn
    obtain ⟨n, rfl⟩ : ∃ m, n = m + 2 := ⟨n - 2, by omega⟩
    have hA : A = [] := List.length_eq_zero_iff.1 hm
    subst hA
    obtain ⟨c', e1, -⟩ := sees_move hd hf hs .prev
    have e1' : cursorGet env t fuel c .prev = .ok (c', .error .notfound) := e1
    rw [collect]
    simp only []
    rw [e1', Res.ok_bind, collect]
    rfl
  | succ m ih =>
    intro n c A B kv hm hs hn
    obtain ⟨n, rfl⟩ : ∃ m, n = m + 1 := ⟨n - 1, by omega⟩
    rcases List.eq_nil_or_concat A with rfl | ⟨A, a, rfl⟩
    · simp at hm
    rw [List.concat_eq_append] at hm hs ⊢
    obtain ⟨c', e1, e2⟩ := sees_move hd hf hs .prev
    have hmv : Place.move (some (A ++ [a], kv, B)) .prev = some (A, a, kv :: B) := by simp [Place.move]
    rw [hmv] at e1 e2
    have e1' : cursorGet env t fuel c .prev = .ok (c', .ok a) := e1
    rw [collect]
    simp only []
    rw [e1', Res.ok_bind, ih (by simpa using hm) e2 (by omega)]
    simp

/-- **C45.** In every well-formed database of at most 32 levels: first, then next until failure, gives the pairs of the leaves up to the first empty leaf, each once and in
order, and ends with "not found". -/
theorem forward_scan_exact {env : Env} {t : Txn} {h fuel n : Nat} {l : List (Bytes × Bytes)} (hh : Holds env t h l) (h0 : t.root ≠ 0)
    (hd : h < 32) (hf : h < fuel) (hn : l.length + 1 < n) :
    scan env t fuel n .first .next = .ok (untilEmpty (leaves (getPage env t) h t.root), .notfound) ∧
      (leaves (getPage env t) h t.root).flatten = l := by
  rcases hh with ⟨hx, -⟩ | ⟨-, ht, rfl⟩
  · exact absurd hx h0
  have hs := (shape_of_wft h ht.wft).1
  have hfl := leaves_contents hs
  refine ⟨?_, hfl⟩
  obtain ⟨lf, R, e, e1, e2⟩ := seek_first_leaf (H := h) hd hf h0 hs
  unfold scan
  cases lf with
  | nil =>
    obtain ⟨st, a⟩ := e1 rfl
    obtain ⟨n, rfl⟩ : ∃ m, n = m + 1 := ⟨n - 1, by omega⟩
    rw [cursorGet_fail (op := .seek .first) a (by decide), Res.ok_bind, collect, e, untilEmpty_nil]
  | cons kv Y =>
    obtain ⟨st, a1, a2⟩ := e2 kv Y rfl
    have hlen : (Y ++ untilEmpty R).length < (contents (getPage env t) h t.root).length := by
      rw [← hfl, e]
      obtain ⟨rest, hr⟩ := untilEmpty_prefix R
      rw [List.flatten_cons, hr]
      simp only [List.length_append, List.length_cons]; omega
    have hsee : Sees env t h ⟨st, false⟩ (some ([], kv, Y ++ untilEmpty R)) := ⟨st, [], [], Y, R, rfl, a2, rfl, rfl⟩
    rw [cursorGet_leaf (op := .seek .first) a1 a2, Res.ok_bind, collect_sees_next hd hf _ hsee (by omega), e, untilEmpty_cons]

/-- **C46.** Last, then previous until failure, gives the pairs behind the last empty leaf, in descending order. -/
theorem backward_scan_exact {env : Env} {t : Txn} {h fuel n : Nat} {l : List (Bytes × Bytes)} (hh : Holds env t h l) (h0 : t.root ≠ 0)
    (hd : h < 32) (hf : h < fuel) (hn : l.length + 1 < n) :
    scan env t fuel n .last .prev = .ok ((sinceEmpty (leaves (getPage env t) h t.root)).reverse, .notfound) ∧
      (leaves (getPage env t) h t.root).flatten = l := by
  rcases hh with ⟨hx, -⟩ | ⟨-, ht, rfl⟩
  · exact absurd hx h0
  have hs := (shape_of_wft h ht.wft).1
  have hfl := leaves_contents hs
  refine ⟨?_, hfl⟩
  obtain ⟨L, lf, e, e1, e2⟩ := seek_last_leaf (H := h) hd hf h0 hs
  unfold scan
  rcases List.eq_nil_or_concat lf with rfl | ⟨X, kv, rfl⟩
  · obtain ⟨st, a⟩ := e1 rfl
    obtain ⟨n, rfl⟩ : ∃ m, n = m + 1 := ⟨n - 1, by omega⟩
    rw [cursorGet_fail (op := .seek .last) a (by decide), Res.ok_bind, collect, e, sinceEmpty_nil]
    rfl
  · rw [List.concat_eq_append] at *
    obtain ⟨st, a1, a2⟩ := e2 X kv rfl
    have hlen : (sinceEmpty L ++ X).length < (contents (getPage env t) h t.root).length := by
      rw [← hfl, e]
      obtain ⟨rest, hr⟩ := sinceEmpty_suffix L
      rw [List.flatten_append, hr]
      simp only [List.length_append, List.length_cons, List.flatten_cons, List.flatten_nil]; omega
    have hsee : Sees env t h ⟨st, false⟩ (some (sinceEmpty L ++ X, kv, [])) := ⟨st, L, X, [], [], rfl, a2, rfl, rfl⟩
    rw [cursorGet_leaf (op := .seek .last) a1 a2, Res.ok_bind, collect_sees_prev hd hf _ rfl hsee (by omega), e, sinceEmpty_concat]
    simp

theorem up_upL {g : View} {H root : Nat} (hr : Shape g False H root) (st : List (Page × Nat)) : ∀ {h n : Nat} {L R : List (Bytes × Bytes)},
    Up g False H root h n st L R → ∃ L' R', UpL g H root h n st L' R' ∧ L'.flatten = L ∧ R'.flatten = R := by
  induction st with
  | nil => rintro h n L R ⟨rfl, rfl, rfl, rfl⟩; exact ⟨[], [], ⟨rfl, rfl, rfl, rfl⟩, rfl, rfl⟩
  | cons a st ih =>
    obtain ⟨p, i⟩ := a
    rintro h n L R ⟨n', A, k, B, L', R', h1, h2, h3, h4, h5, h6, h8, rfl, rfl⟩
    obtain ⟨L'', R'', u, rfl, rfl⟩ := ih h8
    have flat : ∀ es : List (Bytes × Nat), (∀ e ∈ es, Shape g False h e.2) →
        (es.flatMap fun e => leaves g h e.2).flatten = es.flatMap fun e => contents g h e.2 := by
      intro es
      induction es with
      | nil => intro _; rfl
      | cons e es ih' =>
        intro hes
        rw [List.flatMap_cons, List.flatten_append, leaves_contents (hes e List.mem_cons_self), ih' (fun x hx => hes x (List.mem_cons_of_mem _ hx)),
          List.flatMap_cons]
    refine ⟨_, _, ⟨n', A, k, B, L'', R'', h1, h2, h3, h4, h5, h6, u, rfl, rfl⟩, ?_, ?_⟩
    · rw [List.flatten_append, flat A (fun e he => h6 e (by rw [h4]; exact List.mem_append_left _ he))]
    · rw [List.flatten_append, flat B (fun e he => h6 e (by rw [h4]; exact List.mem_append_right _ (List.mem_cons_of_mem _ he)))]

/-- **C77.** In every well-formed database of at most 32 levels: after exact positioning at a stored key, every series of next, previous and current answers as moving in
the sorted listing would, cut off at the nearest empty leaf on either side. -/
theorem navigation_exact {env : Env} {t : Txn} {h fuel : Nat} {l : List (Bytes × Bytes)} {key v : Bytes} (c : Cursor)
    (hh : Holds env t h l) (hv : l.lookup key = some v) (hd : h < 32) (hk : key.length < 65536) (hf : h < fuel) :
    ∃ c' L X Y R, leaves (getPage env t) h t.root = L ++ (X ++ (key, v) :: Y) :: R ∧
      cursorGet env t fuel c (.seek (.set key)) = .ok (c', .ok (key, v)) ∧
      ∀ ms, cursorRun env t fuel c' ms = .ok (Place.answers (some (sinceEmpty L ++ X, (key, v), Y ++ untilEmpty R)) ms) := by
  rcases hh with ⟨-, hx⟩ | ⟨h0, ht, rfl⟩
  · subst hx; simp at hv
  have hs := (shape_of_wft h ht.wft).1
  rcases seek_set (ne := False) hk hd hf h0 ht.wft hs with ⟨st, A, v', B, a1, a2⟩ | ⟨a1, -⟩
  · have hc := at_contents a2
    have hl : (contents (getPage env t) h t.root).lookup key = some v' := by
      have hs := (wft_range h ht.wft).1
      rw [hc] at hs ⊢
      rw [lookup_mid hs, if_pos rfl]
    rw [hl] at hv
    cases hv
    obtain ⟨p, i, rest, n, L0, R0, X, Y, rfl, h1, h2, h3, h4, h5, h6, -, -⟩ := id a2
    obtain ⟨L, R, u, -, -⟩ := up_upL hs rest h4
    have hat : AtL (getPage env t) h t.root ((p, i) :: rest) L X (key, v) Y R := ⟨p, i, rest, n, rfl, h1, h2, h3, u, h5, h6⟩
    exact ⟨_, L, X, Y, R, atL_leaves hat, cursorGet_seek a1 a2,
      fun ms => run_sees hd hf ms (pl := some (sinceEmpty L ++ X, (key, v), Y ++ untilEmpty R)) ⟨_, L, X, Y, R, rfl, hat, rfl, rfl⟩⟩
  · rw [lookup_none_iff.2 a1] at hv
    cases hv

/-- Deletions that leave an empty leaf in the middle: with "a" … "e" in three leaves and the middle one emptied, the forward scan ends before it and the backward scan behind
it, and a cursor at "e" cannot go back. -/
example : scanAfter [([97], val2), ([98], val2), ([99], val2), ([100], val2), ([101], val2)] [[98]] .first .next = .ok ([some 97], .notfound) ∧
    scanAfter [([97], val2), ([98], val2), ([99], val2), ([100], val2), ([101], val2)] [[98]] .last .prev = .ok ([some 101, some 100, some 99], .notfound) ∧
    scanAfter [([97], val2), ([98], val2), ([99], val2), ([100], val2), ([101], val2)] [[98]] (.set [101]) .prev =
      .ok ([some 101, some 100, some 99], .notfound) := by
  decide +kernel

end Verif.Db
