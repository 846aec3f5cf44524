import Verif.Db.CursorLemmas
import Verif.Db.BulkProps

/-!
# Properties of cursors (C45–C47, C77)

The listing `l` of a database is given by `Holds` (`Verif.Db.Spec`).  A cursor is judged by the
pairs `napr_db_cursor_get` returns.
-/

namespace Verif.Db

open Verif.Page

/-- Repeat an operation until it does not succeed: the pairs seen, and the last status. -/
def collect (env : Env) (t : Txn) (fuel : Nat) (op : Op) : Nat → Cursor × Except Status (Bytes × Bytes) → Res (List (Bytes × Bytes) × Status)
  | 0, _ => .div
  | n + 1, r =>
    match r.2 with
    | .error e => .ok ([], e)
    | .ok kv => do
      let r' ← cursorGet env t fuel r.1 op
      let rest ← collect env t fuel op n r'
      .ok (kv :: rest.1, rest.2)

/-- Position a fresh cursor with `start`, then repeat `op`. -/
def scan (env : Env) (t : Txn) (fuel n : Nat) (start : Seek) (op : Op) : Res (List (Bytes × Bytes) × Status) := do
  let r ← cursorGet env t fuel Cursor.opened (.seek start)
  collect env t fuel op n r

theorem cursorGet_fail {env : Env} {t : Txn} {fuel : Nat} {c c' : Cursor} {op : Op} {s : Status} (h : move env t fuel c op = .ok (s, c'))
    (hs : s ≠ .success) : cursorGet env t fuel c op = .ok (c', .error s) := by
  unfold cursorGet
  rw [h, Res.ok_bind]
  simp only [if_neg hs]

theorem cursorGet_move {env : Env} {t : Txn} {fuel : Nat} {c : Cursor} {op : Op} {H : Nat} {ne : Prop} {st : List (Page × Nat)}
    {A B : List (Bytes × Bytes)} {kv : Bytes × Bytes} (h : move env t fuel c op = .ok (.success, ⟨st, false⟩))
    (hat : At (getPage env t) ne H t.root st A kv B) : cursorGet env t fuel c op = .ok (⟨st, false⟩, .ok kv) := by
  unfold cursorGet
  rw [h, Res.ok_bind]
  simp only [if_true]
  rw [atCursor_spec hat, Res.ok_bind]

theorem cursorGet_seek {env : Env} {t : Txn} {fuel : Nat} {c : Cursor} {s : Seek} {H : Nat} {ne : Prop} {st : List (Page × Nat)}
    {A B : List (Bytes × Bytes)} {kv : Bytes × Bytes} (h : seek env t fuel s = .ok (.success, ⟨st, false⟩))
    (hat : At (getPage env t) ne H t.root st A kv B) : cursorGet env t fuel c (.seek s) = .ok (⟨st, false⟩, .ok kv) :=
  cursorGet_move (op := .seek s) h hat

theorem collect_next {env : Env} {t : Txn} {H fuel : Nat} (hH : H < maxDepth) (hf : H < fuel) (B : List (Bytes × Bytes)) :
    ∀ {n : Nat} {st : List (Page × Nat)} {A : List (Bytes × Bytes)} {kv : Bytes × Bytes}, At (getPage env t) True H t.root st A kv B →
    B.length + 1 < n → collect env t fuel .next n (⟨st, false⟩, .ok kv) = .ok (kv :: B, .notfound) := by
  induction B with
  | nil =>
    intro n st A kv hat hn
    obtain ⟨n, rfl⟩ : ∃ m, n = m + 2 := ⟨n - 2, by simp at hn; omega⟩
    have := (next_spec hH hf hat).1 rfl
    rw [collect]
    simp only []
    rw [cursorGet_fail (op := .next) this (by decide), Res.ok_bind, collect]
    rfl
  | cons b B ih =>
    intro n st A kv hat hn
    obtain ⟨n, rfl⟩ : ∃ m, n = m + 1 := ⟨n - 1, by omega⟩
    obtain ⟨st', e1, e2⟩ := (next_spec hH hf hat).2 b B rfl
    rw [collect]
    simp only []
    rw [cursorGet_move (op := .next) e1 e2, Res.ok_bind, ih e2 (by simp at hn; omega)]
    rfl

theorem collect_prev {env : Env} {t : Txn} {H fuel : Nat} (hH : H < maxDepth) (hf : H < fuel) (m : Nat) :
    ∀ {n : Nat} {st : List (Page × Nat)} {A B : List (Bytes × Bytes)} {kv : Bytes × Bytes}, A.length = m → At (getPage env t) True H t.root st A kv B →
    m + 1 < n → collect env t fuel .prev n (⟨st, false⟩, .ok kv) = .ok (kv :: A.reverse, .notfound) := by
  induction m with
  | zero =>
    intro n st A B kv hm hat hn
    obtain ⟨n, rfl⟩ : ∃ m, n = m + 2 := ⟨n - 2, by omega⟩
    have hA : A = [] := List.length_eq_zero_iff.1 hm
    subst hA
    have := (prev_spec hH hf hat).1 rfl
    rw [collect]
    simp only []
    rw [cursorGet_fail (op := .prev) this (by decide), Res.ok_bind, collect]
    rfl
  | succ m ih =>
    intro n st A B kv hm hat hn
    obtain ⟨n, rfl⟩ : ∃ m, n = m + 1 := ⟨n - 1, by omega⟩
    rcases List.eq_nil_or_concat A with rfl | ⟨A, a, rfl⟩
    · simp at hm
    rw [List.concat_eq_append] at hm hat ⊢
    obtain ⟨st', e1, e2⟩ := (prev_spec hH hf hat).2 A a rfl
    rw [collect]
    simp only []
    rw [cursorGet_move (op := .prev) e1 e2, Res.ok_bind, ih (by simpa using hm) e2 (by omega)]
    simp

theorem scan_empty {env : Env} {t : Txn} {fuel n : Nat} {s : Seek} {op : Op} (h0 : t.root = 0) (hn : 0 < n) :
    scan env t fuel n s op = .ok ([], .notfound) := by
  obtain ⟨n, rfl⟩ : ∃ m, n = m + 1 := ⟨n - 1, by omega⟩
  unfold scan
  have : move env t fuel Cursor.opened (.seek s) = .ok (.notfound, ⟨[], true⟩) := by
    unfold move; simp only [seek, if_pos h0]
  rw [cursorGet_fail this (by decide), Res.ok_bind, collect]

/-- C45, for trees of at most 32 levels without empty pages (otherwise it is false, see
`empty_leaf_hides_keys`): first, then next until failure, gives the listing, each pair once, in
ascending order of keys, and ends with "not found". -/
theorem forward_scan_partial {env : Env} {t : Txn} {h fuel n : Nat} {l : List (Bytes × Bytes)} (hh : Holds env t h l)
    (hd : h < 32) (hne : t.root ≠ 0 → Full (getPage env t) h t.root) (hf : h < fuel) (hn : l.length + 1 < n) :
    scan env t fuel n .first .next = .ok (l, .notfound) ∧ (l.map Prod.fst).Pairwise (· < ·) := by
  refine ⟨?_, holds_sorted hh⟩
  rcases hh with ⟨h0, rfl⟩ | ⟨h0, ht, rfl⟩
  · exact scan_empty h0 (by omega)
  · obtain ⟨st, kv, B, a1, a2⟩ := seek_first (H := h) hd hf h0 ((shape_of_wft h ht.wft).2 (hne h0))
    have hc := at_contents a2
    unfold scan
    rw [cursorGet_seek a1 a2, Res.ok_bind, collect_next hd hf B a2 (by rw [hc] at hn; simp at hn; omega), hc]
    rfl

/-- C46, under the same conditions: last, then previous until failure, gives the listing
reversed. -/
theorem backward_scan_partial {env : Env} {t : Txn} {h fuel n : Nat} {l : List (Bytes × Bytes)} (hh : Holds env t h l)
    (hd : h < 32) (hne : t.root ≠ 0 → Full (getPage env t) h t.root) (hf : h < fuel) (hn : l.length + 1 < n) :
    scan env t fuel n .last .prev = .ok (l.reverse, .notfound) := by
  rcases hh with ⟨h0, rfl⟩ | ⟨h0, ht, rfl⟩
  · exact scan_empty h0 (by omega)
  · obtain ⟨st, kv, A, a1, a2⟩ := seek_last (H := h) hd hf h0 ((shape_of_wft h ht.wft).2 (hne h0))
    have hc := at_contents a2
    unfold scan
    rw [cursorGet_seek a1 a2, Res.ok_bind, collect_prev hd hf A.length rfl a2 (by rw [hc] at hn; simp at hn; omega), hc]
    simp

/-! ### C47 -/

/-- C47, exact positioning, for keys shorter than 65536 bytes and trees of at most 32 levels: it
yields the pair if the key is stored, "not found" otherwise. -/
theorem seek_exact_partial {env : Env} {t : Txn} {h fuel : Nat} {l : List (Bytes × Bytes)} {key : Bytes} (c : Cursor) (hh : Holds env t h l)
    (hd : h < 32) (hk : key.length < 65536) (hf : h < fuel) :
    ∃ c', cursorGet env t fuel c (.seek (.set key)) = .ok (c', match l.lookup key with
      | some v => .ok (key, v)
      | none => .error .notfound) := by
  rcases hh with ⟨h0, rfl⟩ | ⟨h0, ht, rfl⟩
  · refine ⟨⟨[], true⟩, cursorGet_fail ?_ (by decide)⟩
    unfold move; simp only [seek, if_pos h0]
  · rcases seek_set (ne := False) hk hd hf h0 ht.wft (shape_of_wft h ht.wft).1 with ⟨st, A, v, B, a1, a2⟩ | ⟨a1, c', a2⟩
    · refine ⟨⟨st, false⟩, (cursorGet_seek a1 a2).trans ?_⟩
      have hc := at_contents a2
      have hl : (contents (getPage env t) h t.root).lookup key = some v := by
        have hs := (wft_range h ht.wft).1
        rw [hc] at hs ⊢
        rw [lookup_mid hs, if_pos rfl]
      rw [hl]
    · refine ⟨c', (cursorGet_fail (op := .seek (.set key)) a2 (by decide)).trans ?_⟩
      rw [lookup_none_iff.2 a1]

/-- C47, positioning at or after a key, under the same conditions: a success yields the smallest
pair whose key is not less; it succeeds if the leaf the key leads to has such a pair, and otherwise
reports "not found", even if a later leaf has one (see `range_seek_misses`). -/
theorem seek_range_partial {env : Env} {t : Txn} {h fuel : Nat} {l : List (Bytes × Bytes)} {key : Bytes} (c : Cursor) (hh : Holds env t h l)
    (hd : h < 32) (hk : key.length < 65536) (hf : h < fuel) :
    (∃ c' A kv B, cursorGet env t fuel c (.seek (.range key)) = .ok (c', .ok kv) ∧ l = A ++ kv :: B ∧ (∀ a ∈ A, a.1 < key) ∧ ¬ kv.1 < key) ∨
    ((∃ c', cursorGet env t fuel c (.seek (.range key)) = .ok (c', .error .notfound)) ∧
      (t.root ≠ 0 → ∃ path p, IsPath (getPage env t) key h t.root path ∧ getPage env t (path.getLastD 0) = .ok p ∧ ∀ k ∈ keys p, k < key)) := by
  rcases hh with ⟨h0, rfl⟩ | ⟨h0, ht, rfl⟩
  · refine .inr ⟨⟨⟨[], true⟩, cursorGet_fail ?_ (by decide)⟩, fun hx => absurd h0 hx⟩
    unfold move; simp only [seek, if_pos h0]
  · obtain ⟨path, p, b1, b2, b3⟩ := seek_range (ne := False) hk hd hf h0 ht.wft (shape_of_wft h ht.wft).1
    rcases b3 with ⟨-, st, A, kv, B, a1, a2, a3, a4⟩ | ⟨a1, c', a2⟩
    · exact .inl ⟨_, A, kv, B, cursorGet_seek a1 a2, at_contents a2, a3, a4⟩
    · exact .inr ⟨⟨c', cursorGet_fail (op := .seek (.range key)) a2 (by decide)⟩, fun _ => ⟨path, p, b1, b2, a1⟩⟩

/-- In a database of a single leaf, positioning at or after a key is right: "not found" only if
there is no such pair. -/
theorem seek_range_one_leaf {env : Env} {t : Txn} {fuel : Nat} {l : List (Bytes × Bytes)} {key : Bytes} (c : Cursor) (hh : Holds env t 0 l)
    (hk : key.length < 65536) (hf : 0 < fuel) :
    (∃ c' A kv B, cursorGet env t fuel c (.seek (.range key)) = .ok (c', .ok kv) ∧ l = A ++ kv :: B ∧ (∀ a ∈ A, a.1 < key) ∧ ¬ kv.1 < key) ∨
    ((∃ c', cursorGet env t fuel c (.seek (.range key)) = .ok (c', .error .notfound)) ∧ ∀ kv ∈ l, kv.1 < key) := by
  rcases seek_range_partial c hh (by omega) hk hf with h | ⟨h1, h2⟩
  · exact .inl h
  · refine .inr ⟨h1, ?_⟩
    rcases hh with ⟨h0, rfl⟩ | ⟨h0, ht, rfl⟩
    · simp
    · obtain ⟨path, p, e1, e2, e3⟩ := h2 h0
      have hp : path = [t.root] := e1
      subst hp
      have e2' : getPage env t t.root = .ok p := e2
      intro kv hkv
      rw [contents_zero e2'] at hkv
      apply e3
      rw [keys_eq_kvs]; exact List.mem_map_of_mem hkv

/-! ### C77: mixed navigation -/

/-- Moves from a position. -/
inductive Mv where
  | next
  | prev
  | current
  deriving DecidableEq

/-- The cursor operation of a move. -/
def Mv.op : Mv → Op
  | .next => .next
  | .prev => .prev
  | .current => .current

/-- A place in a listing: pairs before, the pair, pairs after; `none` after running off either
end. -/
abbrev Place := Option (List (Bytes × Bytes) × (Bytes × Bytes) × List (Bytes × Bytes))

/-- What a move does to the place. -/
def Place.move : Place → Mv → Place
  | none, _ => none
  | some (A, kv, B), .next => match B with
    | [] => none
    | b :: B => some (A ++ [kv], b, B)
  | some (A, kv, B), .prev => match A.reverse with
    | [] => none
    | a :: A => some (A.reverse, a, kv :: B)
  | some (A, kv, B), .current => some (A, kv, B)

/-- The pair at a place. -/
def Place.pair : Place → Except Status (Bytes × Bytes)
  | none => .error .notfound
  | some (_, kv, _) => .ok kv

/-- The answers to a series of moves. -/
def Place.answers : Place → List Mv → List (Except Status (Bytes × Bytes))
  | _, [] => []
  | pl, m :: ms => (pl.move m).pair :: (pl.move m).answers ms

/-- The answers of a cursor to a series of moves. -/
def cursorRun (env : Env) (t : Txn) (fuel : Nat) : Cursor → List Mv → Res (List (Except Status (Bytes × Bytes)))
  | _, [] => .ok []
  | c, m :: ms => do
    let r ← cursorGet env t fuel c m.op
    let rest ← cursorRun env t fuel r.1 ms
    .ok (r.2 :: rest)

/-- A cursor at a place. -/
def Stands (env : Env) (t : Txn) (h : Nat) (c : Cursor) : Place → Prop
  | none => c = ⟨[], true⟩
  | some (A, kv, B) => ∃ st, c = ⟨st, false⟩ ∧ At (getPage env t) True h t.root st A kv B

theorem stands_move {env : Env} {t : Txn} {h fuel : Nat} (hd : h < maxDepth) (hf : h < fuel) {c : Cursor} {pl : Place} (hs : Stands env t h c pl)
    (m : Mv) : ∃ c', cursorGet env t fuel c m.op = .ok (c', (pl.move m).pair) ∧ Stands env t h c' (pl.move m) := by
  match pl, hs with
  | none, hs =>
    have hs' : c = ⟨[], true⟩ := hs
    subst hs'
    refine ⟨⟨[], true⟩, ?_, rfl⟩
    cases m
    · exact cursorGet_fail (op := .next) rfl (by decide)
    · exact cursorGet_fail (op := .prev) rfl (by decide)
    · rfl
  | some (A, kv, B), hs =>
    obtain ⟨st, rfl, hat⟩ := hs
    cases m with
    | next =>
      cases B with
      | nil => exact ⟨_, cursorGet_fail (op := .next) ((next_spec hd hf hat).1 rfl) (by decide), rfl⟩
      | cons b B =>
        obtain ⟨st', e1, e2⟩ := (next_spec hd hf hat).2 b B rfl
        exact ⟨_, cursorGet_move (op := .next) e1 e2, st', rfl, e2⟩
    | prev =>
      rcases List.eq_nil_or_concat A with rfl | ⟨A, a, rfl⟩
      · exact ⟨_, cursorGet_fail (op := .prev) ((prev_spec hd hf hat).1 rfl) (by decide), rfl⟩
      · rw [List.concat_eq_append] at hat ⊢
        obtain ⟨st', e1, e2⟩ := (prev_spec hd hf hat).2 A a rfl
        have hm : Place.move (some (A ++ [a], kv, B)) .prev = some (A, a, kv :: B) := by simp [Place.move]
        rw [hm]
        exact ⟨_, cursorGet_move (op := .prev) e1 e2, st', rfl, e2⟩
    | current =>
      exact ⟨_, cursorGet_move (op := .current) rfl hat, st, rfl, hat⟩

theorem run_stands {env : Env} {t : Txn} {h fuel : Nat} (hd : h < maxDepth) (hf : h < fuel) (ms : List Mv) : ∀ {c : Cursor} {pl : Place},
    Stands env t h c pl → cursorRun env t fuel c ms = .ok (pl.answers ms) := by
  induction ms with
  | nil => intros; rfl
  | cons m ms ih =>
    intro c pl hs
    obtain ⟨c', e1, e2⟩ := stands_move hd hf hs m
    rw [cursorRun, e1, Res.ok_bind, ih e2]; rfl

/-- C77, for trees of at most 32 levels without empty pages: after exact positioning at a stored
key, every series of next, previous and current answers as moving in the sorted listing would:
the neighbour of the pair last answered, and "not found" for good once either end is passed. -/
theorem navigation_partial {env : Env} {t : Txn} {h fuel : Nat} {A B : List (Bytes × Bytes)} {key v : Bytes} (c : Cursor)
    (hh : Holds env t h (A ++ (key, v) :: B)) (hd : h < 32) (hk : key.length < 65536) (hf : h < fuel) (hne : Full (getPage env t) h t.root) :
    ∃ c', cursorGet env t fuel c (.seek (.set key)) = .ok (c', .ok (key, v)) ∧
      ∀ ms, cursorRun env t fuel c' ms = .ok (Place.answers (some (A, (key, v), B)) ms) := by
  have hsort := holds_sorted hh
  rcases hh with ⟨h0, hx⟩ | ⟨h0, ht, hx⟩
  · simp at hx
  · rcases seek_set (ne := True) hk hd hf h0 ht.wft ((shape_of_wft h ht.wft).2 hne) with ⟨st, A', v', B', a1, a2⟩ | ⟨a1, -⟩
    · have hc := at_contents a2
      rw [hx] at hc
      have hA : A = A' ∧ (key, v) :: B = (key, v') :: B' := by
        have hs := hsort
        have hs' := hc ▸ hsort
        unfold Ascending at hs hs'
        rw [List.map_append, List.map_cons, sorted_append, sorted_cons] at hs hs'
        have key_lt : ∀ {X Y X' Y' : List (Bytes × Bytes)} {v v' : Bytes}, X ++ (key, v) :: Y = X' ++ (key, v') :: Y' →
            (∀ a ∈ X.map Prod.fst, a < key) → (∀ a ∈ X'.map Prod.fst, a < key) → X.length = X'.length := by
          intro X
          induction X with
          | nil =>
            intro Y X' Y' v v' he _ h2
            cases X' with
            | nil => rfl
            | cons x X' =>
              exfalso
              simp only [List.nil_append, List.cons_append, List.cons.injEq] at he
              exact blt_irrefl _ (h2 key (by rw [← he.1]; simp))
          | cons x X ih =>
            intro Y X' Y' v v' he h1 h2
            cases X' with
            | nil =>
              exfalso
              simp only [List.nil_append, List.cons_append, List.cons.injEq] at he
              exact blt_irrefl _ (h1 key (by rw [he.1]; simp))
            | cons x' X' =>
              simp only [List.cons_append, List.cons.injEq] at he
              simp only [List.length_cons]
              rw [ih he.2 (fun a ha => h1 a (by simp only [List.map_cons, List.mem_cons]; exact .inr ha))
                (fun a ha => h2 a (by simp only [List.map_cons, List.mem_cons]; exact .inr ha))]
        have hlen := key_lt hc (fun a ha => hs.2.2 a ha key List.mem_cons_self) (fun a ha => hs'.2.2 a ha key List.mem_cons_self)
        exact List.append_inj hc hlen
      obtain ⟨rfl, hb⟩ := hA
      cases hb
      exact ⟨_, cursorGet_seek a1 a2, fun ms => run_stands hd hf ms (pl := some (A, (key, v), B)) ⟨st, rfl, a2⟩⟩
    · exfalso
      apply a1
      rw [hx]; simp

/-! ### Databases that can be scanned

Only `del` empties a leaf: what `put` builds meets the condition of the scans. -/

/-- A successful `put` of a key that is not stored, under the conditions of C41, keeps every leaf
non-empty, so that the scans above stay complete. -/
theorem put_keeps_full_partial {env : Env} {t t' : Txn} {h fuel : Nat} {l : List (Bytes × Bytes)} {key val : Bytes}
    (hw : t.rdonly = false) (hfree : t.freeRoot = 0) (hh : Holds env t h l) (hfull : t.root ≠ 0 → Full (getPage env t) h t.root)
    (hkey : key ∉ l.map Prod.fst) (hsz : 4 + key.length + val.length < 65536) (hd : h < 32) (h64 : t.newLast + h + 2 < 2 ^ 64)
    (hsafe : t.root ≠ 0 → SplitSafe (getPage env t) key (4 + key.length + val.length) h t.root)
    (hput : put env (fuel + 1) t key val = .ok (.success, t')) :
    ∃ h' X Y, h' ≤ h + 1 ∧ l = X ++ Y ∧ Holds env t' h' (X ++ (key, val) :: Y) ∧ Full (getPage env t') h' t'.root := by
  obtain ⟨st, t'', h1, -, h3⟩ := put_absent (ext_noFree env fuel) (by omega) hsz hw hfree hh hkey (by simp) hd hsafe h64
  have h1' := hput.symm.trans h1
  cases h1'
  obtain ⟨h', hins⟩ := h3 rfl
  obtain ⟨X, Y, e1, e2⟩ := hins.ins
  exact ⟨h', X, Y, hins.height, e1, .inr ⟨hins.root, hins.tree, e2⟩, hins.full hfull⟩

/-- Loading in ascending order (as in C44) and then scanning gives back the loaded list, forward
and backward. -/
theorem bulk_then_scan_partial {env : Env} {t : Txn} {ks vs fuel n : Nat} {A : List (Bytes × Bytes)} (hw : t.rdonly = false) (h0 : t.root = 0)
    (hfree : t.freeRoot = 0) (hs : (A.map Prod.fst).Pairwise (· < ·))
    (hsize : ∀ e ∈ A, e.1.length = ks ∧ e.2.length = vs) (h1 : 2 * (ks + vs + 6) ≤ 4078) (h2 : 2 * (ks + 12) ≤ 4078)
    (hn : A.length < (4078 / (ks + 12) / 2) ^ 31) (h64 : t.newLast + 34 * A.length < 2 ^ 64) (hnn : A.length + 1 < n) :
    ∃ t', puts env (fuel + 1) t A = .ok (List.replicate A.length .success, t') ∧
      scan env t' 32 n .first .next = .ok (A, .notfound) ∧ scan env t' 32 n .last .prev = .ok (A.reverse, .notfound) := by
  obtain ⟨t', h', b1, b2, b3, b4⟩ := bulk_go (uniform_good h1 h2) (fuel := fuel) A (l0 := []) (h := 0) hw hfree (.inl ⟨h0, rfl⟩) (by decide)
    (fun hx => absurd h0 hx) (fun hx => absurd h0 hx) hs (by
      intro e he
      obtain ⟨e1, e2⟩ := hsize e he
      refine ⟨?_, ?_, fun _ => ⟨?_, ?_⟩⟩ <;> simp only [uniform, Item.key, Item.size] <;> omega) hn (by omega)
  exact ⟨t', b1, (forward_scan_partial b2 b3 b4 b3 hnn).1, backward_scan_partial b2 b3 b4 b3 hnn⟩

/-! ### Concrete databases -/

/-- Run `put`s, then deletions, then a scan; the first bytes of the keys seen. -/
def scanAfter (ps : List (Bytes × Bytes)) (ds : List Bytes) (s : Seek) (op : Op) : Res (List (Option UInt8) × Status) := do
  let a ← puts env0 3 txn0 ps
  let t ← ds.foldl (fun t d => do
    let t ← t
    let r ← del env0 t d
    .ok r.2) (.ok a.2)
  let r ← scan env0 t 5 9 s op
  .ok (r.1.map fun kv => kv.1.head?, r.2)

/-- A tree with two leaves. -/
example : scanAfter [([97], val2), ([98], val2), ([99], val2)] [] .first .next = .ok ([some 97, some 98, some 99], .notfound) ∧
    scanAfter [([97], val2), ([98], val2), ([99], val2)] [] .last .prev = .ok ([some 99, some 98, some 97], .notfound) ∧
    scanAfter [([97], val2), ([98], val2), ([99], val2)] [] (.set [98]) .prev = .ok ([some 98, some 97], .notfound) := by
  decide +kernel

/-- C45 and C46 are false of the code: "a", "b", "c" are stored, in two leaves, and "a" is deleted,
which empties the first leaf; the forward scan then finds nothing at all, although "b" and "c" are
still stored.  Deleting "b" and "c" instead makes the backward scan miss "a". -/
theorem empty_leaf_hides_keys :
    scanAfter [([97], val2), ([98], val2), ([99], val2)] [[97]] .first .next = .ok ([], .notfound) ∧
    scanAfter [([97], val2), ([98], val2), ([99], val2)] [[97]] (.set [98]) .next = .ok ([some 98, some 99], .notfound) ∧
    scanAfter [([97], val2), ([98], val2), ([99], val2)] [[98], [99]] .last .prev = .ok ([], .notfound) ∧
    scanAfter [([97], val2), ([98], val2), ([99], val2)] [[98], [99]] (.set [97]) .prev = .ok ([some 97], .notfound) := by
  decide +kernel

/-- C47 is false of the code: with "a", "b", "c" stored in two leaves, positioning at or after "aa"
reports "not found" although "b" is stored. -/
theorem range_seek_misses :
    scanAfter [([97], val2), ([98], val2), ([99], val2)] [] (.range [97, 97]) .next = .ok ([], .notfound) ∧
    scanAfter [([97], val2), ([98], val2), ([99], val2)] [] (.range [98]) .next = .ok ([some 98, some 99], .notfound) := by
  decide +kernel

end Verif.Db
