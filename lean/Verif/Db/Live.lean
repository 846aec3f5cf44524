import Verif.Db.CursorProps
import Verif.Db.Pointer

/-!
# Cursors that point at pages

The cursor of `Verif.Db.Model` keeps copies of the pages it went through.  The C cursor keeps pointers: into the map, or into a
buffer of its transaction.  That makes a difference once the transaction changes something while the cursor stands somewhere,
so here the pointers are kept and followed at every use.
-/

namespace Verif.Db

open Verif.Page

/-- napr_db_internal.h `cursor->stack[].page`, as `db_get_page` (napr_db_cursor.c L21-31) gave it: page `no` of the map, or (`dirty`) the
transaction's own buffer for that number. -/
structure Ref where
  no : Nat
  dirty : Bool
  deriving Repr, DecidableEq

/-- The bytes behind the pointer, at the time the transaction is `t`.  A page of the map does not change while the transaction lasts;
a buffer is changed in place (napr_db.c L1511-1516, L1908-1917). -/
def Ref.page (env : Env) (t : Txn) (r : Ref) : Res Page :=
  if r.dirty then Res.ofOption (t.getDirty r.no) else mapPage env r.no

/-- napr_db_cursor.c L21-31 `db_get_page`: which of the two it is. -/
def refOf (t : Txn) (n : Nat) : Ref := ⟨n, ownBuffer t n⟩

theorem refOf_page (env : Env) (t : Txn) (n : Nat) : (refOf t n).page env t = getPage env t n := by
  rw [getPage_home]; rfl

/-- napr_db_internal.h `struct napr_db_cursor_t`: the stack (top first) and the `eof` flag. -/
structure LCursor where
  stack : List (Ref × Nat)
  eof : Bool

/-- napr_db_cursor.c L36-66 `napr_db_cursor_open`. -/
def LCursor.opened : LCursor := ⟨[], false⟩

/-- napr_db_cursor.c L83-90 `cursor_push`. -/
def lpush (st : List (Ref × Nat)) (r : Ref) (i : Nat) : List (Ref × Nat) :=
  if st.length < maxDepth then (r, i) :: st else st

/-- napr_db_cursor.c L107-152: descend to a leaf. -/
def lseekDown (env : Env) (t : Txn) (op : Seek) : Nat → List (Ref × Nat) → Nat → Res (Status × List (Ref × Nat))
  | 0, _, _ => .div
  | fuel + 1, st, n => do
    let p ← (refOf t n).page env t
    if isLeaf p then .ok (.success, lpush st (refOf t n) 0)
    else if !isBranch p then .ok (.general, st)
    else do
      let i ← seekIdx op p
      let c ← child p i
      lseekDown env t op fuel (lpush st (refOf t n) i) c

/-- napr_db_cursor.c L95-193 `db_cursor_seek`. -/
def lseek (env : Env) (t : Txn) (fuel : Nat) (op : Seek) : Res (Status × LCursor) :=
  if t.root = 0 then .ok (.notfound, ⟨[], true⟩)
  else do
    let r ← lseekDown env t op fuel [] t.root
    if r.1 = .success then
      match r.2 with
      | [] => .ub
      | (x, i) :: rest => do
        let p ← x.page env t
        match ← leafIdx op p with
        | none => .ok (.notfound, ⟨(x, i) :: rest, false⟩)
        | some j =>
          if numKeys p = 0 then .ok (.notfound, ⟨(x, i) :: rest, true⟩)
          else .ok (.success, ⟨(x, j) :: rest, false⟩)
    else .ok (r.1, ⟨r.2, false⟩)

/-- napr_db_cursor.c L256-279: descend to the leftmost leaf. -/
def lleftmost (env : Env) (t : Txn) : Nat → List (Ref × Nat) → Nat → Res (Status × LCursor)
  | 0, _, _ => .div
  | fuel + 1, st, n => do
    let p ← (refOf t n).page env t
    if isLeaf p then
      if numKeys p = 0 then .ok (.notfound, ⟨lpush st (refOf t n) 0, true⟩)
      else .ok (.success, ⟨lpush st (refOf t n) 0, false⟩)
    else do
      let c ← child p 0
      lleftmost env t fuel (lpush st (refOf t n) 0) c

/-- napr_db_cursor.c L242-284. -/
def lnextUp (env : Env) (t : Txn) (fuel : Nat) : List (Ref × Nat) → Res (Status × LCursor)
  | [] => .ok (.notfound, ⟨[], true⟩)
  | (x, i) :: st => do
    let p ← x.page env t
    if (i + 1) % 65536 < numKeys p then do
      let c ← child p ((i + 1) % 65536)
      lleftmost env t fuel ((x, (i + 1) % 65536) :: st) c
    else lnextUp env t fuel st

/-- napr_db_cursor.c L213-289 `db_cursor_next`. -/
def lnext (env : Env) (t : Txn) (fuel : Nat) (c : LCursor) : Res (Status × LCursor) :=
  if c.eof then .ok (.notfound, c)
  else match c.stack with
    | [] => .ok (.notfound, c)
    | (x, i) :: st => do
      let p ← x.page env t
      if (i + 1) % 65536 < numKeys p then .ok (.success, ⟨(x, (i + 1) % 65536) :: st, false⟩)
      else lnextUp env t fuel st

/-- napr_db_cursor.c L309-336 `descend_rightmost`. -/
def lrightmost (env : Env) (t : Txn) : Nat → List (Ref × Nat) → Nat → Res (Status × LCursor)
  | 0, _, _ => .div
  | fuel + 1, st, n => do
    let p ← (refOf t n).page env t
    if numKeys p = 0 then .ok (.notfound, ⟨st, true⟩)
    else if isLeaf p then .ok (.success, ⟨lpush st (refOf t n) (numKeys p - 1), false⟩)
    else do
      let c ← child p (numKeys p - 1)
      lrightmost env t fuel (lpush st (refOf t n) (numKeys p - 1)) c

/-- napr_db_cursor.c L360-373. -/
def lprevUp (env : Env) (t : Txn) (fuel : Nat) : List (Ref × Nat) → Res (Status × LCursor)
  | [] => .ok (.notfound, ⟨[], true⟩)
  | (x, i) :: st =>
    if 0 < i then do
      let p ← x.page env t
      let c ← child p (i - 1)
      lrightmost env t fuel ((x, i - 1) :: st) c
    else lprevUp env t fuel st

/-- napr_db_cursor.c L338-377 `db_cursor_prev`: within the leaf the page is not even looked at. -/
def lprev (env : Env) (t : Txn) (fuel : Nat) (c : LCursor) : Res (Status × LCursor) :=
  if c.eof then .ok (.notfound, c)
  else match c.stack with
    | [] => .ok (.notfound, c)
    | (x, i) :: st =>
      if 0 < i then .ok (.success, ⟨(x, i - 1) :: st, false⟩)
      else lprevUp env t fuel st

/-- napr_db_cursor.c L421-442: the pair under the cursor. -/
def latCursor (env : Env) (t : Txn) (c : LCursor) : Res (Except Status (Bytes × Bytes)) :=
  if c.eof then .ok (.error .notfound)
  else match c.stack with
    | [] => .ok (.error .notfound)
    | (x, i) :: _ => do
      let p ← x.page env t
      if numKeys p ≤ i then .ok (.error .notfound)
      else do
        let kv ← leafNode p i
        .ok (.ok kv)

/-- napr_db_cursor.c L386-419: the movement. -/
def lmove (env : Env) (t : Txn) (fuel : Nat) (c : LCursor) : Op → Res (Status × LCursor)
  | .seek s => lseek env t fuel s
  | .next => lnext env t fuel c
  | .prev => lprev env t fuel c
  | .current => .ok (.success, c)

/-- napr_db_cursor.c L382-443 `napr_db_cursor_get`; `t` is the cursor's transaction as it is at the time of the call. -/
def lcursorGet (env : Env) (t : Txn) (fuel : Nat) (c : LCursor) (op : Op) : Res (LCursor × Except Status (Bytes × Bytes)) := do
  let r ← lmove env t fuel c op
  if r.1 = .success then do
    let kv ← latCursor env t r.2
    .ok (r.2, kv)
  else .ok (r.2, .error r.1)

/-! ### The two kinds of cursors agree as long as nothing changes -/

/-- The pointers lead to these pages, in the sense of `Q`. -/
def Shows (Q : Ref → Page → Prop) : List (Ref × Nat) → List (Page × Nat) → Prop
  | [], [] => True
  | (r, i) :: l, (p, j) :: m => Q r p ∧ i = j ∧ Shows Q l m
  | _, _ => False

/-- The same status, the same flag, corresponding stacks; or both are undefined; or both do not end. -/
def Alike (Q : Ref → Page → Prop) : Res (Status × LCursor) → Res (Status × Cursor) → Prop
  | .ok a, .ok b => a.1 = b.1 ∧ a.2.eof = b.2.eof ∧ Shows Q a.2.stack b.2.stack
  | .ub, .ub => True
  | .div, .div => True
  | _, _ => False

theorem shows_length {Q : Ref → Page → Prop} : ∀ {l : List (Ref × Nat)} {m : List (Page × Nat)}, Shows Q l m → l.length = m.length
  | [], [], _ => rfl
  | (_, _) :: _, (_, _) :: _, h => by rw [List.length_cons, List.length_cons, shows_length h.2.2]

theorem shows_push {Q : Ref → Page → Prop} {l : List (Ref × Nat)} {m : List (Page × Nat)} (h : Shows Q l m) {r : Ref} {p : Page} (hq : Q r p) (i : Nat) :
    Shows Q (lpush l r i) (push m p i) := by
  unfold lpush push
  rw [shows_length h]
  split
  · exact ⟨hq, rfl, h⟩
  · exact h

theorem shows_mono {Q Q' : Ref → Page → Prop} (hi : ∀ r p, Q r p → Q' r p) : ∀ {l : List (Ref × Nat)} {m : List (Page × Nat)}, Shows Q l m → Shows Q' l m
  | [], [], _ => trivial
  | (_, _) :: _, (_, _) :: _, h => ⟨hi _ _ h.1, h.2.1, shows_mono hi h.2.2⟩

section
variable {env : Env} {t : Txn}

/-- The pages behind the pointers, now. -/
abbrev Now (env : Env) (t : Txn) : Ref → Page → Prop := fun r p => r.page env t = .ok p

theorem lleftmost_same : ∀ (fuel : Nat) {l : List (Ref × Nat)} {m : List (Page × Nat)} (n : Nat), Shows (Now env t) l m →
    Alike (Now env t) (lleftmost env t fuel l n) (leftmost env t fuel m n) := by
  intro fuel
  induction fuel with
  | zero => intro l m n h; trivial
  | succ fuel ih =>
    intro l m n h
    rw [lleftmost, leftmost, refOf_page]
    cases hp : getPage env t n with
    | ub => trivial
    | div => trivial
    | ok p =>
      have hr : Now env t (refOf t n) p := (refOf_page env t n).trans hp
      rw [Res.ok_bind, Res.ok_bind]
      by_cases hl : isLeaf p = true
      · rw [if_pos hl, if_pos hl]
        by_cases h0 : numKeys p = 0
        · rw [if_pos h0, if_pos h0]; exact ⟨rfl, rfl, shows_push h hr 0⟩
        · rw [if_neg h0, if_neg h0]; exact ⟨rfl, rfl, shows_push h hr 0⟩
      · rw [if_neg hl, if_neg hl]
        cases hc : child p 0 with
        | ub => trivial
        | div => trivial
        | ok c => rw [Res.ok_bind, Res.ok_bind]; exact ih c (shows_push h hr 0)

theorem lrightmost_same : ∀ (fuel : Nat) {l : List (Ref × Nat)} {m : List (Page × Nat)} (n : Nat), Shows (Now env t) l m →
    Alike (Now env t) (lrightmost env t fuel l n) (rightmost env t fuel m n) := by
  intro fuel
  induction fuel with
  | zero => intro l m n h; trivial
  | succ fuel ih =>
    intro l m n h
    rw [lrightmost, rightmost, refOf_page]
    cases hp : getPage env t n with
    | ub => trivial
    | div => trivial
    | ok p =>
      have hr : Now env t (refOf t n) p := (refOf_page env t n).trans hp
      rw [Res.ok_bind, Res.ok_bind]
      by_cases h0 : numKeys p = 0
      · rw [if_pos h0, if_pos h0]; exact ⟨rfl, rfl, h⟩
      · rw [if_neg h0, if_neg h0]
        by_cases hl : isLeaf p = true
        · rw [if_pos hl, if_pos hl]; exact ⟨rfl, rfl, shows_push h hr _⟩
        · rw [if_neg hl, if_neg hl]
          cases hc : child p (numKeys p - 1) with
          | ub => trivial
          | div => trivial
          | ok c => rw [Res.ok_bind, Res.ok_bind]; exact ih c (shows_push h hr _)

theorem lnextUp_same (fuel : Nat) : ∀ {l : List (Ref × Nat)} {m : List (Page × Nat)}, Shows (Now env t) l m →
    Alike (Now env t) (lnextUp env t fuel l) (nextUp env t fuel m)
  | [], [], _ => ⟨rfl, rfl, trivial⟩
  | (x, i) :: l, (p, j) :: m, ⟨h1, h2, h3⟩ => by
    subst h2
    have h1' : x.page env t = .ok p := h1
    rw [lnextUp, nextUp, h1', Res.ok_bind]
    by_cases hlt : (i + 1) % 65536 < numKeys p
    · rw [if_pos hlt, if_pos hlt]
      cases hc : child p ((i + 1) % 65536) with
      | ub => trivial
      | div => trivial
      | ok c => rw [Res.ok_bind, Res.ok_bind]; exact lleftmost_same fuel c ⟨h1, rfl, h3⟩
    · rw [if_neg hlt, if_neg hlt]; exact lnextUp_same fuel h3

theorem lprevUp_same (fuel : Nat) : ∀ {l : List (Ref × Nat)} {m : List (Page × Nat)}, Shows (Now env t) l m →
    Alike (Now env t) (lprevUp env t fuel l) (prevUp env t fuel m)
  | [], [], _ => ⟨rfl, rfl, trivial⟩
  | (x, i) :: l, (p, j) :: m, ⟨h1, h2, h3⟩ => by
    subst h2
    have h1' : x.page env t = .ok p := h1
    rw [lprevUp, prevUp]
    by_cases hlt : 0 < i
    · rw [if_pos hlt, if_pos hlt, h1', Res.ok_bind]
      cases hc : child p (i - 1) with
      | ub => trivial
      | div => trivial
      | ok c => rw [Res.ok_bind, Res.ok_bind]; exact lrightmost_same fuel c ⟨h1, rfl, h3⟩
    · rw [if_neg hlt, if_neg hlt]; exact lprevUp_same fuel h3

/-- The same for the descent of a positioning operation. -/
def AlikeStack (Q : Ref → Page → Prop) : Res (Status × List (Ref × Nat)) → Res (Status × List (Page × Nat)) → Prop
  | .ok a, .ok b => a.1 = b.1 ∧ Shows Q a.2 b.2
  | .ub, .ub => True
  | .div, .div => True
  | _, _ => False

theorem lseekDown_same (op : Seek) : ∀ (fuel : Nat) {l : List (Ref × Nat)} {m : List (Page × Nat)} (n : Nat), Shows (Now env t) l m →
    AlikeStack (Now env t) (lseekDown env t op fuel l n) (seekDown env t op fuel m n) := by
  intro fuel
  induction fuel with
  | zero => intro l m n h; trivial
  | succ fuel ih =>
    intro l m n h
    rw [lseekDown, seekDown, refOf_page]
    cases hp : getPage env t n with
    | ub => trivial
    | div => trivial
    | ok p =>
      have hr : Now env t (refOf t n) p := (refOf_page env t n).trans hp
      rw [Res.ok_bind, Res.ok_bind]
      by_cases hl : isLeaf p = true
      · rw [if_pos hl, if_pos hl]; exact ⟨rfl, shows_push h hr 0⟩
      · rw [if_neg hl, if_neg hl]
        by_cases hb : (!isBranch p) = true
        · rw [if_pos hb, if_pos hb]; exact ⟨rfl, h⟩
        · rw [if_neg hb, if_neg hb]
          cases hi : seekIdx op p with
          | ub => trivial
          | div => trivial
          | ok i =>
            rw [Res.ok_bind, Res.ok_bind]
            cases hc : child p i with
            | ub => trivial
            | div => trivial
            | ok c => rw [Res.ok_bind, Res.ok_bind]; exact ih c (shows_push h hr i)

theorem lseek_same (fuel : Nat) (op : Seek) : Alike (Now env t) (lseek env t fuel op) (seek env t fuel op) := by
  unfold lseek seek
  by_cases h0 : t.root = 0
  · rw [if_pos h0, if_pos h0]; exact ⟨rfl, rfl, trivial⟩
  · rw [if_neg h0, if_neg h0]
    have key := lseekDown_same (env := env) (t := t) op fuel (l := []) (m := []) t.root trivial
    cases h1 : lseekDown env t op fuel [] t.root with
    | ub => cases h2 : seekDown env t op fuel [] t.root <;> rw [h1, h2] at key <;> first | trivial | exact key.elim
    | div => cases h2 : seekDown env t op fuel [] t.root <;> rw [h1, h2] at key <;> first | trivial | exact key.elim
    | ok a =>
      cases h2 : seekDown env t op fuel [] t.root with
      | ub => rw [h1, h2] at key; exact key.elim
      | div => rw [h1, h2] at key; exact key.elim
      | ok b =>
        rw [h1, h2] at key
        obtain ⟨sa, la⟩ := a
        obtain ⟨sb, lb⟩ := b
        obtain ⟨k1, k2⟩ := key
        simp only at k1 k2
        subst k1
        rw [Res.ok_bind, Res.ok_bind]
        by_cases hs : sa = .success
        · rw [if_pos hs, if_pos hs]
          match la, lb, k2 with
          | [], [], _ => trivial
          | (x, i) :: la, (p, j) :: lb, ⟨q1, q2, q3⟩ =>
            subst q2
            have q1' : x.page env t = .ok p := q1
            simp only []
            rw [q1', Res.ok_bind]
            cases hx : leafIdx op p with
            | ub => trivial
            | div => trivial
            | ok o =>
              rw [Res.ok_bind, Res.ok_bind]
              cases o with
              | none => exact ⟨rfl, rfl, q1, rfl, q3⟩
              | some k =>
                simp only []
                by_cases hn : numKeys p = 0
                · rw [if_pos hn, if_pos hn]; exact ⟨rfl, rfl, q1, rfl, q3⟩
                · rw [if_neg hn, if_neg hn]; exact ⟨rfl, rfl, q1, rfl, q3⟩
        · rw [if_neg hs, if_neg hs]; exact ⟨rfl, rfl, k2⟩

theorem lmove_same (fuel : Nat) {a : LCursor} {c : Cursor} (he : a.eof = c.eof) (h : Shows (Now env t) a.stack c.stack) (op : Op) :
    Alike (Now env t) (lmove env t fuel a op) (move env t fuel c op) := by
  cases op with
  | seek s => exact lseek_same fuel s
  | current => exact ⟨rfl, he, h⟩
  | next =>
    show Alike _ (lnext env t fuel a) (next env t fuel c)
    unfold lnext next
    rw [he]
    by_cases hb : c.eof = true
    · rw [if_pos hb, if_pos hb]; exact ⟨rfl, he, h⟩
    · rw [if_neg hb, if_neg hb]
      obtain ⟨la, ea⟩ := a
      obtain ⟨lc, ec⟩ := c
      match la, lc, h with
      | [], [], _ => exact ⟨rfl, he, trivial⟩
      | (x, i) :: la, (p, j) :: lb, ⟨q1, q2, q3⟩ =>
        subst q2
        have q1' : x.page env t = .ok p := q1
        simp only []
        rw [q1', Res.ok_bind]
        by_cases hlt : (i + 1) % 65536 < numKeys p
        · rw [if_pos hlt, if_pos hlt]; exact ⟨rfl, rfl, q1, rfl, q3⟩
        · rw [if_neg hlt, if_neg hlt]; exact lnextUp_same fuel q3
  | prev =>
    show Alike _ (lprev env t fuel a) (prev env t fuel c)
    unfold lprev prev
    rw [he]
    by_cases hb : c.eof = true
    · rw [if_pos hb, if_pos hb]; exact ⟨rfl, he, h⟩
    · rw [if_neg hb, if_neg hb]
      obtain ⟨la, ea⟩ := a
      obtain ⟨lc, ec⟩ := c
      match la, lc, h with
      | [], [], _ => exact ⟨rfl, he, trivial⟩
      | (x, i) :: la, (p, j) :: lb, ⟨q1, q2, q3⟩ =>
        subst q2
        simp only []
        by_cases hlt : 0 < i
        · rw [if_pos hlt, if_pos hlt]; exact ⟨rfl, rfl, q1, rfl, q3⟩
        · rw [if_neg hlt, if_neg hlt]; exact lprevUp_same fuel q3

theorem latCursor_same {a : LCursor} {c : Cursor} (he : a.eof = c.eof) (h : Shows (Now env t) a.stack c.stack) :
    latCursor env t a = atCursor c := by
  unfold latCursor atCursor
  rw [he]
  by_cases hb : c.eof = true
  · rw [if_pos hb, if_pos hb]
  · rw [if_neg hb, if_neg hb]
    obtain ⟨la, ea⟩ := a
    obtain ⟨lc, ec⟩ := c
    match la, lc, h with
    | [], [], _ => rfl
    | (x, i) :: la, (p, j) :: lb, ⟨q1, q2, q3⟩ =>
      subst q2
      have q1' : x.page env t = .ok p := q1
      simp only []
      rw [q1', Res.ok_bind]

end

end Verif.Db
