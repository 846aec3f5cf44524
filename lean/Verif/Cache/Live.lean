import Verif.Cache.Exact
import Verif.Db.LiveWalk
import Verif.Db.BlockedProps

/-!
# The sweep with a cursor that points at pages

`Verif.Cache.Model` gives the sweep a cursor that keeps copies of pages and asks at every leaf that it is not a copy made by the
transaction.  Here the cursor of the sweep is the one with pointers (`Verif.Db.Live`), without any such question.
-/

namespace Verif.Cache

open Verif.Page Verif.Db

/-- napr_cache.c L440-474: the loop of the sweep, from a cursor result on, at most `n` times. -/
def lsweepFrom (env : Env) (visited : List Bytes) (fuel : Nat) : Nat → Txn → LCursor × Except Status (Bytes × Bytes) → Res (Status × Txn)
  | 0, _, _ => .div
  | n + 1, t, r =>
    match r.2 with
    | .error .notfound => .ok (.success, t)
    | .error e => .ok (e, t)
    | .ok kv =>
      if kv.1 ∈ visited then do
        let r ← lcursorGet env t fuel r.1 .next
        lsweepFrom env visited fuel n t r
      else do
        let d ← del env t kv.1
        if d.1 = .success then do
          let r ← lcursorGet env d.2 fuel r.1 .next
          lsweepFrom env visited fuel n d.2 r
        else .ok d

/-- napr_cache.c L398-514 `napr_cache_sweep`, as `sweep`, with the cursor that points at pages. -/
def lsweep (c : Cache) (fuel : Nat) (fail : Option Nat) (pid tid : Nat) : Res (Status × Cache) :=
  match beginWrite c with
  | none => .div
  | some (_, c) =>
    match c.txn with
    | none => .ub
    | some t => do
      let r ← lcursorGet c.env t fuel LCursor.opened (.seek .first)
      let s ← lsweepFrom c.env c.visited fuel fuel t r
      if s.1 = .success then do
        let k ← commitWrite { c with txn := some s.2 } fuel fail pid tid
        if k.1 = .success then .ok (.success, { k.2 with visited := [] })
        else .ok k
      else .ok (s.1, (abort { c with txn := some s.2 } pid tid).2)

section
variable {env : Env} {t : Txn}

/-- The pointers lead to these pages; only the page on top, if the cursor has just come to it, may be a leaf changed by the transaction. -/
def Near (env : Env) (t : Txn) : List (Ref × Nat) → List (Page × Nat) → Prop
  | [], [] => True
  | (x, i) :: l, (p, j) :: m => x.page env t = .ok p ∧ i = j ∧ (isLeaf p = true → x.dirty = false ∨ i = 0) ∧ Shows (Firm env t) l m
  | _, _ => False

theorem near_of_firm : ∀ {l : List (Ref × Nat)} {m : List (Page × Nat)}, Shows (Firm env t) l m → Near env t l m
  | [], [], _ => trivial
  | (_, _) :: _, (_, _) :: _, h => ⟨h.1.1, h.2.1, fun hl => .inl (h.1.2 hl), h.2.2⟩

theorem now_of_firm {l : List (Ref × Nat)} {m : List (Page × Nat)} (h : Shows (Firm env t) l m) : Shows (Now env t) l m :=
  shows_mono (fun _ _ h => h.1) h

theorem near_push {l : List (Ref × Nat)} {m : List (Page × Nat)} (h : Shows (Firm env t) l m) {r : Ref} {p : Page} (hp : r.page env t = .ok p) :
    Near env t (lpush l r 0) (push m p 0) := by
  unfold lpush push
  rw [shows_length h]
  split
  · exact ⟨hp, rfl, fun _ => .inr rfl, h⟩
  · exact near_of_firm h

theorem lleftmost_near : ∀ (fuel : Nat) {l : List (Ref × Nat)} {m : List (Page × Nat)} {n : Nat} {a : Status × LCursor} {b : Status × Cursor},
    Shows (Firm env t) l m → lleftmost env t fuel l n = .ok a → leftmost env t fuel m n = .ok b → Near env t a.2.stack b.2.stack := by
  intro fuel
  induction fuel with
  | zero => intro l m n a b h ha; cases ha
  | succ fuel ih =>
    intro l m n a b h ha hb
    rw [lleftmost, refOf_page] at ha
    rw [leftmost] at hb
    obtain ⟨p, hp, ha⟩ := Res.bind_eq_ok.1 ha
    rw [hp, Res.ok_bind] at hb
    have hr : (refOf t n).page env t = .ok p := (refOf_page env t n).trans hp
    by_cases hl : isLeaf p = true
    · rw [if_pos hl] at ha hb
      by_cases h0 : numKeys p = 0
      · rw [if_pos h0] at ha hb; cases ha; cases hb; exact near_push h hr
      · rw [if_neg h0] at ha hb; cases ha; cases hb; exact near_push h hr
    · rw [if_neg hl] at ha hb
      obtain ⟨c, hc, ha⟩ := Res.bind_eq_ok.1 ha
      rw [hc, Res.ok_bind] at hb
      exact ih (shows_push h ⟨hr, fun h => absurd h hl⟩ 0) ha hb

theorem lnextUp_near (fuel : Nat) : ∀ {l : List (Ref × Nat)} {m : List (Page × Nat)} {a : Status × LCursor} {b : Status × Cursor},
    Shows (Firm env t) l m → lnextUp env t fuel l = .ok a → nextUp env t fuel m = .ok b → Near env t a.2.stack b.2.stack
  | [], [], a, b, _, ha, hb => by cases ha; cases hb; exact trivial
  | (x, i) :: l, (p, j) :: m, a, b, ⟨h1, h2, h3⟩, ha, hb => by
    subst h2
    rw [lnextUp, h1.1, Res.ok_bind] at ha
    rw [nextUp] at hb
    by_cases hlt : (i + 1) % 65536 < numKeys p
    · rw [if_pos hlt] at ha hb
      obtain ⟨c, hc, ha⟩ := Res.bind_eq_ok.1 ha
      rw [hc, Res.ok_bind] at hb
      exact lleftmost_near fuel (l := (x, _) :: l) (m := (p, _) :: m) ⟨h1, rfl, h3⟩ ha hb
    · rw [if_neg hlt] at ha hb
      exact lnextUp_near fuel h3 ha hb

theorem lnext_near {fuel : Nat} {a : LCursor} {c : Cursor} (he : a.eof = c.eof) (h : Shows (Firm env t) a.stack c.stack) {x : Status × LCursor}
    {y : Status × Cursor} (hx : lnext env t fuel a = .ok x) (hy : next env t fuel c = .ok y) : Near env t x.2.stack y.2.stack := by
  unfold lnext at hx
  unfold next at hy
  rw [he] at hx
  by_cases hb : c.eof = true
  · rw [if_pos hb] at hx hy; cases hx; cases hy; exact near_of_firm h
  · rw [if_neg hb] at hx hy
    obtain ⟨la, ea⟩ := a
    obtain ⟨lc, ec⟩ := c
    match la, lc, h with
    | [], [], _ => cases hx; cases hy; exact trivial
    | (r, i) :: la, (p, j) :: lb, ⟨q1, q2, q3⟩ =>
      subst q2
      simp only [] at hx hy
      rw [q1.1, Res.ok_bind] at hx
      by_cases hlt : (i + 1) % 65536 < numKeys p
      · rw [if_pos hlt] at hx hy; cases hx; cases hy; exact near_of_firm (l := (r, _) :: la) (m := (p, _) :: lb) ⟨q1, rfl, q3⟩
      · rw [if_neg hlt] at hx hy; exact lnextUp_near fuel q3 hx hy

/-- A move of the cursor with copies is one of the cursor with pointers. -/
theorem lcursorGet_near {fuel : Nat} {a : LCursor} {c : Cursor} (he : a.eof = c.eof) (h : Shows (Firm env t) a.stack c.stack)
    {y : Cursor × Except Status (Bytes × Bytes)} (hy : cursorGet env t fuel c .next = .ok y) :
    ∃ b, lcursorGet env t fuel a .next = .ok (b, y.2) ∧ b.eof = y.1.eof ∧ Near env t b.stack y.1.stack := by
  have key := lmove_same fuel he (now_of_firm h) .next
  unfold cursorGet at hy
  obtain ⟨r, hr, hy⟩ := Res.bind_eq_ok.1 hy
  rw [hr] at key
  cases hl : lmove env t fuel a .next with
  | ub => rw [hl] at key; exact key.elim
  | div => rw [hl] at key; exact key.elim
  | ok x =>
    rw [hl] at key
    obtain ⟨k1, k2, k3⟩ := key
    have hn : Near env t x.2.stack r.2.stack := lnext_near he h hl hr
    unfold lcursorGet
    rw [hl, Res.ok_bind, k1]
    by_cases hs : r.1 = .success
    · rw [if_pos hs] at hy ⊢
      rw [latCursor_same k2 k3]
      obtain ⟨kv, e1, e2⟩ := Res.bind_eq_ok.1 hy
      cases e2
      rw [e1, Res.ok_bind]
      exact ⟨_, rfl, k2, hn⟩
    · rw [if_neg hs] at hy ⊢
      cases hy
      exact ⟨_, rfl, k2, hn⟩

/-- The question the sweep with copies asks is enough. -/
theorem firm_of_near (hd : ∀ n p, t.getDirty n = some p → pgno p = n) {c : Cursor} {l : List (Ref × Nat)} (h : Near env t l c.stack)
    (hc : onCopy t c = false) : Shows (Firm env t) l c.stack := by
  obtain ⟨st, e⟩ := c
  match l, st, h with
  | [], [], _ => trivial
  | (x, i) :: l, (p, j) :: m, ⟨h1, h2, h3, h4⟩ =>
    refine ⟨⟨h1, fun hl => ?_⟩, h2, h4⟩
    rcases h3 hl with h3 | h3
    · exact h3
    · subst h2 h3
      cases hb : x.dirty with
      | false => rfl
      | true =>
        unfold Ref.page at h1
        rw [hb, if_pos rfl] at h1
        cases hg : t.getDirty x.no with
        | none => rw [hg] at h1; cases h1
        | some q =>
          rw [hg] at h1; cases h1
          have hp := hd _ _ hg
          unfold onCopy at hc
          simp only [hp, hg] at hc
          cases hc

theorem leafNode_short {p : Page} {i : Nat} {kv : Bytes × Bytes} (h : leafNode p i = .ok kv) : kv.1.length < 65536 := by
  unfold leafNode at h
  obtain ⟨o, -, h⟩ := Res.bind_eq_ok.1 h
  obtain ⟨-, -, h⟩ := Res.bind_eq_ok.1 h
  obtain ⟨-, -, h⟩ := Res.bind_eq_ok.1 h
  cases h
  simp only [slice_length]
  exact u16_lt _ _

theorem cursorGet_short {fuel : Nat} {c : Cursor} {op : Op} {y : Cursor} {kv : Bytes × Bytes} (h : cursorGet env t fuel c op = .ok (y, .ok kv)) :
    kv.1.length < 65536 := by
  unfold cursorGet at h
  obtain ⟨r, -, h⟩ := Res.bind_eq_ok.1 h
  split at h
  · obtain ⟨e, h1, h⟩ := Res.bind_eq_ok.1 h
    cases h
    unfold atCursor at h1
    split at h1
    · cases h1
    · split at h1
      · cases h1
      · split at h1
        · cases h1
        · obtain ⟨kv', h2, h1⟩ := Res.bind_eq_ok.1 h1
          cases h1
          exact leafNode_short h2
  · cases h

end

/-- Wherever the loop with copies has an outcome, the loop with pointers has the same. -/
theorem lsweepFrom_same {env : Env} {id fr r0 H fuel : Nat} {F : List Nat} {vis : List Bytes} (hH : H < maxDepth) :
    ∀ (n : Nat) {t : Txn} {m : KvMap} {a : LCursor} {c : Cursor} {e : Except Status (Bytes × Bytes)} {s : Status × Txn},
    Writing env id fr r0 F t H m → a.eof = c.eof → Near env t a.stack c.stack → (∀ kv, e = .ok kv → kv.1.length < 65536) →
    sweepFrom env vis fuel n t (c, e) = .ok s → lsweepFrom env vis fuel n t (a, e) = .ok s := by
  intro n
  induction n with
  | zero => intro t m a c e s _ _ _ _ h; cases h
  | succ n ih =>
    intro t m a c e s W he hn hk h
    cases e with
    | error e =>
      rw [sweepFrom] at h
      rw [lsweepFrom]
      cases e <;> exact h
    | ok kv =>
      rw [sweepFrom] at h
      rw [lsweepFrom]
      simp only [] at h ⊢
      by_cases hc : onCopy t c = true
      · rw [if_pos hc] at h; cases h
      · rw [if_neg hc] at h
        have hf := firm_of_near (fun x p hx => (W.clean.dirty x p hx).2.1) hn (by simpa using hc)
        by_cases hv : kv.1 ∈ vis
        · rw [if_pos hv] at h ⊢
          obtain ⟨r, h1, h2⟩ := Res.bind_eq_ok.1 h
          obtain ⟨b, b1, b2, b3⟩ := lcursorGet_near he hf h1
          rw [b1, Res.ok_bind]
          refine ih W b2 b3 (fun x hx => ?_) h2
          obtain ⟨y, e⟩ := r
          cases hx
          exact cursorGet_short h1
        · rw [if_neg hv] at h ⊢
          obtain ⟨d, h1, h2⟩ := Res.bind_eq_ok.1 h
          rw [h1, Res.ok_bind]
          by_cases hs : d.1 = .success
          · rw [if_pos hs] at h2 ⊢
            obtain ⟨r, h3, h4⟩ := Res.bind_eq_ok.1 h2
            obtain ⟨l, hl, -⟩ := W.map
            have hkey := hk kv rfl
            have hfm := (del_kept (D := fun _ => True) W.clean.rdonly hl hkey hH h1 (Lasting.refl env t _) trivial).2
            obtain ⟨t', e1, e2, -⟩ : ∃ t', del env t kv.1 = .ok (.success, t') ∧ (∃ m', Writing env id fr r0 F t' H m') ∧ True := by
              rcases Classical.em (m kv.1 = none) with hm | hm
              · have := (del_writing W hkey hH).1 hm
                rw [h1] at this
                cases this
                exact absurd hs Status.noConfusion
              · obtain ⟨t', e1, e2, -⟩ := (del_writing W hkey hH).2 hm
                exact ⟨t', e1, ⟨_, e2⟩, trivial⟩
            rw [h1] at e1
            cases e1
            obtain ⟨m', W'⟩ := e2
            obtain ⟨b, b1, b2, b3⟩ := lcursorGet_near he (shows_mono hfm hf) h3
            rw [b1, Res.ok_bind]
            refine ih W' b2 b3 (fun x hx => ?_) h4
            obtain ⟨y, e⟩ := r
            cases hx
            exact cursorGet_short h3
          · rw [if_neg hs] at h2 ⊢
            exact h2

/-- C59: whenever the sweep with copies of pages has an outcome, the sweep with pointers to pages has the same one.  So what is said of the first
holds of the second. -/
theorem sweep_with_pointers {c : Cache} {h hf fuel pid tid : Nat} {m : KvMap} {fl : List (Bytes × Bytes)} {fail : Option Nat} (hdb : DbOk c.env h hf m fl)
    (hid : metaTxnid c.env.liveMeta + 1 < 2 ^ 64) (hd : h < 32) {r : Status × Cache} (hs : sweep c fuel fail pid tid = .ok r) :
    lsweep c fuel fail pid tid = .ok r := by
  unfold sweep beginWrite at hs
  unfold lsweep beginWrite
  cases hl : c.env.locked with
  | true =>
    have : Db.beginWrite c.env = none := by unfold Db.beginWrite; rw [if_pos hl]
    rw [this] at hs; cases hs
  | false =>
    obtain ⟨env', t, b1, -, -, W⟩ := begin_writing hdb hl hid
    obtain ⟨-, -, hdirty⟩ := begin_eq b1
    rw [b1] at hs ⊢
    simp only [] at hs ⊢
    obtain ⟨x, h1, hs⟩ := Res.bind_eq_ok.1 hs
    obtain ⟨s, h2, h9⟩ := Res.bind_eq_ok.1 hs
    have key := lseek_same (env := env') (t := t) fuel .first
    have hc := h1
    unfold cursorGet at h1
    obtain ⟨q, q1, q2⟩ := Res.bind_eq_ok.1 h1
    have q1' : seek env' t fuel .first = .ok q := q1
    rw [q1'] at key
    cases hq : lseek env' t fuel .first with
    | ub => rw [hq] at key; exact key.elim
    | div => rw [hq] at key; exact key.elim
    | ok y =>
      rw [hq] at key
      obtain ⟨k1, k2, k3⟩ := key
      have hfirm : Shows (Firm env' t) y.2.stack q.2.stack := by
        refine shows_mono (fun r p hr => ⟨hr, fun _ => ?_⟩) k3
        cases hb : r.dirty with
        | false => rfl
        | true =>
          unfold Now Ref.page at hr
          have hg : t.getDirty r.no = none := by rw [hdirty]; rfl
          rw [hb, if_pos rfl, hg] at hr
          cases hr
      have : ∃ b, lcursorGet env' t fuel LCursor.opened (.seek .first) = .ok (b, x.2) ∧ b.eof = x.1.eof ∧ Near env' t b.stack x.1.stack := by
        unfold lcursorGet lmove
        simp only []
        rw [hq, Res.ok_bind, k1]
        by_cases hs : q.1 = .success
        · rw [if_pos hs] at q2 ⊢
          rw [latCursor_same k2 k3]
          obtain ⟨kv, e1, e2⟩ := Res.bind_eq_ok.1 q2
          cases e2
          rw [e1, Res.ok_bind]
          exact ⟨_, rfl, k2, near_of_firm hfirm⟩
        · rw [if_neg hs] at q2 ⊢
          cases q2
          exact ⟨_, rfl, k2, near_of_firm hfirm⟩
      obtain ⟨b, c1, c2, c3⟩ := this
      obtain ⟨xc, xe⟩ := x
      rw [c1, Res.ok_bind, lsweepFrom_same hd _ W c2 c3 (fun kv hkv => by cases hkv; exact cursorGet_short hc) h2, Res.ok_bind]
      exact h9

/-- The sweep of "a" to "d" that keeps "c" and "d" (it empties the first leaf and then goes on in the second), with pointers. -/
example : ∃ sts c c1, filled [[([97], val2), ([98], val2), ([99], val2), ([100], val2)]] = .ok (sts, c) ∧
    lsweep (([[99], [100]] : List Bytes).foldl markVisited c) 20 none 1 1 = .ok (.success, c1) ∧ look c1.env [97] = .ok (.error .notfound) ∧
    ∃ v, look c1.env [99] = .ok (.ok v) := by
  have h : Res.holds (filled [[([97], val2), ([98], val2), ([99], val2), ([100], val2)]]) (fun r =>
      Res.holds (lsweep (([[99], [100]] : List Bytes).foldl markVisited r.2) 20 none 1 1) fun a => a.1 == .success &&
        decide (look a.2.env [97] = .ok (.error .notfound)) && Res.found (look a.2.env [99])) = true := by
    decide +kernel
  obtain ⟨⟨sts, c⟩, h1, h2⟩ := Res.holds_iff h
  obtain ⟨⟨s1, c1⟩, h4, h5⟩ := Res.holds_iff h2
  simp only [Bool.and_eq_true, beq_iff_eq, decide_eq_true_eq] at h5
  obtain ⟨⟨rfl, h6⟩, h7⟩ := h5
  exact ⟨sts, c, c1, h1, h4, h6, Res.found_iff h7⟩

/-- C59 exactly, with the cursor that points at pages. -/
theorem lsweep_exact_partial {c : Cache} {h hf : Nat} {m : KvMap} {fl : List (Bytes × Bytes)} (pid tid : Nat) (hdb : DbOk c.env h hf m fl)
    (hl : c.env.locked = false) (hid : metaTxnid c.env.liveMeta + 1 < 2 ^ 64) (hd : h < 32)
    (hroom : SweepRoom c.env h hf) (hmap : metaLast c.env.liveMeta + 1 < c.env.mapPages) {fuel : Nat} (hfuel : sweepSteps c.env h ≤ fuel) :
    ∃ c' h' hf' fl', lsweep c fuel none pid tid = .ok (.success, c') ∧ DbOk c'.env h' hf' (without m (reached c.env h) c.visited) fl' ∧
      c'.visited = [] ∧ c'.txn = none ∧ c'.env.locked = false ∧ c'.env.readers = c.env.readers := by
  obtain ⟨c', h', hf', fl', e, rest⟩ := sweep_exact_partial pid tid hdb hl hid hd hroom hmap hfuel
  exact ⟨c', h', hf', fl', sweep_with_pointers hdb hid hd e, rest⟩

end Verif.Cache
