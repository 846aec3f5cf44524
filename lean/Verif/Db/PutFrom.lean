import Verif.Db.PointerProps

/-!
# Storing a value that was read

`put` of `Verif.Db.Model` is given the bytes of the value.  The C function is given a pointer and a size, and
follows the pointer only when the new node is written, after its header and its key.  Here the value is the pointer
that `napr_db_get` gave, so it may lead into the very page that is changed.
-/

namespace Verif.Db

open Verif.Page

/-- napr_db_tree.c L445: the bytes that `memcpy` reads for the value.  `no` is the table key of the page `q` that is being
changed, `dst` the place they go to.  When the pointer leads into that page the bytes are those of the page as it is by
then, and regions that overlap are undefined. -/
def srcBytes (env : Env) (t : Txn) (x : Ptr) (no : Nat) (q : Page) (dst : Nat) : Res Bytes :=
  if x.dirty && x.no == no then
    if x.len ≠ 0 ∧ dst < x.off + x.len ∧ x.off < dst + x.len then .ub
    else do
      chk x.off x.len
      .ok (slice q x.off x.len)
  else deref env t x

/-- napr_db_tree.c L398-467 `db_page_insert` into the leaf `p` under table key `no`, with the value given by its pointer.
A branch page has no values. -/
def insertFrom (env : Env) (t : Txn) (x : Ptr) (no : Nat) (p : Page) (index : Nat) (key : Bytes) : Res (St × Page) :=
  if !isLeaf p then insert p index (.leaf key [])
  else
    let nodeSize := (4 + key.length + x.len) % 65536
    let free := (upper p + 65536 - lower p) % 65536
    if free < nodeSize + 2 then .ok (.nospc, p)
    else do
      let q ← shiftUp p index (numKeys p)
      let o := (upper p + 65536 - nodeSize) % 65536
      chk o 4
      let q := put16 q o key.length
      let q := put16 q (o + 2) x.len
      chk (o + 4) key.length
      let q := blit q (o + 4) key
      chk (o + 4 + key.length) x.len
      let v ← srcBytes env t x no q (o + 4 + key.length)
      let q := blit q (o + 4 + key.length) v
      let q ← wrSlot q index o
      let q := put16 q 10 (numKeys q + 1)
      let q := put16 q 12 (lower q + 2)
      .ok (.ok, put16 q 14 o)

/-- napr_db.c L1556-1567: `insertHalf`, with the value given by its pointer. -/
def insertHalfFrom (env : Env) (t : Txn) (lk : Nat) (s : SplitTxn) (key : Bytes) (x : Ptr) : Res (Status × Txn) := do
  let f ← probe s.left key
  if !f.hit && numKeys s.left ≤ f.idx then do
    let g ← probe s.right key
    let r ← insertFrom env t x s.no s.right g.idx key
    .ok (ofSt r.1, t.setDirty s.no r.2)
  else do
    let r ← insertFrom env t x lk s.left f.idx key
    .ok (ofSt r.1, if s.no = lk then t else t.setDirty lk r.2)

/-- napr_db.c L1542-1580 `handle_page_split`: `pageSplit`, with the value given by its pointer. -/
def pageSplitFrom (al : Alloc) (env : Env) (t : Txn) (lk : Nat) (path : List Nat) (key : Bytes) (x : Ptr) :
    Res (Txn × Except Status Nat) := do
  let sp ← splitTxn al true t lk
  match sp.2 with
  | .error e => .ok (sp.1, .error e)
  | .ok s => do
    let h ← insertHalfFrom env sp.1 lk s key x
    if h.1 = .success then do
      let d ← dividerNow h.2 s
      let r ← propagate al path.dropLast.reverse h.2 d s.no
      if r.2.1 = .incomplete then .ok (r.1, .ok (path.headD 0))
      else if r.2.1 = .success then rootSplit al r.1 (path.headD 0) r.2.2.2 r.2.2.1
      else .ok (r.1, .error r.2.1)
    else .ok (h.2, .error h.1)

/-- napr_db.c L1436-1540 `napr_db_put` of the value behind a pointer that `napr_db_get` of the same transaction gave.
(With no tree there is none: `inval` stands for that.) -/
def putFrom (al : Alloc) (env : Env) (t : Txn) (key : Bytes) (x : Ptr) : Res (Status × Txn) :=
  if t.rdonly then .ok (.acces, t)
  else if t.root = 0 then .ok (.inval, t)
  else do
    match ← findPath env t key maxDepth t.root with
    | .error e => .ok (e, t)
    | .ok path => do
      let leaf ← getPage env t (path.getLastD 0)
      let f ← probe leaf key
      if f.hit && (t.getDirty (path.getLastD 0)).isSome then .ok (.exist, t)
      else do
        let c ← cowPath env t path.reverse
        let lk := c.1
        let t := c.2
        let p ← Res.ofOption (t.getDirty lk)
        let d ← (if f.hit then delete p f.idx else .ok (.ok, p))
        let t := t.setDirty lk d.2
        if d.1 = .ok then do
          let r ← insertFrom env t x lk d.2 f.idx key
          match r.1 with
          | .ok => .ok (.success, t.setDirty lk r.2)
          | .inval => .ok (.inval, t)
          | .nospc => do
            let r ← pageSplitFrom al env t lk path key x
            .ok (withRoot r)
        else .ok (ofSt d.1, t)

/-! ## Helper lemmas -/

theorem bind_congr {α β : Type} {x : Res α} {f g : α → Res β} (h : ∀ a, x = .ok a → f a = g a) : (x >>= f) = (x >>= g) := by
  cases x with
  | ok a => exact h a rfl
  | ub => rfl
  | div => rfl

/-- Inserting through the pointer is inserting the bytes that are there when the node is written. -/
theorem insertFrom_eq {env : Env} {t : Txn} {x : Ptr} {no : Nat} {p : Page} {index : Nat} {key v : Bytes} (hv : v.length = x.len)
    (hsrc : isLeaf p = true → (4 + key.length + x.len) % 65536 + 2 ≤ (upper p + 65536 - lower p) % 65536 → ∀ q, shiftUp p index (numKeys p) = .ok q →
      (upper p + 65536 - (4 + key.length + x.len) % 65536) % 65536 + 4 + key.length + x.len ≤ pageSize →
      srcBytes env t x no (blit (put16 (put16 q ((upper p + 65536 - (4 + key.length + x.len) % 65536) % 65536) key.length)
          ((upper p + 65536 - (4 + key.length + x.len) % 65536) % 65536 + 2) x.len) ((upper p + 65536 - (4 + key.length + x.len) % 65536) % 65536 + 4) key)
        ((upper p + 65536 - (4 + key.length + x.len) % 65536) % 65536 + 4 + key.length) = .ok v) :
    insertFrom env t x no p index key = insert p index (.leaf key v) := by
  unfold insertFrom
  cases hl : isLeaf p with
  | false =>
    simp only [Bool.not_false, if_true]
    unfold Page.insert
    rw [hl]
    simp only [Bool.false_and, Bool.false_eq_true, if_false, Item.key, wrNode, Item.child]
  | true =>
    simp only [Bool.not_true, Bool.false_eq_true, if_false]
    unfold Page.insert
    rw [hl]
    simp only [Item.hasData, Item.key, Item.val, Bool.not_true, Bool.and_false, Bool.false_and, Bool.false_eq_true, if_false, if_true, baseSize, hv]
    split
    · rfl
    · rename_i hroom
      refine bind_congr fun q hq => ?_
      unfold wrNode
      simp only [if_true, Item.key, Item.val, hv]
      cases hc1 : chk ((upper p + 65536 - (4 + key.length + x.len) % 65536) % 65536) 4 with
      | ub => rfl
      | div => rfl
      | ok _ =>
        simp only [Res.ok_bind]
        cases hc2 : chk ((upper p + 65536 - (4 + key.length + x.len) % 65536) % 65536 + 4) key.length with
        | ub => rfl
        | div => rfl
        | ok _ =>
          simp only [Res.ok_bind]
          cases hc3 : chk ((upper p + 65536 - (4 + key.length + x.len) % 65536) % 65536 + 4 + key.length) x.len with
          | ub => rfl
          | div => rfl
          | ok _ =>
            simp only [Res.ok_bind]
            rw [hsrc hl (by omega) q hq (chk_iff.1 hc3), Res.ok_bind]

/-- The bytes behind a pointer into another page. -/
theorem srcBytes_other {env : Env} {t : Txn} {x : Ptr} {no : Nat} (h : x.dirty = true → x.no ≠ no) (q : Page) (dst : Nat) :
    srcBytes env t x no q dst = deref env t x := by
  unfold srcBytes
  rw [if_neg]
  simp only [Bool.and_eq_true, beq_iff_eq]
  rintro ⟨h1, h2⟩
  exact h h1 h2

theorem insertFrom_other {env : Env} {t : Txn} {x : Ptr} {no : Nat} (h : x.dirty = true → x.no ≠ no) {v : Bytes} (hd : deref env t x = .ok v)
    (hv : v.length = x.len) (p : Page) (index : Nat) (key : Bytes) : insertFrom env t x no p index key = insert p index (.leaf key v) :=
  insertFrom_eq hv (fun _ _ q _ _ => by rw [srcBytes_other h]; exact hd)

theorem slice_outside {p q : Page} {o n : Nat} (h : ∀ j, o ≤ j → j < o + n → q j = p j) : slice q o n = slice p o n := by
  unfold slice
  refine List.map_congr_left fun i hi => ?_
  rw [List.mem_range] at hi
  exact h _ (by omega) (by omega)

theorem blit_outside {p : Page} {o j : Nat} {bs : Bytes} (h : j < o ∨ o + bs.length ≤ j) : blit p o bs j = p j := by
  unfold blit
  rw [if_neg (by omega)]

/-- Inserting through a pointer into the page itself, when what is written lies outside of what is read. -/
theorem insertFrom_same {env : Env} {t : Txn} {x : Ptr} (hx : x.dirty = true) {p : Page} (wf : WF p) {index : Nat} (hi : index ≤ numKeys p) {key : Bytes}
    (hs : 4 + key.length + x.len < 65536) (hb : x.off + x.len ≤ pageSize) (hlow : lower p + 2 ≤ x.off)
    (hsafe : upper p ≤ x.off ∨ x.off + x.len + (4 + key.length + x.len) ≤ upper p) :
    insertFrom env t x x.no p index key = insert p index (.leaf key (slice p x.off x.len)) := by
  refine insertFrom_eq (by simp [slice]) (fun hl hroom q hq hfit => ?_)
  have hlw := wf.low
  have htop := wf.top
  have hgap := wf.gap
  simp only [pageSize, hdrSize] at hlw htop hb
  rw [Nat.mod_eq_of_lt hs] at hroom hfit ⊢
  have hu : (upper p + 65536 - lower p) % 65536 = upper p - lower p := by
    have : upper p + 65536 - lower p = (upper p - lower p) + 65536 := by omega
    rw [this, Nat.add_mod_right, Nat.mod_eq_of_lt (by omega)]
  rw [hu] at hroom
  have hn : (upper p + 65536 - (4 + key.length + x.len)) % 65536 = upper p - (4 + key.length + x.len) := by
    have : upper p + 65536 - (4 + key.length + x.len) = (upper p - (4 + key.length + x.len)) + 65536 := by omega
    rw [this, Nat.add_mod_right, Nat.mod_eq_of_lt (by omega)]
  rw [hn]
  obtain ⟨q1, hq1, -, out1⟩ := shiftUp_spec p index (numKeys p) (by simp only [hdrSize, pageSize]; omega) hi
  rw [hq1] at hq; cases hq
  unfold srcBytes
  rw [if_pos (by simp [hx]), if_neg (by omega), chk_iff.2 (by simpa [pageSize] using hb), Res.ok_bind]
  congr 1
  refine slice_outside fun j hj1 hj2 => ?_
  have h2 : (le 2 key.length).length = 2 := rfl
  have h3 : (le 2 x.len).length = 2 := rfl
  rw [blit_outside (by omega)]
  unfold put16
  rw [blit_outside (by rw [h3]; omega), blit_outside (by rw [h2]; omega)]
  exact out1 j (by simp only [hdrSize]; omega)

/-- `put` through a pointer is `put` of the bytes if the two insertions are. -/
theorem putFrom_congr {al : Alloc} {env : Env} {t : Txn} {key v : Bytes} {x : Ptr} (h0 : t.root ≠ 0)
    (H : t.rdonly = false → ∀ path leaf f c p1 d, findPath env t key maxDepth t.root = .ok (.ok path) → getPage env t (path.getLastD 0) = .ok leaf → probe leaf key = .ok f →
      ¬ (f.hit && (t.getDirty (path.getLastD 0)).isSome) = true → cowPath env t path.reverse = .ok c → c.2.getDirty c.1 = some p1 →
      (if f.hit = true then delete p1 f.idx else .ok (.ok, p1)) = .ok d →
      insertFrom env (c.2.setDirty c.1 d.2) x c.1 d.2 f.idx key = insert d.2 f.idx (.leaf key v) ∧
      ∀ q, insert d.2 f.idx (.leaf key v) = .ok (.nospc, q) → ∀ sp s, splitTxn al true (c.2.setDirty c.1 d.2) c.1 = .ok (sp, .ok s) →
        insertHalfFrom env sp c.1 s key x = insertHalf sp c.1 s (.leaf key v)) :
    putFrom al env t key x = putWith al env t key v := by
  unfold putFrom putWith
  by_cases hr : t.rdonly = true
  · rw [if_pos hr, if_pos hr]
  rw [if_neg hr, if_neg hr, if_neg h0, if_neg h0]
  refine bind_congr fun fp hfp => ?_
  cases fp with
  | error e => rfl
  | ok path =>
    simp only []
    refine bind_congr fun leaf hleaf => bind_congr fun f hf => ?_
    split
    · rfl
    rename_i hx
    refine bind_congr fun c hc => bind_congr fun p1 hp1 => bind_congr fun d hd => ?_
    have hp1' : c.2.getDirty c.1 = some p1 := by
      cases hg : c.2.getDirty c.1 with
      | none => rw [hg] at hp1; cases hp1
      | some q => rw [hg] at hp1; cases hp1; rfl
    split
    · obtain ⟨h1, h2⟩ := H (by simpa using hr) path leaf f c p1 d hfp hleaf hf hx hc hp1' hd
      rw [h1]
      refine bind_congr fun r hins => ?_
      obtain ⟨rs, rp⟩ := r
      cases rs with
      | ok => rfl
      | inval => rfl
      | nospc =>
        simp only []
        refine congrArg (fun y : Res (Txn × Except Status Nat) => y >>= fun r => Res.ok (withRoot r)) ?_
        unfold pageSplitFrom pageSplit
        refine bind_congr fun sp hsp => ?_
        obtain ⟨sp, e⟩ := sp
        cases e with
        | error e => rfl
        | ok s =>
          simp only []
          rw [h2 rp hins sp s hsp]
    · rfl

theorem deref_len {env : Env} {t : Txn} {x : Ptr} {v : Bytes} (h : deref env t x = .ok v) : v.length = x.len ∧ x.off + x.len ≤ pageSize := by
  unfold deref at h
  obtain ⟨p, -, h⟩ := Res.bind_eq_ok.1 h
  obtain ⟨u, hc, h⟩ := Res.bind_eq_ok.1 h
  cases h
  exact ⟨by simp [slice], chk_iff.1 hc⟩

theorem deref_clean {env : Env} {t t' : Txn} {x : Ptr} (hx : x.dirty = false) : deref env t' x = deref env t x := by
  unfold deref
  rw [hx]; rfl

theorem deref_own {env : Env} {t t' : Txn} {x : Ptr} (hx : x.dirty = true) (h : t'.getDirty x.no = t.getDirty x.no) : deref env t' x = deref env t x := by
  unfold deref
  rw [hx]; simp only [if_true, h]

theorem insertHalfFrom_other {env : Env} {t : Txn} {lk : Nat} {s : SplitTxn} {key v : Bytes} {x : Ptr} (h1 : x.dirty = true → x.no ≠ lk ∧ x.no ≠ s.no)
    (hd : deref env t x = .ok v) : insertHalfFrom env t lk s key x = insertHalf t lk s (.leaf key v) := by
  have hv := (deref_len hd).1
  unfold insertHalfFrom insertHalf
  refine bind_congr fun f _ => ?_
  simp only [Item.key]
  split
  · refine bind_congr fun g _ => ?_
    rw [insertFrom_other (fun hh => (h1 hh).2) hd hv]
  · rw [insertFrom_other (fun hh => (h1 hh).1) hd hv]

/-- A pointer into the map may always be given. -/
theorem putFrom_clean {al : Alloc} {env : Env} {t : Txn} {key v : Bytes} {x : Ptr} (h0 : t.root ≠ 0) (hx : x.dirty = false) (hd : deref env t x = .ok v) :
    putFrom al env t key x = putWith al env t key v := by
  have hno : ∀ n, x.dirty = true → x.no ≠ n := fun n hh => by rw [hx] at hh; cases hh
  refine putFrom_congr h0 fun _ path leaf f c p1 d _ _ _ _ _ _ _ => ⟨?_, fun q _ sp s _ => ?_⟩
  · exact insertFrom_other (hno _) ((deref_clean hx).trans hd) (deref_len hd).1 _ _ _
  · exact insertHalfFrom_other (fun hh => ⟨hno _ hh, hno _ hh⟩) ((deref_clean hx).trans hd)

/-- What a split leaves under the key of the leaf that was split, and of other pages. -/
theorem split_parts {al : Alloc} (hal : Extends al) {t : Txn} (hf : t.freeRoot = 0) {lk : Nat} {p : Page} (hp : t.getDirty lk = some p) (wf : WF p) (hl : isLeaf p = true)
    (h64 : t.newLast + 1 < 2 ^ 64) {t1 : Txn} {s : SplitTxn} (h1 : splitTxn al true t lk = .ok (t1, .ok s)) :
    s.no = t.newLast + 1 ∧ t1 = ((extend t).2.setDirty lk s.left).setDirty (t.newLast + 1) s.right ∧ WF s.left ∧ isLeaf s.left = true ∧
      upper s.left = lowestOf p (numKeys p / 2) ∧ numKeys s.left = numKeys p / 2 ∧ ∀ j, 16 ≤ j → s.left j = p j := by
  obtain ⟨q, a1, a2, a3, a4, a5, a6, a7, a8, a9, a12⟩ := split_leaf_any wf hl h64
  have hp' : (extend t).2.getDirty lk = some p := hp
  unfold splitTxn at h1
  rw [hp, Res.ofOption_some, Res.ok_bind, hl] at h1
  simp only [if_true, Bool.not_true, Bool.false_eq_true, if_false] at h1
  rw [hal t hf, Res.ok_bind, hp', Res.ofOption_some, Res.ok_bind] at h1
  have a1' : splitLeaf p (extend t).1 = .ok (some q) := a1
  rw [a1', Res.ok_bind] at h1
  have e1 := (Prod.mk.inj (Res.ok.inj h1)).1
  have e2 := Except.ok.inj (Prod.mk.inj (Res.ok.inj h1)).2
  have hlow := wf.low
  have hgap := wf.gap
  have htop := wf.top
  simp only [pageSize, hdrSize] at hlow htop
  have hshr : shrink p (numKeys p / 2) = .ok q.left := by
    unfold splitLeaf at a1
    simp only [hl, Bool.not_true, Bool.false_eq_true, if_false] at a1
    obtain ⟨r, -, a1⟩ := Res.bind_eq_ok.1 a1
    obtain ⟨l, b1, a1⟩ := Res.bind_eq_ok.1 a1
    obtain ⟨d, -, a1⟩ := Res.bind_eq_ok.1 a1
    cases a1
    exact b1
  have hup := shrink_upper (by simp only [hdrSize, pageSize]; omega) hshr
  subst e1
  subst e2
  exact ⟨rfl, rfl, a2, a4.trans hl, hup, by rw [← items_length, a8, List.length_take, items_length]; omega, fun j hj => shrink_bytes hshr hj⟩

/-- Storing through a pointer into the leaf that is split. -/
theorem insertHalfFrom_same {al : Alloc} (hal : Extends al) {env : Env} {t : Txn} (hf : t.freeRoot = 0) {x : Ptr} (hx : x.dirty = true) {p : Page} (hp : t.getDirty x.no = some p)
    (wf : WF p) (hl : isLeaf p = true) (hnk : 0 < numKeys p) (hle : x.no ≤ t.newLast) (h64 : t.newLast + 1 < 2 ^ 64) {key : Bytes} (hs : 4 + key.length + x.len < 65536)
    (hb : x.off + x.len ≤ pageSize) (hup : upper p ≤ x.off)
    (hsafe : lowestOf p (numKeys p / 2) ≤ x.off ∨ x.off + x.len + (4 + key.length + x.len) ≤ lowestOf p (numKeys p / 2))
    {t1 : Txn} {s : SplitTxn} (h1 : splitTxn al true t x.no = .ok (t1, .ok s)) :
    insertHalfFrom env t1 x.no s key x = insertHalf t1 x.no s (.leaf key (slice p x.off x.len)) := by
  obtain ⟨a1, a2, a3, a4, a5, a6, a7⟩ := split_parts hal hf hp wf hl h64 h1
  have hlw := wf.low
  have hgap := wf.gap
  have hlw' := a3.low
  simp only [hdrSize] at hlw hlw'
  have hsl : slice s.left x.off x.len = slice p x.off x.len := slice_outside fun j hj _ => a7 j (by omega)
  have hbuf : t1.getDirty x.no = some s.left := by
    rw [a2, getDirty_setDirty, if_neg (by omega), getDirty_setDirty, if_pos rfl]
  have hd : deref env t1 x = .ok (slice p x.off x.len) := by
    unfold deref
    rw [hx, if_pos rfl, hbuf, Res.ofOption_some, Res.ok_bind, chk_iff.2 hb, Res.ok_bind, hsl]
  unfold insertHalfFrom insertHalf
  refine bind_congr fun f hfd => ?_
  simp only [Item.key]
  split
  · refine bind_congr fun g _ => ?_
    rw [insertFrom_other (fun _ => by omega) hd (deref_len hd).1]
  · have hi := (probe_bound (by omega) hfd).1
    rw [insertFrom_same hx a3 hi hs hb (by omega) (by rw [a5]; exact hsafe), hsl]

/-- **Storing through a pointer into a page of the transaction.** -/
theorem putFrom_own {al : Alloc} (hal : Extends al) {env : Env} {t : Txn} (hf : t.freeRoot = 0) (h64 : t.newLast + 1 < 2 ^ 64) (h0 : t.root ≠ 0) {key v : Bytes} {x : Ptr}
    (hx : x.dirty = true) (hd : deref env t x = .ok v) (hs : 4 + key.length + x.len < 65536) (hno : Leads env t key) (hle : x.no ≤ t.newLast)
    {p : Page} (hp : t.getDirty x.no = some p) (wf : WF p) (hlf : isLeaf p = true) (hnk : 0 < numKeys p) (hup : upper p ≤ x.off)
    (hsafe : room p < 4 + key.length + x.len + 2 → lowestOf p (numKeys p / 2) ≤ x.off ∨ x.off + x.len + (4 + key.length + x.len) ≤ lowestOf p (numKeys p / 2)) :
    putFrom al env t key x = putWith al env t key v := by
  obtain ⟨hv, hb⟩ := deref_len hd
  have hvs : v = slice p x.off x.len := by
    unfold deref at hd
    rw [hx, if_pos rfl, hp, Res.ofOption_some, Res.ok_bind, chk_iff.2 hb, Res.ok_bind] at hd
    exact (Res.ok.inj hd).symm
  refine putFrom_congr h0 fun hr path leaf f c p1 d hfp hleaf hfd hhit hc hp1 hdel => ?_
  obtain ⟨k1, k2, k3⟩ := cowPath_keep hc
  have kf : c.2.freeRoot = 0 := cowPath_inv (closed_freeRoot env 0) hc hf
  have kl : c.2.newLast = t.newLast := cowPath_last hc
  have hn1 := k1 _ _ hp
  obtain ⟨hb1, -⟩ := probe_bound (by omega) hfd
  have key2 : (x.no = c.1 ∧ d = (St.ok, p) ∧ f.idx ≤ numKeys p) ∨ x.no ≠ c.1 := by
    by_cases hcl : (t.getDirty (path.getLastD 0)).isSome = true
    · obtain ⟨q, hq⟩ := Option.isSome_iff_exists.1 hcl
      have hlk := k2 q hq
      by_cases hnn : x.no = c.1
      · left
        have hqp : q = p := by rw [hnn, hlk, hq] at hp; cases hp; rfl
        have hlp : leaf = p := by
          unfold getPage at hleaf
          rw [if_neg (by rw [hr]; simp), hq] at hleaf
          cases hleaf; exact hqp
        subst hlp
        have hh : f.hit = false := by
          rw [hcl] at hhit; simpa using hhit
        rw [hh] at hdel
        rw [hnn] at hn1; rw [hn1] at hp1; cases hp1
        simp only [Bool.false_eq_true, if_false, Res.ok.injEq] at hdel
        exact ⟨hnn, hdel.symm, hb1⟩
      · exact .inr hnn
    · right
      have hnone : t.getDirty (path.getLastD 0) = none := by simpa using hcl
      obtain ⟨q, hq, hlk⟩ := k3 hnone
      rw [hlk, hno _ hfp hnone _ hq]
      intro hh; rw [hh, hnone] at hp; cases hp
  have hlw := wf.low
  have hgap := wf.gap
  have htop := wf.top
  simp only [hdrSize] at hlw
  rcases key2 with ⟨e, rfl, hi⟩ | hne
  · rw [← e]
    constructor
    · by_cases hroom : room p < 4 + key.length + x.len + 2
      · unfold room at hroom
        have hn : (upper p + 65536 - lower p) % 65536 = upper p - lower p := by
          have : upper p + 65536 - lower p = (upper p - lower p) + 65536 := by omega
          simp only [pageSize] at htop
          rw [this, Nat.add_mod_right, Nat.mod_eq_of_lt (by omega)]
        refine insertFrom_eq hv fun _ hh => ?_
        rw [Nat.mod_eq_of_lt hs, hn] at hh
        omega
      · unfold room at hroom
        rw [hvs]
        exact insertFrom_same hx wf hi hs hb (by omega) (.inl hup)
    · intro q hq sp s hsp
      have hroom : room p < 4 + key.length + x.len + 2 := by
        refine Nat.lt_of_not_le fun hh => ?_
        obtain ⟨q', e', -⟩ := insert_added (it := .leaf key v) wf hi (by rw [hlf]; rfl) (by show 4 + key.length + v.length < _; omega) (by show 0 < _; decide)
          (by show 4 + key.length + v.length + 2 ≤ _; omega)
        have : (Res.ok (St.nospc, q) : Res (St × Page)) = .ok (.ok, q') := hq.symm.trans e'
        cases this
      rw [hvs]
      refine insertHalfFrom_same hal (t := c.2.setDirty x.no p) kf hx (by rw [getDirty_setDirty, if_pos rfl]) wf hlf hnk (by show x.no ≤ c.2.newLast; omega)
        (by show c.2.newLast + 1 < _; omega) hs hb hup (hsafe hroom) ?_
      exact hsp
  · have hk1 : (c.2.setDirty c.1 d.2).getDirty x.no = t.getDirty x.no := by
      rw [getDirty_setDirty, if_neg hne, hn1, hp]
    refine ⟨insertFrom_other (fun _ => hne) ((deref_own hx hk1).trans hd) hv _ _ _, fun q _ sp s hsp => ?_⟩
    obtain ⟨hfr, hsn⟩ := splitTxn_frame hal (t := c.2.setDirty c.1 d.2) kf hne (by show x.no ≤ c.2.newLast; omega) hsp
    exact insertHalfFrom_other (fun _ => ⟨hne, by rw [hsn s rfl]; show x.no ≠ c.2.newLast + 1; omega⟩) ((deref_own hx (hfr.page.trans hk1)).trans hd)

end Verif.Db
